import Verif.Dex.Model
import Verif.Ledger.Live
import Mathlib.Tactic.Ring
import Mathlib.Tactic.Linarith

/-! Lemmas about the exchange. -/
namespace Verif.Dex

open Verif.Account Verif.Ledger

theorem Res.bind_ok {α β : Type} {r : Res α} {f : α → Res β} {y : β} (h : r.bind f = .ok y) : ∃ x, r = .ok x ∧ f x = .ok y := by
  cases r with
  | ok a => exact ⟨a, rfl, h⟩
  | fail => cases h
  | crash => cases h

theorem Res.bind_crash {α β : Type} {r : Res α} {f : α → Res β} (h : r.bind f = .crash) : r = .crash ∨ ∃ x, r = .ok x ∧ f x = .crash := by
  cases r with
  | ok a => exact Or.inr ⟨a, rfl, h⟩
  | fail => cases h
  | crash => exact Or.inl rfl

/-- 2^63. -/
def H63 : Nat := 9223372036854775808

/-! ## Orders -/

/-- What an order may still spend. -/
def leftAmt (o : Order) : Int := if o.buy then (o.coinAmt : Int) - o.dealCoin else (o.assetAmt : Int) - o.dealAsset

/-- What an order may still spend, by account and symbol. -/
def owes (o : Order) (r : Ref) (s : Sym) : Int := if r = o.owner ∧ s = frozenSym o then leftAmt o else 0

structure OrderOk (S : Finset Ref) (o : Order) : Prop where
  owner : o.owner ∈ S
  coinLt : o.coinAmt < H63
  assetLt : o.assetAmt < H63
  buy : o.buy = true → o.dealCoin ≤ o.coinAmt
  limit : o.buy = true → o.limit = true →
    o.dealAsset ≤ o.assetAmt ∧ o.coinAmt = o.assetAmt * o.price / boost ∧ o.dealCoin * boost ≤ o.dealAsset * o.price
  sell : o.buy = false → o.dealAsset ≤ o.assetAmt

theorem OrderOk.left_nonneg {S : Finset Ref} {o : Order} (h : OrderOk S o) : 0 ≤ leftAmt o := by
  unfold leftAmt
  cases hb : o.buy with
  | true => have := h.buy hb; simp; omega
  | false => have := h.sell hb; simp; omega

/-- What holds between transactions. -/
structure Inv (S : Finset Ref) (σ : State) : Prop where
  wf : WF σ.mem
  sorted : SortedBy ltN σ.orders
  ok : ∀ id o, find σ.orders id = some o → OrderOk S o
  frozen : ∀ r s, (bal σ.mem r s .frozen : Int) = ssum (fun _ o => owes o r s) σ.orders

theorem ltN_total : StrictTotal ltN := natLt_total

/-- The supply fits in a signed number. -/
def Bounded (m : Mem) (S : Finset Ref) : Prop := ∀ s, total m s S < H63

theorem bal_le_total {m : Mem} {S : Finset Ref} {r : Ref} (h : r ∈ S) (s : Sym) (b : Bucket) : bal m r s b ≤ total m s S := by
  have := holding_le_total (m := m) (s := s) h
  unfold holding at this
  cases b <;> omega

theorem ssum_owes_nonneg {S : Finset Ref} (r : Ref) (s : Sym) : ∀ {l : List (Nat × Order)}, (∀ p ∈ l, OrderOk S p.2) →
    0 ≤ ssum (fun _ o => owes o r s) l
  | [], _ => by simp [ssum]
  | p :: l, h => by
    have h1 := ssum_owes_nonneg r s (l := l) (fun q hq => h q (List.mem_cons_of_mem _ hq))
    have h2 := (h p (List.mem_cons_self ..)).left_nonneg
    simp only [ssum, owes] at *
    split <;> omega

theorem Inv.mem_ok {S : Finset Ref} {σ : State} (h : Inv S σ) : ∀ p ∈ σ.orders, OrderOk S p.2 := by
  intro p hp
  exact h.ok p.1 p.2 ((mem_iff_find ltN_total h.sorted p.1 p.2).1 hp)

/-- The frozen balance covers one order. -/
theorem Inv.covers {S : Finset Ref} {σ : State} (h : Inv S σ) {id : Nat} {o : Order} (hf : find σ.orders id = some o) :
    leftAmt o ≤ bal σ.mem o.owner (frozenSym o) .frozen := by
  rw [h.frozen]
  have h1 := ssum_del ltN_total (fun _ o' => owes o' o.owner (frozenSym o)) h.sorted id
  have h2 := ssum_owes_nonneg (S := S) o.owner (frozenSym o) (l := del σ.orders id) (fun p hp => h.mem_ok p (mem_del hp))
  rw [at0_some hf] at h1
  have : owes o o.owner (frozenSym o) = leftAmt o := by simp [owes]
  omega

/-- Two different orders are covered together. -/
theorem Inv.covers_two {S : Finset Ref} {σ : State} (h : Inv S σ) {id id' : Nat} {o o' : Order} (hne : id' ≠ id)
    (hf : find σ.orders id = some o) (hf' : find σ.orders id' = some o') (r : Ref) (s : Sym) :
    owes o r s + owes o' r s ≤ bal σ.mem r s .frozen := by
  rw [h.frozen]
  have h1 := ssum_del ltN_total (fun _ o' => owes o' r s) h.sorted id
  have h3 := ssum_del ltN_total (fun _ o' => owes o' r s) (sorted_del h.sorted id) id'
  have h2 := ssum_owes_nonneg (S := S) r s (l := del (del σ.orders id) id') (fun p hp => h.mem_ok p (mem_del (mem_del hp)))
  rw [at0_some hf] at h1
  rw [at0_some (v := o') (by rw [find_del, if_neg hne]; exact hf')] at h3
  omega

/-! ## Amounts -/

theorem amountOk_lt {s : Sym} {a : Nat} (h : amountOk s a = true) (ha : a < U64) : a < H63 := by
  simp only [amountOk, i64, Bool.and_eq_true, decide_eq_true_eq] at h
  unfold U64 at ha
  unfold H63
  by_cases h1 : a < 9223372036854775808
  · exact h1
  · have := h.1.2
    simp only [h1, if_false] at this
    have := of_decide_eq_true this
    omega

theorem calcCoin_ok {a p v : Nat} (h : calcCoin a p = .ok v) : v = a * p / boost ∧ v < U64 := by
  unfold calcCoin at h
  split at h
  · rename_i h1
    cases h
    exact ⟨rfl, by unfold U64; omega⟩
  · cases h

theorem i64_sub_zero {x y : Nat} (hx : x < U64) (hy : y < U64) (h : i64 (wsub x y) = 0) : y = x := by
  unfold i64 wsub U64 at *
  split at h <;> omega

/-! ## Placing -/

theorem checkPlace_some {c : Ctx} {who r : Ref} {p : Place} (h : checkPlace c who p = some r) :
    (p.type = 1 ∨ p.type = 2) ∧ (p.side = 1 ∨ p.side = 2) ∧ p.coin ≠ p.asset ∧ amountsOk p = true ∧ priceOk p = true ∧
    (∃ o, c.opers p.dex = some o ∧ o.active = true ∧ o.recv = some r) ∧ cfgOk who r p.cfg = true := by
  unfold checkPlace at h
  split at h
  · rename_i h1
    split at h
    · cases h
    · rename_i o ho
      split at h
      · rename_i ha
        split at h
        · cases h
        · rename_i r' hr
          split at h
          · rename_i hc
            cases h
            exact ⟨h1.1, h1.2.1, h1.2.2.1, h1.2.2.2.2.2.1, h1.2.2.2.2.2.2, ⟨o, ho, ha, hr⟩, hc⟩
          · cases h
      · cases h
  · cases h

theorem create_ok {l l' : List (Nat × Order)} {id : Nat} {o : Order} (h : create l id o = .ok l') : find l id = none ∧ l' = put ltN l id o := by
  unfold create at h
  split at h
  · cases h
  · rename_i hn
    cases h
    exact ⟨hn, rfl⟩

/-- The coins of the order stored. -/
def placeCoin (p : Place) : Nat := if p.type = 1 ∧ p.side = 1 then p.assetAmt * p.price / boost else p.coinAmt

/-- The request freezing the funds. -/
def lockReq (who : Ref) (p : Place) : Req :=
  if p.side = 1 then ⟨who, p.coin, .freeze, placeCoin p, none⟩ else ⟨who, p.asset, .freeze, p.assetAmt, none⟩

theorem place_ok {c : Ctx} {σ σ' : State} {id : Nat} {who : Ref} {p : Place} (h : place c σ id who p = .ok σ') :
    ∃ r, checkPlace c who p = some r ∧ (p.type = 1 ∧ p.side = 1 → p.assetAmt * p.price / boost < 18446744073709551615) ∧
      execAll σ.mem (operFee p r ++ [lockReq who p]) = some σ'.mem ∧ find σ.orders id = none ∧
      σ'.orders = put ltN σ.orders id (newOrder c who p (placeCoin p)) := by
  unfold place at h
  cases hc : checkPlace c who p with
  | none => rw [hc] at h; cases h
  | some r =>
    rw [hc] at h; dsimp only at h
    cases h1 : execAll σ.mem (operFee p r) with
    | none => rw [h1] at h; cases h
    | some m1 =>
      rw [h1] at h; dsimp only at h
      obtain ⟨ca, hca, h⟩ := Res.bind_ok h
      have hce : ca = placeCoin p ∧ (p.type = 1 ∧ p.side = 1 → p.assetAmt * p.price / boost < 18446744073709551615) := by
        unfold placeCoin
        by_cases k : p.type = 1 ∧ p.side = 1
        · rw [if_pos k] at hca ⊢
          refine ⟨(calcCoin_ok hca).1, fun _ => ?_⟩
          unfold calcCoin at hca
          split at hca
          · assumption
          · cases hca
        · rw [if_neg k] at hca ⊢
          cases hca
          exact ⟨rfl, fun h => absurd h k⟩
      obtain ⟨rfl, hb⟩ := hce
      have hreq : (if p.side = 1 then (⟨who, p.coin, .freeze, placeCoin p, none⟩ : Req) else ⟨who, p.asset, .freeze, p.assetAmt, none⟩)
          = lockReq who p := rfl
      rw [hreq] at h
      cases h2 : opBal m1 (lockReq who p) with
      | none => rw [h2] at h; cases h
      | some m2 =>
        rw [h2] at h; dsimp only at h
        obtain ⟨l, hl, h⟩ := Res.bind_ok h
        cases h
        obtain ⟨hn, rfl⟩ := create_ok hl
        exact ⟨r, rfl, hb, execAll_trans h1 (execAll_one h2), hn, rfl⟩

/-! ## Deals -/

theorem subFee_ok {x f y : Nat} (h : subFee x f = .ok y) : f < x ∧ y = x - f := by
  unfold subFee at h
  split at h
  · cases h
  · cases h; exact ⟨by omega, rfl⟩

theorem byRatio_ok {a r b v : Nat} (h : byRatio a r b = .ok v) : v = a * r / b := by
  unfold byRatio at h
  split at h
  · cases h; rfl
  · cases h

theorem matchFee_ok {o : Order} {op : Oper} {t : Bool} {a v : Nat} (h : matchFee o op t a = .ok v) :
    (if t then (paramsOf o op).taker else (paramsOf o op).maker) ≤ maxFeeRatio ∧
    v = a * (if t then (paramsOf o op).taker else (paramsOf o op).maker) / boost := by
  unfold matchFee at h
  dsimp only at h
  generalize (if t = true then (paramsOf o op).taker else (paramsOf o op).maker) = ratio at *
  split at h
  · cases h
  · rename_i h1
    exact ⟨by omega, byRatio_ok h⟩

/-- The friction fee of an amount. -/
def frictionOf (friction : Option Nat) (fr : Bool) (amount : Nat) : Nat := if fr then amount * friction.getD 0 / ratioBoost else 0

theorem fees_ok {b s : Order} {bo so : Oper} {fr : Option Nat} {on tb : Bool} {d : Deal} {f : Fees}
    (h : fees b s bo so fr on tb d = .ok f) :
    f.coinFriction = frictionOf fr on d.coin ∧ f.assetFriction = frictionOf fr on d.asset ∧
    f.coinMatch = (d.coin - f.coinFriction) * (if tb then (paramsOf s so).maker else (paramsOf s so).taker) / boost ∧
    f.assetMatch = (d.asset - f.assetFriction) * (if tb then (paramsOf b bo).taker else (paramsOf b bo).maker) / boost ∧
    f.coinFriction + f.coinMatch < d.coin ∧ f.assetFriction + f.assetMatch < d.asset := by
  unfold fees at h
  obtain ⟨x, hx, h⟩ := Res.bind_ok h
  obtain ⟨am, h1, h⟩ := Res.bind_ok h
  obtain ⟨y1, h2, h⟩ := Res.bind_ok h
  obtain ⟨cm, h3, h⟩ := Res.bind_ok h
  obtain ⟨y2, h4, h⟩ := Res.bind_ok h
  cases h
  obtain ⟨-, h1⟩ := matchFee_ok h1
  obtain ⟨-, h3⟩ := matchFee_ok h3
  obtain ⟨h2, -⟩ := subFee_ok h2
  obtain ⟨h4, -⟩ := subFee_ok h4
  have hx' : x.1 = frictionOf fr on d.coin ∧ x.2.1 = d.coin - x.1 ∧ x.2.2.1 = frictionOf fr on d.asset ∧ x.2.2.2 = d.asset - x.2.2.1 := by
    unfold frictions at hx
    cases on with
    | false => simp only [Bool.false_eq_true, if_false] at hx; cases hx; simp [frictionOf]
    | true =>
      simp only [if_true] at hx
      cases fr with
      | none => cases hx
      | some ratio =>
        dsimp only at hx
        obtain ⟨cf, k1, hx⟩ := Res.bind_ok hx
        obtain ⟨rc, k2, hx⟩ := Res.bind_ok hx
        obtain ⟨af, k3, hx⟩ := Res.bind_ok hx
        obtain ⟨ra, k4, hx⟩ := Res.bind_ok hx
        cases hx
        obtain ⟨-, k2⟩ := subFee_ok k2
        obtain ⟨-, k4⟩ := subFee_ok k4
        exact ⟨byRatio_ok k1, k2, byRatio_ok k3, k4⟩
  obtain ⟨e1, e2, e3, e4⟩ := hx'
  refine ⟨e1, e3, ?_, ?_, ?_, ?_⟩
  · dsimp only; rw [h3, e2]; cases tb <;> rfl
  · dsimp only; rw [h1, e4]
  · dsimp only; omega
  · dsimp only; omega

/-- What the checks of a deal establish. -/
structure PrepOk (c : Ctx) (σ : State) (d : Deal) (p : Prep) (b s : Order) (bo so : Oper) : Prop where
  hb : find σ.orders d.buyId = some b
  bBuy : b.buy = true
  hs : find σ.orders d.sellId = some s
  sSell : s.buy = false
  operB : c.opers b.dex = some bo
  recvB : bo.recv = some p.buyOp
  operS : c.opers s.dex = some so
  recvS : so.recv = some p.sellOp
  bp : c.bp = some p.bp
  coin : b.coin = s.coin
  asset : b.asset = s.asset
  price : priceMatch b s d.price = true
  opened : openOk b s bo so (takerBuys b s) = true
  calcLt : d.asset * d.price / boost < 18446744073709551615
  amount : coinMatch b (d.asset * d.price / boost) d.coin d.price = .ok true
  b' : p.b = { b with dealCoin := wadd b.dealCoin d.coin, dealAsset := wadd b.dealAsset d.asset }
  s' : p.s = { s with dealCoin := wadd s.dealCoin d.coin, dealAsset := wadd s.dealAsset d.asset }
  buyLim : if b.limit then wadd b.dealAsset d.asset ≤ b.assetAmt ∧ p.buyLeft = b.assetAmt - wadd b.dealAsset d.asset
    else wadd b.dealCoin d.coin ≤ b.coinAmt ∧ p.buyLeft = b.coinAmt - wadd b.dealCoin d.coin
  sellLim : wadd s.dealAsset d.asset ≤ s.assetAmt ∧ p.sellLeft = s.assetAmt - wadd s.dealAsset d.asset
  fr : p.fr = (s.user && b.user && c.r3)
  fees : fees b s bo so c.friction p.fr (takerBuys b s) d = .ok p.fee

theorem getOrder_some {σ : State} {id : Nat} {buy : Bool} {o : Order} (h : getOrder σ id buy = some o) :
    find σ.orders id = some o ∧ o.buy = buy := by
  unfold getOrder at h
  split at h
  · cases h
  · rename_i o' ho
    split at h
    · rename_i hb; cases h; exact ⟨ho, hb⟩
    · cases h

theorem getOper_some {c : Ctx} {dex : Nat} {o : Oper} {r : Ref} (h : getOper c dex = some (o, r)) :
    c.opers dex = some o ∧ o.recv = some r := by
  unfold getOper at h
  split at h
  · cases h
  · rename_i o' ho
    split at h
    · cases h
    · rename_i r' hr; cases h; exact ⟨ho, hr⟩

theorem prep_ok {c : Ctx} {σ : State} {d : Deal} {p : Prep} (h : prep c σ d = .ok p) : ∃ b s bo so, PrepOk c σ d p b s bo so := by
  unfold prep at h
  split at h
  · rename_i b s hgb hgs
    split at h
    · rename_i bo br so sr bp hbo hso hbp
      dsimp only at h
      split at h
      · cases h
      · rename_i hn
        obtain ⟨cv, hcv, h'⟩ := Res.bind_ok h
        clear h
        obtain ⟨ok, hok, h⟩ := Res.bind_ok h'
        clear h'
        by_cases hokt : ok = false
        · rw [if_pos hokt] at h; cases h
        · rw [if_neg hokt] at h
          have hokt : ok = true := by cases ok <;> simp_all
          subst hokt
          obtain ⟨hcv1, -⟩ := calcCoin_ok hcv
          have hlt : d.asset * d.price / boost < 18446744073709551615 := by
            unfold calcCoin at hcv
            split at hcv
            · assumption
            · cases hcv
          subst hcv1
          obtain ⟨e1, e2⟩ := getOrder_some hgb
          obtain ⟨e3, e4⟩ := getOrder_some hgs
          obtain ⟨e5, e6⟩ := getOper_some hbo
          obtain ⟨e7, e8⟩ := getOper_some hso
          simp only [not_or] at hn
          generalize hlm : (if b.limit = true then b.assetAmt else b.coinAmt) = lim at h
          generalize htt : (if b.limit = true then wadd b.dealAsset d.asset else wadd b.dealCoin d.coin) = tot at h
          split at h
          · cases h
          · rename_i hl
            split at h
            · cases h
            · rename_i hl2
              obtain ⟨f, hf, h⟩ := Res.bind_ok h
              cases h
              refine ⟨b, s, bo, so, e1, e2, e3, e4, e5, e6, e7, e8, hbp, by simpa using hn.1, by simpa using hn.2.1, by simpa using hn.2.2.1,
                by simpa using hn.2.2.2, hlt, hok, rfl, rfl, ?_, ⟨by omega, rfl⟩, rfl, hf⟩
              cases hlim : b.limit with
              | true => simp only [hlim, if_true] at hlm htt ⊢; subst hlm; subst htt; exact ⟨by omega, rfl⟩
              | false => simp only [hlim, Bool.false_eq_true, if_false] at hlm htt ⊢; subst hlm; subst htt; exact ⟨by omega, rfl⟩
    · cases h
  · cases h

theorem deal_ok {c : Ctx} {σ σ' : State} {i : Nat} {d : Deal} (h : deal c σ i d = .ok σ') :
    ∃ p l, prep c σ d = .ok p ∧ execAll σ.mem (dealReqs c.fcoin d p) = some σ'.mem ∧ frictionOrder c i p σ.orders = .ok l ∧
      ¬ (p.buyLeft = 0 ∧ p.b.limit = true ∧ ¬ p.b.coinAmt > p.b.dealCoin ∧ p.b.coinAmt ≠ p.b.dealCoin) ∧
      σ'.orders = store (store l d.buyId p.buyLeft p.b) d.sellId p.sellLeft p.s := by
  unfold deal at h
  obtain ⟨p, hp, h⟩ := Res.bind_ok h
  cases h1 : execAll σ.mem (dealReqs c.fcoin d p) with
  | none => rw [h1] at h; cases h
  | some m =>
    rw [h1] at h; dsimp only at h
    obtain ⟨l, hl, h⟩ := Res.bind_ok h
    split at h
    · cases h
    · rename_i hn
      cases h
      exact ⟨p, l, hp, h1, hl, hn, rfl⟩

/-- The accounts of a context. -/
structure CtxIn (S : Finset Ref) (c : Ctx) : Prop where
  fcoin : c.fcoin ∈ S
  bp : ∀ r, c.bp = some r → r ∈ S
  opers : ∀ dex o r, c.opers dex = some o → o.recv = some r → r ∈ S

/-- The sums of a deal in frozen balances. -/
theorem dealReqs_frozen (fcoin : Ref) (d : Deal) (p : Prep) (r : Ref) (t : Sym) :
    sumReq (reqDelta r t .frozen) (dealReqs fcoin d p) =
      (if r = p.b.owner ∧ t = p.b.coin then -(d.coin : Int) else 0) + (if r = p.s.owner ∧ t = p.s.asset then -(d.asset : Int) else 0) +
      (if p.fr = true ∧ p.fee.coinFriction > 0 ∧ r = fcoin ∧ t = p.s.coin then (p.fee.coinFriction : Int) else 0) +
      (if (p.buyLeft = 0 ∧ p.b.limit = true ∧ p.b.coinAmt > p.b.dealCoin) ∧ r = p.b.owner ∧ t = p.b.coin then
        -((p.b.coinAmt : Int) - p.b.dealCoin) else 0) := by
  have hm : ∀ a t' v, reqDelta r t .frozen ⟨a, t', .freeze, v, none⟩ = if r = a ∧ t = t' then (v : Int) else 0 := by
    intro a t' v
    rw [reqDelta_move (op := .freeze) rfl]; simp [cell]
  have hu : ∀ a t' v, reqDelta r t .frozen ⟨a, t', .unfreeze, v, none⟩ = if r = a ∧ t = t' then -(v : Int) else 0 := by
    intro a t' v
    rw [reqDelta_move (op := .unfreeze) rfl]; simp [cell]
  have hd : ∀ a t' v x, reqDelta r t .frozen ⟨a, t', .dexDeal, v, some x⟩ = if r = a ∧ t = t' then -(v : Int) else 0 := by
    intro a t' v x
    rw [reqDelta_dexDeal]; simp [cell]
  have hs : ∀ a t' v x, reqDelta r t .frozen ⟨a, t', .subFree, v, some x⟩ = 0 := by
    intro a t' v x
    rw [reqDelta_subFree_peer]; simp [cell]
  unfold dealReqs
  simp only [sumReq_append, sumReq_cons, sumReq_nil, hd, hs]
  by_cases k1 : p.fr = true
  · by_cases k2 : p.fee.coinFriction > 0
    · by_cases k3 : p.buyLeft = 0 ∧ p.b.limit = true ∧ p.b.coinAmt > p.b.dealCoin
      · have : ((p.b.coinAmt - p.b.dealCoin : Nat) : Int) = (p.b.coinAmt : Int) - p.b.dealCoin := by omega
        simp [k1, k2, k3, hm, hu, hs, this]
      · simp [k1, k2, k3, hm, hs]
    · by_cases k3 : p.buyLeft = 0 ∧ p.b.limit = true ∧ p.b.coinAmt > p.b.dealCoin
      · have : ((p.b.coinAmt - p.b.dealCoin : Nat) : Int) = (p.b.coinAmt : Int) - p.b.dealCoin := by omega
        simp [k1, k2, k3, hu, hs, this]
      · simp [k1, k2, k3, hs]
  · by_cases k3 : p.buyLeft = 0 ∧ p.b.limit = true ∧ p.b.coinAmt > p.b.dealCoin
    · have : ((p.b.coinAmt - p.b.dealCoin : Nat) : Int) = (p.b.coinAmt : Int) - p.b.dealCoin := by omega
      simp [k1, k3, hu, this]
    · simp [k1, k3]

theorem dealReqs_in {S : Finset Ref} {c : Ctx} {σ : State} {d : Deal} {p : Prep} {b s : Order} {bo so : Oper} (hI : Inv S σ) (hc : CtxIn S c)
    (h : PrepOk c σ d p b s bo so) (hd : d.coin < U64 ∧ d.asset < U64) :
    (∀ q ∈ dealReqs c.fcoin d p, q.Within S ∧ Plain q) ∧ (∀ t, mintedAll t (dealReqs c.fcoin d p) = 0 ∧ burnedAll t (dealReqs c.fcoin d p) = 0) := by
  have hbo := (hI.ok _ _ h.hb)
  have hso := (hI.ok _ _ h.hs)
  have e1 : p.b.owner = b.owner := by rw [h.b']
  have e2 : p.s.owner = s.owner := by rw [h.s']
  have e3 : p.b.coinAmt = b.coinAmt := by rw [h.b']
  have o1 : p.b.owner ∈ S := by rw [e1]; exact hbo.owner
  have o2 : p.s.owner ∈ S := by rw [e2]; exact hso.owner
  have o3 : p.buyOp ∈ S := hc.opers _ _ _ h.operB h.recvB
  have o4 : p.sellOp ∈ S := hc.opers _ _ _ h.operS h.recvS
  have o5 : p.bp ∈ S := hc.bp _ h.bp
  obtain ⟨-, -, -, -, f1, f2⟩ := fees_ok h.fees
  have hca := hbo.coinLt
  unfold H63 at hca
  have hU : U64 = 18446744073709551616 := rfl
  constructor
  · intro q hq
    unfold dealReqs at hq
    simp only [List.mem_append, List.mem_cons, List.not_mem_nil, or_false] at hq
    rcases hq with (((hq | hq) | hq) | (hq | hq)) | hq
    · subst hq; exact ⟨⟨o1, by simpa using o2, hd.1⟩, by simp [Plain]⟩
    · subst hq; exact ⟨⟨o2, by simpa using o1, hd.2⟩, by simp [Plain]⟩
    · split at hq
      · rcases List.mem_append.1 hq with hq | hq
        · split at hq
          · simp only [List.mem_cons, List.not_mem_nil, or_false] at hq
            rcases hq with hq | hq <;> subst hq
            · exact ⟨⟨o2, by simpa using hc.fcoin, by dsimp only; omega⟩, by simp [Plain]⟩
            · exact ⟨⟨hc.fcoin, by simp, by dsimp only; omega⟩, by simp [Plain]⟩
          · simp at hq
        · simp only [List.mem_cons, List.not_mem_nil, or_false] at hq
          subst hq
          exact ⟨⟨o1, by simpa using o5, by dsimp only; omega⟩, by simp [Plain]⟩
      · simp at hq
    · subst hq; exact ⟨⟨o2, by simpa using o4, by dsimp only; omega⟩, by simp [Plain]⟩
    · subst hq; exact ⟨⟨o1, by simpa using o3, by dsimp only; omega⟩, by simp [Plain]⟩
    · split at hq
      · simp only [List.mem_cons, List.not_mem_nil, or_false] at hq
        subst hq
        exact ⟨⟨o1, by simp, by dsimp only; omega⟩, by simp [Plain]⟩
      · simp at hq
  · intro t
    unfold dealReqs
    constructor
    · simp only [mintedAll_append, mintedAll_cons, mintedAll_nil]
      (repeat' split) <;> simp [minted]
    · simp only [burnedAll_append, burnedAll_cons, burnedAll_nil]
      (repeat' split) <;> simp [burned]

/-- What the success of the two exchanges of a deal says about its amounts. -/
theorem deal_amounts {S : Finset Ref} {c : Ctx} {σ : State} {m' : Mem} {d : Deal} {p : Prep} {b s : Order} {bo so : Oper} (hI : Inv S σ)
    (hB : Bounded σ.mem S) (h : PrepOk c σ d p b s bo so) (hd : d.coin < U64 ∧ d.asset < U64)
    (he : execAll σ.mem (dealReqs c.fcoin d p) = some m') : d.coin < H63 ∧ d.asset < H63 := by
  have hbo := (hI.ok _ _ h.hb).owner
  have hso := (hI.ok _ _ h.hs).owner
  have e1 : p.b.owner = b.owner := by rw [h.b']
  have e2 : p.s.owner = s.owner := by rw [h.s']
  obtain ⟨m1, h1, he⟩ := execAll_cons_some (q := ⟨p.b.owner, p.b.coin, .dexDeal, d.coin, some p.s.owner⟩)
    (by unfold dealReqs at he; exact he)
  obtain ⟨m2, h2, -⟩ := execAll_cons_some (q := ⟨p.s.owner, p.s.asset, .dexDeal, d.asset, some p.b.owner⟩) (by exact he)
  have a1 := (operate_never_overdraws _ _ _ _ _ _ _ (opBal_some h1)).1 .frozen rfl
  have a2 := (operate_never_overdraws _ _ _ _ _ _ _ (opBal_some h2)).1 .frozen rfl
  dsimp only at a1 a2
  have t0 := fun t => hB t
  unfold H63 at *
  have hx := execAll_exact S [⟨p.b.owner, p.b.coin, .dexDeal, d.coin, some p.s.owner⟩] σ.mem m1 hI.wf
    (by intro q hq; simp only [List.mem_cons, List.not_mem_nil, or_false] at hq; subst hq; exact ⟨by dsimp only; rw [e1]; exact hbo, by rw [e2]; simpa using hso, hd.1⟩)
    (by intro t; have := t0 t; simp only [mintedAll_cons, minted, mintedAll_nil]; simp; unfold U64; omega) (execAll_one h1)
  have b1 := bal_le_total (m := σ.mem) (r := p.b.owner) (S := S) (by rw [e1]; exact hbo) p.b.coin .frozen
  have b2 := bal_le_total (m := m1) (r := p.s.owner) (S := S) (by rw [e2]; exact hso) p.s.asset .frozen
  have t1 := hx.2.2 p.s.asset
  have t2 := t0 p.b.coin
  have t3 := t0 p.s.asset
  simp [minted, burned] at t1
  omega

end Verif.Dex
