import Verif.Dex.Live

/-!
# What holds of the exchange

A state is *reachable* if it arises from one without orders and frozen funds by any sequence of orders, cancellations, settlements,
system orders and other balance operations, while every supply stays below 2^63.
-/
namespace Verif.Dex

open Verif.Account Verif.Ledger

/-! ## Specification -/

/-- What the order may still spend of token `s` held by `r`: a buyer the coins set aside and not yet paid, a seller the assets
not yet sold. -/
def spendable (r : Ref) (s : Sym) (o : Order) : Int :=
  if r = o.owner then
    if o.buy = true then (if s = o.coin then (o.coinAmt : Int) - o.dealCoin else 0)
    else (if s = o.asset then (o.assetAmt : Int) - o.dealAsset else 0)
  else 0

/-- Nothing frozen, no orders. -/
def Fresh (σ : State) : Prop := WF σ.mem ∧ σ.orders = [] ∧ ∀ r s, bal σ.mem r s .frozen = 0

/-- Reachable with accounts in `S`. -/
def Reach (S : Finset Ref) (σ : State) : Prop :=
  ∃ σ0 es, Fresh σ0 ∧ (∀ e ∈ es, Ev.In S e) ∧ (∀ s, total σ0.mem s S + mintSum s es < H63) ∧ run σ0 es = some σ

theorem owes_eq (r : Ref) (s : Sym) (o : Order) : owes o r s = spendable r s o := by
  unfold owes spendable frozenSym leftAmt
  cases o.buy <;> by_cases h : r = o.owner <;> simp [h]

theorem ssum_eq (r : Ref) (s : Sym) : ∀ l : List (Nat × Order), ssum (fun _ o => owes o r s) l = (l.map fun e => spendable r s e.2).sum
  | [] => rfl
  | p :: l => by
    have := ssum_eq r s l
    simp only [ssum, List.map_cons, List.sum_cons, owes_eq] at this ⊢
    rw [this]

theorem reach_inv {S : Finset Ref} {σ : State} (h : Reach S σ) : Inv S σ ∧ Bounded σ.mem S := by
  obtain ⟨σ0, es, ⟨hw, ho, hz⟩, hin, hB, hr⟩ := h
  have h0 : Inv S σ0 := by
    refine ⟨hw, by rw [ho]; exact List.Pairwise.nil, fun id o hf => ?_, fun r s => ?_⟩
    · rw [ho] at hf; simp at hf
    · rw [ho, hz]; rfl
  obtain ⟨i1, t⟩ := run_inv h0 hin hB hr
  exact ⟨i1, fun s => by have := t s; have := hB s; omega⟩

/-! ## C28: locking and releasing -/

/-- What a new order locks. -/
def locked (p : Place) : Nat :=
  if p.side = 1 then (if p.type = 1 then p.assetAmt * p.price / 100000000 else p.coinAmt) else p.assetAmt

/-- **C28.** Placing an order moves exactly what it can spend from the free to the frozen balance of its owner, charges the operator
the fee it signed, changes no other balance, and adds one order, of the sender, able to spend exactly that. -/
theorem place_locks_exactly {S : Finset Ref} {σ σ' : State} {c : Ctx} {id : Nat} {who : Ref} {p : Place} (hR : Reach S σ)
    (hin : Ev.In S (.place c id who p)) (h : place c σ id who p = .ok σ') :
    ∃ o oper r, c.opers p.dex = some oper ∧ oper.recv = some r ∧
      (∀ x t b, (bal σ'.mem x t b : Int) = bal σ.mem x t b +
        cell x t b who (if p.side = 1 then p.coin else p.asset) .free (-(locked p : Int)) +
        cell x t b who (if p.side = 1 then p.coin else p.asset) .frozen (locked p) +
        cell x t b r p.feeSym .free (-((match p.cfg with | some k => k.txFee | none => 0 : Nat) : Int))) ∧
      find σ.orders id = none ∧ find σ'.orders id = some o ∧ (∀ k, k ≠ id → find σ'.orders k = find σ.orders k) ∧
      o.owner = who ∧ o.user = true ∧
      (∀ x t, spendable x t o = if x = who ∧ t = (if p.side = 1 then p.coin else p.asset) then (locked p : Int) else 0) := by
  obtain ⟨hI, hB⟩ := reach_inv hR
  obtain ⟨r, hk, -, -, hx, hn, ho⟩ := place_inv hI hB hin h
  obtain ⟨ht, hs, -, ha, -, ⟨op, hop, -, hrv⟩, -⟩ := checkPlace_some hk
  refine ⟨newOrder c who p (placeCoin p), op, r, hop, hrv, fun x t b => ?_, hn, by rw [ho, find_put, if_pos rfl], fun k hk => by
    rw [ho, find_put, if_neg hk], rfl, rfl, fun x t => ?_⟩
  · rw [hx, sumReq_append]
    have e1 : sumReq (reqDelta x t b) (operFee p r) =
        cell x t b r p.feeSym .free (-((match p.cfg with | some k => k.txFee | none => 0 : Nat) : Int)) := by
      unfold operFee
      cases p.cfg with
      | none => simp [cell]
      | some k =>
        dsimp only
        split
        · rw [sumReq_cons, sumReq_nil, reqDelta_subFree]; omega
        · have : k.txFee = 0 := by omega
          simp [this, cell]
    have e2 : sumReq (reqDelta x t b) [lockReq who p] = cell x t b who (if p.side = 1 then p.coin else p.asset) .free (-(locked p : Int)) +
        cell x t b who (if p.side = 1 then p.coin else p.asset) .frozen (locked p) := by
      rw [sumReq_cons, sumReq_nil]
      unfold lockReq locked placeCoin boost
      rcases hs with h1 | h1 <;> rcases ht with h2 | h2 <;> simp [h1, h2, reqDelta_move (op := .freeze) rfl]
    rw [e1, e2]; omega
  · rw [← owes_eq, newOrder_owes hs, sumReq_cons, sumReq_nil]
    unfold lockReq locked placeCoin boost
    rcases hs with h1 | h1 <;> rcases ht with h2 | h2 <;> simp [h1, h2, reqDelta_freeze]

/-- **C28.** A system order locks exactly what it can spend, of the reserve account. -/
theorem system_order_locks_exactly {S : Finset Ref} {σ σ' : State} {c : Ctx} {id : Nat} {buy : Bool} {coin asset : Sym} {a : Nat}
    (hR : Reach S σ) (hin : Ev.In S (.sys c id buy coin asset a)) (h : sysPlace c σ id buy coin asset a = .ok σ') :
    ∃ o, (∀ x t b, (bal σ'.mem x t b : Int) = bal σ.mem x t b + cell x t b c.fcoin (if buy then coin else asset) .free (-(a : Int)) +
        cell x t b c.fcoin (if buy then coin else asset) .frozen a) ∧
      find σ.orders id = none ∧ find σ'.orders id = some o ∧ (∀ k, k ≠ id → find σ'.orders k = find σ.orders k) ∧
      o.owner = c.fcoin ∧ o.user = false ∧ o.limit = false ∧ o.buy = buy ∧ o.coin = coin ∧ o.asset = asset ∧
      (if buy then o.coinAmt = a ∧ o.assetAmt = 0 else o.assetAmt = a ∧ o.coinAmt = 0) := by
  obtain ⟨hI, hB⟩ := reach_inv hR
  unfold sysPlace at h
  cases h1 : opBal σ.mem ⟨c.fcoin, if buy then coin else asset, .freeze, a, none⟩ with
  | none => rw [h1] at h; cases h
  | some m =>
    rw [h1] at h; dsimp only at h
    obtain ⟨l, hl, h⟩ := Res.bind_ok h
    cases h
    obtain ⟨hn, rfl⟩ := create_ok hl
    obtain ⟨-, e, -⟩ := execAll_exact S [_] σ.mem m hI.wf (fun q hq => by
      simp only [List.mem_singleton] at hq; subst hq; exact ⟨hin.1.fcoin, fun p hp => (by cases hp), hin.2⟩)
      (fun s => by have := hB s; unfold H63 at this; simp [minted, U64]; omega) (execAll_one h1)
    refine ⟨_, fun x t b => ?_, hn, by rw [find_put, if_pos rfl], fun k hk => by rw [find_put, if_neg hk], rfl, rfl, rfl, rfl, rfl, rfl, ?_⟩
    · rw [e, sumReq_cons, sumReq_nil, reqDelta_move (op := .freeze) rfl]; omega
    · cases buy <;> simp [sysOrder]

/-- **C28.** Cancelling succeeds exactly for the owner of an open order that a user placed. -/
theorem cancel_succeeds_iff {S : Finset Ref} {σ : State} {id : Nat} {who : Ref} (hR : Reach S σ) :
    (∃ σ', cancel σ id who = .ok σ') ↔ id ≠ 0 ∧ ∃ o, find σ.orders id = some o ∧ o.user = true ∧ o.owner = who := by
  obtain ⟨hI, hB⟩ := reach_inv hR
  constructor
  · rintro ⟨σ', h⟩
    obtain ⟨h0, o, hf, hu, hw, -⟩ := cancel_ok h
    exact ⟨h0, o, hf, hu, hw.symm⟩
  · rintro ⟨h0, o, hf, hu, rfl⟩
    obtain ⟨σ', h⟩ := release_succeeds hI hf
    refine ⟨σ', ?_⟩
    unfold cancel
    rw [if_neg h0, hf]
    simp [hu, h]

/-- **C28.** A cancellation moves exactly the unspent part back to the free balance of the owner, changes no other balance, and
removes the order and no other. -/
theorem cancel_returns_the_rest {S : Finset Ref} {σ σ' : State} {id : Nat} {who : Ref} (hR : Reach S σ) (h : cancel σ id who = .ok σ') :
    ∃ o, find σ.orders id = some o ∧ o.owner = who ∧
      (∀ x t b, (bal σ'.mem x t b : Int) = bal σ.mem x t b +
        cell x t b who (if o.buy then o.coin else o.asset) .free (spendable who (if o.buy then o.coin else o.asset) o) +
        cell x t b who (if o.buy then o.coin else o.asset) .frozen (-spendable who (if o.buy then o.coin else o.asset) o)) ∧
      find σ'.orders id = none ∧ (∀ k, k ≠ id → find σ'.orders k = find σ.orders k) ∧ ∀ w, ∀ τ, cancel σ' id w ≠ .ok τ := by
  obtain ⟨hI, hB⟩ := reach_inv hR
  obtain ⟨h0, o, hf, hu, hw, hr⟩ := cancel_ok h
  obtain ⟨-, -, ho, hx⟩ := release_inv hI hB hf hr
  have hgone : find σ'.orders id = none := by rw [ho, find_del, if_pos rfl]
  refine ⟨o, hf, hw.symm, fun x t b => ?_, hgone, fun k hk => by rw [ho, find_del, if_neg hk], fun w τ hc => ?_⟩
  · rw [hx, reqDelta_move (op := .unfreeze) rfl, frozenAmt_eq (hI.ok _ _ hf), ← owes_eq, hw]
    have : owes o o.owner (frozenSym o) = leftAmt o := by simp [owes]
    have e : (if o.buy = true then o.coin else o.asset) = frozenSym o := rfl
    rw [e, this]; omega
  · obtain ⟨-, o', hf', -⟩ := cancel_ok hc
    rw [hgone] at hf'; cases hf'

/-! ## C31: frozen balances and open orders -/

/-- **C31.** In every reachable state every account's frozen amount of every token is exactly what its open orders can still spend,
and no order is filled beyond its size. -/
theorem frozen_is_what_orders_can_spend {S : Finset Ref} {σ : State} (hR : Reach S σ) :
    (∀ r s, (bal σ.mem r s .frozen : Int) = (σ.orders.map fun e => spendable r s e.2).sum) ∧
    (∀ id o, find σ.orders id = some o →
      (o.buy = true → o.dealCoin ≤ o.coinAmt ∧ (o.limit = true → o.dealAsset ≤ o.assetAmt)) ∧ (o.buy = false → o.dealAsset ≤ o.assetAmt)) := by
  obtain ⟨hI, -⟩ := reach_inv hR
  refine ⟨fun r s => by rw [hI.frozen, ssum_eq], fun id o hf => ?_⟩
  have := hI.ok _ _ hf
  exact ⟨fun h => ⟨this.buy h, fun h' => (this.limit h h').1⟩, this.sell⟩

/-- **C31.** Governance can release any open user order. -/
theorem gov_cancel_succeeds_iff {S : Finset Ref} {σ : State} {id : Nat} (hR : Reach S σ) :
    (∃ σ', govCancel σ id = .ok σ') ↔ id ≠ 0 ∧ ∃ o, find σ.orders id = some o ∧ o.user = true := by
  obtain ⟨hI, hB⟩ := reach_inv hR
  constructor
  · rintro ⟨σ', h⟩
    obtain ⟨h0, o, hf, hu, -⟩ := govCancel_ok h
    exact ⟨h0, o, hf, hu⟩
  · rintro ⟨h0, o, hf, hu⟩
    obtain ⟨σ', h⟩ := release_succeeds hI hf
    refine ⟨σ', ?_⟩
    unfold govCancel
    rw [if_neg h0, hf]
    simp [hu, h]

/-- **C31.** A deal that passes the checks on orders, prices and fees never fails for lack of funds. -/
theorem checked_deal_is_executed {S : Finset Ref} {c : Ctx} {σ : State} {i : Nat} {d : Deal} (hR : Reach S σ) (hc : CtxIn S c)
    (hk : ∀ a ∈ S, ∀ b ∈ S, (σ.mem a).keyid = (σ.mem b).keyid → a = b) (hd : d.coin < 9223372036854775808 ∧ d.asset < 9223372036854775808)
    (hne : d.buyId ≠ d.sellId) (hs : find σ.orders (c.sysId i) = none) (hp : ∃ p, prep c σ d = .ok p) :
    ∃ σ', deal c σ i d = .ok σ' := by
  obtain ⟨hI, hB⟩ := reach_inv hR
  obtain ⟨p, hp⟩ := hp
  exact deal_succeeds hI hc hB hk hd hne hp hs

/-! ## C29: settlement -/

/-- **C29.** A settlement leaves the total of every token over all accounts unchanged. -/
theorem settle_conserves {S : Finset Ref} {c : Ctx} {σ σ' : State} {who : Ref} {ds : List Deal} (hR : Reach S σ)
    (hin : Ev.In S (.settle c who ds)) (h : settle c σ who ds = .ok σ') (t : Sym) : total σ'.mem t S = total σ.mem t S := by
  obtain ⟨hI, hB⟩ := reach_inv hR
  obtain ⟨-, -, -, hall, hds⟩ := settle_ok h
  exact (deals_inv hin.1 hI hB (fun d hd => ⟨hin.2 d hd, dealOk_ne (hall d hd)⟩) hds).2 t

/-- **C29.** Only the match service settles; a settlement has at least one deal, between different orders, of nonzero amounts and price. -/
theorem settle_only_by_matcher {c : Ctx} {σ σ' : State} {who : Ref} {ds : List Deal} (h : settle c σ who ds = .ok σ') :
    who = c.match_ ∧ ds ≠ [] ∧ ∀ d ∈ ds, d.buyId ≠ d.sellId ∧ d.coin ≠ 0 ∧ d.asset ≠ 0 ∧ d.price ≠ 0 := by
  obtain ⟨h1, h2, -, h3, -⟩ := settle_ok h
  refine ⟨h1, h2, fun d hd => ?_⟩
  have := h3 d hd
  simp only [dealOk, Bool.and_eq_true, decide_eq_true_eq] at this
  exact ⟨this.1.1.1.2, this.1.1.2, this.1.2, this.2⟩

/-- The fee ratio that applies to an order: that signed for the order, else that of its operator; taker or maker. -/
def feeRatio (o : Order) (op : Oper) (taker : Bool) : Nat :=
  match o.params with
  | some p => if taker then p.taker else p.maker
  | none => if taker then op.params.taker else op.params.maker

/-- The buyer takes if it came later, or at a market price against a limit price. -/
def buyerTakes (b s : Order) : Prop :=
  (b.limit = false ∧ s.limit = true) ∨ (b.limit = s.limit ∧ ¬ (b.cord.1 < s.cord.1 ∨ (b.cord.1 = s.cord.1 ∧ b.cord.2 < s.cord.2)))

theorem takerBuys_iff (b s : Order) : takerBuys b s = true ↔ buyerTakes b s := by
  unfold takerBuys buyerTakes cordLt
  cases b.limit <;> cases s.limit <;> simp <;> omega

open Classical in
/-- **C29.** An executed deal pays the seller the coins and the buyer the assets, both out of frozen amounts; the seller pays out of
the coins the friction fee to the reserve account, where it is frozen, and the fee of its operator, the buyer out of the assets the
friction fee to the block producer and the fee of its operator; a completed limit buy order returns the coins not needed. Nothing
else changes. -/
theorem deal_moves_exactly {S : Finset Ref} {c : Ctx} {σ σ' : State} {i : Nat} {d : Deal} (hR : Reach S σ) (hc : CtxIn S c)
    (hd : d.coin < U64 ∧ d.asset < U64) (hne : d.buyId ≠ d.sellId) (h : deal c σ i d = .ok σ') :
    ∃ b s bo so br sr bp cf af cm am back,
      find σ.orders d.buyId = some b ∧ b.buy = true ∧ find σ.orders d.sellId = some s ∧ s.buy = false ∧ b.coin = s.coin ∧ b.asset = s.asset ∧
      c.opers b.dex = some bo ∧ bo.recv = some br ∧ c.opers s.dex = some so ∧ so.recv = some sr ∧ c.bp = some bp ∧
      cf = (if b.user = true ∧ s.user = true ∧ c.r3 = true then d.coin * c.friction.getD 0 / 10000 else 0) ∧
      af = (if b.user = true ∧ s.user = true ∧ c.r3 = true then d.asset * c.friction.getD 0 / 10000 else 0) ∧
      cm = (d.coin - cf) * feeRatio s so (decide (¬ buyerTakes b s)) / 100000000 ∧
      am = (d.asset - af) * feeRatio b bo (decide (buyerTakes b s)) / 100000000 ∧
      cf + cm < d.coin ∧ af + am < d.asset ∧
      back = (if b.limit = true ∧ b.dealAsset + d.asset = b.assetAmt then (b.coinAmt : Int) - (b.dealCoin + d.coin) else 0) ∧
      ∀ r t k, (bal σ'.mem r t k : Int) = bal σ.mem r t k
        + cell r t k b.owner b.coin .frozen (-(d.coin : Int) - back) + cell r t k b.owner b.coin .free back
        + cell r t k s.owner b.asset .frozen (-(d.asset : Int))
        + cell r t k s.owner b.coin .free ((d.coin : Int) - cf - cm) + cell r t k b.owner b.asset .free ((d.asset : Int) - af - am)
        + cell r t k c.fcoin b.coin .frozen cf + cell r t k bp b.asset .free af
        + cell r t k sr b.coin .free cm + cell r t k br b.asset .free am := by
  obtain ⟨hI, hB⟩ := reach_inv hR
  obtain ⟨p, l, hp, he, hl, hna, ho⟩ := deal_ok h
  obtain ⟨b, s, bo, so, hk⟩ := prep_ok hp
  obtain ⟨w, ex, tt⟩ := deal_exact hI hc hB hk hd he
  have ham := deal_amounts hI hB hk hd he
  obtain ⟨okb, oks, eb, es, el⟩ := deal_orders hI hk ham
  obtain ⟨f1, f2, f3, f4, f5, f6⟩ := fees_ok hk.fees
  have b1 : p.b.owner = b.owner := by rw [hk.b']
  have b2 : p.b.coin = b.coin := by rw [hk.b']
  have b2a : p.b.asset = b.asset := by rw [hk.b']
  have b3 : p.b.coinAmt = b.coinAmt := by rw [hk.b']
  have b4 : p.b.buy = true := by rw [hk.b']; exact hk.bBuy
  have b5 : p.b.limit = b.limit := by rw [hk.b']
  have s1 : p.s.owner = s.owner := by rw [hk.s']
  have s2 : p.s.asset = b.asset := by rw [hk.s']; exact hk.asset.symm
  have s5 : p.s.coin = b.coin := by rw [hk.s']; exact hk.coin.symm
  have hcb := okb.buy b4
  rw [b3, eb] at hcb
  have hfr : p.fr = true ↔ b.user = true ∧ s.user = true ∧ c.r3 = true := by
    rw [hk.fr]; cases s.user <;> cases b.user <;> cases c.r3 <;> simp
  have hfric : ∀ a, frictionOf c.friction p.fr a = if b.user = true ∧ s.user = true ∧ c.r3 = true then a * c.friction.getD 0 / 10000 else 0 := by
    intro a
    unfold frictionOf ratioBoost
    by_cases q : p.fr = true
    · rw [if_pos q, if_pos (hfr.1 q)]
    · rw [if_neg q, if_neg (fun h => q (hfr.2 h))]
  have hratio : ∀ (o : Order) (op : Oper) (t : Bool), (if t = true then (paramsOf o op).taker else (paramsOf o op).maker) = feeRatio o op t := by
    intro o op t
    unfold paramsOf feeRatio
    cases o.params <;> cases t <;> rfl
  have hback : (p.buyLeft = 0 ∧ b.limit = true) ↔ (b.limit = true ∧ b.dealAsset + d.asset = b.assetAmt) := by
    have := hk.buyLim
    constructor
    · rintro ⟨q1, q2⟩
      rw [if_pos q2] at this
      have e := el q2
      rw [hk.b'] at e
      dsimp only at e
      rw [e] at this
      exact ⟨q2, by omega⟩
    · rintro ⟨q2, q1⟩
      rw [if_pos q2] at this
      have e := el q2
      rw [hk.b'] at e
      dsimp only at e
      rw [e] at this
      exact ⟨by omega, q2⟩
  refine ⟨b, s, bo, so, p.buyOp, p.sellOp, p.bp, p.fee.coinFriction, p.fee.assetFriction, p.fee.coinMatch, p.fee.assetMatch, _,
    hk.hb, hk.bBuy, hk.hs, hk.sSell, hk.coin, hk.asset, hk.operB, hk.recvB, hk.operS, hk.recvS, hk.bp, ?_, ?_, ?_, ?_, f5, f6, rfl, fun r t k => ?_⟩
  · rw [f1, hfric]
  · rw [f2, hfric]
  · rw [f3, boost]
    congr 2
    rw [← hratio]
    by_cases q : buyerTakes b s
    · simp [(takerBuys_iff b s).2 q, q]
    · have : takerBuys b s = false := by
        cases hh : takerBuys b s with
        | false => rfl
        | true => exact absurd ((takerBuys_iff b s).1 hh) q
      simp [this, q]
  · rw [f4, boost]
    congr 2
    rw [← hratio]
    by_cases q : buyerTakes b s
    · simp [(takerBuys_iff b s).2 q, q]
    · have : takerBuys b s = false := by
        cases hh : takerBuys b s with
        | false => rfl
        | true => exact absurd ((takerBuys_iff b s).1 hh) q
      simp [this, q]
  · rw [ex]
    unfold dealReqs
    rw [b1, b2, b2a, b3, b5, s1, s2, s5, eb]
    have hfz : ∀ a v, reqDelta r t k ⟨a, b.coin, .freeze, v, none⟩ = cell r t k a b.coin .free (-v) + cell r t k a b.coin .frozen v := by
      intro a v
      exact reqDelta_move (op := .freeze) rfl r t k a b.coin v
    have huf : ∀ a v, reqDelta r t k ⟨a, b.coin, .unfreeze, v, none⟩ = cell r t k a b.coin .frozen (-v) + cell r t k a b.coin .free v := by
      intro a v
      exact reqDelta_move (op := .unfreeze) rfl r t k a b.coin v
    have hz : p.fr = false → p.fee.coinFriction = 0 ∧ p.fee.assetFriction = 0 := by
      intro q; rw [f1, f2]; simp [frictionOf, q]
    have hbk : sumReq (reqDelta r t k) (if p.buyLeft = 0 ∧ b.limit = true ∧ b.coinAmt > b.dealCoin + d.coin then
        [⟨b.owner, b.coin, .unfreeze, b.coinAmt - (b.dealCoin + d.coin), none⟩] else []) =
        cell r t k b.owner b.coin .frozen (-(if b.limit = true ∧ b.dealAsset + d.asset = b.assetAmt then (b.coinAmt : Int) - (b.dealCoin + d.coin) else 0)) +
        cell r t k b.owner b.coin .free (if b.limit = true ∧ b.dealAsset + d.asset = b.assetAmt then (b.coinAmt : Int) - (b.dealCoin + d.coin) else 0) := by
      by_cases q : p.buyLeft = 0 ∧ b.limit = true
      · have q' := hback.1 q
        by_cases q2 : b.coinAmt > b.dealCoin + d.coin
        · rw [if_pos ⟨q.1, q.2, q2⟩, sumReq_cons, sumReq_nil, huf, if_pos q']
          have : ((b.coinAmt - (b.dealCoin + d.coin) : Nat) : Int) = (b.coinAmt : Int) - (b.dealCoin + d.coin) := by omega
          rw [this]; omega
        · rw [if_neg (fun h => q2 h.2.2), if_pos q']
          have : (b.coinAmt : Int) - (b.dealCoin + d.coin) = 0 := by omega
          simp [this, cell]
      · rw [if_neg (fun h => q ⟨h.1, h.2.1⟩), if_neg (fun h => q (hback.2 h))]
        simp [cell]
    rw [sumReq_append, hbk]
    generalize (if b.limit = true ∧ b.dealAsset + d.asset = b.assetAmt then (b.coinAmt : Int) - (b.dealCoin + d.coin) else 0) = back
    simp only [Int.sub_eq_add_neg, cell_add, cell_neg]
    by_cases k1 : p.fr = true
    · by_cases k2 : p.fee.coinFriction > 0
      · simp only [k1, k2, if_true, sumReq_append, sumReq_cons, sumReq_nil, reqDelta_dexDeal, reqDelta_subFree_peer, hfz, cell_neg]
        omega
      · have : p.fee.coinFriction = 0 := by omega
        simp only [k1, this, if_true, gt_iff_lt, Nat.lt_irrefl, if_false, sumReq_append, sumReq_cons, sumReq_nil, reqDelta_dexDeal,
          reqDelta_subFree_peer, cell_neg, Int.natCast_zero, cell_zero]
        omega
    · obtain ⟨z1, z2⟩ := hz (by simpa using k1)
      simp only [k1, z1, z2, if_false, Bool.false_eq_true, sumReq_append, sumReq_cons, sumReq_nil, reqDelta_dexDeal,
          reqDelta_subFree_peer, cell_neg, Int.natCast_zero, cell_zero]
      omega


/-- **C29.** An executed deal adds its amounts to the two orders; an order so filled is removed. No other order changes, except that
a friction fee of coins becomes a market order of the reserve account. -/
theorem deal_updates_orders {S : Finset Ref} {c : Ctx} {σ σ' : State} {i : Nat} {d : Deal} (hR : Reach S σ) (hc : CtxIn S c)
    (hd : d.coin < U64 ∧ d.asset < U64) (hne : d.buyId ≠ d.sellId) (h : deal c σ i d = .ok σ') :
    ∃ b s, find σ.orders d.buyId = some b ∧ find σ.orders d.sellId = some s ∧
      (find σ'.orders d.buyId = none ∨ ∃ b', find σ'.orders d.buyId = some b' ∧ b'.dealCoin = b.dealCoin + d.coin ∧
        (b.limit = true → b'.dealAsset = b.dealAsset + d.asset)) ∧
      (find σ'.orders d.buyId = none ↔ if b.limit = true then b.dealAsset + d.asset = b.assetAmt else b.dealCoin + d.coin = b.coinAmt) ∧
      (find σ'.orders d.sellId = none ∨ ∃ s', find σ'.orders d.sellId = some s' ∧ s'.dealAsset = s.dealAsset + d.asset) ∧
      (find σ'.orders d.sellId = none ↔ s.dealAsset + d.asset = s.assetAmt) ∧
      (∀ k, k ≠ d.buyId → k ≠ d.sellId → find σ'.orders k = find σ.orders k ∨
        (k = c.sysId i ∧ find σ.orders k = none ∧ b.user = true ∧ s.user = true ∧ find σ'.orders k =
          some ⟨false, false, true, b.coin, "WGRT", d.coin * c.friction.getD 0 / 10000, 0, 0, 0, some ⟨true, 0, 0⟩, c.cord, c.fcoin, 0, 0⟩)) := by
  obtain ⟨hI, hB⟩ := reach_inv hR
  obtain ⟨p, l, hp, he, hl, hna, ho⟩ := deal_ok h
  obtain ⟨b, s, bo, so, hk⟩ := prep_ok hp
  have ham := deal_amounts hI hB hk hd he
  obtain ⟨okb, oks, eb, es, el⟩ := deal_orders hI hk ham
  have hb' := hk.b'
  have hs' := hk.s'
  have hlim := hk.buyLim
  have hsl := hk.sellLim
  have eb2 : wadd b.dealCoin d.coin = b.dealCoin + d.coin := by rw [← eb, hb']
  have es2 : wadd s.dealAsset d.asset = s.dealAsset + d.asset := by rw [← es, hs']
  rw [es2] at hsl
  refine ⟨b, s, hk.hb, hk.hs, ?_, ?_, ?_, ?_, ?_⟩
  · rw [ho, find_store, if_neg hne, find_store, if_pos rfl]
    split
    · exact Or.inl rfl
    · exact Or.inr ⟨p.b, rfl, eb, el⟩
  · rw [ho, find_store, if_neg hne, find_store, if_pos rfl]
    cases hbl : b.limit with
    | true =>
      have := el hbl
      rw [hb'] at this
      dsimp only at this
      rw [if_pos hbl, this] at hlim
      rw [if_pos rfl]
      by_cases q : p.buyLeft = 0
      · rw [if_pos q]; exact ⟨fun _ => by omega, fun _ => rfl⟩
      · rw [if_neg q]; exact ⟨fun h => (by cases h), fun _ => (by omega)⟩
    | false =>
      rw [if_neg (by simp [hbl]), eb2] at hlim
      rw [if_neg (fun h : false = true => Bool.false_ne_true h)]
      by_cases q : p.buyLeft = 0
      · rw [if_pos q]; exact ⟨fun _ => by omega, fun _ => rfl⟩
      · rw [if_neg q]; exact ⟨fun h => (by cases h), fun _ => (by omega)⟩
  · rw [ho, find_store, if_pos rfl]
    split
    · exact Or.inl rfl
    · exact Or.inr ⟨p.s, rfl, es⟩
  · rw [ho, find_store, if_pos rfl]
    by_cases q : p.sellLeft = 0
    · rw [if_pos q]; exact ⟨fun _ => by omega, fun _ => rfl⟩
    · rw [if_neg q]; exact ⟨fun h => (by cases h), fun _ => (by omega)⟩
  · intro k k1 k2
    rw [ho, find_store, if_neg k2, find_store, if_neg k1]
    rcases frictionOrder_ok hl with ⟨hfr, -, hn, rfl⟩ | ⟨-, rfl⟩
    · rw [find_put]
      by_cases q : k = c.sysId i
      · right
        rw [if_pos q]
        have hu := hk.fr
        rw [hfr] at hu
        simp only [Eq.comm (a := true), Bool.and_eq_true] at hu
        refine ⟨q, by rw [q]; exact hn, hu.1.2, hu.1.1, ?_⟩
        have : p.s.coin = b.coin := by rw [hs']; exact hk.coin.symm
        have hf := (fees_ok hk.fees).1
        rw [hfr] at hf
        rw [this, hf]
        rfl
      · left; rw [if_neg q]
    · left; rfl

/-! ## C30: prices -/

/-- **C30.** The buyer of a limit order never pays more per asset than its price. -/
theorem limit_buyer_never_overpays {c : Ctx} {σ σ' : State} {i : Nat} {d : Deal} {b : Order} (hd : d.coin < U64)
    (h : deal c σ i d = .ok σ') (hb : find σ.orders d.buyId = some b) (hl : b.limit = true) : d.coin * 100000000 ≤ d.asset * b.price := by
  obtain ⟨p, l, hp, -⟩ := deal_ok h
  obtain ⟨b', s, bo, so, hk⟩ := prep_ok hp
  obtain rfl : b' = b := by have := hk.hb; rw [hb] at this; injection this with this; exact this.symm
  have e := coinMatch_limit hl (by have := hk.calcLt; unfold U64; omega) hd hk.amount
  have q := priceMatch_buy hl hk.price
  rw [e]
  calc d.asset * d.price / boost * 100000000 ≤ d.asset * d.price := Nat.div_mul_le_self _ _
    _ ≤ d.asset * b'.price := Nat.mul_le_mul_left _ q

/-- **C30.** Between limit orders the seller never receives less, before fees, than its price asks, rounded down to a whole unit. -/
theorem limit_seller_never_undersells_partial {c : Ctx} {σ σ' : State} {i : Nat} {d : Deal} {b s : Order} (hd : d.coin < U64)
    (h : deal c σ i d = .ok σ') (hb : find σ.orders d.buyId = some b) (hs : find σ.orders d.sellId = some s) (hl : b.limit = true)
    (hl' : s.limit = true) : d.asset * s.price / 100000000 ≤ d.coin := by
  obtain ⟨p, l, hp, -⟩ := deal_ok h
  obtain ⟨b', s', bo, so, hk⟩ := prep_ok hp
  obtain rfl : b' = b := by have := hk.hb; rw [hb] at this; injection this with this; exact this.symm
  obtain rfl : s' = s := by have := hk.hs; rw [hs] at this; injection this with this; exact this.symm
  have e := coinMatch_limit hl (by have := hk.calcLt; unfold U64; omega) hd hk.amount
  have q := priceMatch_sell hl' hk.price
  rw [e]
  exact Nat.div_le_div_right (Nat.mul_le_mul_left _ q)

theorem coinMatch_market {b : Order} {x y q : Nat} (hb : b.limit = false) (hx : x < 9223372036854775808) (hy : y < U64)
    (hq : q < U64) (h : coinMatch b x y q = .ok true) : x ≤ y + max 1 (q / boost) := by
  have hq1 : q / boost < 9223372036854775808 := by
    have : q / boost ≤ q / 2 := Nat.div_le_div_left (by decide) (by decide)
    unfold U64 at hq; omega
  unfold coinMatch at h
  simp only [hb, Bool.false_eq_true, if_false] at h
  split at h
  · cases h
  · simp only [Res.ok.injEq, decide_eq_true_eq] at h
    unfold i64 wsub U64 at *
    rw [if_pos hq1] at h
    by_cases k : y ≤ x
    · rw [if_pos (by omega)] at h; omega
    · omega

/-- **C30.** Against a market buyer the seller may receive less than its price asks, by at most the price of one unit of the asset, if
the asked coins are below 2^63. -/
theorem limit_seller_to_market_partial {c : Ctx} {σ σ' : State} {i : Nat} {d : Deal} {b s : Order} (hd : d.coin < U64 ∧ d.price < U64)
    (hx : d.asset * d.price / 100000000 < 9223372036854775808)
    (h : deal c σ i d = .ok σ') (hb : find σ.orders d.buyId = some b) (hs : find σ.orders d.sellId = some s) (hl : b.limit = false)
    (hl' : s.limit = true) : d.asset * s.price / 100000000 ≤ d.coin + max 1 (s.price / 100000000) := by
  obtain ⟨p, l, hp, -⟩ := deal_ok h
  obtain ⟨b', s', bo, so, hk⟩ := prep_ok hp
  obtain rfl : b' = b := by have := hk.hb; rw [hb] at this; injection this with this; exact this.symm
  obtain rfl : s' = s := by have := hk.hs; rw [hs] at this; injection this with this; exact this.symm
  have e := coinMatch_market hl hx hd.1 hd.2 hk.amount
  have q : d.price = s'.price := by
    have := hk.price
    unfold priceMatch at this
    simpa [hl, hl'] using this
  rw [← q]
  exact e

/-! ## Witnesses -/

/-- Ten million coins of everything, free, to everyone. -/
def mem0 : Mem := fun r => ⟨r, fun _ => some (fun b => if b = .free then 1000000000000000 else 0), 0, 0⟩

/-- Accounts: 1 buyer, 2 seller, 3 reserve, 4 matcher, 5 block producer, 6 operator. -/
def acc0 : Finset Ref := {1, 2, 3, 4, 5, 6}

def ctx0 : Ctx := ⟨true, some 4, some 5, 3, 4, fun n => if n = 0 then some ⟨some 6, ⟨true, 100000, 200000⟩, [], true⟩ else none,
  fun _ => true, fun _ => true, (7, 1), fun i => 900 + i⟩

def σ0 : State := ⟨mem0, []⟩

/-- Buy 10 WICC at 3 WUSD. -/
def buy0 : Place := ⟨1, 1, "WUSD", "WICC", 0, 1000000000, 300000000, 0, "WICC", none⟩
/-- Sell 15 WICC at 2.5 WUSD. -/
def sell0 : Place := ⟨1, 2, "WUSD", "WICC", 0, 1500000000, 250000000, 0, "WICC", none⟩
/-- 4 WICC at 2.8. -/
def deal0 : Deal := ⟨11, 12, 280000000, 1120000000, 400000000⟩

def hist0 : List Ev := [.place ctx0 11 1 buy0, .place ctx0 12 2 sell0]

theorem total0 (s : Sym) : total mem0 s acc0 = 6000000000000000 := by
  have : ∀ r, holding mem0 r s = 1000000000000000 := fun r => by
    simp [holding, bal, mem0, Account.token]
  simp [total, this, acc0]

theorem fresh0 : Fresh σ0 := by
  refine ⟨fun r s b => ?_, rfl, fun r s => ?_⟩
  · simp only [σ0, mem0, bal, Account.token, Option.getD_some, U64]; split <;> omega
  · simp [σ0, mem0, bal, Account.token]

theorem ctxIn0 : CtxIn acc0 ctx0 := by
  refine ⟨by decide, fun r h => ?_, fun n o r h hr => ?_⟩
  · unfold ctx0 at h; cases h; decide
  · unfold ctx0 at h; dsimp only at h
    split at h
    · cases h; cases hr; decide
    · cases h

theorem histIn0 : ∀ e ∈ hist0, Ev.In acc0 e := by
  intro e he
  simp only [hist0, List.mem_cons, List.not_mem_nil, or_false] at he
  rcases he with rfl | rfl <;>
  exact ⟨ctxIn0, by decide, by decide, by decide, fun x hx => by cases hx⟩

theorem reach0 {σ : State} (h : run σ0 hist0 = some σ) : Reach acc0 σ :=
  ⟨σ0, hist0, fresh0, histIn0, fun s => by rw [show total σ0.mem s acc0 = _ from total0 s]; simp [mintSum, hist0, Ev.mint, H63], h⟩

def okAnd (r : Res State) (f : State → Bool) : Bool :=
  match r with
  | .ok σ => f σ
  | _ => false

def runAnd (es : List Ev) (f : State → Bool) : Bool :=
  match run σ0 es with
  | some σ => f σ
  | none => false

/-- Both orders are accepted and lock 30 WUSD and 15 WICC; the deal is settled with fees of 0.04 %, 0.1 % and 0.2 %; the matcher settles
it and both rests can be cancelled. -/
example : runAnd hist0 (fun σ =>
    decide (bal σ.mem 1 "WUSD" .frozen = 3000000000) && decide (bal σ.mem 2 "WICC" .frozen = 1500000000) && decide (σ.orders.length = 2) &&
    okAnd (settle ctx0 σ 4 [deal0]) (fun τ =>
      decide (bal τ.mem 1 "WUSD" .frozen = 1880000000) && decide (bal τ.mem 2 "WICC" .frozen = 1100000000) &&
      decide (bal τ.mem 2 "WUSD" .free = 1000000000000000 + 1120000000 - 448000 - 1119552) &&
      decide (bal τ.mem 1 "WICC" .free = 1000000000000000 + 400000000 - 160000 - 799680) && decide (bal τ.mem 3 "WUSD" .frozen = 448000) &&
      decide (bal τ.mem 5 "WICC" .free = 1000000000000000 + 160000) && decide (τ.orders.length = 3) &&
      okAnd (cancel τ 11 1) (fun υ => decide (bal υ.mem 1 "WUSD" .frozen = 0)) && okAnd (cancel τ 12 2) (fun υ => decide (υ.orders.length = 2)))) = true := by
  decide +kernel

example : ∃ σ σ', Reach acc0 σ ∧ deal ctx0 σ 0 deal0 = .ok σ' := by
  cases h : run σ0 hist0 with
  | none => exact absurd h (by decide +kernel)
  | some σ =>
    cases h2 : deal ctx0 σ 0 deal0 with
    | ok σ' => exact ⟨σ, σ', reach0 h, h2⟩
    | fail =>
      have : runAnd hist0 (fun σ => okAnd (deal ctx0 σ 0 deal0) (fun _ => true)) = true := by decide +kernel
      simp [runAnd, okAnd, h, h2] at this
    | crash =>
      have : runAnd hist0 (fun σ => okAnd (deal ctx0 σ 0 deal0) (fun _ => true)) = true := by decide +kernel
      simp [runAnd, okAnd, h, h2] at this

/-- Sell 1 WICC at 10. -/
def sell1 : Place := ⟨1, 2, "WUSD", "WICC", 0, 100000000, 1000000000, 0, "WICC", none⟩
/-- Buy for 1 WUSD at any price. -/
def buy1 : Place := ⟨2, 1, "WUSD", "WICC", 100000000, 0, 0, 0, "WICC", none⟩

/-- Without fees. -/
def ctx1 : Ctx := { ctx0 with friction := some 0, opers := fun n => if n = 0 then some ⟨some 6, ⟨true, 0, 0⟩, [], true⟩ else none }

/-- **C30.** A seller asking 10 coins for each unit of the asset gets 1 coin for a unit. -/
theorem market_tolerance_violated : runAnd [.place ctx1 11 1 buy1, .place ctx1 12 2 sell1] (fun σ =>
    okAnd (settle ctx1 σ 4 [⟨11, 12, 1000000000, 1, 1⟩]) (fun τ =>
      decide (bal τ.mem 2 "WICC" .frozen + 1 = bal σ.mem 2 "WICC" .frozen) && decide (bal τ.mem 2 "WUSD" .free = bal σ.mem 2 "WUSD" .free + 1))) = true := by
  decide +kernel

/-- Sell 1 WICC at the price 2^64 - 2, in WUSD per 10^-8 WICC about 184 billion. -/
def sell2 : Place := ⟨1, 2, "WUSD", "WICC", 0, 100000000, 18446744073709551614, 0, "WICC", none⟩

/-- **C30.** The comparison wraps at 64 bits: a seller asking 2^64 - 2 coins gets 1. -/
theorem market_wrap_violated : runAnd [.place ctx1 11 1 buy1, .place ctx1 12 2 sell2] (fun σ =>
    okAnd (settle ctx1 σ 4 [⟨11, 12, 18446744073709551614, 1, 100000000⟩]) (fun τ =>
      decide (bal τ.mem 2 "WICC" .frozen = 0) && decide (bal τ.mem 2 "WUSD" .free = bal σ.mem 2 "WUSD" .free + 1))) = true := by
  decide +kernel

/-! ## C71: orders and the node -/

def crashes {α : Type} : Res α → Bool
  | .crash => true
  | _ => false

/-- **C71.** Any user with funds for the fee can stop the node: a limit order to buy 10 WICC at the highest price. -/
theorem place_crash_violated : crashes (place ctx0 σ0 11 1 ⟨1, 1, "WUSD", "WICC", 0, 1000000000, 18446744073709551615, 0, "WICC", none⟩) = true := by
  decide +kernel

/-- **C71.** Placing stops the node only if asset amount times price reaches 2^64 - 1 coins. -/
theorem place_crash_partial {c : Ctx} {σ : State} {id : Nat} {who : Ref} {p : Place}
    (h : p.assetAmt * p.price / 100000000 < 18446744073709551615) : place c σ id who p ≠ .crash := by
  intro hc
  unfold place at hc
  split at hc
  · cases hc
  · split at hc
    · cases hc
    · rcases Res.bind_crash hc with hc | ⟨a, -, hc⟩
      · split at hc
        · unfold calcCoin boost at hc
          rw [if_pos h] at hc; cases hc
        · cases hc
      · split at hc
        · cases hc
        · rcases Res.bind_crash hc with hc | ⟨a, -, hc⟩
          · unfold create at hc; split at hc <;> cases hc
          · cases hc

/-- **C71.** Cancelling never stops the node. -/
theorem cancel_never_crashes (σ : State) (id : Nat) (who : Ref) : cancel σ id who ≠ .crash ∧ govCancel σ id ≠ .crash := by
  have hr : ∀ o, release σ id o ≠ .crash := by intro o h; unfold release at h; split at h <;> cases h
  constructor
  · intro h
    unfold cancel at h
    split at h
    · cases h
    · split at h
      · cases h
      · split at h
        · split at h
          · exact hr _ h
          · cases h
        · cases h
  · intro h
    unfold govCancel at h
    split at h
    · cases h
    · split at h
      · cases h
      · split at h
        · exact hr _ h
        · cases h

/-- **C71.** In a reachable state a settlement stops the node only by a deal whose asset amount times price exceeds its coins by 2^63
or more: the assertion on the coins of a completed order holds. -/
theorem settle_crash_partial {S : Finset Ref} {c : Ctx} {σ : State} {who : Ref} {ds : List Deal} (hR : Reach S σ)
    (hin : Ev.In S (.settle c who ds)) (hn : ∀ d ∈ ds, d.asset * d.price / 100000000 < 9223372036854775808 ∧ d.coin < 9223372036854775808) :
    settle c σ who ds ≠ .crash := by
  obtain ⟨hI, hB⟩ := reach_inv hR
  intro h
  unfold settle at h
  split at h
  · rename_i k
    have key : ∀ (ds : List Deal) (σ : State) (i : Nat), Inv S σ → Bounded σ.mem S →
        (∀ d ∈ ds, ((d.coin < U64 ∧ d.asset < U64) ∧ d.buyId ≠ d.sellId) ∧ d.asset * d.price / 100000000 < 9223372036854775808 ∧
          d.coin < 9223372036854775808) → deals c σ i ds ≠ .crash := by
      intro ds
      induction ds with
      | nil => intro σ i _ _ _ h; cases h
      | cons d ds ih =>
        intro σ i hI hB hd h
        obtain ⟨⟨k1, k2⟩, k3⟩ := hd d (by simp)
        rcases Res.bind_crash h with h | ⟨σ1, h1, h⟩
        · have := prep_crash (deal_crash hI hB k1 h)
          unfold boost i64 wsub U64 at this
          rcases this with h | h
          · omega
          · split at h <;> omega
        · obtain ⟨i1, t⟩ := deal_inv hI hin.1 hB k1 k2 h1
          exact ih σ1 (i + 1) i1 (fun s => by rw [t s]; exact hB s) (fun d' h' => hd d' (by simp [h'])) h
    have hall : ∀ d ∈ ds, dealOk d = true := by simpa using k.2.2.2
    exact key ds σ 0 hI hB (fun d hd => ⟨⟨hin.2 d hd, dealOk_ne (hall d hd)⟩, hn d hd⟩) h
  · cases h

/-- Sell 1 WICC at the price 2^63 + 1. -/
def sell3 : Place := ⟨1, 2, "WUSD", "WICC", 0, 100000000, 9223372036854775809, 0, "WICC", none⟩

/-- **C71.** A settlement can stop the node: `std::abs` of the smallest number. -/
theorem settle_crash_violated : runAnd [.place ctx1 11 1 buy1, .place ctx1 12 2 sell3] (fun σ =>
    crashes (settle ctx1 σ 4 [⟨11, 12, 9223372036854775809, 1, 100000000⟩])) = true := by
  decide +kernel

end Verif.Dex
