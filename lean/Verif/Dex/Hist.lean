import Verif.Dex.Inv

/-! Histories of the exchange. -/
namespace Verif.Dex

open Verif.Account Verif.Ledger

/-- One event: the transactions of the exchange, and anything else that happens to accounts without touching frozen amounts
(every other use of `OperateBalance` in the sources is of this kind). -/
inductive Ev
  | place (c : Ctx) (id : Nat) (who : Ref) (p : Place)
  | cancel (id : Nat) (who : Ref)
  | gov (id : Nat)
  | sys (c : Ctx) (id : Nat) (buy : Bool) (coin asset : Sym) (amount : Nat)
  | settle (c : Ctx) (who : Ref) (ds : List Deal)
  | other (qs : List Req)

def Ev.apply (σ : State) : Ev → Res State
  | .place c id who p => Dex.place c σ id who p
  | .cancel id who => Dex.cancel σ id who
  | .gov id => govCancel σ id
  | .sys c id buy coin asset amount => sysPlace c σ id buy coin asset amount
  | .settle c who ds => Dex.settle c σ who ds
  | .other qs =>
    match execAll σ.mem qs with
    | none => .fail
    | some m => .ok ⟨m, σ.orders⟩

/-- A failing event changes nothing; a crash ends the history. -/
def run : State → List Ev → Option State
  | σ, [] => some σ
  | σ, e :: es =>
    match e.apply σ with
    | .ok σ' => run σ' es
    | .fail => run σ es
    | .crash => none

/-- Operations that leave frozen amounts alone. -/
def unfrozen (q : Req) : Prop := q.op ≠ .freeze ∧ q.op ≠ .unfreeze ∧ q.op ≠ .dexDeal

/-- The accounts lie in `S` and the numbers are 64-bit. -/
def Ev.In (S : Finset Ref) : Ev → Prop
  | .place c _ who p => CtxIn S c ∧ who ∈ S ∧ p.coinAmt < U64 ∧ p.assetAmt < U64 ∧ (∀ x, p.cfg = some x → x.txFee < U64)
  | .cancel _ _ => True
  | .gov _ => True
  | .sys c _ _ _ _ amount => CtxIn S c ∧ amount < U64
  | .settle c _ ds => CtxIn S c ∧ ∀ d ∈ ds, d.coin < U64 ∧ d.asset < U64
  | .other qs => ∀ q ∈ qs, q.Within S ∧ unfrozen q

/-- What an event mints. -/
def Ev.mint (s : Sym) : Ev → Nat
  | .other qs => mintedAll s qs
  | _ => 0

def mintSum (s : Sym) (es : List Ev) : Nat := (es.map (Ev.mint s)).sum

theorem unfrozen_delta {q : Req} (h : unfrozen q) (r : Ref) (s : Sym) : reqDelta r s .frozen q = 0 := by
  obtain ⟨self, sym, op, v, peer⟩ := q
  obtain ⟨h1, h2, h3⟩ := h
  unfold reqDelta netDelta
  cases op <;> simp_all [selfDelta, peerDelta]

theorem sumReq_zero {f : Req → Int} : ∀ {qs : List Req}, (∀ q ∈ qs, f q = 0) → sumReq f qs = 0
  | [], _ => rfl
  | q :: qs, h => by
    rw [sumReq_cons, h q (by simp), sumReq_zero (fun q' h' => h q' (by simp [h']))]; rfl

theorem total_le_after {S : Finset Ref} {m m' : Mem} {qs : List Req} (t : ∀ s, total m' s S + burnedAll s qs = total m s S + mintedAll s qs)
    (s : Sym) : total m' s S ≤ total m s S + mintedAll s qs := by have := t s; omega

theorem other_inv {S : Finset Ref} {σ : State} {m : Mem} {qs : List Req} (hI : Inv S σ) (hin : ∀ q ∈ qs, q.Within S ∧ unfrozen q)
    (hB : ∀ s, total σ.mem s S + mintedAll s qs < H63) (h : execAll σ.mem qs = some m) :
    Inv S ⟨m, σ.orders⟩ ∧ ∀ s, total m s S ≤ total σ.mem s S + mintedAll s qs := by
  obtain ⟨w, e, t⟩ := execAll_exact S qs σ.mem m hI.wf (fun q hq => (hin q hq).1)
    (fun s => by have := hB s; unfold H63 at this; unfold U64; omega) h
  refine ⟨⟨w, hI.sorted, hI.ok, fun r s => ?_⟩, total_le_after t⟩
  dsimp only
  rw [e, sumReq_zero (fun q hq => unfrozen_delta (hin q hq).2 r s), hI.frozen]; omega

/-- Adding an order together with its freezing. -/
theorem create_inv {S : Finset Ref} {σ : State} {m : Mem} {qs : List Req} {o : Order} {id : Nat} (hI : Inv S σ)
    (hin : ∀ q ∈ qs, q.Within S) (hB : Bounded σ.mem S) (hm : ∀ s, mintedAll s qs = 0) (h : execAll σ.mem qs = some m)
    (hn : find σ.orders id = none) (ho : OrderOk S o ∨ (Bounded m S → (∀ r s, owes o r s ≤ bal m r s .frozen) → OrderOk S o))
    (hnn : 0 ≤ leftAmt o)
    (hd : ∀ r s, sumReq (reqDelta r s .frozen) qs = owes o r s) :
    Inv S ⟨m, put ltN σ.orders id o⟩ ∧ (∀ s, total m s S ≤ total σ.mem s S) ∧
    (∀ r s b, (bal m r s b : Int) = bal σ.mem r s b + sumReq (reqDelta r s b) qs) := by
  obtain ⟨w, e, t⟩ := execAll_exact S qs σ.mem m hI.wf hin (fun s => by have := hB s; rw [hm s]; unfold H63 at this; unfold U64; omega) h
  have ht : ∀ s, total m s S ≤ total σ.mem s S := fun s => by have := t s; rw [hm s] at this; omega
  have hok : OrderOk S o := by
    rcases ho with h | h
    · exact h
    · refine h (fun s => Nat.lt_of_le_of_lt (ht s) (hB s)) (fun r s => ?_)
      rw [e, hd]; omega
  refine ⟨⟨w, sorted_put ltN_total hI.sorted _ _, fun k o' hf => ?_, fun r s => ?_⟩, ht, e⟩
  · dsimp only at hf
    rw [find_put] at hf
    split at hf
    · cases hf; exact hok
    · exact hI.ok _ _ hf
  · dsimp only
    rw [e, hd, hI.frozen, ssum_put ltN_total _ hI.sorted, at0_none hn]; omega

theorem reqDelta_freeze (r : Ref) (s : Sym) (a : Ref) (t : Sym) (v : Nat) :
    reqDelta r s .frozen ⟨a, t, .freeze, v, none⟩ = if r = a ∧ s = t then (v : Int) else 0 := by
  rw [reqDelta_move (op := .freeze) rfl]; simp [cell]

theorem reqDelta_unfreeze (r : Ref) (s : Sym) (a : Ref) (t : Sym) (v : Nat) :
    reqDelta r s .frozen ⟨a, t, .unfreeze, v, none⟩ = if r = a ∧ s = t then -(v : Int) else 0 := by
  rw [reqDelta_move (op := .unfreeze) rfl]; simp [cell]

theorem operFee_in {S : Finset Ref} {p : Place} {r : Ref} (hr : r ∈ S) (hf : ∀ x, p.cfg = some x → x.txFee < U64) :
    ∀ q ∈ operFee p r, q.Within S ∧ q.op = .subFree ∧ q.peer = none := by
  intro q hq
  unfold operFee at hq
  cases hc : p.cfg with
  | none => rw [hc] at hq; simp at hq
  | some x =>
    rw [hc] at hq
    dsimp only at hq
    split at hq
    · simp only [List.mem_cons, List.not_mem_nil, or_false] at hq
      subst hq
      exact ⟨⟨hr, by simp, hf x hc⟩, rfl, rfl⟩
    · simp at hq

theorem operFee_sum {p : Place} {r : Ref} (s : Sym) : mintedAll s (operFee p r) = 0 := by
  unfold operFee
  cases p.cfg with
  | none => rfl
  | some x => dsimp only; split <;> simp [minted]

theorem operFee_frozen {p : Place} {a : Ref} (r : Ref) (s : Sym) : sumReq (reqDelta r s .frozen) (operFee p a) = 0 := by
  unfold operFee
  cases p.cfg with
  | none => rfl
  | some x =>
    dsimp only
    split
    · simp [reqDelta_subFree, cell]
    · rfl

/-- The order of a transaction is sound once its funds are frozen. -/
theorem newOrder_ok {S : Finset Ref} {c : Ctx} {who r : Ref} {p : Place} (hw : who ∈ S) (hc : checkPlace c who p = some r)
    (hca : p.coinAmt < U64) (haa : p.assetAmt < U64) (hlt : p.side = 1 → placeCoin p < H63) :
    OrderOk S (newOrder c who p (placeCoin p)) := by
  obtain ⟨ht, hs, -, ha, -, -, -⟩ := checkPlace_some hc
  have hH : H63 = 9223372036854775808 := rfl
  have hassets : p.assetAmt < H63 ∧ (p.side = 2 → placeCoin p < H63) := by
    unfold amountsOk at ha
    split at ha
    · rename_i k
      simp only [Bool.and_eq_true, decide_eq_true_eq] at ha
      exact ⟨by omega, fun h => by omega⟩
    · rename_i k
      simp only [Bool.and_eq_true, decide_eq_true_eq] at ha
      refine ⟨amountOk_lt ha.2 haa, fun h => ?_⟩
      unfold placeCoin
      rw [if_neg (by omega), ha.1]; omega
  unfold newOrder
  refine ⟨hw, ?_, hassets.1, ?_, ?_, ?_⟩
  · dsimp only
    rcases hs with h | h
    · exact hlt h
    · exact hassets.2 h
  · intro _; dsimp only; omega
  · intro h1 h2
    dsimp only at *
    have h1 := of_decide_eq_true h1
    have h2 := of_decide_eq_true h2
    refine ⟨by omega, ?_, by omega⟩
    unfold placeCoin
    rw [if_pos ⟨h2, h1⟩]
  · intro _; dsimp only; omega

theorem newOrder_owes {c : Ctx} {who : Ref} {p : Place} (h : p.side = 1 ∨ p.side = 2) (r : Ref) (s : Sym) :
    owes (newOrder c who p (placeCoin p)) r s = sumReq (reqDelta r s .frozen) [lockReq who p] := by
  unfold lockReq
  rcases h with h | h
  · rw [if_pos h, sumReq_cons, sumReq_nil, reqDelta_freeze]
    simp [owes, newOrder, frozenSym, leftAmt, h]
  · rw [if_neg (by omega), sumReq_cons, sumReq_nil, reqDelta_freeze]
    simp [owes, newOrder, frozenSym, leftAmt, h]

theorem place_inv {S : Finset Ref} {c : Ctx} {σ σ' : State} {id : Nat} {who : Ref} {p : Place} (hI : Inv S σ) (hB : Bounded σ.mem S)
    (hin : Ev.In S (.place c id who p)) (h : place c σ id who p = .ok σ') :
    ∃ r, checkPlace c who p = some r ∧ Inv S σ' ∧ (∀ s, total σ'.mem s S ≤ total σ.mem s S) ∧
    (∀ x s b, (bal σ'.mem x s b : Int) = bal σ.mem x s b + sumReq (reqDelta x s b) (operFee p r ++ [lockReq who p])) ∧
    find σ.orders id = none ∧ σ'.orders = put ltN σ.orders id (newOrder c who p (placeCoin p)) := by
  obtain ⟨hc, hw, h1, h2, h3⟩ := hin
  obtain ⟨r, hk, hq, he, hn, ho⟩ := place_ok h
  obtain ⟨ht, hs, -, ha, -, ⟨op, hop, -, hrv⟩, -⟩ := checkPlace_some hk
  have hr := hc.opers _ _ _ hop hrv
  have hcoin : placeCoin p < U64 := by
    unfold placeCoin
    split
    · rename_i k; have := hq k; unfold U64; omega
    · exact h1
  have hlock : (lockReq who p).Within S := by
    unfold lockReq
    split
    · exact ⟨hw, by simp, hcoin⟩
    · exact ⟨hw, by simp, h2⟩
  have hmint : ∀ s, mintedAll s [lockReq who p] = 0 := by
    intro s; unfold lockReq; split <;> simp [minted]
  have hdel : ∀ x s, sumReq (reqDelta x s .frozen) (operFee p r ++ [lockReq who p]) = owes (newOrder c who p (placeCoin p)) x s := by
    intro x s
    rw [sumReq_append, operFee_frozen, newOrder_owes hs]; omega
  have := create_inv (o := newOrder c who p (placeCoin p)) (id := id) hI
    (fun q hq => by
      rcases List.mem_append.1 hq with hq | hq
      · exact (operFee_in hr h3 q hq).1
      · simp only [List.mem_cons, List.not_mem_nil, or_false] at hq; subst hq; exact hlock) hB
    (fun s => by rw [mintedAll_append, operFee_sum, hmint]) he hn
    (Or.inr fun hb2 hle => newOrder_ok hw hk h1 h2 (fun h => by
      have k1 := hle who p.coin
      have k2 := bal_le_total (m := σ'.mem) hw p.coin .frozen
      have k3 := hb2 p.coin
      simp [owes, newOrder, frozenSym, leftAmt, h] at k1
      omega))
    (by
      rcases hs with h | h <;> simp [newOrder, leftAmt, h])
    hdel
  refine ⟨r, hk, ?_, this.2.1, this.2.2, hn, ho⟩
  have e : σ' = ⟨σ'.mem, put ltN σ.orders id (newOrder c who p (placeCoin p))⟩ := by rw [← ho]
  rw [e]; exact this.1

theorem sysPlace_inv {S : Finset Ref} {c : Ctx} {σ σ' : State} {id : Nat} {buy : Bool} {coin asset : Sym} {a : Nat} (hI : Inv S σ)
    (hB : Bounded σ.mem S) (hc : CtxIn S c) (ha : a < U64) (h : sysPlace c σ id buy coin asset a = .ok σ') :
    Inv S σ' ∧ (∀ s, total σ'.mem s S ≤ total σ.mem s S) := by
  unfold sysPlace at h
  cases h1 : opBal σ.mem ⟨c.fcoin, if buy then coin else asset, .freeze, a, none⟩ with
  | none => rw [h1] at h; cases h
  | some m =>
    rw [h1] at h; dsimp only at h
    obtain ⟨l, hl, h⟩ := Res.bind_ok h
    cases h
    obtain ⟨hn, rfl⟩ := create_ok hl
    have hk : ∀ r s, owes (sysOrder c buy coin asset a) r s = if r = c.fcoin ∧ s = (if buy then coin else asset) then (a : Int) else 0 := by
      intro r s; cases buy <;> simp [owes, sysOrder, frozenSym, leftAmt]
    have := create_inv (o := sysOrder c buy coin asset a) (id := id) (qs := [⟨c.fcoin, if buy then coin else asset, .freeze, a, none⟩]) hI
      (by intro q hq; simp only [List.mem_cons, List.not_mem_nil, or_false] at hq; subst hq; exact ⟨hc.fcoin, by simp, ha⟩) hB
      (fun s => by simp [minted]) (execAll_one h1) hn
      (Or.inr fun hb2 hle => sysOrder_ok hc _ _ _ (by
        have k1 := hle c.fcoin (if buy then coin else asset)
        rw [hk, if_pos ⟨rfl, rfl⟩] at k1
        have k2 := bal_le_total (m := m) hc.fcoin (if buy then coin else asset) .frozen
        have k3 := hb2 (if buy then coin else asset)
        omega))
      (by cases buy <;> simp [sysOrder, leftAmt])
      (fun r s => by rw [sumReq_cons, sumReq_nil, reqDelta_freeze, hk]; omega)
    exact ⟨this.1, this.2.1⟩

theorem frozenAmt_eq {S : Finset Ref} {o : Order} (h : OrderOk S o) : (frozenAmt o : Int) = leftAmt o := by
  have h1 := h.coinLt
  have h2 := h.assetLt
  unfold frozenAmt leftAmt H63 at *
  cases hb : o.buy with
  | true =>
    have := h.buy hb
    simp only [if_true]
    rw [wsub_eq this (by unfold U64; omega)]; omega
  | false =>
    have := h.sell hb
    simp only [Bool.false_eq_true, if_false]
    rw [wsub_eq this (by unfold U64; omega)]; omega

theorem release_inv {S : Finset Ref} {σ σ' : State} {id : Nat} {o : Order} (hI : Inv S σ) (hB : Bounded σ.mem S)
    (hf : find σ.orders id = some o) (h : release σ id o = .ok σ') :
    Inv S σ' ∧ (∀ s, total σ'.mem s S = total σ.mem s S) ∧ σ'.orders = del σ.orders id ∧
    (∀ x s b, (bal σ'.mem x s b : Int) = bal σ.mem x s b +
      reqDelta x s b ⟨o.owner, frozenSym o, .unfreeze, frozenAmt o, none⟩) := by
  unfold release at h
  cases h1 : opBal σ.mem ⟨o.owner, frozenSym o, .unfreeze, frozenAmt o, none⟩ with
  | none => rw [h1] at h; cases h
  | some m =>
    rw [h1] at h
    cases h
    have hok := hI.ok _ _ hf
    have hamt := frozenAmt_eq hok
    have hlt : frozenAmt o < U64 := by unfold frozenAmt; split <;> exact wsub_lt _ _
    obtain ⟨w, e, t⟩ := execAll_exact S [⟨o.owner, frozenSym o, .unfreeze, frozenAmt o, none⟩] σ.mem m hI.wf
      (by intro q hq; simp only [List.mem_cons, List.not_mem_nil, or_false] at hq; subst hq; exact ⟨hok.owner, by simp, hlt⟩)
      (fun s => by have := hB s; unfold H63 at this; simp [minted]; unfold U64; omega) (execAll_one h1)
    refine ⟨⟨w, sorted_del hI.sorted _, fun k o' hk => ?_, fun r s => ?_⟩, fun s => by simpa [minted, burned] using t s, rfl, fun x s b => by simpa using e x s b⟩
    · dsimp only at hk
      rw [find_del] at hk
      split at hk
      · cases hk
      · exact hI.ok _ _ hk
    · dsimp only
      rw [e, sumReq_cons, sumReq_nil, reqDelta_unfreeze, hI.frozen, ssum_del ltN_total _ hI.sorted, at0_some hf, hamt]
      unfold owes
      split <;> omega

/-- Releasing an open order cannot fail. -/
theorem release_succeeds {S : Finset Ref} {σ : State} {id : Nat} {o : Order} (hI : Inv S σ) (hf : find σ.orders id = some o) :
    ∃ σ', release σ id o = .ok σ' := by
  have hok := hI.ok _ _ hf
  have hamt := frozenAmt_eq hok
  have hcov := hI.covers hf
  have : (operateBalance σ.mem o.owner (frozenSym o) .unfreeze (frozenAmt o) none).1 = true := by
    rw [operate_succeeds_iff]
    refine ⟨by simp, by simp, by simp, fun b hb => ?_, by simp⟩
    simp only [source, Option.some.injEq] at hb
    subst hb
    omega
  refine ⟨⟨(operateBalance σ.mem o.owner (frozenSym o) .unfreeze (frozenAmt o) none).2, del σ.orders id⟩, ?_⟩
  unfold release opBal
  simp only [this, if_true]

theorem deals_inv {S : Finset Ref} {c : Ctx} (hc : CtxIn S c) : ∀ {ds : List Deal} {σ σ' : State} {i : Nat}, Inv S σ → Bounded σ.mem S →
    (∀ d ∈ ds, (d.coin < U64 ∧ d.asset < U64) ∧ d.buyId ≠ d.sellId) → deals c σ i ds = .ok σ' →
    Inv S σ' ∧ ∀ t, total σ'.mem t S = total σ.mem t S
  | [], σ, σ', i, hI, _, _, h => by cases h; exact ⟨hI, fun _ => rfl⟩
  | d :: ds, σ, σ', i, hI, hB, hd, h => by
    obtain ⟨σ1, h1, h2⟩ := Res.bind_ok h
    obtain ⟨k1, k2⟩ := hd d (by simp)
    obtain ⟨i1, t1⟩ := deal_inv hI hc hB k1 k2 h1
    obtain ⟨i2, t2⟩ := deals_inv hc i1 (fun s => by rw [t1]; exact hB s) (fun d' h' => hd d' (by simp [h'])) h2
    exact ⟨i2, fun t => by rw [t2, t1]⟩

theorem dealOk_ne {d : Deal} (h : dealOk d = true) : d.buyId ≠ d.sellId := by
  simp only [dealOk, Bool.and_eq_true, decide_eq_true_eq] at h
  exact h.1.1.1.2

theorem settle_ok {c : Ctx} {σ σ' : State} {who : Ref} {ds : List Deal} (h : settle c σ who ds = .ok σ') :
    who = c.match_ ∧ ds ≠ [] ∧ ds.length ≤ maxItems ∧ (∀ d ∈ ds, dealOk d = true) ∧ deals c σ 0 ds = .ok σ' := by
  unfold settle at h
  split at h
  · rename_i k
    exact ⟨k.1, k.2.1, k.2.2.1, by simpa using k.2.2.2, h⟩
  · cases h

theorem cancel_ok {σ σ' : State} {id : Nat} {who : Ref} (h : cancel σ id who = .ok σ') :
    id ≠ 0 ∧ ∃ o, find σ.orders id = some o ∧ o.user = true ∧ who = o.owner ∧ release σ id o = .ok σ' := by
  unfold cancel at h
  by_cases h0 : id = 0
  · rw [if_pos h0] at h; cases h
  · rw [if_neg h0] at h
    cases hf : find σ.orders id with
    | none => rw [hf] at h; cases h
    | some o =>
      rw [hf] at h
      dsimp only at h
      by_cases h1 : o.user = true
      · rw [if_pos h1] at h
        by_cases h2 : who = o.owner
        · rw [if_pos h2] at h; exact ⟨h0, o, rfl, h1, h2, h⟩
        · rw [if_neg h2] at h; cases h
      · rw [if_neg h1] at h; cases h

theorem govCancel_ok {σ σ' : State} {id : Nat} (h : govCancel σ id = .ok σ') :
    id ≠ 0 ∧ ∃ o, find σ.orders id = some o ∧ o.user = true ∧ release σ id o = .ok σ' := by
  unfold govCancel at h
  by_cases h0 : id = 0
  · rw [if_pos h0] at h; cases h
  · rw [if_neg h0] at h
    cases hf : find σ.orders id with
    | none => rw [hf] at h; cases h
    | some o =>
      rw [hf] at h
      dsimp only at h
      by_cases h1 : o.user = true
      · rw [if_pos h1] at h
        exact ⟨h0, o, rfl, h1, h⟩
      · rw [if_neg h1] at h; cases h

/-- One event keeps the invariant. -/
theorem ev_inv {S : Finset Ref} {σ σ' : State} {e : Ev} (hI : Inv S σ) (hin : e.In S) (hB : ∀ s, total σ.mem s S + e.mint s < H63)
    (h : e.apply σ = .ok σ') : Inv S σ' ∧ ∀ s, total σ'.mem s S ≤ total σ.mem s S + e.mint s := by
  have hB' : Bounded σ.mem S := fun s => by have := hB s; omega
  cases e with
  | place c id who p =>
    obtain ⟨r, -, i1, t, -⟩ := place_inv hI hB' hin h
    exact ⟨i1, fun s => by have := t s; omega⟩
  | cancel id who =>
    obtain ⟨-, o, hf, -, -, hr⟩ := cancel_ok h
    obtain ⟨i1, t, -⟩ := release_inv hI hB' hf hr
    exact ⟨i1, fun s => by have := t s; omega⟩
  | gov id =>
    obtain ⟨-, o, hf, -, hr⟩ := govCancel_ok h
    obtain ⟨i1, t, -⟩ := release_inv hI hB' hf hr
    exact ⟨i1, fun s => by have := t s; omega⟩
  | sys c id buy coin asset a =>
    obtain ⟨i1, t⟩ := sysPlace_inv hI hB' hin.1 hin.2 h
    exact ⟨i1, fun s => by have := t s; omega⟩
  | settle c who ds =>
    obtain ⟨-, -, -, hall, hds⟩ := settle_ok h
    obtain ⟨i1, t⟩ := deals_inv hin.1 hI hB' (fun d hd => ⟨hin.2 d hd, dealOk_ne (hall d hd)⟩) hds
    exact ⟨i1, fun s => by have := t s; omega⟩
  | other qs =>
    simp only [Ev.apply] at h
    cases h1 : execAll σ.mem qs with
    | none => rw [h1] at h; cases h
    | some m =>
      rw [h1] at h
      cases h
      exact other_inv hI hin hB h1

/-- All events keep the invariant. -/
theorem run_inv {S : Finset Ref} : ∀ {es : List Ev} {σ σ' : State}, Inv S σ → (∀ e ∈ es, e.In S) →
    (∀ s, total σ.mem s S + mintSum s es < H63) → run σ es = some σ' → Inv S σ' ∧ ∀ s, total σ'.mem s S ≤ total σ.mem s S + mintSum s es
  | [], σ, σ', hI, _, _, h => by cases h; exact ⟨hI, fun s => by simp [mintSum]⟩
  | e :: es, σ, σ', hI, hin, hB, h => by
    have hm : ∀ s, mintSum s (e :: es) = e.mint s + mintSum s es := fun s => by simp [mintSum]
    simp only [run] at h
    cases h1 : e.apply σ with
    | ok σ1 =>
      rw [h1] at h
      obtain ⟨i1, t1⟩ := ev_inv hI (hin e (by simp)) (fun s => by have := hB s; rw [hm] at this; omega) h1
      obtain ⟨i2, t2⟩ := run_inv i1 (fun e' h' => hin e' (by simp [h'])) (fun s => by have := hB s; have := t1 s; have := hm s; omega) h
      exact ⟨i2, fun s => by have := t1 s; have := t2 s; have := hm s; omega⟩
    | fail =>
      rw [h1] at h
      obtain ⟨i2, t2⟩ := run_inv hI (fun e' h' => hin e' (by simp [h'])) (fun s => by have := hB s; have := hm s; omega) h
      exact ⟨i2, fun s => by have := t2 s; have := hm s; omega⟩
    | crash => rw [h1] at h; cases h

end Verif.Dex
