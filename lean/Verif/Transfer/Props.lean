import Verif.Transfer.Model

/-!
# C18: coin transfers
-/
namespace Verif.Transfer

open Verif.Account Verif.Ledger

/-! ## Specification -/

/-- Friction fee of one transfer, by the rule: stablecoin only, rounded down. -/
def friction (ratio : Nat) (t : Item) : Nat := if t.sym = "WUSD" then t.amount * ratio / 10000 else 0

/-- Sum over transfers of token `s`. -/
def sumSym (s : Sym) (f : Item → Nat) (ts : List Item) : Nat :=
  ((ts.filter (fun t => decide (t.sym = s))).map f).sum

/-- Transfers to account `r`. -/
def toAcct (r : Ref) (ts : List Item) : List Item := ts.filter (fun t => decide (t.dest.ref = some r))

/-- Expected new balance of bucket `b` of token `s` of account `r`. -/
def expected (m : Mem) (reserve sender : Ref) (ratio : Nat) (feeSym : Sym) (fee : Nat) (ts : List Item)
    (r : Ref) (s : Sym) (b : Bucket) : Int :=
  bal m r s b
  - (if r = sender ∧ b = .free then (if s = feeSym then (fee : Int) else 0) + sumSym s Item.amount ts else 0)
  + (if b = .free then (sumSym s (fun t => t.amount - friction ratio t) (toAcct r ts) : Int) else 0)
  + (if r = reserve ∧ b = .frozen then (sumSym s (friction ratio) ts : Int) else 0)

/-- Accounts that do not exist hold nothing. -/
def DeadEmpty (st : St) : Prop := ∀ r, st.live r = false → ∀ s b, bal st.mem r s b = 0

/-- All accounts named by the transaction are in `S` (the set over which supply is counted). -/
def Covers (S : Finset Ref) (reserve sender : Ref) (ts : List Item) : Prop :=
  reserve ∈ S ∧ sender ∈ S ∧ ∀ t ∈ ts, ∀ r, t.dest.ref = some r → r ∈ S

/-! ## Proofs -/

theorem bal_new (m : Mem) (r : Ref) (h : ∀ s b, bal m r s b = 0) (r' : Ref) (s : Sym) (b : Bucket) :
    bal (fun x => if x = r then emptyAccount r else m x) r' s b = bal m r' s b := by
  unfold bal
  by_cases e : r' = r
  · subst e
    have := h s b
    unfold bal at this
    rw [this]
    simp [emptyAccount, Account.token, Token.zero]
  · simp [e]

theorem total_congr {m m' : Mem} (h : ∀ r s b, bal m r s b = bal m' r s b) (s : Sym) (S : Finset Ref) :
    total m s S = total m' s S := by
  unfold total holding; simp [h]

theorem getOrNew_facts {st st' : St} {d : Dest} {r : Ref} (h : getOrNew st d = some (st', r)) (hd : DeadEmpty st) :
    d.ref = some r ∧ (∀ r s b, bal st'.mem r s b = bal st.mem r s b) ∧ DeadEmpty st' ∧ st'.live r = true
      ∧ (∀ x, st.live x = true → st'.live x = true) ∧ st'.orders = st.orders := by
  unfold getOrNew at h
  split at h
  · cases h
  · rename_i r0 hr
    split at h
    · rename_i hl
      simp only [Option.some.injEq, Prod.mk.injEq] at h
      obtain ⟨rfl, rfl⟩ := h
      exact ⟨hr, fun _ _ _ => rfl, hd, hl, fun _ h => h, rfl⟩
    · rename_i hl
      split at h
      · simp only [Option.some.injEq, Prod.mk.injEq] at h
        obtain ⟨rfl, rfl⟩ := h
        have hz := hd r0 (by simpa using hl)
        refine ⟨hr, fun r s b => bal_new _ _ hz _ _ _, ?_, by simp, fun x hx => by simp [hx], rfl⟩
        intro x hx s b
        simp at hx
        rw [bal_new _ _ hz]
        exact hd x hx.2 s b
      · cases h

/-- Requests executed for one transfer. -/
def reqsOf (reserve : Ref) (ratio : Nat) (sender r : Ref) (t : Item) : List Req :=
  (if friction ratio t > 0 then
    [⟨sender, "WUSD", .subFree, friction ratio t, some reserve⟩, ⟨reserve, "WUSD", .freeze, friction ratio t, none⟩]
   else []) ++ [⟨sender, t.sym, .subFree, t.amount - friction ratio t, some r⟩]

theorem friction_le {ratio : Nat} (h : ratio ≤ 10000) (t : Item) : friction ratio t ≤ t.amount := by
  unfold friction; split
  · apply Nat.div_le_of_le_mul
    rw [Nat.mul_comm]
    exact Nat.mul_le_mul_right _ h
  · omega

theorem deadEmpty_of {st : St} {m : Mem} (hd : DeadEmpty st) {o : List Nat}
    (h : ∀ r, st.live r = false → ∀ s b, bal m r s b = bal st.mem r s b) :
    DeadEmpty { st with mem := m, orders := o } := by
  intro r hr s b
  simp only at hr ⊢
  rw [h r hr]; exact hd r hr s b

theorem opBal_untouched {m m' : Mem} {q : Req} (h : opBal m q = some m') {r : Ref} (h1 : r ≠ q.self)
    (h2 : q.peer ≠ some r) (s : Sym) (b : Bucket) : bal m' r s b = bal m r s b := by
  have := (operate_frame m q.self q.sym q.op q.amount q.peer).1 r h1 h2
  rw [opBal_some h] at this
  simp only at this
  unfold bal; rw [this]

theorem frictionStep_facts {reserve sender : Ref} {ratio : Nat} (hr : ratio ≤ 10000) {st st1 : St} {t : Item}
    {actual : Nat} (ha : t.amount < U64) (hd : DeadEmpty st) (hs : st.live sender = true)
    (h : frictionStep reserve ratio st sender t = some (st1, actual)) :
    actual = t.amount - friction ratio t ∧ st1.live = st.live ∧ DeadEmpty st1 ∧
    st1.orders = st.orders ++ (if friction ratio t > 0 then [friction ratio t] else []) ∧
    execAll st.mem (if friction ratio t > 0 then
      [⟨sender, "WUSD", .subFree, friction ratio t, some reserve⟩,
       ⟨reserve, "WUSD", .freeze, friction ratio t, none⟩] else []) = some st1.mem := by
  unfold frictionStep at h
  have hle := friction_le hr t
  split at h
  · rename_i hsym
    have hf : friction ratio t = t.amount * ratio / 10000 := by simp [friction, hsym]
    split at h
    · cases h
    · rename_i fee hfee
      have hfee' : fee = friction ratio t := by
        unfold calcAmountByRatio at hfee
        simp only at hfee
        split at hfee
        · simp only [Option.some.injEq] at hfee; rw [← hfee, hf]
        · cases hfee
      subst hfee'
      split at h
      · rename_i hpos
        split at h
        · cases h
        rename_i hlive
        split at h
        · cases h
        rename_i m1 h1
        split at h
        · cases h
        rename_i m2 h2
        simp only [Option.some.injEq, Prod.mk.injEq] at h
        obtain ⟨rfl, rfl⟩ := h
        refine ⟨wsub_eq hle ha, rfl, ?_, by simp [hpos], ?_⟩
        · apply deadEmpty_of hd
          intro x hx s b
          have n1 : x ≠ sender := by rintro rfl; rw [hs] at hx; cases hx
          have n2 : x ≠ reserve := by rintro rfl; simp at hlive; rw [hlive] at hx; cases hx
          rw [opBal_untouched h2 n2 (by simp), opBal_untouched h1 n1 (by simp; exact fun e => n2 e.symm)]
        · rw [if_pos hpos]
          exact execAll_of_opBal h1 (execAll_one h2)
      · rename_i hpos
        simp only [Option.some.injEq, Prod.mk.injEq] at h
        obtain ⟨rfl, rfl⟩ := h
        have : friction ratio t = 0 := by omega
        simp [this, hd, execAll]
  · rename_i hsym
    simp only [Option.some.injEq, Prod.mk.injEq] at h
    obtain ⟨rfl, rfl⟩ := h
    simp [friction, hsym, hd, execAll]

theorem total_add_mint {m : Mem} {S : Finset Ref} {s : Sym} (h : total m s S < U64) {n : Nat} (hn : n = 0) :
    total m s S + n < U64 := by omega

theorem mintedAll_friction (s : Sym) (c : Prop) [Decidable c] (sender reserve : Ref) (v : Nat) :
    mintedAll s (if c then [⟨sender, "WUSD", .subFree, v, some reserve⟩, ⟨reserve, "WUSD", .freeze, v, none⟩] else []) = 0 := by
  split <;> simp [minted]

theorem burnedAll_friction (s : Sym) (c : Prop) [Decidable c] (sender reserve : Ref) (v : Nat) :
    burnedAll s (if c then [⟨sender, "WUSD", .subFree, v, some reserve⟩, ⟨reserve, "WUSD", .freeze, v, none⟩] else []) = 0 := by
  split <;> simp [burned]

/-- Exact effect of one transfer. -/
theorem execItem_exact {S : Finset Ref} {reserve sender : Ref} {ratio : Nat} (hr : ratio ≤ 10000) {st st' : St}
    {t : Item} (ha : t.amount < U64) (hd : DeadEmpty st) (hs : st.live sender = true)
    (hwf : WF st.mem) (ht : ∀ s, total st.mem s S < U64)
    (hc : Covers S reserve sender [t])
    (h : execItem reserve ratio st sender t = some st') :
    WF st'.mem ∧ DeadEmpty st' ∧ (∀ x, st.live x = true → st'.live x = true) ∧
    (∀ s, total st'.mem s S = total st.mem s S) ∧
    st'.orders = st.orders ++ (if friction ratio t > 0 then [friction ratio t] else []) ∧
    ∃ r, t.dest.ref = some r ∧ ∀ x s b, (bal st'.mem x s b : Int) = bal st.mem x s b +
      sumReq (reqDelta x s b) (reqsOf reserve ratio sender r t) := by
  unfold execItem at h
  split at h
  · cases h
  rename_i st1 actual hf
  split at h
  · cases h
  rename_i st2 r hg
  split at h
  · cases h
  rename_i m hop
  simp only [Option.some.injEq] at h
  subst h
  obtain ⟨hact, hl1, hd1, ho1, he1⟩ := frictionStep_facts hr ha hd hs hf
  subst hact
  obtain ⟨hdest, hb2, hd2, hlr, hmono, ho2⟩ := getOrNew_facts hg hd1
  obtain ⟨hcr, hcs, hcd⟩ := hc
  have hrS : r ∈ S := hcd t (by simp) r hdest
  have hfle := friction_le hr t
  obtain ⟨w1, e1, t1⟩ := execAll_exact S _ st.mem st1.mem hwf (by
    intro q hq
    split at hq
    · simp at hq
      rcases hq with rfl | rfl
      · exact ⟨hcs, by simp [hcr], by simp only; omega⟩
      · exact ⟨hcr, by simp, by simp only; omega⟩
    · simp at hq) (by intro s; rw [mintedAll_friction]; exact ht s) he1
  have w2 : WF st2.mem := by intro x s b; rw [hb2]; exact w1 x s b
  have t12 : ∀ s, total st2.mem s S = total st.mem s S := by
    intro s
    rw [total_congr hb2]
    have := t1 s
    rw [mintedAll_friction, burnedAll_friction] at this
    simpa using this
  obtain ⟨w3, e3, t3⟩ := execAll_exact S [⟨sender, t.sym, .subFree, t.amount - friction ratio t, some r⟩] st2.mem m w2 (by
    intro q hq
    simp at hq
    subst hq
    exact ⟨hcs, by simp [hrS], by simp only; omega⟩) (by
      intro s; simp only [mintedAll_cons, mintedAll_nil, minted]; simp; rw [t12]; exact ht s) (execAll_one hop)
  refine ⟨w3, ?_, ?_, ?_, ?_, r, hdest, ?_⟩
  · intro x hx s b
    simp only at hx ⊢
    have n1 : x ≠ sender := by
      rintro rfl
      rw [hmono x (by rw [hl1]; exact hs)] at hx; cases hx
    have n2 : x ≠ r := by rintro rfl; rw [hlr] at hx; cases hx
    rw [opBal_untouched hop n1 (by simp; exact fun e => n2 e.symm)]
    exact hd2 x hx s b
  · intro x hx
    exact hmono x (by rw [hl1]; exact hx)
  · intro s
    have := t3 s
    simp only [mintedAll_cons, mintedAll_nil, burnedAll_cons, burnedAll_nil, minted, burned] at this
    simp at this
    rw [this, t12]
  · simp only [ho2, ho1]
  · intro x s b
    rw [e3, hb2, e1]
    simp only [reqsOf, sumReq_append]
    omega

/-- Change made by one transfer, written out. -/
theorem reqsOf_delta (reserve : Ref) {ratio : Nat} (hr : ratio ≤ 10000) (sender r : Ref) (t : Item) (x : Ref) (s : Sym)
    (b : Bucket) :
    sumReq (reqDelta x s b) (reqsOf reserve ratio sender r t) =
      - cell x s b sender t.sym .free t.amount
      + cell x s b r t.sym .free (t.amount - friction ratio t : Nat)
      + cell x s b reserve t.sym .frozen (friction ratio t) := by
  have hle := friction_le hr t
  have hz : t.sym ≠ "WUSD" → friction ratio t = 0 := by intro h; simp [friction, h]
  have hsub : ((t.amount - friction ratio t : Nat) : Int) = t.amount - friction ratio t := by omega
  unfold reqsOf
  by_cases hpos : friction ratio t > 0
  · have hw : t.sym = "WUSD" := by
      by_contra hne
      have := hz hne; omega
    rw [if_pos hpos]
    simp only [List.cons_append, List.nil_append, sumReq_cons, sumReq_nil, reqDelta_subFree_peer,
      reqDelta_move (op := .freeze) rfl, hw]
    unfold cell
    split <;> split <;> split <;> split <;> simp_all <;> omega
  · have h0 : friction ratio t = 0 := by omega
    rw [if_neg hpos]
    simp only [List.nil_append, sumReq_cons, sumReq_nil, reqDelta_subFree_peer, h0, Nat.sub_zero]
    unfold cell
    split <;> split <;> simp

theorem sumSym_cons (s : Sym) (f : Item → Nat) (t : Item) (ts : List Item) :
    sumSym s f (t :: ts) = (if t.sym = s then f t else 0) + sumSym s f ts := by
  unfold sumSym
  by_cases h : t.sym = s <;> simp [h]

theorem sumSym_toAcct_cons (s : Sym) (f : Item → Nat) (r : Ref) (t : Item) (ts : List Item) :
    sumSym s f (toAcct r (t :: ts)) = (if t.sym = s ∧ t.dest.ref = some r then f t else 0) + sumSym s f (toAcct r ts) := by
  unfold toAcct
  by_cases h : t.dest.ref = some r
  · simp [h, sumSym_cons]
  · simp [h]

theorem execItems_exact {S : Finset Ref} {reserve sender : Ref} {ratio : Nat} (hr : ratio ≤ 10000)
    (ts : List Item) {st st' : St} (ha : ∀ t ∈ ts, t.amount < U64) (hd : DeadEmpty st) (hs : st.live sender = true)
    (hwf : WF st.mem) (ht : ∀ s, total st.mem s S < U64)
    (hc : Covers S reserve sender ts)
    (h : execItems reserve ratio st sender ts = some st') :
    (∀ s, total st'.mem s S = total st.mem s S) ∧
    st'.orders = st.orders ++ (ts.map (friction ratio)).filter (fun n => decide (n > 0)) ∧
    ∀ x s b, (bal st'.mem x s b : Int) = expected st.mem reserve sender ratio "" 0 ts x s b := by
  induction ts generalizing st with
  | nil =>
    simp only [execItems, Option.some.injEq] at h
    subst h
    simp [expected, sumSym, toAcct]
  | cons t ts ih =>
    simp only [execItems] at h
    cases hi : execItem reserve ratio st sender t with
    | none => rw [hi] at h; cases h
    | some st1 =>
      rw [hi] at h
      have hc1 : Covers S reserve sender [t] := ⟨hc.1, hc.2.1, fun x hx => hc.2.2 x (by simp at hx; simp [hx])⟩
      have hc2 : Covers S reserve sender ts := ⟨hc.1, hc.2.1, fun x hx => hc.2.2 x (by simp [hx])⟩
      obtain ⟨w, hd1, hmono, ht1, ho, r, hdest, hb⟩ := execItem_exact hr (ha t (by simp)) hd hs hwf ht hc1 hi
      obtain ⟨ht2, ho2, hb2⟩ := ih (fun x hx => ha x (by simp [hx])) hd1 (hmono _ hs) w
        (by intro s; rw [ht1]; exact ht s) hc2 h
      refine ⟨fun s => (ht2 s).trans (ht1 s), ?_, ?_⟩
      · rw [ho2, ho, List.append_assoc]
        congr 1
        by_cases hp : friction ratio t > 0 <;> simp [hp]
      · intro x s b
        rw [hb2]
        unfold expected
        rw [hb, reqsOf_delta reserve hr, sumSym_cons, sumSym_cons, sumSym_toAcct_cons]
        have e : t.dest.ref = some x ↔ x = r := by rw [hdest]; simp [eq_comm]
        simp only [e]
        clear hb2 hb ih e h hi hc2 hc1 hd1 hd ht2 ht1 ht ho ho2 w hwf hmono ha hs hc hdest
        generalize sumSym s (fun t => t.amount - friction ratio t) (toAcct x ts) = A
        generalize sumSym s Item.amount ts = B
        generalize sumSym s (friction ratio) ts = C
        generalize t.amount - friction ratio t = D
        unfold cell
        by_cases h3 : s = t.sym
        · subst h3
          cases b
          · rcases Classical.propComplete (x = sender) with h1 | h1 <;>
              rcases Classical.propComplete (x = r) with h4 | h4 <;> simp only [h1, h4] <;> simp <;> omega
          · rcases Classical.propComplete (x = reserve) with h2 | h2 <;> simp only [h2] <;> simp <;> omega
          · simp
          · simp
          · simp
        · have h3' : ¬ t.sym = s := fun e => h3 e.symm
          simp [h3, h3']

theorem payFee_exact {S : Finset Ref} {sender : Ref} {feeSym : Sym} {fee : Nat} {st st' : St}
    (hf : fee < U64) (hd : DeadEmpty st) (hs : st.live sender = true)
    (hwf : WF st.mem) (ht : ∀ s, total st.mem s S < U64) (hS : sender ∈ S)
    (h : payFee st sender feeSym fee = some st') :
    WF st'.mem ∧ DeadEmpty st' ∧ st'.live = st.live ∧ st'.orders = st.orders ∧
    (∀ s, total st'.mem s S + (if s = feeSym then fee else 0) = total st.mem s S) ∧
    ∀ x s b, (bal st'.mem x s b : Int) = bal st.mem x s b + cell x s b sender feeSym .free (-fee) := by
  unfold payFee at h
  split at h
  · split at h
    · cases h
    rename_i m hop
    simp only [Option.some.injEq] at h
    subst h
    obtain ⟨w, e, t⟩ := execAll_exact S [⟨sender, feeSym, .subFree, fee, none⟩] st.mem m hwf (by
      intro q hq; simp at hq; subst hq; exact ⟨hS, by simp, hf⟩)
      (by intro s; simp [minted]; exact ht s) (execAll_one hop)
    refine ⟨w, ?_, rfl, rfl, ?_, ?_⟩
    · intro x hx s b
      have n1 : x ≠ sender := by rintro rfl; simp only at hx; rw [hs] at hx; cases hx
      simp only at hx ⊢
      rw [opBal_untouched hop n1 (by simp)]
      exact hd x hx s b
    · intro s
      have := t s
      simp only [mintedAll_cons, mintedAll_nil, burnedAll_cons, burnedAll_nil, minted, burned] at this
      simp [eq_comm] at this
      simp only [eq_comm (a := s)]
      exact this
    · intro x s b
      rw [e]; simp [reqDelta_subFree]
  · simp only [Option.some.injEq] at h
    subst h
    have : fee = 0 := by omega
    subst this
    simp [hwf, hd, cell]

/-- **C18.** A successful coin transfer debits the sender by the fee plus all
transferred amounts, credits every recipient by its amounts less the friction fees,
puts the friction fees into the risk reserve's frozen balance (one system order each),
and changes nothing else: this determines every bucket of every token of every
account.  Recipients may repeat, be the sender, or be the reserve.

Hypotheses: amounts are 64-bit, the friction ratio is at most 100% (governance allows
at most 50%, src/config/sysparams.h:118), accounts that do not exist hold nothing, and
the supply of every token fits in 64 bits. -/
theorem transfer_moves_exactly (S : Finset Ref) (reserve sender : Ref) (ratio : Nat) (hr : ratio ≤ 10000)
    (st st' : St) (feeSym : Sym) (fee : Nat) (ts : List Item) (hf : fee < U64) (ha : ∀ t ∈ ts, t.amount < U64)
    (hd : DeadEmpty st) (hwf : WF st.mem) (ht : ∀ s, total st.mem s S < U64) (hc : Covers S reserve sender ts)
    (h : transferTx reserve ratio st sender feeSym fee ts = some st') :
    (∀ r s b, (bal st'.mem r s b : Int) = expected st.mem reserve sender ratio feeSym fee ts r s b) ∧
    st'.orders = st.orders ++ (ts.map (friction ratio)).filter (fun n => decide (n > 0)) := by
  unfold transferTx at h
  split at h
  · cases h
  rename_i hl
  have hl : st.live sender = true := by simpa using hl
  split at h
  · cases h
  rename_i st1 hp
  obtain ⟨w, hd1, hl1, ho1, ht1, hb1⟩ := payFee_exact hf hd hl hwf ht hc.2.1 hp
  obtain ⟨_, ho2, hb2⟩ := execItems_exact hr ts ha hd1 (by rw [hl1]; exact hl) w
    (by intro s; have := ht1 s; have := ht s; omega) hc h
  refine ⟨?_, by rw [ho2, ho1]⟩
  intro r s b
  rw [hb2]
  unfold expected
  rw [hb1]
  unfold cell
  rcases Classical.propComplete (r = sender) with h1 | h1 <;> rcases Classical.propComplete (s = feeSym) with h2 | h2 <;>
    cases b <;> simp only [h1, h2] <;> simp <;> omega

/-- **C18.** A successful transfer keeps the total of every token, apart from the fee
(which the miner receives through the block reward). -/
theorem transfer_conserves (S : Finset Ref) (reserve sender : Ref) (ratio : Nat) (hr : ratio ≤ 10000)
    (st st' : St) (feeSym : Sym) (fee : Nat) (ts : List Item) (hf : fee < U64) (ha : ∀ t ∈ ts, t.amount < U64)
    (hd : DeadEmpty st) (hwf : WF st.mem) (ht : ∀ s, total st.mem s S < U64) (hc : Covers S reserve sender ts)
    (h : transferTx reserve ratio st sender feeSym fee ts = some st') (s : Sym) :
    total st'.mem s S + (if s = feeSym then fee else 0) = total st.mem s S := by
  unfold transferTx at h
  split at h
  · cases h
  rename_i hl
  have hl : st.live sender = true := by simpa using hl
  split at h
  · cases h
  rename_i st1 hp
  obtain ⟨w, hd1, hl1, ho1, ht1, hb1⟩ := payFee_exact hf hd hl hwf ht hc.2.1 hp
  obtain ⟨t2, _⟩ := execItems_exact hr ts ha hd1 (by rw [hl1]; exact hl) w
    (by intro s; have := ht1 s; have := ht s; omega) hc h
  rw [t2]; exact ht1 s

/-- **C18** for the older WICC-only transfer. -/
theorem base_transfer_moves_exactly (S : Finset Ref) (sender : Ref)
    (st st' : St) (feeSym : Sym) (fee : Nat) (dest : Dest) (amount : Nat) (hf : fee < U64) (ha : amount < U64)
    (hd : DeadEmpty st) (hwf : WF st.mem) (ht : ∀ s, total st.mem s S < U64)
    (hS : sender ∈ S) (hdS : ∀ r, dest.ref = some r → r ∈ S)
    (h : baseTransferTx st sender feeSym fee dest amount = some st') :
    ∀ r s b, (bal st'.mem r s b : Int) =
      bal st.mem r s b
      - (if r = sender ∧ b = .free then (if s = feeSym then (fee : Int) else 0) + (if s = "WICC" then (amount : Int) else 0) else 0)
      + (if dest.ref = some r ∧ b = .free ∧ s = "WICC" then (amount : Int) else 0) := by
  unfold baseTransferTx at h
  split at h
  · cases h
  rename_i hl
  have hl : st.live sender = true := by simpa using hl
  split at h
  · cases h
  rename_i st1 hp
  obtain ⟨w, hd1, hl1, ho1, ht1, hb1⟩ := payFee_exact hf hd hl hwf ht hS hp
  split at h
  · cases h
  rename_i st2 r0 hg
  split at h
  · cases h
  rename_i m hop
  simp only [Option.some.injEq] at h
  subst h
  obtain ⟨hdest, hb2, hd2, hlr, hmono, ho2⟩ := getOrNew_facts hg hd1
  obtain ⟨w3, e3, t3⟩ := execAll_exact S [⟨sender, "WICC", .subFree, amount, some r0⟩] st2.mem m
    (by intro x s b; rw [hb2]; exact w x s b) (by
    intro q hq
    simp at hq
    subst hq
    exact ⟨hS, by simp [hdS r0 hdest], by simpa using ha⟩) (by
      intro s; simp only [mintedAll_cons, mintedAll_nil, minted]; simp; rw [total_congr hb2]
      have := ht1 s; have := ht s; omega) (execAll_one hop)
  intro r s b
  simp only
  rw [e3, hb2, hb1]
  have e : dest.ref = some r ↔ r = r0 := by rw [hdest]; simp [eq_comm]
  simp only [e, sumReq_cons, sumReq_nil, reqDelta_subFree_peer]
  unfold cell
  rcases Classical.propComplete (r = sender) with h1 | h1 <;> rcases Classical.propComplete (s = feeSym) with h2 | h2 <;>
    rcases Classical.propComplete (s = "WICC") with h3 | h3 <;> rcases Classical.propComplete (r = r0) with h4 | h4 <;>
    cases b <;> simp only [h1, h2, h3, h4] <;> simp <;> omega

/-! ## Non-vacuity -/

/-- Account 1 holds 1000 WUSD and 50 WICC; account 9 is the reserve. -/
def exSt : St where
  mem r := { keyid := r, receivedVotes := 0, perms := 0,
             tokens := fun s => if r = 1 ∧ s = "WUSD" then some (fun b => if b = .free then 1000 else 0)
                        else if r = 1 ∧ s = "WICC" then some (fun b => if b = .free then 50 else 0) else none }
  live r := r = 1 || r = 2 || r = 9
  orders := []

/-- A transfer with a repeated recipient, a self transfer and a new account succeeds,
with a 10% friction ratio. -/
example :
    ((transferTx 9 1000 exSt 1 "WICC" 10
      [⟨⟨some 2, false⟩, "WUSD", 100⟩, ⟨⟨some 2, true⟩, "WUSD", 200⟩, ⟨⟨some 1, true⟩, "WUSD", 50⟩,
       ⟨⟨some 7, true⟩, "WICC", 15⟩]).map
      (fun st => (bal st.mem 1 "WUSD" .free, bal st.mem 2 "WUSD" .free, bal st.mem 9 "WUSD" .frozen,
        bal st.mem 1 "WICC" .free, bal st.mem 7 "WICC" .free, st.orders)))
      = some (695, 270, 35, 25, 15, [10, 20, 5]) := by decide

end Verif.Transfer
