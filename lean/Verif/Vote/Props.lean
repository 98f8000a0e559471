import Verif.Vote.Lemmas
import Mathlib.Algebra.Order.BigOperators.Group.Finset

/-!
# Votes received equal votes cast (C24) and the list of top delegates (C25)
-/
namespace Verif.Vote

open Verif.Account Verif.Ledger

/-! ## C24: accounting of votes

`V` is any finite set containing every account that ever votes.  The table `t` lists every account that ever exists;
names only ever get added, so the table at any earlier time accepts fewer votes than `t` does, and the theorems
(which are about accepted votes) cover it. -/

/-- Limits used by the chain: no sum of a full ballot wraps. -/
def Params.Ok (p : Params) : Prop := p.maxCand * p.maxMoney < U64 ∧ 2 * p.maxMoney < U64

/-- The limits of the chain. -/
example : Params.Ok ⟨22, 21000000000000000⟩ := by constructor <;> simp [U64]

/-- The accounting identity for candidates. -/
def Tallied (t : Table) (V : Finset Ref) (s : St) : Prop :=
  ∀ a, (s.mem a).receivedVotes = ∑ r ∈ V, castTo t (s.votes r) a

/-- Well formed vote state. -/
structure Sane (t : Table) (p : Params) (V : Finset Ref) (s : St) : Prop where
  wf : WF s.mem
  entries : ∀ r, EntriesOk t p (s.votes r)
  support : ∀ r, r ∉ V → s.votes r = []
  cap : ∀ a, (s.mem a).receivedVotes ≤ p.maxMoney
  tallied : Tallied t V s

/-- Rule from the second fork on: the locked balance of a voter is the total of the votes. -/
def LockedSum (s : St) : Prop := ∀ r, bal s.mem r "WICC" .voted = sumVotes (s.votes r)

/-- Rule before the second fork: the locked balance of a voter is the largest vote. -/
def LockedMax (s : St) : Prop := ∀ r, bal s.mem r "WICC" .voted = (s.votes r).foldr (fun e m => max e.2 m) 0

/-- Every vote of a transaction is in range and for a known candidate. -/
def VotesOk (t : Table) (p : Params) (vs : List Vote) : Prop :=
  ∀ v ∈ vs, (0 < v.amount ∧ v.amount ≤ p.maxMoney) ∧ ∃ b, t.acct v.cand = some b

theorem insertDesc_head {e : Uid × Nat} {es : Entries} :
    newTotal false (insertDesc e es) = max e.2 (newTotal false es) := by
  cases es with
  | nil => simp [insertDesc, newTotal]
  | cons x es =>
    simp only [insertDesc]
    split <;> simp only [newTotal, Bool.false_eq_true, if_false] <;> omega

theorem newTotal_r1 (es : Entries) : newTotal false (sortDesc es) = (sortDesc es).foldr (fun e m => max e.2 m) 0 := by
  have h1 : ∀ es : Entries, newTotal false (sortDesc es) = es.foldr (fun e m => max e.2 m) 0 := by
    intro es
    induction es with
    | nil => simp [sortDesc, newTotal]
    | cons e es ih => simp only [sortDesc, insertDesc_head, ih, List.foldr_cons]
  rw [h1]
  exact ((sortDesc_perm es).foldr_eq' (fun x _ y _ z => by omega) 0).symm

theorem max_le_of {p : Params} {t : Table} {es : Entries} (h : EntriesOk t p es) :
    es.foldr (fun e m => max e.2 m) 0 ≤ p.maxMoney := by
  have := h.range
  clear h
  induction es with
  | nil => simp
  | cons e es ih =>
    have h1 := (this e (by simp)).2
    have h2 := ih (fun x hx => this x (by simp [hx]))
    simp only [List.foldr_cons]
    omega

/-- Casting votes and crediting the candidates: the step shared by vote transactions and the revocation run. -/
theorem core {t : Table} (ht : t.Ok) {p : Params} (hp : p.Ok) {V : Finset Ref} {r2 : Bool} {i : Nat} {s s' : St}
    {voter : Ref} (hV : voter ∈ V) {vs : List Vote} (hvs : VotesOk t p vs) (hs : Sane t p V s) {es : Entries} {m : Mem}
    (h1 : processVotes t p r2 i s.mem voter (s.votes voter) vs = some (es, m))
    (h2 : creditVotes t p { s with mem := m, votes := fun r => if r = voter then es else s.votes r } vs = some s') :
    Sane t p V s' ∧ (∀ r, s'.votes r = if r = voter then es else s.votes r) ∧ s'.registered = s.registered ∧
    (∀ r, bal s'.mem r "WICC" .voted = if r = voter then newTotal r2 es else bal s.mem r "WICC" .voted) ∧
    (∀ a, (castTo t es a : Int) = castTo t (s.votes voter) a + deltas t a vs) ∧
    (r2 = false → newTotal false es = es.foldr (fun e m => max e.2 m) 0) := by
  have hent := hs.entries voter
  have hbound : ∀ es1, applyVotes t p (s.votes voter) vs = some es1 → newTotal r2 (sortDesc es1) < U64 := by
    intro es1 h
    have ho := entriesOk_perm (sortDesc_perm es1) (applyVotes_spec ht hp.2 hvs h hent).1
    cases r2 with
    | true =>
      rw [newTotal_r2 hp.1 ho]
      have h3 := sumVotes_le ho
      have h4 : (sortDesc es1).length * p.maxMoney ≤ p.maxCand * p.maxMoney := Nat.mul_le_mul_right _ ho.size
      have := hp.1
      omega
    | false =>
      rw [newTotal_r1]
      have h3 := max_le_of ho
      have := hp.2
      omega
  obtain ⟨es1, a1, rfl, a3, a4, a5⟩ := processVotes_spec h1 hs.wf hbound
  obtain ⟨b1, b2⟩ := applyVotes_spec ht hp.2 hvs a1 hent
  have hperm := sortDesc_perm es1
  obtain ⟨c1, c2, c3, c4, c5⟩ := creditVotes_spec hp.2 (fun v hv => (hvs v hv).1.2) h2 (by
    intro a; simp only; rw [a5]; exact hs.cap a)
  have hcast : ∀ a, (castTo t (sortDesc es1) a : Int) = castTo t (s.votes voter) a + deltas t a vs := by
    intro a; rw [castTo_perm hperm, b2]
  have hvotes : ∀ r, s'.votes r = if r = voter then sortDesc es1 else s.votes r := by intro r; rw [c4]
  refine ⟨⟨?_, ?_, ?_, c2, ?_⟩, hvotes, c5, ?_, hcast, fun _ => newTotal_r1 es1⟩
  · intro r sy b; rw [c3]; exact a3 r sy b
  · intro r
    rw [hvotes]
    split
    · exact entriesOk_perm hperm b1
    · exact hs.entries r
  · intro r hr
    rw [hvotes]
    split
    · rename_i h; subst h; exact absurd hV hr
    · exact hs.support r hr
  · intro a
    have e1 := c1 a
    simp only at e1
    rw [a5] at e1
    have e2 := hs.tallied a
    have e3 : ∑ r ∈ V, castTo t (s'.votes r) a = castTo t (sortDesc es1) a + ∑ r ∈ V.erase voter, castTo t (s.votes r) a := by
      rw [← Finset.add_sum_erase V _ hV, hvotes voter, if_pos rfl]
      congr 1
      apply Finset.sum_congr rfl
      intro r hr
      rw [hvotes r, if_neg (Finset.ne_of_mem_erase hr)]
    have e4 : ∑ r ∈ V, castTo t (s.votes r) a = castTo t (s.votes voter) a + ∑ r ∈ V.erase voter, castTo t (s.votes r) a :=
      (Finset.add_sum_erase V _ hV).symm
    have e5 := hcast a
    rw [e3]
    omega
  · intro r
    rw [c3]
    exact a4 r

theorem checkVotes_ok {t : Table} {p : Params} {ver : Ver} {s : St} {vs : List Vote} (h : checkVotes t p ver s vs = true) :
    VotesOk t p vs := by
  intro v hv
  simp only [checkVotes, Bool.and_eq_true, List.all_eq_true, decide_eq_true_eq] at h
  obtain ⟨h1, h2⟩ := h.2 v hv
  refine ⟨h1, ?_⟩
  cases ha : t.acct v.cand with
  | none => rw [ha] at h2; cases h2
  | some b => exact ⟨b, rfl⟩

theorem voteTx_parts {t : Table} {p : Params} {ver : Ver} {i : Nat} {s s' : St} {voter : Ref} {vs : List Vote}
    (h : voteTx t p ver i s voter vs = some s') :
    VotesOk t p vs ∧ checkVotes t p ver s vs = true ∧
    ∃ es m, processVotes t p ver.r2 i s.mem voter (s.votes voter) vs = some (es, m) ∧
      creditVotes t p { s with mem := m, votes := fun r => if r = voter then es else s.votes r } vs = some s' := by
  unfold voteTx at h
  split at h
  · cases h
  rename_i hc
  split at h
  · cases h
  rename_i es m hpv
  have hc : checkVotes t p ver s vs = true := by simpa using hc
  exact ⟨checkVotes_ok hc, hc, es, m, hpv, h⟩

/-- A vote transaction keeps the accounting identity, and the lock rule of its version. -/
theorem voteTx_keeps {t : Table} (ht : t.Ok) {p : Params} (hp : p.Ok) {V : Finset Ref} {ver : Ver} {i : Nat} {s s' : St}
    {voter : Ref} (hV : voter ∈ V) {vs : List Vote} (hs : Sane t p V s) (h : voteTx t p ver i s voter vs = some s') :
    Sane t p V s' ∧ (ver.r2 = true → LockedSum s → LockedSum s') ∧ (ver.r2 = false → LockedMax s → LockedMax s') := by
  obtain ⟨hvs, -, es, m, h1, h2⟩ := voteTx_parts h
  obtain ⟨a1, a2, -, a4, -, a6⟩ := core ht hp hV hvs hs h1 h2
  refine ⟨a1, ?_, ?_⟩
  · intro hr hl r
    rw [a4, a2]
    split
    · have := a1.entries voter
      rw [a2, if_pos rfl] at this
      rw [hr, newTotal_r2 hp.1 this]
    · exact hl r
  · intro hr hl r
    rw [a4, a2]
    split
    · rw [hr, a6 hr]
    · exact hl r

theorem deltas_revocations (t : Table) (a : Ref) (es : Entries) :
    deltas t a (revocations es) = -(castTo t es.tail a : Int) := by
  unfold revocations
  generalize es.tail = l
  induction l with
  | nil => simp [deltas, castTo]
  | cons e l ih =>
    simp only [deltas, castTo, List.map_cons, List.sum_cons] at ih ⊢
    rw [ih]
    simp only [delta]
    split <;> push_cast <;> omega

/-- A ballot whose votes per candidate are those of a single entry is a single entry. -/
theorem single_of_cast {t : Table} {p : Params} {es : Entries} (h : EntriesOk t p es) {e : Option (Uid × Nat)}
    (hc : ∀ a, castTo t es a = castTo t e.toList a) : es.length ≤ 1 := by
  have hall : ∀ x ∈ es, ∀ y ∈ es, t.acct x.1 = t.acct y.1 := by
    have hm : ∀ x ∈ es, ∃ f, e = some f ∧ t.acct f.1 = t.acct x.1 := by
      intro x hx
      obtain ⟨a, ha⟩ := h.known x hx
      have h1 : 0 < castTo t es a := by
        have h2 : (if t.acct x.1 = some a then x.2 else 0) ≤ castTo t es a :=
          List.single_le_sum (by simp) _ (List.mem_map.2 ⟨x, hx, rfl⟩)
        rw [if_pos ha] at h2
        have := (h.range x hx).1
        omega
      rw [hc a] at h1
      cases e with
      | none => simp [castTo] at h1
      | some f =>
        refine ⟨f, rfl, ?_⟩
        simp only [castTo, Option.toList_some, List.map_cons, List.map_nil, List.sum_cons, List.sum_nil] at h1
        split at h1
        · rename_i h2; rw [h2, ha]
        · omega
    intro x hx y hy
    obtain ⟨f, hf, hfx⟩ := hm x hx
    obtain ⟨g, hg, hgy⟩ := hm y hy
    rw [hf] at hg
    simp only [Option.some.injEq] at hg
    subst hg
    rw [← hfx, hgy]
  match es, h.distinct with
  | [], _ => simp
  | [_], _ => simp
  | x :: y :: l, hd =>
    have := hall x (by simp) y (by simp)
    simp [this] at hd

theorem revocations_ok {t : Table} {p : Params} {es : Entries} (h : EntriesOk t p es) : VotesOk t p (revocations es) := by
  intro v hv
  simp only [revocations, List.mem_map] at hv
  obtain ⟨e, he, rfl⟩ := hv
  have he' := List.mem_of_mem_tail he
  exact ⟨h.range e he', h.known e he'⟩

theorem revokeAll_keeps {t : Table} (ht : t.Ok) {p : Params} (hp : p.Ok) {V : Finset Ref} {i : Ref → Nat} {l : List Ref}
    {s s' : St} (hl : ∀ r ∈ l, r ∈ V) (hs : Sane t p V s) (h : revokeAll t p i s l = some s') :
    Sane t p V s' ∧ (∀ r, r ∉ l → s'.votes r = s.votes r ∧ bal s'.mem r "WICC" .voted = bal s.mem r "WICC" .voted) ∧
    (∀ r, (r ∈ l ∨ bal s.mem r "WICC" .voted = sumVotes (s.votes r)) → bal s'.mem r "WICC" .voted = sumVotes (s'.votes r)) := by
  induction l generalizing s with
  | nil =>
    simp only [revokeAll, Option.some.injEq] at h
    subst h
    exact ⟨hs, fun _ _ => ⟨rfl, rfl⟩, fun r hr => by simpa using hr⟩
  | cons x l ih =>
    simp only [revokeAll] at h
    split at h
    · cases h
    rename_i s1 h1
    unfold revokeOne at h1
    split at h1
    · cases h1
    rename_i es m hpv
    have hent := hs.entries x
    obtain ⟨a1, a2, -, a4, a5, a6⟩ := core ht hp (hl x (by simp)) (revocations_ok hent) hs hpv h1
    have hsingle : newTotal false es = sumVotes es := by
      have ho := a1.entries x
      rw [a2, if_pos rfl] at ho
      have hlen : es.length ≤ 1 := by
        apply single_of_cast ho (e := (s.votes x).head?)
        intro a
        have := a5 a
        rw [deltas_revocations] at this
        cases hx : s.votes x with
        | nil =>
          rw [hx] at this
          have h0 : castTo t [] a = 0 := rfl
          simp only [List.tail_nil, List.head?_nil, Option.toList_none] at this ⊢
          omega
        | cons e l =>
          rw [hx] at this
          have h0 : castTo t (e :: l) a = (if t.acct e.1 = some a then e.2 else 0) + castTo t l a := rfl
          have h1 : castTo t [e] a = if t.acct e.1 = some a then e.2 else 0 := rfl
          simp only [List.tail_cons, List.head?_cons, Option.toList_some] at this ⊢
          omega
      match es, hlen with
      | [], _ => simp [newTotal, sumVotes]
      | [e], _ => simp [newTotal, sumVotes]
      | _ :: _ :: _, h => simp at h
    obtain ⟨i1, i2, i3⟩ := ih (fun r hr => hl r (by simp [hr])) a1 h
    refine ⟨i1, ?_, ?_⟩
    · intro r hr
      simp only [List.mem_cons, not_or] at hr
      obtain ⟨j1, j2⟩ := i2 r hr.2
      rw [j1, j2, a2, a4, if_neg hr.1, if_neg hr.1]
      exact ⟨rfl, rfl⟩
    · intro r hr
      apply i3
      by_cases hrx : r = x
      · right; rw [a4, a2, if_pos hrx, if_pos hrx, hsingle]
      · rcases hr with hr | hr
        · left; simpa [hrx] using hr
        · right; rw [a4, a2, if_neg hrx, if_neg hrx, hr]

/-- Histories.  `Reach t p V false` are states before the second fork, `Reach t p V true` states after it.  `start` is
the state after the genesis block.  `other` is anything else that happens to accounts: it may change every balance but
not the locked votes or the received votes, which only votes change. -/
inductive Reach (t : Table) (p : Params) (V : Finset Ref) : Bool → St → Prop where
  | start (s : St) : Sane t p V s → LockedMax s → Reach t p V false s
  | vote {r2 : Bool} {s s' : St} (r35 : Bool) (i : Nat) (voter : Ref) (vs : List Vote) :
      Reach t p V r2 s → voter ∈ V → voteTx t p ⟨r2, r35⟩ i s voter vs = some s' → Reach t p V r2 s'
  | register {r2 : Bool} {s : St} (a : Ref) : Reach t p V r2 s →
      Reach t p V r2 { s with registered := fun r => if r = a then true else s.registered r }
  | other {r2 : Bool} {s : St} (m : Mem) : Reach t p V r2 s → WF m →
      (∀ r, bal m r "WICC" .voted = bal s.mem r "WICC" .voted) → (∀ r, (m r).receivedVotes = (s.mem r).receivedVotes) →
      Reach t p V r2 { s with mem := m }
  | fork {s s' : St} (i : Ref → Nat) (l : List Ref) : Reach t p V false s → (∀ r ∈ l, r ∈ V) →
      (∀ r, s.votes r ≠ [] → r ∈ l) → revokeAll t p i s l = some s' → Reach t p V true s'

theorem reach_sane {t : Table} (ht : t.Ok) {p : Params} (hp : p.Ok) {V : Finset Ref} {r2 : Bool} {s : St}
    (h : Reach t p V r2 s) : Sane t p V s ∧ (r2 = true → LockedSum s) ∧ (r2 = false → LockedMax s) := by
  induction h with
  | start s h1 h2 => exact ⟨h1, by simp, fun _ => h2⟩
  | vote r35 i voter vs _ hV h ih =>
    obtain ⟨i1, i2, i3⟩ := ih
    obtain ⟨a1, a2, a3⟩ := voteTx_keeps ht hp hV i1 h
    exact ⟨a1, fun hr => a2 hr (i2 hr), fun hr => a3 hr (i3 hr)⟩
  | register a _ ih =>
    obtain ⟨i1, i2, i3⟩ := ih
    exact ⟨⟨i1.wf, i1.entries, i1.support, i1.cap, i1.tallied⟩, i2, i3⟩
  | other m _ hw hb hr ih =>
    obtain ⟨i1, i2, i3⟩ := ih
    refine ⟨⟨hw, i1.entries, i1.support, ?_, ?_⟩, ?_, ?_⟩
    · intro a; simp only; rw [hr]; exact i1.cap a
    · intro a; simp only; rw [hr]; exact i1.tallied a
    · intro h r; simp only; rw [hb]; exact i2 h r
    · intro h r; simp only; rw [hb]; exact i3 h r
  | @fork s s' i l _ hl hall h ih =>
    obtain ⟨i1, -, i3⟩ := ih
    obtain ⟨a1, a2, a3⟩ := revokeAll_keeps ht hp hl i1 h
    refine ⟨a1, ?_, by simp⟩
    intro _ r
    apply a3
    by_cases hr : s.votes r = []
    · right
      rw [i3 rfl r, hr]
      simp [sumVotes]
    · exact .inl (hall r hr)

/-- Votes received equal votes cast, at every moment of every history. -/
theorem votes_received_are_votes_cast {t : Table} (ht : t.Ok) {p : Params} (hp : p.Ok) {V : Finset Ref} {r2 : Bool} {s : St}
    (h : Reach t p V r2 s) (a : Ref) : (s.mem a).receivedVotes = ∑ r ∈ V, castTo t (s.votes r) a :=
  (reach_sane ht hp h).1.tallied a

/-- From the second fork on the locked balance of every voter is the total of that voter's votes. -/
theorem locked_is_total_of_votes_partial {t : Table} (ht : t.Ok) {p : Params} (hp : p.Ok) {V : Finset Ref} {s : St}
    (h : Reach t p V true s) (r : Ref) : bal s.mem r "WICC" .voted = sumVotes (s.votes r) :=
  (reach_sane ht hp h).2.1 rfl r

/-- Before the second fork the locked balance of every voter is the largest of that voter's votes. -/
theorem locked_is_largest_vote {t : Table} (ht : t.Ok) {p : Params} (hp : p.Ok) {V : Finset Ref} {s : St}
    (h : Reach t p V false s) (r : Ref) : bal s.mem r "WICC" .voted = (s.votes r).foldr (fun e m => max e.2 m) 0 :=
  (reach_sane ht hp h).2.2 rfl r

/-! A concrete setting: voters 1 and 2, candidates 3 and 4; candidate 3 can be named by registration id or key. -/

def exT : Table where
  acct := fun u => if u = .reg 103 then some 3 else if u = .pk 203 then some 3 else if u = .reg 104 then some 4 else none
  owner := fun a => if a = 3 then some 203 else none
  raw := fun a => [a, 0, 0, 0, 1, 0]

def exP : Params := ⟨22, 21000000000000000⟩

def exMem : Mem := fun _ => ⟨0, fun s => if s = "WICC" then some (fun b => if b = .free then 1000 else 0) else none, 0, 0⟩

def exSt : St := ⟨exMem, fun _ => [], fun _ => true, []⟩

theorem exT_ok : exT.Ok := by
  refine ⟨?_, ?_, ?_⟩
  · intro n m a h1 h2
    simp only [exT] at h1 h2
    split at h1 <;> split at h2 <;> simp_all
    · exact absurd (h1.trans h2.2.symm) (by decide)
    · exact absurd (h2.trans h1.2.symm) (by decide)
  · intro k l a h1 h2
    simp only [exT] at h1 h2
    simp only [reduceCtorEq, if_false] at h1 h2
    split at h1 <;> split at h2 <;> simp_all
  · intro n a k h1
    simp only [exT] at h1 ⊢
    simp only [reduceCtorEq, if_false] at h1 ⊢
    by_cases hn : n = 103
    · subst hn
      simp at h1
      subst h1
      simp [eq_comm]
    · have hn' : (Uid.reg n = Uid.reg 103) = False := by simp [hn]
      simp only [hn', if_false] at h1
      by_cases hm : n = 104
      · subst hm
        simp at h1
        subst h1
        simp
      · simp [hm] at h1

theorem exP_ok : exP.Ok := by constructor <;> simp [U64, exP]

theorem exSt_start : Reach exT exP {1, 2} false exSt := by
  refine .start _ ⟨?_, ?_, ?_, ?_, ?_⟩ ?_
  · intro r s b
    simp only [bal, exSt, exMem, Account.token]
    by_cases hs : s = "WICC"
    · subst hs; cases b <;> simp [U64]
    · simp [hs, U64, Token.zero]
  · intro r; exact ⟨by simp [exSt], by simp [exSt], by simp [exSt], by simp [exSt]⟩
  · intro r _; rfl
  · intro a; simp [exSt, exMem]
  · intro a; simp [exSt, exMem, castTo]
  · intro r; simp [exSt, exMem, bal, Account.token]

/-- A history with two ballots before the fork, the revocation run and a ballot after it is accepted; afterwards
voter 1 gives 300 + 50 votes and has 350 locked. -/
def exHistory : Option St := do
  let s ← voteTx exT exP ⟨false, false⟩ 0 exSt 1 [⟨.add, .reg 103, 300⟩, ⟨.add, .reg 104, 200⟩]
  let s ← voteTx exT exP ⟨false, false⟩ 0 s 2 [⟨.add, .pk 203, 70⟩]
  let s ← revokeAll exT exP (fun _ => 0) s [1, 2]
  voteTx exT exP ⟨true, false⟩ 0 s 1 [⟨.add, .reg 104, 50⟩]

/-- Before the second fork the locked balance is not the total: a reachable state locks 300 for votes of 500. -/
theorem locked_total_violated_before_fork :
    ∃ s, Reach exT exP {1, 2} false s ∧ sumVotes (s.votes 1) = 500 ∧ bal s.mem 1 "WICC" .voted = 300 := by
  have hsome : (voteTx exT exP ⟨false, false⟩ 0 exSt 1 [⟨.add, .reg 103, 300⟩, ⟨.add, .reg 104, 200⟩]).isSome = true := by
    decide +kernel
  obtain ⟨s, hs⟩ := Option.isSome_iff_exists.1 hsome
  refine ⟨s, .vote _ _ _ _ exSt_start (by simp) hs, ?_, ?_⟩
  · have : (voteTx exT exP ⟨false, false⟩ 0 exSt 1 [⟨.add, .reg 103, 300⟩, ⟨.add, .reg 104, 200⟩]).map
      (fun s => sumVotes (s.votes 1)) = some 500 := by decide +kernel
    rw [hs] at this; simpa using this
  · have : (voteTx exT exP ⟨false, false⟩ 0 exSt 1 [⟨.add, .reg 103, 300⟩, ⟨.add, .reg 104, 200⟩]).map
      (fun s => bal s.mem 1 "WICC" .voted) = some 300 := by decide +kernel
    rw [hs] at this; simpa using this

/-- The hypotheses of the theorems about states after the fork can be met. -/
example : ∃ s, Reach exT exP {1, 2} true s ∧ sumVotes (s.votes 1) = 350 ∧ (s.mem 3).receivedVotes = 370 := by
  have h0 : exHistory.isSome = true := by decide +kernel
  obtain ⟨s, hs⟩ := Option.isSome_iff_exists.1 h0
  have hv : exHistory.map (fun s => (sumVotes (s.votes 1), (s.mem 3).receivedVotes)) = some (350, 370) := by decide +kernel
  rw [hs] at hv
  simp only [Option.map_some, Option.some.injEq, Prod.mk.injEq] at hv
  refine ⟨s, ?_, hv⟩
  simp only [exHistory, Option.bind_eq_bind, Option.bind_eq_some_iff] at hs
  obtain ⟨s1, h1, s2, h2, s3, h3, h4⟩ := hs
  have r1 : Reach exT exP {1, 2} false s1 := .vote _ _ _ _ exSt_start (by simp) h1
  have r2 : Reach exT exP {1, 2} false s2 := .vote _ _ _ _ r1 (by simp) h2
  refine .vote false 0 1 _ (.fork (fun _ => 0) [1, 2] r2 (by simp) ?_ h3) (by simp) h4
  intro r hr
  by_contra hc
  exact hr ((reach_sane exT_ok exP_ok r2).1.support r (by simpa using hc))

end Verif.Vote
