import Verif.Vote.Props

/-!
# The list of top delegates (C25)
-/
namespace Verif.Vote

open Verif.Account Verif.Ledger

/-! ### Order -/

theorem lexLt_irrefl (a : List Nat) : lexLt a a = false := by
  induction a with
  | nil => rfl
  | cons x a ih => simp [lexLt, ih]

theorem lexLt_trans {a b c : List Nat} (h1 : lexLt a b = true) (h2 : lexLt b c = true) : lexLt a c = true := by
  induction a generalizing b c with
  | nil =>
    cases b with
    | nil => cases h1
    | cons y b => cases c with
      | nil => cases h2
      | cons z c => rfl
  | cons x a ih =>
    cases b with
    | nil => cases h1
    | cons y b => cases c with
      | nil => cases h2
      | cons z c =>
        simp only [lexLt] at h1 h2 ⊢
        split at h1
        · split at h2
          · rw [if_pos (by omega)]
          · split at h2
            · rw [if_pos (by omega)]
            · cases h2
        · split at h1
          · split at h2
            · rw [if_pos (by omega)]
            · split at h2
              · rw [if_neg (by omega), if_pos (by omega)]; exact ih h1 h2
              · cases h2
          · cases h1

theorem lexLt_total {a b : List Nat} (h : a ≠ b) : lexLt a b = true ∨ lexLt b a = true := by
  induction a generalizing b with
  | nil => cases b with
    | nil => exact absurd rfl h
    | cons y b => exact .inl rfl
  | cons x a ih => cases b with
    | nil => exact .inr rfl
    | cons y b =>
      simp only [lexLt]
      rcases Nat.lt_trichotomy x y with hxy | hxy | hxy
      · left; rw [if_pos hxy]
      · subst hxy
        simp only [lt_irrefl, if_false, if_true]
        exact ih (fun h' => h (by rw [h']))
      · right; rw [if_pos hxy]

/-- The order of the delegate list: more votes first, equal votes by the stored form of the registration id. -/
def Before (t : Table) (x y : Nat × Ref) : Prop := y.1 < x.1 ∨ (x.1 = y.1 ∧ lexLt (t.raw x.2) (t.raw y.2) = true)

theorem keyLt_iff (t : Table) (x y : Nat × Ref) : keyLt t x y = true ↔ Before t x y := by
  unfold keyLt Before
  split
  · rename_i h; simp [h]
  · split
    · rename_i h1 h2; simp [h2]
    · rename_i h1 h2; simp; omega

theorem before_trans {t : Table} {x y z : Nat × Ref} (h1 : Before t x y) (h2 : Before t y z) : Before t x z := by
  rcases h1 with h1 | ⟨h1, h1'⟩ <;> rcases h2 with h2 | ⟨h2, h2'⟩
  · left; omega
  · left; omega
  · left; omega
  · right; exact ⟨by omega, lexLt_trans h1' h2'⟩

theorem before_total {t : Table} (hraw : ∀ a b, t.raw a = t.raw b → a = b) {x y : Nat × Ref} (h : x ≠ y) :
    Before t x y ∨ Before t y x := by
  rcases Nat.lt_trichotomy x.1 y.1 with h1 | h1 | h1
  · exact .inr (.inl h1)
  · have h2 : t.raw x.2 ≠ t.raw y.2 := fun h' => h (Prod.ext h1 (hraw _ _ h'))
    rcases lexLt_total h2 with h3 | h3
    · exact .inl (.inr ⟨h1, h3⟩)
    · exact .inr (.inr ⟨h1.symm, h3⟩)
  · exact .inl (.inl h1)

/-! ### Iteration -/

theorem insertKey_perm (t : Table) (e : Nat × Ref) (l : List (Nat × Ref)) : (insertKey t e l).Perm (e :: l) := by
  induction l with
  | nil => exact List.Perm.refl _
  | cons x l ih =>
    simp only [insertKey]
    split
    · exact (ih.cons x).trans (List.Perm.swap e x l)
    · exact List.Perm.refl _

theorem iterate_perm (t : Table) (l : List (Nat × Ref)) : (iterate t l).Perm l := by
  induction l with
  | nil => exact List.Perm.refl _
  | cons e l ih => exact (insertKey_perm t e _).trans (ih.cons e)

theorem insertKey_sorted {t : Table} (hraw : ∀ a b, t.raw a = t.raw b → a = b) {e : Nat × Ref} {l : List (Nat × Ref)}
    (he : e ∉ l) (h : l.Pairwise (Before t)) : (insertKey t e l).Pairwise (Before t) := by
  induction l with
  | nil => simp [insertKey]
  | cons x l ih =>
    simp only [insertKey]
    simp only [List.pairwise_cons] at h
    simp only [List.mem_cons, not_or] at he
    split
    · rename_i hk
      rw [keyLt_iff] at hk
      rw [List.pairwise_cons]
      refine ⟨?_, ih he.2 h.2⟩
      intro y hy
      rcases List.mem_cons.1 ((insertKey_perm t e l).mem_iff.1 hy) with rfl | hy
      · exact hk
      · exact h.1 y hy
    · rename_i hk
      rw [keyLt_iff] at hk
      have hx : Before t e x := (before_total hraw he.1).resolve_right hk
      simp only [List.pairwise_cons, List.mem_cons]
      refine ⟨?_, h.1, h.2⟩
      rintro y (rfl | hy)
      · exact hx
      · exact before_trans hx (h.1 y hy)

theorem iterate_sorted {t : Table} (hraw : ∀ a b, t.raw a = t.raw b → a = b) {l : List (Nat × Ref)} (h : l.Nodup) :
    (iterate t l).Pairwise (Before t) := by
  induction l with
  | nil => simp [iterate]
  | cons e l ih =>
    simp only [List.nodup_cons] at h
    exact insertKey_sorted hraw (fun hc => h.1 ((iterate_perm t l).mem_iff.1 hc)) (ih h.2)

theorem takeTop_spec {t : Table} {num minVote : Nat} {r3 : Bool} {l : List (Nat × Ref)} {k : Nat}
    (h : l.Pairwise (Before t)) :
    (takeTop num minVote r3 l k).Sublist l ∧ (takeTop num minVote r3 l k).length ≤ num - k ∧
    (r3 = true → ∀ x ∈ takeTop num minVote r3 l k, minVote ≤ x.1) ∧
    (∀ y ∈ l, y ∉ takeTop num minVote r3 l k →
      (num ≤ (takeTop num minVote r3 l k).length + k ∧ ∀ x ∈ takeTop num minVote r3 l k, Before t x y) ∨
      (r3 = true ∧ y.1 < minVote)) := by
  induction l generalizing k with
  | nil => simp [takeTop]
  | cons x l ih =>
    simp only [List.pairwise_cons] at h
    simp only [takeTop]
    split
    · rename_i hk
      split
      · rename_i hm
        simp only [Bool.and_eq_true, decide_eq_true_eq] at hm
        refine ⟨by simp, by simp, by simp, ?_⟩
        intro y hy _
        right
        refine ⟨hm.1, ?_⟩
        rcases List.mem_cons.1 hy with rfl | hy
        · exact hm.2
        · rcases h.1 y hy with h1 | ⟨h1, -⟩ <;> omega
      · rename_i hm
        simp only [Bool.and_eq_true, decide_eq_true_eq, not_and] at hm
        obtain ⟨i1, i2, i3, i4⟩ := ih (k := k + 1) h.2
        refine ⟨i1.cons_cons x, by simp only [List.length_cons]; omega, ?_, ?_⟩
        · intro hr y hy
          rcases List.mem_cons.1 hy with rfl | hy
          · have := hm hr; omega
          · exact i3 hr y hy
        · intro y hy hn
          simp only [List.mem_cons, not_or] at hn
          have hyl : y ∈ l := by simpa [hn.1] using hy
          rcases i4 y hyl hn.2 with ⟨j1, j2⟩ | j
          · left
            refine ⟨by simp only [List.length_cons]; omega, ?_⟩
            intro z hz
            rcases List.mem_cons.1 hz with rfl | hz
            · exact h.1 y hyl
            · exact j2 z hz
          · exact .inr j
    · rename_i hk
      refine ⟨by simp, by simp, by simp, ?_⟩
      intro y hy _
      left
      exact ⟨by simp; omega, by simp⟩

/-- `GetTopVoteDelegates` for every index: the list is ordered, its members are indexed (and reach the minimum where one
applies), it has at most `num` members, and whoever is indexed but not listed comes after everybody in a full list, or
misses the minimum. -/
theorem top_list_spec {t : Table} (hraw : ∀ a b, t.raw a = t.raw b → a = b) {index : List (Nat × Ref)}
    (hnd : index.Nodup) (num minVote : Nat) (r3 : Bool) :
    (getTop t index num minVote r3).Pairwise (Before t) ∧
    (getTop t index num minVote r3).length ≤ num ∧
    (∀ x ∈ getTop t index num minVote r3, x ∈ index ∧ (r3 = true → minVote ≤ x.1)) ∧
    (∀ y ∈ index, y ∉ getTop t index num minVote r3 →
      ((getTop t index num minVote r3).length = num ∧ ∀ x ∈ getTop t index num minVote r3, Before t x y) ∨
      (r3 = true ∧ y.1 < minVote)) := by
  obtain ⟨a1, a2, a3, a4⟩ := takeTop_spec (num := num) (minVote := minVote) (r3 := r3) (k := 0) (iterate_sorted hraw hnd)
  have hp := iterate_perm t index
  refine ⟨(iterate_sorted hraw hnd).sublist a1, by simpa [getTop] using a2, ?_, ?_⟩
  · intro x hx
    exact ⟨hp.mem_iff.1 (a1.subset hx), fun hr => a3 hr x hx⟩
  · intro y hy hn
    rcases a4 y (hp.mem_iff.2 hy) hn with ⟨h1, h2⟩ | h
    · left
      have : (takeTop num minVote r3 (iterate t index) 0).length ≤ num - 0 := a2
      exact ⟨by simp only [getTop]; omega, h2⟩
    · exact .inr h

/-! ### The index follows the recorded votes -/

/-- The index holds only registered candidates with their current votes, each once. -/
def IndexSound (s : St) : Prop := s.index.Nodup ∧ ∀ x ∈ s.index, s.registered x.2 = true ∧ (s.mem x.2).receivedVotes = x.1

/-- The index holds every registered candidate with votes. -/
def IndexComplete (s : St) : Prop :=
  ∀ a, s.registered a = true → 0 < (s.mem a).receivedVotes → ((s.mem a).receivedVotes, a) ∈ s.index

theorem mem_setIndex {s : St} {a : Ref} {v : Nat} {x : Nat × Ref} :
    x ∈ setIndex s a v ↔ x ∈ s.index ∨ (s.registered a = true ∧ x = (v, a)) := by
  unfold setIndex
  split
  · rename_i h
    split
    · rename_i h2
      constructor
      · exact .inl
      · rintro (h3 | ⟨-, rfl⟩)
        · exact h3
        · exact h2
    · simp only [List.mem_cons, h, true_and]; exact or_comm
  · rename_i h; simp [h]

theorem creditVotes_index {t : Table} {p : Params} (hp : 2 * p.maxMoney < U64) {vs : List Vote}
    (hv : ∀ v ∈ vs, 0 < v.amount ∧ v.amount ≤ p.maxMoney) {s s' : St} (h : creditVotes t p s vs = some s')
    (hr : ∀ a, (s.mem a).receivedVotes ≤ p.maxMoney) (hi : IndexSound s) :
    IndexSound s' ∧ (IndexComplete s → IndexComplete s') := by
  induction vs generalizing s with
  | nil =>
    simp only [creditVotes, Option.some.injEq] at h
    subst h
    exact ⟨hi, id⟩
  | cons v vs ih =>
    simp only [creditVotes] at h
    split at h
    · cases h
    rename_i s1 h1
    have hv1 := hv v (by simp)
    unfold creditVote at h1
    split at h1
    · cases h1
    rename_i a ha
    simp only at h1
    split at h1
    · cases h1
    rename_i new hnew
    simp only [Option.some.injEq] at h1
    have hra := hr a
    have hnew' : new ≤ p.maxMoney ∧ new ≠ (s.mem a).receivedVotes := by
      unfold stake at hnew
      split at hnew
      · split at hnew
        · cases hnew
        · simp only [Option.some.injEq] at hnew
          rw [wadd_eq (by omega)] at *
          omega
      · split at hnew
        · cases hnew
        · simp only [Option.some.injEq] at hnew
          omega
    have hrec : ∀ x, (s1.mem x).receivedVotes = if x = a then new else (s.mem x).receivedVotes := by
      intro x; subst h1; simp only [setReceived]; split <;> rfl
    have hreg : s1.registered = s.registered := by rw [← h1]
    have hmem : ∀ x, x ∈ s1.index ↔ if s.registered a = true then (x ∈ s.index ∨ x = (new, a)) ∧ x ≠ ((s.mem a).receivedVotes, a)
        else x ∈ s.index := by
      intro x
      rw [← h1]
      simp only [eraseIndex]
      by_cases hra' : s.registered a = true
      · rw [if_pos hra', if_pos hra']
        simp only [List.mem_filter, mem_setIndex, hra', true_and, decide_eq_true_eq]
      · rw [if_neg hra', if_neg hra', mem_setIndex]
        simp [hra']
    have hsound : IndexSound s1 := by
      constructor
      · rw [← h1]
        simp only [eraseIndex, setIndex]
        split
        · apply List.Nodup.filter
          split
          · exact hi.1
          · rename_i hn; exact List.nodup_cons.2 ⟨hn, hi.1⟩
        · exact hi.1
      · intro x hx
        rw [hmem] at hx
        rw [hreg, hrec]
        split at hx
        · rename_i hra'
          obtain ⟨hx1 | rfl, hx2⟩ := hx
          · obtain ⟨j1, j2⟩ := hi.2 x hx1
            refine ⟨j1, ?_⟩
            split
            · rename_i hxa
              exact absurd (Prod.ext (by rw [← j2, hxa]) hxa) hx2
            · exact j2
          · exact ⟨hra', by simp⟩
        · rename_i hra'
          obtain ⟨j1, j2⟩ := hi.2 x hx
          refine ⟨j1, ?_⟩
          rw [if_neg]
          · exact j2
          · intro hxa; rw [hxa] at j1; exact hra' j1
    have hcomp : IndexComplete s → IndexComplete s1 := by
      intro hc b hb hpos
      rw [hreg] at hb
      rw [hrec] at hpos ⊢
      rw [hmem]
      by_cases hba : b = a
      · subst hba
        rw [if_pos hb]
        simp only [if_true]
        refine ⟨.inr trivial, ?_⟩
        intro hc2
        exact hnew'.2 (Prod.mk.inj hc2).1
      · rw [if_neg hba] at hpos ⊢
        have := hc b hb hpos
        split
        · exact ⟨.inl this, fun h => hba (Prod.mk.inj h).2⟩
        · exact this
    obtain ⟨i1, i2⟩ := ih (fun v hv' => hv v (by simp [hv'])) h (by
      intro x; rw [hrec]; split
      · exact hnew'.1
      · exact hr x) hsound
    exact ⟨i1, fun hc => i2 (hcomp hc)⟩

theorem processVotes_received {t : Table} (ht : t.Ok) {p : Params} (hp : p.Ok) {V : Finset Ref} {r2 : Bool} {i : Nat} {s : St}
    {voter : Ref} {vs : List Vote} (hvs : VotesOk t p vs) (hs : Sane t p V s) {es : Entries} {m : Mem}
    (h1 : processVotes t p r2 i s.mem voter (s.votes voter) vs = some (es, m)) :
    ∀ x, (m x).receivedVotes = (s.mem x).receivedVotes := by
  obtain ⟨_, _, _, _, _, a⟩ := processVotes_spec h1 hs.wf (by
    intro es1 h
    have ho := entriesOk_perm (sortDesc_perm es1) (applyVotes_spec ht hp.2 hvs h (hs.entries voter)).1
    cases r2 with
    | true =>
      rw [newTotal_r2 hp.1 ho]
      have h3 := sumVotes_le ho
      have h4 : (sortDesc es1).length * p.maxMoney ≤ p.maxCand * p.maxMoney := Nat.mul_le_mul_right _ ho.size
      have := hp.1
      omega
    | false =>
      rw [newTotal_r1]
      have h3 := max_le_of ho
      have := hp.2
      omega)
  exact a

theorem core_index {t : Table} (ht : t.Ok) {p : Params} (hp : p.Ok) {V : Finset Ref} {r2 : Bool} {i : Nat} {s s' : St}
    {voter : Ref} {vs : List Vote} (hvs : VotesOk t p vs) (hs : Sane t p V s) {es : Entries} {m : Mem}
    (h1 : processVotes t p r2 i s.mem voter (s.votes voter) vs = some (es, m))
    (h2 : creditVotes t p { s with mem := m, votes := fun r => if r = voter then es else s.votes r } vs = some s')
    (hi : IndexSound s) : IndexSound s' ∧ (IndexComplete s → IndexComplete s') := by
  have hrec := processVotes_received ht hp hvs hs h1
  obtain ⟨a, b⟩ := creditVotes_index hp.2 (fun v hv => (hvs v hv).1) h2
    (by intro a; simp only; rw [hrec]; exact hs.cap a) ⟨hi.1, by intro x hx; simp only; rw [hrec]; exact hi.2 x hx⟩
  refine ⟨a, fun hc => b ?_⟩
  intro x hx hpos
  simp only at hpos ⊢
  rw [hrec] at hpos ⊢
  exact hc x hx hpos

theorem revokeAll_index {t : Table} (ht : t.Ok) {p : Params} (hp : p.Ok) {V : Finset Ref} {i : Ref → Nat} {l : List Ref}
    {s s' : St} (hl : ∀ r ∈ l, r ∈ V) (hs : Sane t p V s) (h : revokeAll t p i s l = some s') (hi : IndexSound s) :
    IndexSound s' ∧ (IndexComplete s → IndexComplete s') := by
  induction l generalizing s with
  | nil =>
    simp only [revokeAll, Option.some.injEq] at h
    subst h
    exact ⟨hi, id⟩
  | cons x l ih =>
    simp only [revokeAll] at h
    split at h
    · cases h
    rename_i s1 h1
    unfold revokeOne at h1
    split at h1
    · cases h1
    rename_i es m hpv
    have hok := revocations_ok (hs.entries x)
    obtain ⟨a1, -⟩ := core ht hp (hl x (by simp)) hok hs hpv h1
    obtain ⟨b1, b2⟩ := core_index ht hp hok hs hpv h1 hi
    obtain ⟨c1, c2⟩ := ih (fun r hr => hl r (by simp [hr])) a1 h b1
    exact ⟨c1, fun hc => c2 (b2 hc)⟩

/-- Histories in which the index is maintained: like `Reach`, starting from a state with a correct index.  The flag `c`
says that every candidate was registered before receiving votes. -/
inductive IReach (t : Table) (p : Params) (V : Finset Ref) : Bool → Bool → St → Prop where
  | start (s : St) : Reach t p V false s → IndexSound s → IndexComplete s → IReach t p V false true s
  | vote {r2 c : Bool} {s s' : St} (r35 : Bool) (i : Nat) (voter : Ref) (vs : List Vote) :
      IReach t p V r2 c s → voter ∈ V → voteTx t p ⟨r2, r35⟩ i s voter vs = some s' → IReach t p V r2 c s'
  | register {r2 c : Bool} {s : St} (a : Ref) : IReach t p V r2 c s → (c = true → (s.mem a).receivedVotes = 0) →
      IReach t p V r2 c { s with registered := fun r => if r = a then true else s.registered r }
  | weaken {r2 : Bool} {s : St} : IReach t p V r2 true s → IReach t p V r2 false s
  | other {r2 c : Bool} {s : St} (m : Mem) : IReach t p V r2 c s → WF m →
      (∀ r, bal m r "WICC" .voted = bal s.mem r "WICC" .voted) → (∀ r, (m r).receivedVotes = (s.mem r).receivedVotes) →
      IReach t p V r2 c { s with mem := m }
  | fork {c : Bool} {s s' : St} (i : Ref → Nat) (l : List Ref) : IReach t p V false c s → (∀ r ∈ l, r ∈ V) →
      (∀ r, s.votes r ≠ [] → r ∈ l) → revokeAll t p i s l = some s' → IReach t p V true c s'

theorem ireach_reach {t : Table} {p : Params} {V : Finset Ref} {r2 c : Bool} {s : St} (h : IReach t p V r2 c s) :
    Reach t p V r2 s := by
  induction h with
  | start s h _ _ => exact h
  | vote r35 i voter vs _ hV h ih => exact .vote r35 i voter vs ih hV h
  | register a _ _ ih => exact .register a ih
  | weaken _ ih => exact ih
  | other m _ h1 h2 h3 ih => exact .other m ih h1 h2 h3
  | fork i l _ h1 h2 h3 ih => exact .fork i l ih h1 h2 h3

theorem index_follows_votes {t : Table} (ht : t.Ok) {p : Params} (hp : p.Ok) {V : Finset Ref} {r2 c : Bool} {s : St}
    (h : IReach t p V r2 c s) : IndexSound s ∧ (c = true → IndexComplete s) := by
  induction h with
  | start s _ h1 h2 => exact ⟨h1, fun _ => h2⟩
  | vote r35 i voter vs hprev hV h ih =>
    obtain ⟨hvs, -, es, m, h1, h2⟩ := voteTx_parts h
    obtain ⟨a, b⟩ := core_index ht hp hvs (reach_sane ht hp (ireach_reach hprev)).1 h1 h2 ih.1
    exact ⟨a, fun hc => b (ih.2 hc)⟩
  | register a _ hz ih =>
    refine ⟨⟨ih.1.1, ?_⟩, ?_⟩
    · intro x hx
      obtain ⟨j1, j2⟩ := ih.1.2 x hx
      exact ⟨by simp only; split <;> simp [j1], j2⟩
    · intro hc b hb hpos
      simp only at hb hpos ⊢
      split at hb
      · rename_i hba; rw [hba, hz hc] at hpos; omega
      · exact ih.2 hc b hb hpos
  | weaken _ ih => exact ⟨ih.1, by simp⟩
  | other m _ _ _ hr ih =>
    refine ⟨⟨ih.1.1, ?_⟩, ?_⟩
    · intro x hx; simp only; rw [hr]; exact ih.1.2 x hx
    · intro hc b hb hpos; simp only at hb hpos ⊢; rw [hr] at hpos ⊢; exact ih.2 hc b hb hpos
  | fork i l hprev hl _ h ih =>
    obtain ⟨a, b⟩ := revokeAll_index ht hp hl (reach_sane ht hp (ireach_reach hprev)).1 h ih.1
    exact ⟨a, fun hc => b (ih.2 hc)⟩

/-- The delegate list in every history: it holds registered candidates with their current votes, in order; and a
registered candidate with votes outside it has no more votes than anybody in it (the list then being full), or misses the
minimum.  What is missing from the full claim: equal votes are ordered by the stored little endian form of the registration
id rather than by its value, and candidates must have registered before receiving votes (`c = true`). -/
theorem top_delegates_have_most_votes_partial {t : Table} (ht : t.Ok) (hraw : ∀ a b, t.raw a = t.raw b → a = b)
    {p : Params} (hp : p.Ok) {V : Finset Ref} {r2 : Bool} {s : St} (h : IReach t p V r2 true s)
    (num minVote : Nat) (r3 : Bool) :
    let L := getTop t s.index num minVote r3
    L.Pairwise (fun x y => x.1 > y.1 ∨ (x.1 = y.1 ∧ lexLt (t.raw x.2) (t.raw y.2) = true)) ∧
    (L.map Prod.snd).Nodup ∧ L.length ≤ num ∧
    (∀ x ∈ L, s.registered x.2 = true ∧ x.1 = (s.mem x.2).receivedVotes ∧
      x.1 = ∑ r ∈ V, castTo t (s.votes r) x.2) ∧
    (∀ a, s.registered a = true → 0 < (s.mem a).receivedVotes → a ∉ L.map Prod.snd →
      (L.length = num ∧ ∀ x ∈ L, (s.mem a).receivedVotes ≤ x.1) ∨ (r3 = true ∧ (s.mem a).receivedVotes < minVote)) := by
  intro L
  obtain ⟨hsound, hcomp⟩ := index_follows_votes ht hp h
  obtain ⟨a1, a2, a3, a4⟩ := top_list_spec hraw hsound.1 num minVote r3
  have hv := votes_received_are_votes_cast ht hp (ireach_reach h)
  refine ⟨?_, ?_, a2, ?_, ?_⟩
  · exact a1
  · rw [List.Nodup, List.pairwise_map]
    refine (List.Pairwise.imp_of_mem ?_ a1)
    intro x y hx hy hb heq
    have e1 := (hsound.2 x (a3 x hx).1).2
    have e2 := (hsound.2 y (a3 y hy).1).2
    rw [heq, e2] at e1
    rcases hb with hb | ⟨-, hb⟩
    · omega
    · rw [heq, lexLt_irrefl] at hb; cases hb
  · intro x hx
    obtain ⟨j1, j2⟩ := hsound.2 x (a3 x hx).1
    exact ⟨j1, j2.symm, by rw [← hv, j2]⟩
  · intro a ha hpos hn
    have hin := hcomp rfl a ha hpos
    have hnot : ((s.mem a).receivedVotes, a) ∉ L := fun hc => hn (List.mem_map.2 ⟨_, hc, rfl⟩)
    rcases a4 _ hin hnot with ⟨j1, j2⟩ | j
    · left
      refine ⟨j1, ?_⟩
      intro x hx
      rcases j2 x hx with h | ⟨h, -⟩ <;> simp only at h <;> omega
    · exact .inr j

/-- Before the second fork, or in general, whatever the history: the list holds registered candidates with their current
votes, and whoever is in the index but not in the list does not have more votes than anybody in it. -/
theorem top_delegates_sound {t : Table} (ht : t.Ok) (hraw : ∀ a b, t.raw a = t.raw b → a = b)
    {p : Params} (hp : p.Ok) {V : Finset Ref} {r2 c : Bool} {s : St} (h : IReach t p V r2 c s) (num minVote : Nat) (r3 : Bool) :
    ∀ x ∈ getTop t s.index num minVote r3, s.registered x.2 = true ∧ x.1 = (s.mem x.2).receivedVotes := by
  intro x hx
  obtain ⟨hsound, -⟩ := index_follows_votes ht hp h
  obtain ⟨-, -, a3, -⟩ := top_list_spec hraw hsound.1 num minVote r3
  obtain ⟨j1, j2⟩ := hsound.2 x (a3 x hx).1
  exact ⟨j1, j2.symm⟩

/-- From the second fork on a candidate receives votes only when registered. -/
theorem votes_need_registration {t : Table} {p : Params} {ver : Ver} (hr2 : ver.r2 = true) {i : Nat} {s s' : St} {voter : Ref}
    {vs : List Vote} (h : voteTx t p ver i s voter vs = some s') :
    ∀ v ∈ vs, ∃ a, t.acct v.cand = some a ∧ s.registered a = true := by
  obtain ⟨-, hc, -⟩ := voteTx_parts h
  intro v hv
  simp only [checkVotes, Bool.and_eq_true, List.all_eq_true] at hc
  have := (hc.2 v hv).2
  cases ha : t.acct v.cand with
  | none => rw [ha] at this; cases this
  | some a =>
    rw [ha] at this
    simp only [hr2, Bool.not_true, Bool.false_or, Bool.and_eq_true] at this
    exact ⟨a, rfl, this.2⟩

/-! ### Where the full claim fails -/

/-- Raw form of a registration id: four bytes height, two bytes index, little endian (entities/id.cpp 92-98). -/
def rawOf (height index : Nat) : List Nat :=
  [height % 256, height / 256 % 256, height / 65536 % 256, height / 16777216 % 256, index % 256, index / 256 % 256]

/-- Accounts are numbered by registration height here. -/
def exTie : Table := ⟨fun u => match u with | .reg n => some n | .pk _ => none, fun _ => none, fun a => rawOf a 1⟩

/-- Ties are not broken by registration id ascending: of the candidates registered at heights 255 and 256 with 100 votes
each the one registered later is listed first, and alone when there is one place. -/
theorem tie_break_violated :
    getTop exTie [(100, 255), (100, 256)] 2 0 true = [(100, 256), (100, 255)] ∧
    getTop exTie [(100, 255), (100, 256)] 1 0 true = [(100, 256)] := by decide +kernel

/-- A candidate voted for before registering is not listed after registering although it has the most votes. -/
theorem voted_before_registration_violated :
    ∃ s, IReach exT exP {1, 2} false false s ∧ s.registered 3 = true ∧ (s.mem 3).receivedVotes = 300 ∧
      getTop exT s.index 1 0 true = [(200, 4)] := by
  let s0 : St := { exSt with registered := fun a => decide (a = 4) }
  have h0 : Reach exT exP {1, 2} false s0 := by
    refine .start _ ?_ ?_
    · have := (reach_sane exT_ok exP_ok exSt_start).1
      exact ⟨this.wf, this.entries, this.support, this.cap, this.tallied⟩
    · exact (reach_sane exT_ok exP_ok exSt_start).2.2 rfl
  have i0 : IReach exT exP {1, 2} false true s0 := by
    refine .start _ h0 ⟨by simp [s0, exSt], by simp [s0, exSt]⟩ ?_
    intro a _ hpos
    simp [s0, exSt, exMem] at hpos
  have hsome : (voteTx exT exP ⟨false, false⟩ 0 s0 1 [⟨.add, .pk 203, 300⟩, ⟨.add, .reg 104, 200⟩]).isSome = true := by
    decide +kernel
  obtain ⟨s, hs⟩ := Option.isSome_iff_exists.1 hsome
  have hval : (voteTx exT exP ⟨false, false⟩ 0 s0 1 [⟨.add, .pk 203, 300⟩, ⟨.add, .reg 104, 200⟩]).map
    (fun s => ((s.mem 3).receivedVotes, getTop exT s.index 1 0 true)) = some (300, [(200, 4)]) := by decide +kernel
  rw [hs] at hval
  simp only [Option.map_some, Option.some.injEq, Prod.mk.injEq] at hval
  exact ⟨_, .register 3 (.weaken (.vote _ _ _ _ i0 (by simp) hs)) (by simp), by simp, hval.1, hval.2⟩

/-- The hypotheses of `top_delegates_have_most_votes_partial` can be met with a list that leaves somebody out. -/
example : ∃ s, IReach exT exP {1, 2} false true s ∧ s.registered 4 = true ∧ (s.mem 4).receivedVotes = 200 ∧
    getTop exT s.index 1 0 true = [(300, 3)] := by
  have i0 : IReach exT exP {1, 2} false true exSt := by
    refine .start _ exSt_start ⟨by simp [exSt], by simp [exSt]⟩ ?_
    intro a _ hpos
    simp [exSt, exMem] at hpos
  have hsome : (voteTx exT exP ⟨false, false⟩ 0 exSt 1 [⟨.add, .reg 103, 300⟩, ⟨.add, .reg 104, 200⟩]).isSome = true := by
    decide +kernel
  obtain ⟨s, hs⟩ := Option.isSome_iff_exists.1 hsome
  have hval : (voteTx exT exP ⟨false, false⟩ 0 exSt 1 [⟨.add, .reg 103, 300⟩, ⟨.add, .reg 104, 200⟩]).map
    (fun s => (s.registered 4, (s.mem 4).receivedVotes, getTop exT s.index 1 0 true)) = some (true, 200, [(300, 3)]) := by
    decide +kernel
  rw [hs] at hval
  simp only [Option.map_some, Option.some.injEq, Prod.mk.injEq] at hval
  exact ⟨s, .vote _ _ _ _ i0 (by simp) hs, hval.1, hval.2.1, hval.2.2⟩

example : ∀ a b, exT.raw a = exT.raw b → a = b := by
  intro a b h; simpa [exT] using h

end Verif.Vote
