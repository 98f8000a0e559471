import Verif.Vote.Model
import Mathlib.Algebra.BigOperators.Group.Finset.Basic

/-! Helper facts about the vote model. -/
namespace Verif.Vote

open Verif.Account Verif.Ledger

/-- The account table is consistent: names of one kind are unique per account, and a registered account is found by
exactly the public key it registered. -/
structure Table.Ok (t : Table) : Prop where
  reg : ∀ n m a, t.acct (.reg n) = some a → t.acct (.reg m) = some a → n = m
  pk : ∀ k l a, t.acct (.pk k) = some a → t.acct (.pk l) = some a → k = l
  own : ∀ n a k, t.acct (.reg n) = some a → (t.owner a = some k ↔ t.acct (.pk k) = some a)

/-- Votes given to account `a`. -/
def castTo (t : Table) (es : Entries) (a : Ref) : Nat := (es.map fun e => if t.acct e.1 = some a then e.2 else 0).sum

/-- Sum of all votes given. -/
def sumVotes (es : Entries) : Nat := (es.map Prod.snd).sum

/-- Change of the votes of `a` made by one vote. -/
def delta (t : Table) (a : Ref) (v : Vote) : Int :=
  if t.acct v.cand = some a then (match v.kind with | .add => (v.amount : Int) | .minus => -(v.amount : Int)) else 0

def deltas (t : Table) (a : Ref) (vs : List Vote) : Int := (vs.map (delta t a)).sum

/-- Well formed entries. -/
structure EntriesOk (t : Table) (p : Params) (es : Entries) : Prop where
  known : ∀ e ∈ es, ∃ a, t.acct e.1 = some a
  distinct : (es.map fun e => t.acct e.1).Nodup
  range : ∀ e ∈ es, 0 < e.2 ∧ e.2 ≤ p.maxMoney
  size : es.length ≤ p.maxCand

theorem sameCand_iff {t : Table} (ht : t.Ok) {u x : Uid} {b a : Ref} (hu : t.acct u = some b) (hx : t.acct x = some a) :
    sameCand t u x = true ↔ b = a := by
  cases u with
  | reg n =>
    cases x with
    | reg m =>
      simp only [sameCand, beq_iff_eq]
      constructor
      · rintro rfl; rw [hu] at hx; simpa using hx
      · rintro rfl; exact ht.reg _ _ _ hu hx
    | pk l =>
      simp only [sameCand, hu, beq_iff_eq]
      rw [ht.own n b l hu, hx]
      simp [eq_comm]
  | pk k =>
    cases x with
    | reg m =>
      simp only [sameCand, hx, beq_iff_eq]
      rw [ht.own m a k hx, hu]
      simp
    | pk l =>
      simp only [sameCand, beq_iff_eq]
      constructor
      · rintro rfl; rw [hu] at hx; simpa using hx
      · rintro rfl; exact ht.pk _ _ _ hu hx

theorem addVote_spec {t : Table} (ht : t.Ok) {p : Params} (hp : 2 * p.maxMoney < U64) {u : Uid} {b : Ref}
    (hu : t.acct u = some b) {v all : Nat} (hv : 0 < v ∧ v ≤ p.maxMoney) {es es' : Entries}
    (h : addVote t p u v all es = some es')
    (hk : ∀ e ∈ es, ∃ a, t.acct e.1 = some a) (hd : (es.map fun e => t.acct e.1).Nodup)
    (hr : ∀ e ∈ es, 0 < e.2 ∧ e.2 ≤ p.maxMoney) :
    (∀ a, castTo t es' a = castTo t es a + if b = a then v else 0) ∧
    (∀ e ∈ es', ∃ a, t.acct e.1 = some a) ∧ (es'.map fun e => t.acct e.1).Nodup ∧
    (∀ e ∈ es', 0 < e.2 ∧ e.2 ≤ p.maxMoney) ∧
    ((es'.length = es.length ∧ es'.map (fun e => t.acct e.1) = es.map (fun e => t.acct e.1)) ∨
     (es'.length = es.length + 1 ∧ all ≠ p.maxCand ∧ some b ∉ es.map (fun e => t.acct e.1) ∧
      es'.map (fun e => t.acct e.1) = es.map (fun e => t.acct e.1) ++ [some b])) := by
  induction es generalizing es' with
  | nil =>
    simp only [addVote] at h
    split at h
    · cases h
    rename_i hne
    simp only [Option.some.injEq] at h
    subst h
    refine ⟨?_, ?_, by simp, ?_, .inr ⟨by simp, hne, by simp, by simp [hu]⟩⟩
    · intro a; simp [castTo, hu]
    · simp [hu]
    · simpa using hv
  | cons e es ih =>
    obtain ⟨x, c⟩ := e
    obtain ⟨a0, ha0⟩ := hk (x, c) (by simp)
    simp only at ha0
    have hrc := hr (x, c) (by simp)
    simp only at hrc
    simp only [addVote] at h
    split at h
    · rename_i hs
      have hba := (sameCand_iff ht hu ha0).1 hs
      subst hba
      split at h
      · cases h
      split at h
      · cases h
      rename_i h1 h2
      simp only [Option.some.injEq] at h
      have hw : wadd c v = c + v := wadd_eq (by omega)
      rw [hw] at h h2
      subst h
      refine ⟨?_, ?_, ?_, ?_, .inl ⟨by simp, by simp⟩⟩
      · intro a
        simp only [castTo, List.map_cons, List.sum_cons, ha0, Option.some.injEq]
        split <;> omega
      · intro e he
        rcases List.mem_cons.1 he with rfl | he
        · exact ⟨b, ha0⟩
        · exact hk e (by simp [he])
      · simpa using hd
      · intro e he
        rcases List.mem_cons.1 he with rfl | he
        · exact ⟨by simp only; omega, by simp only; omega⟩
        · exact hr e (by simp [he])
    · rename_i hs
      split at h
      · cases h
      rename_i es1 he1
      simp only [Option.some.injEq] at h
      subst h
      have hba : b ≠ a0 := fun h => hs ((sameCand_iff ht hu ha0).2 h)
      simp only [List.map_cons, List.nodup_cons] at hd
      obtain ⟨i1, i2, i3, i4, i5⟩ := ih he1 (fun e he => hk e (by simp [he])) hd.2 (fun e he => hr e (by simp [he]))
      refine ⟨?_, ?_, ?_, ?_, ?_⟩
      · intro a
        have := i1 a
        simp only [castTo, List.map_cons, List.sum_cons] at this ⊢
        omega
      · intro e he
        rcases List.mem_cons.1 he with rfl | he
        · exact ⟨a0, ha0⟩
        · exact i2 e he
      · simp only [List.map_cons, List.nodup_cons]
        refine ⟨?_, i3⟩
        rcases i5 with ⟨-, h5⟩ | ⟨-, -, -, h5⟩
        · rw [h5]; exact hd.1
        · rw [h5]
          simp only [List.mem_append, List.mem_singleton, not_or]
          refine ⟨hd.1, ?_⟩
          rw [ha0]
          intro h
          simp only [Option.some.injEq] at h
          exact hba h.symm
      · intro e he
        rcases List.mem_cons.1 he with rfl | he
        · exact hrc
        · exact i4 e he
      · rcases i5 with ⟨h4, h5⟩ | ⟨h3, h4, h6, h5⟩
        · exact .inl ⟨by simp [h4], by simp [h5]⟩
        · refine .inr ⟨by simp [h3], h4, ?_, by simp [h5]⟩
          simp only [List.map_cons, List.mem_cons, not_or]
          exact ⟨by rw [ha0]; simpa using hba, h6⟩

theorem subVote_spec {t : Table} (ht : t.Ok) {p : Params} {u : Uid} {b : Ref}
    (hu : t.acct u = some b) {v : Nat} (hv : 0 < v) {es es' : Entries}
    (h : subVote t p u v es = some es')
    (hk : ∀ e ∈ es, ∃ a, t.acct e.1 = some a) (hr : ∀ e ∈ es, 0 < e.2 ∧ e.2 ≤ p.maxMoney) :
    (∀ a, castTo t es' a + (if b = a then v else 0) = castTo t es a) ∧
    (∀ e ∈ es', ∃ a, t.acct e.1 = some a) ∧
    (es'.map fun e => t.acct e.1).Sublist (es.map fun e => t.acct e.1) ∧
    (∀ e ∈ es', 0 < e.2 ∧ e.2 ≤ p.maxMoney) := by
  induction es generalizing es' with
  | nil => cases h
  | cons e es ih =>
    obtain ⟨x, c⟩ := e
    obtain ⟨a0, ha0⟩ := hk (x, c) (by simp)
    simp only at ha0
    have hrc := hr (x, c) (by simp)
    simp only at hrc
    simp only [subVote] at h
    split at h
    · rename_i hs
      have hba := (sameCand_iff ht hu ha0).1 hs
      subst hba
      split at h
      · cases h
      split at h
      · cases h
      rename_i h1 h2
      split at h
      · rename_i h3
        simp only [Option.some.injEq] at h
        subst h
        refine ⟨?_, fun e he => hk e (by simp [he]), by simp, fun e he => hr e (by simp [he])⟩
        intro a
        simp only [castTo, List.map_cons, List.sum_cons, ha0, Option.some.injEq]
        split <;> omega
      · rename_i h3
        simp only [Option.some.injEq] at h
        subst h
        refine ⟨?_, ?_, by simp, ?_⟩
        · intro a
          simp only [castTo, List.map_cons, List.sum_cons, ha0, Option.some.injEq]
          split <;> omega
        · intro e he
          rcases List.mem_cons.1 he with rfl | he
          · exact ⟨b, ha0⟩
          · exact hk e (by simp [he])
        · intro e he
          rcases List.mem_cons.1 he with rfl | he
          · exact ⟨by simp only; omega, by simp only; omega⟩
          · exact hr e (by simp [he])
    · rename_i hs
      split at h
      · cases h
      rename_i es1 he1
      simp only [Option.some.injEq] at h
      subst h
      obtain ⟨i1, i2, i3, i4⟩ := ih he1 (fun e he => hk e (by simp [he])) (fun e he => hr e (by simp [he]))
      refine ⟨?_, ?_, ?_, ?_⟩
      · intro a
        have := i1 a
        simp only [castTo, List.map_cons, List.sum_cons] at this ⊢
        omega
      · intro e he
        rcases List.mem_cons.1 he with rfl | he
        · exact ⟨a0, ha0⟩
        · exact i2 e he
      · simp only [List.map_cons]; exact i3.cons_cons _
      · intro e he
        rcases List.mem_cons.1 he with rfl | he
        · exact hrc
        · exact i4 e he

theorem applyVote_spec {t : Table} (ht : t.Ok) {p : Params} (hp : 2 * p.maxMoney < U64) {v : Vote} {b : Ref}
    (hu : t.acct v.cand = some b) (hv : 0 < v.amount ∧ v.amount ≤ p.maxMoney) {es es' : Entries}
    (h : applyVote t p es v = some es') (ho : EntriesOk t p es) :
    EntriesOk t p es' ∧ ∀ a, (castTo t es' a : Int) = castTo t es a + delta t a v := by
  unfold applyVote at h
  cases hk : v.kind with
  | add =>
    rw [hk] at h
    obtain ⟨a1, a2, a3, a4, a5⟩ := addVote_spec ht hp hu hv h ho.known ho.distinct ho.range
    refine ⟨⟨a2, a3, a4, ?_⟩, ?_⟩
    · have := ho.size
      rcases a5 with ⟨h1, -⟩ | ⟨h1, h2, -⟩ <;> omega
    · intro a
      rw [a1 a]
      simp only [delta, hu, hk, Option.some.injEq]
      split <;> simp
  | minus =>
    rw [hk] at h
    obtain ⟨a1, a2, a3, a4⟩ := subVote_spec ht hu hv.1 h ho.known ho.range
    refine ⟨⟨a2, ho.distinct.sublist a3, a4, ?_⟩, ?_⟩
    · have := a3.length_le
      have h2 := ho.size
      simp only [List.length_map] at this
      omega
    · intro a
      have := a1 a
      simp only [delta, hu, hk, Option.some.injEq]
      split <;> simp_all <;> omega

theorem applyVotes_spec {t : Table} (ht : t.Ok) {p : Params} (hp : 2 * p.maxMoney < U64) {vs : List Vote}
    (hv : ∀ v ∈ vs, (0 < v.amount ∧ v.amount ≤ p.maxMoney) ∧ ∃ b, t.acct v.cand = some b) {es es' : Entries}
    (h : applyVotes t p es vs = some es') (ho : EntriesOk t p es) :
    EntriesOk t p es' ∧ ∀ a, (castTo t es' a : Int) = castTo t es a + deltas t a vs := by
  induction vs generalizing es with
  | nil =>
    simp only [applyVotes, Option.some.injEq] at h
    subst h
    exact ⟨ho, by simp [deltas]⟩
  | cons v vs ih =>
    simp only [applyVotes] at h
    split at h
    · cases h
    rename_i es1 h1
    obtain ⟨h2, b, h3⟩ := hv v (by simp)
    obtain ⟨o1, c1⟩ := applyVote_spec ht hp h3 h2 h1 ho
    obtain ⟨o2, c2⟩ := ih (fun v hv' => hv v (by simp [hv'])) h o1
    refine ⟨o2, ?_⟩
    intro a
    rw [c2 a, c1 a]
    simp [deltas]
    omega

/-! ### Sorting -/

theorem insertDesc_perm (e : Uid × Nat) (es : Entries) : (insertDesc e es).Perm (e :: es) := by
  induction es with
  | nil => exact List.Perm.refl _
  | cons x es ih =>
    simp only [insertDesc]
    split
    · exact List.Perm.refl _
    · exact (ih.cons x).trans (List.Perm.swap e x es)

theorem sortDesc_perm (es : Entries) : (sortDesc es).Perm es := by
  induction es with
  | nil => exact List.Perm.refl _
  | cons e es ih => exact (insertDesc_perm e _).trans (ih.cons e)

theorem entriesOk_perm {t : Table} {p : Params} {es es' : Entries} (hp : es'.Perm es) (h : EntriesOk t p es) :
    EntriesOk t p es' :=
  ⟨fun e he => h.known e (hp.mem_iff.1 he), (hp.map _).nodup_iff.2 h.distinct,
    fun e he => h.range e (hp.mem_iff.1 he), by rw [hp.length_eq]; exact h.size⟩

theorem castTo_perm {t : Table} {es es' : Entries} (hp : es'.Perm es) (a : Ref) : castTo t es' a = castTo t es a :=
  (hp.map _).sum_eq

theorem sumVotes_perm {es es' : Entries} (hp : es'.Perm es) : sumVotes es' = sumVotes es := (hp.map _).sum_eq

theorem sumVotes_le {t : Table} {p : Params} {es : Entries} (h : EntriesOk t p es) : sumVotes es ≤ es.length * p.maxMoney := by
  have hr := h.range
  clear h
  induction es with
  | nil => simp [sumVotes]
  | cons e es ih =>
    have h1 := (hr e (by simp)).2
    have h2 := ih (fun x hx => hr x (by simp [hx]))
    simp only [sumVotes, List.map_cons, List.sum_cons, List.length_cons, Nat.add_mul, Nat.one_mul] at h2 ⊢
    omega

theorem newTotal_r2 {t : Table} {p : Params} (hp : p.maxCand * p.maxMoney < U64) {es : Entries} (h : EntriesOk t p es) :
    newTotal true es = sumVotes es := by
  have h1 := sumVotes_le h
  have h2 : es.length * p.maxMoney ≤ p.maxCand * p.maxMoney := Nat.mul_le_mul_right _ h.size
  have h3 : sumVotes es < U64 := by omega
  have : ∀ (l : Entries) (a : Nat), a + (l.map Prod.snd).sum < U64 →
      l.foldl (fun t e => wadd t e.2) a = a + (l.map Prod.snd).sum := by
    intro l
    induction l with
    | nil => simp
    | cons e l ih =>
      intro a ha
      simp only [List.map_cons, List.sum_cons] at ha
      simp only [List.foldl_cons, List.map_cons, List.sum_cons]
      rw [wadd_eq (by omega), ih _ (by omega)]
      omega
  have := this es 0 (by simpa [sumVotes] using h3)
  simpa [newTotal, sumVotes] using this

/-! ### Balances -/

theorem vote_bal {m m' : Mem} {r : Ref} {s : Sym} {v : Nat} (h : opBal m ⟨r, s, .vote, v, none⟩ = some m')
    (hb : bal m r s .voted + v < U64) : (∀ x, bal m' x s .voted = if x = r then bal m r s .voted + v else bal m x s .voted) ∧
    (∀ x s', s' ≠ s → bal m' x s' .voted = bal m x s' .voted) := by
  have h1 := opBal_some h
  obtain ⟨-, h1⟩ := operate_true h1
  simp only at h1
  obtain ⟨hv, rfl⟩ := move_true h1
  constructor
  · intro x
    simp only [bal_setBal, bal_touch]
    by_cases hx : x = r
    · subst hx; simp; exact wadd_eq hb
    · simp [hx]
  · intro x s' hs
    simp [bal_setBal, bal_touch, hs]

theorem unvote_bal {m m' : Mem} {r : Ref} {s : Sym} {v : Nat} (h : opBal m ⟨r, s, .unvote, v, none⟩ = some m') (hwf : WF m) :
    (∀ x, bal m' x s .voted = if x = r then bal m r s .voted - v else bal m x s .voted) ∧
    (∀ x s', s' ≠ s → bal m' x s' .voted = bal m x s' .voted) := by
  have h1 := opBal_some h
  obtain ⟨-, h1⟩ := operate_true h1
  simp only at h1
  obtain ⟨hv, rfl⟩ := move_true h1
  constructor
  · intro x
    simp only [bal_touch] at hv
    simp only [bal_setBal, bal_touch]
    by_cases hx : x = r
    · subst hx; simp; exact wsub_eq hv (hwf _ _ _)
    · simp [hx]
  · intro x s' hs
    simp [bal_setBal, bal_touch, hs]

theorem addFree_bal {m m' : Mem} {r : Ref} {s : Sym} {v : Nat} (h : opBal m ⟨r, s, .addFree, v, none⟩ = some m') :
    ∀ x s', bal m' x s' .voted = bal m x s' .voted := by
  have h1 := opBal_some h
  obtain ⟨-, h1⟩ := operate_true h1
  simp only [Prod.mk.injEq, true_and] at h1
  subst h1
  intro x s'
  simp [bal_setBal, bal_touch]

theorem opBal_wf {m m' : Mem} {q : Req} (h : opBal m q = some m') (hwf : WF m) : WF m' := by
  have := operate_wf m q.self q.sym q.op q.amount q.peer hwf
  rw [opBal_some h] at this
  exact this

/-- What `ProcessCandidateVotes` does to balances. -/
theorem processVotes_spec {t : Table} {p : Params} {r2 : Bool} {i : Nat} {m m' : Mem} {voter : Ref} {es es' : Entries}
    {vs : List Vote} (h : processVotes t p r2 i m voter es vs = some (es', m')) (hwf : WF m)
    (hn : ∀ es1, applyVotes t p es vs = some es1 → newTotal r2 (sortDesc es1) < U64) :
    ∃ es1, applyVotes t p es vs = some es1 ∧ es' = sortDesc es1 ∧ WF m' ∧
      (∀ x, bal m' x "WICC" .voted = if x = voter then newTotal r2 es' else bal m x "WICC" .voted) ∧
      (∀ x, (m' x).receivedVotes = (m x).receivedVotes) := by
  unfold processVotes at h
  split at h
  · cases h
  rename_i es1 hes
  simp only at h
  split at h
  · cases h
  rename_i m1 hm1
  split at h
  · cases h
  rename_i m2 hm2
  simp only [Option.some.injEq, Prod.mk.injEq] at h
  obtain ⟨rfl, rfl⟩ := h
  have hn1 := hn es1 hes
  have step1 : WF m1 ∧ (∀ x, bal m1 x "WICC" .voted = if x = voter then newTotal r2 (sortDesc es1) else bal m x "WICC" .voted) ∧
      (∀ x, (m1 x).receivedVotes = (m x).receivedVotes) := by
    split at hm1
    · rename_i hgt
      obtain ⟨a, -⟩ := vote_bal hm1 (by omega)
      refine ⟨opBal_wf hm1 hwf, ?_, fun x => (opBal_frame hm1 x).2.1⟩
      intro x; rw [a x]; split
      · omega
      · rfl
    · split at hm1
      · obtain ⟨a, -⟩ := unvote_bal hm1 hwf
        refine ⟨opBal_wf hm1 hwf, ?_, fun x => (opBal_frame hm1 x).2.1⟩
        intro x; rw [a x]; split
        · omega
        · rfl
      · simp only [Option.some.injEq] at hm1
        subst hm1
        refine ⟨hwf, ?_, fun x => rfl⟩
        intro x; split
        · rename_i hx; subst hx; omega
        · rfl
  have step2 : WF m2 ∧ (∀ x, bal m2 x "WICC" .voted = bal m1 x "WICC" .voted) ∧
      (∀ x, (m2 x).receivedVotes = (m1 x).receivedVotes) := by
    split at hm2
    · split at hm2
      · exact ⟨opBal_wf hm2 step1.1, fun x => addFree_bal hm2 x _, fun x => (opBal_frame hm2 x).2.1⟩
      · simp only [Option.some.injEq] at hm2
        subst hm2
        exact ⟨step1.1, fun _ => rfl, fun _ => rfl⟩
    · split at hm2
      · cases hm2
      · exact ⟨opBal_wf hm2 step1.1, fun x => addFree_bal hm2 x _, fun x => (opBal_frame hm2 x).2.1⟩
  refine ⟨es1, hes, rfl, step2.1, ?_, ?_⟩
  · intro x; rw [step2.2.1, step1.2.1]
  · intro x; rw [step2.2.2, step1.2.2]

theorem bal_setReceived (m : Mem) (a : Ref) (v : Nat) (r : Ref) (s : Sym) (b : Bucket) :
    bal (setReceived m a v) r s b = bal m r s b := by
  unfold bal setReceived; split <;> rfl

/-- What crediting the candidates does. -/
theorem creditVotes_spec {t : Table} {p : Params} (hp : 2 * p.maxMoney < U64) {vs : List Vote}
    (hv : ∀ v ∈ vs, v.amount ≤ p.maxMoney) {s s' : St} (h : creditVotes t p s vs = some s')
    (hr : ∀ a, (s.mem a).receivedVotes ≤ p.maxMoney) :
    (∀ a, ((s'.mem a).receivedVotes : Int) = (s.mem a).receivedVotes + deltas t a vs) ∧
    (∀ a, (s'.mem a).receivedVotes ≤ p.maxMoney) ∧
    (∀ r sy b, bal s'.mem r sy b = bal s.mem r sy b) ∧ s'.votes = s.votes ∧ s'.registered = s.registered := by
  induction vs generalizing s with
  | nil =>
    simp only [creditVotes, Option.some.injEq] at h
    subst h
    exact ⟨by simp [deltas], hr, fun _ _ _ => rfl, rfl, rfl⟩
  | cons v vs ih =>
    simp only [creditVotes] at h
    split at h
    · cases h
    rename_i s1 h1
    have hv1 := hv v (by simp)
    unfold creditVote at h1
    split at h1
    · cases h1
    rename_i a ha
    simp only at h1
    split at h1
    · cases h1
    rename_i new hnew
    simp only [Option.some.injEq] at h1
    have hra := hr a
    have hnew' : new ≤ p.maxMoney ∧ (new : Int) = (s.mem a).receivedVotes + delta t a v := by
      unfold stake at hnew
      simp only [delta, ha, if_true]
      cases hk : v.kind with
      | add =>
        rw [hk] at hnew
        simp only at hnew
        split at hnew
        · cases hnew
        · simp only [Option.some.injEq] at hnew
          rw [wadd_eq (by omega)] at *
          dsimp only
          omega
      | minus =>
        rw [hk] at hnew
        simp only at hnew
        split at hnew
        · cases hnew
        · simp only [Option.some.injEq] at hnew
          dsimp only
          omega
    have hr1 : ∀ x, (s1.mem x).receivedVotes = if x = a then new else (s.mem x).receivedVotes := by
      intro x; subst h1; simp only [setReceived]; split <;> rfl
    obtain ⟨i1, i2, i3, i4, i5⟩ := ih (fun v hv' => hv v (by simp [hv'])) h (by
      intro x; rw [hr1]; split
      · exact hnew'.1
      · exact hr x)
    refine ⟨?_, i2, ?_, by rw [i4, ← h1], by rw [i5, ← h1]⟩
    · intro x
      rw [i1 x, hr1 x]
      simp only [deltas, List.map_cons, List.sum_cons]
      split
      · rename_i hx
        subst hx
        rw [hnew'.2]; omega
      · rename_i hx
        have : delta t x v = 0 := by
          unfold delta; rw [ha]; simp [Ne.symm hx]
        omega
    · intro r sy b
      rw [i3, ← h1]
      exact bal_setReceived _ _ _ _ _ _

end Verif.Vote
