import Verif.Delegate.Model
import Mathlib.Data.List.Nodup
import Mathlib.Data.List.Range

/-!
# Shuffling and slots (C26), hand-over of delegates (C27)
-/
namespace Verif.Delegate

variable {α : Type}

/-! ## C26 -/

theorem exchange_spec {l : List α} {i j : Nat} (hi : i < l.length) (hj : j < l.length) :
    ∃ l', exchange l j i = some l' ∧ l'.Perm l := by
  unfold exchange
  rw [List.getElem?_eq_getElem hi, List.getElem?_eq_getElem hj]
  exact ⟨_, rfl, List.set_set_perm hj hi⟩

theorem inner_spec (w : Nat → Nat) {n : Nat} (hn : 0 < n) (fuel x i : Nat) {l : List α} (hl : l.length = n) :
    ∃ l' i', inner w n fuel x i l = some (l', i') ∧ l'.Perm l ∧ i ≤ i' := by
  induction fuel generalizing x i l with
  | zero => exact ⟨l, i, rfl, List.Perm.refl _, Nat.le_refl _⟩
  | succ fuel ih =>
    simp only [inner]
    split
    · rename_i hi
      have hj : w x % n < n := Nat.mod_lt _ hn
      obtain ⟨l1, h1, p1⟩ := exchange_spec (l := l) (i := i) (j := w x % n) (by omega) (by omega)
      rw [h1]
      obtain ⟨l2, i2, h2, p2, hle⟩ := ih (x + 1) (i + 1) (l := l1) (by rw [p1.length_eq, hl])
      exact ⟨l2, i2, h2, p2.trans p1, by omega⟩
    · exact ⟨l, i, rfl, List.Perm.refl _, Nat.le_refl _⟩

theorem outer_spec (w : Nat → Nat → Nat) {n : Nat} (hn : 0 < n) (fuel k i : Nat) {l : List α} (hl : l.length = n) :
    ∃ l', outer w n fuel k i l = some l' ∧ l'.Perm l := by
  induction fuel generalizing k i l with
  | zero => exact ⟨l, rfl, List.Perm.refl _⟩
  | succ fuel ih =>
    simp only [outer]
    split
    · obtain ⟨l1, i1, h1, p1, -⟩ := inner_spec (w k) hn 4 0 i hl
      rw [h1]
      obtain ⟨l2, h2, p2⟩ := ih (k + 1) (i1 + 1) (l := l1) (by rw [p1.length_eq, hl])
      exact ⟨l2, h2, p2.trans p1⟩
    · exact ⟨l, rfl, List.Perm.refl _⟩

/-- The loop bound of the model is never what ends the loop: with any larger bound the result is the same. -/
theorem outer_fuel (w : Nat → Nat → Nat) {n : Nat} (hn : 0 < n) (fuel k i : Nat) {l : List α} (hl : l.length = n)
    (hf : n ≤ i + fuel) (extra : Nat) : outer w n (fuel + extra) k i l = outer w n fuel k i l := by
  induction fuel generalizing k i l with
  | zero =>
    cases extra with
    | zero => rfl
    | succ e => simp only [Nat.zero_add, outer]; rw [if_neg (by omega)]
  | succ fuel ih =>
    rw [Nat.add_right_comm]
    simp only [outer]
    split
    · obtain ⟨l1, i1, h1, p1, hle⟩ := inner_spec (w k) hn 4 0 i hl
      rw [h1]
      exact ih (k + 1) (i1 + 1) (by rw [p1.length_eq, hl]) (by omega)
    · rfl

/-- Shuffling succeeds and gives a reordering, for every hash function, seed and list. -/
theorem shuffle_is_permutation (words : Nat → Nat → Nat → Nat) (ori : Nat) {l : List α} (hl : l ≠ []) :
    ∃ l', shuffle words ori l = some l' ∧ l'.Perm l := by
  have hpos : 0 < l.length := List.length_pos_iff.2 hl
  unfold shuffle
  rw [if_neg (by omega)]
  exact outer_spec _ hpos _ _ _ rfl

/-- The producer of every slot is an active delegate. -/
theorem producer_is_active (words : Nat → Nat → Nat → Nat) (v3 height time interval count : Nat) {active : List α}
    (h : active ≠ []) : ∃ d ∈ active, producer words v3 height time interval count active = some d := by
  obtain ⟨l', h1, h2⟩ := shuffle_is_permutation words (originSeed v3 height time interval count) h
  have hpos : 0 < l'.length := by rw [h2.length_eq]; exact List.length_pos_iff.2 h
  have hlt := Nat.mod_lt (slotOf time interval count) hpos
  unfold producer
  rw [h1]
  simp only [currentDelegate]
  rw [if_neg (by omega), List.getElem?_eq_getElem hlt]
  exact ⟨_, h2.mem_iff.1 (List.getElem_mem _), rfl⟩

/-- Number of slots of the list that go to `d`. -/
def slotsWon [DecidableEq α] (d : α) (l : List α) (slots : List Nat) : Nat :=
  (slots.filter fun s => decide (currentDelegate s l = some d)).length

theorem mod_inj_window {n a x y : Nat} (hx : a ≤ x ∧ x < a + n) (hy : a ≤ y ∧ y < a + n) (h : x % n = y % n) : x = y := by
  have hn : 0 < n := by omega
  have e1 := Nat.div_add_mod x n
  have e2 := Nat.div_add_mod y n
  rw [h] at e1
  rcases Nat.lt_trichotomy (x / n) (y / n) with hlt | heq | hlt
  · have : n * (x / n + 1) ≤ n * (y / n) := Nat.mul_le_mul_left _ hlt
    rw [Nat.mul_add] at this
    omega
  · rw [heq] at e1; omega
  · have : n * (y / n + 1) ≤ n * (x / n) := Nat.mul_le_mul_left _ hlt
    rw [Nat.mul_add] at this
    omega

/-- Over any `n` consecutive slots every position of a list of length `n` is used exactly once. -/
theorem window_surj {n a k : Nat} (hk : k < n) : ∃ s, a ≤ s ∧ s < a + n ∧ s % n = k := by
  have hn : 0 < n := by omega
  have e := Nat.div_add_mod a n
  have hm := Nat.mod_lt a hn
  by_cases h : a % n ≤ k
  · refine ⟨n * (a / n) + k, by omega, by omega, ?_⟩
    rw [Nat.mul_add_mod]; exact Nat.mod_eq_of_lt hk
  · refine ⟨n * (a / n) + (k + n), by omega, by omega, ?_⟩
    rw [Nat.mul_add_mod, Nat.add_mod_right]; exact Nat.mod_eq_of_lt hk

/-- With one shuffled list, any `n` consecutive slots give every delegate exactly one. -/
theorem consecutive_slots_one_each [DecidableEq α] {l : List α} (hnd : l.Nodup) (a : Nat) {d : α} (hd : d ∈ l) :
    slotsWon d l (List.range' a l.length) = 1 := by
  obtain ⟨k, hk, hkd⟩ := List.getElem_of_mem hd
  obtain ⟨s, h1, h2, h3⟩ := window_surj (a := a) hk
  have hwin : ∀ x, currentDelegate x l = some d ↔ x % l.length = k := by
    intro x
    unfold currentDelegate
    rw [if_neg (by omega)]
    have hlt : x % l.length < l.length := Nat.mod_lt _ (by omega)
    rw [List.getElem?_eq_getElem hlt]
    simp only [Option.some.injEq]
    constructor
    · intro h; rw [← hkd] at h; exact (List.Nodup.getElem_inj_iff hnd).1 h
    · intro h; simp only [h, hkd]
  unfold slotsWon
  have hfilter : ((List.range' a l.length).filter fun s => decide (currentDelegate s l = some d)) = [s] := by
    have hnd2 : ((List.range' a l.length).filter fun s => decide (currentDelegate s l = some d)).Nodup :=
      (List.nodup_range' (step := 1) (by omega)).filter _
    have hperm : List.Perm ((List.range' a l.length).filter fun s => decide (currentDelegate s l = some d)) [s] := by
      rw [List.perm_ext_iff_of_nodup hnd2 (by simp)]
      intro x
      simp only [List.mem_filter, List.mem_range'_1, decide_eq_true_eq, List.mem_singleton, hwin]
      constructor
      · rintro ⟨hx, hm⟩
        exact mod_inj_window hx ⟨h1, h2⟩ (by rw [hm, h3])
      · rintro rfl; exact ⟨⟨h1, h2⟩, h3⟩
    exact List.perm_singleton.1 hperm
  rw [hfilter]; rfl

/-- The slots `n*k + 1, …, n*k + n` use the same seed number. -/
theorem round_same_seed {n k s : Nat} (hs : n * k + 1 ≤ s ∧ s ≤ n * k + n) : seedNumber s n = k + 1 := by
  have hn : 0 < n := by omega
  unfold seedNumber
  by_cases h : s = n * k + n
  · have h1 : s / n = k + 1 := by
      rw [h, ← Nat.mul_succ]; exact Nat.mul_div_cancel_left _ hn
    have h2 : s % n = 0 := by rw [h, ← Nat.mul_succ]; exact Nat.mul_mod_right _ _
    simp [h1, h2]
  · have h1 : s / n = k := by
      rw [Nat.div_eq_iff hn]
      have : n * k = k * n := Nat.mul_comm _ _
      omega
    have h2 := Nat.div_add_mod s n
    rw [h1] at h2
    simp only [h1]
    rw [if_pos (by omega)]

/-- Start of a slot. -/
def slotTime (interval count s : Nat) : Nat := s * count * interval

theorem slot_of_time {interval count : Nat} (hi : 0 < interval) (hc : 0 < count) (s x : Nat)
    (hx : slotTime interval count s ≤ x ∧ x < slotTime interval count (s + 1)) : x / interval / count = s := by
  unfold slotTime at hx
  rw [Nat.div_div_eq_div_mul, Nat.div_eq_iff (Nat.mul_pos hi hc)]
  have h1 : s * count * interval = s * (interval * count) := by rw [Nat.mul_assoc, Nat.mul_comm count]
  have h2 : (s + 1) * count * interval = s * (interval * count) + interval * count := by
    rw [Nat.mul_assoc, Nat.mul_comm count, Nat.add_mul, Nat.one_mul]
  rw [h1, h2] at hx
  omega

/-- From the third fork on: in every round of slots `n*k+1 … n*k+n` the producers, taken at any time inside each slot and at
any height, give every active delegate exactly one slot. -/
theorem round_gives_each_delegate_one_slot [DecidableEq α] (words : Nat → Nat → Nat → Nat) {v3 interval count : Nat}
    (hi : 0 < interval) (hc : 0 < count) {active : List α} (hnd : active.Nodup) (k : Nat)
    (time height : Nat → Nat)
    (htime : ∀ s, slotTime interval count s ≤ time s ∧ time s < slotTime interval count (s + 1))
    (hu32 : ∀ s, s ≤ active.length * k + active.length → time s < 4294967296) (hh : ∀ s, v3 ≤ height s)
    {d : α} (hd : d ∈ active) :
    ((List.range' (active.length * k + 1) active.length).filter
      fun s => decide (producer words v3 (height s) (time s) interval count active = some d)).length = 1 := by
  have hne : active ≠ [] := List.ne_nil_of_mem hd
  have hex : ∃ l', outer (words (k + 1)) active.length active.length 0 0 active = some l' ∧ l'.Perm active :=
    outer_spec _ (List.length_pos_iff.2 hne) _ _ _ rfl
  obtain ⟨l', hl', hp⟩ := hex
  have key : ∀ s ∈ List.range' (active.length * k + 1) active.length,
      producer words v3 (height s) (time s) interval count active = currentDelegate s l' := by
    intro s hs
    rw [List.mem_range'_1] at hs
    have hdiv := slot_of_time hi hc s (time s) (htime s)
    have hsmall : s < 4294967296 := by
      have h1 := hu32 s (by omega)
      have h2 : s ≤ time s := by
        have h3 : time s / interval / count ≤ time s := Nat.le_trans (Nat.div_le_self _ _) (Nat.div_le_self _ _)
        omega
      omega
    unfold producer originSeed
    have := hh s
    rw [if_neg (by omega), hdiv]
    unfold shuffle
    rw [if_neg (by have := List.length_pos_iff.2 hne; omega), round_same_seed (n := active.length) (k := k) (s := s) (by omega), hl']
    simp only [slotOf, hdiv]
    rw [Nat.mod_eq_of_lt hsmall]
  have hcong : (List.range' (active.length * k + 1) active.length).filter
      (fun s => decide (producer words v3 (height s) (time s) interval count active = some d)) =
      (List.range' (active.length * k + 1) active.length).filter (fun s => decide (currentDelegate s l' = some d)) := by
    apply List.filter_congr
    intro s hs
    rw [key s hs]
  rw [hcong]
  have := consecutive_slots_one_each (hp.nodup_iff.2 hnd) (active.length * k + 1) (hp.mem_iff.2 hd)
  unfold slotsWon at this
  rw [hp.length_eq] at this
  exact this

/-- Before the third fork the shuffle depends on the height: the heights `n*k+1 … n*k+n` share one list. -/
theorem heights_share_shuffle (words : Nat → Nat → Nat → Nat) {v3 interval count : Nat} (active : List α) (k h1 h2 t1 t2 : Nat)
    (a1 : active.length * k + 1 ≤ h1 ∧ h1 ≤ active.length * k + active.length)
    (a2 : active.length * k + 1 ≤ h2 ∧ h2 ≤ active.length * k + active.length) (hv : h1 < v3 ∧ h2 < v3) :
    shuffle words (originSeed v3 h1 t1 interval count) active = shuffle words (originSeed v3 h2 t2 interval count) active := by
  unfold originSeed shuffle
  rw [if_pos hv.1, if_pos hv.2, round_same_seed a1, round_same_seed a2]

/-! A concrete round. -/

/-- Eleven delegates, some hash words: a proper shuffle. -/
example : shuffle (fun s k x => s * 31 + k * 17 + x * 7 + 3) 12 [0, 1, 2, 3, 4, 5, 6, 7, 8, 9, 10] =
    some [0, 1, 2, 9, 7, 5, 6, 8, 4, 3, 10] := by decide

example : ([1, 2, 3] : List Nat).Nodup ∧ (2 : Nat) ∈ [1, 2, 3] ∧
    (∀ s, slotTime 3 4 s ≤ s * 12 + 5 ∧ s * 12 + 5 < slotTime 3 4 (s + 1)) ∧
    (∀ s, s ≤ 3 * 7 + 3 → s * 12 + 5 < 4294967296) := by
  refine ⟨by decide, by decide, ?_, ?_⟩
  · intro s; unfold slotTime; omega
  · intro s hs; omega

/-! ## C27 -/

variable [DecidableEq α]

/-- What holds after every block once the genesis block has provided delegates. -/
structure Good (v3 : Nat) (ins : Nat → In α) (h : Nat) (s : St α) : Prop where
  active : ∃ l, l ≠ [] ∧ s.active = some l
  counted : s.pending.counted ≤ h
  state : s.pending.state = .activated ∨
    (s.pending.state = .pending ∧ v3 ≤ s.pending.counted ∧ s.pending.counted % 100 = 0 ∧ h < s.pending.counted + 100 ∧
      s.pending.top = (ins s.pending.counted).top ∧ s.pending.top ≠ [])

theorem hdiff_eq {a b : Nat} (h : b ≤ a) (ha : a < 4294967296) : hdiff a b = a - b := by
  unfold hdiff
  have : a + 4294967296 - b = (a - b) + 4294967296 := by omega
  rw [this, Nat.add_mod_right]
  exact Nat.mod_eq_of_lt (by omega)

/-- One block. -/
theorem process_spec {v3 h : Nat} {ins : Nat → In α} {s : St α} (hg : Good v3 ins h s) (hh : h + 1 < 4294967296) :
    ∃ s', process v3 (h + 1) (ins (h + 1)) s = some s' ∧ Good v3 ins (h + 1) s' ∧
      (s'.active = s.active ∨
        (h + 1 < v3 ∧ s'.active = some (ins (h + 1)).top ∧ (ins (h + 1)).top ≠ []) ∨
        (v3 ≤ h + 1 ∧ ∃ c, c + 100 = h + 1 ∧ v3 ≤ c ∧ c % 100 = 0 ∧ s.pending.state = .pending ∧ s.pending.counted = c ∧
          s'.active = some (ins c).top ∧ (ins c).top ≠ [])) := by
  obtain ⟨l, hl, hact⟩ := hg.active
  have hcnt := hg.counted
  unfold process
  rcases hg.state with hst | ⟨hst, p1, p2, p3, p4, p5⟩
  · -- activated before
    simp only [hst, ne_eq, reduceCtorEq, not_false_eq_true, true_and]
    by_cases hcount : (if v3 ≤ h + 1 then 100 else 0) = 0 ∨ (h + 1) % (if v3 ≤ h + 1 then 100 else 0) = 0
    · rw [if_pos hcount]
      rw [if_neg (by rw [hact]; simpa using hl)]
      simp only [hact, Option.getD_some]
      by_cases hneed : s.pending.counted = 0 ∨ s.pending.counted < (ins (h + 1)).lastVote ∨ ¬l.length = (ins (h + 1)).num
      · rw [if_pos hneed]
        simp only [genPending]
        by_cases htop : (ins (h + 1)).top = []
        · simp only [htop, if_true, hst, not_true, false_and, if_false]
          refine ⟨_, rfl, ⟨⟨l, hl, rfl⟩, by simp, .inl rfl⟩, .inl rfl⟩
        · simp only [htop, if_false]
          by_cases hsame : l ≠ [] ∧ (ins (h + 1)).top = l
          · simp only [ne_eq] at hsame
            rw [if_pos hsame]
            simp only [hst, not_true, false_and, if_false]
            refine ⟨_, rfl, ⟨⟨l, hl, rfl⟩, by simp, .inl rfl⟩, .inl rfl⟩
          · simp only [ne_eq] at hsame
            rw [if_neg hsame]
            simp only [reduceCtorEq, not_false_eq_true, true_and]
            rw [hdiff_eq (Nat.le_refl _) hh, Nat.sub_self]
            by_cases hv : v3 ≤ h + 1
            · simp only [hv, if_true]
              rw [if_neg (by omega)]
              refine ⟨_, rfl, ⟨⟨l, hl, rfl⟩, by simp, .inr ⟨rfl, hv, ?_, by simp, rfl, htop⟩⟩, .inl rfl⟩
              simp only [hv, if_true] at hcount
              rcases hcount with hcount | hcount
              · omega
              · exact hcount
            · simp only [hv, if_false]
              rw [if_pos (by omega)]
              refine ⟨_, rfl, ⟨⟨_, htop, rfl⟩, by simp, .inl rfl⟩, .inr (.inl ⟨by omega, rfl, trivial⟩)⟩
      · rw [if_neg hneed]
        simp only [hst, not_true, false_and, if_false]
        exact ⟨_, rfl, ⟨⟨l, hl, rfl⟩, by simp only; omega, .inl hst⟩, .inl rfl⟩
    · rw [if_neg hcount]
      simp only [hst, not_true, false_and, if_false]
      exact ⟨_, rfl, ⟨⟨l, hl, hact⟩, by simp only; omega, .inl hst⟩, .inl rfl⟩
  · -- waiting
    have hv : v3 ≤ h + 1 := by omega
    simp only [hst, ne_eq, not_true, false_and, if_false, reduceCtorEq, not_false_eq_true, true_and, hv, if_true]
    rw [hdiff_eq (by omega) hh]
    by_cases hd : 100 ≤ h + 1 - s.pending.counted
    · rw [if_pos hd]
      refine ⟨_, rfl, ⟨⟨_, p5, rfl⟩, by simp only; omega, .inl rfl⟩, .inr (.inr ⟨s.pending.counted, by omega, p1, p2, rfl, ?_, ?_⟩)⟩
      · simp only; rw [p4]
      · rw [← p4]; exact p5
    · rw [if_neg hd]
      exact ⟨_, rfl, ⟨⟨l, hl, hact⟩, by simp only; omega, .inr ⟨hst, p1, p2, by simp only; omega, p4, p5⟩⟩, .inl rfl⟩

theorem genesis_good {v3 : Nat} (hv : 0 < v3) {ins : Nat → In α} (htop : (ins 0).top ≠ []) :
    ∃ s, stateAt v3 ins 0 = some s ∧ Good v3 ins 0 s := by
  simp only [stateAt, process]
  have h0 : ¬ v3 ≤ 0 := by omega
  simp only [h0, if_false, ne_eq, reduceCtorEq, not_false_eq_true, true_or, and_self, if_true, genPending, htop,
    Option.getD_none, not_true, false_and]
  exact ⟨_, if_pos (by simp), ⟨⟨_, htop, rfl⟩, by simp, .inl rfl⟩⟩

theorem reachable_good {v3 : Nat} (hv : 0 < v3) {ins : Nat → In α} (htop : (ins 0).top ≠ []) (h : Nat) (hh : h < 4294967296) :
    ∃ s, stateAt v3 ins h = some s ∧ Good v3 ins h s := by
  induction h with
  | zero => exact genesis_good hv htop
  | succ h ih =>
    obtain ⟨s, h1, h2⟩ := ih (by omega)
    obtain ⟨s', h3, h4, -⟩ := process_spec h2 hh
    exact ⟨s', by simp only [stateAt, h1, h3], h4⟩

/-- There is always a non-empty list of active delegates, so processing never hits the assertion. -/
theorem delegates_never_empty {v3 : Nat} (hv : 0 < v3) {ins : Nat → In α} (htop : (ins 0).top ≠ []) (h : Nat)
    (hh : h < 4294967296) : ∃ s l, stateAt v3 ins h = some s ∧ s.active = some l ∧ l ≠ [] := by
  obtain ⟨s, h1, h2⟩ := reachable_good hv htop h hh
  obtain ⟨l, h3, h4⟩ := h2.active
  exact ⟨s, l, h1, h4, h3⟩

/-- From the third fork on the active list changes only to the list counted at a height that is a multiple of 100 (and not
before the fork), exactly 100 blocks after the count. -/
theorem takeover_only_after_delay {v3 : Nat} (hv : 0 < v3) {ins : Nat → In α} (htop : (ins 0).top ≠ []) {h : Nat}
    (hh : h + 1 < 4294967296) (hfork : v3 ≤ h + 1) {s s' : St α} (h1 : stateAt v3 ins h = some s)
    (h2 : stateAt v3 ins (h + 1) = some s') (hchange : s'.active ≠ s.active) :
    ∃ c, c % 100 = 0 ∧ v3 ≤ c ∧ h + 1 = c + 100 ∧ s'.active = some (ins c).top := by
  obtain ⟨s0, e0, hg⟩ := reachable_good hv htop h (by omega)
  rw [h1] at e0
  simp only [Option.some.injEq] at e0
  subst e0
  obtain ⟨s1, e1, -, hcases⟩ := process_spec hg hh
  have e2 : stateAt v3 ins (h + 1) = some s1 := by simp only [stateAt, h1, e1]
  rw [h2] at e2
  simp only [Option.some.injEq] at e2
  subst e2
  rcases hcases with hc | ⟨hc, -⟩ | ⟨-, c, c1, c2, c3, -, -, c4, -⟩
  · exact absurd hc hchange
  · omega
  · exact ⟨c, c3, c2, c1.symm, c4⟩

/-- Before the third fork the active list changes only to the list counted in the same block. -/
theorem takeover_before_fork {v3 : Nat} (hv : 0 < v3) {ins : Nat → In α} (htop : (ins 0).top ≠ []) {h : Nat}
    (hh : h + 1 < 4294967296) (hfork : h + 1 < v3) {s s' : St α} (h1 : stateAt v3 ins h = some s)
    (h2 : stateAt v3 ins (h + 1) = some s') (hchange : s'.active ≠ s.active) : s'.active = some (ins (h + 1)).top := by
  obtain ⟨s0, e0, hg⟩ := reachable_good hv htop h (by omega)
  rw [h1] at e0
  simp only [Option.some.injEq] at e0
  subst e0
  obtain ⟨s1, e1, -, hcases⟩ := process_spec hg hh
  have e2 : stateAt v3 ins (h + 1) = some s1 := by simp only [stateAt, h1, e1]
  rw [h2] at e2
  simp only [Option.some.injEq] at e2
  subst e2
  rcases hcases with hc | ⟨-, hc, -⟩ | ⟨hc, -⟩
  · exact absurd hc hchange
  · exact hc
  · omega

/-- The active list stays the same over any stretch of heights in which no counted list falls due. -/
theorem active_constant_between {v3 : Nat} (hv : 0 < v3) {ins : Nat → In α} (htop : (ins 0).top ≠ []) {h k : Nat}
    (hh : h + k < 4294967296) (hfork : v3 ≤ h + 1) (hk : ∀ j, h < j → j ≤ h + k → j % 100 ≠ 0) {s s' : St α}
    (h1 : stateAt v3 ins h = some s) (h2 : stateAt v3 ins (h + k) = some s') : s'.active = s.active := by
  induction k generalizing s' with
  | zero => rw [Nat.add_zero, h1] at h2; simp only [Option.some.injEq] at h2; rw [h2]
  | succ k ih =>
    obtain ⟨s1, e1, -⟩ := reachable_good hv htop (h + k) (by omega)
    have := ih (by omega) (fun j a b => hk j a (by omega)) e1
    rw [← this]
    by_contra hne
    obtain ⟨c, c1, c2, c3, -⟩ := takeover_only_after_delay hv htop (h := h + k) (by omega) (by omega) e1 h2 hne
    have := hk (h + k + 1) (by omega) (by omega)
    omega

theorem stateAt_next {v3 : Nat} {ins : Nat → In α} {h : Nat} {s : St α} (h1 : stateAt v3 ins h = some s) :
    stateAt v3 ins (h + 1) = process v3 (h + 1) (ins (h + 1)) s := by
  simp only [stateAt, h1]

/-- A block while a counted list waits. -/
theorem process_waiting {v3 h c : Nat} {ins : Nat → In α} {top : List α} {active : Option (List α)} (hv : v3 ≤ h)
    (hc : c ≤ h) (hh : h < 4294967296) :
    process v3 h (ins h) ⟨⟨.pending, c, top⟩, active⟩ =
      some (if 100 ≤ h - c then ⟨⟨.activated, c, top⟩, some top⟩ else ⟨⟨.pending, c, top⟩, active⟩) := by
  simp only [process, ne_eq, not_true, false_and, if_false, reduceCtorEq, not_false_eq_true, true_and, hv, if_true]
  rw [hdiff_eq hc hh]
  split <;> rfl

/-- A count does take effect: if at a multiple of 100 nothing is pending, votes changed since the last count, and the top list
is new, then 100 blocks later that list is active. -/
theorem counted_list_takes_over {v3 : Nat} (hv : 0 < v3) {ins : Nat → In α} (htop : (ins 0).top ≠ []) {h : Nat}
    (hh : h + 1 + 100 < 4294967296) (hfork : v3 ≤ h + 1) (h100 : (h + 1) % 100 = 0) {s : St α} (h1 : stateAt v3 ins h = some s)
    (hidle : s.pending.state = .activated) (hvotes : s.pending.counted < (ins (h + 1)).lastVote)
    (hnew : (ins (h + 1)).top ≠ [] ∧ some (ins (h + 1)).top ≠ s.active) :
    ∃ s', stateAt v3 ins (h + 1 + 100) = some s' ∧ s'.active = some (ins (h + 1)).top := by
  obtain ⟨s0, e0, hg⟩ := reachable_good hv htop h (by omega)
  rw [h1] at e0
  simp only [Option.some.injEq] at e0
  subst e0
  obtain ⟨l, hl, hact⟩ := hg.active
  -- the count
  have hstep : stateAt v3 ins (h + 1) = some ⟨⟨.pending, h + 1, (ins (h + 1)).top⟩, s.active⟩ := by
    rw [stateAt_next h1]
    simp only [process, hidle, ne_eq, reduceCtorEq, not_false_eq_true, true_and, hfork, if_true, h100, or_true,
      hact, Option.getD_some, hvotes, true_or, genPending, hnew.1, if_false]
    rw [if_neg (by simpa using hl)]
    have hsame : ¬ (¬l = [] ∧ (ins (h + 1)).top = l) := by
      rintro ⟨-, h⟩; exact hnew.2 (by rw [h, hact])
    simp only [hsame, if_false, reduceCtorEq, not_false_eq_true, true_and]
    rw [hdiff_eq (Nat.le_refl _) (by omega), Nat.sub_self, if_neg (by omega)]
  -- waiting
  have hwait : ∀ k, k < 100 → stateAt v3 ins (h + 1 + k) = some ⟨⟨.pending, h + 1, (ins (h + 1)).top⟩, s.active⟩ := by
    intro k
    induction k with
    | zero => intro _; exact hstep
    | succ k ih =>
      intro hk
      have hprev := ih (by omega)
      rw [← Nat.add_assoc, stateAt_next hprev, process_waiting (by omega) (by omega) (by omega), if_neg (by omega)]
  have h99 := hwait 99 (by omega)
  refine ⟨⟨⟨.activated, h + 1, (ins (h + 1)).top⟩, some (ins (h + 1)).top⟩, ?_, rfl⟩
  have h100' : h + 1 + 100 = (h + 1 + 99) + 1 := by omega
  rw [h100', stateAt_next h99, process_waiting (by omega) (by omega) (by omega), if_pos (by omega)]

/-- A history with a hand-over: fork at height 50, list `[1]` from genesis, votes at height 60 for `[2]`; counted at 100, active
from 200 on, not at 199. -/
def exIns : Nat → In Nat := fun h => ⟨if h < 60 then [1] else [2], if h < 60 then 0 else 60, 1⟩

example : ((stateAt 50 exIns 199).bind (·.active), (stateAt 50 exIns 200).bind (·.active)) = (some [1], some [2]) := by
  decide +kernel

example : 0 < 50 ∧ (exIns 0).top ≠ [] := by decide

end Verif.Delegate
