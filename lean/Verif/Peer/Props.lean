import Verif.Peer.Model
import Mathlib.Data.List.Induction
import Mathlib.Tactic.NormNum.Basic

namespace Verif.Peer

/-! ## Median filter (C170) -/

def feed {α : Type} (size : Nat) (init : α) (vs : List α) : List α := vs.foldl (input size) [init]

theorem input_last {α : Type} {size : Nat} (hs : 0 < size) (all : List α) (v : α) :
    input size (all.drop (all.length - size)) v = (all ++ [v]).drop ((all ++ [v]).length - size) := by
  unfold input
  by_cases h : (all.drop (all.length - size)).length = size
  · rw [if_pos h]
    simp only [List.length_drop] at h
    rw [List.drop_drop, List.length_append, List.length_singleton, List.drop_append_of_le_length (by omega),
      show all.length + 1 - size = all.length - size + 1 by omega]
  · rw [if_neg h]
    simp only [List.length_drop] at h
    rw [List.length_append, List.length_singleton, show all.length - size = 0 by omega, show all.length + 1 - size = 0 by omega]
    simp

/-- The filter holds the last values. -/
theorem filter_last {α : Type} {size : Nat} (hs : 0 < size) (init : α) (vs : List α) :
    feed size init vs = (init :: vs).drop ((init :: vs).length - size) := by
  have gen : ∀ (vs all : List α), vs.foldl (input size) (all.drop (all.length - size)) = (all ++ vs).drop ((all ++ vs).length - size) := by
    intro vs
    induction vs with
    | nil => intro all; simp
    | cons v vs ih =>
      intro all
      rw [List.foldl_cons, input_last hs, ih]
      simp
  have k := gen vs [init]
  rw [show [init].length - size = 0 by simp; omega] at k
  exact k

theorem place_perm (x : Int) : ∀ l : List Int, (place x l).Perm (x :: l)
  | [] => List.Perm.refl _
  | y :: ys => by
    unfold place
    split
    · exact List.Perm.refl _
    · exact ((place_perm x ys).cons y).trans (List.Perm.swap x y ys)

theorem place_pairwise (x : Int) : ∀ l : List Int, l.Pairwise (· ≤ ·) → (place x l).Pairwise (· ≤ ·)
  | [], _ => by simp [place]
  | y :: ys, h => by
    have h' := List.pairwise_cons.mp h
    unfold place
    split
    · rename_i k
      refine List.pairwise_cons.mpr ⟨?_, h⟩
      intro z hz
      rcases List.mem_cons.mp hz with rfl | hz
      · exact k
      · exact Int.le_trans k (h'.1 z hz)
    · rename_i k
      refine List.pairwise_cons.mpr ⟨?_, place_pairwise x ys h'.2⟩
      intro z hz
      rcases List.mem_cons.mp ((place_perm x ys).mem_iff.mp hz) with rfl | hz
      · omega
      · exact h'.1 z hz

theorem sorted_perm : ∀ v : List Int, (sorted v).Perm v
  | [] => List.Perm.refl _
  | x :: v => (place_perm x _).trans ((sorted_perm v).cons x)

theorem sorted_pairwise : ∀ v : List Int, (sorted v).Pairwise (· ≤ ·)
  | [] => List.Pairwise.nil
  | x :: v => place_pairwise x _ (sorted_pairwise v)

theorem half_between {a b lo hi : Int} (h1 : lo ≤ a) (h2 : a ≤ b) (h3 : b ≤ hi) : lo ≤ (a + b).tdiv 2 ∧ (a + b).tdiv 2 ≤ hi := by
  by_cases h : 0 ≤ a + b
  · rw [Int.tdiv_eq_ediv_of_nonneg h]; omega
  · have e : (a + b).tdiv 2 = -((-(a + b)) / 2) := by
      rw [← Int.tdiv_eq_ediv_of_nonneg (by omega : 0 ≤ -(a + b)), Int.neg_tdiv, Int.neg_neg]
    rw [e]; omega

theorem low_count {s : List Int} (hs : s.Pairwise (· ≤ ·)) {j : Nat} (hj : j < s.length) {p : Int → Bool}
    (h : ∀ x, x ≤ s[j] → p x = false) : s.countP p ≤ s.length - (j + 1) := by
  have e : s.countP p = (s.take (j + 1)).countP p + (s.drop (j + 1)).countP p := by
    rw [← List.countP_append, List.take_append_drop]
  have z : (s.take (j + 1)).countP p = 0 := by
    rw [List.countP_eq_zero]
    intro x hx
    rw [h x]
    · simp
    · obtain ⟨i, hi, rfl⟩ := List.getElem_of_mem hx
      simp only [List.length_take] at hi
      rw [List.getElem_take]
      by_cases hij : i = j
      · subst hij; exact Int.le_refl _
      · exact List.pairwise_iff_getElem.mp hs i j (by omega) hj (by omega)
  have l := List.countP_le_length (p := p) (l := s.drop (j + 1))
  rw [List.length_drop] at l
  omega

theorem high_count {s : List Int} (hs : s.Pairwise (· ≤ ·)) {k : Nat} (hk : k < s.length) {p : Int → Bool}
    (h : ∀ x, s[k] ≤ x → p x = false) : s.countP p ≤ k := by
  have e : s.countP p = (s.take k).countP p + (s.drop k).countP p := by
    rw [← List.countP_append, List.take_append_drop]
  have z : (s.drop k).countP p = 0 := by
    rw [List.countP_eq_zero]
    intro x hx
    rw [h x]
    · simp
    · obtain ⟨i, hi, rfl⟩ := List.getElem_of_mem hx
      simp only [List.length_drop] at hi
      rw [List.getElem_drop]
      by_cases hij : i = 0
      · subst hij; exact Int.le_refl _
      · exact List.pairwise_iff_getElem.mp hs k (k + i) hk (by omega) (by omega)
  have l := List.countP_le_length (p := p) (l := s.take k)
  rw [List.length_take] at l
  omega

/-- If more than half of the values lie between two bounds, so does the median: a minority can not move it away. -/
theorem median_robust {v : List Int} {lo hi : Int} (h : v.length < 2 * v.countP (fun x => decide (lo ≤ x ∧ x ≤ hi))) :
    ∃ m, median v = some m ∧ lo ≤ m ∧ m ≤ hi := by
  have hp := sorted_perm v
  have hs := sorted_pairwise v
  rw [← hp.countP_eq, ← hp.length_eq] at h
  have pos : 0 < (sorted v).length := by
    have := List.countP_le_length (p := fun x => decide (lo ≤ x ∧ x ≤ hi)) (l := sorted v)
    omega
  have low : ∀ j (hj : j < (sorted v).length), (sorted v).length ≤ 2 * (j + 1) → lo ≤ (sorted v)[j] := by
    intro j hj hl
    by_contra hh
    have := low_count hs hj (p := fun x => decide (lo ≤ x ∧ x ≤ hi)) (by intro x hx; simp; omega)
    omega
  have high : ∀ k (hk : k < (sorted v).length), 2 * k ≤ (sorted v).length → (sorted v)[k] ≤ hi := by
    intro k hk hl
    by_contra hh
    have := high_count hs hk (p := fun x => decide (lo ≤ x ∧ x ≤ hi)) (by intro x hx; simp; omega)
    omega
  have get : ∀ i (hi : i < (sorted v).length), (sorted v).getD i 0 = (sorted v)[i] := by
    intro i hi
    simp [List.getD, hi]
  unfold median
  simp only
  rw [if_neg (by omega)]
  by_cases odd : (sorted v).length % 2 = 1
  · rw [if_pos odd, get _ (by omega)]
    exact ⟨_, rfl, low _ _ (by omega), high _ _ (by omega)⟩
  · rw [if_neg odd, get _ (by omega), get _ (by omega)]
    have a1 := low ((sorted v).length / 2 - 1) (by omega) (by omega)
    have a2 := high ((sorted v).length / 2) (by omega) (by omega)
    have a3 := List.pairwise_iff_getElem.mp hs ((sorted v).length / 2 - 1) ((sorted v).length / 2) (by omega) (by omega) (by omega)
    have a4 := half_between a1 a3 a2
    exact ⟨_, rfl, a4.1, a4.2⟩

/-! ## Clock (C171) -/

/-- A version message: when it comes, from whom, and the time it tells -/
structure Version where
  now : Int
  ip : Nat
  time : Int

def runClock : Clock → List Version → Option Clock
  | c, [] => some c
  | c, v :: vs => match addTimeData c v.now v.ip v.time with
    | none => none
    | some c' => runClock c' vs

/-- Until the filter is full its first value is the initial one; then its size is even for ever. -/
def Mute (c : Clock) : Prop := c.warned = false ∧ c.offset = 0 ∧ (c.values.length = 200 ∨ (c.values.length < 200 ∧ (0 : Int) ∈ c.values))

theorem addTimeData_mute {c c' : Clock} {now t : Int} {ip : Nat} (hc : Mute c) (h : addTimeData c now ip t = some c') : Mute c' := by
  obtain ⟨h1, h2, h3⟩ := hc
  unfold addTimeData at h
  simp only at h
  by_cases r : t - now < min64 ∨ max64 < t - now
  · rw [if_pos r] at h; cases h
  rw [if_neg r] at h
  by_cases k : ip ∈ c.known
  · rw [if_pos k] at h; injection h with h; subst h; exact ⟨h1, h2, h3⟩
  rw [if_neg k] at h
  have next : (input 200 c.values (t - now)).length = 200 ∨
      ((input 200 c.values (t - now)).length < 200 ∧ (0 : Int) ∈ input 200 c.values (t - now)) := by
    unfold input
    rcases h3 with h3 | ⟨h3, h4⟩
    · left; rw [if_pos h3]; simp [h3]
    · rw [if_neg (by omega)]
      by_cases e : c.values.length = 199
      · left; simp [e]
      · right; exact ⟨by simp; omega, by simp [h4]⟩
  by_cases g : 5 ≤ (input 200 c.values (t - now)).length ∧ (input 200 c.values (t - now)).length % 2 = 1
  · rw [if_pos g] at h
    cases hm : median (input 200 c.values (t - now)) with
    | none => rw [hm] at h; cases h
    | some m =>
      rw [hm] at h
      simp only at h
      split at h
      · cases h
      · injection h with h
        subst h
        refine ⟨?_, h2, next⟩
        have mem : (0 : Int) ∈ sorted (input 200 c.values (t - now)) := by
          rcases next with n | n
          · omega
          · exact (sorted_perm _).mem_iff.mpr n.2
        show (c.warned || wrong m (sorted (input 200 c.values (t - now)))) = false
        rw [h1, Bool.false_or, wrong, List.any_eq_true.mpr ⟨0, mem, by decide⟩]
        simp
  · rw [if_neg g] at h
    injection h with h
    subst h
    exact ⟨h1, h2, next⟩

theorem runClock_mute {vs : List Version} : ∀ {c c' : Clock}, Mute c → runClock c vs = some c' → Mute c' := by
  induction vs with
  | nil => intro c c' hc h; injection h with h; subst h; exact hc
  | cons v vs ih =>
    intro c c' hc h
    unfold runClock at h
    cases k : addTimeData c v.now v.ip v.time with
    | none => rw [k] at h; cases h
    | some c1 => rw [k] at h; exact ih (addTimeData_mute hc k) h

theorem mute_init : Mute {} := ⟨rfl, rfl, Or.inr ⟨by decide, by decide⟩⟩

/-- Peers can not move the clock of the node. -/
theorem clock_unmoved {vs : List Version} {c : Clock} (h : runClock {} vs = some c) (now : Int) : adjustedTime c now = now := by
  rw [adjustedTime, (runClock_mute mute_init h).2.1, Int.add_zero]

/-- Whatever the peers say, the warning about a wrong clock is never given. -/
theorem clock_never_warns {vs : List Version} {c : Clock} (h : runClock {} vs = some c) : c.warned = false := (runClock_mute mute_init h).1

/-- Six peers that agree on a time an hour ahead -/
def hour : List Version := (List.range 6).map (fun i => ⟨1000, i, 4600⟩)

/-- The clock is off by an hour from all the peers, and no warning is given. -/
theorem clock_warning_violated : ∃ c, runClock {} hour = some c ∧ c.values.drop 1 = List.replicate 6 3600 ∧ median c.values = some 3600 ∧ c.warned = false := by
  refine ⟨⟨[5, 4, 3, 2, 1, 0], 0 :: List.replicate 6 3600, 0, false⟩, ?_, by decide +kernel, by decide +kernel, rfl⟩
  decide +kernel

theorem median_mem {v : List Int} (h : v.length % 2 = 1) : ∃ m, median v = some m ∧ m ∈ v := by
  have hp := sorted_perm v
  have hl := hp.length_eq
  unfold median
  simp only
  rw [if_neg (by omega), if_pos (by omega)]
  have hi : (sorted v).length / 2 < (sorted v).length := by omega
  refine ⟨_, rfl, ?_⟩
  rw [show (sorted v).getD ((sorted v).length / 2) 0 = (sorted v)[(sorted v).length / 2] by simp [List.getD, hi]]
  exact hp.mem_iff.mp (List.getElem_mem hi)

theorem addTimeData_defined {c : Clock} {now t : Int} {ip : Nat} (hv : ∀ x ∈ c.values, x ≠ min64) (hr : min64 < t - now ∧ t - now ≤ max64) :
    ∃ c', addTimeData c now ip t = some c' ∧ ∀ x ∈ c'.values, x ≠ min64 := by
  have next : ∀ x ∈ input 200 c.values (t - now), x ≠ min64 := by
    intro x hx
    unfold input at hx
    rcases List.mem_append.mp hx with hx | hx
    · split at hx
      · exact hv x (List.mem_of_mem_drop hx)
      · exact hv x hx
    · rw [List.mem_singleton.mp hx]; omega
  unfold addTimeData
  simp only
  rw [if_neg (by omega)]
  by_cases k : ip ∈ c.known
  · rw [if_pos k]; exact ⟨c, rfl, hv⟩
  rw [if_neg k]
  by_cases g : 5 ≤ (input 200 c.values (t - now)).length ∧ (input 200 c.values (t - now)).length % 2 = 1
  · rw [if_pos g]
    obtain ⟨m, hm, mem⟩ := median_mem g.2
    rw [hm]
    have fit : absFits m (sorted (input 200 c.values (t - now))) c.warned = true := by
      unfold absFits
      have a : (m != min64) = true := by simpa using next m mem
      have b : (sorted (input 200 c.values (t - now))).all (· != min64) = true := by
        rw [List.all_eq_true]
        intro x hx
        simpa using next x ((sorted_perm _).mem_iff.mp hx)
      rw [a, b]; simp
    simp only [fit, Bool.not_true, Bool.false_eq_true, ↓reduceIte]
    exact ⟨_, rfl, next⟩
  · rw [if_neg g]
    exact ⟨_, rfl, next⟩

/-- Version messages whose times differ from the clock by less than 2^63 seconds are handled without undefined behaviour. -/
theorem clock_defined_partial (vs : List Version) (h : ∀ v ∈ vs, min64 < v.time - v.now ∧ v.time - v.now ≤ max64) : ∃ c, runClock {} vs = some c := by
  have gen : ∀ (vs : List Version) (c : Clock), (∀ x ∈ c.values, x ≠ min64) → (∀ v ∈ vs, min64 < v.time - v.now ∧ v.time - v.now ≤ max64) →
      ∃ c', runClock c vs = some c' := by
    intro vs
    induction vs with
    | nil => intro c _ _; exact ⟨c, rfl⟩
    | cons v vs ih =>
      intro c hc hv
      obtain ⟨c1, k1, k2⟩ := addTimeData_defined (ip := v.ip) hc (hv v (by simp))
      unfold runClock
      rw [k1]
      exact ih c1 k2 (fun w hw => hv w (by simp [hw]))
  exact gen vs {} (by decide) h

/-- The time a single peer tells, any value of an int64_t, can make the subtraction overflow. -/
theorem clock_overflow_violated : ∃ now t : Int, 0 < now ∧ min64 ≤ t ∧ t ≤ max64 ∧ addTimeData {} now 0 t = none :=
  ⟨1, min64, by decide, by decide, by decide, by decide +kernel⟩

-- a filter with more than half of its values near each other
example : ([100, -7, 3, 2, 1] : List Int).length < 2 * ([100, -7, 3, 2, 1] : List Int).countP (fun x => decide (1 ≤ x ∧ x ≤ 3)) := by decide
-- a run that comes to the comparison
example : (∀ v ∈ hour, min64 < v.time - v.now ∧ v.time - v.now ≤ max64) ∧ hour.length = 6 := by decide +kernel

/-! ## Relay memory (C172) -/

/-- A transaction is relayed. -/
structure Event where
  now : Int
  inv : Nat
  data : List Nat

def runRelay (r : Relay) (h : List Event) : Relay := h.foldl (fun r e => relay r e.now e.inv e.data) r

/-- The clock does not go back. -/
def Forward (h : List Event) : Prop := h.Pairwise (fun a b => a.now ≤ b.now)

theorem find_erase (m : List (Nat × List Nat)) (i j : Nat) : find (erase m i) j = if i = j then none else find m j := by
  unfold find erase
  induction m with
  | nil => simp
  | cons p m ih =>
    by_cases h : p.1 = i
    · rw [List.filter_cons_of_neg (by simp [h]), ih]
      by_cases e : i = j
      · rw [if_pos e, if_pos e]
      · rw [if_neg e, if_neg e, List.find?_cons_of_neg (by simp [h, e])]
    · rw [List.filter_cons_of_pos (by simp [h])]
      by_cases k : p.1 = j
      · rw [List.find?_cons_of_pos (by simp [k]), List.find?_cons_of_pos (by simp [k]), if_neg (by omega)]
      · rw [List.find?_cons_of_neg (by simp [k]), List.find?_cons_of_neg (by simp [k]), ih]

theorem find_insert (m : List (Nat × List Nat)) (i j : Nat) (d : List Nat) :
    find (insert m i d) j = if i = j then some ((find m i).getD d) else find m j := by
  unfold insert
  by_cases h : (find m i).isSome = true
  · rw [if_pos h]
    obtain ⟨x, hx⟩ := Option.isSome_iff_exists.mp h
    by_cases e : i = j
    · subst e; rw [if_pos rfl, hx]; rfl
    · rw [if_neg e]
  · rw [if_neg h]
    have hn : find m i = none := by simpa using h
    by_cases e : i = j
    · subst e; rw [if_pos rfl, hn]; simp [find]
    · rw [if_neg e]; simp [find, e]

theorem expire_queue (now : Int) : ∀ (q : List (Int × Nat)) (m : List (Nat × List Nat)),
    (expire now q m).queue = q.dropWhile (fun p => decide (p.1 < now))
  | [], m => rfl
  | (t, i) :: q, m => by
    unfold expire
    by_cases h : t < now
    · rw [if_pos h, expire_queue now q, List.dropWhile_cons, if_pos (by simpa using h)]
    · rw [if_neg h, List.dropWhile_cons, if_neg (by simpa using h)]

theorem expire_find (now : Int) : ∀ (q : List (Int × Nat)) (m : List (Nat × List Nat)) (j : Nat),
    find (expire now q m).map j = if ∃ p ∈ q.takeWhile (fun p : Int × Nat => decide (p.1 < now)), p.2 = j then none else find m j
  | [], m, j => by simp [expire]
  | (t, i) :: q, m, j => by
    unfold expire
    by_cases h : t < now
    · have w : ((t, i) :: q).takeWhile (fun p : Int × Nat => decide (p.1 < now)) = (t, i) :: q.takeWhile (fun p => decide (p.1 < now)) := by
        rw [List.takeWhile_cons, if_pos (by simpa using h)]
      rw [if_pos h, expire_find now q, find_erase, w]
      by_cases e : i = j
      · simp [e]
      · rw [if_neg e]
        have iff_ : (∃ p ∈ (t, i) :: q.takeWhile (fun p : Int × Nat => decide (p.1 < now)), p.2 = j) ↔
            ∃ p ∈ q.takeWhile (fun p : Int × Nat => decide (p.1 < now)), p.2 = j := by
          constructor
          · rintro ⟨p, hp, k⟩
            rcases List.mem_cons.mp hp with rfl | hp
            · exact absurd k e
            · exact ⟨p, hp, k⟩
          · rintro ⟨p, hp, k⟩
            exact ⟨p, List.mem_cons_of_mem _ hp, k⟩
        by_cases c : ∃ p ∈ q.takeWhile (fun p : Int × Nat => decide (p.1 < now)), p.2 = j
        · rw [if_pos c, if_pos (iff_.mpr c)]
        · rw [if_neg c, if_neg (fun k => c (iff_.mp k))]
    · have w : ((t, i) :: q).takeWhile (fun p : Int × Nat => decide (p.1 < now)) = [] := by
        rw [List.takeWhile_cons, if_neg (by simpa using h)]
      rw [if_neg h, w]
      simp

theorem takeWhile_lt {now : Int} : ∀ {q : List (Int × Nat)} {p : Int × Nat}, p ∈ q.takeWhile (fun p => decide (p.1 < now)) → p.1 < now
  | [], p, hp => by simp at hp
  | x :: q, p, hp => by
    rw [List.takeWhile_cons] at hp
    by_cases k : x.1 < now
    · rw [if_pos (by simpa using k)] at hp
      rcases List.mem_cons.mp hp with rfl | hp
      · exact k
      · exact takeWhile_lt hp
    · rw [if_neg (by simpa using k)] at hp
      simp at hp

theorem serve_relay (r : Relay) (now : Int) (i j : Nat) (d : List Nat) : serve (relay r now i d) j =
    if i = j then some ((find (expire now r.queue r.map).map i).getD d) else find (expire now r.queue r.map).map j := find_insert _ _ _ _

/-- What is served was relayed under that name. -/
theorem relay_true (h : List Event) : ∀ {i : Nat} {d : List Nat}, serve (runRelay {} h) i = some d → ∃ e ∈ h, e.inv = i ∧ e.data = d := by
  induction h using List.reverseRecOn with
  | nil => intro i d k; simp [runRelay, serve, find] at k
  | append_singleton h e ih =>
    intro i d k
    rw [runRelay, List.foldl_append, List.foldl_cons, List.foldl_nil, serve_relay] at k
    have old : ∀ j x, find (expire e.now (runRelay {} h).queue (runRelay {} h).map).map j = some x → ∃ e' ∈ h, e'.inv = j ∧ e'.data = x := by
      intro j x hx
      rw [expire_find] at hx
      split at hx
      · cases hx
      · exact ih hx
    change (if e.inv = i then some ((find (expire e.now (runRelay {} h).queue (runRelay {} h).map).map e.inv).getD e.data)
      else find (expire e.now (runRelay {} h).queue (runRelay {} h).map).map i) = some d at k
    by_cases c : e.inv = i
    · rw [if_pos c] at k
      cases f : find (expire e.now (runRelay {} h).queue (runRelay {} h).map).map e.inv with
      | none => rw [f] at k; exact ⟨e, by simp, c, by simpa using k⟩
      | some x =>
        rw [f] at k
        obtain ⟨e', m, k1, k2⟩ := old _ _ f
        exact ⟨e', by simp [m], by rw [k1, c], by rw [k2]; simpa using k⟩
    · rw [if_neg c] at k
      obtain ⟨e', m, k1, k2⟩ := old _ _ k
      exact ⟨e', by simp [m], k1, k2⟩

/-- Every item that is kept waits in the queue; the queue is in order and comes from the relayed items. -/
structure Kept (h : List Event) (r : Relay) : Prop where
  wait : ∀ i, (serve r i).isSome → ∃ t, (t, i) ∈ r.queue
  order : r.queue.Pairwise (fun a b => a.1 ≤ b.1)
  from_ : ∀ p ∈ r.queue, ∃ e ∈ h, e.inv = p.2 ∧ p.1 = e.now + 900

theorem dropWhile_ge {now : Int} : ∀ {q : List (Int × Nat)}, q.Pairwise (fun a b => a.1 ≤ b.1) →
    ∀ p ∈ q.dropWhile (fun p => decide (p.1 < now)), now ≤ p.1
  | [], _, p, hp => by simp at hp
  | x :: q, h, p, hp => by
    rw [List.dropWhile_cons] at hp
    by_cases k : x.1 < now
    · rw [if_pos (by simpa using k)] at hp
      exact dropWhile_ge (List.pairwise_cons.mp h).2 p hp
    · rw [if_neg (by simpa using k)] at hp
      rcases List.mem_cons.mp hp with rfl | hp
      · omega
      · have := (List.pairwise_cons.mp h).1 p hp; omega

theorem kept (h : List Event) : Forward h → Kept h (runRelay {} h) := by
  induction h using List.reverseRecOn with
  | nil => intro _; exact ⟨by intro i k; simp [runRelay, serve, find] at k, by simp [runRelay], by simp [runRelay]⟩
  | append_singleton h e ih =>
    intro f
    have f' := List.pairwise_append.mp f
    have ih := ih f'.1
    have run : runRelay {} (h ++ [e]) = relay (runRelay {} h) e.now e.inv e.data := by
      rw [runRelay, List.foldl_append]; rfl
    rw [run]
    generalize runRelay {} h = r at ih
    have q : (relay r e.now e.inv e.data).queue = r.queue.dropWhile (fun p => decide (p.1 < e.now)) ++ [(e.now + 900, e.inv)] := by
      unfold relay
      simp only [expire_queue]
      norm_num
    refine ⟨?_, ?_, ?_⟩
    · intro i k
      rw [q]
      rw [serve_relay] at k
      by_cases c : e.inv = i
      · exact ⟨e.now + 900, by simp [c]⟩
      · rw [if_neg c, expire_find] at k
        split at k
        · simp at k
        · rename_i no
          obtain ⟨t, ht⟩ := ih.wait i k
          rw [← List.takeWhile_append_dropWhile (p := fun p => decide (p.1 < e.now)) (l := r.queue)] at ht
          rcases List.mem_append.mp ht with ht | ht
          · exact absurd ⟨_, ht, rfl⟩ no
          · exact ⟨t, List.mem_append.mpr (Or.inl ht)⟩
    · rw [q]
      refine List.pairwise_append.mpr ⟨ih.order.sublist (List.dropWhile_sublist _), by simp, ?_⟩
      intro a ha b hb
      rw [List.mem_singleton.mp hb]
      obtain ⟨e', m, -, k⟩ := ih.from_ a ((List.dropWhile_sublist _).mem ha)
      have := f'.2.2 e' m e (by simp)
      simp only
      omega
    · intro p hp
      rw [q] at hp
      rcases List.mem_append.mp hp with hp | hp
      · obtain ⟨e', m, k⟩ := ih.from_ p ((List.dropWhile_sublist _).mem hp)
        exact ⟨e', by simp [m], k⟩
      · rw [List.mem_singleton.mp hp]
        exact ⟨e, by simp, rfl, rfl⟩

/-- Nothing is kept that was not relayed in the fifteen minutes before the last relay. -/
theorem relay_forgets {h : List Event} {e : Event} (f : Forward (h ++ [e])) {i : Nat} (k : (serve (runRelay {} (h ++ [e])) i).isSome) :
    ∃ e' ∈ h ++ [e], e'.inv = i ∧ e.now ≤ e'.now + 900 := by
  have K := kept (h ++ [e]) f
  obtain ⟨t, ht⟩ := K.wait i k
  obtain ⟨e', m, k1, k2⟩ := K.from_ _ ht
  refine ⟨e', m, k1, ?_⟩
  have run : runRelay {} (h ++ [e]) = relay (runRelay {} h) e.now e.inv e.data := by
    rw [runRelay, List.foldl_append]; rfl
  rw [run] at ht
  have o := (kept h (List.pairwise_append.mp f).1).order
  unfold relay at ht
  simp only [expire_queue] at ht
  rcases List.mem_append.mp ht with ht | ht
  · have := dropWhile_ge o _ ht
    simp only at this k2
    omega
  · have := List.mem_singleton.mp ht
    simp only [Prod.mk.injEq] at this
    simp only at k2
    omega

theorem relay_stays {i : Nat} {d : List Nat} {t : Int} (h : List Event) : ∀ (r : Relay), serve r i = some d →
    (∀ p ∈ r.queue, p.2 = i → t ≤ p.1) → (∀ e ∈ h, t ≤ e.now + 900 ∧ e.now ≤ t) → serve (runRelay r h) i = some d := by
  induction h with
  | nil => intro r k _ _; exact k
  | cons e h ih =>
    intro r k w b
    have eb := b e (by simp)
    have same : find (expire e.now r.queue r.map).map i = some d := by
      rw [expire_find, if_neg]
      · exact k
      · rintro ⟨p, hp, hi⟩
        have h1 := w p ((List.takeWhile_sublist _).mem hp) hi
        have h2 := takeWhile_lt hp
        omega
    refine ih (relay r e.now e.inv e.data) ?_ ?_ (fun x hx => b x (by simp [hx]))
    · rw [serve_relay]
      by_cases c : e.inv = i
      · rw [if_pos c, c, same]; rfl
      · rw [if_neg c, same]
    · intro p hp hi
      unfold relay at hp
      simp only [expire_queue] at hp
      rcases List.mem_append.mp hp with hp | hp
      · exact w p ((List.dropWhile_sublist _).mem hp) hi
      · rw [List.mem_singleton.mp hp]
        simp only
        omega

/-- An item that was not relayed in the fifteen minutes before is served unchanged for fifteen minutes, whatever else is relayed. -/
theorem relay_kept_partial {h1 h2 : List Event} {e : Event} (f : Forward (h1 ++ [e])) (new : ∀ x ∈ h1, x.inv = e.inv → x.now + 900 < e.now)
    (b : ∀ x ∈ h2, e.now ≤ x.now ∧ x.now ≤ e.now + 900) : serve (runRelay {} (h1 ++ [e] ++ h2)) e.inv = some e.data := by
  have K := kept h1 (List.pairwise_append.mp f).1
  have run : runRelay {} (h1 ++ [e] ++ h2) = runRelay (relay (runRelay {} h1) e.now e.inv e.data) h2 := by
    rw [runRelay, List.foldl_append, List.foldl_append]; rfl
  rw [run]
  have gone : ∀ p ∈ (runRelay {} h1).queue.dropWhile (fun p => decide (p.1 < e.now)), p.2 ≠ e.inv := by
    intro p hp hi
    have g := dropWhile_ge K.order p hp
    obtain ⟨x, m, k1, k2⟩ := K.from_ p ((List.dropWhile_sublist _).mem hp)
    have := new x m (by rw [k1, hi])
    omega
  have none_ : find (expire e.now (runRelay {} h1).queue (runRelay {} h1).map).map e.inv = none := by
    rw [expire_find]
    split
    · rfl
    · rename_i no
      cases c : find (runRelay {} h1).map e.inv with
      | none => rfl
      | some x =>
        obtain ⟨t, ht⟩ := K.wait e.inv (by rw [serve, c]; rfl)
        rw [← List.takeWhile_append_dropWhile (p := fun p => decide (p.1 < e.now)) (l := (runRelay {} h1).queue)] at ht
        rcases List.mem_append.mp ht with ht | ht
        · exact absurd ⟨_, ht, rfl⟩ no
        · exact absurd rfl (gone _ ht)
  refine relay_stays (t := e.now + 900) h2 _ ?_ ?_ (fun x hx => by have := b x hx; omega)
  · rw [serve_relay, if_pos rfl, none_]; rfl
  · intro p hp hi
    unfold relay at hp
    simp only [expire_queue] at hp
    rcases List.mem_append.mp hp with hp | hp
    · exact absurd hi (gone p hp)
    · rw [List.mem_singleton.mp hp]
      simp

/-- An item relayed again is dropped when its first fifteen minutes are over: here two seconds after it was relayed. -/
theorem relay_kept_violated : Forward [⟨0, 1, [7]⟩, ⟨899, 1, [7]⟩, ⟨901, 2, [8]⟩] ∧
    serve (runRelay {} [⟨0, 1, [7]⟩, ⟨899, 1, [7]⟩, ⟨901, 2, [8]⟩]) 1 = none := ⟨by unfold Forward; decide, by decide⟩

-- an old relay of the same item, then a new one, then others
example : Forward ([⟨0, 1, [7]⟩, ⟨500, 3, [9]⟩] ++ [⟨901, 1, [7]⟩]) ∧
    serve (runRelay {} ([⟨0, 1, [7]⟩, ⟨500, 3, [9]⟩] ++ [⟨901, 1, [7]⟩] ++ [⟨1801, 2, [8]⟩])) 1 = some [7] ∧
    serve (runRelay {} ([⟨0, 1, [7]⟩, ⟨500, 3, [9]⟩] ++ [⟨901, 1, [7]⟩] ++ [⟨1801, 2, [8]⟩])) 3 = none :=
  ⟨by unfold Forward; decide, by decide, by decide⟩

end Verif.Peer
