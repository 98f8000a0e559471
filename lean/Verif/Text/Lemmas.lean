import Verif.Text.Model
import Mathlib.Tactic.Linarith
import Mathlib.Tactic.Ring

/-! # Lemmas: numbers in two bases -/
namespace Verif.Text

theorem mem_takeWhile_imp' {p : Nat → Bool} : ∀ {l : List Nat} {x : Nat}, x ∈ l.takeWhile p → p x = true
  | [], x, h => by cases h
  | y :: l, x, h => by
    rw [List.takeWhile_cons] at h
    split at h
    · rename_i hy
      rcases List.mem_cons.mp h with h | h
      · rw [h]; exact hy
      · exact mem_takeWhile_imp' h
    · cases h

/-- Value of a buffer, last place first. -/
def val (b : Nat) : List Nat → Nat
  | [] => 0
  | d :: ds => d + b * val b ds

/-- Value of digits, first place first, continuing from `v`. -/
def big (b v : Nat) (l : List Nat) : Nat := l.foldl (fun v d => b * v + d) v

theorem big_nil (b v : Nat) : big b v [] = v := rfl
theorem big_cons (b v d : Nat) (l) : big b v (d :: l) = big b (b * v + d) l := rfl
theorem big_append (b v : Nat) (l l') : big b v (l ++ l') = big b (big b v l) l' := by simp [big]

theorem val_lt {b : Nat} (hb : 0 < b) : ∀ {ds : List Nat}, (∀ d ∈ ds, d < b) → val b ds < b ^ ds.length
  | [], _ => by simp [val]
  | d :: ds, h => by
    have ih := val_lt hb (ds := ds) fun x hx => h x (by simp [hx])
    have hd := h d (by simp)
    simp only [val, List.length_cons, Nat.pow_succ]
    calc d + b * val b ds < b + b * val b ds := by omega
      _ = b * (val b ds + 1) := by ring
      _ ≤ b * b ^ ds.length := Nat.mul_le_mul_left _ ih
      _ = b ^ ds.length * b := by ring

theorem addMul_spec {b m : Nat} (hb : 0 < b) : ∀ (ds : List Nat) (c : Nat),
    val b (addMul b m ds c).1 + b ^ ds.length * (addMul b m ds c).2 = c + m * val b ds ∧
      (addMul b m ds c).1.length = ds.length ∧ ∀ d ∈ (addMul b m ds c).1, d < b
  | [], c => by simp [addMul, val]
  | d :: ds, c => by
    obtain ⟨h1, h2, h3⟩ := addMul_spec (m := m) hb ds ((c + m * d) / b)
    simp only [addMul, val, List.length_cons, Nat.pow_succ]
    refine ⟨?_, by simp [h2], ?_⟩
    · have hdm := Nat.mod_add_div (c + m * d) b
      calc (c + m * d) % b + b * val b (addMul b m ds ((c + m * d) / b)).1 + b ^ ds.length * b * (addMul b m ds ((c + m * d) / b)).2
          = (c + m * d) % b + b * (val b (addMul b m ds ((c + m * d) / b)).1 + b ^ ds.length * (addMul b m ds ((c + m * d) / b)).2) := by ring
        _ = (c + m * d) % b + b * ((c + m * d) / b + m * val b ds) := by rw [h1]
        _ = (c + m * d) % b + b * ((c + m * d) / b) + b * (m * val b ds) := by ring
        _ = c + m * d + b * (m * val b ds) := by rw [hdm]
        _ = c + m * (d + b * val b ds) := by ring
    · intro x hx
      rcases List.mem_cons.mp hx with h | h
      · rw [h]; exact Nat.mod_lt _ hb
      · exact h3 x h

theorem addMul_fits {b m : Nat} (hb : 0 < b) {ds : List Nat} {c : Nat} (h : c + m * val b ds < b ^ ds.length) :
    (addMul b m ds c).2 = 0 ∧ val b (addMul b m ds c).1 = c + m * val b ds := by
  obtain ⟨h1, _, _⟩ := addMul_spec (m := m) hb ds c
  have h2 : (addMul b m ds c).2 = 0 := by
    by_contra h0
    have : b ^ ds.length * 1 ≤ b ^ ds.length * (addMul b m ds c).2 := Nat.mul_le_mul_left _ (by omega)
    omega
  rw [h2] at h1
  exact ⟨h2, by omega⟩

theorem convert_ok {b m : Nat} (hb : 0 < b) : ∀ (xs buf : List Nat), (∀ x ∈ xs, x < m) → (∀ d ∈ buf, d < b) →
    (val b buf + 1) * m ^ xs.length ≤ b ^ buf.length →
    ∃ buf', convert b m buf xs = .ok buf' ∧ val b buf' = big m (val b buf) xs ∧ ∀ d ∈ buf', d < b
  | [], buf, _, hd, _ => ⟨buf, rfl, rfl, hd⟩
  | x :: xs, buf, hx, hd, h => by
    have hxm := hx x (by simp)
    have hpos : 1 ≤ m ^ xs.length := Nat.one_le_pow _ _ (by omega)
    have e : (val b buf + 1) * m ^ (x :: xs).length = (m * val b buf + m) * m ^ xs.length := by
      simp only [List.length_cons, Nat.pow_succ]; ring
    rw [e] at h
    have hstep : (x + m * val b buf + 1) * m ^ xs.length ≤ b ^ buf.length :=
      Nat.le_trans (Nat.mul_le_mul_right _ (by omega)) h
    have hlt : x + m * val b buf < b ^ buf.length := by
      have : (x + m * val b buf + 1) * 1 ≤ (x + m * val b buf + 1) * m ^ xs.length := Nat.mul_le_mul_left _ hpos
      omega
    obtain ⟨h1, h2⟩ := addMul_fits hb hlt
    obtain ⟨_, h3, h4⟩ := addMul_spec (m := m) hb buf x
    obtain ⟨buf', e1, e2, e3⟩ := convert_ok hb xs (addMul b m buf x).1 (fun y hy => hx y (by simp [hy])) h4 (by rw [h2, h3]; exact hstep)
    refine ⟨buf', ?_, ?_, e3⟩
    · rw [convert]; simp only [h1, if_true]; exact e1
    · rw [e2, h2, big_cons, Nat.add_comm]

/-! ## Canonical digits -/

theorem big_zero_head (b : Nat) (l : List Nat) : big b 0 (0 :: l) = big b 0 l := by simp [big_cons]

theorem big_dropWhile (b : Nat) : ∀ l : List Nat, big b 0 (l.dropWhile (· == 0)) = big b 0 l
  | [] => rfl
  | d :: l => by
    rw [List.dropWhile_cons]
    split
    · rename_i h
      have : d = 0 := by simpa using h
      rw [this, big_zero_head, big_dropWhile b l]
    · rfl

theorem big_reverse (b : Nat) : ∀ ds : List Nat, big b 0 ds.reverse = val b ds
  | [] => rfl
  | d :: ds => by
    rw [List.reverse_cons, big_append, big_reverse b ds, big_cons, big_nil, val]; omega

theorem big_strip (b : Nat) (buf : List Nat) : big b 0 (strip buf) = val b buf := by
  rw [strip, big_dropWhile, big_reverse]

theorem strip_digits {b : Nat} {buf : List Nat} (h : ∀ d ∈ buf, d < b) : ∀ d ∈ strip buf, d < b := by
  intro d hd
  exact h d (by simpa using (List.dropWhile_sublist _).subset hd)

theorem dropWhile_head (l : List Nat) : (l.dropWhile (· == 0)).head? ≠ some 0 := by
  induction l with
  | nil => simp
  | cons d l ih =>
    rw [List.dropWhile_cons]
    split
    · exact ih
    · rename_i h
      simpa using h

theorem strip_head (buf : List Nat) : (strip buf).head? ≠ some 0 := dropWhile_head _

theorem val_unique {b : Nat} (hb : 0 < b) : ∀ (l l' : List Nat), (∀ d ∈ l, d < b) → (∀ d ∈ l', d < b) →
    l.getLast? ≠ some 0 → l'.getLast? ≠ some 0 → val b l = val b l' → l = l'
  | [], [], _, _, _, _, _ => rfl
  | [], d :: l, _, h', _, hl', e => by
    exfalso
    have : d = 0 ∧ val b l = 0 := by
      simp only [val] at e
      constructor
      · omega
      · rcases Nat.eq_zero_or_pos (val b l) with h | h
        · exact h
        · have := Nat.mul_pos hb h; omega
    cases l with
    | nil => apply hl'; simp [this.1]
    | cons x l =>
      have := val_unique hb [] (x :: l) (by simp) (fun y hy => h' y (by simp [hy])) (by simp) (by
        intro hx; apply hl'; rw [List.getLast?_cons_cons]; exact hx) (by rw [this.2]; rfl)
      cases this
  | d :: l, [], h, _, hl, _, e => by
    exfalso
    have : d = 0 ∧ val b l = 0 := by
      simp only [val] at e
      constructor
      · omega
      · rcases Nat.eq_zero_or_pos (val b l) with h | h
        · exact h
        · have := Nat.mul_pos hb h; omega
    cases l with
    | nil => apply hl; simp [this.1]
    | cons x l =>
      have := val_unique hb (x :: l) [] (fun y hy => h y (by simp [hy])) (by simp) (by
        intro hx; apply hl; rw [List.getLast?_cons_cons]; exact hx) (by simp) (by rw [this.2]; rfl)
      cases this
  | d :: l, d' :: l', h, h', hl, hl', e => by
    have hd := h d (by simp)
    have hd' := h' d' (by simp)
    simp only [val] at e
    have e1 : d = d' := by
      have := congrArg (· % b) e
      simpa [Nat.add_mul_mod_self_left, Nat.mod_eq_of_lt hd, Nat.mod_eq_of_lt hd'] using this
    have e2 : val b l = val b l' := by
      rw [e1] at e
      exact Nat.eq_of_mul_eq_mul_left hb (by omega)
    have tl : ∀ (x : Nat) (t : List Nat), (x :: t).getLast? ≠ some 0 → t.getLast? ≠ some 0 := by
      intro x t hx ht
      cases t with
      | nil => cases ht
      | cons y t => apply hx; rw [List.getLast?_cons_cons]; exact ht
    rw [e1, val_unique hb l l' (fun x hx => h x (by simp [hx])) (fun x hx => h' x (by simp [hx])) (tl _ _ hl) (tl _ _ hl') e2]

theorem big_unique {b : Nat} (hb : 0 < b) {l l' : List Nat} (h : ∀ d ∈ l, d < b) (h' : ∀ d ∈ l', d < b)
    (hl : l.head? ≠ some 0) (hl' : l'.head? ≠ some 0) (e : big b 0 l = big b 0 l') : l = l' := by
  have := val_unique hb l.reverse l'.reverse (by simpa using h) (by simpa using h') (by simpa using hl) (by simpa using hl') (by
    rw [← big_reverse, ← big_reverse]; simpa using e)
  simpa using congrArg List.reverse this

theorem val_zeros (b n : Nat) : val b (List.replicate n 0) = 0 := by
  induction n with
  | zero => rfl
  | succ n ih => rw [List.replicate_succ, val, ih]; omega

/-! ## Room in the buffers -/

theorem room {a b p q : Nat} (hq : 0 < q) (hb : 1 < b) (h : a ^ q ≤ b ^ p) (n : Nat) : a ^ n ≤ b ^ (n * p / q + 1) := by
  have h1 : (a ^ n) ^ q ≤ (b ^ (n * p / q + 1)) ^ q := by
    calc (a ^ n) ^ q = (a ^ q) ^ n := by rw [← Nat.pow_mul, ← Nat.pow_mul, Nat.mul_comm]
      _ ≤ (b ^ p) ^ n := Nat.pow_le_pow_left h n
      _ = b ^ (n * p) := by rw [← Nat.pow_mul, Nat.mul_comm]
      _ ≤ b ^ ((n * p / q + 1) * q) := by
        apply Nat.pow_le_pow_right (by omega)
        have := Nat.div_add_mod (n * p) q
        have := Nat.mod_lt (n * p) hq
        have e : (n * p / q + 1) * q = q * (n * p / q) + q := by ring
        omega
      _ = (b ^ (n * p / q + 1)) ^ q := by rw [Nat.pow_mul]
  exact (Nat.pow_le_pow_iff_left (by omega)).mp h1

theorem room_encode (n : Nat) : 256 ^ n ≤ 58 ^ (n * 138 / 100 + 1) :=
  room (by decide) (by decide) (by decide +kernel) n

theorem room_decode (n : Nat) : 58 ^ n ≤ 256 ^ (n * 733 / 1000 + 1) :=
  room (by decide) (by decide) (by decide +kernel) n

/-! ## The alphabet -/

theorem alphabet_props : ∀ c ∈ alphabet, char58 (alphabet.idxOf c) = c ∧ alphabet.idxOf c < 58 ∧ space c = false ∧ c ≠ 0 ∧
    (alphabet.idxOf c = 0 → c = 49) := by decide +kernel

theorem digit_char : ∀ d < 58, digit58 (char58 d) = some d ∧ char58 d ∈ alphabet ∧ (char58 d = 49 → d = 0) := by decide +kernel

theorem decodeLoop_ok : ∀ (cs buf : List Nat), (∀ c ∈ cs, c ∈ alphabet) →
    decodeLoop buf cs = convert 256 58 buf (cs.map (alphabet.idxOf ·))
  | [], _, _ => rfl
  | c :: cs, buf, h => by
    have hc := h c (by simp)
    rw [decodeLoop, List.map_cons, convert]
    simp only [digit58, hc, if_true]
    split
    · rw [decodeLoop_ok cs _ fun x hx => h x (by simp [hx])]
    · rfl

theorem decodeLoop_bad : ∀ (cs buf : List Nat), (∀ d ∈ buf, d < 256) → (val 256 buf + 1) * 58 ^ cs.length ≤ 256 ^ buf.length →
    ¬ (∀ c ∈ cs, c ∈ alphabet) → decodeLoop buf cs = .bad
  | [], _, _, _, h => absurd (by simp) h
  | c :: cs, buf, hd, hr, h => by
    rw [decodeLoop]
    by_cases hc : c ∈ alphabet
    · have hi := (alphabet_props c hc).2.1
      simp only [digit58, hc, if_true]
      have hpos : 1 ≤ 58 ^ cs.length := Nat.one_le_pow _ _ (by omega)
      have e : (val 256 buf + 1) * 58 ^ (c :: cs).length = (58 * val 256 buf + 58) * 58 ^ cs.length := by
        simp only [List.length_cons, Nat.pow_succ]; ring
      rw [e] at hr
      have hstep : (alphabet.idxOf c + 58 * val 256 buf + 1) * 58 ^ cs.length ≤ 256 ^ buf.length :=
        Nat.le_trans (Nat.mul_le_mul_right _ (by omega)) hr
      have hlt : alphabet.idxOf c + 58 * val 256 buf < 256 ^ buf.length := by
        have : (alphabet.idxOf c + 58 * val 256 buf + 1) * 1 ≤ (alphabet.idxOf c + 58 * val 256 buf + 1) * 58 ^ cs.length :=
          Nat.mul_le_mul_left _ hpos
        omega
      obtain ⟨h1, h2⟩ := addMul_fits (by decide) hlt
      obtain ⟨_, h3, h4⟩ := addMul_spec (m := 58) (b := 256) (by decide) buf (alphabet.idxOf c)
      simp only [h1, if_true]
      refine decodeLoop_bad cs _ h4 (by rw [h2, h3]; exact hstep) (fun hall => h ?_)
      intro x hx
      rcases List.mem_cons.mp hx with hx | hx
      · rw [hx]; exact hc
      · exact hall x hx
    · simp [digit58, hc]

/-! ## Both directions in one form -/

theorem dropWhile_append_of_all {p : Nat → Bool} {a b : List Nat} (h : ∀ x ∈ a, p x = true) : (a ++ b).dropWhile p = b.dropWhile p := by
  induction a with
  | nil => rfl
  | cons x a ih => rw [List.cons_append, List.dropWhile_cons, if_pos (h x (by simp)), ih fun y hy => h y (by simp [hy])]

theorem takeWhile_append_of_all {p : Nat → Bool} {a b : List Nat} (h : ∀ x ∈ a, p x = true) : (a ++ b).takeWhile p = a ++ b.takeWhile p := by
  induction a with
  | nil => rfl
  | cons x a ih => rw [List.cons_append, List.takeWhile_cons, if_pos (h x (by simp)), ih fun y hy => h y (by simp [hy]), List.cons_append]

theorem dropWhile_stop {p : Nat → Bool} {l : List Nat} (h : ∀ x, l.head? = some x → p x = false) : l.dropWhile p = l := by
  cases l with
  | nil => rfl
  | cons x l => rw [List.dropWhile_cons, if_neg (by simp [h x rfl])]

theorem takeWhile_stop {p : Nat → Bool} {l : List Nat} (h : ∀ x, l.head? = some x → p x = false) : l.takeWhile p = [] := by
  cases l with
  | nil => rfl
  | cons x l => rw [List.takeWhile_cons, if_neg (by simp [h x rfl])]

/-- A byte string and its base 58 text: as many leading zeros as ones, and the same number. -/
def Same (bs t : List Nat) : Prop :=
  ∃ z r u, bs = List.replicate z 0 ++ r ∧ t = List.replicate z 49 ++ u.map char58 ∧ r.head? ≠ some 0 ∧ u.head? ≠ some 0 ∧
    (∀ d ∈ r, d < 256) ∧ (∀ d ∈ u, d < 58) ∧ big 256 0 r = big 58 0 u

theorem zeros_split (bs : List Nat) : bs = List.replicate (bs.takeWhile (· == 0)).length 0 ++ bs.dropWhile (· == 0) := by
  have h : bs.takeWhile (· == 0) = List.replicate (bs.takeWhile (· == 0)).length 0 := by
    rw [List.eq_replicate_iff]
    exact ⟨rfl, fun x hx => by simpa using mem_takeWhile_imp' hx⟩
  rw [← h, List.takeWhile_append_dropWhile]

theorem encode_same {bs : List Nat} (h : ∀ x ∈ bs, x < 256) : ∃ t, encode58 bs = .ok t ∧ Same bs t := by
  have hr : ∀ x ∈ bs.dropWhile (· == 0), x < 256 := fun x hx => h x ((List.dropWhile_sublist _).subset hx)
  have hrm := room_encode (bs.dropWhile (· == 0)).length
  obtain ⟨buf, e1, e2, e3⟩ := convert_ok (b := 58) (m := 256) (by decide) (bs.dropWhile (· == 0))
    (List.replicate ((bs.dropWhile (· == 0)).length * 138 / 100 + 1) 0) hr (by intro d hd; rw [List.eq_of_mem_replicate hd]; decide) (by
      rw [val_zeros, List.length_replicate, Nat.zero_add, Nat.one_mul]; exact hrm)
  rw [val_zeros] at e2
  refine ⟨_, by unfold encode58; simp only [e1], _, _, strip buf, zeros_split bs, rfl, dropWhile_head _, strip_head _, hr, strip_digits e3, ?_⟩
  rw [big_strip, e2]

theorem same_alphabet {bs t : List Nat} (h : Same bs t) : ∀ c ∈ t, c ∈ alphabet := by
  obtain ⟨z, r, u, _, e, _, _, _, hu, _⟩ := h
  intro c hc
  rw [e] at hc
  rcases List.mem_append.mp hc with hc | hc
  · rw [List.eq_of_mem_replicate hc]; decide
  · obtain ⟨d, hd, e⟩ := List.mem_map.mp hc
    rw [← e]; exact (digit_char d (hu d hd)).2.1

theorem same_bytes {bs t : List Nat} (h : Same bs t) : ∀ x ∈ bs, x < 256 := by
  obtain ⟨z, r, u, e, _, _, _, hr, _, _⟩ := h
  intro x hx
  rw [e] at hx
  rcases List.mem_append.mp hx with hx | hx
  · rw [List.eq_of_mem_replicate hx]; decide
  · exact hr x hx

theorem replicate_split {α} {a : α} {z z' : Nat} {r r' : List α} (h : r.head? ≠ some a) (h' : r'.head? ≠ some a)
    (e : List.replicate z a ++ r = List.replicate z' a ++ r') : z = z' ∧ r = r' := by
  induction z generalizing z' with
  | zero =>
    cases z' with
    | zero => exact ⟨rfl, by simpa using e⟩
    | succ z' => rw [List.replicate_succ] at e; simp at e; rw [e] at h; simp at h
  | succ z ih =>
    cases z' with
    | zero => rw [List.replicate_succ] at e; simp at e; rw [← e] at h'; simp at h'
    | succ z' =>
      rw [List.replicate_succ, List.replicate_succ, List.cons_append, List.cons_append] at e
      injection e with _ e
      obtain ⟨h1, h2⟩ := ih e
      exact ⟨by rw [h1], h2⟩

theorem map_char_head {u : List Nat} (hu : ∀ d ∈ u, d < 58) (h : u.head? ≠ some 0) : (u.map char58).head? ≠ some 49 := by
  cases u with
  | nil => simp
  | cons d u =>
    intro e
    simp at e
    exact h (by simp [(digit_char d (hu d (by simp))).2.2 e])

theorem map_char_inj : ∀ {u u' : List Nat}, (∀ d ∈ u, d < 58) → (∀ d ∈ u', d < 58) → u.map char58 = u'.map char58 → u = u'
  | [], [], _, _, _ => rfl
  | [], _ :: _, _, _, e => by cases e
  | _ :: _, [], _, _, e => by cases e
  | d :: u, d' :: u', h, h', e => by
    rw [List.map_cons, List.map_cons] at e
    injection e with e1 e2
    have h1 := (digit_char d (h d (by simp))).1
    rw [e1, (digit_char d' (h' d' (by simp))).1] at h1
    injection h1 with h1
    rw [h1, map_char_inj (fun x hx => h x (by simp [hx])) (fun x hx => h' x (by simp [hx])) e2]

theorem same_text_unique {bs t t' : List Nat} (h : Same bs t) (h' : Same bs t') : t = t' := by
  obtain ⟨z, r, u, e1, e2, h1, h2, h3, h4, h5⟩ := h
  obtain ⟨z', r', u', e1', e2', h1', h2', h3', h4', h5'⟩ := h'
  obtain ⟨ez, er⟩ := replicate_split h1 h1' (e1.symm.trans e1')
  have := big_unique (by decide) h4 h4' h2 h2' (by rw [← h5, ← h5', er])
  rw [e2, e2', ez, this]

theorem same_bytes_unique {bs bs' t : List Nat} (h : Same bs t) (h' : Same bs' t) : bs = bs' := by
  obtain ⟨z, r, u, e1, e2, h1, h2, h3, h4, h5⟩ := h
  obtain ⟨z', r', u', e1', e2', h1', h2', h3', h4', h5'⟩ := h'
  obtain ⟨ez, eu⟩ := replicate_split (map_char_head h4 h2) (map_char_head h4' h2') (e2.symm.trans e2')
  have eu := map_char_inj h4 h4' eu
  have := big_unique (by decide) h3 h3' h1 h1' (by rw [h5, h5', eu])
  rw [e1, e1', ez, this]

theorem ones_split (t : List Nat) : t = List.replicate (t.takeWhile (· == 49)).length 49 ++ t.dropWhile (· == 49) := by
  have h : t.takeWhile (· == 49) = List.replicate (t.takeWhile (· == 49)).length 49 := by
    rw [List.eq_replicate_iff]
    exact ⟨rfl, fun x hx => by simpa using mem_takeWhile_imp' hx⟩
  rw [← h, List.takeWhile_append_dropWhile]

theorem dropWhile_head49 (l : List Nat) : (l.dropWhile (· == 49)).head? ≠ some 49 := by
  induction l with
  | nil => simp
  | cons d l ih =>
    rw [List.dropWhile_cons]
    split
    · exact ih
    · rename_i h
      simpa using h

/-- Decoding a text of the alphabet between spaces. -/
theorem decode_same {a t b : List Nat} (ha : ∀ x ∈ a, space x = true) (hb : ∀ x ∈ b, space x = true) (ht : ∀ c ∈ t, c ∈ alphabet) :
    ∃ bs, decode58 (a ++ t ++ b) = .ok bs ∧ Same bs t := by
  have hns : ∀ c ∈ t, space c = false := fun c hc => (alphabet_props c (ht c hc)).2.2.1
  have s1 : (a ++ t ++ b).dropWhile space = if t = [] then [] else t ++ b := by
    rw [List.append_assoc, dropWhile_append_of_all ha]
    split
    · rename_i h0
      rw [h0, List.nil_append]
      have := dropWhile_append_of_all (b := []) hb
      simpa using this
    · rename_i h0
      apply dropWhile_stop
      intro x hx
      cases t with
      | nil => exact absurd rfl h0
      | cons c t => simp at hx; rw [← hx]; exact hns c (by simp)
  by_cases h0 : t = []
  · subst h0
    rw [if_pos rfl] at s1
    refine ⟨[], ?_, 0, [], [], rfl, rfl, by simp, by simp, by simp, by simp, rfl⟩
    unfold decode58
    rw [s1]
    rfl
  · rw [if_neg h0] at s1
    obtain ⟨z, u', ez, eu, hu⟩ : ∃ z u', z = (t.takeWhile (· == 49)).length ∧ t = List.replicate z 49 ++ u' ∧ u'.head? ≠ some 49 :=
      ⟨_, _, rfl, ones_split t, dropWhile_head49 t⟩
    have hu' : ∀ c ∈ u', c ∈ alphabet := fun c hc => ht c (by rw [eu]; simp [hc])
    have hone : ∀ x ∈ List.replicate z 49, (x == 49) = true := by
      intro x hx; rw [List.eq_of_mem_replicate hx]; rfl
    have hub : ∀ x, (u' ++ b).head? = some x → (x == 49) = false := by
      intro x hx
      cases u' with
      | nil =>
        rw [List.nil_append] at hx
        have := hb x (List.mem_of_mem_head? hx)
        cases h : x == 49 with
        | false => rfl
        | true =>
          have h49 : x = 49 := by simpa using h
          rw [h49] at this
          exact absurd this (by decide)
      | cons c u' =>
        simp at hx hu; rw [← hx]; simpa using hu
    have t1 : (t ++ b).takeWhile (· == 49) = List.replicate z 49 := by
      rw [eu, List.append_assoc, takeWhile_append_of_all hone, takeWhile_stop hub, List.append_nil]
    have t2 : (t ++ b).dropWhile (· == 49) = u' ++ b := by
      rw [eu, List.append_assoc, dropWhile_append_of_all hone, dropWhile_stop hub]
    have hsp : ∀ x, b.head? = some x → (fun c => !space c) x = false := by
      intro x hx; simp [hb x (List.mem_of_mem_head? hx)]
    have hnsu : ∀ x ∈ u', (fun c => !space c) x = true := by
      intro x hx; simp [(alphabet_props x (hu' x hx)).2.2.1]
    have t3 : (u' ++ b).takeWhile (fun c => !space c) = u' := by
      rw [takeWhile_append_of_all hnsu, takeWhile_stop hsp, List.append_nil]
    have t4 : (u' ++ b).dropWhile (fun c => !space c) = b := by
      rw [dropWhile_append_of_all hnsu, dropWhile_stop hsp]
    have hrm := room_decode (u' ++ b).length
    have hle : 58 ^ (u'.map (alphabet.idxOf ·)).length ≤ 58 ^ (u' ++ b).length := Nat.pow_le_pow_right (by decide) (by simp)
    obtain ⟨buf, e1, e2, e3⟩ := convert_ok (b := 256) (m := 58) (by decide) (u'.map (alphabet.idxOf ·))
      (List.replicate ((u' ++ b).length * 733 / 1000 + 1) 0) (by
        intro x hx
        obtain ⟨c, hc, e⟩ := List.mem_map.mp hx
        rw [← e]; exact (alphabet_props c (hu' c hc)).2.1) (by intro d hd; rw [List.eq_of_mem_replicate hd]; decide) (by
        rw [val_zeros, List.length_replicate, Nat.zero_add, Nat.one_mul]; exact Nat.le_trans hle hrm)
    rw [val_zeros] at e2
    refine ⟨List.replicate z 0 ++ strip buf, ?_, z, strip buf, u'.map (alphabet.idxOf ·), rfl, ?_, strip_head _, ?_, strip_digits e3, ?_, ?_⟩
    · unfold decode58
      simp only [s1, t1, t2, t3, t4, List.length_replicate]
      rw [decodeLoop_ok u' _ hu', e1]
      have : b.all space = true := List.all_eq_true.mpr hb
      simp [this]
    · rw [List.map_map]
      have : u'.map (char58 ∘ (alphabet.idxOf ·)) = u' := by
        conv_rhs => rw [← List.map_id u']
        apply List.map_congr_left
        intro c hc
        exact (alphabet_props c (hu' c hc)).1
      rw [this]; exact eu
    · cases u' with
      | nil => simp
      | cons c u' =>
        intro e
        simp at e hu
        exact hu ((alphabet_props c (hu' c (by simp))).2.2.2.2 e)
    · intro x hx
      obtain ⟨c, hc, e⟩ := List.mem_map.mp hx
      rw [← e]; exact (alphabet_props c (hu' c hc)).2.1
    · rw [big_strip, e2]

/-- What decoding a text amounts to. -/
theorem decode_cases (s : List Nat) :
    (∃ a t b bs, s = a ++ t ++ b ∧ (∀ x ∈ a, space x = true) ∧ (∀ x ∈ b, space x = true) ∧ decode58 s = .ok bs ∧ Same bs t) ∨
    (decode58 s = .bad ∧ ∀ a t b, s = a ++ t ++ b → (∀ x ∈ a, space x = true) → (∀ x ∈ b, space x = true) → ¬ ∀ c ∈ t, c ∈ alphabet) := by
  by_cases h : ∃ a t b, s = a ++ t ++ b ∧ (∀ x ∈ a, space x = true) ∧ (∀ x ∈ b, space x = true) ∧ ∀ c ∈ t, c ∈ alphabet
  · obtain ⟨a, t, b, e, ha, hb, ht⟩ := h
    obtain ⟨bs, e1, e2⟩ := decode_same ha hb ht
    left
    exact ⟨a, t, b, bs, e, ha, hb, by rw [e]; exact e1, e2⟩
  · right
    refine ⟨?_, fun a t b e ha hb ht => h ⟨a, t, b, e, ha, hb, ht⟩⟩
    have hs := List.takeWhile_append_dropWhile (p := space) (l := s)
    obtain ⟨a, ea⟩ : ∃ a, a = s.takeWhile space := ⟨_, rfl⟩
    obtain ⟨s1, es1⟩ : ∃ s1, s1 = s.dropWhile space := ⟨_, rfl⟩
    have ho := ones_split s1
    obtain ⟨r, er⟩ : ∃ r, r = s1.dropWhile (· == 49) := ⟨_, rfl⟩
    have hr := List.takeWhile_append_dropWhile (p := fun c => !space c) (l := r)
    rw [← ea, ← es1] at hs
    rw [← er] at ho
    have ha : ∀ x ∈ a, space x = true := fun x hx => by rw [ea] at hx; exact mem_takeWhile_imp' hx
    unfold decode58
    simp only [← es1, ← er]
    by_cases hal : ∀ c ∈ r.takeWhile (fun c => !space c), c ∈ alphabet
    · rw [decodeLoop_ok _ _ hal]
      have hrm := room_decode r.length
      have hlen : (r.takeWhile (fun c => !space c)).length ≤ r.length := (List.takeWhile_sublist _).length_le
      have hle : 58 ^ ((r.takeWhile (fun c => !space c)).map (alphabet.idxOf ·)).length ≤ 58 ^ r.length :=
        Nat.pow_le_pow_right (by decide) (by simpa using hlen)
      obtain ⟨buf, e1, _, _⟩ := convert_ok (b := 256) (m := 58) (by decide) ((r.takeWhile (fun c => !space c)).map (alphabet.idxOf ·))
        (List.replicate (r.length * 733 / 1000 + 1) 0) (by
          intro x hx
          obtain ⟨c, hc, e⟩ := List.mem_map.mp hx
          rw [← e]; exact (alphabet_props c (hal c hc)).2.1) (by intro d hd; rw [List.eq_of_mem_replicate hd]; decide) (by
          rw [val_zeros, List.length_replicate, Nat.zero_add, Nat.one_mul]; exact Nat.le_trans hle hrm)
      rw [e1]
      simp only
      rw [if_neg]
      intro hb
      apply h
      refine ⟨a, List.replicate (s1.takeWhile (· == 49)).length 49 ++ r.takeWhile (fun c => !space c), r.dropWhile (fun c => !space c),
        ?_, ha, fun x hx => List.all_eq_true.mp hb x hx, ?_⟩
      · rw [List.append_assoc, List.append_assoc, hr, ← ho]; exact hs.symm
      · intro c hc
        rcases List.mem_append.mp hc with hc | hc
        · rw [List.eq_of_mem_replicate hc]; decide
        · exact hal c hc
    · have hrm := room_decode r.length
      have hlen : (r.takeWhile (fun c => !space c)).length ≤ r.length := (List.takeWhile_sublist _).length_le
      have hle : 58 ^ (r.takeWhile (fun c => !space c)).length ≤ 58 ^ r.length := Nat.pow_le_pow_right (by decide) hlen
      rw [decodeLoop_bad _ _ (by intro d hd; rw [List.eq_of_mem_replicate hd]; decide) (by
        rw [val_zeros, List.length_replicate, Nat.zero_add, Nat.one_mul]; exact Nat.le_trans hle hrm) hal]

end Verif.Text
