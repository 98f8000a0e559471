import Verif.Arith.Compact

/-!
# C156, C157: 256-bit numbers

The specification is arithmetic of natural numbers: `val` reads the words as a number in base 2^32.
-/
namespace Verif.Arith

/-- Eight words of 32 bits: every state the object can be in. -/
def Num (a : List Nat) : Prop := a.length = 8 ∧ Ok a

instance (a : List Nat) : Decidable (Num a) := by unfold Num Ok; infer_instance

/-! ## C156 -/

/-- Each number below 2^256 is exactly one object. -/
theorem represents : (∀ a, Num a → val a < 2 ^ 256) ∧ (∀ a b, Num a → Num b → val a = val b → a = b) ∧
    (∀ n, n < 2 ^ 64 → Num (ofU64 n) ∧ val (ofU64 n) = n) ∧ (∀ a, Num a → low64 a = val a % 2 ^ 64) :=
  ⟨fun _ h => val_lt' h.2 h.1, fun _ _ ha hb => val_inj (ha.1.trans hb.1.symm) ha.2 hb.2,
    fun _ h => ⟨⟨(ofU64_ok h).2.1, (ofU64_ok h).1⟩, (ofU64_ok h).2.2⟩, fun _ h => low64_ok h.2⟩

/-- Sums, differences, negatives, steps and products are exact modulo 2^256. -/
theorem ring_exact {a b : List Nat} (ha : Num a) (hb : Num b) :
    (Num (add a b) ∧ val (add a b) = (val a + val b) % 2 ^ 256) ∧
    (Num (sub a b) ∧ (val (sub a b) + val b) % 2 ^ 256 = val a) ∧
    (Num (neg a) ∧ (val (neg a) + val a) % 2 ^ 256 = 0) ∧
    (Num (inc a) ∧ val (inc a) = (val a + 1) % 2 ^ 256) ∧
    (Num (dec a) ∧ (val (dec a) + 1) % 2 ^ 256 = val a) ∧
    (Num (mul a b) ∧ val (mul a b) = val a * val b % 2 ^ 256) ∧
    (∀ c, c < 2 ^ 32 → Num (mul32 a c) ∧ val (mul32 a c) = c * val a % 2 ^ 256) := by
  obtain ⟨la, oa⟩ := ha
  obtain ⟨lb, ob⟩ := hb
  have va := val_lt' oa la
  have vb := val_lt' ob lb
  obtain ⟨z1, z2, z3⟩ := zero_ok
  obtain ⟨d1, d2, d3⟩ := add_ok oa ob la lb
  obtain ⟨s1, s2, s3⟩ := sub_ok oa ob la lb
  obtain ⟨n1, n2, n3⟩ := neg_ok oa la
  obtain ⟨i1, i2, i3⟩ := inc_ok oa
  obtain ⟨e1, e2, e3⟩ := dec_ok oa
  obtain ⟨m1, m2, m3⟩ := mulLoop_ok ob (a := a) (ps := List.replicate 8 0) (by rw [z2, la]) (by rw [z2, lb]) oa z1
  rw [la] at i2 e2
  rw [la, WM] at i3 e3
  rw [z2] at m2
  rw [z2, z3, WM, Nat.zero_add] at m3
  refine ⟨⟨⟨d2, d1⟩, d3⟩, ⟨⟨s2, s1⟩, ?_⟩, ⟨⟨n2, n1⟩, ?_⟩, ⟨⟨i2, i1⟩, i3⟩, ⟨⟨e2, e1⟩, ?_⟩, ⟨⟨m2, m1⟩, m3⟩, ?_⟩
  · rw [s3, Nat.mod_add_mod, show val a + (2 ^ 256 - val b) + val b = val a + 2 ^ 256 by omega, Nat.add_mod_right, Nat.mod_eq_of_lt va]
  · rw [n3, Nat.mod_add_mod, Nat.sub_add_cancel (Nat.le_of_lt va), Nat.mod_self]
  · rw [e3, Nat.mod_add_mod, show val a + (2 ^ 256 - 1) + 1 = val a + 2 ^ 256 by omega, Nat.add_mod_right, Nat.mod_eq_of_lt va]
  · intro c hc
    obtain ⟨k1, k2, k3⟩ := mul32Loop_ok (b := c) hc (a := a) (c := 0) oa Wpos
    rw [la] at k2
    rw [la, WM, Nat.zero_add] at k3
    exact ⟨⟨k2, k1⟩, k3⟩

/-- Division is exact, and fails for zero and nothing else. -/
theorem division {a b : List Nat} (ha : Num a) (hb : Num b) :
    (div a b = none ↔ val b = 0) ∧ (∀ r, div a b = some r → Num r ∧ val r * val b ≤ val a ∧ val a < (val r + 1) * val b) := by
  obtain ⟨h0, h1⟩ := div_ok ha.2 hb.2 ha.1 hb.1
  constructor
  · constructor
    · intro hn
      by_contra hne
      obtain ⟨r, hr, _⟩ := h1 hne
      rw [hn] at hr
      cases hr
    · exact h0
  · intro r hr
    have hne : val b ≠ 0 := by
      intro h
      rw [h0 h] at hr
      cases hr
    obtain ⟨r', hr', o, l, v⟩ := h1 hne
    rw [hr] at hr'
    cases hr'
    refine ⟨⟨l, o⟩, ?_, ?_⟩
    · rw [v]; exact Nat.div_mul_le_self _ _
    · rw [v, Nat.mul_comm]; exact Nat.lt_mul_div_succ _ (Nat.pos_of_ne_zero hne)

/-- Shifts and the operations on bits act on the bits of the number; so does the count of its bits. -/
theorem bitwise {a b : List Nat} (ha : Num a) (hb : Num b) :
    (∀ s, Num (shl a s) ∧ val (shl a s) = val a * 2 ^ s % 2 ^ 256) ∧
    (∀ s, Num (shr a s) ∧ val (shr a s) = val a / 2 ^ s) ∧
    (Num (and a b) ∧ val (and a b) = val a &&& val b) ∧
    (Num (or a b) ∧ val (or a b) = val a ||| val b) ∧
    (Num (xor a b) ∧ val (xor a b) = val a ^^^ val b) ∧
    (Num (not a) ∧ val (not a) = 2 ^ 256 - 1 - val a) ∧
    (∀ n, val a < 2 ^ n ↔ bits a ≤ n) := by
  obtain ⟨la, oa⟩ := ha
  obtain ⟨lb, ob⟩ := hb
  have hl : a.length = b.length := la.trans lb.symm
  refine ⟨fun s => ?_, fun s => ?_, ?_, ?_, ?_, ?_, ?_⟩
  · obtain ⟨h1, h2, h3⟩ := shl_ok oa s
    exact ⟨⟨h2, h1⟩, h3⟩
  · obtain ⟨h1, h2, h3⟩ := shr_ok oa la s
    exact ⟨⟨h2, h1⟩, h3⟩
  · have ok : Ok (and a b) := zip_ok (fun x y hx _ => Nat.and_lt_two_pow _ ‹_›) oa ob
    refine ⟨⟨by rw [and, List.length_zipWith, la, lb]; rfl, ok⟩, ?_⟩
    apply Nat.eq_of_testBit_eq
    intro i
    rw [val_testBit i ok, Nat.testBit_and, val_testBit i oa, val_testBit i ob, and, zip_getD rfl hl, Nat.testBit_and]
  · have ok : Ok (or a b) := zip_ok (fun x y hx hy => Nat.or_lt_two_pow hx hy) oa ob
    refine ⟨⟨by rw [or, List.length_zipWith, la, lb]; rfl, ok⟩, ?_⟩
    apply Nat.eq_of_testBit_eq
    intro i
    rw [val_testBit i ok, Nat.testBit_or, val_testBit i oa, val_testBit i ob, or, zip_getD rfl hl, Nat.testBit_or]
  · have ok : Ok (xor a b) := zip_ok (fun x y hx hy => Nat.xor_lt_two_pow hx hy) oa ob
    refine ⟨⟨by rw [xor, List.length_zipWith, la, lb]; rfl, ok⟩, ?_⟩
    apply Nat.eq_of_testBit_eq
    intro i
    rw [val_testBit i ok, Nat.testBit_xor, val_testBit i oa, val_testBit i ob, xor, zip_getD rfl hl, Nat.testBit_xor]
  · obtain ⟨h1, h2, h3⟩ := not_ok oa
    rw [la] at h2
    rw [la, WM] at h3
    exact ⟨⟨h2, h1⟩, by omega⟩
  · intro n
    obtain ⟨_, h2, h3⟩ := bits_ok oa
    constructor
    · intro h
      by_contra hn
      exact absurd (Nat.lt_of_le_of_lt (h3 (by omega)) h) (Nat.not_lt.2 (Nat.pow_le_pow_right (by decide) (by omega)))
    · intro h
      exact Nat.lt_of_lt_of_le h2 (Nat.pow_le_pow_right (by decide) h)

/-- The comparisons are the order of the numbers. -/
theorem ordering {a b : List Nat} (ha : Num a) (hb : Num b) :
    (compareTo a b < 0 ↔ val a < val b) ∧ (compareTo a b > 0 ↔ val b < val a) ∧ (compareTo a b = 0 ↔ a = b) ∧
    (∀ n, n < 2 ^ 64 → (equalTo a n = true ↔ val a = n)) := by
  obtain ⟨la, oa⟩ := ha
  obtain ⟨lb, ob⟩ := hb
  have hc := compareTo_ok (la.trans lb.symm) oa ob
  refine ⟨hc.1, hc.2, ?_, ?_⟩
  · constructor
    · intro h
      refine val_inj (la.trans lb.symm) oa ob ?_
      have h1 : ¬ val a < val b := fun h' => by have := hc.1.2 h'; omega
      have h2 : ¬ val b < val a := fun h' => by have := hc.2.2 h'; omega
      omega
    · intro h
      have h1 : ¬ compareTo a b < 0 := fun h' => by have := hc.1.1 h'; rw [h] at this; omega
      have h2 : ¬ compareTo a b > 0 := fun h' => by have := hc.2.1 h'; rw [h] at this; omega
      omega
  · intro n hn
    obtain ⟨u1, u2, u3⟩ := ofU64_ok hn
    have key : equalTo a n = true ↔ a = ofU64 n := by
      match a, la with
      | [x0, x1, x2, x3, x4, x5, x6, x7], _ =>
        have hd : n / W % W = n / W := Nat.mod_eq_of_lt (div_lt hn)
        unfold equalTo ofU64
        rw [hd]
        simp only [List.drop_succ_cons, List.drop_zero, List.any_cons, List.any_nil, List.getD_cons_succ, List.getD_cons_zero]
        constructor
        · intro h
          split at h
          · cases h
          · rename_i h1
            split at h
            · cases h
            · rename_i h2
              split at h
              · cases h
              · rename_i h3
                simp at h1 h2 h3
                simp [h1, h2, h3]
        · intro h
          simp only [List.cons.injEq, and_true] at h
          simp [h]
    rw [key]
    constructor
    · intro h; rw [h, u3]
    · intro h
      exact val_inj (by rw [la, u2]) oa u1 (by rw [h, u3])

/-- Carries through all the words, and a quotient of three bits. -/
example : Num [W - 1, W - 1, W - 1, W - 1, W - 1, W - 1, W - 1, 0] ∧
    add [W - 1, W - 1, W - 1, W - 1, W - 1, W - 1, W - 1, 0] (ofU64 1) = [0, 0, 0, 0, 0, 0, 0, 1] ∧
    sub (ofU64 0) (ofU64 1) = List.replicate 8 (W - 1) ∧
    mul [0, 1, 0, 0, 0, 0, 0, 0] [0, 0, 0, 0, 0, 0, 1, 1] = [0, 0, 0, 0, 0, 0, 0, 1] ∧
    div [5, 0, 0, 0, 0, 0, 0, 1] [0, 0, 0, 0, 0, 0, 2 ^ 30, 0] = some (ofU64 4) ∧ div (ofU64 7) (ofU64 0) = none ∧
    shl [3, 0, 0, 0, 0, 0, 0, 0] 255 = [0, 0, 0, 0, 0, 0, 0, 2 ^ 31] ∧ bits [0, 0, 0, 0, 0, 0, 0, 1] = 225 := by
  decide +kernel

/-! ## C157 -/

/-- What the compact form means: the mantissa times a power of 256, reduced to 256 bits, with exact flags. -/
theorem compact_means (c : Nat) :
    Num (setCompact c).1 ∧ val (setCompact c).1 = exact c % 2 ^ 256 ∧
    ((setCompact c).2.1 = true ↔ exact c ≠ 0 ∧ signed c) ∧ ((setCompact c).2.2 = true ↔ 2 ^ 256 ≤ exact c) := by
  obtain ⟨h1, h2, h3, h4, h5⟩ := setCompact_ok c
  exact ⟨⟨h2, h1⟩, h3, h4, h5⟩

theorem getCompact_eq {a : List Nat} (negative : Bool) (ha : Num a) :
    ∃ m s : Nat, getCompact a negative = some (s * 2 ^ 24 + (if negative = true ∧ m ≠ 0 then 2 ^ 23 else 0) + m) ∧ m < 2 ^ 23 ∧ s < 256 ∧
      (s = if val a = 0 then 0 else bits a / 8 + 1) ∧ m = mant (val a) s ∧
      exact (s * 2 ^ 24 + (if negative = true ∧ m ≠ 0 then 2 ^ 23 else 0) + m) = trunc (val a) (bits a / 8 - 2) ∧ (m = 0 ↔ val a = 0) := by
  obtain ⟨g1, g2, g3⟩ := getCompact_ok negative ha.2 ha.1
  have hs : (if val a = 0 then 0 else bits a / 8 + 1) < 256 := by split <;> omega
  refine ⟨_, _, g1.trans (pack_ok negative g2 hs), g2, hs, rfl, rfl, ?_⟩
  obtain ⟨b1, b2, b3⟩ := bits_ok ha.2
  have hex : ∀ m s f : Nat, m < 2 ^ 23 → (f = 0 ∨ f = 2 ^ 23) → exact (s * 2 ^ 24 + f + m) = m * 2 ^ (8 * s) / 2 ^ 24 := by
    intro m s f hm hf
    unfold exact
    rw [show (s * 2 ^ 24 + f + m) % 2 ^ 23 = m by omega, show (s * 2 ^ 24 + f + m) / 2 ^ 24 = s by omega]
  rw [hex _ _ _ g2 (ite_eq_or_eq _ _ _).symm]
  by_cases h0 : val a = 0
  · rw [if_pos h0]
    have : ∀ s, mant 0 s = 0 := by intro s; unfold mant; rw [Nat.zero_mul, Nat.zero_div]
    rw [h0, this]
    unfold trunc
    rw [Nat.zero_div]
    simp
  · rw [if_neg h0]
    have hb0 : bits a ≠ 0 := by intro h; rw [h] at b2; omega
    refine ⟨by rw [exact_mant b2 (by omega), show bits a / 8 + 1 - 3 = bits a / 8 - 2 by omega], fun h => ?_, fun h => absurd h h0⟩
    exfalso
    have : 1 ≤ mant (val a) (bits a / 8 + 1) := by
      rw [mant, Nat.le_div_iff_mul_le (Nat.two_pow_pos _), Nat.one_mul]
      refine Nat.le_trans ?_ (Nat.mul_le_mul_right _ (b3 hb0))
      rw [← Nat.pow_add]
      exact Nat.pow_le_pow_right (by decide) (by omega)
    omega

/-- Writing a number in the compact form never fails, and reading it back gives the number without the bytes after the
first three, or after the first two if the first one has its highest bit set; no overflow; the sign unless it is zero. -/
theorem compact_truncates {a : List Nat} (negative : Bool) (ha : Num a) :
    ∃ c : Nat, getCompact a negative = some c ∧ c < 2 ^ 32 ∧ exact c = trunc (val a) (bits a / 8 - 2) ∧
      val (setCompact c).1 = trunc (val a) (bits a / 8 - 2) ∧ ((setCompact c).2.1 = true ↔ negative = true ∧ val a ≠ 0) ∧ (setCompact c).2.2 = false := by
  obtain ⟨m, s, hg, hm, hs, hse, hme, he, h0⟩ := getCompact_eq negative ha
  obtain ⟨f, hf⟩ : ∃ f, (if negative = true ∧ m ≠ 0 then 2 ^ 23 else 0) = f := ⟨_, rfl⟩
  have hf2 : f = 0 ∨ f = 2 ^ 23 := by rw [← hf]; split <;> simp
  obtain ⟨c, hc⟩ : ∃ c, s * 2 ^ 24 + f + m = c := ⟨_, rfl⟩
  rw [hf, hc] at hg he
  obtain ⟨_, c2, c3, c4⟩ := compact_means c
  have hle : trunc (val a) (bits a / 8 - 2) ≤ val a := Nat.div_mul_le_self _ _
  have hlt : exact c < 2 ^ 256 := by rw [he]; exact Nat.lt_of_le_of_lt hle (represents.1 a ha)
  refine ⟨c, hg, by omega, he, by rw [c2, Nat.mod_eq_of_lt hlt, he], ?_, ?_⟩
  · rw [c3]
    have hsg : signed c ↔ f = 2 ^ 23 := by unfold signed; omega
    rw [hsg]
    constructor
    · rintro ⟨h1, h2⟩
      rw [h2] at hf
      by_cases hx : negative = true ∧ m ≠ 0
      · exact ⟨hx.1, fun h => hx.2 (h0.2 h)⟩
      · rw [if_neg hx] at hf; exact absurd hf (by decide)
    · rintro ⟨h1, h2⟩
      have hm0 : m ≠ 0 := fun h => h2 (h0.1 h)
      rw [if_pos ⟨h1, hm0⟩] at hf
      refine ⟨?_, hf.symm⟩
      rw [he]
      obtain ⟨b1, b2, b3⟩ := bits_ok ha.2
      have hb0 : bits a ≠ 0 := by intro h; rw [h] at b2; omega
      unfold trunc
      have hd : 1 ≤ val a / 2 ^ (8 * (bits a / 8 - 2)) := by
        rw [Nat.le_div_iff_mul_le (Nat.two_pow_pos _), Nat.one_mul]
        exact Nat.le_trans (Nat.pow_le_pow_right (by decide) (by omega)) (b3 hb0)
      have := Nat.mul_pos hd (Nat.two_pow_pos (8 * (bits a / 8 - 2)))
      omega
  · cases hv : (setCompact c).2.2 with
    | false => rfl
    | true => exact absurd (c4.1 hv) (Nat.not_le.2 hlt)

/-- What is dropped is less than one part in 2^15, and nothing up to 23 bits. -/
theorem compact_precision {a : List Nat} (ha : Num a) :
    (val a - trunc (val a) (bits a / 8 - 2)) * 2 ^ 15 ≤ val a ∧ (val a < 2 ^ 23 → trunc (val a) (bits a / 8 - 2) = val a) := by
  obtain ⟨b1, b2, b3⟩ := bits_ok ha.2
  have hdm := Nat.div_add_mod (val a) (2 ^ (8 * (bits a / 8 - 2)))
  have hml := Nat.mod_lt (val a) (Nat.two_pow_pos (8 * (bits a / 8 - 2)))
  constructor
  · rcases Nat.lt_or_ge (bits a) 24 with h | h
    · have : bits a / 8 - 2 = 0 := by omega
      rw [this]
      unfold trunc
      simp
    · have e : val a - trunc (val a) (bits a / 8 - 2) ≤ 2 ^ (8 * (bits a / 8 - 2)) := by
        unfold trunc; rw [Nat.mul_comm]; omega
      refine Nat.le_trans (Nat.mul_le_mul_right _ e) (Nat.le_trans ?_ (b3 (by omega)))
      rw [← Nat.pow_add]
      exact Nat.pow_le_pow_right (by decide) (by omega)
  · intro h
    have h23 : bits a ≤ 23 := by
      by_contra hn
      exact absurd (Nat.lt_of_le_of_lt (b3 (by omega)) h) (Nat.not_lt.2 (Nat.pow_le_pow_right (by decide) (by omega)))
    rw [show bits a / 8 - 2 = 0 by omega]
    unfold trunc
    simp

/-- The compact form of what a compact form means is that form: writing is the identity on what was written. -/
theorem compact_stable {a : List Nat} {negative : Bool} {c : Nat} (ha : Num a) (hc : getCompact a negative = some c) :
    getCompact (setCompact c).1 (setCompact c).2.1 = some c := by
  obtain ⟨m, s, hg, hm, hs, hse, hme, he, h0⟩ := getCompact_eq negative ha
  obtain ⟨c', hg', hc32, he', hv, hneg, hov⟩ := compact_truncates negative ha
  rw [hc] at hg'
  cases hg'
  obtain ⟨hn, _⟩ := compact_means c
  obtain ⟨m', s', hg2, hm', hs', hse', hme', _, h0'⟩ := getCompact_eq (setCompact c).2.1 hn
  rw [hg2, ← hc, hg]
  obtain ⟨b1, b2, b3⟩ := bits_ok ha.2
  obtain ⟨d1, d2, d3⟩ := bits_ok hn.2
  rw [hv] at d2 d3 hse' hme' h0'
  have hz : trunc (val a) (bits a / 8 - 2) = 0 ↔ val a = 0 := by
    constructor
    · intro h
      by_contra h1
      have hb0 : bits a ≠ 0 := by intro h; rw [h] at b2; omega
      have hd : 1 ≤ val a / 2 ^ (8 * (bits a / 8 - 2)) := by
        rw [Nat.le_div_iff_mul_le (Nat.two_pow_pos _), Nat.one_mul]
        exact Nat.le_trans (Nat.pow_le_pow_right (by decide) (by omega)) (b3 hb0)
      have := Nat.mul_pos hd (Nat.two_pow_pos (8 * (bits a / 8 - 2)))
      unfold trunc at h
      omega
    · intro h
      rw [h]; unfold trunc; rw [Nat.zero_div, Nat.zero_mul]
  have hbits : val a ≠ 0 → bits (setCompact c).1 = bits a := by
    intro h1
    have hb0 : bits a ≠ 0 := by intro h; rw [h] at b2; omega
    have lo : 2 ^ (bits a - 1) ≤ trunc (val a) (bits a / 8 - 2) := by
      unfold trunc
      have hsplit : 2 ^ (bits a - 1) = 2 ^ (bits a - 1 - 8 * (bits a / 8 - 2)) * 2 ^ (8 * (bits a / 8 - 2)) := by
        rw [← Nat.pow_add, show bits a - 1 - 8 * (bits a / 8 - 2) + 8 * (bits a / 8 - 2) = bits a - 1 by omega]
      rw [hsplit]
      refine Nat.mul_le_mul_right _ ?_
      rw [Nat.le_div_iff_mul_le (Nat.two_pow_pos _), ← hsplit]
      exact b3 hb0
    have hi : trunc (val a) (bits a / 8 - 2) < 2 ^ bits a := Nat.lt_of_le_of_lt (Nat.div_mul_le_self _ _) b2
    have hd0 : bits (setCompact c).1 ≠ 0 := by
      intro h
      rw [h, Nat.pow_zero] at d2
      have := Nat.two_pow_pos (bits a - 1)
      omega
    have d3 := d3 hd0
    have p1 := (Nat.pow_lt_pow_iff_right (a := 2) (by decide)).1 (Nat.lt_of_le_of_lt lo d2)
    have p2 := (Nat.pow_lt_pow_iff_right (a := 2) (by decide)).1 (Nat.lt_of_le_of_lt d3 hi)
    omega
  have hss : s' = s := by
    rw [hse, hse']
    by_cases h1 : val a = 0
    · rw [if_pos h1, if_pos (hz.2 h1)]
    · rw [if_neg h1, if_neg (fun h => h1 (hz.1 h)), hbits h1]
  have hmm : m' = m := by
    rw [hme', hme, hss]
    by_cases h1 : val a = 0
    · rw [hz.2 h1, h1]
    · rw [hse, if_neg h1]
      unfold mant trunc
      rcases Nat.lt_or_ge (bits a / 8) 2 with h2 | h2
      · rw [show bits a / 8 - 2 = 0 by omega, Nat.mul_zero, Nat.pow_zero, Nat.div_one, Nat.mul_one]
      · have e : (2 : Nat) ^ (8 * (bits a / 8 + 1)) = 2 ^ (8 * (bits a / 8 - 2)) * 2 ^ 24 := by
          rw [← Nat.pow_add, show 8 * (bits a / 8 - 2) + 24 = 8 * (bits a / 8 + 1) by omega]
        rw [e, Nat.mul_div_mul_right _ _ (Nat.two_pow_pos _), Nat.mul_div_mul_right _ _ (Nat.two_pow_pos _), Nat.mul_div_cancel _ (Nat.two_pow_pos _)]
  rw [hss, hmm]
  congr 2
  congr 1
  by_cases h1 : val a = 0
  · have : m = 0 := h0.2 h1
    simp [this]
  · have hm0 : m ≠ 0 := fun h => h1 (h0.1 h)
    have : ((setCompact c).2.1 = true) ↔ negative = true := by rw [hneg]; simp [h1]
    simp only [this]

/-- The bytes on the wire are the number, lowest byte first, both ways. -/
theorem bytes_round_trip : (∀ a, Num a → (toBytes a).length = 32 ∧ (∀ x ∈ toBytes a, x < 256) ∧ byteVal (toBytes a) = val a ∧ ofBytes (toBytes a) = a) ∧
    (∀ l : List Nat, l.length = 32 → (∀ x ∈ l, x < 256) → Num (ofBytes l) ∧ val (ofBytes l) = byteVal l ∧ toBytes (ofBytes l) = l) := by
  constructor
  · intro a ha
    obtain ⟨h1, h2, h3, h4⟩ := toBytes_ok ha.2
    exact ⟨by rw [h1, ha.1], h2, h3, h4⟩
  · intro l h1 h2
    obtain ⟨i1, i2, i3, i4⟩ := ofBytes_ok 8 (l := l) h1 h2
    exact ⟨⟨i2, i1⟩, i3, i4⟩

/-- 0x123456 loses nothing, 0x923456 its last byte, and 0x01003456 is read as zero; the flags. -/
example : getCompact (ofU64 0x12) false = some 0x01120000 ∧ getCompact (ofU64 0x80) false = some 0x02008000 ∧
    getCompact (ofU64 0x92345678) true = some 0x05809234 ∧ setCompact 0x05809234 = (ofU64 0x92340000, true, false) ∧
    (setCompact 0x01003456).1 = ofU64 0 ∧ (setCompact 0xff123456).2 = (false, true) ∧
    exact 0x05809234 = 0x92340000 ∧ bits (ofU64 0x92345678) = 32 := by
  decide +kernel

end Verif.Arith
