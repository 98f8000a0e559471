import Verif.Ip.Lemmas

/-!
# The classes of addresses, as ranges of 128-bit numbers
-/
namespace Verif.Ip

/-- Sixteen bytes: every address. -/
def Addr (a : List Nat) : Prop := a.length = 16 ∧ Bytes a

instance (a : List Nat) : Decidable (Bytes a) := by unfold Bytes; infer_instance
instance (a : List Nat) : Decidable (Addr a) := by unfold Addr; infer_instance

/-- IPv4 addresses of no use in the public network. -/
def Special4 (v : Nat) : Prop :=
  v / 2 ^ 24 = 0 ∨ v / 2 ^ 24 = 10 ∨ v / 2 ^ 24 = 127 ∨ v / 2 ^ 20 = 0xac1 ∨ v / 2 ^ 16 = 0xc0a8 ∨ v / 2 ^ 16 = 0xa9fe ∨ v = 2 ^ 32 - 1

/-- Mapped IPv4 addresses. -/
def Four (n : Nat) : Prop := n / 2 ^ 32 = 0xffff

/-- The range of Tor. -/
def Onion (n : Nat) : Prop := n / 2 ^ 80 = 0xfd87d87eeb43

def Invalid (n : Nat) : Prop :=
  n / 2 ^ 56 = 0xffff ∨ n = 0 ∨ n / 2 ^ 96 = 0x20010db8 ∨ (Four n ∧ (n % 2 ^ 32 = 0 ∨ n % 2 ^ 32 = 2 ^ 32 - 1))

def Unroutable (n : Nat) : Prop :=
  Invalid n ∨ n = 1 ∨ n / 2 ^ 100 = 0x2001001 ∨ n / 2 ^ 64 = 0xfe80000000000000 ∨ (n / 2 ^ 121 = 0x7e ∧ ¬ Onion n) ∨ (Four n ∧ Special4 (n % 2 ^ 32))

instance (n : Nat) : Decidable (Special4 n) := by unfold Special4; infer_instance
instance (n : Nat) : Decidable (Four n) := by unfold Four; infer_instance
instance (n : Nat) : Decidable (Onion n) := by unfold Onion; infer_instance
instance (n : Nat) : Decidable (Invalid n) := by unfold Invalid; infer_instance
instance (n : Nat) : Decidable (Unroutable n) := by unfold Unroutable; infer_instance

theorem orchid_table : ∀ x < 256, ((x &&& 0xF0) == 0x10) = decide (x / 16 = 1) := by decide +kernel

theorem ula_table : ∀ x < 256, ((x &&& 0xFE) == 0xFC) = decide (x / 2 = 0x7e) := by decide +kernel

section
variable {a : List Nat} (h : Addr a)
include h

theorem num16 : num a < 2 ^ 128 := by
  have := num_lt h.2
  rwa [h.1] at this

theorem pre {p : List Nat} (k : Nat) (hp : Bytes p) (hk : p.length = k) (hl : k ≤ 16) : (a.take k == p) = decide (num a / 2 ^ (8 * (16 - k)) = num p) := by
  have := take_eq h.2 hp (by rw [hk, h.1]; exact hl)
  rwa [hk, h.1] at this

theorem byte (n : Nat) (hn : n < 16) : getByte a n = num a / 2 ^ (8 * n) % 256 := by
  rw [getByte, num_byte (15 - n) h.2 (by rw [h.1]; omega), h.1, show 16 - 1 - (15 - n) = n by omega]

theorem byte_lt (n : Nat) (hn : n < 16) : getByte a n < 256 := by
  rw [byte h n hn]; exact Nat.mod_lt _ (by decide)

theorem four_iff : isIPv4 a = decide (Four (num a)) := by
  rw [isIPv4, pre h 12 (by decide) rfl (by decide)]
  rfl

theorem onion_iff : isTor a = decide (Onion (num a)) := by
  rw [isTor, pre h 6 (by decide) rfl (by decide)]
  rfl

theorem siit_iff : isRFC6145 a = decide (num a / 2 ^ 32 = 0xffff0000) := by
  rw [isRFC6145, pre h 12 (by decide) rfl (by decide)]
  rfl

theorem nat64_iff : isRFC6052 a = decide (num a / 2 ^ 32 = 0x64ff9b * 2 ^ 64) := by
  rw [isRFC6052, pre h 12 (by decide) rfl (by decide)]
  rfl

theorem link_iff : isRFC4862 a = decide (num a / 2 ^ 64 = 0xfe80000000000000) := by
  rw [isRFC4862, pre h 8 (by decide) rfl (by decide)]
  rfl

/-- The four highest bytes. -/
theorem high : getByte a 15 = num a / 2 ^ 96 / 2 ^ 24 ∧ getByte a 14 = num a / 2 ^ 96 / 2 ^ 16 % 256 ∧ getByte a 13 = num a / 2 ^ 96 / 2 ^ 8 % 256 ∧
    getByte a 12 = num a / 2 ^ 96 % 256 ∧ num a / 2 ^ 96 < 2 ^ 32 := by
  have hlt : num a / 2 ^ 96 < 2 ^ 32 := by
    rw [Nat.div_lt_iff_lt_mul (Nat.two_pow_pos _), ← Nat.pow_add]; exact num16 h
  rw [byte h 15 (by decide), byte h 14 (by decide), byte h 13 (by decide), byte h 12 (by decide), Nat.div_div_eq_div_mul, Nat.div_div_eq_div_mul,
    Nat.div_div_eq_div_mul, ← Nat.pow_add, ← Nat.pow_add, ← Nat.pow_add]
  refine ⟨?_, rfl, rfl, rfl, hlt⟩
  apply Nat.mod_eq_of_lt
  rw [Nat.div_lt_iff_lt_mul (Nat.two_pow_pos _), show (256 : Nat) = 2 ^ 8 by decide, ← Nat.pow_add]
  exact num16 h

/-- The four lowest bytes. -/
theorem low : getByte a 3 = num a % 2 ^ 32 / 2 ^ 24 ∧ getByte a 2 = num a % 2 ^ 32 / 2 ^ 16 % 256 := by
  rw [byte h 3 (by decide), byte h 2 (by decide)]
  omega

theorem doc_iff : isRFC3849 a = decide (num a / 2 ^ 96 = 0x20010db8) := by
  obtain ⟨h1, h2, h3, h4, h5⟩ := high h
  unfold isRFC3849
  rw [h1, h2, h3, h4, Bool.eq_iff_iff]
  simp only [Bool.and_eq_true, beq_iff_eq, decide_eq_true_iff]
  generalize num a / 2 ^ 96 = q at *
  omega

theorem orchid_iff : isRFC4843 a = decide (num a / 2 ^ 100 = 0x2001001) := by
  obtain ⟨h1, h2, h3, h4, h5⟩ := high h
  have e : num a / 2 ^ 100 = num a / 2 ^ 96 / 2 ^ 4 := by rw [Nat.div_div_eq_div_mul, ← Nat.pow_add]
  unfold isRFC4843
  rw [orchid_table _ (by rw [h4]; omega), h1, h2, h3, h4, e, Bool.eq_iff_iff]
  simp only [Bool.and_eq_true, beq_iff_eq, decide_eq_true_iff]
  generalize num a / 2 ^ 96 = q at *
  omega

theorem sixto4_iff : isRFC3964 a = decide (num a / 2 ^ 112 = 0x2002) := by
  obtain ⟨h1, h2, h3, h4, h5⟩ := high h
  have e : num a / 2 ^ 112 = num a / 2 ^ 96 / 2 ^ 16 := by rw [Nat.div_div_eq_div_mul, ← Nat.pow_add]
  unfold isRFC3964
  rw [h1, h2, e, Bool.eq_iff_iff]
  simp only [Bool.and_eq_true, beq_iff_eq, decide_eq_true_iff]
  generalize num a / 2 ^ 96 = q at *
  omega

theorem teredo_iff : isRFC4380 a = decide (num a / 2 ^ 96 = 0x20010000) := by
  obtain ⟨h1, h2, h3, h4, h5⟩ := high h
  unfold isRFC4380
  rw [h1, h2, h3, h4, Bool.eq_iff_iff]
  simp only [Bool.and_eq_true, beq_iff_eq, decide_eq_true_iff]
  generalize num a / 2 ^ 96 = q at *
  omega

theorem ula_iff : isRFC4193 a = decide (num a / 2 ^ 121 = 0x7e) := by
  obtain ⟨h1, h2, h3, h4, h5⟩ := high h
  have e : num a / 2 ^ 121 = num a / 2 ^ 96 / 2 ^ 24 / 2 := by
    rw [Nat.div_div_eq_div_mul, Nat.div_div_eq_div_mul, show (2 : Nat) ^ 96 * (2 ^ 24 * 2) = 2 ^ 121 by decide]
  unfold isRFC4193
  rw [ula_table _ (by rw [h1]; omega), h1, e]

theorem private_iff : (isRFC1918 a || isRFC3927 a || (isIPv4 a && (getByte a 3 == 127 || getByte a 3 == 0)) || (isIPv4 a && (a.drop 12).take 4 == [255, 255, 255, 255])) =
    decide (Four (num a) ∧ Special4 (num a % 2 ^ 32)) := by
  obtain ⟨h3, h2⟩ := low h
  have hd : ((a.drop 12).take 4 == [255, 255, 255, 255]) = decide (num a % 2 ^ 32 = 2 ^ 32 - 1) := by
    have hl : (a.drop 12).length = 4 := by rw [List.length_drop, h.1]
    have := take_eq (a := a.drop 12) (p := [255, 255, 255, 255]) (h.2.drop 12) (by decide) (by rw [hl]; exact Nat.le_refl _)
    rw [num_drop 12 h.2, h.1, hl] at this
    refine this.trans ?_
    have e1 : num [255, 255, 255, 255] = 2 ^ 32 - 1 := rfl
    rw [e1]
    have e2 : num a % 2 ^ (8 * (16 - 12)) / 2 ^ (8 * (4 - [255, 255, 255, 255].length)) = num a % 2 ^ 32 := Nat.div_one _
    rw [e2]
  unfold isRFC1918 isRFC3927 Special4
  rw [four_iff h, h3, h2, hd, Bool.eq_iff_iff]
  have hv : num a % 2 ^ 32 < 2 ^ 32 := Nat.mod_lt _ (Nat.two_pow_pos _)
  generalize num a % 2 ^ 32 = v at *
  simp only [Bool.and_eq_true, Bool.or_eq_true, beq_iff_eq, decide_eq_true_iff]
  generalize Four (num a) = F
  by_cases hF : F
  · simp only [hF, true_and]
    omega
  · simp only [hF, false_and, or_self]

theorem none_iff : (a.take 16 == List.replicate 16 0) = decide (num a = 0) := by
  rw [pre h 16 (by decide) rfl (by decide)]
  have e : num a / 2 ^ (8 * (16 - 16)) = num a := Nat.div_one _
  rw [e]; rfl

theorem one_iff : (a.take 16 == [0, 0, 0, 0, 0, 0, 0, 0, 0, 0, 0, 0, 0, 0, 0, 1]) = decide (num a = 1) := by
  rw [pre h 16 (by decide) rfl (by decide)]
  have e : num a / 2 ^ (8 * (16 - 16)) = num a := Nat.div_one _
  rw [e]; rfl

theorem four_tail (p : List Nat) (hp : Bytes p) (hl : p.length = 4) : ((a.drop 12).take 4 == p) = decide (num a % 2 ^ 32 = num p) := by
  have hd : (a.drop 12).length = 4 := by rw [List.length_drop, h.1]
  have := take_eq (a := a.drop 12) (p := p) (h.2.drop 12) hp (by rw [hd, hl])
  rw [num_drop 12 h.2, h.1, hd, hl] at this
  refine this.trans ?_
  have e2 : num a % 2 ^ (8 * (16 - 12)) / 2 ^ (8 * (4 - 4)) = num a % 2 ^ 32 := Nat.div_one _
  rw [e2]

theorem valid_iff : isValid a = true ↔ ¬ Invalid (num a) := by
  have h9 : (a.take 9 == pchIPv4.drop 3) = decide (num a / 2 ^ 56 = 0xffff) := by
    rw [pre h 9 (by decide) rfl (by decide)]; rfl
  unfold isValid Invalid
  rw [h9, none_iff h, doc_iff h, four_iff h, four_tail h _ (by decide) rfl, four_tail h _ (by decide) rfl,
    show num [255, 255, 255, 255] = 2 ^ 32 - 1 from rfl, show num [0, 0, 0, 0] = 0 from rfl]
  generalize num a / 2 ^ 56 = q1
  generalize num a / 2 ^ 96 = q2
  generalize num a % 2 ^ 32 = v
  by_cases hF : Four (num a)
  · simp only [hF, decide_true, Bool.true_and, true_and]
    repeat' split
    all_goals simp_all
  · simp only [hF, decide_false, Bool.false_and, false_and, or_false]
    repeat' split
    all_goals simp_all

theorem local_iff : isLocal a = ((isIPv4 a && (getByte a 3 == 127 || getByte a 3 == 0)) || decide (num a = 1)) := by
  unfold isLocal
  rw [one_iff h]
  cases (isIPv4 a && (getByte a 3 == 127 || getByte a 3 == 0)) <;> cases decide (num a = 1) <;> rfl

theorem routable_iff : isRoutable a = true ↔ ¬ Unroutable (num a) := by
  have hp := private_iff h
  have hv := valid_iff h
  have hmax : (isIPv4 a && (a.drop 12).take 4 == [255, 255, 255, 255]) = true → isValid a = false := by
    intro hx
    rw [four_tail h _ (by decide) rfl, four_iff h, Bool.and_eq_true, decide_eq_true_iff, decide_eq_true_iff] at hx
    cases hva : isValid a with
    | false => rfl
    | true => exact absurd (Or.inr (Or.inr (Or.inr ⟨hx.1, Or.inr hx.2⟩))) (hv.1 hva)
  unfold isRoutable Unroutable
  rw [local_iff h, link_iff h, ula_iff h, orchid_iff h, onion_iff h]
  rw [Bool.eq_iff_iff] at hp
  simp only [Bool.and_eq_true, Bool.or_eq_true, decide_eq_true_iff] at hp
  simp only [Bool.and_eq_true, Bool.or_eq_true, Bool.not_eq_true', Bool.or_eq_false_iff, Bool.and_eq_false_iff, decide_eq_false_iff_not, Bool.not_eq_false',
    decide_eq_true_iff, not_or, not_and, Bool.and_eq_true] at hv hmax ⊢
  have hp' : (Four (num a) → ¬ Special4 (num a % 2 ^ 32)) ↔ ¬ (((isRFC1918 a = true ∨ isRFC3927 a = true) ∨
      isIPv4 a = true ∧ ((getByte a 3 == 127) = true ∨ (getByte a 3 == 0) = true)) ∨
      isIPv4 a = true ∧ (List.take 4 (List.drop 12 a) == [255, 255, 255, 255]) = true) := by rw [hp, not_and]
  rw [hp', hv]
  by_cases hi : Invalid (num a)
  · simp [hi]
  · have hva := hv.2 hi
    have hm : ¬ (isIPv4 a = true ∧ ((a.drop 12).take 4 == [255, 255, 255, 255]) = true) := by
      rintro ⟨x, y⟩
      have := hmax ⟨x, y⟩
      rw [hva] at this
      cases this
    simp only [hi, not_false_eq_true, true_and]
    constructor
    · rintro ⟨⟨⟨⟨⟨h1, h2⟩, h3⟩, h4⟩, h5⟩, h6, h7⟩
      refine ⟨h7, h5, h3, ?_, ?_⟩
      · intro x y
        rcases h4 with h4 | h4
        · exact h4 x
        · exact y h4
      · rintro (((x | x) | x) | x)
        · rw [h1] at x; cases x
        · rw [h2] at x; cases x
        · rcases h6 with h6 | h6
          · rw [h6] at x; cases x.1
          · rcases x.2 with y | y
            · rw [h6.1] at y; cases y
            · rw [h6.2] at y; cases y
        · exact hm x
    · rintro ⟨h7, h5, h3, h4, h8⟩
      refine ⟨⟨⟨⟨⟨?_, ?_⟩, h3⟩, ?_⟩, h5⟩, ?_, h7⟩
      · cases hx : isRFC1918 a with
        | false => rfl
        | true => exact absurd (Or.inl (Or.inl (Or.inl hx))) h8
      · cases hx : isRFC3927 a with
        | false => rfl
        | true => exact absurd (Or.inl (Or.inl (Or.inr hx))) h8
      · by_cases hx : num a / 2 ^ 121 = 0x7e
        · right
          by_contra hy
          exact h4 hx hy
        · exact Or.inl hx
      · cases hx : isIPv4 a with
        | false => exact Or.inl rfl
        | true =>
          right
          constructor
          · cases hy : getByte a 3 == 127 with
            | false => rfl
            | true => exact absurd (Or.inl (Or.inr ⟨hx, Or.inl hy⟩)) h8
          · cases hy : getByte a 3 == 0 with
            | false => rfl
            | true => exact absurd (Or.inl (Or.inr ⟨hx, Or.inr hy⟩)) h8

end

end Verif.Ip
