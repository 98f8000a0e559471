import Verif.Abi.Model
import Mathlib.Tactic.IntervalCases
import Mathlib.Tactic.Ring
/-!
# Names: what they stand for, and the lemmas
-/
namespace Verif.Abi
open Verif

/-! ## Specification -/

/-- The letters of a name in order of their value. -/
def letters : List Char :=
  ['_', '1', '2', '3', '4', '5', 'a', 'b', 'c', 'd', 'e', 'f', 'g', 'h', 'i', 'j', 'k', 'l', 'm',
   'n', 'o', 'p', 'q', 'r', 's', 't', 'u', 'v', 'w', 'x', 'y', 'z']

/-- Value of the letter sequence from position `i`: five bits each, the thirteenth four bits. -/
def specVal : Nat → List Char → Nat
  | _, [] => 0
  | i, c :: cs => letters.idxOf c * 2 ^ (if i < 12 then 59 - 5 * i else 0) + specVal (i + 1) cs

/-- A name: at most thirteen letters, the thirteenth one of the first sixteen. -/
def IsName (s : List Char) : Prop :=
  s.length ≤ 13 ∧ (∀ c ∈ s, c ∈ letters) ∧ ∀ c ∈ s.drop 12, letters.idxOf c < 16

instance (s : List Char) : Decidable (IsName s) := by unfold IsName; infer_instance

/-- The text without its trailing underscores. -/
def strip : List Char → List Char
  | [] => []
  | c :: cs => if c = '_' ∧ strip cs = [] then [] else c :: strip cs

/-! ## Letters -/

theorem letters_charmap : charmap = letters := by decide

theorem value_of_letter (d : Nat) (h : d < 32) : charToValue (charmap.getD d '_') = some d := by
  have : ∀ d : Fin 32, charToValue (charmap.getD d.1 '_') = some d.1 := by decide
  exact this ⟨d, h⟩

theorem letter_of_value {c : Char} {d : Nat} (h : charToValue c = some d) :
    d < 32 ∧ charmap.getD d '_' = c := by
  unfold charToValue at h
  have key : ∀ n : Nat, c.toNat = n → c = Char.ofNat n := by
    intro n hn; rw [← hn, Char.ofNat_toNat]
  split at h
  · rename_i hc; simp at h; subst h; subst hc; decide
  split at h
  · rename_i hc
    obtain ⟨h1, h2⟩ := hc
    have h1' : 49 ≤ c.toNat := h1
    have h2' : c.toNat ≤ 53 := h2
    simp at h
    obtain ⟨n, hn⟩ : ∃ n, c.toNat = n := ⟨_, rfl⟩
    rw [key n hn]
    rw [hn] at h1' h2' h
    interval_cases n <;> subst h <;> decide
  split at h
  · rename_i hc
    obtain ⟨h1, h2⟩ := hc
    have h1' : 97 ≤ c.toNat := h1
    have h2' : c.toNat ≤ 122 := h2
    simp at h
    obtain ⟨n, hn⟩ : ∃ n, c.toNat = n := ⟨_, rfl⟩
    rw [key n hn]
    rw [hn] at h1' h2' h
    interval_cases n <;> subst h <;> decide
  · simp at h

theorem idx_letter (d : Nat) (h : d < 32) : letters.idxOf (charmap.getD d '_') = d := by
  have : ∀ d : Fin 32, letters.idxOf (charmap.getD d.1 '_') = d.1 := by decide
  exact this ⟨d, h⟩

theorem letter_mem (d : Nat) (h : d < 32) : charmap.getD d '_' ∈ letters := by
  have : ∀ d : Fin 32, charmap.getD d.1 '_' ∈ letters := by decide
  exact this ⟨d, h⟩

theorem value_letters {c : Char} : charToValue c = if c ∈ letters then some (letters.idxOf c) else none := by
  split
  · rename_i h
    have : ∀ c ∈ letters, charToValue c = some (letters.idxOf c) := by decide
    exact this c h
  · rename_i h
    cases hc : charToValue c with
    | none => rfl
    | some d =>
      obtain ⟨h1, h2⟩ := letter_of_value hc
      exact absurd (h2 ▸ letter_mem d h1) h

theorem idx_lt {c : Char} (h : c ∈ letters) : letters.idxOf c < 32 := by
  have := List.idxOf_lt_length_of_mem h
  simpa [letters] using this

theorem char_idx {c : Char} (h : c ∈ letters) : charmap.getD (letters.idxOf c) '_' = c :=
  (letter_of_value (by rw [value_letters, if_pos h])).2

theorem idx_zero {c : Char} (h : c ∈ letters) : letters.idxOf c = 0 ↔ c = '_' := by
  constructor
  · intro h0
    have := char_idx h
    rw [h0] at this
    exact this.symm
  · rintro rfl; decide

/-! ## Reading -/

theorem or_low (v d : Nat) (h : d < 32) : (v <<< 5) ||| d = v * 32 + d := by
  have := Nat.two_pow_add_eq_or_of_lt (i := 5) (b := d) (by omega) v
  rw [Nat.shiftLeft_eq, Nat.mul_comm v (2 ^ 5), ← this, Nat.mul_comm]

/-- Value of the letters read left to right. -/
def horner : Nat → List Char → Nat
  | v, [] => v
  | v, c :: cs => horner (v * 32 + letters.idxOf c) cs

theorem fold_none {v : Nat} {s : List Char} (h : ¬ ∀ c ∈ s, c ∈ letters) : nameFold v s = none := by
  induction s generalizing v with
  | nil => exact absurd (by simp) h
  | cons c cs ih =>
    unfold nameFold
    rw [value_letters]
    split
    · rfl
    · rename_i d hd
      by_cases hc : c ∈ letters
      · apply ih
        intro hall
        apply h
        intro x hx
        rcases List.mem_cons.mp hx with rfl | hx
        · exact hc
        · exact hall x hx
      · rw [if_neg hc] at hd; simp at hd

theorem fold_some {v m : Nat} {s : List Char} (h : ∀ c ∈ s, c ∈ letters) (hv : v < 32 ^ m)
    (hm : m + s.length ≤ 12) : nameFold v s = some (horner v s) := by
  induction s generalizing v m with
  | nil => rfl
  | cons c cs ih =>
    have hc := h c (by simp)
    have hd := idx_lt hc
    unfold nameFold
    rw [value_letters, if_pos hc]
    dsimp only
    simp only [List.length_cons] at hm
    have hp : 32 ^ m ≤ 32 ^ 11 := Nat.pow_le_pow_right (by omega) (by omega)
    have e : (v <<< 5) % U64 = v <<< 5 := by
      apply Nat.mod_eq_of_lt
      rw [Nat.shiftLeft_eq]
      unfold U64
      have : (32 : Nat) ^ 11 = 36028797018963968 := by norm_num
      omega
    rw [e, or_low v _ hd]
    unfold horner
    apply ih (m := m + 1) (fun x hx => h x (by simp [hx]))
    · rw [Nat.pow_succ]; omega
    · omega

theorem horner_eq (v : Nat) (s : List Char) : horner v s = v * 32 ^ s.length + horner 0 s := by
  induction s generalizing v with
  | nil => simp [horner]
  | cons c cs ih =>
    unfold horner
    rw [ih, ih (0 * 32 + _)]
    simp only [List.length_cons, Nat.pow_succ]
    ring

theorem horner_lt {s : List Char} (h : ∀ c ∈ s, c ∈ letters) : horner 0 s < 32 ^ s.length := by
  induction s with
  | nil => simp [horner]
  | cons c cs ih =>
    unfold horner
    rw [horner_eq]
    have h1 := ih (fun x hx => h x (by simp [hx]))
    have h2 := idx_lt (h c (by simp))
    simp only [List.length_cons, Nat.pow_succ]
    have : (0 * 32 + letters.idxOf c) * 32 ^ cs.length ≤ 31 * 32 ^ cs.length :=
      Nat.mul_le_mul_right _ (by omega)
    omega

theorem spec_horner {i : Nat} {s : List Char} (h : i + s.length ≤ 12) :
    specVal i s = horner 0 s * 2 ^ (4 + 5 * (12 - i - s.length)) := by
  induction s generalizing i with
  | nil => simp [specVal, horner]
  | cons c cs ih =>
    simp only [List.length_cons] at h
    unfold specVal horner
    rw [ih (by omega), horner_eq (0 * 32 + _), if_pos (by omega)]
    have e1 : 12 - (i + 1) - cs.length = 12 - i - (c :: cs).length := by simp only [List.length_cons]; omega
    rw [e1, Nat.add_mul, Nat.zero_mul, Nat.zero_add]
    congr 1
    rw [Nat.mul_assoc]
    congr 1
    have : (32 : Nat) = 2 ^ 5 := by norm_num
    rw [this, ← Nat.pow_mul, ← Nat.pow_add]
    congr 1
    simp only [List.length_cons]; omega

theorem spec_append (i : Nat) (s t : List Char) :
    specVal i (s ++ t) = specVal i s + specVal (i + s.length) t := by
  induction s generalizing i with
  | nil => simp [specVal]
  | cons c cs ih =>
    simp only [List.cons_append, specVal, List.length_cons]
    rw [ih, show i + 1 + cs.length = i + (cs.length + 1) from by omega]
    omega

/-- The first twelve letters, moved to the top. -/
theorem top_eq {s : List Char} (h : ∀ c ∈ s, c ∈ letters) (hl : s.length ≤ 12) :
    (horner 0 s <<< (4 + 5 * (12 - s.length))) % U64 = specVal 0 s := by
  rw [spec_horner (by omega), Nat.shiftLeft_eq]
  simp only [Nat.sub_zero]
  apply Nat.mod_eq_of_lt
  have h1 := horner_lt h
  have h2 : horner 0 s * 2 ^ (4 + 5 * (12 - s.length)) < 32 ^ s.length * 2 ^ (4 + 5 * (12 - s.length)) :=
    Nat.mul_lt_mul_of_pos_right h1 (Nat.pos_of_ne_zero (by simp))
  have e : (32 : Nat) ^ s.length * 2 ^ (4 + 5 * (12 - s.length)) = 2 ^ 64 := by
    rw [show (32 : Nat) = 2 ^ 5 from by norm_num, ← Nat.pow_mul, ← Nat.pow_add]
    congr 1; omega
  rw [e] at h2
  have : U64 = 2 ^ 64 := by unfold U64; norm_num
  omega

theorem nameOf_eq (s : List Char) : nameOf s = if IsName s then some (specVal 0 s) else none := by
  unfold nameOf
  by_cases hlen : s.length > 13
  · rw [if_pos hlen, if_neg]
    intro h; exact absurd h.1 (by omega)
  rw [if_neg hlen]
  by_cases hs : s = []
  · subst hs; rfl
  rw [if_neg hs]
  by_cases hall : ∀ c ∈ s.take 12, c ∈ letters
  · rw [fold_some (m := 0) hall (by simp) (by simp)]
    dsimp only
    have hmin : min s.length 12 = (s.take 12).length := by simp [Nat.min_comm]
    rw [hmin, top_eq hall (by simp)]
    cases hd : s.drop 12 with
    | nil =>
      have hst : s.take 12 = s := by
        have := List.take_append_drop 12 s
        rw [hd, List.append_nil] at this; exact this
      rw [hst] at hall ⊢
      rw [if_pos ⟨by omega, hall, by simp [hd]⟩]
      rfl
    | cons c cs =>
      have hcs : cs = [] := by
        have : (s.drop 12).length ≤ 1 := by simp; omega
        rw [hd] at this
        simp at this; exact this
      subst hcs
      have h12 : (s.take 12).length = 12 := by
        have : (s.drop 12).length = 1 := by rw [hd]; rfl
        simp at this ⊢; omega
      have hst : s = s.take 12 ++ [c] := by rw [← hd]; exact (List.take_append_drop 12 s).symm
      unfold nameLast
      dsimp only
      rw [value_letters]
      by_cases hc : c ∈ letters
      · rw [if_pos hc]
        dsimp only
        by_cases h15 : letters.idxOf c > 15
        · rw [if_pos h15, if_neg]
          intro hn
          have := hn.2.2 c (by rw [hd]; simp)
          omega
        · rw [if_neg h15, if_pos]
          · have e : specVal 0 s = specVal 0 (s.take 12) + letters.idxOf c := by
              conv_lhs => rw [hst]
              rw [spec_append, h12]
              simp [specVal]
            rw [e]
            congr 1
            rw [spec_horner (s := s.take 12) (by omega), h12]
            have := Nat.two_pow_add_eq_or_of_lt (i := 4) (b := letters.idxOf c) (by omega)
              (horner 0 (s.take 12))
            simp only [Nat.sub_zero, Nat.sub_self, Nat.mul_zero, Nat.add_zero]
            rw [Nat.mul_comm _ (2 ^ 4), ← this]
          · refine ⟨by omega, ?_, ?_⟩
            · intro x hx
              rw [hst] at hx
              rcases List.mem_append.mp hx with hx | hx
              · exact hall x hx
              · simp at hx; subst hx; exact hc
            · intro x hx
              rw [hd] at hx
              simp at hx; subst hx; omega
      · rw [if_neg hc, if_neg]
        intro hn
        exact hc (hn.2.1 c (by rw [hst]; simp))
  · rw [fold_none hall]
    rw [if_neg]
    intro hn
    exact hall fun c hc => hn.2.1 c (List.mem_of_mem_take hc)

/-! ## Writing -/

/-- The writing loop on the value without the low bits already shifted in. -/
def textW : Nat → Nat → List Char
  | 0, _ => []
  | k + 1, w =>
    if w = 0 then []
    else if k = 0 then [charmap.getD w '_']
    else charmap.getD (w / 2 ^ (5 * k - 1)) '_' :: textW k (w % 2 ^ (5 * k - 1))

theorem loop_textW : ∀ (k w : Nat), k ≤ 13 → w < 2 ^ (5 * k - 1) →
    textLoop k (w * 2 ^ (65 - 5 * k)) = textW k w := by
  intro k
  induction k with
  | zero => intros; rfl
  | succ k ih =>
    intro w hk hw
    unfold textLoop textW
    by_cases h0 : w = 0
    · subst h0; simp
    have hne : ¬ (w * 2 ^ (65 - 5 * (k + 1)) = 0) := by
      intro h; rcases Nat.mul_eq_zero.mp h with h | h
      · exact h0 h
      · exact absurd h (by simp)
    rw [if_neg hne, if_neg h0]
    by_cases hk0 : k = 0
    · subst hk0
      rw [if_pos rfl, if_pos rfl]
      simp only [textLoop]
      congr 2
      rw [Nat.shiftRight_eq_div_pow]
      norm_num
    · rw [if_neg hk0, if_neg hk0]
      have hk12 : k ≤ 12 := by omega
      have hk1 : 1 ≤ k := by omega
      have key : (w * 2 ^ (65 - 5 * (k + 1))) >>> 59 = w / 2 ^ (5 * k - 1) ∧
          ((w * 2 ^ (65 - 5 * (k + 1))) <<< 5) % U64 = (w % 2 ^ (5 * k - 1)) * 2 ^ (65 - 5 * k) := by
        rw [Nat.shiftRight_eq_div_pow, Nat.shiftLeft_eq]
        unfold U64
        clear ih hne
        interval_cases k <;> norm_num at hw ⊢ <;> omega
      rw [key.1, key.2, ih _ (by omega) (Nat.mod_lt _ (Nat.pos_of_ne_zero (by simp)))]

theorem nameText_eq {v : Nat} (h : v < U64) : nameText v = textW 13 v := by
  have := loop_textW 13 v (by omega) (by simpa [U64] using h)
  simpa [nameText] using this

theorem textW_len (k w : Nat) : (textW k w).length ≤ k := by
  induction k generalizing w with
  | zero => simp [textW]
  | succ k ih =>
    unfold textW
    split
    · simp
    split
    · simp
    · have := ih (w % 2 ^ (5 * k - 1)); simp; omega

theorem div_lt32 {k w : Nat} (hk : k ≠ 0) (hw : w < 2 ^ (5 * (k + 1) - 1)) : w / 2 ^ (5 * k - 1) < 32 := by
  rw [Nat.div_lt_iff_lt_mul (Nat.pos_of_ne_zero (by simp))]
  have : 2 ^ (5 * (k + 1) - 1) = 32 * 2 ^ (5 * k - 1) := by
    rw [show 5 * (k + 1) - 1 = 5 + (5 * k - 1) from by omega, Nat.pow_add]
  omega

theorem textW_mem {k w : Nat} (hw : w < 2 ^ (5 * k - 1)) : ∀ c ∈ textW k w, c ∈ letters := by
  induction k generalizing w with
  | zero => simp [textW]
  | succ k ih =>
    unfold textW
    split
    · simp
    split
    · rename_i h0 hk
      subst hk
      intro c hc
      simp only [List.mem_singleton] at hc
      subst hc
      exact letter_mem w (by simp at hw; omega)
    · rename_i h0 hk
      intro c hc
      rcases List.mem_cons.mp hc with rfl | hc
      · exact letter_mem _ (div_lt32 hk hw)
      · exact ih (Nat.mod_lt _ (Nat.pos_of_ne_zero (by simp))) c hc

theorem textW_last {k w : Nat} (hk : 1 ≤ k) (hw : w < 2 ^ (5 * k - 1)) :
    ∀ c ∈ (textW k w).drop (k - 1), letters.idxOf c < 16 := by
  induction k generalizing w with
  | zero => omega
  | succ k ih =>
    unfold textW
    split
    · simp
    split
    · rename_i h0 hk
      subst hk
      intro c hc
      have hc' : c = charmap.getD w '_' := by simpa using hc
      subst hc'
      rw [idx_letter w (by simp at hw; omega)]
      simpa using hw
    · rename_i h0 hk
      intro c hc
      have e : k + 1 - 1 = (k - 1) + 1 := by omega
      rw [e, List.drop_succ_cons] at hc
      exact ih (by omega) (Nat.mod_lt _ (Nat.pos_of_ne_zero (by simp))) c hc

theorem spec_textW {k w : Nat} (hk : k ≤ 13) (hw : w < 2 ^ (5 * k - 1)) :
    specVal (13 - k) (textW k w) = if k = 0 then 0 else w := by
  induction k generalizing w with
  | zero => simp [textW, specVal]
  | succ k ih =>
    rw [if_neg (by omega)]
    unfold textW
    split
    · rename_i h; simp [specVal, h]
    split
    · rename_i h0 hk
      subst hk
      simp only [specVal]
      rw [idx_letter w (by simp at hw; omega)]
      simp
    · rename_i h0 hk0
      simp only [specVal]
      rw [idx_letter _ (div_lt32 hk0 hw), show 13 - (k + 1) + 1 = 13 - k from by omega,
        ih (by omega) (Nat.mod_lt _ (Nat.pos_of_ne_zero (by simp))), if_neg hk0, if_pos (by omega),
        show 59 - 5 * (13 - (k + 1)) = 5 * k - 1 from by omega]
      exact Nat.div_add_mod' w _

theorem isName_text {v : Nat} (h : v < U64) : IsName (nameText v) := by
  have hv : v < 2 ^ (5 * 13 - 1) := by simpa [U64] using h
  rw [nameText_eq h]
  exact ⟨textW_len 13 v, textW_mem hv, textW_last (k := 13) (by omega) hv⟩

theorem spec_text {v : Nat} (h : v < U64) : specVal 0 (nameText v) = v := by
  have hv : v < 2 ^ (5 * 13 - 1) := by simpa [U64] using h
  rw [nameText_eq h]
  simpa using spec_textW (k := 13) (by omega) hv

/-- The value of a letter sequence that starts in slot `13 - k` fits in the remaining bits. -/
theorem spec_lt {k : Nat} {s : List Char} (hk : 1 ≤ k) (hk13 : k ≤ 13) (hl : s.length ≤ k)
    (hm : ∀ c ∈ s, c ∈ letters) (hlast : ∀ c ∈ s.drop (k - 1), letters.idxOf c < 16) :
    specVal (13 - k) s < 2 ^ (5 * k - 1) := by
  induction k generalizing s with
  | zero => omega
  | succ k ih =>
    cases s with
    | nil => simp [specVal]
    | cons c cs =>
      unfold specVal
      have hc := idx_lt (hm c (by simp))
      by_cases hk0 : k = 0
      · subst hk0
        have : cs = [] := by
          simp only [List.length_cons] at hl
          exact List.length_eq_zero_iff.mp (by omega)
        subst this
        have := hlast c (by simp)
        simp [specVal]; omega
      · have hi := ih (s := cs) (by omega) (by omega) (by simpa using hl)
          (fun x hx => hm x (by simp [hx])) (fun x hx => hlast x (by
            rw [show k + 1 - 1 = (k - 1) + 1 from by omega, List.drop_succ_cons]; exact hx))
        rw [if_pos (by omega), show 59 - 5 * (13 - (k + 1)) = 5 * k - 1 from by omega,
          show 13 - (k + 1) + 1 = 13 - k from by omega]
        have e : 2 ^ (5 * (k + 1) - 1) = 32 * 2 ^ (5 * k - 1) := by
          rw [show 5 * (k + 1) - 1 = 5 + (5 * k - 1) from by omega, Nat.pow_add]
        rw [e]
        have : letters.idxOf c * 2 ^ (5 * k - 1) ≤ 31 * 2 ^ (5 * k - 1) :=
          Nat.mul_le_mul_right _ (by omega)
        omega

theorem strip_nil_spec {i : Nat} {s : List Char} (hm : ∀ c ∈ s, c ∈ letters) :
    specVal i s = 0 ↔ strip s = [] := by
  induction s generalizing i with
  | nil => simp [specVal, strip]
  | cons c cs ih =>
    unfold specVal strip
    have hc := hm c (by simp)
    have h2 := ih (i := i + 1) (fun x hx => hm x (by simp [hx]))
    have hp : (2 : Nat) ^ (if i < 12 then 59 - 5 * i else 0) ≠ 0 := Nat.ne_of_gt (Nat.pow_pos (by omega))
    constructor
    · intro h
      have h1 : letters.idxOf c * 2 ^ (if i < 12 then 59 - 5 * i else 0) = 0 := by omega
      have h3 : letters.idxOf c = 0 := by
        rcases Nat.mul_eq_zero.mp h1 with h | h
        · exact h
        · exact absurd h hp
      rw [if_pos ⟨(idx_zero hc).mp h3, h2.mp (by omega)⟩]
    · intro h
      split at h
      · rename_i hh
        rw [(idx_zero hc).mpr hh.1, h2.mpr hh.2]; simp
      · simp at h

theorem textW_spec {k : Nat} {s : List Char} (hk : 1 ≤ k) (hk13 : k ≤ 13) (hl : s.length ≤ k)
    (hm : ∀ c ∈ s, c ∈ letters) (hlast : ∀ c ∈ s.drop (k - 1), letters.idxOf c < 16) :
    textW k (specVal (13 - k) s) = strip s := by
  induction k generalizing s with
  | zero => omega
  | succ k ih =>
    unfold textW
    by_cases h0 : specVal (13 - (k + 1)) s = 0
    · rw [if_pos h0, (strip_nil_spec hm).mp h0]
    rw [if_neg h0]
    cases s with
    | nil => exact absurd rfl h0
    | cons c cs =>
      have hc := hm c (by simp)
      have hstrip : strip (c :: cs) = c :: strip cs := by
        have hn : ¬ (c = '_' ∧ strip cs = []) := by
          intro h
          apply h0
          rw [strip_nil_spec hm, strip, if_pos h]
        rw [strip, if_neg hn]
      rw [hstrip]
      by_cases hk0 : k = 0
      · rw [if_pos hk0]
        subst hk0
        have : cs = [] := by
          simp only [List.length_cons] at hl
          exact List.length_eq_zero_iff.mp (by omega)
        subst this
        have e : specVal (13 - (0 + 1)) [c] = letters.idxOf c := by simp [specVal]
        rw [e, char_idx hc]
        rfl
      · rw [if_neg hk0]
        have hm' : ∀ x ∈ cs, x ∈ letters := fun x hx => hm x (by simp [hx])
        have hl' : cs.length ≤ k := by simpa using hl
        have hlast' : ∀ x ∈ cs.drop (k - 1), letters.idxOf x < 16 := fun x hx => hlast x (by
            rw [show k + 1 - 1 = (k - 1) + 1 from by omega, List.drop_succ_cons]; exact hx)
        have hlt := spec_lt (k := k) (by omega) (by omega) hl' hm' hlast'
        have e : specVal (13 - (k + 1)) (c :: cs) =
            specVal (13 - k) cs + 2 ^ (5 * k - 1) * letters.idxOf c := by
          conv_lhs => unfold specVal
          rw [if_pos (by omega), show 59 - 5 * (13 - (k + 1)) = 5 * k - 1 from by omega,
            show 13 - (k + 1) + 1 = 13 - k from by omega, Nat.mul_comm]
          omega
        rw [e, Nat.add_mul_div_left _ _ (Nat.pos_of_ne_zero (by simp)), Nat.div_eq_of_lt hlt,
          Nat.add_mul_mod_self_left, Nat.mod_eq_of_lt hlt, Nat.zero_add, char_idx hc,
          ih (by omega) (by omega) hl' hm' hlast']

theorem text_spec {s : List Char} (h : IsName s) : nameText (specVal 0 s) = strip s := by
  have hlt := spec_lt (k := 13) (s := s) (by omega) (by omega) h.1 h.2.1 h.2.2
  have hlt' : specVal 0 s < U64 := by simpa [U64] using hlt
  rw [nameText_eq hlt']
  exact textW_spec (k := 13) (by omega) (by omega) h.1 h.2.1 h.2.2

theorem spec_bound {s : List Char} (h : IsName s) : specVal 0 s < U64 := by
  have hlt := spec_lt (k := 13) (s := s) (by omega) (by omega) h.1 h.2.1 h.2.2
  simpa [U64] using hlt

/-! ## The macro -/

theorem symbol_letters {c : Char} (h : c ∈ letters) : charToSymbol c = letters.idxOf c := by
  have : ∀ c ∈ letters, charToSymbol c = letters.idxOf c := by decide
  exact this c h

theorem macro_fold {i : Nat} {v : Nat} {s : List Char} (hm : ∀ c ∈ s, c ∈ letters)
    (hi : i + s.length ≤ 12) (hv : 2 ^ (64 - 5 * i) ∣ v) : macroFold i v s = v + specVal i s := by
  induction s generalizing i v with
  | nil => simp [macroFold, specVal]
  | cons c cs ih =>
    simp only [List.length_cons] at hi
    have hc := hm c (by simp)
    have hd := idx_lt hc
    unfold macroFold specVal
    rw [symbol_letters hc, if_pos (by omega)]
    have e1 : letters.idxOf c &&& 31 = letters.idxOf c := by
      have := Nat.and_two_pow_sub_one_eq_mod (letters.idxOf c) 5
      rw [show (31 : Nat) = 2 ^ 5 - 1 from by norm_num, this]
      exact Nat.mod_eq_of_lt (by omega)
    rw [e1, Nat.shiftLeft_eq, show 64 - 5 * (i + 1) = 59 - 5 * i from by omega]
    have hb : letters.idxOf c * 2 ^ (59 - 5 * i) < 2 ^ (64 - 5 * i) := by
      rw [show 64 - 5 * i = 5 + (59 - 5 * i) from by omega, Nat.pow_add]
      exact Nat.mul_lt_mul_of_pos_right (by omega) (Nat.pos_of_ne_zero (by simp))
    obtain ⟨a, rfl⟩ := hv
    rw [← Nat.two_pow_add_eq_or_of_lt hb a, ih (fun x hx => hm x (by simp [hx])) (by omega)]
    · omega
    · have e2 : (2 : Nat) ^ (64 - 5 * i) = 2 ^ (64 - 5 * (i + 1)) * 32 := by
        rw [show 64 - 5 * i = (64 - 5 * (i + 1)) + 5 from by omega, Nat.pow_add]
      rw [show 59 - 5 * i = 64 - 5 * (i + 1) from by omega]
      exact Nat.dvd_add ⟨32 * a, by rw [e2]; ring⟩ ⟨letters.idxOf c, by ring⟩

theorem macro_spec {s : List Char} (h : IsName s) : macroName s = specVal 0 s := by
  have hm : ∀ c ∈ s.take 12, c ∈ letters := fun c hc => h.2.1 c (List.mem_of_mem_take hc)
  have hf := macro_fold (i := 0) (v := 0) hm (by simp) (by simp)
  unfold macroName
  cases hd : s.drop 12 with
  | nil =>
    have hst : s.take 12 = s := by
      have := List.take_append_drop 12 s
      rw [hd, List.append_nil] at this; exact this
    dsimp only
    rw [hf, hst]; omega
  | cons c cs =>
    have hcs : cs = [] := by
      have : (s.drop 12).length ≤ 1 := by have := h.1; simp; omega
      rw [hd] at this
      simp at this; exact this
    subst hcs
    have h12 : (s.take 12).length = 12 := by
      have : (s.drop 12).length = 1 := by rw [hd]; rfl
      simp at this ⊢; omega
    have hst : s = s.take 12 ++ [c] := by rw [← hd]; exact (List.take_append_drop 12 s).symm
    have hcl : c ∈ letters := h.2.1 c (by rw [hst]; simp)
    have h15 := h.2.2 c (by rw [hd]; simp)
    dsimp only
    rw [hf, symbol_letters hcl]
    conv_rhs => rw [hst, spec_append, h12]
    have e1 : letters.idxOf c &&& 15 = letters.idxOf c := by
      have := Nat.and_two_pow_sub_one_eq_mod (letters.idxOf c) 4
      rw [show (15 : Nat) = 2 ^ 4 - 1 from by norm_num, this]
      exact Nat.mod_eq_of_lt (by omega)
    rw [e1, spec_horner (s := s.take 12) (by omega), h12]
    have := Nat.two_pow_add_eq_or_of_lt (i := 4) (b := letters.idxOf c) (by omega)
      (horner 0 (s.take 12))
    simp only [Nat.zero_add, Nat.sub_zero, Nat.sub_self, Nat.mul_zero, Nat.add_zero]
    rw [Nat.mul_comm _ (2 ^ 4), ← this]
    simp [specVal]

/-! ## Length -/

theorem length_loop {k w i l : Nat} (hk : k ≤ 13) (hw : w < 2 ^ (5 * k - 1)) :
    lengthLoop k i l (w * 2 ^ (65 - 5 * k)) = if w = 0 then l else i + (textW k w).length - 1 := by
  induction k generalizing w i l with
  | zero => simp at hw; subst hw; simp [lengthLoop]
  | succ k ih =>
    unfold lengthLoop
    by_cases hk0 : k = 0
    · subst hk0
      simp only [lengthLoop]
      unfold textW
      by_cases h0 : w = 0
      · subst h0; simp
      · rw [if_neg h0, if_neg h0, if_pos rfl, if_pos]
        · simp
        · rw [Nat.shiftRight_eq_div_pow]; norm_num; omega
    · have hk12 : k ≤ 12 := by omega
      have hk1 : 1 ≤ k := by omega
      have key : (w * 2 ^ (65 - 5 * (k + 1))) >>> 59 = w / 2 ^ (5 * k - 1) ∧
          ((w * 2 ^ (65 - 5 * (k + 1))) <<< 5) % U64 = (w % 2 ^ (5 * k - 1)) * 2 ^ (65 - 5 * k) := by
        rw [Nat.shiftRight_eq_div_pow, Nat.shiftLeft_eq]
        unfold U64
        clear ih
        interval_cases k <;> norm_num at hw ⊢ <;> omega
      rw [key.1, key.2, ih (by omega) (Nat.mod_lt _ (Nat.pos_of_ne_zero (by simp)))]
      conv_rhs => unfold textW
      by_cases h0 : w = 0
      · subst h0; simp
      rw [if_neg h0, if_neg h0, if_neg hk0]
      have hdm := Nat.div_add_mod w (2 ^ (5 * k - 1))
      by_cases hr : w % 2 ^ (5 * k - 1) = 0
      · rw [if_pos hr, if_pos]
        · rw [hr]
          cases k with
          | zero => omega
          | succ k => simp [textW]
        · apply Nat.pos_of_ne_zero
          intro h
          rw [h, hr] at hdm; simp at hdm; omega
      · rw [if_neg hr]
        have : 0 < (textW k (w % 2 ^ (5 * k - 1))).length := by
          cases k with
          | zero => omega
          | succ k =>
            unfold textW
            rw [if_neg hr]
            split <;> simp
        simp only [List.length_cons]
        omega

theorem length_text {v : Nat} (h : v < U64) : nameLength v = (nameText v).length := by
  have hv : v < 2 ^ (5 * 13 - 1) := by simpa [U64] using h
  unfold nameLength
  rw [nameText_eq h]
  by_cases h0 : v = 0
  · subst h0; simp [textW]
  · rw [if_neg h0]
    have := length_loop (k := 13) (w := v) (i := 0) (l := 0) (by omega) hv
    simp only [show 65 - 5 * 13 = 0 from rfl, Nat.pow_zero, Nat.mul_one] at this
    rw [this, if_neg h0]
    have : 0 < (textW 13 v).length := by
      unfold textW
      rw [if_neg h0]
      split <;> simp
    omega

end Verif.Abi
