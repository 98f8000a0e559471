import Verif.Abi.CoinModel
import Mathlib.Tactic.IntervalCases
import Mathlib.Tactic.Ring
import Mathlib.Tactic.Linarith
/-!
# Symbols, amounts and account numbers: lemmas
-/
namespace Verif.Abi
open Verif

/-! ## Digits -/

theorem digit_nat {d : Nat} (h : d < 10) : (digit d).toNat = 48 + d := by
  have : ∀ d : Fin 10, (digit d.1).toNat = 48 + d.1 := by decide
  exact this ⟨d, h⟩

theorem digit_isDig {d : Nat} (h : d < 10) : isDig (digit d) = true := by
  have : ∀ d : Fin 10, isDig (digit d.1) = true := by decide
  exact this ⟨d, h⟩

theorem dec_lt {n : Nat} (h : n < 10) : dec n = [digit n] := by rw [dec, dif_pos h]
theorem dec_ge {n : Nat} (h : ¬ n < 10) : dec n = dec (n / 10) ++ [digit (n % 10)] := by
  rw [dec, dif_neg h]

theorem dec_digits (n : Nat) : ∀ c ∈ dec n, isDig c = true := by
  induction n using Nat.strongRecOn with
  | _ n ih =>
    intro c hc
    by_cases h : n < 10
    · rw [dec_lt h] at hc; simp at hc; subst hc; exact digit_isDig h
    · rw [dec_ge h] at hc
      rcases List.mem_append.mp hc with hc | hc
      · exact ih (n / 10) (by omega) c hc
      · simp at hc; subst hc; exact digit_isDig (by omega)

theorem dec_ne (n : Nat) : dec n ≠ [] := by
  by_cases h : n < 10
  · rw [dec_lt h]; simp
  · rw [dec_ge h]; simp

theorem digits_append {acc : Nat} {xs ys : List Char} (h : ∀ c ∈ xs, isDig c = true) :
    digits acc (xs ++ ys) = digits (digits acc xs) ys := by
  induction xs generalizing acc with
  | nil => rfl
  | cons c cs ih =>
    simp only [List.cons_append, digits]
    rw [if_pos (h c (by simp)), if_pos (h c (by simp)), ih (fun x hx => h x (by simp [hx]))]

theorem digits_stop {acc : Nat} {ys : List Char} (h : ∀ c, ys.head? = some c → isDig c = false) :
    digits acc ys = acc := by
  cases ys with
  | nil => rfl
  | cons c cs => simp [digits, h c rfl]

theorem digits_one {acc d : Nat} (h : d < 10) : digits acc [digit d] = acc * 10 + d := by
  simp only [digits, digit_isDig h, if_true, digit_nat h]
  omega

theorem digits_dec (n : Nat) : digits 0 (dec n) = n := by
  induction n using Nat.strongRecOn with
  | _ n ih =>
    by_cases h : n < 10
    · rw [dec_lt h, digits_one h]; omega
    · rw [dec_ge h, digits_append (dec_digits _), ih _ (by omega), digits_one (by omega)]; omega

theorem frac_len (p v : Nat) : (fracDigits p v).length = p := by
  induction p generalizing v with
  | zero => rfl
  | succ p ih => simp [fracDigits, ih]

theorem frac_digits (p v : Nat) : ∀ c ∈ fracDigits p v, isDig c = true := by
  induction p generalizing v with
  | zero => simp [fracDigits]
  | succ p ih =>
    intro c hc
    simp only [fracDigits] at hc
    rcases List.mem_append.mp hc with hc | hc
    · exact ih _ c hc
    · simp at hc; subst hc; exact digit_isDig (by omega)

theorem digits_frac (p v : Nat) : digits 0 (fracDigits p v) = v % 10 ^ p := by
  induction p generalizing v with
  | zero => simp [fracDigits, digits, Nat.mod_one]
  | succ p ih =>
    simp only [fracDigits]
    rw [digits_append (frac_digits _ _), ih, digits_one (by omega), Nat.pow_succ]
    rw [Nat.mul_comm (10 ^ p) 10, Nat.mod_mul]
    omega

theorem isDig_plain {c : Char} (h : isDig c = true) : isBlank c = false ∧ c ≠ '-' ∧ c ≠ '+' ∧ c ≠ ' ' ∧
    c ≠ '.' ∧ c ≠ ',' := by
  unfold isDig at h
  simp only [decide_eq_true_eq] at h
  have hne : ∀ x : Char, (x.toNat < 48 ∨ 57 < x.toNat) → c ≠ x := by
    rintro x hx rfl; omega
  refine ⟨?_, hne _ (by decide), hne _ (by decide), hne _ (by decide), hne _ (by decide), hne _ (by decide)⟩
  unfold isBlank
  simp only [decide_eq_false_iff_not]
  rintro (h1 | h1)
  · exact hne ' ' (by decide) h1
  · omega

theorem number_digits {xs ys : List Char} (h : ∀ c ∈ xs, isDig c = true) (hne : xs ≠ [])
    (hy : ∀ c, ys.head? = some c → isDig c = false) : number (xs ++ ys) = digits 0 xs := by
  cases xs with
  | nil => exact absurd rfl hne
  | cons c cs =>
    have hc := isDig_plain (h c (by simp))
    unfold number
    have e : ((c :: cs) ++ ys).dropWhile isBlank = c :: (cs ++ ys) := by
      simp [List.dropWhile, hc.1]
    rw [e]
    split
    · rename_i heq; injection heq with h1; exact absurd h1 hc.2.1
    · rename_i heq; injection heq with h1; exact absurd h1 hc.2.2.1
    · rw [← List.cons_append, digits_append h, digits_stop hy]

theorem number_dec {n : Nat} {ys : List Char} (hy : ∀ c, ys.head? = some c → isDig c = false) :
    number (dec n ++ ys) = n := by
  rw [number_digits (dec_digits n) (dec_ne n) hy, digits_dec]

theorem number_dec' (n : Nat) : number (dec n) = n := by
  have := number_dec (n := n) (ys := []) (by simp)
  simpa using this

theorem number_frac {p v : Nat} (hp : p ≠ 0) : number (fracDigits p v) = (v % 10 ^ p : Nat) := by
  have := number_digits (ys := []) (frac_digits p v) (by
    intro h; have := frac_len p v; rw [h] at this; simp at this; omega) (by simp)
  rw [List.append_nil, digits_frac] at this
  exact this

/-! ## Cutting text -/

theorem cut {x : Char} {a b : List Char} (h : x ∉ a) :
    (a ++ x :: b).takeWhile (· ≠ x) = a ∧ (a ++ x :: b).dropWhile (· ≠ x) = x :: b := by
  induction a with
  | nil => simp
  | cons c cs ih =>
    have h1 : c ≠ x := fun e => h (by simp [e])
    have h2 : x ∉ cs := fun e => h (by simp [e])
    obtain ⟨i1, i2⟩ := ih h2
    constructor
    · simp only [List.cons_append, List.takeWhile, h1, ne_eq, not_false_eq_true, decide_true]
      exact congrArg (c :: ·) i1
    · simp only [List.cons_append, List.dropWhile, h1, ne_eq, not_false_eq_true, decide_true]
      exact i2

theorem takeWhile_all {p : Char → Bool} {a : List Char} (h : ∀ c ∈ a, p c = true) : a.takeWhile p = a := by
  induction a with
  | nil => rfl
  | cons c cs ih => simp [List.takeWhile, h c (by simp), ih (fun x hx => h x (by simp [hx]))]

/-! ## Codes -/

theorem symChar_range {c : Char} (h : symChar c = true) : 35 ≤ c.toNat ∧ c.toNat ≤ 122 ∧ c ≠ ' ' ∧ c ≠ ',' ∧ c ≠ '\x00' := by
  unfold symChar at h
  simp only [decide_eq_true_eq] at h
  have hr : 35 ≤ c.toNat ∧ c.toNat ≤ 122 ∧ c.toNat ≠ 44 := by
    rcases h with h | h | h | h | h | h | h
    · have h1 : 48 ≤ c.toNat := h.1
      have h2 : c.toNat ≤ 57 := h.2
      omega
    · have h1 : 65 ≤ c.toNat := h.1
      have h2 : c.toNat ≤ 90 := h.2
      omega
    · have h1 : 97 ≤ c.toNat := h.1
      have h2 : c.toNat ≤ 122 := h.2
      omega
    all_goals subst h; decide
  refine ⟨hr.1, hr.2.1, ?_, ?_, ?_⟩
  · rintro rfl; exact absurd hr.1 (by decide)
  · rintro rfl; exact hr.2.2 (by decide)
  · rintro rfl; exact absurd hr.1 (by decide)

theorem codeVal_pos {s : List Char} (h : ∀ c ∈ s, symChar c = true) (hne : s ≠ []) : codeVal s ≠ 0 := by
  cases s with
  | nil => exact absurd rfl hne
  | cons c cs =>
    have := (symChar_range (h c (by simp))).1
    simp only [codeVal]; omega

theorem codeTextLoop_val {k : Nat} {s : List Char} (h : ∀ c ∈ s, symChar c = true) (hl : s.length ≤ k) :
    codeTextLoop k (codeVal s) = s := by
  induction s generalizing k with
  | nil => cases k <;> simp [codeVal, codeTextLoop]
  | cons c cs ih =>
    cases k with
    | zero => simp at hl
    | succ k =>
      have hr := symChar_range (h c (by simp))
      unfold codeTextLoop
      rw [if_neg (codeVal_pos h (by simp))]
      simp only [codeVal]
      have e1 : (c.toNat + 256 * codeVal cs) % 256 = c.toNat := by omega
      have e2 : (c.toNat + 256 * codeVal cs) / 256 = codeVal cs := by omega
      rw [e1, e2, Char.ofNat_toNat, ih (fun x hx => h x (by simp [hx])) (by simpa using hl)]

theorem codeText_val {s : List Char} (h : ∀ c ∈ s, symChar c = true) (hl : s.length ≤ 7) :
    codeText (codeVal s) = s := codeTextLoop_val h hl

theorem ofNat_toNat {n : Nat} (h : n < 256) : (Char.ofNat n).toNat = n := by
  have : ∀ n : Fin 256, (Char.ofNat n.1).toNat = n.1 := by decide +kernel
  exact this ⟨n, h⟩

theorem restZero_zero {k v : Nat} (h : restZero k v = true) (hv : v < 256 ^ k) : v = 0 := by
  induction k generalizing v with
  | zero => simp at hv; exact hv
  | succ k ih =>
    simp only [restZero, Bool.and_eq_true, decide_eq_true_eq] at h
    have := ih h.2 (by rw [Nat.div_lt_iff_lt_mul (by omega)]; rw [Nat.pow_succ] at hv; exact hv)
    omega

theorem codeValidLoop_val {k v : Nat} (h : codeValidLoop k v = true) (hv : v < 256 ^ k) (hk : 0 < k) :
    ∃ s : List Char, s ≠ [] ∧ s.length ≤ k ∧ (∀ c ∈ s, symChar c = true) ∧ v = codeVal s := by
  induction k generalizing v with
  | zero => omega
  | succ k ih =>
    unfold codeValidLoop at h
    split at h
    · rename_i hc
      have hm : (Char.ofNat (v % 256)).toNat = v % 256 := ofNat_toNat (by omega)
      have hdiv : v / 256 < 256 ^ k := by
        rw [Nat.div_lt_iff_lt_mul (by omega)]; rw [Nat.pow_succ] at hv; exact hv
      split at h
      · rename_i h0
        have hz : v / 256 / 256 = 0 := by
          apply restZero_zero h
          calc v / 256 / 256 ≤ v := by omega
            _ < _ := hv
        refine ⟨[Char.ofNat (v % 256)], by simp, by simp, by simpa using hc, ?_⟩
        simp only [codeVal, hm]; omega
      · rename_i h0
        by_cases hk0 : k = 0
        · subst hk0
          simp at hdiv
          omega
        obtain ⟨s, h1, h2, h3, h4⟩ := ih h hdiv (by omega)
        refine ⟨Char.ofNat (v % 256) :: s, by simp, by simp; omega, ?_, ?_⟩
        · intro c hcm
          rcases List.mem_cons.mp hcm with rfl | hcm
          · exact hc
          · exact h3 c hcm
        · simp only [codeVal, hm, ← h4]; omega
    · cases h

theorem codeValid_val {v : Nat} (h : codeValid v = true) (hv : v < 2 ^ 56) :
    ∃ s : List Char, s ≠ [] ∧ s.length ≤ 7 ∧ (∀ c ∈ s, symChar c = true) ∧ v = codeVal s :=
  codeValidLoop_val h (by norm_num at hv ⊢; exact hv) (by omega)

theorem restZero_of_zero (k : Nat) : restZero k 0 = true := by
  induction k with
  | zero => rfl
  | succ k ih => simp [restZero, ih]

theorem codeVal_valid {k : Nat} {s : List Char} (hne : s ≠ []) (hl : s.length ≤ k)
    (h : ∀ c ∈ s, symChar c = true) : codeValidLoop k (codeVal s) = true := by
  induction s generalizing k with
  | nil => exact absurd rfl hne
  | cons c cs ih =>
    cases k with
    | zero => rfl
    | succ k =>
      have hr := symChar_range (h c (by simp))
      have e0 : codeVal (c :: cs) = c.toNat + 256 * codeVal cs := rfl
      have e1 : (c.toNat + 256 * codeVal cs) % 256 = c.toNat := by omega
      have e2 : (c.toNat + 256 * codeVal cs) / 256 = codeVal cs := by omega
      rw [e0, codeValidLoop, e1, e2, Char.ofNat_toNat, if_pos (h c (by simp))]
      cases cs with
      | nil => simp [codeVal, restZero_of_zero]
      | cons d ds =>
        have hd := symChar_range (h d (by simp))
        have : ¬ codeVal (d :: ds) % 256 = 0 := by simp only [codeVal]; omega
        rw [if_neg this]
        exact ih (by simp) (by simpa using hl) (fun x hx => h x (by simp [hx]))

theorem stringToSymbol_val {p : Nat} {s : List Char} (h : ∀ c ∈ s, symChar c = true) (hl : s.length ≤ 7) :
    stringToSymbol p s = some ⟨codeVal s, p⟩ := by
  unfold stringToSymbol
  have e : s.takeWhile (· ≠ '\x00') = s :=
    takeWhile_all fun c hc => by simpa using (symChar_range (h c hc)).2.2.2.2
  rw [e]
  dsimp only
  rw [if_neg (by omega), if_pos (by simpa [List.all_eq_true] using h)]

theorem symOf_text {p : Nat} {s : List Char} (hp : p ≤ 18) (h : ∀ c ∈ s, symChar c = true) (hl : s.length ≤ 7) :
    symOf (dec p ++ ',' :: s) = some ⟨codeVal s, p⟩ := by
  unfold symOf
  have hc : ',' ∉ dec p := fun hm => (isDig_plain (dec_digits p _ hm)).2.2.2.2.2 rfl
  rw [if_neg (by simp), if_neg (by simp)]
  rw [(cut hc).1, (cut hc).2]
  have hat : atoi (dec p) = some (p : Int) := by
    unfold atoi
    rw [number_dec']
    dsimp only
    rw [if_pos (by omega)]
  rw [hat]
  dsimp only
  have h8 : asU8 (p : Int) = p := by unfold asU8; omega
  rw [h8, if_neg (by omega), List.drop_succ_cons, List.drop_zero, stringToSymbol_val h hl]

/-! ## Amounts -/

theorem i64_eq {v : Int} (h1 : -2 ^ 63 ≤ v) (h2 : v < 2 ^ 63) : i64 v = v := by
  unfold i64
  rw [Int.emod_eq_of_lt (by omega) (by omega)]; omega

theorem i64_high {v : Int} (h1 : 2 ^ 63 ≤ v) (h2 : v < 2 ^ 64 + 2 ^ 63) : i64 v = v - 2 ^ 64 := by
  unfold i64
  have : (v + 2 ^ 63) % 2 ^ 64 = v + 2 ^ 63 - 2 ^ 64 := by
    rw [← Int.sub_emod_right, Int.emod_eq_of_lt (by omega) (by omega)]
  omega

theorem i64_low {v : Int} (h1 : v < -2 ^ 63) (h2 : -2 ^ 64 - 2 ^ 63 ≤ v) : i64 v = v + 2 ^ 64 := by
  unfold i64
  have : (v + 2 ^ 63) % 2 ^ 64 = v + 2 ^ 63 + 2 ^ 64 := by
    rw [← Int.add_emod_right, Int.emod_eq_of_lt (by omega) (by omega)]
  omega

/-- The wrapped sum passes the range check exactly when it is right, or when the true sum is at
least `2^64 - max_amount` away from zero. -/
theorem wrap_range {s : Int} (h : -2 * MAXA ≤ s ∧ s ≤ 2 * MAXA) :
    inRange (i64 s) = true ↔ (-MAXA ≤ s ∧ s ≤ MAXA) ∨ 2 ^ 64 - MAXA ≤ s ∨ s ≤ -(2 ^ 64 - MAXA) := by
  unfold inRange MAXA at *
  simp only [decide_eq_true_eq]
  by_cases h1 : 2 ^ 63 ≤ s
  · rw [i64_high h1 (by omega)]; omega
  · by_cases h2 : s < -2 ^ 63
    · rw [i64_low h2 (by omega)]; omega
    · rw [i64_eq (by omega) (by omega)]; omega

theorem assetText_shape {a : Asset} (h0 : 0 ≤ a.amount) : a.text =
    (dec (a.amount.toNat / 10 ^ a.sym.prec) ++ ((if a.sym.prec = 0 then [] else ['.']) ++
      fracDigits a.sym.prec (a.amount.toNat % 10 ^ a.sym.prec))) ++ ' ' :: codeText a.sym.code := by
  unfold Asset.text
  obtain ⟨n, hn⟩ := Int.eq_ofNat_of_zero_le h0
  rw [hn]
  have e1 : ((n : Int).tdiv (10 ^ a.sym.prec)) = ((n / 10 ^ a.sym.prec : Nat) : Int) := by
    have : (((10 : Nat) ^ a.sym.prec : Nat) : Int) = (10 : Int) ^ a.sym.prec := by push_cast; rfl
    rw [← this, Int.tdiv_eq_ediv_of_nonneg (by omega), Int.natCast_ediv]
  have e2 : ((n : Int).tmod (10 ^ a.sym.prec)).natAbs = n % 10 ^ a.sym.prec := by
    have : (((10 : Nat) ^ a.sym.prec : Nat) : Int) = (10 : Int) ^ a.sym.prec := by push_cast; rfl
    rw [← this, Int.tmod_eq_emod_of_nonneg (by omega), ← Int.natCast_emod, Int.natAbs_natCast]
  rw [e1, e2]
  unfold decInt
  rw [if_neg (Int.not_lt.mpr (Int.natCast_nonneg _))]
  simp only [Int.natAbs_natCast, Int.toNat_natCast, List.append_assoc]

theorem finish_ok {n : Nat} {sym : Sym} (hv : (⟨(n : Int), sym⟩ : Asset).valid = true) :
    finishAsset ((n / 10 ^ sym.prec : Nat) : Int) ((n % 10 ^ sym.prec : Nat) : Int) sym = some ⟨(n : Int), sym⟩ := by
  simp only [Asset.valid, Bool.and_eq_true] at hv
  have hr := hv.1
  unfold inRange MAXA at hr
  simp only [decide_eq_true_eq] at hr
  have hn : n ≤ 9000000000000000000 := by omega
  have hpow : (10 : Int) ^ sym.prec = ((10 ^ sym.prec : Nat) : Int) := by push_cast; rfl
  have hpos : 0 < 10 ^ sym.prec := Nat.pow_pos (by omega)
  have hdm := Nat.div_add_mod n (10 ^ sym.prec)
  unfold finishAsset
  dsimp only
  have hm : ((n / 10 ^ sym.prec : Nat) : Int) * 10 ^ sym.prec = ((n / 10 ^ sym.prec * 10 ^ sym.prec : Nat) : Int) := by
    rw [hpow]; push_cast; rfl
  have hle : n / 10 ^ sym.prec * 10 ^ sym.prec ≤ n := by rw [Nat.mul_comm]; omega
  rw [hm, i64_eq (by omega) (by omega), hpow]
  have hd : ((n / 10 ^ sym.prec * 10 ^ sym.prec : Nat) : Int).tdiv ((10 ^ sym.prec : Nat) : Int) =
      ((n / 10 ^ sym.prec : Nat) : Int) := by
    rw [Int.tdiv_eq_ediv_of_nonneg (by omega), ← Int.natCast_ediv, Nat.mul_div_cancel _ hpos]
  rw [hd]
  simp only [ne_eq, not_true, if_false]
  have hs : ((n / 10 ^ sym.prec * 10 ^ sym.prec : Nat) : Int) + ((n % 10 ^ sym.prec : Nat) : Int) = (n : Int) := by
    rw [← Int.natCast_add]
    congr 1
    rw [Nat.mul_comm]; exact hdm
  rw [hs, i64_eq (by omega) (by omega), if_neg (by
    have : n % 10 ^ sym.prec ≤ n := Nat.mod_le _ _
    omega)]
  unfold mkAsset
  rw [if_pos]
  rw [Bool.and_eq_true]
  exact ⟨by unfold inRange MAXA; simp only [decide_eq_true_eq]; omega, hv.2⟩

theorem signOk_digits {s : List Char} {v : Int} (h : ∀ c, s.head? = some c → isDig c = true) (hv : 0 ≤ v) :
    signOk s v = true := by
  unfold signOk
  simp only [decide_eq_true_eq]
  constructor
  · intro hh
    have := h _ hh
    exact absurd this (by decide)
  · intro hh; omega

theorem head_dec {n : Nat} {ys : List Char} : ∀ c, (dec n ++ ys).head? = some c → isDig c = true := by
  intro c hc
  cases hd : dec n with
  | nil => exact absurd hd (dec_ne n)
  | cons x xs =>
    rw [hd] at hc
    simp at hc
    subst hc
    exact dec_digits n x (by rw [hd]; simp)

theorem asset_round {a : Asset} (hv : a.valid = true) (h0 : 0 ≤ a.amount) (hc : a.sym.code < 2 ^ 56) :
    assetOf a.text = some a := by
  have hv' := hv
  simp only [Asset.valid, Sym.valid, Bool.and_eq_true, decide_eq_true_eq] at hv
  obtain ⟨hr, hcode, hprec⟩ := hv
  obtain ⟨s, hne, hl, hs, he⟩ := codeValid_val hcode hc
  have hct : codeText a.sym.code = s := by rw [he]; exact codeText_val hs hl
  have hrange : a.amount ≤ 9000000000000000000 := by
    unfold inRange MAXA at hr; simp only [decide_eq_true_eq] at hr; exact hr.2
  obtain ⟨amt, sym⟩ := a
  obtain ⟨code, p⟩ := sym
  dsimp only at *
  obtain ⟨n, rfl⟩ := Int.eq_ofNat_of_zero_le h0
  rw [assetText_shape h0]
  dsimp only
  rw [hct]
  simp only [Int.toNat_natCast]
  have hnb : ∀ x ∈ dec (n / 10 ^ p), x ≠ ' ' ∧ x ≠ '.' := fun x hx =>
    ⟨(isDig_plain (dec_digits _ x hx)).2.2.2.1, (isDig_plain (dec_digits _ x hx)).2.2.2.2.1⟩
  have hfb : ∀ x ∈ fracDigits p (n % 10 ^ p), x ≠ ' ' := fun x hx =>
    (isDig_plain (frac_digits _ _ x hx)).2.2.2.1
  have hsp : ' ' ∉ dec (n / 10 ^ p) ++ ((if p = 0 then [] else ['.']) ++ fracDigits p (n % 10 ^ p)) := by
    intro hm
    rcases List.mem_append.mp hm with hm | hm
    · exact (hnb _ hm).1 rfl
    · rcases List.mem_append.mp hm with hm | hm
      · split at hm <;> simp at hm
      · exact hfb _ hm rfl
  have hst : strtoll (dec (n / 10 ^ p)) = some ((n / 10 ^ p : Nat) : Int) := by
    unfold strtoll
    rw [number_dec']
    dsimp only
    have : n / 10 ^ p ≤ n := Nat.div_le_self _ _
    generalize n / 10 ^ p = q at this
    rw [if_pos (by omega)]
  unfold assetOf
  rw [if_neg (by simp)]
  rw [(cut hsp).1, (cut hsp).2]
  simp only [List.drop_succ_cons, List.drop_zero]
  by_cases hp0 : p = 0
  · subst hp0
    simp only [if_true, fracDigits, List.append_nil, Nat.pow_zero, Nat.div_one, Nat.mod_one] at *
    rw [if_neg (fun hm => (hnb _ hm).2 rfl)]
    have h1 := symOf_text (p := 0) (s := s) (by omega) hs hl
    rw [show dec 0 = ['0'] from by rw [dec_lt (by omega)]; rfl] at h1
    simp only [List.cons_append, List.nil_append] at h1
    rw [h1, hst]
    dsimp only
    rw [if_pos (signOk_digits (fun c hc => by
      have := head_dec (n := n) (ys := []) c (by simpa using hc); exact this) (by omega)), he]
    have := finish_ok (n := n) (sym := ⟨codeVal s, 0⟩) (he ▸ hv')
    simpa using this
  · rw [if_neg hp0]
    have hdm : '.' ∉ dec (n / 10 ^ p) := fun hm => (hnb _ hm).2 rfl
    rw [if_pos (by simp)]
    simp only [List.singleton_append]
    rw [(cut hdm).1, (cut hdm).2]
    simp only [List.drop_succ_cons, List.drop_zero]
    have hfl := frac_len p (n % 10 ^ p)
    rw [if_neg (by intro h; rw [h] at hfl; simp at hfl; omega), hfl, symOf_text hprec hs hl]
    dsimp only
    rw [hst]
    dsimp only
    rw [if_pos (signOk_digits head_dec (Int.natCast_nonneg _))]
    have hsf : strtoll (fracDigits p (n % 10 ^ p)) = some ((n % 10 ^ p : Nat) : Int) := by
      unfold strtoll
      rw [number_frac hp0, Nat.mod_mod]
      dsimp only
      have : n % 10 ^ p ≤ n := Nat.mod_le _ _
      rw [if_pos (by omega)]
    rw [hsf]
    dsimp only
    rw [if_neg (by omega), if_neg (by
      intro hh
      have := head_dec _ hh
      exact absurd this (by decide)), he]
    exact finish_ok (n := n) (sym := ⟨codeVal s, p⟩) (he ▸ hv')

/-- Nothing negative is ever read. -/
theorem assetOf_nonneg {s : List Char} {a : Asset} (h : assetOf s = some a) : 0 ≤ a.amount := by
  have fin : ∀ {int frac : Int} {sym : Sym}, (int < 0 → frac ≤ 0) → (0 ≤ int → 0 ≤ frac) →
      -2 ^ 63 ≤ frac → frac < 2 ^ 63 →
      finishAsset int frac sym = some a → 0 ≤ a.amount := by
    intro int frac sym hneg hpos hf1 hf2 hfin
    unfold finishAsset at hfin
    dsimp only at hfin
    split at hfin
    · cases hfin
    rename_i hdiv
    split at hfin
    · cases hfin
    rename_i hge
    unfold mkAsset at hfin
    split at hfin
    · injection hfin with hfin
      subst hfin
      dsimp only
      by_contra hcon
      have hp : (0 : Int) < 10 ^ sym.prec := Int.pow_pos (by norm_num)
      have hii : ∀ v : Int, -2 ^ 63 ≤ i64 v ∧ i64 v < 2 ^ 63 := by
        intro v; unfold i64
        have := Int.emod_nonneg (v + 2 ^ 63) (b := 2 ^ 64) (by norm_num)
        have := Int.emod_lt_of_pos (v + 2 ^ 63) (b := 2 ^ 64) (by norm_num)
        omega
      have hb := hii (int * 10 ^ sym.prec)
      have hdiv' : int = (i64 (int * 10 ^ sym.prec)).tdiv (10 ^ sym.prec) := by
        by_contra hne; exact hdiv hne
      by_cases hi : int < 0
      · -- the scaled part is negative, the fraction is not positive
        have hA : i64 (int * 10 ^ sym.prec) < 0 := by
          by_contra hA
          have := Int.tdiv_nonneg (a := i64 (int * 10 ^ sym.prec)) (b := 10 ^ sym.prec) (by omega) (by omega)
          omega
        have hfr := hneg hi
        by_cases hw : -2 ^ 63 ≤ i64 (int * 10 ^ sym.prec) + frac
        · rw [i64_eq hw (by omega)] at hge
          omega
        · rw [i64_low (by omega) (by omega)] at hcon
          omega
      · have hA : 0 ≤ i64 (int * 10 ^ sym.prec) := by
          by_contra hA
          have h1 : (i64 (int * 10 ^ sym.prec)).tdiv (10 ^ sym.prec) = int := hdiv'.symm
          have h2 : int = 0 := by
            have := Int.tdiv_nonneg (a := -i64 (int * 10 ^ sym.prec)) (b := 10 ^ sym.prec) (by omega) (by omega)
            rw [Int.neg_tdiv] at this
            omega
          rw [h2, Int.zero_mul] at hA
          exact hA (by decide)
        have hfr := hpos (by omega)
        omega
    · cases hfin
  unfold assetOf at h
  split at h
  · cases h
  dsimp only at h
  split at h
  · split at h
    · cases h
    split at h
    · cases h
    split at h
    · cases h
    rename_i int hint
    split at h
    · rename_i hsign
      split at h
      · cases h
      rename_i frac hfrac
      split at h
      · cases h
      rename_i hf0
      unfold strtoll at hfrac
      dsimp only at hfrac
      split at hfrac
      · rename_i hfr
        injection hfrac with hfrac
        rw [hfrac] at hfr
        unfold signOk at hsign
        simp only [decide_eq_true_eq] at hsign
        split at h
        · rename_i hm
          have := hsign.mp hm
          exact fin (by omega) (by omega) (by omega) (by omega) h
        · rename_i hm
          have : ¬ int < 0 := fun hh => hm (hsign.mpr hh)
          exact fin (by omega) (by omega) (by omega) (by omega) h
      · cases hfrac
    · cases h
  · split at h
    · cases h
    split at h
    · cases h
    split at h
    · exact fin (by omega) (by omega) (by omega) (by omega) h
    · cases h

/-! ## Account numbers -/

theorem regid_round {v : Nat} (h : v < 2 ^ 51) : regidOf (regidText v) = some v := by
  have e1 : v >>> 20 = v / 2 ^ 20 := Nat.shiftRight_eq_div_pow _ _
  have e2 : v &&& 0xFFFFF = v % 2 ^ 20 := by
    rw [show (0xFFFFF : Nat) = 2 ^ 20 - 1 from by norm_num]
    exact Nat.and_two_pow_sub_one_eq_mod v 20
  unfold regidText regidOf
  rw [e1, e2]
  have hd : '-' ∉ dec (v / 2 ^ 20) := fun hm => (isDig_plain (dec_digits _ _ hm)).2.1 rfl
  rw [if_neg (by intro hh; have := head_dec _ hh; exact absurd this (by decide)), if_pos (by simp)]
  dsimp only
  rw [(cut hd).2]
  simp only [List.drop_succ_cons, List.drop_zero]
  have h1 : atoi (dec (v / 2 ^ 20) ++ '-' :: dec (v % 2 ^ 20)) = some ((v / 2 ^ 20 : Nat) : Int) := by
    unfold atoi
    rw [number_dec (by intro c hc; simp at hc; subst hc; decide)]
    dsimp only
    rw [if_pos (by omega)]
  have h2 : atoi (dec (v % 2 ^ 20)) = some ((v % 2 ^ 20 : Nat) : Int) := by
    unfold atoi
    rw [number_dec']
    dsimp only
    rw [if_pos (by omega)]
  rw [h1, h2]
  dsimp only
  have u1 : asU64 ((v / 2 ^ 20 : Nat) : Int) = v / 2 ^ 20 := by unfold asU64; omega
  have u2 : asU64 ((v % 2 ^ 20 : Nat) : Int) = v % 2 ^ 20 := by unfold asU64; omega
  rw [u1, u2, Nat.shiftLeft_eq]
  unfold U64
  congr 1
  omega

end Verif.Abi
