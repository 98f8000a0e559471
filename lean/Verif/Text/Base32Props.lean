import Verif.Text.Base32
import Verif.Text.Props

namespace Verif.Text

/-! ## Specification -/

/-- The alphabet of RFC 4648: "abcdefghijklmnopqrstuvwxyz234567" -/
def rfc32 : List Nat := [97, 98, 99, 100, 101, 102, 103, 104, 105, 106, 107, 108, 109, 110, 111, 112, 113, 114, 115, 116, 117, 118, 119, 120, 121, 122,
  50, 51, 52, 53, 54, 55]

/-- Five bytes as a number, the first byte highest -/
def number (g : List Nat) : Nat := g.foldl (fun n x => n * 256 + x) 0

/-- A number below 2^40 as eight characters, the highest five bits first -/
def group32 (n : Nat) : List Nat := (List.range 8).map (fun i => rfc32.getD (n / 32 ^ (7 - i) % 32) 0)

/-- How many characters of a group carry `r` bytes -/
def chars32 (r : Nat) : Nat := (8 * r + 4) / 5

/-- RFC 4648 base 32: whole groups of five bytes, then the rest filled up with zero bits, and padding in the place of unused characters -/
def Rfc32 : List Nat → List Nat
  | a :: b :: c :: d :: e :: rest => group32 (number [a, b, c, d, e]) ++ Rfc32 rest
  | [] => []
  | g => (group32 (number (g ++ List.replicate (5 - g.length) 0))).take (chars32 g.length) ++ List.replicate (8 - chars32 g.length) 61

/-- A small letter for every capital letter -/
def lower32 (c : Nat) : Nat := if 65 ≤ c ∧ c ≤ 90 then c + 32 else c

/-! ## Lemmas -/

theorem char32_rfc {d : Nat} (h : d < 32) : rfc32.getD d 0 = char32 d := by
  have k : ∀ d : Fin 32, rfc32.getD d.val 0 = char32 d.val := by decide +kernel
  exact k ⟨d, h⟩

theorem digit32_char {d : Nat} (h : d < 32) : digit32 (char32 d) = some d := by
  have k : ∀ d : Fin 32, digit32 (char32 d.val) = some d.val := by decide +kernel
  exact k ⟨d, h⟩

theorem digit32_lt {c d : Nat} (h : digit32 c = some d) : d < 32 := by
  unfold digit32 at h
  repeat' split at h
  all_goals first | (injection h; omega) | cases h

theorem char32_digit {c d : Nat} (h : digit32 c = some d) : char32 d = lower32 c := by
  unfold digit32 at h
  unfold char32 lower32
  repeat' split at h
  all_goals first | (injection h; subst d; repeat' split) | cases h
  all_goals omega

theorem dec32_char {m l d : Nat} {cs : List Nat} (h : d < 32) :
    dec32 m l (char32 d :: cs) =
      ((step32 m l d).1.toList ++ (dec32 (step32 m l d).2.1 (step32 m l d).2.2 cs).1, (dec32 (step32 m l d).2.1 (step32 m l d).2.2 cs).2) := by
  simp only [dec32, digit32_char h]

theorem dec32_pad {m l : Nat} {cs : List Nat} : dec32 m l (61 :: cs) = ([], m, l, 61 :: cs) := by
  rw [dec32, show digit32 61 = none from by decide]

theorem enc32_left0 (l : Nat) (bs : List Nat) : enc32 0 l bs = enc32 0 0 bs := by
  cases bs <;> simp [enc32]

theorem dec32_left0 (l : Nat) (cs : List Nat) : (dec32 0 l cs).1 = (dec32 0 0 cs).1 := by
  cases cs with
  | nil => simp [dec32]
  | cons c cs => simp only [dec32]; cases digit32 c <;> simp [step32]

theorem enc32_five {a b c d e : Nat} {rest : List Nat} : encode32 (a :: b :: c :: d :: e :: rest) =
    char32 (a / 8) :: char32 (a % 8 * 4 + b / 64) :: char32 (b / 2 % 32) :: char32 (b % 2 * 16 + c / 16) :: char32 (c % 16 * 2 + d / 128) ::
      char32 (d / 4 % 32) :: char32 (d % 4 * 8 + e / 32) :: char32 (e % 32) :: encode32 rest := by
  simp [encode32, enc32, enc32_left0 _ rest]

theorem group32_eq {a b c d e : Nat} (ha : a < 256) (hb : b < 256) (hc : c < 256) (hd : d < 256) (he : e < 256) :
    group32 (number [a, b, c, d, e]) =
      [char32 (a / 8), char32 (a % 8 * 4 + b / 64), char32 (b / 2 % 32), char32 (b % 2 * 16 + c / 16), char32 (c % 16 * 2 + d / 128),
        char32 (d / 4 % 32), char32 (d % 4 * 8 + e / 32), char32 (e % 32)] := by
  have r : List.range 8 = [0, 1, 2, 3, 4, 5, 6, 7] := by decide
  simp only [group32, number, List.foldl, r, List.map]
  rw [char32_rfc (Nat.mod_lt _ (by decide)), char32_rfc (Nat.mod_lt _ (by decide)), char32_rfc (Nat.mod_lt _ (by decide)),
    char32_rfc (Nat.mod_lt _ (by decide)), char32_rfc (Nat.mod_lt _ (by decide)), char32_rfc (Nat.mod_lt _ (by decide)),
    char32_rfc (Nat.mod_lt _ (by decide)), char32_rfc (Nat.mod_lt _ (by decide))]
  norm_num
  refine ⟨?_, ?_, ?_, ?_, ?_, ?_, ?_, ?_⟩ <;> congr 1 <;> omega

/-! ## Base 32 -/

theorem base32_rfc : ∀ (bs : List Nat), Bytes bs → encode32 bs = Rfc32 bs
  | a :: b :: c :: d :: e :: rest, h => by
    rw [enc32_five, base32_rfc rest (fun x hx => h x (by simp [hx])), Rfc32,
      group32_eq (h a (by simp)) (h b (by simp)) (h c (by simp)) (h d (by simp)) (h e (by simp))]
    rfl
  | [], _ => rfl
  | [a], h => by
    have ha := h a (by simp)
    have k := group32_eq ha (b := 0) (c := 0) (d := 0) (e := 0) (by omega) (by omega) (by omega) (by omega)
    simp only [Rfc32, List.length_cons, List.length_nil, List.replicate, List.cons_append, List.nil_append, k]
    simp [encode32, enc32, chars32, padding32]
  | [a, b], h => by
    have k := group32_eq (h a (by simp)) (h b (by simp)) (c := 0) (d := 0) (e := 0) (by omega) (by omega) (by omega)
    simp only [Rfc32, List.length_cons, List.length_nil, List.replicate, List.cons_append, List.nil_append, k]
    simp [encode32, enc32, chars32, padding32]
  | [a, b, c], h => by
    have k := group32_eq (h a (by simp)) (h b (by simp)) (h c (by simp)) (d := 0) (e := 0) (by omega) (by omega)
    simp only [Rfc32, List.length_cons, List.length_nil, List.replicate, List.cons_append, List.nil_append, k]
    simp [encode32, enc32, chars32, padding32]
  | [a, b, c, d], h => by
    have k := group32_eq (h a (by simp)) (h b (by simp)) (h c (by simp)) (h d (by simp)) (e := 0) (by omega)
    simp only [Rfc32, List.length_cons, List.length_nil, List.replicate, List.cons_append, List.nil_append, k]
    simp [encode32, enc32, chars32, padding32]


/-- Decoding from the beginning of a group with some bits left over -/
def decodeFrom (l : Nat) (s : List Nat) : List Nat × Bool :=
  ((dec32 0 l s).1, valid32 (dec32 0 l s).2.1 (dec32 0 l s).2.2.1 (dec32 0 l s).2.2.2)

theorem decodeFrom_left (l : Nat) (cs : List Nat) : decodeFrom l cs = decode32 cs := by
  unfold decodeFrom decode32
  cases cs with
  | nil => simp [dec32, valid32]
  | cons c cs => simp only [dec32]; cases digit32 c <;> simp [step32, valid32]

theorem dec32_five {a b c d e : Nat} {cs : List Nat} (ha : a < 256) (hb : b < 256) (hc : c < 256) (hd : d < 256) (he : e < 256) (l : Nat) :
    ∃ x, dec32 0 l (char32 (a / 8) :: char32 (a % 8 * 4 + b / 64) :: char32 (b / 2 % 32) :: char32 (b % 2 * 16 + c / 16) ::
        char32 (c % 16 * 2 + d / 128) :: char32 (d / 4 % 32) :: char32 (d % 4 * 8 + e / 32) :: char32 (e % 32) :: cs) =
      (a :: b :: c :: d :: e :: (dec32 0 x cs).1, (dec32 0 x cs).2) := by
  refine ⟨(d % 4 * 8 + e / 32) % 8, ?_⟩
  rw [dec32_char (by omega)]; simp only [step32, Option.toList, List.nil_append, ↓reduceIte]
  rw [dec32_char (by omega)]; simp only [step32, Option.toList, List.cons_append, List.nil_append, ↓reduceIte, Nat.reduceEqDiff]
  rw [dec32_char (by omega)]; simp only [step32, Option.toList, List.nil_append, ↓reduceIte, Nat.reduceEqDiff]
  rw [dec32_char (by omega)]; simp only [step32, Option.toList, List.cons_append, List.nil_append, ↓reduceIte, Nat.reduceEqDiff]
  rw [dec32_char (by omega)]; simp only [step32, Option.toList, List.cons_append, List.nil_append, ↓reduceIte, Nat.reduceEqDiff]
  rw [dec32_char (by omega)]; simp only [step32, Option.toList, List.nil_append, ↓reduceIte, Nat.reduceEqDiff]
  rw [dec32_char (by omega)]; simp only [step32, Option.toList, List.cons_append, List.nil_append, ↓reduceIte, Nat.reduceEqDiff]
  rw [dec32_char (by omega)]; simp only [step32, Option.toList, List.cons_append, List.nil_append, ↓reduceIte, Nat.reduceEqDiff]
  congr 2
  · omega
  congr 1
  · omega
  congr 1
  · omega
  congr 1
  · omega
  congr 1
  · omega

theorem dec32_end {m l n : Nat} : dec32 m l (List.replicate (n + 1) 61) = ([], m, l, List.replicate (n + 1) 61) := by
  rw [List.replicate_succ, dec32_pad]

/-- What is encoded is decoded to the same bytes and is valid. -/
theorem base32_round_trip : ∀ (bs : List Nat), Bytes bs → decode32 (encode32 bs) = (bs, true)
  | a :: b :: c :: d :: e :: rest, h => by
    have ih := base32_round_trip rest (fun x hx => h x (by simp [hx]))
    obtain ⟨x, hx⟩ := dec32_five (cs := encode32 rest) (h a (by simp)) (h b (by simp)) (h c (by simp)) (h d (by simp)) (h e (by simp)) 0
    rw [← decodeFrom_left x, decodeFrom, Prod.mk.injEq] at ih
    rw [enc32_five, decode32, hx]
    simp only [ih]
  | [], _ => by simp [decode32, encode32, enc32, dec32, valid32]
  | [a], h => by
    have ha := h a (by simp)
    simp only [encode32, enc32, padding32, decode32, ↓reduceIte, List.getD_cons_succ, List.getD_cons_zero, Nat.one_ne_zero]
    rw [dec32_char (by omega)]; simp only [step32, Option.toList, List.nil_append, ↓reduceIte]
    rw [dec32_char (by omega)]; simp only [step32, Option.toList, List.cons_append, List.nil_append, ↓reduceIte, Nat.reduceEqDiff]
    rw [dec32_end]
    simp [valid32, pad32, stop32]
    omega
  | [a, b], h => by
    have ha := h a (by simp)
    have hb := h b (by simp)
    simp only [encode32, enc32, padding32, decode32, ↓reduceIte, List.getD_cons_succ, List.getD_cons_zero, Nat.reduceEqDiff, Nat.one_ne_zero]
    iterate 4 (rw [dec32_char (by omega)]; simp only [step32, Option.toList, List.cons_append, List.nil_append, ↓reduceIte, Nat.reduceEqDiff])
    rw [dec32_end]
    simp [valid32, pad32, stop32]
    omega
  | [a, b, c], h => by
    have ha := h a (by simp)
    have hb := h b (by simp)
    have hc := h c (by simp)
    simp only [encode32, enc32, padding32, decode32, ↓reduceIte, List.getD_cons_succ, List.getD_cons_zero, Nat.reduceEqDiff, Nat.one_ne_zero]
    iterate 5 (rw [dec32_char (by omega)]; simp only [step32, Option.toList, List.cons_append, List.nil_append, ↓reduceIte, Nat.reduceEqDiff])
    rw [dec32_end]
    simp [valid32, pad32, stop32]
    omega
  | [a, b, c, d], h => by
    have ha := h a (by simp)
    have hb := h b (by simp)
    have hc := h c (by simp)
    have hd := h d (by simp)
    simp only [encode32, enc32, padding32, decode32, ↓reduceIte, List.getD_cons_succ, List.getD_cons_zero, Nat.reduceEqDiff, Nat.one_ne_zero]
    iterate 7 (rw [dec32_char (by omega)]; simp only [step32, Option.toList, List.cons_append, List.nil_append, ↓reduceIte, Nat.reduceEqDiff])
    rw [dec32_end]
    simp [valid32, pad32, stop32]
    omega

/-- Different bytes have different texts. -/
theorem base32_injective {a b : List Nat} (ha : Bytes a) (hb : Bytes b) (h : encode32 a = encode32 b) : a = b := by
  have k := base32_round_trip a ha
  rw [h, base32_round_trip b hb] at k
  exact (Prod.mk.inj k).1.symm

/-! ## Texts that are read -/

theorem stop_or (s : List Nat) : stop32 s = true ∨ ∃ c d cs, s = c :: cs ∧ digit32 c = some d := by
  cases s with
  | nil => exact Or.inl rfl
  | cons c cs =>
    cases h : digit32 c with
    | none => left; simp [stop32, h]
    | some d => exact Or.inr ⟨c, d, cs, rfl, h⟩

theorem dec32_stop {m l : Nat} {s : List Nat} (h : stop32 s = true) : dec32 m l s = ([], m, l, s) := by
  cases s with
  | nil => rfl
  | cons c cs =>
    simp only [stop32, Option.isNone_iff_eq_none] at h
    simp only [dec32, h]

theorem dec32_go {m l c d : Nat} {cs : List Nat} (h : digit32 c = some d) :
    dec32 m l (c :: cs) =
      ((step32 m l d).1.toList ++ (dec32 (step32 m l d).2.1 (step32 m l d).2.2 cs).1, (dec32 (step32 m l d).2.1 (step32 m l d).2.2 cs).2) := by
  simp only [dec32, h]

/-- Eight characters are five bytes. -/
theorem dec32_eight {c1 c2 c3 c4 c5 c6 c7 c8 d1 d2 d3 d4 d5 d6 d7 d8 : Nat} (h1 : digit32 c1 = some d1) (h2 : digit32 c2 = some d2)
    (h3 : digit32 c3 = some d3) (h4 : digit32 c4 = some d4) (h5 : digit32 c5 = some d5) (h6 : digit32 c6 = some d6) (h7 : digit32 c7 = some d7)
    (h8 : digit32 c8 = some d8) (l : Nat) (cs : List Nat) :
    ∃ a b c d e x, dec32 0 l (c1 :: c2 :: c3 :: c4 :: c5 :: c6 :: c7 :: c8 :: cs) = (a :: b :: c :: d :: e :: (dec32 0 x cs).1, (dec32 0 x cs).2) ∧
      Bytes [a, b, c, d, e] ∧
      ∀ rest, encode32 (a :: b :: c :: d :: e :: rest) = [c1, c2, c3, c4, c5, c6, c7, c8].map lower32 ++ encode32 rest := by
  refine ⟨d1 * 8 + d2 / 4, (d2 % 4 * 32 + d3) * 2 + d4 / 16, d4 % 16 * 16 + d5 / 2, (d5 % 2 * 32 + d6) * 4 + d7 / 8, d7 % 8 * 32 + d8, d7 % 8, ?_, ?_, ?_⟩
  · simp only [dec32_go h1, dec32_go h2, dec32_go h3, dec32_go h4, dec32_go h5, dec32_go h6, dec32_go h7, dec32_go h8, step32, ↓reduceIte,
      Nat.reduceEqDiff, Nat.one_ne_zero, Option.toList, List.cons_append, List.nil_append]
  · have := digit32_lt h1
    have := digit32_lt h2
    have := digit32_lt h3
    have := digit32_lt h4
    have := digit32_lt h5
    have := digit32_lt h6
    have := digit32_lt h7
    have := digit32_lt h8
    intro x hx
    simp only [List.mem_cons, List.not_mem_nil, or_false] at hx
    omega
  · intro rest
    have := digit32_lt h1
    have := digit32_lt h2
    have := digit32_lt h3
    have := digit32_lt h4
    have := digit32_lt h5
    have := digit32_lt h6
    have := digit32_lt h7
    have := digit32_lt h8
    rw [enc32_five]
    simp only [List.map, ← char32_digit h1, ← char32_digit h2, ← char32_digit h3, ← char32_digit h4, ← char32_digit h5, ← char32_digit h6,
      ← char32_digit h7, ← char32_digit h8, List.cons_append, List.nil_append]
    congr 1
    · congr 1; omega
    congr 1
    · congr 1; omega
    congr 1
    · congr 1; omega
    congr 1
    · congr 1; omega
    congr 1
    · congr 1; omega
    congr 1
    · congr 1; omega
    congr 1
    · congr 1; omega
    congr 1
    · congr 1; omega

theorem pad32_spec {l n : Nat} {s : List Nat} (h : pad32 l s n = true) : l = 0 ∧ ∃ t, s.map lower32 = List.replicate n 61 ++ t := by
  simp only [pad32, Bool.and_eq_true, beq_iff_eq] at h
  refine ⟨h.1.1, (s.drop n).map lower32, ?_⟩
  conv => lhs; rw [← List.take_append_drop n s, h.1.2]
  simp [lower32]

theorem base32_valid_len (n : Nat) : ∀ (s : List Nat), s.length ≤ n → (decode32 s).2 = true →
    Bytes (decode32 s).1 ∧ ∃ t, s.map lower32 = encode32 (decode32 s).1 ++ t := by
  induction n with
  | zero =>
    intro s h _
    rw [List.length_eq_zero_iff.mp (by omega : s.length = 0)]
    exact ⟨by intro x hx; simp [decode32, dec32] at hx, [], by simp [decode32, dec32, encode32, enc32]⟩
  | succ n ih =>
    intro s hn hv
    rcases stop_or s with h0 | ⟨c1, d1, s1, rfl, h1⟩
    · simp only [decode32, dec32_stop h0]
      exact ⟨by intro x hx; simp at hx, s.map lower32, by simp [encode32, enc32]⟩
    rcases stop_or s1 with h0 | ⟨c2, d2, s2, rfl, h2⟩
    · simp [decode32, dec32_go h1, step32, dec32_stop h0, valid32] at hv
    have l1 := digit32_lt h1
    have l2 := digit32_lt h2
    rcases stop_or s2 with h0 | ⟨c3, d3, s3, rfl, h3⟩
    · simp [decode32, dec32_go h1, dec32_go h2, step32, dec32_stop h0, valid32] at hv
      obtain ⟨hl, t, ht⟩ := pad32_spec hv
      refine ⟨?_, t, ?_⟩
      · simp [decode32, dec32_go h1, dec32_go h2, step32, dec32_stop h0, Bytes]; omega
      · simp [decode32, dec32_go h1, dec32_go h2, step32, dec32_stop h0, encode32, enc32, ht, ← char32_digit h1, ← char32_digit h2, padding32]
        exact ⟨by congr 1; omega, by congr 1; omega⟩
    rcases stop_or s3 with h0 | ⟨c4, d4, s4, rfl, h4⟩
    · simp [decode32, dec32_go h1, dec32_go h2, dec32_go h3, step32, dec32_stop h0, valid32] at hv
    have l3 := digit32_lt h3
    have l4 := digit32_lt h4
    rcases stop_or s4 with h0 | ⟨c5, d5, s5, rfl, h5⟩
    · simp [decode32, dec32_go h1, dec32_go h2, dec32_go h3, dec32_go h4, step32, dec32_stop h0, valid32] at hv
      obtain ⟨hl, t, ht⟩ := pad32_spec hv
      refine ⟨?_, t, ?_⟩
      · simp [decode32, dec32_go h1, dec32_go h2, dec32_go h3, dec32_go h4, step32, dec32_stop h0, Bytes]; omega
      · simp [decode32, dec32_go h1, dec32_go h2, dec32_go h3, dec32_go h4, step32, dec32_stop h0, encode32, enc32, ht, ← char32_digit h1,
          ← char32_digit h2, ← char32_digit h3, ← char32_digit h4, padding32]
        exact ⟨by congr 1; omega, by congr 1; omega, by congr 1; omega, by congr 1; omega⟩
    have l5 := digit32_lt h5
    rcases stop_or s5 with h0 | ⟨c6, d6, s6, rfl, h6⟩
    · simp [decode32, dec32_go h1, dec32_go h2, dec32_go h3, dec32_go h4, dec32_go h5, step32, dec32_stop h0, valid32] at hv
      obtain ⟨hl, t, ht⟩ := pad32_spec hv
      refine ⟨?_, t, ?_⟩
      · simp [decode32, dec32_go h1, dec32_go h2, dec32_go h3, dec32_go h4, dec32_go h5, step32, dec32_stop h0, Bytes]; omega
      · simp [decode32, dec32_go h1, dec32_go h2, dec32_go h3, dec32_go h4, dec32_go h5, step32, dec32_stop h0, encode32, enc32, ht,
          ← char32_digit h1, ← char32_digit h2, ← char32_digit h3, ← char32_digit h4, ← char32_digit h5, padding32]
        exact ⟨by congr 1; omega, by congr 1; omega, by congr 1; omega, by congr 1; omega, by congr 1; omega⟩
    rcases stop_or s6 with h0 | ⟨c7, d7, s7, rfl, h7⟩
    · simp [decode32, dec32_go h1, dec32_go h2, dec32_go h3, dec32_go h4, dec32_go h5, dec32_go h6, step32, dec32_stop h0, valid32] at hv
    have l6 := digit32_lt h6
    have l7 := digit32_lt h7
    rcases stop_or s7 with h0 | ⟨c8, d8, s8, rfl, h8⟩
    · simp [decode32, dec32_go h1, dec32_go h2, dec32_go h3, dec32_go h4, dec32_go h5, dec32_go h6, dec32_go h7, step32, dec32_stop h0,
        valid32] at hv
      obtain ⟨hl, t, ht⟩ := pad32_spec hv
      refine ⟨?_, t, ?_⟩
      · simp [decode32, dec32_go h1, dec32_go h2, dec32_go h3, dec32_go h4, dec32_go h5, dec32_go h6, dec32_go h7, step32, dec32_stop h0, Bytes]
        omega
      · simp [decode32, dec32_go h1, dec32_go h2, dec32_go h3, dec32_go h4, dec32_go h5, dec32_go h6, dec32_go h7, step32, dec32_stop h0, encode32,
          enc32, ht, ← char32_digit h1, ← char32_digit h2, ← char32_digit h3, ← char32_digit h4, ← char32_digit h5, ← char32_digit h6,
          ← char32_digit h7, padding32]
        exact ⟨by congr 1; omega, by congr 1; omega, by congr 1; omega, by congr 1; omega, by congr 1; omega, by congr 1; omega, by congr 1; omega⟩
    obtain ⟨a, b, c, d, e, x, hx, hb, he⟩ := dec32_eight h1 h2 h3 h4 h5 h6 h7 h8 0 s8
    have key : decode32 (c1 :: c2 :: c3 :: c4 :: c5 :: c6 :: c7 :: c8 :: s8) = (a :: b :: c :: d :: e :: (decode32 s8).1, (decode32 s8).2) := by
      rw [← decodeFrom_left x s8]
      simp only [decode32, hx, decodeFrom]
    rw [key] at hv ⊢
    simp only [List.length_cons] at hn
    obtain ⟨k1, t, k2⟩ := ih s8 (by omega) hv
    refine ⟨?_, t, ?_⟩
    · intro y hy
      have : y ∈ [a, b, c, d, e] ∨ y ∈ (decode32 s8).1 := by
        simp only [List.mem_cons, List.not_mem_nil, or_false] at hy ⊢
        tauto
      exact this.elim (hb y) (k1 y)
    · rw [he, List.append_assoc, ← k2]
      simp

/-- A text taken for valid begins with the text of the bytes it is read as. What comes after that is not looked at. -/
theorem base32_valid_partial {s bs : List Nat} (h : decode32 s = (bs, true)) : Bytes bs ∧ ∃ t, s.map lower32 = encode32 bs ++ t := by
  have k := base32_valid_len s.length s (Nat.le_refl _) (by rw [h])
  rwa [h] at k

/-- The number of bytes depends only on how many characters of the alphabet come first. -/
theorem dec32_count : ∀ (s : List Nat) (m l : Nat), m < 8 →
    (dec32 m l s).1.length = (5 * m % 8 + 5 * (s.takeWhile (fun c => (digit32 c).isSome)).length) / 8
  | [], m, l, h => by simp [dec32]
  | c :: cs, m, l, h => by
    cases hc : digit32 c with
    | none =>
      rw [dec32_stop (by simp [stop32, hc]), List.takeWhile_cons, if_neg (by simp [hc])]
      simp
    | some d =>
      rw [dec32_go hc, List.takeWhile_cons, if_pos (by simp [hc])]
      have k := dec32_count cs (step32 m l d).2.1 (step32 m l d).2.2
      simp only [List.length_append, List.length_cons]
      have cases8 : m = 0 ∨ m = 1 ∨ m = 2 ∨ m = 3 ∨ m = 4 ∨ m = 5 ∨ m = 6 ∨ m = 7 := by omega
      rcases cases8 with rfl | rfl | rfl | rfl | rfl | rfl | rfl | rfl <;> simp [step32] at k ⊢ <;> omega

/-! ## Names of Tor services -/

/-- The characters of the alphabet a text begins with -/
def run32 (s : List Nat) : List Nat := s.takeWhile (fun c => (digit32 c).isSome)

theorem run_cons {s : List Nat} {k : Nat} (h : k + 1 ≤ (run32 s).length) : ∃ c d cs, s = c :: cs ∧ digit32 c = some d ∧ k ≤ (run32 cs).length := by
  cases s with
  | nil => simp [run32] at h
  | cons c cs =>
    cases hc : digit32 c with
    | none => rw [run32, List.takeWhile_cons, if_neg (by simp [hc])] at h; simp at h
    | some d =>
      rw [run32, List.takeWhile_cons, if_pos (by simp [hc]), List.length_cons] at h
      exact ⟨c, d, cs, rfl, hc, by unfold run32; omega⟩

/-- Eight characters of the alphabet and more -/
theorem dec32_run {s : List Nat} {k l : Nat} (h : k + 8 ≤ (run32 s).length) :
    ∃ a b c d e x, dec32 0 l s = (a :: b :: c :: d :: e :: (dec32 0 x (s.drop 8)).1, (dec32 0 x (s.drop 8)).2) ∧ Bytes [a, b, c, d, e] ∧
      k ≤ (run32 (s.drop 8)).length ∧ ∀ rest, encode32 (a :: b :: c :: d :: e :: rest) = (s.take 8).map lower32 ++ encode32 rest := by
  obtain ⟨c1, d1, s1, rfl, h1, h⟩ := run_cons (k := k + 7) h
  obtain ⟨c2, d2, s2, rfl, h2, h⟩ := run_cons (k := k + 6) h
  obtain ⟨c3, d3, s3, rfl, h3, h⟩ := run_cons (k := k + 5) h
  obtain ⟨c4, d4, s4, rfl, h4, h⟩ := run_cons (k := k + 4) h
  obtain ⟨c5, d5, s5, rfl, h5, h⟩ := run_cons (k := k + 3) h
  obtain ⟨c6, d6, s6, rfl, h6, h⟩ := run_cons (k := k + 2) h
  obtain ⟨c7, d7, s7, rfl, h7, h⟩ := run_cons (k := k + 1) h
  obtain ⟨c8, d8, s8, rfl, h8, h⟩ := run_cons (k := k) h
  obtain ⟨a, b, c, d, e, x, k1, k2, k3⟩ := dec32_eight h1 h2 h3 h4 h5 h6 h7 h8 l s8
  exact ⟨a, b, c, d, e, x, k1, k2, h, k3⟩

theorem encode32_pos {bs : List Nat} (h : Bytes bs) (hb : bs ≠ []) : encode32 bs ≠ [] := by
  intro k
  have := base32_round_trip bs h
  rw [k] at this
  exact hb (Prod.mk.inj this).1.symm

/-- The name of a Tor address leads back to the address. -/
theorem onion_round_trip {ip : List Nat} (hl : ip.length = 16) (hb : Bytes ip) (ht : Ip.isTor ip = true) : setSpecial (torName ip) = some ip := by
  have hd : Bytes (ip.drop 6) := fun x hx => hb x (List.mem_of_mem_drop hx)
  have ne := encode32_pos hd (by intro k; have := congrArg List.length k; simp [hl] at this)
  have lp := List.length_pos_iff.mpr ne
  have l6 : onion.length = 6 := rfl
  have len : (torName ip).length - 6 = (encode32 (ip.drop 6)).length := by simp [torName, l6]
  unfold setSpecial
  rw [len, if_pos ⟨by simp only [torName, List.length_append, l6]; omega, by simp [torName]⟩]
  rw [show (torName ip).take (encode32 (ip.drop 6)).length = encode32 (ip.drop 6) by simp [torName], base32_round_trip _ hd]
  simp only [List.length_drop, hl]
  simp only [Ip.isTor, beq_iff_eq] at ht
  rw [if_neg (by omega), ← ht, List.take_append_drop]

/-- Exactly which names are accepted -/
theorem onion_accepted_iff (name : List Nat) : (setSpecial name).isSome = true ↔
    ∃ n, name = n ++ onion ∧ ((run32 n).length = 16 ∨ (run32 n).length = 17) := by
  have l6 : onion.length = 6 := rfl
  unfold setSpecial
  by_cases h : 6 < name.length ∧ name.drop (name.length - 6) = onion
  · rw [if_pos h]
    have c := dec32_count (name.take (name.length - 6)) 0 0 (by omega)
    have d : (decode32 (name.take (name.length - 6))).1 = (dec32 0 0 (name.take (name.length - 6))).1 := rfl
    have split := List.take_append_drop (name.length - 6) name
    rw [h.2] at split
    constructor
    · intro k
      have k' : (decode32 (name.take (name.length - 6))).1.length = 10 := by
        by_contra hh
        simp [hh] at k
      refine ⟨_, split.symm, ?_⟩
      rw [d, c] at k'
      unfold run32
      omega
    · rintro ⟨n, hn, k⟩
      have e : name.take (name.length - 6) = n := by
        rw [hn]; simp [l6]
      rw [e] at c d ⊢
      unfold run32 at k
      rw [if_neg (by rw [d, c]; omega)]
      rfl
  · rw [if_neg h]
    constructor
    · intro k; simp at k
    · rintro ⟨n, rfl, k⟩
      refine absurd ⟨?_, by simp [l6]⟩ h
      have : (run32 n).length ≤ n.length := List.Sublist.length_le (List.takeWhile_sublist _)
      simp only [List.length_append, l6]
      omega

/-- What an accepted name stands for: a Tor address whose own name has the same first sixteen characters, in small letters -/
theorem onion_address {name ip : List Nat} (h : setSpecial name = some ip) :
    ip.length = 16 ∧ Bytes ip ∧ Ip.isTor ip = true ∧ torName ip = (name.take 16).map lower32 ++ onion := by
  have acc := (onion_accepted_iff name).mp (by rw [h]; rfl)
  obtain ⟨n, rfl, hn⟩ := acc
  have l6 : onion.length = 6 := rfl
  have ln : (run32 n).length ≤ n.length := List.Sublist.length_le (List.takeWhile_sublist _)
  obtain ⟨a, b, c, d, e, x, k1, k2, k3, k4⟩ := dec32_run (s := n) (k := 8) (l := 0) (by omega)
  obtain ⟨a', b', c', d', e', y, j1, j2, j3, j4⟩ := dec32_run (s := n.drop 8) (k := 0) (l := x) (by omega)
  have dl : (decode32 n).1 = [a, b, c, d, e] ++ [a', b', c', d', e'] ++ (dec32 0 y ((n.drop 8).drop 8)).1 := by
    simp only [decode32, k1, j1]; rfl
  unfold setSpecial at h
  rw [if_pos ⟨by simp only [List.length_append, l6]; omega, by simp [l6]⟩, show (n ++ onion).take ((n ++ onion).length - 6) = n by simp [l6]] at h
  by_cases hh : (decode32 n).1.length = 10
  · simp only [hh, ne_eq, not_true_eq_false, ↓reduceIte, Option.some.injEq] at h
    rw [dl] at hh h
    have nil : (dec32 0 y ((n.drop 8).drop 8)).1 = [] := by
      apply List.length_eq_zero_iff.mp
      simp only [List.length_append, List.length_cons, List.length_nil] at hh
      omega
    rw [nil] at h
    subst h
    refine ⟨rfl, ?_, rfl, ?_⟩
    · intro z hz
      simp only [List.append_nil, List.mem_append] at hz
      rcases hz with hz | hz | hz
      · have : ∀ z ∈ Ip.pchOnionCat, z < 256 := by decide
        exact this z hz
      · exact k2 z hz
      · exact j2 z hz
    · show encode32 (a :: b :: c :: d :: e :: a' :: b' :: c' :: d' :: e' :: []) ++ onion = _
      rw [k4, j4, show encode32 [] = [] from rfl, List.append_nil, ← List.map_append, ← List.take_add, List.take_append_of_le_length (by omega)]
  · simp [hh] at h

/-- A name of the right length is the name of its address, up to capital letters. -/
theorem onion_exact_partial {name ip : List Nat} (h : setSpecial name = some ip) (hl : name.length = 22) : torName ip = name.map lower32 := by
  obtain ⟨n, rfl, -⟩ := (onion_accepted_iff name).mp (by rw [h]; rfl)
  have l6 : onion.length = 6 := rfl
  have ln : n.length = 16 := by simp only [List.length_append, l6] at hl; omega
  rw [(onion_address h).2.2.2, List.take_append_of_le_length (by omega), List.take_of_length_le (by omega), List.map_append]
  rfl

/-- "aaaaaaaaaaaaaaaa.b.onion" and "aaaaaaaaaaaaaaaab.onion" are taken for the service "aaaaaaaaaaaaaaaa.onion". -/
theorem onion_exact_violated : ∃ ip, setSpecial (List.replicate 16 97 ++ onion) = some ip ∧
    setSpecial (List.replicate 16 97 ++ [46, 98] ++ onion) = some ip ∧ setSpecial (List.replicate 16 97 ++ [98] ++ onion) = some ip :=
  ⟨Ip.pchOnionCat ++ List.replicate 10 0, by decide +kernel, by decide +kernel, by decide +kernel⟩

/-- Text after the end of a whole group is valid: "aaaaaaaa!" is read as five zero bytes. -/
theorem base32_exact_violated : decode32 (List.replicate 8 97 ++ [33]) = (List.replicate 5 0, true) ∧
    encode32 (List.replicate 5 0) ≠ List.replicate 8 97 ++ [33] := by decide +kernel

/-! The hypotheses can be met. -/

-- "foobar" is "mzxw6ytboi======" (RFC 4648)
example : Bytes [102, 111, 111, 98, 97, 114] ∧
    encode32 [102, 111, 111, 98, 97, 114] = [109, 122, 120, 119, 54, 121, 116, 98, 111, 105, 61, 61, 61, 61, 61, 61] :=
  ⟨by unfold Bytes; decide, by decide +kernel⟩
-- a capital letter and the padding in a valid text
example : decode32 [77, 121, 61, 61, 61, 61, 61, 61] = ([102], true) := by decide +kernel
example : Ip.isTor (Ip.pchOnionCat ++ [1, 2, 3, 4, 5, 250, 251, 252, 253, 254]) = true ∧
    setSpecial (torName (Ip.pchOnionCat ++ [1, 2, 3, 4, 5, 250, 251, 252, 253, 254])) =
      some (Ip.pchOnionCat ++ [1, 2, 3, 4, 5, 250, 251, 252, 253, 254]) := by decide +kernel

end Verif.Text
