import Verif.Abi.Names
import Verif.Abi.Streams
import Verif.Abi.Coins
import Verif.Abi.AbiLemmas
/-!
# Properties C113-C119: types and interfaces of the wasm contracts

The specifications (`letters`, `specVal`, `IsName`, `strip`; `Good`, `largest`, `Solid`; `Sub`,
`Ends`, `canon`) stand at the head of `Names.lean`, `Streams.lean` and `AbiLemmas.lean`.
-/
namespace Verif.Abi.Props
open Verif Verif.Abi

/-! ## C113: names -/

/-- A text is accepted exactly when it is a name, and stands for five bits per letter. -/
theorem name_value (s : List Char) : nameOf s = if IsName s then some (specVal 0 s) else none := nameOf_eq s

example : IsName "wasmio_bank".toList ∧ ¬ IsName "Bank".toList ∧ ¬ IsName "aaaaaaaaaaaaz".toList := by
  decide +kernel

/-- Every 64-bit number has a text that reads back as the number. -/
theorem name_text_round {v : Nat} (h : v < U64) : nameOf (nameText v) = some v := by
  rw [nameOf_eq, if_pos (isName_text h), spec_text h]

example : nameOf "bank".toList = some 4154289181272571904 ∧ nameText 4154289181272571904 = "bank".toList := by
  decide +kernel

/-- Reading a text and writing it gives the text without its trailing underscores. -/
theorem name_round_text {s : List Char} {v : Nat} (h : nameOf s = some v) : v < U64 ∧ nameText v = strip s := by
  rw [nameOf_eq] at h
  split at h
  · next hs => cases h; exact ⟨spec_bound hs, text_spec hs⟩
  · cases h

/-- Two texts name the same account exactly when they agree up to trailing underscores. -/
theorem name_collision {s t : List Char} {v w : Nat} (hs : nameOf s = some v) (ht : nameOf t = some w) :
    v = w ↔ strip s = strip t := by
  have h1 := name_round_text hs
  have h2 := name_round_text ht
  constructor
  · intro e; rw [← h1.2, ← h2.2, e]
  · intro e
    have e' : nameText v = nameText w := by rw [h1.2, h2.2, e]
    have := name_text_round h1.1
    rw [e', name_text_round h2.1] at this
    exact (Option.some.inj this).symm

example : (nameOf "bank".toList).isSome ∧ nameOf "bank__".toList = nameOf "bank".toList ∧
    nameOf "_bank".toList ≠ nameOf "bank".toList := by decide +kernel

/-- `length` is the length of the text. -/
theorem name_length {v : Nat} (h : v < U64) : nameLength v = (nameText v).length := length_text h

/-- The compile-time macro agrees with the run-time reader on every name. -/
theorem macro_agrees_partial {s : List Char} {v : Nat} (h : nameOf s = some v) : macroName s = v := by
  rw [nameOf_eq] at h
  split at h
  · next hs => cases h; exact macro_spec hs
  · cases h

/-- The macro takes texts that are no names, all upper case words for the empty name. -/
theorem macro_violated : nameOf "ABC".toList = none ∧ macroName "ABC".toList = macroName [] := by
  decide +kernel

/-! ## C114: variable length integers -/

/-- An unsigned number written to a stream is read back, at most five bytes are used, each below 256. -/
theorem varuint_round {v : Nat} (h : v < 2 ^ 32) (rest : List Nat) :
    getVar (putVar v ++ rest) = .ok v rest 0 ∧ (putVar v).length ≤ 5 ∧ ∀ b ∈ putVar v, b < 256 :=
  ⟨getVar_put h, putVar_len (k := 4) (by norm_num; omega), fun _ => putVar_byte⟩

example : putVar 300 = [172, 2] := by
  rw [putVar_ge (by omega), putVar_lt (by omega)]

/-- A signed number is read back; small magnitudes of either sign take one byte. -/
theorem varint_round {v : Int} (h1 : -2 ^ 31 ≤ v) (h2 : v < 2 ^ 31) (rest : List Nat) :
    getSVar (putSVar v ++ rest) = .ok v rest 0 ∧ (-64 ≤ v ∧ v < 64 → (putSVar v).length = 1) := by
  refine ⟨getSVar_put h1 h2, fun h => ?_⟩
  unfold putSVar
  rw [zig_eq h1 h2, putVar_lt (by split <;> omega)]
  rfl

/-- Numbers read are 32-bit numbers. -/
theorem varuint_range {bs rest : List Nat} {v a : Nat} (h : getVar bs = .ok v rest a) : v < 2 ^ 32 :=
  (getVar_range (by norm_num) h).1

/-- The same number has many accepted encodings, and bits beyond the 32nd are dropped. -/
theorem varuint_unique_violated : getVar [128, 0] = getVar [0] ∧ getVar [128, 128, 0] = getVar [0] ∧
    getVar [255, 255, 255, 255, 127] = getVar (putVar (2 ^ 32 - 1)) := by
  refine ⟨by decide +kernel, by decide +kernel, ?_⟩
  have := getVar_put (v := 2 ^ 32 - 1) (rest := []) (by norm_num)
  rw [List.append_nil] at this
  rw [this]; decide +kernel

/-- Five continued bytes lead to an undefined shift, whatever follows them. -/
theorem varuint_undefined_violated (b1 b2 b3 b4 b5 b6 : Nat) (rest : List Nat) (h1 : 128 ≤ b1)
    (h2 : 128 ≤ b2) (h3 : 128 ≤ b3) (h4 : 128 ≤ b4) (h5 : 128 ≤ b5) :
    getVar (b1 :: b2 :: b3 :: b4 :: b5 :: b6 :: rest) = .undef := by
  simp [getVar, getVarLoop, h1, h2, h3, h4, h5]

/-- That is the only way: a number whose first five bytes contain a last one is read without it. -/
theorem varuint_defined_partial (bs : List Nat) (h : ∃ b ∈ bs.take 5, b < 128) : getVar bs ≠ .undef := by
  obtain ⟨b, hb, hlt⟩ := h
  match bs with
  | [] => simp at hb
  | b1 :: bs =>
    by_cases h1 : 128 ≤ b1
    · match bs with
      | [] => simp [getVar, getVarLoop, h1]
      | b2 :: bs =>
        by_cases h2 : 128 ≤ b2
        · match bs with
          | [] => simp [getVar, getVarLoop, h1, h2]
          | b3 :: bs =>
            by_cases h3 : 128 ≤ b3
            · match bs with
              | [] => simp [getVar, getVarLoop, h1, h2, h3]
              | b4 :: bs =>
                by_cases h4 : 128 ≤ b4
                · match bs with
                  | [] => simp [getVar, getVarLoop, h1, h2, h3, h4]
                  | b5 :: bs =>
                    by_cases h5 : 128 ≤ b5
                    · simp at hb; omega
                    · simp [getVar, getVarLoop, h1, h2, h3, h4, h5]
                · simp [getVar, getVarLoop, h1, h2, h3, h4]
            · simp [getVar, getVarLoop, h1, h2, h3]
        · simp [getVar, getVarLoop, h1, h2]
    · simp [getVar, getVarLoop, h1]

/-! ## C115: packing -/

/-- Every value of every type is read back from its bytes, the rest of the stream untouched. -/
theorem unpack_round (t : Ty) (v : t.Val) (h : Good t v) (rest : List Nat) :
    unpack t (pack t v ++ rest) = .ok v rest (largest t v) := unpack_pack t v rest h

/-- A sample value: a number and two optional texts. -/
def sample : (Ty.pair (.fixed 2) (.vec (.opt .str))).Val := ((513 : Nat), [none, some ([104, 105] : List Nat)])

example : Good (.pair (.fixed 2) (.vec (.opt .str))) sample ∧
    largest (.pair (.fixed 2) (.vec (.opt .str))) sample = 2 := by
  refine ⟨⟨?_, ?_, ?_⟩, rfl⟩
  · show (513 : Nat) < 256 ^ 2; decide
  · show (2 : Nat) < 2 ^ 32; decide
  · intro x hx
    rcases List.mem_cons.mp hx with rfl | hx
    · intro y hy; cases hy
    · rcases List.mem_cons.mp hx with rfl | hx
      · intro y hy; cases hy; show (2 : Nat) < 2 ^ 32; decide
      · cases hx

/-- Different values have different bytes, and no value's bytes start another's. -/
theorem pack_prefix_free (t : Ty) (v w : t.Val) (hv : Good t v) (hw : Good t w) (x y : List Nat)
    (h : pack t v ++ x = pack t w ++ y) : v = w ∧ x = y := by
  have h1 := unpack_pack t v x hv
  rw [h, unpack_pack t w y hw] at h1
  injection h1 with e1 e2 _
  exact ⟨e1.symm, e2.symm⟩

/-- Bytes cut short are refused with an exception: the reader neither returns a value nor runs
into an undefined operation. -/
theorem truncated_refused (t : Ty) (v : t.Val) (h : Good t v) (bs x : List Nat) (hx : x ≠ [])
    (hb : bs ++ x = pack t v) : ∃ a, unpack t bs = .stop a := by
  have hr := unpack_pack t v [] h
  rw [List.append_nil, ← hb] at hr
  cases hu : unpack t bs with
  | stop a => exact ⟨a, rfl⟩
  | ok w r a =>
    rw [(mono_unpack t bs x).1 w r a hu] at hr
    injection hr with _ e _
    have := congrArg List.length e
    simp at this
    exact absurd this.2 hx
  | undef =>
    rw [(mono_unpack t bs x).2 hu] at hr
    cases hr

/-- Reading honest bytes never asks for more elements than there are bytes. -/
theorem memory_bounded_partial (t : Ty) (hs : Solid t) (v : t.Val) (h : Good t v) (rest : List Nat) :
    ∃ a ≤ (pack t v).length, unpack t (pack t v ++ rest) = .ok v rest a :=
  ⟨_, largest_le hs v, unpack_pack t v rest h⟩

example : Solid (.vec (.pair .str (.opt (.fixed 8)))) := ⟨trivial, Nat.succ_pos _⟩

/-- Five bytes make the reader ask for any number of characters below `2^32` before it notices that
they are not there; the same for vectors. -/
theorem memory_bounded_violated {n : Nat} (h0 : 0 < n) (h : n < 2 ^ 32) :
    (putVar n).length ≤ 5 ∧ unpack .str (putVar n) = .stop n ∧ unpack (.vec .bool) (putVar n) = .stop n := by
  refine ⟨putVar_len (k := 4) (by norm_num; omega), ?_, ?_⟩
  · have hg := getVar_put (rest := []) h
    rw [List.append_nil] at hg
    unfold unpack
    rw [hg]
    simp only [Res.bind, take, List.length_nil, if_pos h0, Res.asked]
    simp
  · have hg := getVar_put (rest := []) h
    rw [List.append_nil] at hg
    unfold unpack
    rw [hg]
    obtain ⟨m, rfl⟩ : ∃ m, n = m + 1 := ⟨n - 1, by omega⟩
    have : readN (unpack .bool) (m + 1) [] = .stop 0 := by
      rw [readN]
      have : unpack .bool [] = .stop 0 := by
        unfold unpack; simp [take, Res.bind]
      rw [this]; rfl
    simp only [Res.bind, this, Res.asked]
    simp

/-! ## C116: amounts -/

/-- The sum of two valid amounts: refused for different symbols, otherwise exact when the true sum
is in range, refused just outside, and wrong by `2^64` far outside. -/
theorem add_outcome (a b : Asset) (ha : inRange a.amount) (hb : inRange b.amount) :
    (a.sym ≠ b.sym → a.add b = none) ∧
    (a.sym = b.sym → |a.amount + b.amount| ≤ MAXA → a.add b = some ⟨a.amount + b.amount, a.sym⟩) ∧
    (a.sym = b.sym → MAXA < |a.amount + b.amount| → |a.amount + b.amount| < 2 ^ 64 - MAXA → a.add b = none) := by
  have hr : -2 * MAXA ≤ a.amount + b.amount ∧ a.amount + b.amount ≤ 2 * MAXA := by
    unfold inRange at ha hb; simp only [decide_eq_true_eq] at ha hb; omega
  refine ⟨fun h => by simp [Asset.add, h], fun h hin => ?_, fun h h1 h2 => ?_⟩
  · rw [abs_le] at hin
    have hi : i64 (a.amount + b.amount) = a.amount + b.amount := by
      apply i64_eq <;> unfold MAXA at hin <;> omega
    have := (wrap_range hr).mpr (.inl hin)
    unfold Asset.add
    rw [if_neg (by simp [h]), if_pos this, hi]
  · have : ¬ inRange (i64 (a.amount + b.amount)) = true := by
      rw [wrap_range hr]
      rw [lt_abs] at h1; rw [abs_lt] at h2
      omega
    unfold Asset.add
    rw [if_neg (by simp [h]), if_neg this]

/-- The same for differences. -/
theorem sub_outcome (a b : Asset) (ha : inRange a.amount) (hb : inRange b.amount) :
    (a.sym ≠ b.sym → a.sub b = none) ∧
    (a.sym = b.sym → |a.amount - b.amount| ≤ MAXA → a.sub b = some ⟨a.amount - b.amount, a.sym⟩) ∧
    (a.sym = b.sym → MAXA < |a.amount - b.amount| → |a.amount - b.amount| < 2 ^ 64 - MAXA → a.sub b = none) := by
  have hr : -2 * MAXA ≤ a.amount - b.amount ∧ a.amount - b.amount ≤ 2 * MAXA := by
    unfold inRange at ha hb; simp only [decide_eq_true_eq] at ha hb; omega
  refine ⟨fun h => by simp [Asset.sub, h], fun h hin => ?_, fun h h1 h2 => ?_⟩
  · rw [abs_le] at hin
    have hi : i64 (a.amount - b.amount) = a.amount - b.amount := by
      apply i64_eq <;> unfold MAXA at hin <;> omega
    have := (wrap_range hr).mpr (.inl hin)
    unfold Asset.sub
    rw [if_neg (by simp [h]), if_pos this, hi]
  · have : ¬ inRange (i64 (a.amount - b.amount)) = true := by
      rw [wrap_range hr]
      rw [lt_abs] at h1; rw [abs_lt] at h2
      omega
    unfold Asset.sub
    rw [if_neg (by simp [h]), if_neg this]

/-- WICC with eight decimals. -/
def wicc : Sym := ⟨codeVal "WICC".toList, 8⟩

/-- Two amounts of the maximum add up to a negative amount that passes the range check. -/
theorem add_violated : wicc.valid ∧ inRange MAXA ∧
    (⟨MAXA, wicc⟩ : Asset).add ⟨MAXA, wicc⟩ = some ⟨-446744073709551616, wicc⟩ := by decide +kernel

/-- Sums of amounts that are together below the maximum - which holds for all amounts of a token whose
supply is a valid amount - are exact. -/
theorem add_supply_partial (a b : Asset) (h : a.sym = b.sym) (ha : 0 ≤ a.amount) (hb : 0 ≤ b.amount)
    (hs : a.amount + b.amount ≤ MAXA) : a.add b = some ⟨a.amount + b.amount, a.sym⟩ := by
  have h1 : inRange a.amount = true := by unfold inRange; unfold MAXA at *; simp; omega
  have h2 : inRange b.amount = true := by unfold inRange; unfold MAXA at *; simp; omega
  exact (add_outcome a b h1 h2).2.1 h (by rw [abs_le]; unfold MAXA at *; omega)

example : (⟨250000000, wicc⟩ : Asset).add ⟨50000000, wicc⟩ = some ⟨300000000, wicc⟩ := by decide +kernel

/-- Products are exact or refused. -/
theorem mul_exact (a : Asset) (k : Int) :
    a.mul k = if |a.amount * k| ≤ MAXA then some ⟨a.amount * k, a.sym⟩ else none := by
  unfold Asset.mul inRange
  simp only [decide_eq_true_eq, abs_le]

/-- Quotients of amounts in range are rounded towards zero; division by zero is refused. -/
theorem div_exact (a : Asset) (k : Int) (ha : inRange a.amount) :
    a.div k = if k = 0 then none else some ⟨a.amount.tdiv k, a.sym⟩ := by
  unfold Asset.div
  unfold inRange MAXA at ha
  simp only [decide_eq_true_eq] at ha
  split
  · rfl
  · rw [if_neg (by omega)]

/-- A valid non-negative amount written as text is read back exactly. -/
theorem asset_text_partial (a : Asset) (hv : a.valid) (h0 : 0 ≤ a.amount) (hc : a.sym.code < 2 ^ 56) :
    assetOf a.text = some a := asset_round hv h0 hc

example : (⟨150000000, wicc⟩ : Asset).valid ∧ wicc.code < 2 ^ 56 := by decide +kernel

/-- No text is read as a negative amount, so negative amounts cannot be written and read back. -/
theorem asset_negative_violated : (∀ s a, assetOf s = some a → 0 ≤ a.amount) ∧
    ∃ a : Asset, a.valid ∧ assetOf a.text ≠ some a := by
  refine ⟨fun s a h => assetOf_nonneg h, ⟨-150000000, wicc⟩, by decide +kernel, ?_⟩
  intro h
  have := assetOf_nonneg h
  simp at this

/-- The text of a negative amount above minus one has no sign: it is read back as its opposite. -/
theorem asset_sign_violated (n : Nat) (h0 : 0 < n) (h1 : n < 10 ^ 8) :
    (⟨-(n : Int), wicc⟩ : Asset).text = (⟨(n : Int), wicc⟩ : Asset).text ∧
      assetOf (⟨-(n : Int), wicc⟩ : Asset).text = some ⟨n, wicc⟩ := by
  have e : (⟨-(n : Int), wicc⟩ : Asset).text = (⟨(n : Int), wicc⟩ : Asset).text := by
    unfold Asset.text
    have hp : wicc.prec = 8 := rfl
    dsimp only
    rw [hp, Int.neg_tdiv, Int.neg_tmod, Int.natAbs_neg]
    have : (n : Int).tdiv (10 ^ 8) = 0 := Int.tdiv_eq_zero_of_lt (by omega) (by omega)
    rw [this]; rfl
  refine ⟨e, ?_⟩
  rw [e]
  have hw : wicc.valid = true := by decide +kernel
  have hc : wicc.code < 2 ^ 56 := by decide +kernel
  refine asset_round ?_ (by simp) hc
  unfold Asset.valid inRange MAXA
  simp only [hw, Bool.and_true, decide_eq_true_eq]
  omega

/-- Letters after the digits are ignored but counted: `1.5x` is read as 1.05. -/
theorem asset_garbage_violated : assetOf "1.5x WICC".toList = some ⟨105, codeVal "WICC".toList, 2⟩ ∧
    assetOf "12abc.5 WICC".toList = some ⟨125, codeVal "WICC".toList, 1⟩ := by decide +kernel

/-- A symbol is read back from its text when precision and code take at most seven characters. -/
theorem symbol_text_partial (s : Sym) (hv : s.valid) (hc : s.code < 2 ^ 56)
    (hl : (dec s.prec).length + (codeText s.code).length ≤ 7) : symOf s.text = some s := by
  simp only [Sym.valid, Bool.and_eq_true, decide_eq_true_eq] at hv
  obtain ⟨t, hne, htl, ht, he⟩ := codeValid_val hv.1 hc
  have hct : codeText s.code = t := by rw [he]; exact codeText_val ht htl
  unfold Sym.text
  rw [hct] at hl ⊢
  rw [takeWhile_all fun c hcm => by simpa using (symChar_range (ht c hcm)).2.2.2.2]
  rw [List.take_of_length_le (by simp; omega), symOf_text hv.2 ht htl, ← he]

example : wicc.valid ∧ (dec wicc.prec).length + (codeText wicc.code).length ≤ 7 := by decide +kernel

/-- Seven-letter codes lose their last letter: two different tokens have the same text. -/
theorem symbol_text_violated : ∃ s t : Sym, s.valid ∧ t.valid ∧ s ≠ t ∧ s.text = t.text ∧ symOf s.text ≠ some s :=
  ⟨⟨codeVal "WICCABC".toList, 8⟩, ⟨codeVal "WICCABD".toList, 8⟩, by decide +kernel⟩

/-- The precision is reduced to a byte before it is checked. -/
theorem symbol_precision_violated : symOf "264,WICC".toList = some wicc ∧ symOf "-248,WICC".toList = some wicc := by
  decide +kernel

/-! ## C117: checking an interface -/

/-- The recursion check never looks at a field: it passes for every set of structs with different
names, except that it refuses a struct called `root`. -/
theorem recursion_check_void (s : Ser) (h : (s.structs.map (·.name)).Nodup) :
    s.dagLoop ⟨[], []⟩ s.structs = true ↔ "root".toList ∉ s.structs.map (·.name) :=
  dagLoop_all s s.structs ⟨[], []⟩ [] rfl rfl (by simpa using h)

/-- An interface whose struct contains itself. -/
def loopAbi : Abi :=
  { version := "wasm::abi/1.0".toList, types := []
    structs := [⟨"data".toList, [], [⟨"x".toList, "data".toList⟩]⟩]
    actions := [("act".toList, "data".toList)], tables := [] }

/-- It is accepted, and reading action data of that type recurses without end on any bytes, even
none. -/
theorem recursive_struct_violated : ∃ s, setAbi loopAbi = some s ∧
    ∀ (β : Type) (C : Codec β) (k : Nat) (bs : List Nat), binToVar C s k "data".toList bs = .deep := by
  refine ⟨⟨[], loopAbi.structs⟩, by decide +kernel, fun β C k bs => ?_⟩
  exact reader_loops C _ _ ⟨"data".toList, [], [⟨"x".toList, "data".toList⟩]⟩
    ⟨"x".toList, "data".toList⟩ [] (by decide +kernel) (by decide +kernel) (by decide +kernel)
    (by decide +kernel) (by decide +kernel) rfl rfl (by decide +kernel) k bs

/-- An interface with a harmless struct called `root`. -/
def rootAbi : Abi :=
  { version := "wasm::abi/1.0".toList, types := []
    structs := [⟨"root".toList, [], [⟨"x".toList, "uint8".toList⟩]⟩]
    actions := [], tables := [] }

/-- It is refused as circular; with any other name it is accepted. -/
theorem root_struct_violated : setAbi rootAbi = none ∧
    (setAbi { rootAbi with structs := [⟨"roots".toList, [], [⟨"x".toList, "uint8".toList⟩]⟩] }).isSome := by
  decide +kernel

/-- In an accepted interface the bases of every struct end, after fewer steps than there are
structs plus one, and every field, action and table has a known type. -/
theorem accepted_partial (a : Abi) (s : Ser) (h : setAbi a = some s) :
    (∀ st ∈ s.structs, ∃ n ≤ s.structs.length, Ends s n st) ∧
    (∀ st ∈ s.structs, ∀ f ∈ st.fields, s.known (removeExt f.type)) ∧
    (∀ x ∈ a.actions, s.known x.2) ∧ (∀ x ∈ a.tables, s.known x.2) := by
  unfold setAbi at h
  split at h
  · cases h
  split at h
  · cases h
  split at h
  · cases h
  next s' _ =>
    split at h
    · cases h
    split at h
    · next hv =>
      cases h
      simp only [Ser.validate, Bool.and_eq_true, List.all_eq_true] at hv
      obtain ⟨⟨⟨⟨_, hst⟩, _⟩, hac⟩, htb⟩ := hv
      refine ⟨fun st hm => ?_, fun st hm f hf => ?_, hac, htb⟩
      · have := hst st hm
        simp only [Ser.structOk, Bool.and_eq_true] at this
        obtain ⟨n, hn, he⟩ := baseLoop_ends _ _ _ _ this.1
        exact ⟨n, by omega, he⟩
      · have := hst st hm
        simp only [Ser.structOk, Bool.and_eq_true, List.all_eq_true] at this
        exact this.2 f hf
    · cases h

/-- What an acyclic interface would give: when no chain of parts of a type goes on for ever, reading
that type ends within a depth that does not depend on the data. -/
theorem reader_depth_partial (s : Ser) (t : Name) (h : Acc (fun u t => Sub s t u) t) :
    ∃ k0, ∀ k ≥ k0, ∀ (β : Type) (C : Codec β) (bs : List Nat), binToVar C s k t bs ≠ .deep :=
  reader_acc s t h

/-- An interface with a nested struct. -/
def payAbi : Abi :=
  { version := "wasm::abi/1.0".toList, types := [("account".toList, "regid".toList)]
    structs := [⟨"transfer".toList, "base".toList, [⟨"memos".toList, "memo[]".toList⟩]⟩,
      ⟨"base".toList, [], [⟨"to".toList, "account".toList⟩]⟩,
      ⟨"memo".toList, [], [⟨"n".toList, "uint8".toList⟩]⟩]
    actions := [("pay".toList, "transfer".toList)], tables := [] }

/-- Its tables. -/
def paySer : Ser := ⟨payAbi.types, payAbi.structs⟩

example : setAbi payAbi = some paySer := by decide +kernel

/-- The parts of a type as a list. -/
def parts (s : Ser) (t : Name) : List Name :=
  if isArray (s.resolve t) || isOpt (s.resolve t) then
    if isBuiltin (fundamental (s.resolve t)) then [] else [fundamental (s.resolve t)]
  else
    match s.findS (s.resolve t) with
    | none => []
    | some st => s.resolve st.base :: st.fields.map fun f => removeExt f.type

theorem sub_parts {s : Ser} {t u : Name} (h : Sub s t u) : u ∈ parts s t := by
  unfold parts
  cases h with
  | elem hb h => rw [if_pos (by simpa using h), if_neg (by simp [hb])]; simp
  | base ha ho hS _ => rw [if_neg (by simp [ha, ho]), hS]; simp
  | field ha ho hS hf =>
    rw [if_neg (by simp [ha, ho]), hS]
    exact List.mem_cons_of_mem _ (List.mem_map.mpr ⟨_, hf, rfl⟩)

/-- The hypothesis of `reader_depth_partial` holds for the action of this interface. -/
example : Acc (fun u t => Sub paySer t u) "transfer".toList := by
  have leaf : ∀ t, parts paySer t = [] → Acc (fun u t => Sub paySer t u) t := fun t h =>
    ⟨_, fun u hu => by have := sub_parts hu; rw [h] at this; cases this⟩
  have step : ∀ t, (∀ u ∈ parts paySer t, Acc (fun u t => Sub paySer t u) u) → Acc (fun u t => Sub paySer t u) t :=
    fun t h => ⟨_, fun u hu => h u (sub_parts hu)⟩
  have e : Acc (fun u t => Sub paySer t u) [] := leaf _ (by decide +kernel)
  have b : Acc (fun u t => Sub paySer t u) "uint8".toList := leaf _ (by decide +kernel)
  have r : Acc (fun u t => Sub paySer t u) "account".toList := leaf _ (by decide +kernel)
  have m : Acc (fun u t => Sub paySer t u) "memo".toList := step _ (by
    rw [show parts paySer "memo".toList = [[], "uint8".toList] by decide +kernel]
    simp only [List.forall_mem_cons]; exact ⟨e, b, by simp⟩)
  have m' : Acc (fun u t => Sub paySer t u) "memo[]".toList := step _ (by
    rw [show parts paySer "memo[]".toList = ["memo".toList] by decide +kernel]
    simp only [List.forall_mem_cons]; exact ⟨m, by simp⟩)
  have p : Acc (fun u t => Sub paySer t u) "base".toList := step _ (by
    rw [show parts paySer "base".toList = [[], "account".toList] by decide +kernel]
    simp only [List.forall_mem_cons]; exact ⟨e, r, by simp⟩)
  exact step _ (by
    rw [show parts paySer "transfer".toList = ["base".toList, "memo[]".toList] by decide +kernel]
    simp only [List.forall_mem_cons]; exact ⟨p, m', by simp⟩)

/-! ## C118: JSON and action data -/

/-- What was packed is read back in canonical form, the rest of the data untouched, for any
interface, any type, any depth and any built-in conversions that undo each other. -/
theorem json_round_partial (C : Codec β) (norm : Name → Bool → Bool → J β → J β) (hC : C.Lawful norm) (s : Ser)
    (k : Nat) (t : Name) (j j' : J β) (bytes rest : List Nat) (hp : varToBin C s k t j = .ok bytes)
    (hc : canon norm s k t j = some j') : binToVar C s k t (bytes ++ rest) = .ok j' rest :=
  json_round C norm hC s k t j bytes rest j' hp hc

/-- One byte for every built-in value. -/
def byteCodec : Codec Nat where
  put _ _ _ j := match j with
    | .prim v => some [v % 256]
    | _ => none
  get _ _ _ bs := match bs with
    | [] => none
    | b :: rest => some (.prim b, rest)

/-- The value read back. -/
def byteNorm (_ : Name) (_ _ : Bool) : J Nat → J Nat
  | .prim v => .prim (v % 256)
  | j => j

theorem byteCodec_lawful : byteCodec.Lawful byteNorm := by
  intro f a o j bytes rest h
  cases j with
  | prim v => cases h; rfl
  | _ => cases h

/-- A payment with one memo, fields out of order and one too many. -/
def payJson : J Nat := .obj [("x".toList, .null), ("memos".toList, .arr [.obj [("n".toList, .prim 7)]]), ("to".toList, .prim 5)]

example : varToBin byteCodec paySer 4 "transfer".toList payJson = .ok [5, 1, 7] ∧
    canon byteNorm paySer 4 "transfer".toList payJson =
      some (.obj [("to".toList, .prim 5), ("memos".toList, .arr [.obj [("n".toList, .prim 7)]])]) := by
  refine ⟨by decide +kernel, rfl⟩

/-- An object without an entry for a required field is refused. -/
theorem missing_field_refused (C : Codec β) (s : Ser) (k : Nat) (t : Name) (st : Struct) (o : List (Name × J β))
    (f : Field) (hb : isBuiltin (fundamental (s.resolve t)) = false) (ha : isArray (s.resolve t) = false)
    (hS : s.findS (s.resolve t) = some st) (hf : f ∈ st.fields) (ho : isOpt f.type = false)
    (hn : ∀ x ∈ o, x.1 ≠ f.name) (bytes : List Nat) : varToBin C s k t (.obj o) ≠ .ok bytes := by
  have hp : ∀ o : List (Name × J β), (∀ x ∈ o, x.1 ≠ f.name) → pick o f = none := by
    intro o
    induction o with
    | nil => intro _; simp [pick, ho]
    | cons x o ih =>
      intro h
      rw [pick, if_neg (h x (by simp)), ih fun y hy => h y (by simp [hy])]
  intro h
  cases k with
  | zero => cases h
  | succ k =>
    rw [varToBin.eq_def] at h
    dsimp only at h
    rw [if_neg (by simp [hb]), if_neg (by simp [ha]), hS] at h
    dsimp only at h
    obtain ⟨x, y, _, hy, _⟩ := Pk.append_ok h
    exact packFields_missing _ o f (hp o hn) st.fields hf _ hy

example : varToBin byteCodec paySer 4 "memo".toList (.obj [("m".toList, .prim 7)]) = .fail := by decide +kernel

/-- An optional struct can be read but not packed: no JSON value at all is accepted. -/
theorem optional_struct_violated (C : Codec β) (j : J β) (k : Nat) :
    varToBin C paySer (k + 1) "memo?".toList j = .fail ∧
      ∀ rest, binToVar C paySer (k + 1) "memo?".toList (0 :: rest) = .ok .null rest := by
  constructor
  · rw [varToBin.eq_def]
    rfl
  · intro rest
    rw [binToVar]
    rfl

/-- So an accepted interface may have an action with a field no sender can fill. -/
def optAbi : Abi :=
  { payAbi with structs := ⟨"pack".toList, [], [⟨"m".toList, "memo?".toList⟩]⟩ :: payAbi.structs }

theorem optional_field_violated (C : Codec β) (j : J β) (k : Nat) :
    (setAbi optAbi).isSome ∧ ∀ bytes, varToBin C ⟨optAbi.types, optAbi.structs⟩ (k + 2) "pack".toList j ≠ .ok bytes := by
  refine ⟨by decide +kernel, fun bytes => ?_⟩
  have hf : ∀ j : J β, varToBin C ⟨optAbi.types, optAbi.structs⟩ (k + 1) "memo?".toList j = .fail := by
    intro j; rw [varToBin.eq_def]; rfl
  rw [varToBin.eq_def]
  cases j with
  | obj o =>
    show (Pk.ok []).append (packFields _ o [⟨"m".toList, "memo?".toList⟩]) ≠ _
    rw [packFields]
    cases getField o ⟨"m".toList, "memo?".toList⟩ with
    | none => simp [Pk.append]
    | some v =>
      have : removeExt "memo?".toList = "memo?".toList := by decide
      simp only [this, hf]
      simp [Pk.append]
  | arr l =>
    show (if _ ∧ l.length = 1 then packArr _ [⟨"m".toList, "memo?".toList⟩] l else Pk.fail) ≠ _
    split
    · next h =>
      obtain ⟨v, rfl⟩ := List.length_eq_one_iff.mp h.2
      have : removeExt "memo?".toList = "memo?".toList := by decide
      simp only [packArr, this, hf]
      simp [Pk.append]
    · simp
  | null => show Pk.fail ≠ _; simp
  | prim v => show Pk.fail ≠ _; simp

/-- A struct array of 8192 elements or more can be packed but not read. -/
theorem long_array_violated (n : Nat) (h1 : 8192 ≤ n) (h2 : n < 2 ^ 32) :
    ∃ bytes, varToBin byteCodec paySer 3 "memo[]".toList (.arr (List.replicate n (.obj [("n".toList, .prim 7)]))) = .ok bytes ∧
      binToVar byteCodec paySer 3 "memo[]".toList bytes = .fail := by
  have one : varToBin byteCodec paySer 2 "memo".toList (.obj [("n".toList, .prim 7)]) = .ok [7] := rfl
  have all : ∀ n, packElems (varToBin byteCodec paySer 2 "memo".toList)
      (List.replicate n (.obj [("n".toList, .prim 7)])) = .ok (List.replicate n 7) := by
    intro n
    induction n with
    | zero => rfl
    | succ n ih => rw [List.replicate_succ, packElems, one, ih]; rfl
  refine ⟨putVar n ++ List.replicate n 7, ?_, ?_⟩
  · rw [varToBin.eq_def]
    show (Pk.ok (putVar (List.replicate n _).length)).append (packElems (varToBin byteCodec paySer 2 "memo".toList) _) = _
    rw [all, List.length_replicate]
    rfl
  · rw [binToVar]
    have e1 : isBuiltin (fundamental (paySer.resolve "memo[]".toList)) = false := by decide +kernel
    have e2 : isArray (paySer.resolve "memo[]".toList) = true := by decide +kernel
    rw [if_neg (by rw [e1]; simp), if_pos e2]
    rw [getVar_put h2]
    dsimp only
    rw [if_neg (by omega)]

/-! ## C119: account numbers as text -/

/-- An account number written as text is read back, for heights below `2^31`. -/
theorem regid_text_partial {v : Nat} (h : v < 2 ^ 51) : regidOf (regidText v) = some v := regid_round h

example : regidText 4294967301 = "4096-5".toList := by decide +kernel

/-- Texts of account numbers below that are different for different numbers. -/
theorem regid_text_injective {v w : Nat} (hv : v < 2 ^ 51) (hw : w < 2 ^ 51) (h : regidText v = regidText w) : v = w := by
  have := regid_round hv
  rw [h, regid_round hw] at this
  exact (Option.some.inj this).symm

/-- Other texts are read as account numbers too: no dash, a carry from the index into the height,
and a negative index that borrows from it. -/
theorem regid_text_violated : regidOf "123".toList = regidOf "123-123".toList ∧
    regidOf "1-1048576".toList = regidOf "2-0".toList ∧ regidOf "5--1".toList = regidOf "4-1048575".toList ∧
    (regidOf "123".toList).isSome ∧ (regidOf "2-0".toList).isSome ∧ (regidOf "5--1".toList).isSome := by
  decide +kernel

end Verif.Abi.Props
