import Verif.Text.Lemmas

/-! # Properties C130-C133: text forms -/
namespace Verif.Text

def Bytes (bs : List Nat) : Prop := ∀ x ∈ bs, x < 256

def Spaces (a : List Nat) : Prop := ∀ x ∈ a, space x = true

/-! ## C130: addresses and keys as text -/

def letterOrDigit (c : Nat) : Bool := (48 ≤ c && c ≤ 57) || (65 ≤ c && c ≤ 90) || (97 ≤ c && c ≤ 122)

/-- The alphabet is all letters and digits in the order of their codes, without the four that look like others: 0, I, O and l. -/
theorem alphabet_standard : alphabet = (List.range 128).filter fun c => letterOrDigit c && !(c == 48 || c == 73 || c == 79 || c == 108) := by
  decide +kernel

/-- The four bytes 0, 0, 1, 0 (two zeros and 256 = 4 * 58 + 24) are written 11 5 R. -/
theorem base58_anchor : encode58 [0, 0, 1, 0] = .ok [49, 49, 53, 82] := by decide +kernel

/-- Writing never fails, and what was written is read back. -/
theorem base58_round_trip {bs : List Nat} (h : Bytes bs) : ∃ t, encode58 bs = .ok t ∧ decode58 t = .ok bs ∧ ∀ c ∈ t, c ∈ alphabet := by
  obtain ⟨t, e, hs⟩ := encode_same h
  obtain ⟨bs', e', hs'⟩ := decode_same (a := []) (b := []) (by simp) (by simp) (same_alphabet hs)
  refine ⟨t, e, ?_, same_alphabet hs⟩
  rw [same_bytes_unique hs hs']
  simpa using e'

/-- A text is accepted exactly if it consists of characters of the alphabet between spaces; there is then exactly one such reading of it as
the text of a byte string. No text makes the decoder fail otherwise. -/
theorem base58_exact (s : List Nat) :
    (∀ bs, decode58 s = .ok bs ↔ Bytes bs ∧ ∃ a t b, s = a ++ t ++ b ∧ Spaces a ∧ Spaces b ∧ encode58 bs = .ok t) ∧
    (decode58 s = .bad ↔ ∀ a t b, s = a ++ t ++ b → Spaces a → Spaces b → ∃ c ∈ t, c ∉ alphabet) ∧ decode58 s ≠ .abort := by
  rcases decode_cases s with ⟨a, t, b, bs, e, ha, hb, hd, hs⟩ | ⟨hd, hn⟩
  · refine ⟨fun bs' => ⟨fun h => ?_, fun h => ?_⟩, ⟨fun h => ?_, fun h => ?_⟩, by rw [hd]; simp⟩
    · rw [hd] at h; injection h with h; subst h
      refine ⟨same_bytes hs, a, t, b, e, ha, hb, ?_⟩
      obtain ⟨t', e', hs'⟩ := encode_same (same_bytes hs)
      rw [same_text_unique hs hs']; exact e'
    · obtain ⟨hbs, a', t', b', e', ha', hb', he⟩ := h
      obtain ⟨t2, e2, hs2⟩ := encode_same hbs
      rw [e2] at he; injection he with he; subst he
      obtain ⟨bs3, e3, hs3⟩ := decode_same ha' hb' (same_alphabet hs2)
      rw [e', e3, same_bytes_unique hs2 hs3]
    · rw [hd] at h; cases h
    · obtain ⟨c, hc, hn⟩ := h a t b e ha hb
      exact absurd (same_alphabet hs c hc) hn
  · refine ⟨fun bs' => ⟨fun h => ?_, fun h => ?_⟩, ⟨fun _ a t b e ha hb => ?_, fun _ => hd⟩, by rw [hd]; simp⟩
    · rw [hd] at h; cases h
    · obtain ⟨hbs, a', t', b', e', ha', hb', he⟩ := h
      obtain ⟨t2, e2, hs2⟩ := encode_same hbs
      rw [e2] at he; injection he with he; subst he
      exact absurd (same_alphabet hs2) (hn a' _ b' e' ha' hb')
    · have := hn a t b e ha hb
      push Not at this
      exact this

/-- A checksum function: four bytes. -/
def Sum4 (ck : List Nat → List Nat) : Prop := ∀ d, (ck d).length = 4 ∧ Bytes (ck d)

theorem cstr_id {t : List Nat} (h : ∀ c ∈ t, c ≠ 0) : cstr t = t := by
  unfold cstr
  induction t with
  | nil => rfl
  | cons c t ih =>
    rw [List.takeWhile_cons, if_pos (by simpa using h c (by simp)), ih fun x hx => h x (by simp [hx])]

theorem bytes_append {a b : List Nat} (ha : Bytes a) (hb : Bytes b) : Bytes (a ++ b) := by
  intro x hx
  rcases List.mem_append.mp hx with h | h
  · exact ha x h
  · exact hb x h

/-- With checksum: what was written is read back. -/
theorem check_round_trip {ck : List Nat → List Nat} (hck : Sum4 ck) {d : List Nat} (hd : Bytes d) :
    ∃ t, encodeCheck ck d = .ok t ∧ decodeCheck ck t = .ok d := by
  obtain ⟨t, e, h1, h2⟩ := base58_round_trip (bytes_append hd (hck d).2)
  refine ⟨t, e, ?_⟩
  have hl := (hck d).1
  have e1 : (d ++ ck d).length - 4 = d.length := by simp [hl]
  unfold decodeCheck
  rw [cstr_id fun c hc => (alphabet_props c (h2 c hc)).2.2.2.1, h1]
  simp only [e1]
  rw [if_neg (by simp [hl])]
  simp

/-- With checksum: an accepted text is, up to spaces and the rest after a zero byte, the text of what was read. -/
theorem check_exact {ck : List Nat → List Nat} (hck : Sum4 ck) {s d : List Nat} (h : decodeCheck ck s = .ok d) :
    Bytes d ∧ ∃ a t b, cstr s = a ++ t ++ b ∧ Spaces a ∧ Spaces b ∧ encodeCheck ck d = .ok t := by
  unfold decodeCheck at h
  split at h
  · rename_i v hv
    split at h
    · cases h
    · rename_i hl
      split at h
      · rename_i hc
        injection h with h
        obtain ⟨hb, a, t, b, e, ha, hb', he⟩ := ((base58_exact (cstr s)).1 v).mp hv
        have : d ++ ck d = v := by rw [← h, hc, List.take_append_drop]
        refine ⟨fun x hx => hb x (by rw [← this]; simp [hx]), a, t, b, e, ha, hb', ?_⟩
        rw [encodeCheck, this]; exact he
      · cases h
  · cases h
  · cases h

/-- An address written for a key is read as this key. -/
theorem address_round_trip {ck : List Nat → List Nat} (hck : Sum4 ck) {ver : Nat} (hv : ver < 256) {id : List Nat} (hid : Bytes id)
    (hl : id.length = 20) : ∃ t, toAddress ck ver id = .ok t ∧ keyOfAddress ck ver t = .ok id := by
  obtain ⟨t, e1, e2⟩ := check_round_trip hck (d := ver :: id) (by
    intro x hx
    rcases List.mem_cons.mp hx with h | h
    · omega
    · exact hid x h)
  exact ⟨t, e1, by unfold keyOfAddress; rw [e2]; simp [hl]⟩

/-- A text read as a key is the address of this key and of no other, between spaces and up to the first zero byte. -/
theorem address_unique_partial {ck : List Nat → List Nat} (hck : Sum4 ck) {ver : Nat} {s id : List Nat}
    (h : keyOfAddress ck ver s = .ok id) :
    id.length = 20 ∧ ∃ a t b, cstr s = a ++ t ++ b ∧ Spaces a ∧ Spaces b ∧ toAddress ck ver id = .ok t := by
  unfold keyOfAddress at h
  split at h
  · cases h
  · rename_i v d hd
    split at h
    · rename_i hc
      injection h with h; subst h
      obtain ⟨_, a, t, b, e, ha, hb, he⟩ := check_exact hck hd
      exact ⟨hc.1, a, t, b, e, ha, hb, by rw [toAddress, ← hc.2]; exact he⟩
    · cases h
  · cases h
  · cases h

theorem decodeCheck_no_abort (ck : List Nat → List Nat) (s : List Nat) : decodeCheck ck s ≠ .abort := by
  unfold decodeCheck
  have := (base58_exact (cstr s)).2.2
  split
  · split
    · simp
    · split <;> simp
  · simp
  · rename_i h; exact absurd h this

/-- Reading an address never stops the node. -/
theorem address_no_abort (ck : List Nat → List Nat) (ver : Nat) (s : List Nat) : keyOfAddress ck ver s ≠ .abort := by
  unfold keyOfAddress
  have := decodeCheck_no_abort ck s
  split
  · simp
  · split <;> simp
  · simp
  · rename_i h; exact absurd h this

/-- Different keys have different addresses. -/
theorem addresses_differ {ck : List Nat → List Nat} (hck : Sum4 ck) {ver : Nat} (hv : ver < 256) {id id' t : List Nat} (hid : Bytes id)
    (hid' : Bytes id') (hl : id.length = 20) (hl' : id'.length = 20) (h : toAddress ck ver id = .ok t) (h' : toAddress ck ver id' = .ok t) :
    id = id' := by
  obtain ⟨t1, e1, e2⟩ := address_round_trip hck hv hid hl
  obtain ⟨t2, e3, e4⟩ := address_round_trip hck hv hid' hl'
  rw [h] at e1; injection e1 with e1
  rw [h'] at e3; injection e3 with e3
  subst e1; subst e3
  rw [e2] at e4
  injection e4

def ck0 : List Nat → List Nat := fun d => [d.sum % 256, 7, 7, 7]
def id0 : List Nat := [1, 2, 3, 4, 5, 6, 7, 8, 9, 10, 11, 12, 13, 14, 15, 16, 17, 18, 19, 20]

def addr0 : List Nat := match toAddress ck0 73 id0 with
  | .ok t => t
  | _ => []

example : Sum4 ck0 ∧ Bytes id0 ∧ toAddress ck0 73 id0 = .ok addr0 ∧ addr0.length = 34 ∧
    keyOfAddress ck0 73 ([32, 10] ++ addr0 ++ [32]) = .ok id0 ∧ keyOfAddress ck0 111 addr0 = .bad := by
  refine ⟨fun d => ⟨rfl, ?_⟩, ?_, ?_, ?_, ?_, ?_⟩
  · intro x hx
    have : d.sum % 256 < 256 := Nat.mod_lt _ (by decide)
    simp [ck0] at hx
    omega
  · unfold Bytes; decide +kernel
  · decide +kernel
  · decide +kernel
  · decide +kernel
  · decide +kernel

/-- A text with anything after a zero byte is read as the address before it. -/
theorem address_unique_violated : keyOfAddress ck0 73 (addr0 ++ [0] ++ [63, 63, 63]) = .ok id0 ∧
    ¬ ∃ a t b, addr0 ++ [0] ++ [63, 63, 63] = a ++ t ++ b ∧ Spaces a ∧ Spaces b ∧ toAddress ck0 73 id0 = .ok t := by
  refine ⟨by decide +kernel, ?_⟩
  rintro ⟨a, t, b, e, ha, hb, he⟩
  have ht : toAddress ck0 73 id0 = .ok addr0 := by decide +kernel
  rw [ht] at he; injection he with he; subst he
  have hla : a.length + b.length = 4 := by
    have := congrArg List.length e
    simp only [List.length_append] at this
    simp at this
    omega
  have h0 : (0 : Nat) ∈ a ++ addr0 ++ b := by rw [← e]; simp
  rcases List.mem_append.mp h0 with h | h
  · rcases List.mem_append.mp h with h | h
    · exact absurd (ha 0 h) (by decide)
    · exact absurd h (by decide +kernel)
  · exact absurd (hb 0 h) (by decide)

/-! ## C131: data and hashes in hexadecimal -/

/-- The sixteen digits are 0-9 and a-f; the upper case letters mean the same. -/
theorem hex_standard : (List.range 16).map hexChar = "0123456789abcdef".toList.map Char.toNat ∧
    (∀ c < 256, hexDigit c = if c ∈ "ABCDEF".toList.map Char.toNat then hexDigit (c + 32) else
      if c ∈ "0123456789abcdef".toList.map Char.toNat then some (("0123456789abcdef".toList.map Char.toNat).idxOf c) else none) := by
  decide +kernel

theorem hex_tables : ∀ d < 16, hexDigit (hexChar d) = some d ∧ space (hexChar d) = false ∧ hexChar d ≠ 0 ∧ hexChar d ≠ 120 ∧ hexChar d ≠ 88 := by
  decide +kernel

/-- Two hexadecimal digits of a byte -/
def nibbles (bs : List Nat) : List Nat := bs.flatMap fun b => [b / 16, b % 16]

theorem nibbles_cons (b : Nat) (bs) : nibbles (b :: bs) = b / 16 :: b % 16 :: nibbles bs := rfl

theorem nibbles_lt {bs : List Nat} (h : Bytes bs) : ∀ d ∈ nibbles bs, d < 16 := by
  intro d hd
  obtain ⟨b, hb, hd⟩ := List.mem_flatMap.mp hd
  have := h b hb
  simp at hd
  omega

theorem hexStr_nibbles (bs : List Nat) : hexStr bs = (nibbles bs).map hexChar := by
  induction bs with
  | nil => rfl
  | cons b bs ih =>
    rw [nibbles_cons, List.map_cons, List.map_cons, ← ih]; rfl

theorem hexStr_cons (b : Nat) (bs) : hexStr (b :: bs) = hexChar (b / 16) :: hexChar (b % 16) :: hexStr bs := rfl

theorem hexStr_mem {bs : List Nat} (h : Bytes bs) : ∀ c ∈ hexStr bs, ∃ d < 16, c = hexChar d := by
  intro c hc
  rw [hexStr_nibbles] at hc
  obtain ⟨d, hd, e⟩ := List.mem_map.mp hc
  exact ⟨d, nibbles_lt h d hd, e.symm⟩

/-- Data written in hexadecimal is read back. -/
theorem hex_round_trip : ∀ {bs : List Nat}, Bytes bs → parseHex (hexStr bs) = bs
  | [], _ => rfl
  | b :: bs, h => by
    have hb := h b (by simp)
    obtain ⟨h1, h2, _⟩ := hex_tables (b / 16) (by omega)
    obtain ⟨h3, _⟩ := hex_tables (b % 16) (by omega)
    rw [hexStr_cons, parseHex, h2]
    simp only [Bool.false_eq_true, if_false, h1, h3]
    rw [hex_round_trip fun x hx => h x (by simp [hx])]
    congr 1; omega

theorem trim_hex {bs : List Nat} (h : Bytes bs) : trim (hexStr bs) = hexStr bs := by
  have hns : ∀ c ∈ hexStr bs, space c = false := by
    intro c hc
    obtain ⟨d, hd, e⟩ := hexStr_mem h c hc
    rw [e]; exact (hex_tables d hd).2.1
  unfold trim
  rw [dropWhile_stop (l := hexStr bs) fun x hx => hns x (List.mem_of_mem_head? hx),
    dropWhile_stop fun x hx => hns x (by simpa using List.mem_of_mem_head? hx), List.reverse_reverse]

theorem skip0x_hex {bs : List Nat} (h : Bytes bs) : skip0x (hexStr bs) = hexStr bs := by
  cases bs with
  | nil => rfl
  | cons b bs =>
    have hb := h b (by simp)
    obtain ⟨_, _, _, h4, h5⟩ := hex_tables (b % 16) (by omega)
    rw [hexStr_cons]
    unfold skip0x
    split
    · rename_i e; injection e with _ e; injection e with e _; exact absurd e h4
    · rename_i e; injection e with _ e; injection e with e _; exact absurd e h5
    · rfl

theorem hexPairs_hex : ∀ {bs : List Nat}, Bytes bs → hexPairs (hexStr bs) = some bs
  | [], _ => rfl
  | b :: bs, h => by
    have hb := h b (by simp)
    have h1 := (hex_tables (b / 16) (by omega)).1
    have h3 := (hex_tables (b % 16) (by omega)).1
    rw [hexStr_cons, hexPairs, h1, h3, hexPairs_hex fun x hx => h x (by simp [hx])]
    simp only [Option.some.injEq, List.cons.injEq, and_true]; omega

theorem hexStr_length (bs : List Nat) : (hexStr bs).length = 2 * bs.length := by
  induction bs with
  | nil => rfl
  | cons b bs ih => rw [hexStr_cons]; simp [ih]; omega

/-- The strict reader of requests reads back what was written. -/
theorem rpc_hex_round_trip {bs : List Nat} (h : Bytes bs) : rpcParseHex (hexStr bs) = some bs := by
  unfold rpcParseHex
  simp only [trim_hex h, skip0x_hex h, hexStr_length, Nat.mul_mod_right, ne_eq, not_true_eq_false, if_false]
  exact hexPairs_hex h

/-- Lower case of a hexadecimal digit -/
def lowerHex (c : Nat) : Nat := if 65 ≤ c ∧ c ≤ 70 then c + 32 else c

theorem hexChar_digit {c d : Nat} (h : hexDigit c = some d) : d < 16 ∧ hexChar d = lowerHex c := by
  unfold hexDigit at h
  unfold hexChar lowerHex
  split at h
  · injection h with h; constructor
    · omega
    · rw [if_pos (by omega), if_neg (by omega)]; omega
  · split at h
    · injection h with h; constructor
      · omega
      · rw [if_neg (by omega), if_neg (by omega)]; omega
    · split at h
      · injection h with h; constructor
        · omega
        · rw [if_neg (by omega), if_pos (by omega)]; omega
      · cases h

theorem hexPairs_exact : ∀ (t : List Nat) {bs : List Nat}, hexPairs t = some bs → Bytes bs ∧ t.map lowerHex = hexStr bs
  | [], bs, h => by injection h with h; subst h; exact ⟨(by intro x hx; cases hx), rfl⟩
  | [_], bs, h => by cases h
  | c :: d :: s, bs, h => by
    rw [hexPairs] at h
    split at h
    · rename_i a b r h1 h2 h3
      injection h with h; subst h
      obtain ⟨i1, i2⟩ := hexPairs_exact s h3
      obtain ⟨ha, ea⟩ := hexChar_digit h1
      obtain ⟨hb, eb⟩ := hexChar_digit h2
      refine ⟨?_, ?_⟩
      · intro x hx
        rcases List.mem_cons.mp hx with hx | hx
        · omega
        · exact i1 x hx
      · rw [List.map_cons, List.map_cons, i2, hexStr_cons, ← ea, ← eb]
        have e1 : (16 * a + b) / 16 = a := by omega
        have e2 : (16 * a + b) % 16 = b := by omega
        rw [e1, e2]
    · cases h

/-- The strict reader accepts nothing but the text of the data, upper or lower case, between spaces, with or without `0x`. -/
theorem rpc_hex_exact {s bs : List Nat} (h : rpcParseHex s = some bs) :
    Bytes bs ∧ (skip0x (trim s)).map lowerHex = hexStr bs := by
  unfold rpcParseHex at h
  simp only at h
  split at h
  · cases h
  · exact hexPairs_exact _ h

theorem fillHex_pairs : ∀ {bs : List Nat}, Bytes bs → fillHex bs.length (bs.flatMap fun b => [b % 16, b / 16]) = bs
  | [], _ => rfl
  | b :: bs, h => by
    show fillHex (bs.length + 1) (b % 16 :: b / 16 :: (bs.flatMap fun b => [b % 16, b / 16])) = _
    rw [fillHex, fillHex_pairs fun x hx => h x (by simp [hx])]
    congr 1; omega

theorem filterMap_hex : ∀ {ds : List Nat}, (∀ d ∈ ds, d < 16) → (ds.map hexChar).filterMap hexDigit = ds
  | [], _ => rfl
  | d :: ds, h => by
    rw [List.map_cons, List.filterMap_cons, (hex_tables d (h d (by simp))).1]
    simp only
    rw [filterMap_hex fun x hx => h x (by simp [hx])]

theorem nibbles_reverse (bs : List Nat) : (nibbles bs.reverse).reverse = bs.flatMap fun b => [b % 16, b / 16] := by
  induction bs with
  | nil => rfl
  | cons b bs ih =>
    rw [List.reverse_cons, nibbles, List.flatMap_append, List.reverse_append]
    show [b % 16, b / 16] ++ _ = _
    rw [← nibbles, ih]; rfl

theorem getHex_bytes {bs : List Nat} (h : Bytes bs) : Bytes bs.reverse := fun x hx => h x (by simpa using hx)

theorem setHex_hex {w : Nat} {t : List Nat} (ht : ∀ c ∈ t, (hexDigit c).isSome = true) (hs : skip0x t = t) :
    setHex w t = fillHex w ((t.filterMap hexDigit).reverse) := by
  have hsp : ∀ c, (hexDigit c).isSome = true → space c = false := by
    intro c hc
    unfold hexDigit at hc
    unfold space
    by_cases h : 48 ≤ c
    · simp; omega
    · rw [if_neg (by omega), if_neg (by omega), if_neg (by omega)] at hc; cases hc
  unfold setHex
  rw [dropWhile_stop (fun x hx => hsp x (ht x (List.mem_of_mem_head? hx))), hs]
  have := takeWhile_append_of_all (b := []) ht
  simp only [List.append_nil, List.takeWhile_nil] at this
  simp only [this]

/-- A hash written is the same hash read. -/
theorem hash_round_trip {bs : List Nat} (h : Bytes bs) (hl : bs.length = 32) : parseHashV (getHex bs) = some bs := by
  have hr := getHex_bytes h
  have hh : ∀ c ∈ getHex bs, (hexDigit c).isSome = true := by
    intro c hc
    obtain ⟨d, hd, e⟩ := hexStr_mem hr c hc
    rw [e, (hex_tables d hd).1]; rfl
  have hlen : (getHex bs).length = 64 := by rw [getHex, hexStr_length]; simp [hl]
  have hx : isHex (getHex bs) = true := by
    unfold isHex
    rw [hlen, List.all_eq_true.mpr hh]; rfl
  have hc : cstr (getHex bs) = getHex bs := cstr_id (by
    intro c hc
    obtain ⟨d, hd, e⟩ := hexStr_mem hr c hc
    rw [e]; exact (hex_tables d hd).2.2.1)
  unfold parseHashV
  rw [if_pos hx, hc, setHex_hex hh (skip0x_hex hr), getHex, hexStr_nibbles, filterMap_hex (nibbles_lt hr), nibbles_reverse, ← hl, fillHex_pairs h]

theorem fillHex_nibbles : ∀ (w : Nat) (ds : List Nat), ds.length = 2 * w → (∀ d ∈ ds, d < 16) →
    Bytes (fillHex w ds) ∧ (nibbles (fillHex w ds).reverse).reverse = ds
  | 0, [], _, _ => ⟨(by intro x hx; cases hx), rfl⟩
  | 0, _ :: _, h, _ => by simp at h
  | w + 1, [], h, _ => by simp at h
  | w + 1, [_], h, _ => by simp at h; omega
  | w + 1, a :: b :: ds, h, hd => by
    obtain ⟨i1, i2⟩ := fillHex_nibbles w ds (by simp at h; omega) (fun x hx => hd x (by simp [hx]))
    have ha := hd a (by simp)
    have hb := hd b (by simp)
    rw [fillHex]
    refine ⟨?_, ?_⟩
    · intro x hx
      rcases List.mem_cons.mp hx with hx | hx
      · omega
      · exact i1 x hx
    · rw [nibbles_reverse, List.flatMap_cons, ← nibbles_reverse, i2]
      have e1 : (a + 16 * b) % 16 = a := by omega
      have e2 : (a + 16 * b) / 16 = b := by omega
      rw [e1, e2]; rfl

theorem filterMap_len : ∀ {t : List Nat}, (∀ c ∈ t, (hexDigit c).isSome = true) →
    (t.filterMap hexDigit).length = t.length ∧ (∀ d ∈ t.filterMap hexDigit, d < 16) ∧ (t.filterMap hexDigit).map hexChar = t.map lowerHex
  | [], _ => ⟨rfl, by simp, rfl⟩
  | c :: t, h => by
    obtain ⟨i1, i2, i3⟩ := filterMap_len fun x hx => h x (List.mem_cons_of_mem c hx)
    obtain ⟨d, hd⟩ := Option.isSome_iff_exists.mp (h c (by simp))
    obtain ⟨hd1, hd2⟩ := hexChar_digit hd
    rw [List.filterMap_cons, hd]
    refine ⟨by simp [i1], ?_, by simp [i3, hd2]⟩
    intro x hx
    rcases List.mem_cons.mp hx with hx | hx
    · rw [hx]; exact hd1
    · exact i2 x hx

/-- A text of 64 digits is accepted as the one hash it is the text of. -/
theorem hash_exact_partial {s d : List Nat} (h : parseHashV s = some d) (hl : s.length = 64) : Bytes d ∧ s.map lowerHex = getHex d := by
  unfold parseHashV at h
  split at h
  · rename_i hx
    injection h with h
    unfold isHex at hx
    simp only [Bool.and_eq_true] at hx
    have hh : ∀ c ∈ s, (hexDigit c).isSome = true := List.all_eq_true.mp hx.1.1
    obtain ⟨f1, f2, f3⟩ := filterMap_len hh
    have hc : cstr s = s := cstr_id (by
      intro c hc h0
      have := hh c hc
      rw [h0] at this; cases this)
    have hsk : skip0x s = s := by
      unfold skip0x
      split
      · have := hh 120 (by simp); cases this
      · have := hh 88 (by simp); cases this
      · rfl
    rw [hc, setHex_hex hh hsk] at h
    obtain ⟨g1, g2⟩ := fillHex_nibbles 32 ((s.filterMap hexDigit).reverse) (by rw [List.length_reverse, f1, hl]) (by simpa using f2)
    rw [h] at g1 g2
    refine ⟨g1, ?_⟩
    rw [getHex, hexStr_nibbles, ← f3]
    have := congrArg List.reverse g2
    rw [List.reverse_reverse, List.reverse_reverse] at this
    rw [this]
  · cases h

/-- Short, long and broken texts are taken for hashes and data: "0a" and "000a" are the same hash, so are 64 digits after any others, and
data end silently at the first character that is not a digit. -/
theorem hex_exact_violated :
    parseHashV [48, 97] = parseHashV [48, 48, 48, 97] ∧ (parseHashV [48, 97]).isSome = true ∧
    (∀ bs, Bytes bs → bs.length = 32 → ∀ x y, (hexDigit x).isSome = true → (hexDigit y).isSome = true →
      parseHashV (x :: y :: getHex bs) = some bs) ∧
    parseHex [49, 50, 122, 122, 51, 52] = [18] := by
  refine ⟨by decide +kernel, by decide +kernel, ?_, by decide +kernel⟩
  intro bs h hl x y hx hy
  have hr := getHex_bytes h
  have hh : ∀ c ∈ x :: y :: getHex bs, (hexDigit c).isSome = true := by
    intro c hc
    rcases List.mem_cons.mp hc with hc | hc
    · rw [hc]; exact hx
    · rcases List.mem_cons.mp hc with hc | hc
      · rw [hc]; exact hy
      · obtain ⟨d, hd, e⟩ := hexStr_mem hr c hc
        rw [e, (hex_tables d hd).1]; rfl
  have hlen : (x :: y :: getHex bs).length = 66 := by simp [getHex, hexStr_length, hl]
  have hi : isHex (x :: y :: getHex bs) = true := by
    unfold isHex
    rw [hlen, List.all_eq_true.mpr hh]; rfl
  have hc : cstr (x :: y :: getHex bs) = x :: y :: getHex bs := cstr_id (by
    intro c hc h0
    have := hh c hc
    rw [h0] at this; cases this)
  have hsk : skip0x (x :: y :: getHex bs) = x :: y :: getHex bs := by
    unfold skip0x
    split
    · rename_i e; injection e with _ e; injection e with e _; rw [e] at hy; cases hy
    · rename_i e; injection e with _ e; injection e with e _; rw [e] at hy; cases hy
    · rfl
  obtain ⟨dx, hdx⟩ := Option.isSome_iff_exists.mp hx
  obtain ⟨dy, hdy⟩ := Option.isSome_iff_exists.mp hy
  unfold parseHashV
  rw [if_pos hi, hc, setHex_hex hh hsk, List.filterMap_cons, hdx, List.filterMap_cons, hdy, getHex, hexStr_nibbles, filterMap_hex (nibbles_lt hr)]
  simp only [List.reverse_cons, nibbles_reverse, List.append_assoc]
  have more : ∀ (bs t : List Nat), Bytes bs → fillHex bs.length ((bs.flatMap fun b => [b % 16, b / 16]) ++ t) = bs := by
    intro bs t
    induction bs with
    | nil => intro _; cases t <;> rfl
    | cons b bs ih =>
      intro h
      show fillHex (bs.length + 1) (b % 16 :: b / 16 :: ((bs.flatMap fun b => [b % 16, b / 16]) ++ t)) = _
      rw [fillHex, ih fun x hx => h x (by simp [hx])]
      congr 1; omega
  rw [← hl, more bs _ h]

example : Bytes id0 ∧ rpcParseHex ([32, 48, 88] ++ hexStr id0 ++ [32]) = some id0 ∧
    parseHashV (getHex (List.replicate 12 0 ++ id0)) = some (List.replicate 12 0 ++ id0) := by
  refine ⟨by unfold Bytes; decide +kernel, by decide +kernel, by decide +kernel⟩

/-! ## C132: the amount typed is the amount used -/

/-- Digits only, at least one -/
def Digits (s : List Nat) : Prop := s ≠ [] ∧ ∀ c ∈ s, 48 ≤ c ∧ c ≤ 57

/-- The text of an amount: whole part, decimals. -/
def AmountText (s ip dp : List Nat) : Prop := Digits ip ∧ ((s = ip ∧ dp = []) ∨ (s = ip ++ 46 :: dp ∧ Digits dp))

/-- The number a row of digits stands for -/
def decimal : List Nat → Nat
  | [] => 0
  | c :: s => (c - 48) * 10 ^ s.length + decimal s

/-- `v` is the number `ip.dp` times ten to the power `p`. -/
def Worth (ip dp : List Nat) (p v : Nat) : Prop := v * 10 ^ dp.length = (decimal ip * 10 ^ dp.length + decimal dp) * 10 ^ p

/-- The units and their places: one wi is 10^8 sawi. -/
def unitNames : List (String × Nat) :=
  [("sawi", 0), ("quwi", 1), ("muwi", 2), ("huwi", 3), ("siwi", 4), ("miwi", 5), ("lewi", 6), ("fewi", 7), ("wi", 8), ("kwi", 11), ("mwi", 14)]

/-- `u` names the unit of 10^p, in upper or lower case. -/
def Unit (u : List Nat) (p : Nat) : Prop := ∃ x ∈ unitNames, x.2 = p ∧ (u.map fun c => if 65 ≤ c ∧ c ≤ 90 then c + 32 else c) = x.1.toList.map Char.toNat

theorem units_named : units = unitNames.map fun x => (x.1.toList.map Char.toNat, x.2) := by decide +kernel

theorem unit_iff (u : List Nat) (p : Nat) : Unit u p ↔ (u.map lower, p) ∈ units := by
  rw [units_named, List.mem_map]
  have hl : (u.map fun c => if 65 ≤ c ∧ c ≤ 90 then c + 32 else c) = u.map lower := rfl
  unfold Unit
  rw [hl]
  constructor
  · rintro ⟨x, hx, h1, h2⟩; exact ⟨x, hx, by rw [h2, h1]⟩
  · rintro ⟨x, hx, h⟩
    injection h with h1 h2
    exact ⟨x, hx, h2, h1.symm⟩

theorem isDigit_iff (c : Nat) : isDigit c = true ↔ 48 ≤ c ∧ c ≤ 57 := by simp [isDigit]

theorem le63 {v : Nat} (h : v < 2 ^ 63) : v ≤ I64MAX := by unfold I64MAX; omega

theorem isNumber_iff (s : List Nat) : isNumber s = true ↔ Digits s := by
  unfold isNumber Digits
  simp only [Bool.and_eq_true, List.all_eq_true, isDigit_iff]
  simp

theorem numVal_from (s : List Nat) (v : Nat) : s.foldl (fun n c => 10 * n + (c - 48)) v = v * 10 ^ s.length + numVal s := by
  induction s generalizing v with
  | nil => simp [numVal]
  | cons c s ih =>
    rw [numVal, List.foldl_cons, List.foldl_cons, ih, ih (10 * 0 + (c - 48)), List.length_cons, Nat.pow_succ]
    ring

theorem numVal_decimal (s : List Nat) : numVal s = decimal s := by
  induction s with
  | nil => rfl
  | cons c s ih => rw [numVal, List.foldl_cons, numVal_from, ih, decimal]; simp

theorem numVal_append (a b : List Nat) : numVal (a ++ b) = numVal a * 10 ^ b.length + numVal b := by
  rw [numVal, List.foldl_append, numVal_from]; rfl

theorem numVal_zeros (k : Nat) : numVal (List.replicate k 48) = 0 := by
  induction k with
  | zero => rfl
  | succ k ih =>
    rw [List.replicate_succ', numVal_append, ih]
    simp [numVal]

theorem isDecimal_spec {s : List Nat} (h : isDecimal s = true) : ∃ ip dp, s = ip ++ 46 :: dp ∧ Digits ip ∧ Digits dp := by
  unfold isDecimal at h
  simp only at h
  have hs := List.takeWhile_append_dropWhile (p := isDigit) (l := s)
  split at h
  · rename_i b hb
    rw [hb] at hs
    simp only [Bool.and_eq_true, Bool.or_eq_true] at h
    refine ⟨_, b, hs.symm, ⟨?_, fun c hc => (isDigit_iff c).mp (mem_takeWhile_imp' hc)⟩, (isNumber_iff b).mp h.1⟩
    rcases h.2 with h | h
    · have : s.takeWhile isDigit = [48] := by simpa using h
      rw [this]; simp
    · intro h0; rw [h0] at h; simp at h
  · cases h

theorem digits_no_dot {s : List Nat} (h : ∀ c ∈ s, 48 ≤ c ∧ c ≤ 57) : ∀ c ∈ s, (decide (c ≠ 46)) = true := by
  intro c hc; have := h c hc; simp; omega

theorem pow10_whole {s : List Nat} (h : Digits s) (p : Nat) : pow10 s p = some (atoll (s ++ List.replicate p 48)) := by
  have e1 := takeWhile_append_of_all (b := []) (digits_no_dot h.2)
  have e2 := dropWhile_append_of_all (b := []) (digits_no_dot h.2)
  simp only [List.append_nil, List.takeWhile_nil, List.dropWhile_nil] at e1 e2
  unfold pow10
  simp only [e1, e2, List.drop_nil, List.length_nil, Nat.not_lt_zero, if_false, List.append_nil, Nat.sub_zero, gt_iff_lt]

theorem pow10_decimal {ip dp : List Nat} (h : Digits ip) (p : Nat) :
    pow10 (ip ++ 46 :: dp) p = if dp.length > p then none else some (atoll (ip ++ dp ++ List.replicate (p - dp.length) 48)) := by
  have e1 : (ip ++ 46 :: dp).takeWhile (· ≠ 46) = ip := by
    rw [takeWhile_append_of_all (digits_no_dot h.2)]; simp
  have e2 : (ip ++ 46 :: dp).dropWhile (· ≠ 46) = 46 :: dp := by
    rw [dropWhile_append_of_all (digits_no_dot h.2)]; simp
  unfold pow10
  simp only [e1, e2, List.drop_succ_cons, List.drop_zero]

theorem worth_digits (ip dp : List Nat) (p : Nat) (h : dp.length ≤ p) : Worth ip dp p (numVal (ip ++ dp ++ List.replicate (p - dp.length) 48)) := by
  unfold Worth
  rw [← numVal_decimal, ← numVal_decimal, numVal_append, numVal_append, numVal_zeros, List.length_replicate, Nat.add_zero]
  obtain ⟨k, rfl⟩ := Nat.exists_eq_add_of_le h
  rw [Nat.add_sub_cancel_left, Nat.pow_add]
  ring

/-- `pow10` of an amount: the exact value, or the largest number if it is larger. -/
theorem pow10_exact {s : List Nat} (h : isNumber s = true ∨ isDecimal s = true) {p n : Nat} (he : pow10 s p = some n) :
    ∃ ip dp v, AmountText s ip dp ∧ Worth ip dp p v ∧ n = min v I64MAX := by
  rcases h with h | h
  · have hd := (isNumber_iff s).mp h
    rw [pow10_whole hd] at he
    injection he with he
    refine ⟨s, [], _, ⟨hd, Or.inl ⟨rfl, rfl⟩⟩, worth_digits s [] p (by simp), ?_⟩
    rw [← he, atoll]; simp
  · obtain ⟨ip, dp, e, h1, h2⟩ := isDecimal_spec h
    rw [e, pow10_decimal h1] at he
    split at he
    · cases he
    · injection he with he
      exact ⟨ip, dp, _, ⟨h1, Or.inr ⟨e, h2⟩⟩, worth_digits ip dp p (by omega), he.symm⟩

theorem split_colon : ∀ (a b : List Nat), (∀ c ∈ a, c ≠ 58) → splitAt 58 (a ++ 58 :: b) = a :: splitAt 58 b
  | [], b, _ => by rw [List.nil_append, splitAt.eq_def]; simp
  | [c], b, h => by
    have hc := h c (by simp)
    rw [List.cons_append, List.nil_append, splitAt.eq_def]; simp [hc]
  | c :: c' :: a, b, h => by
    have hc := h c (by simp)
    have hc' := h c' (by simp)
    have ih := split_colon (c' :: a) b fun x hx => h x (List.mem_cons_of_mem _ hx)
    rw [List.cons_append] at ih
    rw [List.cons_append, List.cons_append, splitAt.eq_def]
    simp only [hc, hc', if_false, ih]

theorem split_last : ∀ (a : List Nat), a ≠ [] → (∀ c ∈ a, c ≠ 58) → splitAt 58 a = [a]
  | [], h, _ => absurd rfl h
  | [c], _, h => by have hc := h c (by simp); rw [splitAt.eq_def]; simp [hc]
  | c :: c' :: a, _, h => by
    have hc := h c (by simp)
    have hc' := h c' (by simp)
    have ih := split_last (c' :: a) (by simp) fun x hx => h x (List.mem_cons_of_mem _ hx)
    rw [splitAt.eq_def]
    simp only [hc, hc', if_false, ih]

theorem prefix_colon (s : List Nat) : (∀ c ∈ s, c ≠ 58) ∨ ∃ a b, s = a ++ 58 :: b ∧ ∀ c ∈ a, c ≠ 58 := by
  induction s with
  | nil => left; simp
  | cons c s ih =>
    by_cases h : c = 58
    · right; exact ⟨[], s, by rw [h]; rfl, by simp⟩
    · rcases ih with ih | ⟨a, b, e, ha⟩
      · left; intro x hx; rcases List.mem_cons.mp hx with hx | hx
        · rw [hx]; exact h
        · exact ih x hx
      · right; refine ⟨c :: a, b, by rw [e]; rfl, ?_⟩
        intro x hx; rcases List.mem_cons.mp hx with hx | hx
        · rw [hx]; exact h
        · exact ha x hx

/-- One colon more at the end makes no difference. -/
def OrColon (s t : List Nat) : Prop := s = t ∨ s = t ++ [58]

theorem split_nil {s : List Nat} (h : splitAt 58 s = []) : s = [] := by
  rcases prefix_colon s with hn | ⟨a, b, e, ha⟩
  · cases s with
    | nil => rfl
    | cons c s => rw [split_last _ (by simp) hn] at h; cases h
  · rw [e, split_colon a b ha] at h; cases h

theorem split_one {s a : List Nat} (h : splitAt 58 s = [a]) : OrColon s a ∧ ∀ c ∈ a, c ≠ 58 := by
  rcases prefix_colon s with hn | ⟨x, b, e, ha⟩
  · cases s with
    | nil => rw [splitAt.eq_def] at h; cases h
    | cons c s =>
      rw [split_last _ (by simp) hn] at h
      injection h with h _
      rw [← h]; exact ⟨Or.inl rfl, hn⟩
  · rw [e, split_colon x b ha] at h
    injection h with h1 h2
    rw [split_nil h2] at e
    rw [← h1]; exact ⟨Or.inr e, ha⟩

theorem split_two {s a b : List Nat} (h : splitAt 58 s = [a, b]) : OrColon s (a ++ 58 :: b) := by
  rcases prefix_colon s with hn | ⟨x, y, e, ha⟩
  · cases s with
    | nil => rw [splitAt.eq_def] at h; cases h
    | cons c s => rw [split_last _ (by simp) hn] at h; injection h with _ h; cases h
  · rw [e, split_colon x y ha] at h
    injection h with h1 h2
    rcases (split_one h2).1 with h3 | h3
    · left; rw [e, h1, h3]
    · right; rw [e, h1, h3]; simp

theorem split_three {s a b c : List Nat} (h : splitAt 58 s = [a, b, c]) : OrColon s (a ++ 58 :: (b ++ 58 :: c)) := by
  rcases prefix_colon s with hn | ⟨x, y, e, ha⟩
  · cases s with
    | nil => rw [splitAt.eq_def] at h; cases h
    | cons c s => rw [split_last _ (by simp) hn] at h; injection h with _ h; cases h
  · rw [e, split_colon x y ha] at h
    injection h with h1 h2
    rcases split_two h2 with h3 | h3
    · left; rw [e, h1, h3]
    · right; rw [e, h1, h3]; simp

/-- The text says: this much of this token, counted in the smallest unit. Four forms: amount; amount and unit; token and amount; token,
amount and unit. Upper and lower case of units do not matter. -/
inductive Says (dflt : List Nat) : List Nat → List Nat → Nat → Prop
  | plain {s a v} : OrColon s a → AmountText a a [] → Worth a [] 0 v → Says dflt s dflt v
  | unit {s a u ip dp p v} : OrColon s (a ++ 58 :: u) → AmountText a ip dp → Unit u p → Worth ip dp p v →
      Says dflt s dflt v
  | token {s t a v} : OrColon s (t ++ 58 :: a) → AmountText a a [] → Worth a [] 0 v → Says dflt s t v
  | full {s t a u ip dp p v} : OrColon s (t ++ 58 :: (a ++ 58 :: u)) → AmountText a ip dp → Unit u p → Worth ip dp p v →
      Says dflt s t v

theorem lookup_mem {l : List (List Nat × Nat)} {k : List Nat} {p : Nat} (h : l.lookup k = some p) : (k, p) ∈ l := by
  induction l with
  | nil => cases h
  | cons x l ih =>
    obtain ⟨a, b⟩ := x
    rw [List.lookup_cons] at h
    split at h
    · rename_i e
      injection h with h
      have : k = a := by simpa using e
      rw [this, h]; simp
    · exact List.mem_cons_of_mem _ (ih h)

theorem amountAndUnit_exact {a u sym : List Nat} (h : isNumber a = true ∨ isDecimal a = true) {m : Money}
    (he : amountAndUnit a u sym = some m) :
    ∃ ip dp p v, AmountText a ip dp ∧ Unit u p ∧ Worth ip dp p v ∧ m = ⟨sym, min v I64MAX⟩ := by
  unfold amountAndUnit at he
  split at he
  · cases he
  · rename_i p hp
    split at he
    · cases he
    · rename_i n hn
      injection he with he
      obtain ⟨ip, dp, v, h1, h2, h3⟩ := pow10_exact h hn
      exact ⟨ip, dp, p, v, h1, (unit_iff u p).mpr (lookup_mem hp), h2, by rw [← he, h3]⟩

theorem number_worth {a : List Nat} (h : isNumber a = true) : AmountText a a [] ∧ Worth a [] 0 (numVal a) := by
  refine ⟨⟨(isNumber_iff a).mp h, Or.inl ⟨rfl, rfl⟩⟩, ?_⟩
  simp [Worth, numVal_decimal, decimal]

/-- An accepted text says the amount that is used, if this is below 2^63; and the token used is the one it says, or WICC. -/
theorem amount_as_typed_partial {s dflt : List Nat} {m : Money} (h : parseMoney s dflt = some m) :
    ∃ sym v, Says dflt s sym v ∧ (v < 2 ^ 63 → m.amount = v) ∧ (m.symbol = sym ∨ m.symbol = WICC) ∧ (dflt = WICC → m.symbol = sym) := by
  unfold parseMoney at h
  split at h
  · rename_i a hs
    split at h
    · rename_i hn
      injection h with h
      obtain ⟨h1, h2⟩ := number_worth hn
      exact ⟨dflt, _, .plain (split_one hs).1 h1 h2, fun hv => by rw [← h]; simp [atoll, Nat.min_eq_left (le63 hv)], Or.inl (by rw [← h]), fun _ => by rw [← h]⟩
    · cases h
  · rename_i a b hs
    split at h
    · rename_i hn
      obtain ⟨ip, dp, p, v, h1, h2, h3, h4⟩ := amountAndUnit_exact (by simpa using hn) h
      exact ⟨dflt, v, .unit (split_two hs) h1 h2 h3, fun hv => by rw [h4]; simp [Nat.min_eq_left (le63 hv)], Or.inr (by rw [h4]), fun e => by rw [h4, e]⟩
    · split at h
      · rename_i hn
        unfold symbolAndAmount at h
        split at h
        · cases h
        · injection h with h
          obtain ⟨h1, h2⟩ := number_worth hn
          exact ⟨a, _, .token (split_two hs) h1 h2, fun hv => by rw [← h]; simp [atoll, Nat.min_eq_left (le63 hv)], Or.inl (by rw [← h]), fun _ => by rw [← h]⟩
      · cases h
  · rename_i a b c hs
    split at h
    · cases h
    · split at h
      · cases h
      · rename_i hn
        have hn' : isNumber b = true ∨ isDecimal b = true := by
          cases h1 : isNumber b <;> cases h2 : isDecimal b <;> simp_all
        obtain ⟨ip, dp, p, v, h1, h2, h3, h4⟩ := amountAndUnit_exact hn' h
        exact ⟨a, v, .full (split_three hs) h1 h2 h3, fun hv => by rw [h4]; simp [Nat.min_eq_left (le63 hv)], Or.inl (by rw [h4]), fun _ => by rw [h4]⟩
  · cases h

theorem units_lookup : ∀ x ∈ units, units.lookup x.1 = some x.2 := by decide +kernel

/-- A well-formed text with all three parts is understood, unless it has more decimals than the unit has places. -/
theorem full_text_understood {t a u ip dp dflt : List Nat} {p v : Nat} (ht : t.length ≤ 7) (htc : ∀ c ∈ t, c ≠ 58)
    (ha : isNumber a = true ∨ isDecimal a = true) (hat : AmountText a ip dp) (hu : Unit u p) (huc : ∀ c ∈ u, c ≠ 58) (hun : u ≠ [])
    (hp : dp.length ≤ p) (hw : Worth ip dp p v) (hv : v < 2 ^ 63) :
    parseMoney (t ++ 58 :: (a ++ 58 :: u)) dflt = some ⟨t, v⟩ := by
  have hac : ∀ c ∈ a, c ≠ 58 := by
    obtain ⟨h1, h2⟩ := hat
    rcases h2 with ⟨e, _⟩ | ⟨e, h2⟩
    · intro c hc; rw [e] at hc; have := h1.2 c hc; omega
    · intro c hc
      rw [e] at hc
      rcases List.mem_append.mp hc with hc | hc
      · have := h1.2 c hc; omega
      · rcases List.mem_cons.mp hc with hc | hc
        · omega
        · have := h2.2 c hc; omega
  have huq : ∀ v v', Worth ip dp p v → Worth ip dp p v' → v = v' := by
    intro v v' h h'
    unfold Worth at h h'
    exact Nat.eq_of_mul_eq_mul_right (Nat.pow_pos (by decide)) (h.trans h'.symm)
  have hpow : pow10 a p = some v := by
    have hd := worth_digits ip dp p hp
    have e := huq _ _ hw hd
    rcases hat.2 with ⟨e1, e2⟩ | ⟨e1, e2⟩
    · rw [e1, pow10_whole hat.1, atoll]
      subst e2
      simp only [List.append_nil, List.length_nil, Nat.sub_zero] at e
      rw [← e, Nat.min_eq_left (le63 hv)]
    · rw [e1, pow10_decimal hat.1, if_neg (by omega), atoll, ← e, Nat.min_eq_left (le63 hv)]
  unfold parseMoney
  rw [split_colon t _ htc, split_colon a u hac, split_last u hun huc]
  have hb : (!isNumber a && !isDecimal a) = false := by rcases ha with h | h <;> simp [h]
  simp only
  rw [if_neg (by omega), if_neg (by rw [hb]; simp)]
  unfold amountAndUnit
  rw [units_lookup _ ((unit_iff u p).mp hu)]
  simp only [hpow]

/-- A number alone is understood. -/
theorem plain_text_understood {a dflt : List Nat} (h : Digits a) (hv : decimal a < 2 ^ 63) : parseMoney a dflt = some ⟨dflt, decimal a⟩ := by
  have hc : ∀ c ∈ a, c ≠ 58 := by intro c hc; have := h.2 c hc; omega
  unfold parseMoney
  rw [split_last a h.1 hc]
  simp only [(isNumber_iff a).mpr h, if_true, atoll, numVal_decimal, Nat.min_eq_left (le63 hv)]

/-- "1.5:wi" -/
def t15 : List Nat := [49, 46, 53, 58, 119, 105]

example : parseMoney t15 WICC = some ⟨WICC, 150000000⟩ ∧ parseMoney (WUSD ++ [58] ++ t15) WICC = some ⟨WUSD, 150000000⟩ ∧
    parseMoney (t15 ++ [122]) WICC = none := by decide +kernel

/-- With WUSD expected and no token given, an amount with a unit is taken for WICC; amounts of 2^63 and more become 2^63 - 1; and whole
JSON numbers from 2^52 on are rounded: 4503599627370497 becomes 4503599627370498. -/
theorem amount_as_typed_violated :
    parseMoney t15 WUSD = some ⟨WICC, 150000000⟩ ∧
    parseMoney [57, 57, 57, 57, 57, 57, 57, 57, 57, 57, 57, 57, 57, 57, 57, 57, 57, 57, 57, 57] WICC = some ⟨WICC, 9223372036854775807⟩ ∧
    moneyOfInt 4503599627370497 WICC = some ⟨WICC, 4503599627370498⟩ := by
  refine ⟨by decide +kernel, by decide +kernel, ?_⟩
  have h1 : Nat.log2 4503599627370497 = 52 := by decide +kernel
  have h2 : Nat.log2 9007199254740995 = 53 := by decide +kernel
  simp [moneyOfInt, roundInt, rne53, h1, h2, BCOIN_MAX]

theorem rne53_small {x : Nat} (h : x < 2 ^ 53) : rne53 x = x := by
  have h1 : Nat.log2 x + 1 - 53 = 0 := by
    rcases Nat.eq_zero_or_pos x with h0 | h0
    · rw [h0]; rfl
    · have := (Nat.log2_lt (by omega)).mpr h
      omega
  unfold rne53
  simp only [h1, Nat.pow_zero, Nat.div_one, Nat.mod_one]
  simp

/-- Whole JSON numbers below 2^52 are taken as they are. -/
theorem json_amount_partial {n : Nat} (h : n < 2 ^ 52) (dflt : List Nat) : moneyOfInt n dflt = some ⟨dflt, n⟩ := by
  unfold moneyOfInt
  rw [rne53_small (by omega)]
  have : roundInt n = n := by
    unfold roundInt
    split
    · omega
    · rw [rne53_small (by omega)]; omega
  rw [this]
  have hb : n ≤ BCOIN_MAX := by unfold BCOIN_MAX; omega
  simp [hb]

/-! ## C133: base 64 -/

/-- The standard alphabet -/
theorem base64_standard : (List.range 64).map char64 =
    "ABCDEFGHIJKLMNOPQRSTUVWXYZabcdefghijklmnopqrstuvwxyz0123456789+/".toList.map Char.toNat := by decide +kernel

theorem tables64 : ∀ d < 64, digit64 (char64 d) = some d ∧ char64 d ≠ 61 := by decide +kernel

theorem dec_char {mode left d : Nat} (hd : d < 64) (cs : List Nat) : dec64 mode left (char64 d :: cs) =
    if mode = 0 then dec64 1 d cs
    else if mode = 1 then ((left * 4 + d / 16) :: (dec64 2 (d % 16) cs).1, (dec64 2 (d % 16) cs).2)
    else if mode = 2 then ((left * 16 + d / 4) :: (dec64 3 (d % 4) cs).1, (dec64 3 (d % 4) cs).2)
    else ((left * 64 + d) :: (dec64 0 left cs).1, (dec64 0 left cs).2) := by
  rw [dec64, (tables64 d hd).1]

theorem dec_pad (mode left : Nat) (cs : List Nat) : dec64 mode left (61 :: cs) = ([], mode, left, 61 :: cs) := by
  rw [dec64]; rfl

/-- Where the decoder stands after whole groups of three bytes: in mode 0, with nothing left that matters. -/
theorem dec_enc : ∀ (bs : List Nat) (l0 l1 : Nat), Bytes bs → ∃ md lf rest, dec64 0 l1 (enc64 0 l0 bs) = (bs, md, lf, rest) ∧
    ((md = 0 ∧ rest = []) ∨ (md = 2 ∧ lf = 0 ∧ rest = [61, 61]) ∨ (md = 3 ∧ lf = 0 ∧ rest = [61]))
  | [], l0, l1, _ => ⟨0, l1, [], by simp [enc64, dec64], Or.inl ⟨rfl, rfl⟩⟩
  | [a], l0, l1, h => by
    have ha := h a (by simp)
    refine ⟨2, 0, [61, 61], ?_, Or.inr (Or.inl ⟨rfl, rfl, rfl⟩)⟩
    simp only [enc64, if_true, Nat.one_ne_zero, if_false]
    rw [dec_char (by omega), if_pos rfl, dec_char (by omega), if_neg (by decide), if_pos rfl, dec_pad]
    have e1 : a / 4 * 4 + a % 4 * 16 / 16 = a := by omega
    have e2 : a % 4 * 16 % 16 = 0 := by omega
    rw [e1, e2]
  | [a, b], l0, l1, h => by
    have ha := h a (by simp)
    have hb := h b (by simp)
    refine ⟨3, 0, [61], ?_, Or.inr (Or.inr ⟨rfl, rfl, rfl⟩)⟩
    simp only [enc64, if_true, Nat.one_ne_zero, if_false, OfNat.ofNat_ne_zero, OfNat.ofNat_ne_one]
    rw [dec_char (by omega), if_pos rfl, dec_char (by omega), if_neg (by decide), if_pos rfl, dec_char (by omega), if_neg (by decide),
      if_neg (by decide), if_pos rfl, dec_pad]
    have e1 : a / 4 * 4 + (a % 4 * 16 + b / 16) / 16 = a := by omega
    have e2 : (a % 4 * 16 + b / 16) % 16 * 16 + b % 16 * 4 / 4 = b := by omega
    have e3 : b % 16 * 4 % 4 = 0 := by omega
    rw [e1, e2, e3]
  | a :: b :: c :: bs, l0, l1, h => by
    have ha := h a (by simp)
    have hb := h b (by simp)
    have hc := h c (by simp)
    simp only [enc64, if_true, Nat.one_ne_zero, if_false, OfNat.ofNat_ne_zero, OfNat.ofNat_ne_one]
    rw [dec_char (by omega), if_pos rfl, dec_char (by omega), if_neg (by decide), if_pos rfl, dec_char (by omega), if_neg (by decide),
      if_neg (by decide), if_pos rfl, dec_char (by omega), if_neg (by decide), if_neg (by decide), if_neg (by decide)]
    obtain ⟨md, lf, rest, e, hr⟩ := dec_enc bs (b % 16 * 4) ((b % 16 * 4 + c / 64) % 4) fun x hx => h x (by simp [hx])
    rw [e]
    refine ⟨md, lf, rest, ?_, hr⟩
    have e1 : a / 4 * 4 + (a % 4 * 16 + b / 16) / 16 = a := by omega
    have e2 : (a % 4 * 16 + b / 16) % 16 * 16 + (b % 16 * 4 + c / 64) / 4 = b := by omega
    have e3 : (b % 16 * 4 + c / 64) % 4 * 64 + c % 64 = c := by omega
    rw [e1, e2, e3]

/-- What was written in base 64 is read back, and found valid. -/
theorem base64_round_trip {bs : List Nat} (h : Bytes bs) : decode64 (encode64 bs) = (bs, true) := by
  obtain ⟨md, lf, rest, e, hr⟩ := dec_enc bs 0 0 h
  unfold decode64 encode64
  rw [e]
  rcases hr with ⟨rfl, rfl⟩ | ⟨rfl, rfl, rfl⟩ | ⟨rfl, rfl, rfl⟩ <;> simp [stop64]

theorem dec64_bytes : ∀ (s : List Nat) (mode left : Nat), left < 64 → (mode = 2 → left < 16) → (3 ≤ mode → left < 4) →
    Bytes (dec64 mode left s).1
  | [], _, _, _, _, _ => by intro x hx; simp [dec64] at hx
  | c :: s, mode, left, h1, h2, h3 => by
    rw [dec64]
    split
    · intro x hx; cases hx
    · rename_i d hd
      have hd64 : d < 64 := by
        unfold digit64 at hd
        split at hd
        · injection hd with hd; omega
        · split at hd
          · injection hd with hd; omega
          · split at hd
            · injection hd with hd; omega
            · split at hd
              · injection hd with hd; omega
              · split at hd
                · injection hd with hd; omega
                · cases hd
      have cons : ∀ (y : Nat) (l : List Nat), y < 256 → Bytes l → Bytes (y :: l) := by
        intro y l hy hl x hx
        rcases List.mem_cons.mp hx with hx | hx
        · rw [hx]; exact hy
        · exact hl x hx
      split
      · exact dec64_bytes s 1 d hd64 (by omega) (by omega)
      · split
        · exact cons _ _ (by omega) (dec64_bytes s 2 (d % 16) (by omega) (by omega) (by omega))
        · split
          · exact cons _ _ (by have := h2 (by assumption); omega) (dec64_bytes s 3 (d % 4) (by omega) (by omega) (by omega))
          · exact cons _ _ (by have := h3 (by omega); omega) (dec64_bytes s 0 left (by omega) (by omega) (by omega))

/-- Different data have different texts. -/
theorem base64_injective {bs bs' : List Nat} (h : Bytes bs) (h' : Bytes bs') (e : encode64 bs = encode64 bs') : bs = bs' := by
  have h1 := base64_round_trip h
  rw [e, base64_round_trip h'] at h1
  exact (congrArg Prod.fst h1).symm

example : encode64 [77, 97] = [84, 87, 69, 61] ∧ decode64 [84, 87, 69, 61] = ([77, 97], true) ∧ (decode64 [84, 87, 70, 61]).2 = false := by
  decide +kernel

/-- A valid text need not be the text of the data: anything may follow. -/
theorem base64_exact_violated : decode64 [65, 65, 65, 65, 33, 33] = ([0, 0, 0], true) ∧ encode64 [0, 0, 0] = [65, 65, 65, 65] := by
  decide +kernel

theorem enc_dec : ∀ (s : List Nat) (l0 l1 : Nat), (∀ c ∈ s, (digit64 c).isSome = true) → s.length % 4 = 0 →
    enc64 0 l0 (dec64 0 l1 s).1 = s
  | [], l0, l1, _, _ => by simp [dec64, enc64]
  | [_], _, _, _, h => by simp at h
  | [_, _], _, _, _, h => by simp at h
  | [_, _, _], _, _, _, h => by simp at h
  | a :: b :: c :: d :: s, l0, l1, h, hl => by
    have back : ∀ c, (digit64 c).isSome = true → ∃ x < 64, c = char64 x := by
      intro c hc
      obtain ⟨x, hx⟩ := Option.isSome_iff_exists.mp hc
      refine ⟨x, ?_⟩
      unfold digit64 at hx
      unfold char64
      split at hx
      · injection hx with hx; refine ⟨by omega, ?_⟩; rw [if_pos (by omega)]; omega
      · split at hx
        · injection hx with hx; refine ⟨by omega, ?_⟩; rw [if_neg (by omega), if_pos (by omega)]; omega
        · split at hx
          · injection hx with hx; refine ⟨by omega, ?_⟩; rw [if_neg (by omega), if_neg (by omega), if_pos (by omega)]; omega
          · split at hx
            · injection hx with hx; refine ⟨by omega, ?_⟩; rw [if_neg (by omega), if_neg (by omega), if_neg (by omega), if_pos (by omega)]; omega
            · split at hx
              · injection hx with hx; refine ⟨by omega, ?_⟩
                rw [if_neg (by omega), if_neg (by omega), if_neg (by omega), if_neg (by omega)]; omega
              · cases hx
    obtain ⟨w, hw, rfl⟩ := back a (h a (by simp))
    obtain ⟨x, hx, rfl⟩ := back b (h b (by simp))
    obtain ⟨y, hy, rfl⟩ := back c (h c (by simp))
    obtain ⟨z, hz, rfl⟩ := back d (h d (by simp))
    rw [dec_char hw, if_pos rfl, dec_char hx, if_neg (by decide), if_pos rfl, dec_char hy, if_neg (by decide), if_neg (by decide), if_pos rfl,
      dec_char hz, if_neg (by decide), if_neg (by decide), if_neg (by decide)]
    simp only [enc64, if_true, Nat.one_ne_zero, if_false, OfNat.ofNat_ne_zero, OfNat.ofNat_ne_one]
    rw [enc_dec s _ _ (fun c hc => h c (by simp [hc])) (by simp at hl; omega)]
    have e1 : (w * 4 + x / 16) / 4 = w := by omega
    have e2 : (w * 4 + x / 16) % 4 * 16 + (x % 16 * 16 + y / 4) / 16 = x := by omega
    have e3 : (x % 16 * 16 + y / 4) % 16 * 4 + (y % 4 * 64 + z) / 64 = y := by omega
    have e4 : (y % 4 * 64 + z) % 64 = z := by omega
    rw [e1, e2, e3, e4]

/-- A text of the alphabet whose length is a multiple of four is the text of the data read from it. -/
theorem base64_exact_partial {s : List Nat} (h : ∀ c ∈ s, (digit64 c).isSome = true) (hl : s.length % 4 = 0) :
    (decode64 s).2 = true ∧ encode64 (decode64 s).1 = s := by
  have e : encode64 (decode64 s).1 = s := enc_dec s 0 0 h hl
  refine ⟨?_, e⟩
  have := base64_round_trip (bs := (decode64 s).1) (dec64_bytes s 0 0 (by decide) (by decide) (by decide))
  rw [e] at this
  rw [this]

end Verif.Text
