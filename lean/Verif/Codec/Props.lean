import Verif.Codec.Lemmas
/-!
# Properties C13–C16 and C10: encodings

Specifications are direct: decode after encode gives the value back (with the rest of the stream
untouched), and encodings determine the value.
-/
namespace Verif.Codec

/-! ## C13 -/

/-- **C13**, buffer: writing any `w`-bit number never stores outside the temporary buffer of
`(w + 6) / 7` bytes, and the bytes written are as many as announced. -/
theorem varint_write_fits (w n : Nat) (hw : 0 < w) (h : n < 2 ^ w) :
    ∃ bs, writeVarInt w n = some bs ∧ bs.length = sizeVarInt n ∧ bs.length ≤ (w + 6) / 7 ∧ Bytes bs := by
  have hs := size_le w n hw h
  refine ⟨varBytes n [], writeLoop_eq w n [] (by simpa using hs), ?_, ?_,
    varBytes_bytes n [] (by intro b hb; simp at hb)⟩
  · rw [varBytes_length]; rfl
  · rw [varBytes_length]; exact hs

/-- **C13**, round trip: what was written is read back, and exactly those bytes are consumed. -/
theorem varint_roundtrip (w n : Nat) (h : n < 2 ^ w) (bs : List Nat) (hb : writeVarInt w n = some bs)
    (rest : List Nat) : readVarInt w (bs ++ rest) = some (n, rest) := by
  have hs : sizeVarInt n + ([] : List Nat).length ≤ (w + 6) / 7 := by
    rcases Nat.lt_or_ge ((w + 6) / 7) (sizeVarInt n + ([] : List Nat).length) with hc | hc
    · have := writeLoop_none w n [] (by omega)
      unfold writeVarInt at hb; rw [this] at hb; cases hb
    · exact hc
  unfold writeVarInt at hb
  rw [writeLoop_eq w n [] hs] at hb
  cases hb
  exact read_varBytes w n [] rest h

/-- **C13**, prefix freedom: if two encodings start the same stream, the numbers are the same. -/
theorem varint_prefix_free (w m n : Nat) (hm : m < 2 ^ w) (hn : n < 2 ^ w) (bm bn x y : List Nat)
    (h1 : writeVarInt w m = some bm) (h2 : writeVarInt w n = some bn) (h : bm ++ x = bn ++ y) :
    m = n ∧ x = y := by
  have e1 := varint_roundtrip w m hm bm h1 x
  have e2 := varint_roundtrip w n hn bn h2 y
  rw [h, e2] at e1
  simp only [Option.some.injEq, Prod.mk.injEq] at e1
  exact ⟨e1.1.symm, e1.2.symm⟩

/-- The reverse direction of C13 does not hold: the reader also accepts byte strings the writer
never produces (over-long ones wrap around), so a decoded number need not have come from its
own encoding. -/
theorem varint_noncanonical_accepted :
    readVarInt 16 [0x82, 0xFF, 0x00] = some (0, []) ∧ readVarInt 16 [0] = some (0, []) ∧
    writeVarInt 16 0 = some [0] := by
  refine ⟨by decide, by decide, ?_⟩
  simp [writeVarInt, writeVarIntLoop]

/-! ## C14 -/

/-- **C14**, round trip: every size that fits 64 bits is written in the announced number of bytes,
and read back exactly if it does not exceed the maximum (otherwise reading fails). -/
theorem compact_size_roundtrip (n : Nat) (h : n < 2 ^ 64) (rest : List Nat) :
    (writeCompactSize n).length = sizeCompactSize n ∧ Bytes (writeCompactSize n) ∧
    readCompactSize (writeCompactSize n ++ rest) = if n ≤ 0x02000000 then some (n, rest) else none := by
  have hM : MAX_SIZE = 33554432 := rfl
  have hb : ∀ k m c, c < 256 → Bytes (c :: leBytes k m) := by
    intro k m c hc b hb
    rcases List.mem_cons.1 hb with h | h
    · omega
    · exact leBytes_bytes k m b h
  unfold writeCompactSize sizeCompactSize
  by_cases h1 : n < 253
  · simp only [h1, if_true]
    refine ⟨rfl, by intro b hb; simp at hb; omega, ?_⟩
    simp only [List.cons_append, List.nil_append, readCompactSize, h1, if_true, Option.bind_some]
    rw [if_neg (by omega), if_pos (by omega)]
  · simp only [h1, if_false]
    by_cases h2 : n ≤ 0xFFFF
    · simp only [h2, if_true]
      refine ⟨by simp [leBytes_length], hb _ _ _ (by omega), ?_⟩
      simp only [List.cons_append, readCompactSize]
      rw [readLE_leBytes 2 n rest (by omega)]
      simp only [Option.bind_some, h1, if_false, if_true, show ¬ (253 < 253) by omega]
      rw [if_neg (by omega), if_pos (by omega)]
    · simp only [h2, if_false]
      by_cases h3 : n ≤ 0xFFFFFFFF
      · simp only [h3, if_true]
        refine ⟨by simp [leBytes_length], hb _ _ _ (by omega), ?_⟩
        simp only [List.cons_append, readCompactSize]
        rw [readLE_leBytes 4 n rest (by omega)]
        have h4 : ¬ n < 65536 := by omega
        simp only [Option.bind_some, h4, if_false, if_true, show ¬ (254 < 253) by omega,
          show ¬ (254 = 253) by omega]
        by_cases h5 : n ≤ 0x02000000
        · rw [if_pos h5, if_neg (by omega)]
        · rw [if_neg h5, if_pos (by omega)]
      · simp only [h3, if_false]
        refine ⟨by simp [leBytes_length], hb _ _ _ (by omega), ?_⟩
        simp only [List.cons_append, readCompactSize]
        rw [readLE_leBytes 8 n rest (by omega)]
        have h4 : ¬ n < 4294967296 := by omega
        simp only [Option.bind_some, h4, if_false, show ¬ (255 < 253) by omega,
          show ¬ (255 = 253) by omega, show ¬ (255 = 254) by omega]
        rw [if_neg (show ¬ n ≤ 33554432 by omega), if_pos (by omega)]

/-- **C14**, canonicity: whatever byte string is accepted is the canonical encoding of the size
returned, followed by the unread rest. -/
theorem compact_size_canonical (l rest : List Nat) (n : Nat) (hb : Bytes l)
    (h : readCompactSize l = some (n, rest)) : n ≤ 0x02000000 ∧ l = writeCompactSize n ++ rest := by
  have hM : MAX_SIZE = 33554432 := rfl
  cases l with
  | nil => simp [readCompactSize] at h
  | cons ch r =>
    have hch : ch < 256 := hb ch List.mem_cons_self
    have hr : Bytes r := fun b hb' => hb b (List.mem_cons_of_mem _ hb')
    simp only [readCompactSize, Option.bind_eq_some_iff] at h
    obtain ⟨⟨m, q⟩, h1, h2⟩ := h
    split at h2
    · cases h2
    rename_i hle
    cases h2
    simp only at hle
    refine ⟨by omega, ?_⟩
    by_cases c1 : ch < 253
    · simp only [c1, if_true, Option.some.injEq, Prod.mk.injEq] at h1
      obtain ⟨e1, e2⟩ := h1; subst e1; subst e2
      rw [writeCompactSize_small c1]; rfl
    · simp only [c1, if_false] at h1
      by_cases c2 : ch = 253
      · simp only [c2, if_true, Option.bind_eq_some_iff] at h1
        obtain ⟨⟨m', q'⟩, h3, h4⟩ := h1
        split at h4
        · cases h4
        rename_i h5
        cases h4
        obtain ⟨i1, i2⟩ := readLE_some 2 r _ _ hr h3
        simp only at h5
        unfold writeCompactSize
        rw [if_neg h5, if_pos (by omega), c2]
        rw [List.cons_append, ← i1]
      · simp only [c2, if_false] at h1
        by_cases c3 : ch = 254
        · simp only [c3, if_true, Option.bind_eq_some_iff] at h1
          obtain ⟨⟨m', q'⟩, h3, h4⟩ := h1
          split at h4
          · cases h4
          rename_i h5
          cases h4
          obtain ⟨i1, i2⟩ := readLE_some 4 r _ _ hr h3
          simp only at h5
          unfold writeCompactSize
          rw [if_neg (by omega), if_neg (by omega), if_pos (by omega), c3]
          rw [List.cons_append, ← i1]
        · simp only [c3, if_false, Option.bind_eq_some_iff] at h1
          obtain ⟨⟨m', q'⟩, h3, h4⟩ := h1
          split at h4
          · cases h4
          rename_i h5
          cases h4
          simp only at h5
          omega

/-! ## C15 -/

/-- **C15**: for every width, the fixed-width encoding has `⌈w/7⌉` bytes, is read back exactly, and
byte order of encodings is numeric order. -/
theorem fixed_int_roundtrip_and_order (w m n : Nat) (hm : m < 2 ^ w) (hn : n < 2 ^ w) (rest : List Nat) :
    (encLeb w n).length = (w + 6) / 7 ∧ Bytes (encLeb w n) ∧
    decLeb w (encLeb w n ++ rest) = some (n, rest) ∧
    (bytesLt (encLeb w m) (encLeb w n) = true ↔ m < n) := by
  refine ⟨lebBytes_length _ _, ?_, ?_, ?_⟩
  · intro b hb
    have := lebBytes_small _ _ b hb
    omega
  · unfold decLeb encLeb
    rw [lebLoop_rest w _ 0 _ rest (lebBytes_length _ _),
      lebLoop_lebBytes w _ n hn (lt_pow_leb w n hn)]
    rfl
  · unfold encLeb
    rw [bytesLt_leb _ m n (lt_pow_leb w m hm) (lt_pow_leb w n hn), decide_eq_true_eq]

/-! ## C16 -/

/-- Registration ids round-trip (VarInt form), with the announced size, and that size is between
2 and 8 bytes, so the assertion in `CUserID::Serialize` holds. -/
theorem regid_roundtrip (r : RegId) (h : r.Ok) : ∃ bs, writeRegId r = some bs ∧
    bs.length = sizeRegId r ∧ 2 ≤ sizeRegId r ∧ sizeRegId r ≤ 8 ∧
    ∀ rest, readRegId (bs ++ rest) = some (r, rest) := by
  obtain ⟨a, ha, la, fa, _⟩ := varint_write_fits 32 r.height (by omega) h.1
  obtain ⟨b, hb, lb, fb, _⟩ := varint_write_fits 16 r.index (by omega) h.2
  have h1 := size_pos r.height
  have h2 := size_pos r.index
  refine ⟨a ++ b, by simp [writeRegId, ha, hb], by simp [sizeRegId, la, lb], by unfold sizeRegId; omega,
    by unfold sizeRegId; omega, fun rest => ?_⟩
  unfold readRegId
  rw [List.append_assoc, varint_roundtrip 32 _ h.1 a ha]
  simp only [Option.bind_some]
  rw [varint_roundtrip 16 _ h.2 b hb]
  rfl

/-- Registration ids also round-trip through their 64-bit and raw 6-byte forms. -/
theorem regid_int_raw_roundtrip (r : RegId) (h : r.Ok) :
    RegId.ofInt r.toInt = r ∧ RegId.ofRaw r.raw = some r := by
  obtain ⟨h1, h2⟩ := h
  obtain ⟨a, b⟩ := r
  simp only at h1 h2
  constructor
  · simp only [RegId.ofInt, RegId.toInt, RegId.mk.injEq]
    constructor <;> omega
  · unfold RegId.ofRaw RegId.raw
    rw [if_neg (by simp [leBytes_length])]
    simp only
    rw [readLE_leBytes 4 a _ (by omega)]
    simp only [Option.bind_some]
    have := readLE_leBytes 2 b [] (by omega)
    rw [List.append_nil] at this
    rw [this]; rfl

/-- Identifiers a program can hold: field widths respected, key ids of 20 bytes, valid public keys
(`CUserID::set` replaces an empty key by the null id). -/
def UserId.Ok : UserId → Prop
  | .null => True
  | .reg r => r.Ok
  | .key k => k.length = 20 ∧ Bytes k
  | .pub p => p.Ok

/-- **C16**, round trip. -/
theorem userid_roundtrip (u : UserId) (h : u.Ok) : ∃ bs, writeUserId u = some bs ∧
    ∀ rest, readUserId (bs ++ rest) = some (u, rest) := by
  have small : ∀ n r, n < 253 → readCompactSize (n :: r) = some (n, r) := by
    intro n r hn
    have hM : MAX_SIZE = 33554432 := rfl
    simp only [readCompactSize, hn, if_true, Option.bind_some]
    rw [if_neg (by omega)]
  cases u with
  | null =>
    refine ⟨[0], rfl, fun rest => ?_⟩
    unfold readUserId
    rw [List.cons_append, small 0 _ (by omega)]
    rfl
  | reg r =>
    obtain ⟨bs, hb, hl, h2, h8, hr⟩ := regid_roundtrip r h
    refine ⟨sizeRegId r :: bs, ?_, fun rest => ?_⟩
    · simp only [writeUserId]; rw [if_pos (by omega), hb]; rfl
    · unfold readUserId
      rw [List.cons_append, small _ _ (by omega)]
      simp only [Option.bind_some]
      rw [if_pos (by omega), hr]; rfl
  | key k =>
    obtain ⟨hl, _⟩ := h
    refine ⟨20 :: k, by simp [writeUserId, hl], fun rest => ?_⟩
    unfold readUserId
    rw [List.cons_append, small _ _ (by omega)]
    simp only [Option.bind_some, readN]
    simp [hl]
  | pub p =>
    cases p with
    | invalid => exact absurd h (by simp [UserId.Ok, PubKey.Ok])
    | valid l =>
      obtain ⟨hl, _, hh⟩ := h
      refine ⟨33 :: l, by simp [writeUserId, hl], fun rest => ?_⟩
      unfold readUserId
      rw [List.cons_append, small _ _ (by omega)]
      simp only [Option.bind_some, readN]
      have hlen : ¬ (l ++ rest).length < 33 := by simp [hl]
      have ht : (l ++ rest).take 33 = l := by rw [← hl, List.take_left']; rfl
      have hd : (l ++ rest).drop 33 = rest := by rw [← hl, List.drop_left']; rfl
      simp only [hlen, if_false, ht, hd]
      have : PubKey.ofBytes l = .valid l := by
        cases l with
        | nil => simp at hl
        | cons x xs =>
          simp only [List.head?_cons, Option.some.injEq] at hh
          show (if (x = 2 ∨ x = 3) ∧ (x :: xs).length = 33 then PubKey.valid (x :: xs) else .invalid) = _
          rw [if_pos ⟨hh, hl⟩]
      simp [this]

/-- **C16**, unambiguity: two different identifiers never share an encoding, nor is one a prefix of
the other. -/
theorem userid_injective (u v : UserId) (hu : u.Ok) (hv : v.Ok) (bu bv x y : List Nat)
    (h1 : writeUserId u = some bu) (h2 : writeUserId v = some bv) (h : bu ++ x = bv ++ y) :
    u = v ∧ x = y := by
  obtain ⟨b1, e1, r1⟩ := userid_roundtrip u hu
  obtain ⟨b2, e2, r2⟩ := userid_roundtrip v hv
  rw [h1] at e1; cases e1
  rw [h2] at e2; cases e2
  have a := r1 x
  rw [h, r2 y] at a
  simp only [Option.some.injEq, Prod.mk.injEq] at a
  exact ⟨a.1.symm, a.2.symm⟩

/-- **C16**, unknown tags: a stream whose leading size is none of 0, 2..10, 20, 33 is rejected. -/
theorem userid_unknown_tag_rejected (l r : List Nat) (n : Nat) (h : readCompactSize l = some (n, r))
    (hn : n ≠ 0 ∧ ¬ (2 ≤ n ∧ n ≤ 10) ∧ n ≠ 20 ∧ n ≠ 33) : readUserId l = none := by
  unfold readUserId
  rw [h]
  simp [hn.1, hn.2.1, hn.2.2.1, hn.2.2.2]

/-- **C57** (violated): a received identifier can be one that the node is unable to write again.  A
33-byte public key whose first byte is neither 2 nor 3 is accepted and stored as an invalid key;
serializing it (as every transaction hash computation does) fails an assertion. -/
theorem userid_decoded_not_encodable_violated :
    ∃ l u, Bytes l ∧ readUserId l = some (u, []) ∧ writeUserId u = none := by
  refine ⟨33 :: 5 :: List.replicate 32 0, .pub .invalid, ?_, ?_, rfl⟩
  · intro b hb
    simp only [List.mem_cons, List.mem_replicate] at hb
    omega
  · decide

/-- What is missing for the full C57: every identifier decoded from any bytes can be encoded again
unless it is a malformed public key. -/
theorem userid_decoded_encodable_partial (l r : List Nat) (u : UserId)
    (h : readUserId l = some (u, r)) (hp : u ≠ .pub .invalid) : ∃ bs, writeUserId u = some bs := by
  unfold readUserId at h
  rw [Option.bind_eq_some_iff] at h
  obtain ⟨⟨n, q⟩, _, h⟩ := h
  simp only at h
  split at h
  · rw [Option.map_eq_some_iff] at h
    obtain ⟨⟨g, q2⟩, h1, h2⟩ := h
    cases h2
    have hok : g.Ok := by
      unfold readRegId at h1
      rw [Option.bind_eq_some_iff] at h1
      obtain ⟨⟨a, q3⟩, ha, h1⟩ := h1
      rw [Option.map_eq_some_iff] at h1
      obtain ⟨⟨b, q4⟩, hb, h1⟩ := h1
      cases h1
      have bound : ∀ w l n a q, readVarIntLoop w n l = some (a, q) → a < 2 ^ w := by
        intro w l
        induction l with
        | nil => intro n a q h; simp [readVarIntLoop] at h
        | cons c l ih =>
          intro n a q h
          simp only [readVarIntLoop] at h
          split at h
          · exact ih _ _ _ h
          · simp only [Option.some.injEq, Prod.mk.injEq] at h
            rw [← h.1]; exact Nat.mod_lt _ (Nat.pos_of_ne_zero (by simp))
      exact ⟨bound 32 _ _ _ _ ha, bound 16 _ _ _ _ hb⟩
    obtain ⟨bs, h1, _⟩ := userid_roundtrip (.reg g) hok
    exact ⟨bs, h1⟩
  · split at h
    · rw [Option.map_eq_some_iff] at h
      obtain ⟨⟨k, q2⟩, h1, h2⟩ := h
      cases h2
      unfold readN at h1
      split at h1
      · cases h1
      · simp only [Option.some.injEq, Prod.mk.injEq] at h1
        refine ⟨20 :: k, ?_⟩
        have : k.length = 20 := by rw [← h1.1, List.length_take]; omega
        simp [writeUserId, this]
    · split at h
      · rw [Option.map_eq_some_iff] at h
        obtain ⟨⟨k, q2⟩, h1, h2⟩ := h
        cases h2
        simp only at hp ⊢
        cases k with
        | nil => exact absurd rfl hp
        | cons x xs =>
          unfold PubKey.ofBytes at hp ⊢
          simp only at hp ⊢
          split
          · rename_i hc
            refine ⟨33 :: x :: xs, ?_⟩
            have := hc.2
            simp only [writeUserId, this, if_true]
          · rename_i hc; rw [if_neg hc] at hp; exact absurd rfl hp
      · split at h
        · cases h; exact ⟨[0], rfl⟩
        · cases h

/-- **C58** (violated): one identifier has several accepted encodings, because the length tag of a
registration id is not compared with the bytes read. -/
theorem userid_encoding_not_unique_violated :
    readUserId [2, 1, 1] = some (.reg ⟨1, 1⟩, []) ∧ readUserId [7, 1, 1] = some (.reg ⟨1, 1⟩, []) := by
  decide

/-- What holds of C58: identifiers other than registration ids (and malformed public keys) have exactly
one accepted encoding, the one the writer produces.  Missing: registration ids. -/
theorem userid_encoding_unique_partial (l r : List Nat) (u : UserId) (hb : Bytes l)
    (h : readUserId l = some (u, r)) (hr : ∀ g, u ≠ .reg g) (hp : u ≠ .pub .invalid) :
    ∃ bs, writeUserId u = some bs ∧ l = bs ++ r := by
  unfold readUserId at h
  rw [Option.bind_eq_some_iff] at h
  obtain ⟨⟨n, q⟩, hc, h⟩ := h
  obtain ⟨_, hl⟩ := compact_size_canonical l q n hb hc
  have hN : ∀ k x y, readN k q = some (x, y) → q = x ++ y ∧ x.length = k := by
    intro k x y hx
    unfold readN at hx
    split at hx
    · cases hx
    · simp only [Option.some.injEq, Prod.mk.injEq] at hx
      rw [← hx.1, ← hx.2, List.take_append_drop, List.length_take]
      exact ⟨rfl, by omega⟩
  simp only at h
  split at h
  · rw [Option.map_eq_some_iff] at h
    obtain ⟨⟨g, q2⟩, h1, h2⟩ := h
    cases h2
    exact absurd rfl (hr g)
  · split at h
    · rename_i hn
      rw [Option.map_eq_some_iff] at h
      obtain ⟨⟨k, q2⟩, h1, h2⟩ := h
      cases h2
      obtain ⟨e1, e2⟩ := hN 20 k q2 h1
      refine ⟨20 :: k, by simp [writeUserId, e2], ?_⟩
      rw [hl, hn, e1]; rfl
    · split at h
      · rename_i hn
        rw [Option.map_eq_some_iff] at h
        obtain ⟨⟨k, q2⟩, h1, h2⟩ := h
        cases h2
        obtain ⟨e1, e2⟩ := hN 33 k q2 h1
        simp only at hp ⊢
        cases k with
        | nil => exact absurd rfl hp
        | cons x xs =>
          unfold PubKey.ofBytes at hp ⊢
          simp only at hp ⊢
          split
          · refine ⟨33 :: x :: xs, by simp only [writeUserId, e2, if_true], ?_⟩
            rw [hl, hn, e1]; rfl
          · rename_i hc; rw [if_neg hc] at hp; exact absurd rfl hp
      · split at h
        · rename_i hn
          cases h
          refine ⟨[0], rfl, ?_⟩
          rw [hl, hn]; rfl
        · cases h

/-! ## C10 -/

/-- The prefix table in full: no table's prefix is a prefix of another table's. -/
theorem prefixes_independent : ∀ s t : Table, (prefixOf s).isPrefixOf (prefixOf t) = true → s = t := by
  decide +kernel

theorem not_prefix_of {s t : Table} (h : s ≠ t) (k : List Nat) : hasPrefix s (prefixOf t ++ k) = false := by
  by_cases hc : hasPrefix s (prefixOf t ++ k) = true
  · exfalso
    unfold hasPrefix at hc
    rw [List.isPrefixOf_iff_prefix] at hc
    have ht : prefixOf t <+: prefixOf t ++ k := List.prefix_append _ _
    rcases List.prefix_or_prefix_of_prefix hc ht with h1 | h1
    · exact h (prefixes_independent s t (List.isPrefixOf_iff_prefix.2 h1))
    · exact h (prefixes_independent t s (List.isPrefixOf_iff_prefix.2 h1)).symm
  · simpa using hc

theorem leb_prefix_free (w a b : Nat) (x y : List Nat) (ha : a < 2 ^ w) (hb : b < 2 ^ w)
    (h : encLeb w a ++ x = encLeb w b ++ y) : a = b ∧ x = y := by
  have h1 := (fixed_int_roundtrip_and_order w a a ha ha x).2.2.1
  have h2 := (fixed_int_roundtrip_and_order w b b hb hb y).2.2.1
  rw [h, h2] at h1
  simp only [Option.some.injEq, Prod.mk.injEq] at h1
  exact ⟨h1.1.symm, h1.2.symm⟩

theorem optVar_prefix_free (w a b : Nat) (x y : List Nat) (hw : 0 < w) (ha : a < 2 ^ w) (hb : b < 2 ^ w)
    (h : (1 :: (writeVarInt w a).getD []) ++ x = (1 :: (writeVarInt w b).getD []) ++ y) : a = b ∧ x = y := by
  obtain ⟨ba, h1, _⟩ := varint_write_fits w a hw ha
  obtain ⟨bb, h2, _⟩ := varint_write_fits w b hw hb
  rw [h1, h2] at h
  simp only [Option.getD_some, List.cons_append, List.cons.injEq, true_and] at h
  exact varint_prefix_free w a b ha hb ba bb x y h1 h2 h

theorem vec_len64 {n : Nat} {v : (KT.vec n).Val} (h : (KT.vec n).Ok v) : List.length (α := Nat) v < 2 ^ 64 := by
  have h1 := h.1
  have h2 := h.2.2
  omega

theorem encStr_prefix_free (a b x y : List Nat) (ha : a.length < 2 ^ 64) (hb : b.length < 2 ^ 64)
    (h : encStr a ++ x = encStr b ++ y) : a = b ∧ x = y := by
  unfold encStr at h
  have key : ∀ n m (u v : List Nat), n < 2 ^ 64 → m < 2 ^ 64 →
      writeCompactSize n ++ u = writeCompactSize m ++ v → n = m ∧ u = v := by
    intro n m u v hn hm he
    have hu : ∀ k, k < 2 ^ 64 → ∀ z, writeCompactSize k ++ z =
        (if k < 253 then [k] ++ z else if k ≤ 0xFFFF then 253 :: (leBytes 2 k ++ z)
         else if k ≤ 0xFFFFFFFF then 254 :: (leBytes 4 k ++ z) else 255 :: (leBytes 8 k ++ z)) := by
      intro k _ z
      unfold writeCompactSize
      split
      · rfl
      · split
        · rfl
        · split <;> rfl
    rw [hu n hn, hu m hm] at he
    have le : ∀ j k l (p q : List Nat), k < 256 ^ j → l < 256 ^ j → leBytes j k ++ p = leBytes j l ++ q →
        k = l ∧ p = q := by
      intro j k l p q hk hl hh
      have e1 := readLE_leBytes j k p hk
      have e2 := readLE_leBytes j l q hl
      rw [hh, e2] at e1
      simp only [Option.some.injEq, Prod.mk.injEq] at e1
      exact ⟨e1.1.symm, e1.2.symm⟩
    split at he
    · split at he
      · simp only [List.cons_append, List.nil_append, List.cons.injEq] at he; exact he
      · exfalso
        split at he
        · simp only [List.cons_append, List.nil_append, List.cons.injEq] at he; omega
        · split at he <;> (simp only [List.cons_append, List.nil_append, List.cons.injEq] at he; omega)
    · split at he
      · split at he
        · exfalso; simp only [List.cons_append, List.nil_append, List.cons.injEq] at he; omega
        · split at he
          · simp only [List.cons.injEq, true_and] at he; exact le 2 n m u v (by omega) (by omega) he
          · exfalso; split at he <;> (simp only [List.cons.injEq] at he; omega)
      · split at he
        · split at he
          · exfalso; simp only [List.cons_append, List.nil_append, List.cons.injEq] at he; omega
          · split at he
            · exfalso; simp only [List.cons.injEq] at he; omega
            · split at he
              · simp only [List.cons.injEq, true_and] at he; exact le 4 n m u v (by omega) (by omega) he
              · exfalso; simp only [List.cons.injEq] at he; omega
        · split at he
          · exfalso; simp only [List.cons_append, List.nil_append, List.cons.injEq] at he; omega
          · split at he
            · exfalso; simp only [List.cons.injEq] at he; omega
            · split at he
              · exfalso; simp only [List.cons.injEq] at he; omega
              · simp only [List.cons.injEq, true_and] at he; exact le 8 n m u v (by omega) (by omega) he
  rw [List.append_assoc, List.append_assoc] at h
  obtain ⟨e1, e2⟩ := key _ _ _ _ ha hb h
  exact List.append_inj e2 e1

/-- Encodings of entry keys are unambiguous, also when followed by other data. -/
theorem enc_prefix_free : ∀ (t : KT) (a b : t.Val) (x y : List Nat), t.noTail = true →
    t.Ok a → t.Ok b → t.enc a ++ x = t.enc b ++ y → a = b ∧ x = y
  | .blob n, a, b, x, y, _, ha, hb, h => List.append_inj h (ha.1.trans hb.1.symm)
  | .u8, a, b, x, y, _, _, _, h => by
    have h' : a :: x = b :: y := h
    injection h' with h1 h2
    exact ⟨h1, h2⟩
  | .leb w, a, b, x, y, _, ha, hb, h => leb_prefix_free w a b x y ha hb h
  | .str, a, b, x, y, _, ha, hb, h => encStr_prefix_free a b x y ha.2 hb.2 h
  | .vec n, a, b, x, y, _, ha, hb, h =>
    encStr_prefix_free a b x y (vec_len64 ha) (vec_len64 hb) h
  | .tail, _, _, _, _, ht, _, _, _ => by simp [KT.noTail] at ht
  | .optVar w, a, b, x, y, _, ha, hb, h => optVar_prefix_free w a b x y ha.2 ha.1 hb.1 h
  | .pair s t, a, b, x, y, ht, ha, hb, h => by
    simp only [KT.noTail, Bool.and_eq_true] at ht
    simp only [KT.enc, List.append_assoc] at h
    obtain ⟨e1, h'⟩ := enc_prefix_free s a.1 b.1 _ _ ht.1 ha.1 hb.1 h
    obtain ⟨e2, h''⟩ := enc_prefix_free t a.2 b.2 _ _ ht.2 ha.2 hb.2 h'
    exact ⟨Prod.ext e1 e2, h''⟩

/-- Encodings of entry keys (tail component last) are injective. -/
theorem enc_injective : ∀ (t : KT) (a b : t.Val), t.wf = true → t.Ok a → t.Ok b → t.enc a = t.enc b → a = b
  | .pair s t, a, b, hw, ha, hb, h => by
    simp only [KT.wf, Bool.and_eq_true] at hw
    simp only [KT.enc] at h
    obtain ⟨e1, h'⟩ := enc_prefix_free s a.1 b.1 _ _ hw.1 ha.1 hb.1 h
    exact Prod.ext e1 (enc_injective t a.2 b.2 hw.2 ha.2 hb.2 h')
  | .tail, _, _, _, _, _, h => h
  | .blob n, a, b, _, ha, hb, h => (enc_prefix_free (.blob n) a b [] [] rfl ha hb (by rw [h])).1
  | .u8, a, b, _, ha, hb, h => (enc_prefix_free .u8 a b [] [] rfl ha hb (by rw [h])).1
  | .leb w, a, b, _, ha, hb, h => (enc_prefix_free (.leb w) a b [] [] rfl ha hb (by rw [h])).1
  | .str, a, b, _, ha, hb, h => (enc_prefix_free .str a b [] [] rfl ha hb (by rw [h])).1
  | .vec n, a, b, _, ha, hb, h => (enc_prefix_free (.vec n) a b [] [] rfl ha hb (by rw [h])).1
  | .optVar w, a, b, _, ha, hb, h => (enc_prefix_free (.optVar w) a b [] [] rfl ha hb (by rw [h])).1

/-- **C10**, no collisions: two database keys are equal only if the tables are, and then the entries
are too. -/
theorem db_keys_never_collide (s t : Table) (k : KT) (hk : k.wf = true) (a b : k.Val) (ha : k.Ok a)
    (hb : k.Ok b) (j : KT) (c : j.Val) :
    (genDbKey s k a = genDbKey t j c → s = t) ∧ (genDbKey s k a = genDbKey s k b → a = b) := by
  constructor
  · intro h
    by_cases e : s = t
    · exact e
    · exfalso
      have h1 := not_prefix_of e (j.enc c)
      have h2 : hasPrefix s (genDbKey s k a) = true := by
        unfold hasPrefix genDbKey; rw [List.isPrefixOf_iff_prefix]; exact List.prefix_append _ _
      rw [h] at h2
      unfold genDbKey at h2
      rw [h1] at h2; cases h2
  · intro h
    exact enc_injective k a b hk ha hb (List.append_cancel_left h)

/-- **C10**, scans: a key belongs to a scan of table `s` exactly if it is a key of table `s`. -/
theorem prefix_scan_separates (s t : Table) (k : KT) (a : k.Val) :
    hasPrefix s (genDbKey t k a) = true ↔ s = t := by
  constructor
  · intro h
    by_cases e : s = t
    · exact e
    · have := not_prefix_of e (k.enc a)
      unfold genDbKey at h; rw [this] at h; cases h
  · intro h
    subst h
    unfold hasPrefix genDbKey; rw [List.isPrefixOf_iff_prefix]; exact List.prefix_append _ _

/-- **C10**, order: for key shapes made of raw blobs, bytes, fixed-width integers, fixed-length
vectors and tails, the byte order of database keys is the C++ order of the entry keys.  This is
the hypothesis `hord` of the iteration theorems (C09). -/
theorem db_key_order_agrees (s : Table) (k : KT) (hk : k.wf = true) (ho : k.ordered = true) (a b : k.Val)
    (ha : k.Ok a) (hb : k.Ok b) : bytesLt (genDbKey s k a) (genDbKey s k b) = k.lt a b := by
  unfold genDbKey
  rw [bytesLt_common, enc_order k a b hk ho ha hb]

/-- Every keyed table has a known prefix and a key shape with at most a trailing tail, and these are
exactly the tables whose iteration order is not the database order. -/
theorem key_shapes_table :
    (∀ p ∈ keyShapes, p.1 ∈ prefixTable.map (·.1) ∧ p.2.wf = true) ∧
    ((keyShapes.filter (fun p => !p.2.ordered)).map (·.1) =
      ["ASSET", "AXC_COIN_PEERTOSELF", "AXC_COIN_SELFTOPEER", "AXC_SWAP_IN", "FLAG", "CDP_RATIO_INDEX",
       "CDP_HEIGHT_INDEX", "CDP_GLOBAL_DATA", "CDP_BCOIN", "USER_CDP", "CONTRACT_ACCOUNT",
       "DEX_OPERATOR_DETAIL", "MINER_FEE", "CDP_PARAM", "CDP_INTEREST_PARAMS"]) := by
  decide +kernel

/-! ## Concrete instances -/

example : writeVarInt 64 65535 = some [0x82, 0xFE, 0x7F] ∧ readVarInt 64 [0x82, 0xFE, 0x7F, 9] = some (65535, [9]) := by
  constructor
  · simp [writeVarInt, writeVarIntLoop]
  · decide

/-- 2^64-1 fills the ten-byte buffer exactly. -/
example : sizeVarInt (2 ^ 64 - 1) = 10 := by simp [sizeVarInt]

example : readCompactSize (writeCompactSize 70000 ++ [7]) = some (70000, [7]) := by decide

example : encLeb 32 300 = [0, 0, 0, 2, 44] ∧ bytesLt (encLeb 32 255) (encLeb 32 300) = true := by decide

example : UserId.Ok (.pub (.valid (2 :: List.replicate 32 7))) ∧ UserId.Ok (.reg ⟨12345, 3⟩) := by
  refine ⟨⟨rfl, ?_, Or.inl rfl⟩, by constructor <;> decide⟩
  intro b hb
  simp only [List.mem_cons, List.mem_replicate] at hb
  omega

/-- A vote-table key: votes (complemented) and the six raw bytes of a registration id. -/
example : (KT.pair (.leb 64) (.vec 6)).Ok ((2 ^ 64 - 1 - 210000, RegId.raw ⟨77, 2⟩) : Nat × List Nat) ∧
    (KT.pair (.leb 64) (.vec 6)).wf = true ∧ (KT.pair (.leb 64) (.vec 6)).ordered = true := by
  refine ⟨⟨?_, ?_, ?_, ?_⟩, rfl, rfl⟩
  · show (2 ^ 64 - 1 - 210000 : Nat) < 2 ^ 64
    omega
  · rfl
  · intro b hb
    have : RegId.raw ⟨77, 2⟩ = [77, 0, 0, 0, 2, 0] := by decide
    rw [show ((2 ^ 64 - 1 - 210000, RegId.raw ⟨77, 2⟩) : Nat × List Nat).2 = RegId.raw ⟨77, 2⟩ from rfl, this] at hb
    simp at hb; omega
  · omega

end Verif.Codec
