import Verif.Codec.Model
/-! # Helper lemmas for the encodings -/
namespace Verif.Codec

/-! ## VarInt -/

/-- The bytes of a VarInt, written functionally: the digits before `acc`. -/
def varBytes (n : Nat) (acc : List Nat) : List Nat :=
  let b := n % 128 + (if acc.length = 0 then 0 else 128)
  if n ≤ 127 then b :: acc else varBytes (n / 128 - 1) (b :: acc)
termination_by n
decreasing_by omega

theorem varBytes_length (n : Nat) : ∀ acc, (varBytes n acc).length = sizeVarInt n + acc.length := by
  induction n using Nat.strongRecOn with
  | _ n ih =>
    intro acc
    rw [varBytes, sizeVarInt]
    by_cases h : n ≤ 127
    · simp [h]; omega
    · simp only [h, if_false]
      rw [ih _ (by omega)]
      simp; omega

theorem writeLoop_eq (w n : Nat) : ∀ acc, sizeVarInt n + acc.length ≤ (w + 6) / 7 →
    writeVarIntLoop w n acc = some (varBytes n acc) := by
  induction n using Nat.strongRecOn with
  | _ n ih =>
    intro acc hl
    rw [writeVarIntLoop, varBytes]
    rw [sizeVarInt] at hl
    by_cases h : n ≤ 127
    · simp only [h, if_true] at hl ⊢
      rw [if_pos (by omega)]
    · simp only [h, if_false] at hl ⊢
      rw [if_pos (by omega), ih _ (by omega)]
      simp only [List.length_cons]; omega

theorem writeLoop_none (w n : Nat) : ∀ acc, ¬ sizeVarInt n + acc.length ≤ (w + 6) / 7 →
    writeVarIntLoop w n acc = none := by
  induction n using Nat.strongRecOn with
  | _ n ih =>
    intro acc hl
    rw [writeVarIntLoop]
    rw [sizeVarInt] at hl
    by_cases h : n ≤ 127
    · simp only [h, if_true] at hl ⊢
      rw [if_neg (by omega)]
    · simp only [h, if_false] at hl ⊢
      split
      · rw [ih _ (by omega)]; simp only [List.length_cons]; omega
      · rfl

/-- A number needing `k` bytes is at least `128^(k-1)`. -/
theorem pow_le_of_size (n : Nat) : 128 ^ (sizeVarInt n - 1) ≤ n + 1 := by
  induction n using Nat.strongRecOn with
  | _ n ih =>
    rw [sizeVarInt]
    by_cases h : n ≤ 127
    · simp [h]
    · simp only [h, if_false]
      have := ih (n / 128 - 1) (by omega)
      have hp : 1 ≤ sizeVarInt (n / 128 - 1) := by rw [sizeVarInt]; split <;> omega
      have e : 1 + sizeVarInt (n / 128 - 1) - 1 = (sizeVarInt (n / 128 - 1) - 1) + 1 := by omega
      rw [e, Nat.pow_succ]
      omega

theorem size_pos (n : Nat) : 1 ≤ sizeVarInt n := by rw [sizeVarInt]; split <;> omega

/-- Number of bytes for a `w`-bit number. -/
theorem size_le (w n : Nat) (hw : 0 < w) (h : n < 2 ^ w) : sizeVarInt n ≤ (w + 6) / 7 := by
  have h1 := pow_le_of_size n
  have h2 := size_pos n
  rcases Nat.lt_or_ge ((w + 6) / 7) (sizeVarInt n) with hc | hc
  · exfalso
    have h3 : (w + 6) / 7 ≤ sizeVarInt n - 1 := by omega
    have h4 : (128 : Nat) ^ ((w + 6) / 7) ≤ 128 ^ (sizeVarInt n - 1) := Nat.pow_le_pow_right (by omega) h3
    have h5 : (128 : Nat) ^ ((w + 6) / 7) = 2 ^ (7 * ((w + 6) / 7)) := by
      rw [show (128 : Nat) = 2 ^ 7 from rfl, ← Nat.pow_mul]
    have h6 : (2 : Nat) ^ w ≤ 2 ^ (7 * ((w + 6) / 7)) := Nat.pow_le_pow_right (by omega) (by omega)
    -- 2^w ≤ n + 1 ≤ 2^w, so n + 1 = 128^k; but then n needs only k bytes
    have h7 : n + 1 = 2 ^ w := by omega
    have h8 : 128 ^ (sizeVarInt n - 1) = n + 1 := by omega
    have h9 : sizeVarInt n - 1 ≠ 0 := by omega
    -- n ≥ 128, and one more step gives a strict bound
    have h10 : ¬ n ≤ 127 := by
      intro hh; rw [sizeVarInt, if_pos hh] at hc; omega
    have h11 := pow_le_of_size (n / 128 - 1)
    have h12 : sizeVarInt n = 1 + sizeVarInt (n / 128 - 1) := by
      rw [sizeVarInt.eq_1 n, if_neg h10]
    have h13 := size_pos (n / 128 - 1)
    have e : sizeVarInt n - 1 = (sizeVarInt (n / 128 - 1) - 1) + 1 := by omega
    rw [e, Nat.pow_succ] at h8
    omega
  · exact hc

/-- Reading the digits in front of `acc`: accumulator `m` has been shifted in before. -/
theorem read_varBytes (w : Nat) (n : Nat) : ∀ (acc r : List Nat) , n < 2 ^ w →
    readVarIntLoop w 0 (varBytes n acc ++ r) =
      if acc.length = 0 then some (n, r) else readVarIntLoop w ((n + 1) % 2 ^ w) (acc ++ r) := by
  induction n using Nat.strongRecOn with
  | _ n ih =>
    intro acc r hn
    rw [varBytes]
    by_cases h : n ≤ 127
    · simp only [h, if_true, List.cons_append, readVarIntLoop]
      have e1 : n % 128 = n := Nat.mod_eq_of_lt (by omega)
      by_cases ha : acc.length = 0
      · have : acc = [] := List.length_eq_zero_iff.1 ha
        subst this
        simp only [List.length_nil, if_true, Nat.add_zero, e1, Nat.zero_mul, Nat.zero_add]
        rw [if_neg (by omega), Nat.mod_eq_of_lt hn]; rfl
      · simp only [ha, if_false]
        rw [if_pos (by omega)]
        have : (n % 128 + 128) % 128 = n := by omega
        simp only [Nat.zero_mul, Nat.zero_add, this, Nat.mod_eq_of_lt hn]
    · simp only [h, if_false]
      have hlt : n / 128 - 1 < 2 ^ w := by omega
      rw [ih _ (by omega) _ _ hlt]
      simp only [List.length_cons, Nat.succ_ne_zero, if_false, List.cons_append, readVarIntLoop]
      have e0 : n / 128 - 1 + 1 = n / 128 := by omega
      have e1 : (n / 128) % 2 ^ w = n / 128 := Nat.mod_eq_of_lt (by omega)
      rw [e0, e1]
      by_cases ha : acc.length = 0
      · have : acc = [] := List.length_eq_zero_iff.1 ha
        subst this
        simp only [List.length_nil, if_true, Nat.add_zero]
        have e2 : n / 128 * 128 + n % 128 % 128 = n := by omega
        rw [if_neg (by omega), e2, Nat.mod_eq_of_lt hn]; rfl
      · simp only [ha, if_false]
        have e2 : n / 128 * 128 + (n % 128 + 128) % 128 = n := by omega
        rw [if_pos (by omega), e2, Nat.mod_eq_of_lt hn]

theorem varBytes_bytes (n : Nat) : ∀ acc, Bytes acc → Bytes (varBytes n acc) := by
  induction n using Nat.strongRecOn with
  | _ n ih =>
    intro acc ha
    rw [varBytes]
    have hb : Bytes ((n % 128 + if acc.length = 0 then 0 else 128) :: acc) := by
      intro b hb
      rcases List.mem_cons.1 hb with h | h
      · subst h; split <;> omega
      · exact ha b h
    by_cases h : n ≤ 127
    · simp only [h, if_true]; exact hb
    · simp only [h, if_false]; exact ih _ (by omega) _ hb

/-! ## Compact size -/

theorem leBytes_length : ∀ k n, (leBytes k n).length = k
  | 0, _ => rfl
  | k + 1, n => by simp [leBytes, leBytes_length k]

theorem leBytes_bytes : ∀ k n, Bytes (leBytes k n)
  | 0, _ => by intro b hb; simp [leBytes] at hb
  | k + 1, n => by
    intro b hb
    rcases List.mem_cons.1 hb with h | h
    · omega
    · exact leBytes_bytes k _ b h

theorem readLE_leBytes : ∀ k n r, n < 256 ^ k → readLE k (leBytes k n ++ r) = some (n, r)
  | 0, n, r, h => by simp [readLE, leBytes]; omega
  | k + 1, n, r, h => by
    rw [Nat.pow_succ] at h
    simp only [leBytes, List.cons_append, readLE]
    rw [readLE_leBytes k (n / 256) r (by omega)]
    simp; omega

theorem readLE_some : ∀ k l n r, Bytes l → readLE k l = some (n, r) → l = leBytes k n ++ r ∧ n < 256 ^ k
  | 0, l, n, r, _, h => by
    simp only [readLE, Option.some.injEq, Prod.mk.injEq] at h
    obtain ⟨h1, h2⟩ := h; subst h1; subst h2
    exact ⟨rfl, by simp⟩
  | k + 1, [], n, r, _, h => by simp [readLE] at h
  | k + 1, b :: l, n, r, hb, h => by
    simp only [readLE, Option.map_eq_some_iff] at h
    obtain ⟨⟨m, q⟩, h1, h2⟩ := h
    simp only [Prod.mk.injEq] at h2
    obtain ⟨h2, h3⟩ := h2
    subst h3
    obtain ⟨i1, i2⟩ := readLE_some k l m q (fun x hx => hb x (List.mem_cons_of_mem _ hx)) h1
    have hb' : b < 256 := hb b List.mem_cons_self
    have e1 : n % 256 = b := by omega
    have e2 : n / 256 = m := by omega
    refine ⟨by simp only [leBytes, e1, e2, List.cons_append, ← i1], ?_⟩
    rw [Nat.pow_succ]; omega

/-! ## Fixed-width base 128 -/

theorem lebBytes_length : ∀ k n, (lebBytes k n).length = k
  | 0, _ => rfl
  | k + 1, n => by simp [lebBytes, lebBytes_length k]

theorem lebBytes_small : ∀ k n, ∀ b ∈ lebBytes k n, b < 128
  | 0, _, b, hb => by simp [lebBytes] at hb
  | k + 1, n, b, hb => by
    simp only [lebBytes, List.mem_append, List.mem_singleton] at hb
    rcases hb with h | h
    · exact lebBytes_small k _ b h
    · omega

theorem or_small (v b : Nat) (h : b < 128) : v * 128 ||| b = v * 128 + b := by
  have := Nat.shiftLeft_add_eq_or_of_lt (i := 7) (b := b) h v
  rw [Nat.shiftLeft_eq] at this
  exact this.symm

theorem lebLoop_append (w : Nat) : ∀ k m v (l r : List Nat), l.length = k →
    lebLoop w (k + m) v (l ++ r) = (lebLoop w k v l).bind (fun p => lebLoop w m p.1 r)
  | 0, m, v, l, r, h => by
    have : l = [] := List.length_eq_zero_iff.1 h
    subst this; simp [lebLoop]
  | k + 1, m, v, [], r, h => by simp at h
  | k + 1, m, v, b :: l, r, h => by
    have h' : l.length = k := by simpa using h
    have e : k + 1 + m = (k + m) + 1 := by omega
    rw [e, List.cons_append]
    simp only [lebLoop]
    exact lebLoop_append w k m _ l r h'

theorem lebLoop_rest (w : Nat) : ∀ k v (l r : List Nat), l.length = k →
    lebLoop w k v (l ++ r) = (lebLoop w k v l).map (fun p => (p.1, p.2 ++ r))
  | 0, v, l, r, h => by
    have : l = [] := List.length_eq_zero_iff.1 h
    subst this; simp [lebLoop]
  | k + 1, v, [], r, h => by simp at h
  | k + 1, v, b :: l, r, h => by
    have h' : l.length = k := by simpa using h
    simp only [lebLoop, List.cons_append]
    exact lebLoop_rest w k _ l r h'

theorem lebLoop_lebBytes (w : Nat) : ∀ k n, n < 2 ^ w → n < 128 ^ k →
    lebLoop w k 0 (lebBytes k n) = some (n, [])
  | 0, n, _, h => by simp [lebLoop, lebBytes]; omega
  | k + 1, n, h, hk => by
    simp only [lebBytes]
    rw [lebLoop_append w k 1 0 _ _ (lebBytes_length k _)]
    rw [Nat.pow_succ] at hk
    rw [lebLoop_lebBytes w k (n / 128) (by omega) (by omega)]
    simp only [Option.bind_some, lebLoop]
    have : n / 128 * 128 ||| n % 128 = n := by rw [or_small _ _ (by omega)]; omega
    rw [this, Nat.mod_eq_of_lt h]

theorem lt_pow_leb (w n : Nat) (h : n < 2 ^ w) : n < 128 ^ lebSize w := by
  have : (2 : Nat) ^ w ≤ 2 ^ (7 * lebSize w) := Nat.pow_le_pow_right (by omega) (by unfold lebSize; omega)
  rw [show (128 : Nat) = 2 ^ 7 from rfl, ← Nat.pow_mul]
  omega

/-! ## Byte order -/

theorem bytesLt_append : ∀ (x y u v : List Nat), x.length = y.length →
    bytesLt (x ++ u) (y ++ v) = (bytesLt x y || (!bytesLt y x && bytesLt u v))
  | [], [], u, v, _ => by simp [bytesLt]
  | [], _ :: _, _, _, h => by simp at h
  | _ :: _, [], _, _, h => by simp at h
  | a :: x, b :: y, u, v, h => by
    have h' : x.length = y.length := by simpa using h
    simp only [List.cons_append, bytesLt]
    by_cases h1 : a < b
    · simp [h1]
    · by_cases h2 : b < a
      · simp [h1, h2]
      · simp only [h1, h2, if_false]; exact bytesLt_append x y u v h'

theorem bytesLt_irrefl : ∀ x, bytesLt x x = false
  | [] => rfl
  | a :: x => by simp [bytesLt, bytesLt_irrefl x]

theorem bytesLt_common (p u v : List Nat) : bytesLt (p ++ u) (p ++ v) = bytesLt u v := by
  rw [bytesLt_append p p u v rfl, bytesLt_irrefl]; rfl

theorem bytesLt_leb : ∀ k m n, m < 128 ^ k → n < 128 ^ k →
    bytesLt (lebBytes k m) (lebBytes k n) = decide (m < n)
  | 0, m, n, h1, h2 => by
    simp at h1 h2; subst h1; subst h2; rfl
  | k + 1, m, n, h1, h2 => by
    rw [Nat.pow_succ] at h1 h2
    simp only [lebBytes]
    rw [bytesLt_append _ _ _ _ (by rw [lebBytes_length, lebBytes_length]),
      bytesLt_leb k (m / 128) (n / 128) (by omega) (by omega),
      bytesLt_leb k (n / 128) (m / 128) (by omega) (by omega)]
    have hl : bytesLt [m % 128] [n % 128] = decide (m % 128 < n % 128) := by
      simp only [bytesLt]
      by_cases h : m % 128 < n % 128
      · simp [h]
      · by_cases h' : n % 128 < m % 128 <;> simp [h, h']
    rw [hl, ← decide_not, ← Bool.decide_and, ← Bool.decide_or]
    congr 1
    exact propext ⟨fun h => by omega, fun h => by omega⟩

theorem bytesLt_nat (m n : Nat) : bytesLt [m] [n] = decide (m < n) := by
  simp only [bytesLt]
  by_cases h : m < n
  · simp [h]
  · by_cases h' : n < m <;> simp [h, h']

/-! ## Entry keys -/

/-- All encodings of a tail-free ordered shape have the same length. -/
def KT.len : KT → Nat
  | .blob n => n
  | .u8 => 1
  | .leb w => lebSize w
  | .vec n => n + 1
  | .pair a b => a.len + b.len
  | _ => 0

theorem writeCompactSize_small {n : Nat} (h : n < 253) : writeCompactSize n = [n] := by
  simp [writeCompactSize, h]

theorem encStr_len (v : List Nat) (n : Nat) (h1 : v.length = n) (h3 : n < 253) :
    (encStr v).length = n + 1 := by
  unfold encStr
  rw [h1, writeCompactSize_small h3, List.length_append, h1]
  simp; omega

theorem blt_decide (a b : Nat) : Nat.blt a b = decide (a < b) :=
  Bool.eq_iff_iff.2 (by rw [Nat.blt_eq, decide_eq_true_eq])

theorem u8_order (a b : Nat) : bytesLt [a] [b] = Nat.blt a b := by rw [bytesLt_nat, blt_decide]

theorem leb_order (w a b : Nat) (ha : a < 2 ^ w) (hb : b < 2 ^ w) :
    bytesLt (encLeb w a) (encLeb w b) = Nat.blt a b := by
  unfold encLeb
  rw [bytesLt_leb _ a b (lt_pow_leb w a ha) (lt_pow_leb w b hb), blt_decide]

theorem vec_order (a b : List Nat) (n : Nat) (ha : a.length = n) (hb : b.length = n) :
    bytesLt (encStr a) (encStr b) = bytesLt a b := by
  unfold encStr
  rw [ha, hb]; exact bytesLt_common _ _ _

theorem wf_of_noTail : ∀ q : KT, q.noTail = true → q.wf = true
  | .pair a b, h => by
    simp only [KT.noTail, KT.wf, Bool.and_eq_true] at h ⊢
    exact ⟨h.1, wf_of_noTail b h.2⟩
  | .blob _, _ => rfl
  | .u8, _ => rfl
  | .leb _, _ => rfl
  | .str, _ => rfl
  | .vec _, _ => rfl
  | .tail, _ => rfl
  | .optVar _, _ => rfl

theorem enc_len : ∀ (t : KT) (v : t.Val), t.noTail = true → t.ordered = true → t.Ok v →
    (t.enc v).length = t.len
  | .blob _, _, _, _, h => h.1
  | .u8, _, _, _, _ => rfl
  | .leb _, _, _, _, _ => lebBytes_length _ _
  | .str, _, _, ho, _ => by simp [KT.ordered] at ho
  | .vec n, v, _, _, h => encStr_len v n h.1 h.2.2
  | .tail, _, ht, _, _ => by simp [KT.noTail] at ht
  | .optVar _, _, _, ho, _ => by simp [KT.ordered] at ho
  | .pair a b, v, ht, ho, h => by
    simp only [KT.noTail, KT.ordered, Bool.and_eq_true] at ht ho
    simp only [KT.enc, KT.len, List.length_append]
    rw [enc_len a v.1 ht.1 ho.1 h.1, enc_len b v.2 ht.2 ho.2 h.2]

theorem enc_order : ∀ (t : KT) (a b : t.Val), t.wf = true → t.ordered = true → t.Ok a → t.Ok b →
    bytesLt (t.enc a) (t.enc b) = t.lt a b
  | .blob _, _, _, _, _, _, _ => rfl
  | .u8, a, b, _, _, _, _ => u8_order a b
  | .leb w, a, b, _, _, ha, hb => leb_order w a b ha hb
  | .str, _, _, _, ho, _, _ => by simp [KT.ordered] at ho
  | .vec n, a, b, _, _, ha, hb => vec_order a b n ha.1 hb.1
  | .tail, _, _, _, _, _, _ => rfl
  | .optVar _, _, _, _, ho, _, _ => by simp [KT.ordered] at ho
  | .pair s t, a, b, hw, ho, ha, hb => by
    simp only [KT.wf, KT.ordered, Bool.and_eq_true] at hw ho
    have hs : s.wf = true := wf_of_noTail s hw.1
    simp only [KT.enc, KT.lt]
    rw [bytesLt_append _ _ _ _ (by rw [enc_len s a.1 hw.1 ho.1 ha.1, enc_len s b.1 hw.1 ho.1 hb.1]),
      enc_order s a.1 b.1 hs ho.1 ha.1 hb.1, enc_order s b.1 a.1 hs ho.1 hb.1 ha.1,
      enc_order t a.2 b.2 hw.2 ho.2 ha.2 hb.2]

end Verif.Codec
