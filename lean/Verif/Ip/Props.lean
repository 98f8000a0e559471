import Verif.Ip.Class

/-!
# C158, C159, C160: groups, subnets and classes of addresses

The specification reads an address as a number of 128 bits (`num`) and speaks of its first bits.
-/
namespace Verif.Ip

/-! ## C158 -/

/-- Who owns the addresses: 16 bits of an IPv4 address, however it is tunnelled; 4 bits of an onion; 36 bits at one provider, 32 elsewhere. -/
inductive Region where
  | v4 (n : Nat)
  | tor (n : Nat)
  | he (n : Nat)
  | v6 (n : Nat)
deriving DecidableEq

def region (n : Nat) : Region :=
  if n / 2 ^ 32 = 0xffff ∨ n / 2 ^ 32 = 0xffff0000 ∨ n / 2 ^ 32 = 0x64ff9b * 2 ^ 64 then .v4 (n % 2 ^ 32 / 2 ^ 16)
  else if n / 2 ^ 112 = 0x2002 then .v4 (n / 2 ^ 96 % 2 ^ 16)
  else if n / 2 ^ 96 = 0x20010000 then .v4 ((2 ^ 32 - 1 - n % 2 ^ 32) / 2 ^ 16)
  else if Onion n then .tor (n / 2 ^ 76 % 16)
  else if n / 2 ^ 96 = 0x20010470 then .he (n / 2 ^ 92)
  else .v6 (n / 2 ^ 96)

/-- How a region is written. -/
def encode : Region → List Nat
  | .v4 n => [1, n / 256, n % 256]
  | .tor n => [3, n * 16 + 15]
  | .he n => [2, 0x20, 0x01, 0x04, 0x70, n % 16 * 16 + 15]
  | .v6 n => [2, n / 2 ^ 24, n / 2 ^ 16 % 256, n / 2 ^ 8 % 256, n % 256]

theorem or_table : ∀ x < 256, x ||| 15 = x / 16 * 16 + 15 := by decide +kernel
theorem xor_table : ∀ x < 256, x ^^^ 255 = 255 - x := by decide +kernel

theorem region_lt {n : Nat} (h : n < 2 ^ 128) : (∀ m, region n = .v4 m → m < 2 ^ 16) ∧ (∀ m, region n = .tor m → m < 16) ∧
    (∀ m, region n = .he m → m / 16 = 0x20010470) ∧ (∀ m, region n = .v6 m → m < 2 ^ 32) := by
  have hq : n / 2 ^ 96 < 2 ^ 32 := by
    rw [Nat.div_lt_iff_lt_mul (Nat.two_pow_pos _), ← Nat.pow_add]; exact h
  have he : n / 2 ^ 92 / 16 = n / 2 ^ 96 := by
    rw [Nat.div_div_eq_div_mul, show (2 : Nat) ^ 92 * 16 = 2 ^ 96 by decide]
  unfold region
  refine ⟨?_, ?_, ?_, ?_⟩ <;> intro m hm <;> repeat' split at hm
  all_goals first | (cases hm; omega) | cases hm

theorem encode_inj {n m : Nat} (hn : n < 2 ^ 128) (hm : m < 2 ^ 128) (h : encode (region n) = encode (region m)) : region n = region m := by
  obtain ⟨a1, a2, a3, a4⟩ := region_lt hn
  obtain ⟨b1, b2, b3, b4⟩ := region_lt hm
  cases hr : region n <;> cases hs : region m <;> rw [hr, hs] at h <;> simp only [encode, List.cons.injEq, and_true, reduceCtorEq, and_false] at h
  · have := a1 _ hr; have := b1 _ hs
    congr 1; omega
  · congr 1; omega
  · have := a3 _ hr; have := b3 _ hs
    congr 1; omega
  · have := a4 _ hr; have := b4 _ hs
    congr 1; omega

theorem group_encodes {a : List Nat} (h : Addr a) : getGroup a = if Unroutable (num a) then [0] else encode (region (num a)) := by
  obtain ⟨h15, h14, h13, h12, hq⟩ := high h
  obtain ⟨h3, h2⟩ := low h
  have hr := routable_iff h
  unfold getGroup
  dsimp only
  by_cases hu : Unroutable (num a)
  · have hb : isRoutable a = false := by
      cases hx : isRoutable a with
      | false => rfl
      | true => exact absurd hu (hr.1 hx)
    rw [hb, if_pos hu]
    rfl
  · have hb : isRoutable a = true := hr.2 hu
    have hl : isLocal a = false := by
      unfold isRoutable at hb
      simp only [Bool.and_eq_true, Bool.not_eq_true', Bool.or_eq_false_iff] at hb
      exact hb.2.2
    rw [hb, hl, if_neg hu, if_neg (show ¬ (!true) = true by decide), four_iff h, siit_iff h, nat64_iff h, sixto4_iff h, teredo_iff h, onion_iff h]
    unfold region
    by_cases c1 : num a / 2 ^ 32 = 0xffff ∨ num a / 2 ^ 32 = 0xffff0000 ∨ num a / 2 ^ 32 = 0x64ff9b * 2 ^ 64
    · rw [if_pos c1, if_pos (by simp only [Bool.or_eq_true, decide_eq_true_iff]; unfold Four; tauto)]
      show [1, getByte a 3, getByte a 2] = _
      rw [h3, h2, encode]
      have hv : num a % 2 ^ 32 < 2 ^ 32 := Nat.mod_lt _ (Nat.two_pow_pos _)
      generalize num a % 2 ^ 32 = v at *
      rw [show v / 2 ^ 24 = v / 2 ^ 16 / 256 by omega]
    · rw [if_neg c1, if_neg (by simp only [Bool.or_eq_true, decide_eq_true_iff]; unfold Four; tauto)]
      by_cases c2 : num a / 2 ^ 112 = 0x2002
      · rw [if_pos c2, if_pos (by rw [decide_eq_true_iff]; exact c2)]
        show [1, getByte a 13, getByte a 12] = _
        rw [h13, h12, encode]
        generalize num a / 2 ^ 96 = q at *
        rw [show q / 2 ^ 8 % 256 = q % 2 ^ 16 / 256 by omega, show q % 2 ^ 16 % 256 = q % 256 by omega]
      · rw [if_neg c2, if_neg (by rw [decide_eq_true_iff]; exact c2)]
        by_cases c3 : num a / 2 ^ 96 = 0x20010000
        · rw [if_pos c3, if_pos (by rw [decide_eq_true_iff]; exact c3), encode, xor_table _ (byte_lt h 3 (by decide)), xor_table _ (byte_lt h 2 (by decide)), h3, h2]
          have hv : num a % 2 ^ 32 < 2 ^ 32 := Nat.mod_lt _ (Nat.two_pow_pos _)
          generalize num a % 2 ^ 32 = v at *
          rw [show 255 - v / 2 ^ 24 = (2 ^ 32 - 1 - v) / 2 ^ 16 / 256 by omega, show 255 - v / 2 ^ 16 % 256 = (2 ^ 32 - 1 - v) / 2 ^ 16 % 256 by omega]
        · rw [if_neg c3, if_neg (by rw [decide_eq_true_iff]; exact c3)]
          by_cases c4 : Onion (num a)
          · rw [if_pos c4, if_pos (by rw [decide_eq_true_iff]; exact c4)]
            show [3, getByte a 9 ||| 15] = _
            rw [or_table _ (byte_lt h 9 (by decide)), byte h 9 (by decide), encode]
            have e : num a / 2 ^ 76 = num a / 2 ^ (8 * 9) / 16 := by
              rw [Nat.div_div_eq_div_mul, show (2 : Nat) ^ (8 * 9) * 16 = 2 ^ 76 by decide]
            rw [e]
            generalize num a / 2 ^ (8 * 9) = w
            rw [show w % 256 / 16 = w / 16 % 16 by omega]
          · rw [if_neg c4, if_neg (by rw [decide_eq_true_iff]; exact c4)]
            by_cases c5 : num a / 2 ^ 96 = 0x20010470
            · rw [if_pos c5, if_pos (by rw [h15, h14, h13, h12, c5]; decide)]
              show [2, getByte a 15, getByte a 14, getByte a 13, getByte a 12, getByte a 11 ||| 15] = _
              rw [or_table _ (byte_lt h 11 (by decide)), byte h 11 (by decide), encode, h15, h14, h13, h12, c5]
              have e : num a / 2 ^ 92 = num a / 2 ^ (8 * 11) / 16 := by
                rw [Nat.div_div_eq_div_mul, show (2 : Nat) ^ (8 * 11) * 16 = 2 ^ 92 by decide]
              rw [e]
              generalize num a / 2 ^ (8 * 11) = w
              rw [show w % 256 / 16 = w / 16 % 16 by omega]
              rfl
            · rw [if_neg c5, if_neg]
              · show [2, getByte a 15, getByte a 14, getByte a 13, getByte a 12] = _
                rw [h15, h14, h13, h12, encode]
              · rw [h15, h14, h13, h12]
                simp only [Bool.and_eq_true, beq_iff_eq]
                generalize num a / 2 ^ 96 = q at *
                omega

/-- Two addresses are in one group exactly if neither is routable, or both are and belong to one region. -/
theorem same_group {a b : List Nat} (ha : Addr a) (hb : Addr b) :
    getGroup a = getGroup b ↔
      (Unroutable (num a) ∧ Unroutable (num b)) ∨ (¬ Unroutable (num a) ∧ ¬ Unroutable (num b) ∧ region (num a) = region (num b)) := by
  have henc : ∀ r, encode r ≠ [0] := by
    intro r hr
    cases r <;> simp [encode] at hr
  rw [group_encodes ha, group_encodes hb]
  by_cases h1 : Unroutable (num a) <;> by_cases h2 : Unroutable (num b)
  · simp [h1, h2]
  · rw [if_pos h1, if_neg h2]
    simp only [h1, h2, and_false, not_true, false_and, or_false, iff_false]
    exact fun h => henc _ h.symm
  · rw [if_neg h1, if_pos h2]
    simp only [h1, h2, false_and, not_true, and_false, or_false, iff_false]
    exact fun h => henc _ h
  · rw [if_neg h1, if_neg h2]
    simp only [h1, h2, false_and, not_false_eq_true, true_and, false_or]
    exact ⟨encode_inj (num16 ha) (num16 hb), fun h => by rw [h]⟩

/-- 8.8.0.1 and the 6to4 address of 8.8.255.1 are in one group, 8.9.0.1 in another. -/
example : Addr [0, 0, 0, 0, 0, 0, 0, 0, 0, 0, 255, 255, 8, 8, 0, 1] ∧ Addr [0x20, 2, 8, 8, 255, 1, 0, 0, 0, 0, 0, 0, 0, 0, 0, 9] ∧
    getGroup [0, 0, 0, 0, 0, 0, 0, 0, 0, 0, 255, 255, 8, 8, 0, 1] = getGroup [0x20, 2, 8, 8, 255, 1, 0, 0, 0, 0, 0, 0, 0, 0, 0, 9] ∧
    getGroup [0, 0, 0, 0, 0, 0, 0, 0, 0, 0, 255, 255, 8, 8, 0, 1] ≠ getGroup [0, 0, 0, 0, 0, 0, 0, 0, 0, 0, 255, 255, 8, 9, 0, 1] ∧
    region (num [0x20, 2, 8, 8, 255, 1, 0, 0, 0, 0, 0, 0, 0, 0, 0, 9]) = .v4 0x808 := by
  decide +kernel

/-! ## C159 -/

/-- The width of an address: IPv4 addresses have 32 bits of their own. -/
def width (n : Nat) : Nat := if Four n then 32 else 128

theorem startOfs_eq {a : List Nat} (h : Addr a) : startOfs a * 8 + width (num a) = 128 ∧ (startOfs a = 12 ∨ startOfs a = 0) := by
  unfold startOfs width
  rw [four_iff h]
  by_cases hf : Four (num a)
  · rw [if_pos hf, if_pos (decide_eq_true hf)]; exact ⟨rfl, Or.inl rfl⟩
  · rw [if_neg hf, if_neg (by rw [decide_eq_true_iff]; exact hf)]; exact ⟨rfl, Or.inr rfl⟩

theorem subBits_eq {a : List Nat} (h : Addr a) {n : Nat} (hn : n ≤ width (num a)) :
    subBits a n = { network := andBytes a (maskList 16 (n + startOfs a * 8)), netmask := maskList 16 (n + startOfs a * 8), valid := true } := by
  have hs := (startOfs_eq h).1
  unfold subBits
  dsimp only
  rw [if_pos (by omega), Int.toNat_natCast, clearBits_table _ (by omega)]

theorem subBits_invalid {a : List Nat} (h : Addr a) {n : Int} (hn : ¬ (0 ≤ n ∧ n ≤ width (num a))) : (subBits a n).valid = false := by
  have hs := (startOfs_eq h).1
  unfold subBits
  dsimp only
  rw [if_neg (by omega)]

/-- A subnet of `n` bits contains exactly the valid addresses with the same first `n` bits of that kind of address. -/
theorem match_prefix {a x : List Nat} (ha : Addr a) (hx : Addr x) (n : Int) :
    subMatch (subBits a n) x = true ↔ (0 ≤ n ∧ n ≤ width (num a)) ∧ ¬ Invalid (num x) ∧
      num x / 2 ^ (width (num a) - n.toNat) = num a / 2 ^ (width (num a) - n.toNat) := by
  by_cases hn : 0 ≤ n ∧ n ≤ width (num a)
  · obtain ⟨k, hk⟩ := Int.eq_ofNat_of_zero_le hn.1
    subst hk
    have hs := (startOfs_eq ha).1
    rw [subBits_eq ha (by omega), Int.toNat_natCast]
    unfold subMatch
    have hm := mask_eq (a := x) (b := a) (n := k + startOfs a * 8) (by rw [hx.1, ha.1]) hx.2 ha.2 (by rw [hx.1]; omega)
    rw [hx.1, show 8 * 16 - (k + startOfs a * 8) = width (num a) - k by omega] at hm
    rw [← hm, ← valid_iff hx]
    simp only [hn, true_and]
    cases isValid x <;> simp
  · simp only [hn, false_and, iff_false]
    unfold subMatch
    rw [subBits_invalid ha hn]
    simp

/-- A subnet given by a mask contains exactly the valid addresses equal in the bits of the mask; of an IPv4 subnet, IPv4 addresses only. -/
theorem match_mask {a m x : List Nat} (ha : Addr a) (hm : Addr m) (hx : Addr x) :
    subMatch (subMask a m) x = true ↔ ¬ Invalid (num x) ∧
      ∀ i < 16, (Four (num a) ∧ i < 12 → x.getD i 0 = a.getD i 0) ∧ (¬ (Four (num a) ∧ i < 12) → x.getD i 0 &&& m.getD i 0 = a.getD i 0 &&& m.getD i 0) := by
  have hzip : ∀ (u v : List Nat) (i : Nat), u.length = v.length → (andBytes u v).getD i 0 = u.getD i 0 &&& v.getD i 0 := by
    intro u
    induction u with
    | nil => intro v i h; cases v with
      | nil => simp [andBytes]
      | cons y v => cases h
    | cons y u ih =>
      intro v i h
      cases v with
      | nil => cases h
      | cons z v =>
        cases i with
        | zero => rfl
        | succ i => exact ih v i (by simpa using h)
  have hext : ∀ u v : List Nat, u.length = 16 → v.length = 16 → (u = v ↔ ∀ i < 16, u.getD i 0 = v.getD i 0) := by
    intro u v hu hv
    constructor
    · intro h i _; rw [h]
    · intro h
      apply List.ext_getElem (by rw [hu, hv])
      intro i h1 h2
      have := h i (by omega)
      rwa [List.getD_eq_getElem?_getD, List.getD_eq_getElem?_getD, List.getElem?_eq_getElem h1, List.getElem?_eq_getElem h2] at this
  have hso := startOfs_eq ha
  have hmask : (List.replicate (startOfs a) 255 ++ m.drop (startOfs a)).length = 16 := by
    rw [List.length_append, List.length_replicate, List.length_drop, hm.1]
    rcases hso.2 with h | h <;> rw [h]
  have hget : ∀ i < 16, (List.replicate (startOfs a) 255 ++ m.drop (startOfs a)).getD i 0 = if Four (num a) ∧ i < 12 then 255 else m.getD i 0 := by
    intro i hi
    have hf : Four (num a) ↔ startOfs a = 12 := by
      have := hso.1
      unfold width at this
      by_cases hf : Four (num a)
      · rw [if_pos hf] at this; exact ⟨fun _ => by omega, fun _ => hf⟩
      · rw [if_neg hf] at this; exact ⟨fun h => absurd h hf, fun h => by omega⟩
    simp only [hf]
    rcases hso.2 with h | h
    · rw [h]
      by_cases h12 : i < 12
      · rw [if_pos ⟨rfl, h12⟩, List.getD_eq_getElem?_getD, List.getElem?_append_left (by rw [List.length_replicate]; exact h12), List.getElem?_replicate, if_pos h12]
        rfl
      · rw [if_neg (fun e => h12 e.2), List.getD_eq_getElem?_getD, List.getElem?_append_right (by rw [List.length_replicate]; omega), List.length_replicate,
          List.getElem?_drop, List.getD_eq_getElem?_getD, show 12 + (i - 12) = i by omega]
    · rw [h, if_neg (by omega)]
      simp
  have hbyte : ∀ (u : List Nat) (i : Nat), Bytes u → u.getD i 0 < 256 := by
    intro u i hu
    rw [List.getD_eq_getElem?_getD]
    cases hk : u[i]? with
    | none => decide
    | some y => exact hu y (List.mem_of_getElem? hk)
  have key : (andBytes x (List.replicate (startOfs a) 255 ++ m.drop (startOfs a)) = andBytes a (List.replicate (startOfs a) 255 ++ m.drop (startOfs a))) ↔
      ∀ i < 16, (Four (num a) ∧ i < 12 → x.getD i 0 = a.getD i 0) ∧ (¬ (Four (num a) ∧ i < 12) → x.getD i 0 &&& m.getD i 0 = a.getD i 0 &&& m.getD i 0) := by
    rw [hext _ _ (by rw [andBytes_length (by rw [hmask, hx.1]), hx.1]) (by rw [andBytes_length (by rw [hmask, ha.1]), ha.1])]
    constructor
    · intro h i hi
      have := h i hi
      rw [hzip _ _ _ (by rw [hmask, hx.1]), hzip _ _ _ (by rw [hmask, ha.1]), hget i hi] at this
      constructor
      · intro hc
        rw [if_pos hc, and_255 _ (hbyte x i hx.2), and_255 _ (hbyte a i ha.2)] at this
        exact this
      · intro hc
        rw [if_neg hc] at this
        exact this
    · intro h i hi
      rw [hzip _ _ _ (by rw [hmask, hx.1]), hzip _ _ _ (by rw [hmask, ha.1]), hget i hi]
      by_cases hc : Four (num a) ∧ i < 12
      · rw [if_pos hc, (h i hi).1 hc]
      · rw [if_neg hc, (h i hi).2 hc]
  unfold subMatch subMask
  dsimp only
  rw [← key, ← valid_iff hx]
  cases isValid x <;> simp

/-- The subnet of one address contains that address, if it is valid, and no other. -/
theorem match_one {a x : List Nat} (ha : Addr a) (hx : Addr x) : subMatch (subOne a) x = true ↔ ¬ Invalid (num a) ∧ x = a := by
  have hf : andBytes x (List.replicate 16 255) = x := by
    have := andBytes_full hx.2
    rwa [hx.1] at this
  unfold subMatch subOne
  dsimp only
  rw [hf, ← valid_iff ha]
  constructor
  · intro h
    cases hva : isValid a <;> cases hvx : isValid x <;> rw [hva, hvx] at h <;> simp at h
    exact ⟨rfl, h⟩
  · rintro ⟨h1, h2⟩
    rw [h2, h1]
    simp

/-- The text of a subnet of `n` bits says `n`. -/
theorem text_bits {a : List Nat} (ha : Addr a) {n : Nat} (hn : n ≤ width (num a)) : maskText (subBits a n) = .inl n := by
  have hs := startOfs_eq ha
  have hnet : startOfs (subBits a n).network = startOfs a := by
    rw [subBits_eq ha hn]
    dsimp only
    have hb : Addr (andBytes a (maskList 16 (n + startOfs a * 8))) :=
      ⟨by rw [andBytes_length (by rw [maskList_length, ha.1]), ha.1], andBytes_bytes ha.2⟩
    -- the network is an IPv4 one exactly if the address is
    have hm := mask_eq (a := andBytes a (maskList 16 (n + startOfs a * 8))) (b := a) (n := n + startOfs a * 8) (by rw [hb.1, ha.1]) hb.2 ha.2 (by rw [hb.1]; omega)
    rw [hb.1, andBytes_idem] at hm
    have hpre := hm.1 rfl
    have hiff : Four (num (andBytes a (maskList 16 (n + startOfs a * 8)))) ↔ Four (num a) := by
      rcases Nat.lt_or_ge (n + startOfs a * 8) 96 with hlt | hge
      · have hna : ¬ Four (num a) := by
          intro hf
          have := hs.1
          unfold width at this
          rw [if_pos hf] at this
          omega
        simp only [hna, iff_false]
        intro hf
        have hbit : (andBytes a (maskList 16 (n + startOfs a * 8))).getD 11 0 % 2 = 0 := by
          have hget : ∀ (k l N : Nat), k < l → (maskList l N).getD k 0 = top (min 8 (N - 8 * k)) := by
            intro k
            induction k with
            | zero => intro l N hl; cases l with
              | zero => omega
              | succ l => rfl
            | succ k ih => intro l N hl; cases l with
              | zero => omega
              | succ l => rw [maskList, List.getD_cons_succ, ih l _ (by omega), show N - 8 - 8 * k = N - 8 * (k + 1) by omega]
          have hz : ∀ (u v : List Nat) (i : Nat), u.length = v.length → (andBytes u v).getD i 0 = u.getD i 0 &&& v.getD i 0 := by
            intro u
            induction u with
            | nil => intro v i h; cases v with
              | nil => simp [andBytes]
              | cons y v => cases h
            | cons y u ih =>
              intro v i h
              cases v with
              | nil => cases h
              | cons z v => cases i with
                | zero => rfl
                | succ i => exact ih v i (by simpa using h)
          have hb11 : a.getD 11 0 < 256 := by
            have := byte_lt ha 4 (by decide)
            exact this
          rw [hz _ _ _ (by rw [maskList_length, ha.1]), hget 11 16 _ (by decide), and_top _ (by omega) _ hb11]
          have : ∃ j, 8 - min 8 (n + startOfs a * 8 - 8 * 11) = j + 1 := ⟨7 - min 8 (n + startOfs a * 8 - 8 * 11), by omega⟩
          obtain ⟨j, hj⟩ := this
          rw [hj, Nat.pow_succ, ← Nat.mul_assoc, Nat.mul_mod_left]
        have h4 := byte hb 4 (by decide)
        unfold Four at hf
        have hf' : num (andBytes a (maskList 16 (n + startOfs a * 8))) / 2 ^ (8 * 4) = 0xffff := hf
        rw [hf'] at h4
        have h4' : (andBytes a (maskList 16 (n + startOfs a * 8))).getD 11 0 = 0xffff % 256 := h4
        rw [h4'] at hbit
        exact absurd hbit (by decide)
      · unfold Four
        have hdiv : ∀ N : Nat, N / 2 ^ 32 = N / 2 ^ (8 * 16 - (n + startOfs a * 8)) / 2 ^ (32 - (8 * 16 - (n + startOfs a * 8))) := by
          intro N
          rw [Nat.div_div_eq_div_mul, ← Nat.pow_add, show 8 * 16 - (n + startOfs a * 8) + (32 - (8 * 16 - (n + startOfs a * 8))) = 32 by omega]
        rw [hdiv, hpre, ← hdiv]
    have hsi : ∀ u v : List Nat, Addr u → Addr v → (Four (num u) ↔ Four (num v)) → startOfs u = startOfs v := by
      intro u v hu hv huv
      unfold startOfs
      rw [four_iff hu, four_iff hv]
      simp only [huv]
    exact hsi _ _ hb ha hiff
  unfold maskText
  rw [hnet, subBits_eq ha hn]
  dsimp only
  rw [maskList_drop _ _ _ (by rcases hs.2 with h | h <;> omega), show n + startOfs a * 8 - 8 * startOfs a = n by omega]
  have hc := (cidr_iff (m := maskList (16 - startOfs a) n) n (maskList_bytes _ _)).2 (by
    rw [maskList_length]; exact ⟨by omega, rfl⟩)
  rw [hc]

/-- A mask is printed as a number of bits exactly if it is that many ones followed by zeros. -/
theorem text_mask {m : List Nat} (hm : Bytes m) (n : Nat) : cidr m = some n ↔ n ≤ 8 * m.length ∧ m = maskList m.length n := cidr_iff n hm

/-- The text of a subnet is not its identity: a mask that clears a high bit of an IPv6 address can leave an IPv4 network, whose text
leaves out the first bytes of the mask. Both subnets print as 1.2.3.4/32, and only one contains 8000::ffff:102:304. -/
theorem text_ambiguous_violated : ∃ a m b x : List Nat, Addr a ∧ Addr m ∧ Addr b ∧ Addr x ∧
    (subMask a m).network = (subOne b).network ∧ maskText (subMask a m) = maskText (subOne b) ∧ (subMask a m).valid = true ∧ (subOne b).valid = true ∧
    subMatch (subMask a m) x = true ∧ subMatch (subOne b) x = false :=
  ⟨[0x80, 0, 0, 0, 0, 0, 0, 0, 0, 0, 255, 255, 1, 2, 3, 4], 0x7f :: List.replicate 15 255, [0, 0, 0, 0, 0, 0, 0, 0, 0, 0, 255, 255, 1, 2, 3, 4],
    [0x80, 0, 0, 0, 0, 0, 0, 0, 0, 0, 255, 255, 1, 2, 3, 4], by decide +kernel⟩

example : (subMatch (subBits [0, 0, 0, 0, 0, 0, 0, 0, 0, 0, 255, 255, 10, 20, 30, 40] 12) [0, 0, 0, 0, 0, 0, 0, 0, 0, 0, 255, 255, 10, 31, 1, 2]) = true ∧
    (subMatch (subBits [0, 0, 0, 0, 0, 0, 0, 0, 0, 0, 255, 255, 10, 20, 30, 40] 12) [0, 0, 0, 0, 0, 0, 0, 0, 0, 0, 255, 255, 10, 32, 1, 2]) = false ∧
    (subBits [0, 0, 0, 0, 0, 0, 0, 0, 0, 0, 255, 255, 10, 20, 30, 40] 33).valid = false ∧
    maskText (subMask [0, 0, 0, 0, 0, 0, 0, 0, 0, 0, 255, 255, 10, 20, 30, 40] [0, 0, 0, 0, 0, 0, 0, 0, 0, 0, 0, 0, 255, 0, 255, 0]) = .inr [255, 0, 255, 0] := by
  decide +kernel

/-! ## C160 -/

/-- What is valid and routable, as ranges; each address has one network. -/
theorem classes {a : List Nat} (h : Addr a) :
    (isValid a = true ↔ ¬ Invalid (num a)) ∧ (isRoutable a = true ↔ ¬ Unroutable (num a)) ∧
    (getNetwork a = 0 ↔ Unroutable (num a)) ∧ (getNetwork a = 1 ↔ ¬ Unroutable (num a) ∧ Four (num a)) ∧
    (getNetwork a = 3 ↔ Onion (num a)) ∧
    (isIPv6 a = true ↔ ¬ Four (num a) ∧ ¬ Onion (num a)) := by
  have hr := routable_iff h
  have hfo : ∀ n, Onion n → ¬ Four n := by
    intro n h1 h2
    unfold Onion at h1
    unfold Four at h2
    rw [show (2 : Nat) ^ 80 = 2 ^ 32 * 2 ^ 48 by decide, ← Nat.div_div_eq_div_mul, h2] at h1
    exact absurd h1 (by decide)
  -- the onion range is routable
  have hon : ∀ n, Onion n → ¬ Unroutable n := by
    intro n h1 h2
    have h1' := h1
    unfold Onion at h1
    have d : ∀ k, n / 2 ^ (80 + k) = 0xfd87d87eeb43 / 2 ^ k := by
      intro k; rw [Nat.pow_add, ← Nat.div_div_eq_div_mul, h1]
    have dlow : ∀ k, k ≤ 80 → n / 2 ^ k / 2 ^ (80 - k) = 0xfd87d87eeb43 := by
      intro k hk; rw [Nat.div_div_eq_div_mul, ← Nat.pow_add, Nat.add_sub_cancel' hk, h1]
    rcases h2 with (h2 | h2 | h2 | h2) | h2 | h2 | h2 | h2 | h2
    · have := dlow 56 (by decide); rw [h2] at this; exact absurd this (by decide)
    · rw [h2] at h1; exact absurd h1 (by decide)
    · have := d 16; rw [show 80 + 16 = 96 from rfl, h2] at this; exact absurd this (by decide)
    · exact hfo n h1' h2.1
    · rw [h2] at h1; exact absurd h1 (by decide)
    · have := d 20; rw [show 80 + 20 = 100 from rfl, h2] at this; exact absurd this (by decide)
    · have := dlow 64 (by decide); rw [h2] at this; exact absurd this (by decide)
    · exact h2.2 h1'
    · exact hfo n h1' h2.1
  refine ⟨valid_iff h, hr, ?_, ?_, ?_, ?_⟩
  · unfold getNetwork
    by_cases hu : Unroutable (num a)
    · have : isRoutable a = false := by
        cases hx : isRoutable a with
        | false => rfl
        | true => exact absurd hu (hr.1 hx)
      simp [this, hu]
    · rw [hr.2 hu]
      simp only [hu, iff_false]
      repeat' split
      all_goals simp_all
  · unfold getNetwork
    rw [four_iff h]
    by_cases hu : Unroutable (num a)
    · have : isRoutable a = false := by
        cases hx : isRoutable a with
        | false => rfl
        | true => exact absurd hu (hr.1 hx)
      simp [this, hu]
    · rw [hr.2 hu]
      by_cases hf : Four (num a)
      · simp [hf, hu]
      · simp only [hf, and_false, iff_false]
        cases isTor a <;> simp
  · unfold getNetwork
    rw [four_iff h, onion_iff h]
    by_cases ho : Onion (num a)
    · rw [hr.2 (hon _ ho)]
      simp [ho, hfo _ ho]
    · simp only [ho, iff_false]
      repeat' split
      all_goals simp_all
  · unfold isIPv6
    rw [four_iff h, onion_iff h]
    simp

/-- Multicast addresses are not kept out: 224.0.0.1 is routable. -/
theorem multicast_routable_violated : ∃ a : List Nat, Addr a ∧ isMulticast a = true ∧ isRoutable a = true ∧ getNetwork a = 1 :=
  ⟨[0, 0, 0, 0, 0, 0, 0, 0, 0, 0, 255, 255, 224, 0, 0, 1], by decide +kernel⟩

/-- An address with a port. -/
def Svc (s : List Nat × Nat) : Prop := Addr s.1 ∧ s.2 < 65536

theorem key_bytes {s : List Nat × Nat} (h : Svc s) : (getKey s).length = 18 ∧ Bytes (getKey s) ∧ num (getKey s) = num s.1 * 2 ^ 16 + s.2 := by
  have h255 : s.2 &&& 0xFF = s.2 % 256 := by
    rw [show (0xFF : Nat) = 2 ^ 8 - 1 by decide, Nat.and_two_pow_sub_one_eq_mod]
  have h2 := h.2
  unfold getKey
  rw [h255]
  refine ⟨by rw [List.length_append, h.1.1]; rfl, ?_, ?_⟩
  · intro x hx
    rcases List.mem_append.1 hx with hx | hx
    · exact h.1.2 x hx
    · simp only [List.mem_cons, List.not_mem_nil, or_false] at hx
      omega
  · rw [num_append]
    have : num [s.2 / 256 % 256, s.2 % 256] = s.2 := by
      show s.2 / 256 % 256 * 2 ^ 8 + (s.2 % 256 * 2 ^ 0 + 0) = s.2
      omega
    rw [this]
    rfl

/-- The key of a service is the service; the order of services is that of their keys, a total one. -/
theorem service_order {s t : List Nat × Nat} (hs : Svc s) (ht : Svc t) :
    (getKey s = getKey t ↔ s = t) ∧ (svcEq s t = true ↔ s = t) ∧ (svcLt s t = true ↔ num (getKey s) < num (getKey t)) ∧
    (svcLt s t = true ↔ bytesLt (getKey s) (getKey t) = true) ∧
    ((svcLt s t = true ∧ svcLt t s = false ∧ s ≠ t) ∨ (svcLt s t = false ∧ svcLt t s = true ∧ s ≠ t) ∨ (svcLt s t = false ∧ svcLt t s = false ∧ s = t)) := by
  have key : ∀ {s t : List Nat × Nat}, Svc s → Svc t → (svcLt s t = true ↔ num (getKey s) < num (getKey t)) := by
    intro s t hs ht
    obtain ⟨_, _, s3⟩ := key_bytes hs
    obtain ⟨_, _, t3⟩ := key_bytes ht
    have h1 := hs.2
    have h2 := ht.2
    unfold svcLt
    rw [s3, t3, Bool.or_eq_true, Bool.and_eq_true, bytesLt_num (by rw [hs.1.1, ht.1.1]) hs.1.2 ht.1.2, beq_iff_eq, decide_eq_true_iff]
    have he : s.1 = t.1 ↔ num s.1 = num t.1 := ⟨fun h => by rw [h], num_inj (by rw [hs.1.1, ht.1.1]) hs.1.2 ht.1.2⟩
    rw [he]
    omega
  obtain ⟨s1, s2, s3⟩ := key_bytes hs
  obtain ⟨t1, t2, t3⟩ := key_bytes ht
  have hne : num (getKey s) = num (getKey t) ↔ s = t := by
    constructor
    · intro h
      have h1 := hs.2
      have h2 := ht.2
      rw [s3, t3] at h
      have e1 : num s.1 = num t.1 := by omega
      have e2 : s.2 = t.2 := by omega
      exact Prod.ext (num_inj (by rw [hs.1.1, ht.1.1]) hs.1.2 ht.1.2 e1) e2
    · intro h; rw [h]
  refine ⟨⟨fun h => hne.1 (by rw [h]), fun h => by rw [h]⟩, ?_, key hs ht, ?_, ?_⟩
  · unfold svcEq
    rw [Bool.and_eq_true, beq_iff_eq, beq_iff_eq]
    exact ⟨fun h => Prod.ext h.1 h.2, fun h => by rw [h]; exact ⟨rfl, rfl⟩⟩
  · rw [key hs ht, bytesLt_num (by rw [s1, t1]) s2 t2]
  · have k1 := key hs ht
    have k2 := key ht hs
    cases h1 : svcLt s t <;> cases h2 : svcLt t s <;> rw [h1] at k1 <;> rw [h2] at k2
    · simp only [Bool.false_eq_true, false_iff] at k1 k2
      exact Or.inr (Or.inr ⟨rfl, rfl, hne.1 (by omega)⟩)
    · have := k2.1 rfl
      exact Or.inr (Or.inl ⟨rfl, rfl, fun e => by rw [e] at this; omega⟩)
    · have := k1.1 rfl
      exact Or.inl ⟨rfl, rfl, fun e => by rw [e] at this; omega⟩
    · have := k1.1 rfl
      have := k2.1 rfl
      omega

/-- The order of subnets does not look at their validity, equality does: in the map of banned subnets an invalid one and the valid one
take one place although they differ. -/
theorem subnet_order_violated : ∃ a : List Nat, Addr a ∧ subEq (subBits a (-1)) (subOne a) = false ∧
    subLt (subBits a (-1)) (subOne a) = false ∧ subLt (subOne a) (subBits a (-1)) = false :=
  ⟨[0, 0, 0, 0, 0, 0, 0, 0, 0, 0, 255, 255, 1, 2, 3, 4], by decide +kernel⟩

/-- Well-formed subnets. -/
def Sub (s : SubNet) : Prop := Addr s.network ∧ Addr s.netmask

/-- Of valid subnets the order is total and agrees with equality. -/
theorem subnet_order_partial {s t : SubNet} (hs : Sub s) (ht : Sub t) (hv : s.valid = t.valid) :
    (subEq s t = true ↔ s = t) ∧
    (subLt s t = true ↔ num s.network < num t.network ∨ (num s.network = num t.network ∧ num s.netmask < num t.netmask)) ∧
    (subLt s t = false ∧ subLt t s = false ↔ s = t) := by
  have lt : ∀ {s t : SubNet}, Sub s → Sub t →
      (subLt s t = true ↔ num s.network < num t.network ∨ (num s.network = num t.network ∧ num s.netmask < num t.netmask)) := by
    intro s t hs ht
    unfold subLt
    have he : s.network = t.network ↔ num s.network = num t.network := ⟨fun h => by rw [h], num_inj (by rw [hs.1.1, ht.1.1]) hs.1.2 ht.1.2⟩
    rw [Bool.or_eq_true, Bool.and_eq_true, bytesLt_num (by rw [hs.1.1, ht.1.1]) hs.1.2 ht.1.2, bytesLt_num (by rw [hs.2.1, ht.2.1]) hs.2.2 ht.2.2, beq_iff_eq, he]
  have eqv : s = t ↔ num s.network = num t.network ∧ num s.netmask = num t.netmask := by
    constructor
    · intro h; rw [h]; exact ⟨rfl, rfl⟩
    · rintro ⟨h1, h2⟩
      have e1 := num_inj (by rw [hs.1.1, ht.1.1]) hs.1.2 ht.1.2 h1
      have e2 := num_inj (by rw [hs.2.1, ht.2.1]) hs.2.2 ht.2.2 h2
      cases s; cases t
      simp_all
  refine ⟨?_, lt hs ht, ?_⟩
  · unfold subEq
    rw [Bool.and_eq_true, Bool.and_eq_true, beq_iff_eq, beq_iff_eq, beq_iff_eq]
    constructor
    · rintro ⟨⟨h1, h2⟩, h3⟩
      cases s; cases t
      simp_all
    · intro h; rw [h]; exact ⟨⟨rfl, rfl⟩, rfl⟩
  · rw [eqv, ← Bool.not_eq_true, ← Bool.not_eq_true, lt hs ht, lt ht hs]
    omega

/-- 172.31.0.1 is private, 172.32.0.1 is not; services in order of their ports. -/
example : isRoutable [0, 0, 0, 0, 0, 0, 0, 0, 0, 0, 255, 255, 172, 31, 0, 1] = false ∧ isRoutable [0, 0, 0, 0, 0, 0, 0, 0, 0, 0, 255, 255, 172, 32, 0, 1] = true ∧
    getNetwork [0xFD, 0x87, 0xD8, 0x7E, 0xEB, 0x43, 1, 2, 3, 4, 5, 6, 7, 8, 9, 10] = 3 ∧
    svcLt ([0, 0, 0, 0, 0, 0, 0, 0, 0, 0, 255, 255, 1, 2, 3, 4], 255) ([0, 0, 0, 0, 0, 0, 0, 0, 0, 0, 255, 255, 1, 2, 3, 4], 256) = true := by
  decide +kernel

end Verif.Ip
