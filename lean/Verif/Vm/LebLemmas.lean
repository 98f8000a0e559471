import Verif.Vm.Leb
import Mathlib.Tactic.Ring
import Mathlib.Tactic.IntervalCases

/-! Proofs: the readers of numbers agree with the standard. -/

namespace Verif.Vm

/-- the number made of the low seven bits of the bytes, first byte lowest -/
def valU : List Nat → Nat
  | [] => 0
  | b :: r => b % 128 + 128 * valU r

theorem bit80 (b : Nat) (h : b < 256) : b &&& 0x80 = 0 ↔ b < 128 := by
  have : ∀ b < 256, (b &&& 0x80 = 0 ↔ b < 128) := by decide +kernel
  exact this b h

theorem and7f (b : Nat) : b &&& 0x7f = b % 128 := Nat.and_two_pow_sub_one_eq_mod b 7

theorem gather_val (B : Nat) (st : List Nat) : gather B st = BitVec.ofNat B (valU st) := by
  induction st with
  | nil => rfl
  | cons b r ih =>
    have e : gather B (b :: r) = (gather B r <<< 7) ||| BitVec.ofNat B (b &&& 0x7f) := rfl
    rw [e, ih, and7f, valU]
    have h1 : (BitVec.ofNat B (valU r)) <<< 7 = BitVec.ofNat B (2 ^ 7 * valU r) := by
      apply BitVec.eq_of_toNat_eq
      rw [BitVec.toNat_shiftLeft, BitVec.toNat_ofNat, BitVec.toNat_ofNat, Nat.shiftLeft_eq, Nat.mod_mul_mod,
        Nat.mul_comm]
    rw [h1, ← BitVec.ofNat_or, ← Nat.two_pow_add_eq_or_of_lt (by omega), Nat.add_comm]

theorem unused32 (b : Nat) (h : b < 128) : unusedMask 32 &&& b ≠ 0 ↔ ¬b < 16 := by
  have : ∀ b < 128, (unusedMask 32 &&& b ≠ 0 ↔ ¬b < 16) := by decide +kernel
  exact this b h

/-- the bytes the scan stores are the ones the standard reads -/
theorem scanU_spec (c : Nat) (code : List Nat) (hb : ∀ b ∈ code, b < 256) (hc : c < 5) :
    (scanU 32 c code).map (fun p => (valU p.1, p.2)) = uSpec (32 - 7 * c) code := by
  induction code generalizing c with
  | nil => rfl
  | cons b r ih =>
    have hb0 := hb b (by simp)
    have h5 : bytesNeeded 32 = 5 := rfl
    rw [scanU, uSpec, h5, if_pos hc]
    simp only [bit80 b hb0]
    by_cases h : b < 128
    · simp only [show b < 2 ^ 7 from h, if_true, show (b < 128) = True by simp [h]]
      have hm : b % 128 = b := by omega
      by_cases h4 : c = 4
      · subst h4
        simp only [unused32 b h]
        by_cases h16 : b < 16
        · simp [valU, hm, h16]
        · simp [h16]
      · have hp : b < 2 ^ (32 - 7 * c) :=
          Nat.lt_of_lt_of_le (show b < 2 ^ 7 from h) (Nat.pow_le_pow_right (by omega) (by omega))
        rw [if_neg (by omega), if_pos hp]
        simp [valU, hm]
    · simp only [show ¬b < 2 ^ 7 from h, if_false, show (b < 128) = False by simp [h]]
      by_cases h4 : c = 4
      · subst h4
        rw [if_neg (by omega)]
        cases r with
        | nil => rfl
        | cons x y => simp [scanU, h5]
      · rw [if_pos (by omega), show 32 - 7 * c - 7 = 32 - 7 * (c + 1) by omega,
          ← ih (c + 1) (fun x hx => hb x (by simp [hx])) (by omega)]
        cases scanU 32 (c + 1) r with
        | none => rfl
        | some p =>
          simp only [Option.map_some, valU]
          rw [show b % 128 + 128 * valU p.1 = 2 ^ 7 * valU p.1 + (b - 2 ^ 7) by omega]

theorem uSpec_lt (N : Nat) (code r : List Nat) (v : Nat) (hb : ∀ b ∈ code, b < 256) (h : uSpec N code = some (v, r)) :
    v < 2 ^ N := by
  induction code generalizing N v with
  | nil => simp [uSpec] at h
  | cons b s ih =>
    rw [uSpec] at h
    split at h
    · split at h
      · cases h; assumption
      · cases h
    · split at h
      · rename_i h7
        split at h
        · rename_i m r' e
          simp only [Option.some.injEq, Prod.mk.injEq] at h
          have := ih (N - 7) m (fun x hx => hb x (by simp [hx])) (h.2 ▸ e)
          have hp : 2 ^ N = 2 ^ 7 * 2 ^ (N - 7) := by rw [← Nat.pow_add, Nat.add_sub_cancel' (by omega)]
          have := hb b (by simp)
          have h1 := h.1
          omega
        · cases h
      · cases h

theorem readU32 (code : List Nat) (hb : ∀ b ∈ code, b < 256) : readU 32 code = uSpec 32 code := by
  have h := scanU_spec 0 code hb (by omega)
  rw [readU]
  cases hs : scanU 32 0 code with
  | none => rw [hs] at h; exact h
  | some p =>
    rw [hs] at h
    have h' : uSpec 32 code = some (valU p.1, p.2) := h.symm
    rw [h']
    have := uSpec_lt _ _ _ _ hb h'
    simp only [Option.map_some, toU]
    rw [if_neg (by omega), if_neg (by omega), gather_val, BitVec.toNat_ofNat, Nat.mod_eq_of_lt this]

theorem readU_small (N : Nat) (hN : N = 1 ∨ N = 7) (code : List Nat) (hb : ∀ b ∈ code, b < 256) :
    readU N code = uSpec N code := by
  cases code with
  | nil => rfl
  | cons b r =>
    have hb0 := hb b (by simp)
    have key : (if b &&& 0x80 = 0 then if unusedMask N &&& b ≠ 0 then none else some (toU N [b]) else none) =
        if b < 2 ^ 7 then if b < 2 ^ N then some b else none else none := by
      have : ∀ b < 256, (if b &&& 0x80 = 0 then if unusedMask N &&& b ≠ 0 then none else some (toU N [b]) else none) =
        if b < 2 ^ 7 then if b < 2 ^ N then some b else none else none := by
        rcases hN with rfl | rfl <;> decide +kernel
      exact this b hb0
    have h1 : bytesNeeded N = 1 := by rcases hN with rfl | rfl <;> rfl
    have h2 : ∀ r, scanU N 1 r = none := by
      intro r; cases r with
      | nil => rfl
      | cons x y => simp [scanU, h1]
    rw [readU, scanU, uSpec, h1, if_pos (by omega), h2, if_neg (by rcases hN with rfl | rfl <;> omega : ¬N > 7)]
    simp only [Nat.zero_add, true_and]
    simp only [bit80 b hb0] at key ⊢
    by_cases c2 : unusedMask N &&& b ≠ 0 <;> by_cases c3 : b < 128 <;> by_cases c4 : b < 2 ^ N <;> simp_all <;>
      rw [if_neg (by omega), if_neg (by omega)]

/-! Signed numbers. -/

/-- the signed number of the stored bytes -/
def valS : List Nat → Int
  | [] => 0
  | [b] => if b &&& 0x40 ≠ 0 then (b : Int) - 128 else b
  | b :: r => ((b : Int) - 128) + 128 * valS r

/-- what the scan stores: bytes with the continuation bit, then one without -/
def Stored : List Nat → Prop
  | [] => False
  | [b] => b < 128
  | b :: r => 128 ≤ b ∧ b < 256 ∧ Stored r

theorem bit40 (b : Nat) (h : b < 128) : b &&& 0x40 ≠ 0 ↔ 64 ≤ b := by
  have : ∀ b < 128, (b &&& 0x40 ≠ 0 ↔ 64 ≤ b) := by decide +kernel
  exact this b h

theorem valS_valU (st : List Nat) (h : Stored st) :
    valS st = valU st - (if st.getLastD 0 &&& 0x40 ≠ 0 then 2 ^ (7 * st.length) else 0) := by
  induction st with
  | nil => exact h.elim
  | cons b r ih =>
    cases r with
    | nil =>
      have hb : b < 128 := h
      have hm : b % 128 = b := by omega
      simp only [valS, valU, List.getLastD_cons, List.getLastD_nil, hm, List.length_singleton]
      split <;> simp
    | cons x y =>
      obtain ⟨h1, h2, h3⟩ := h
      have e : valU (b :: x :: y) = b % 128 + 128 * valU (x :: y) := rfl
      have e' : valS (b :: x :: y) = ((b : Int) - 128) + 128 * valS (x :: y) := rfl
      have e2 : (b :: x :: y).getLastD 0 = (x :: y).getLastD 0 := by simp
      have hp : (2 : Int) ^ (7 * (b :: x :: y).length) = 128 * 2 ^ (7 * (x :: y).length) := by
        rw [List.length_cons, Nat.mul_add, pow_add]; ring
      rw [e', ih h3, e, e2, hp]
      have hb : ((b % 128 : Nat) : Int) = (b : Int) - 128 := by omega
      rw [Int.natCast_add, hb, Int.natCast_mul]
      split <;> push_cast <;> ring

theorem valU_lt (st : List Nat) : valU st < 2 ^ (7 * st.length) := by
  induction st with
  | nil => simp [valU]
  | cons b r ih =>
    rw [valU, List.length_cons, Nat.mul_add, Nat.pow_add]
    omega

/-- the check of the last byte is the one of the standard -/
def LastOk (N : Nat) : Prop :=
  ∀ b < 128, (unusedMask N &&& b ≠ (if b &&& 2 ^ (N - 7 * (bytesNeeded N - 1) - 1) ≠ 0 then unusedMask N else 0)) ↔
    ¬(if b < 64 then b < 2 ^ (N - 7 * (bytesNeeded N - 1) - 1)
      else 128 ≤ b + 2 ^ (N - 7 * (bytesNeeded N - 1) - 1))

instance (N : Nat) : Decidable (LastOk N) := by unfold LastOk; infer_instance

theorem lastOk (N : Nat) (h : N = 7 ∨ N = 32 ∨ N = 64) : LastOk N := by
  rcases h with rfl | rfl | rfl <;> decide +kernel

theorem scanS_spec (N c : Nat) (hN : N = 7 ∨ N = 32 ∨ N = 64) (code : List Nat) (hb : ∀ b ∈ code, b < 256)
    (hc : c < bytesNeeded N) :
    (scanS N c code).map (fun p => (valS p.1, p.2)) = sSpec (N - 7 * c) code ∧
    ∀ p, scanS N c code = some p → Stored p.1 ∧ p.1.length + c ≤ bytesNeeded N := by
  have hK : 7 * (bytesNeeded N - 1) < N ∧ N ≤ 7 * bytesNeeded N ∧ 0 < bytesNeeded N := by
    rcases hN with rfl | rfl | rfl <;> decide
  obtain ⟨k1, k2, k3⟩ := hK
  induction code generalizing c with
  | nil => exact ⟨rfl, fun p h => by simp [scanS] at h⟩
  | cons b r ih =>
    have hb0 := hb b (by simp)
    rw [scanS, sSpec, if_pos hc]
    simp only [bit80 b hb0]
    by_cases h : b < 128
    · have hl := lastOk N hN b h
      have h40 := bit40 b h
      simp only [h, if_true]
      simp only [hl]
      by_cases hlast : c + 1 = bytesNeeded N
      · have e1 : N - 7 * c - 1 = N - 7 * (bytesNeeded N - 1) - 1 := by omega
        rw [e1]
        generalize N - 7 * (bytesNeeded N - 1) - 1 = j
        have hz : ((2 ^ j : Nat) : Int) = 2 ^ j := by push_cast; rfl
        by_cases h64 : b < 64
        · simp only [h64, if_true, hlast, true_and]
          by_cases hj : b < 2 ^ j
          · simp [hj, valS, Stored, h]; omega
          · simp [hj]
        · simp only [h64, if_false, hlast, true_and]
          by_cases hj : 128 ≤ b + 2 ^ j
          · have : (2 : Int) ^ 7 - 2 ^ j ≤ b := by rw [← hz]; omega
            simp only [hj, not_true, if_false, this, if_true]
            simp [valS, Stored, h]; omega
          · have : ¬(2 : Int) ^ 7 - 2 ^ j ≤ b := by rw [← hz]; omega
            simp only [hj, this]
            simp
      · have hw : 6 ≤ N - 7 * c - 1 := by omega
        have hp : 2 ^ 6 ≤ 2 ^ (N - 7 * c - 1) := Nat.pow_le_pow_right (by omega) hw
        have hz : ((2 ^ (N - 7 * c - 1) : Nat) : Int) = 2 ^ (N - 7 * c - 1) := by push_cast; rfl
        simp only [hlast, false_and, if_false]
        by_cases h64 : b < 64
        · simp only [h64, if_true, show b < 2 ^ (N - 7 * c - 1) by omega]
          simp [valS, Stored, h]; omega
        · have : (2 : Int) ^ 7 - 2 ^ (N - 7 * c - 1) ≤ b := by rw [← hz]; omega
          simp only [h64, if_false, this, if_true]
          simp [valS, Stored, h]; omega
    · have h64 : ¬b < 64 := by omega
      simp only [h, h64, if_false]
      by_cases hlast : c + 1 = bytesNeeded N
      · have hnone : scanS N (c + 1) r = none := by
          cases r with
          | nil => rfl
          | cons x y => rw [scanS, if_neg (by omega)]
        rw [hnone, if_neg (by omega)]
        simp
      · obtain ⟨i1, i2⟩ := ih (c + 1) (fun x hx => hb x (by simp [hx])) (by omega)
        rw [if_pos (by omega), show N - 7 * c - 7 = N - 7 * (c + 1) by omega, ← i1]
        cases hs : scanS N (c + 1) r with
        | none => simp
        | some p =>
          obtain ⟨j1, j2⟩ := i2 p hs
          obtain ⟨st, rest⟩ := p
          cases st with
          | nil => exact j1.elim
          | cons x y =>
            constructor
            · simp only [Option.map_some, valS, Option.some.injEq, Prod.mk.injEq, and_true]
              omega
            · intro p hp
              simp only [Option.map_some, Option.some.injEq] at hp
              subst hp
              simp only [List.length_cons] at j2 ⊢
              exact ⟨⟨by omega, by omega, j1⟩, by omega⟩

theorem sSpec_range (N : Nat) (hN : 0 < N) (code r : List Nat) (v : Int) (hb : ∀ b ∈ code, b < 256)
    (h : sSpec N code = some (v, r)) : -2 ^ (N - 1) ≤ v ∧ v < 2 ^ (N - 1) := by
  induction code generalizing N v with
  | nil => simp [sSpec] at h
  | cons b s ih =>
    have hz : ((2 ^ (N - 1) : Nat) : Int) = 2 ^ (N - 1) := by push_cast; rfl
    have hpos : 0 < 2 ^ (N - 1) := Nat.pow_pos (by omega)
    rw [sSpec] at h
    split at h
    · split at h
      · simp only [Option.some.injEq, Prod.mk.injEq] at h
        omega
      · cases h
    · split at h
      · split at h
        · simp only [Option.some.injEq, Prod.mk.injEq] at h
          omega
        · cases h
      · split at h
        · rename_i h7
          split at h
          · rename_i m r' e
            simp only [Option.some.injEq, Prod.mk.injEq] at h
            have := ih (N - 7) (by omega) m (fun x hx => hb x (by simp [hx])) (h.2 ▸ e)
            have hp : (2 : Int) ^ (N - 1) = 128 * 2 ^ (N - 7 - 1) := by
              rw [show N - 1 = 7 + (N - 7 - 1) by omega, pow_add]; norm_num
            have := hb b (by simp)
            omega
          · cases h
        · cases h

theorem toS_valS (N : Nat) (hN : N = 32 ∨ N = 64) (st : List Nat) (hs : Stored st) (hl : st.length ≤ bytesNeeded N)
    (h1 : -2 ^ (N - 1) ≤ valS st) (h2 : valS st < 2 ^ (N - 1)) : toS N st = valS st := by
  have hN0 : 0 < N ∧ N ≤ 64 ∧ N ≠ 7 ∧ 7 * (bytesNeeded N - 1) < N ∧ N ≤ 7 * bytesNeeded N := by
    rcases hN with rfl | rfl <;> decide
  obtain ⟨n0, n64, n7, k1, k2⟩ := hN0
  have key : (if st.length < bytesNeeded N ∧ st.getLastD 0 &&& 0x40 ≠ 0 then
      gather N st ||| ((-1#64) <<< (st.length * 7)).setWidth N else gather N st) = BitVec.ofInt N (valS st) := by
    rw [gather_val, valS_valU st hs]
    have hv := valU_lt st
    by_cases hx : st.getLastD 0 &&& 0x40 ≠ 0
    · rw [if_pos hx]
      by_cases hlen : st.length < bytesNeeded N
      · rw [if_pos ⟨hlen, hx⟩]
        have e1 : ((-1#64) <<< (st.length * 7)).setWidth N =
            BitVec.ofNat N (2 ^ (7 * st.length) * (2 ^ (64 - 7 * st.length) - 1)) := by
          have : ∀ l < 10, ((-1#64) <<< (l * 7)).setWidth N = BitVec.ofNat N (2 ^ (7 * l) * (2 ^ (64 - 7 * l) - 1)) := by
            rcases hN with rfl | rfl <;> decide +kernel
          exact this _ (by rcases hN with rfl | rfl <;> simp [bytesNeeded] at hlen <;> omega)
        rw [e1, ← BitVec.ofNat_or, Nat.or_comm, ← Nat.two_pow_add_eq_or_of_lt hv]
        have h64 : 2 ^ 64 = 2 ^ (7 * st.length) * 2 ^ (64 - 7 * st.length) := by
          rw [← Nat.pow_add, Nat.add_sub_cancel' (by omega)]
        have h0 : BitVec.ofInt N (2 ^ 64) = 0#N := by rcases hN with rfl | rfl <;> decide
        have hi : ((2 ^ (7 * st.length) * (2 ^ (64 - 7 * st.length) - 1) + valU st : Nat) : Int) =
            (valU st - 2 ^ (7 * st.length)) + 2 ^ 64 := by
          have hq : 2 ^ (7 * st.length) * (2 ^ (64 - 7 * st.length) - 1) + 2 ^ (7 * st.length) = 2 ^ 64 := by
            rw [h64, Nat.mul_sub, Nat.mul_one, Nat.sub_add_cancel]
            exact Nat.le_mul_of_pos_right _ (Nat.pow_pos (by omega))
          have hz : ((2 ^ (7 * st.length) : Nat) : Int) = 2 ^ (7 * st.length) := by push_cast; rfl
          rw [← hz]
          omega
        rw [← BitVec.ofInt_natCast, hi, BitVec.ofInt_add, h0, BitVec.add_zero]
      · rw [if_neg (fun h => hlen h.1)]
        have h0 : BitVec.ofInt N (2 ^ (7 * st.length)) = 0#N := by
          rw [show st.length = bytesNeeded N by omega]
          rcases hN with rfl | rfl <;> decide
        have e : (valU st : Int) = (valU st - 2 ^ (7 * st.length)) + 2 ^ (7 * st.length) := by ring
        have e2 : BitVec.ofNat N (valU st) = BitVec.ofInt N (valU st) := (BitVec.ofInt_natCast N _).symm
        rw [e2, e, BitVec.ofInt_add, h0, BitVec.add_zero, ← e]
    · rw [if_neg hx, if_neg (fun h => hx h.2), Int.sub_zero, BitVec.ofInt_natCast]
  rw [toS, if_neg n7]
  simp only
  rw [key, BitVec.toInt_ofInt_eq_self n0 h1 h2]

theorem readS_big (N : Nat) (hN : N = 32 ∨ N = 64) (code : List Nat) (hb : ∀ b ∈ code, b < 256) :
    readS N code = sSpec N code := by
  have hK : 0 < bytesNeeded N ∧ 0 < N := by rcases hN with rfl | rfl <;> decide
  obtain ⟨h, hst⟩ := scanS_spec N 0 (.inr hN) code hb hK.1
  rw [readS]
  cases hs : scanS N 0 code with
  | none => rw [hs] at h; exact h
  | some p =>
    rw [hs] at h
    have h' : sSpec N code = some (valS p.1, p.2) := h.symm
    obtain ⟨r1, r2⟩ := sSpec_range N hK.2 _ _ _ hb h'
    obtain ⟨s1, s2⟩ := hst p hs
    rw [h', Option.map_some, toS_valS N hN p.1 s1 (by omega) r1 r2]

theorem readS7 (code : List Nat) (hb : ∀ b ∈ code, b < 256) : readS 7 code = sSpec 7 code := by
  obtain ⟨h, hst⟩ := scanS_spec 7 0 (.inl rfl) code hb (by decide)
  rw [readS]
  cases hs : scanS 7 0 code with
  | none => rw [hs] at h; exact h
  | some p =>
    rw [hs] at h
    obtain ⟨s1, s2⟩ := hst p hs
    obtain ⟨st, rest⟩ := p
    have h' : sSpec 7 code = some (valS st, rest) := h.symm
    rw [h', Option.map_some]
    have h1 : bytesNeeded 7 = 1 := rfl
    match st, s1, s2 with
    | [b], s1, _ =>
      have : ∀ b < 128, toS 7 [b] = valS [b] := by decide +kernel
      rw [this b s1]
    | _ :: _ :: _, _, s2 => simp [h1] at s2

end Verif.Vm
