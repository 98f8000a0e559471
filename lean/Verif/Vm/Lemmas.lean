import Mathlib.Tactic.Ring
import Mathlib.Tactic.Positivity
import Verif.Vm.Model

/-! Proofs: the interpreter computes what the standard says. -/

namespace Verif.Vm

theorem sgn_toInt {N : Nat} (hN : 0 < N) (a : BitVec N) : sgn N a.toNat = a.toInt := by
  obtain ⟨n, rfl⟩ : ∃ n, N = n + 1 := ⟨N - 1, by omega⟩
  rw [sgn, BitVec.toInt_eq_toNat_cond, Nat.add_sub_cancel]
  have : 2 ^ (n + 1) = 2 * 2 ^ n := by rw [Nat.pow_succ, Nat.mul_comm]
  by_cases h : a.toNat < 2 ^ n
  · rw [if_pos h, if_pos (by omega)]
  · rw [if_neg h, if_neg (by omega)]
    norm_cast

theorem ofNat_unsgn (N : Nat) (z : Int) : BitVec.ofNat N (unsgn N z) = BitVec.ofInt N z := by
  apply BitVec.eq_of_toNat_eq
  rw [BitVec.toNat_ofInt, BitVec.toNat_ofNat, unsgn]
  have h : (z % 2 ^ N).toNat < 2 ^ N := by
    have h1 : 0 ≤ z % 2 ^ N := Int.emod_nonneg _ (by positivity)
    have h2 : z % 2 ^ N < 2 ^ N := Int.emod_lt_of_pos _ (by positivity)
    have : ((z % 2 ^ N).toNat : Int) < ((2 ^ N : Nat) : Int) := by
      rw [Int.toNat_of_nonneg h1]; exact_mod_cast h2
    exact_mod_cast this
  rw [Nat.mod_eq_of_lt h]
  norm_cast

theorem ofNat_toNat' {N : Nat} (x : BitVec N) (n : Nat) (h : x.toNat = n) : x = BitVec.ofNat N n := by
  rw [← h, BitVec.ofNat_toNat, BitVec.setWidth_eq]

/-- masking with `2 ^ k - 1` -/
theorem mask_mod {M : Nat} (k : Nat) (x : BitVec M) (h : k ≤ M) :
    (x &&& BitVec.ofNat M (2 ^ k - 1)).toNat = x.toNat % 2 ^ k := by
  have hp : 2 ^ k ≤ 2 ^ M := Nat.pow_le_pow_right (by norm_num) h
  have h0 : 0 < 2 ^ k := by positivity
  rw [BitVec.toNat_and, BitVec.toNat_ofNat, Nat.mod_eq_of_lt (by omega : 2 ^ k - 1 < 2 ^ M),
    Nat.and_two_pow_sub_one_eq_mod]

theorem shl_add_shr (N a k : Nat) (hk : k ≤ N) (ha : a < 2 ^ N) :
    (a * 2 ^ k % 2 ^ N) ||| (a / 2 ^ (N - k)) = a * 2 ^ k % 2 ^ N + a / 2 ^ (N - k) := by
  have e : 2 ^ N = 2 ^ k * 2 ^ (N - k) := by rw [← Nat.pow_add]; congr 1; omega
  have h1 : a * 2 ^ k % 2 ^ N = 2 ^ k * (a % 2 ^ (N - k)) := by
    rw [e, Nat.mul_comm a, Nat.mul_mod_mul_left]
  have h2 : a / 2 ^ (N - k) < 2 ^ k := by
    apply Nat.div_lt_of_lt_mul
    rw [Nat.mul_comm, ← e]; exact ha
  rw [h1, Nat.two_pow_add_eq_or_of_lt h2]

theorem shr_add_shl (N a k : Nat) (hk : k ≤ N) (ha : a < 2 ^ N) :
    (a / 2 ^ k) ||| (a * 2 ^ (N - k) % 2 ^ N) = a / 2 ^ k + a * 2 ^ (N - k) % 2 ^ N := by
  have h := shl_add_shr N a (N - k) (by omega) ha
  rw [show N - (N - k) = k by omega] at h
  rw [Nat.or_comm, h, Nat.add_comm]

theorem toInt_bounds {N : Nat} (hN : 0 < N) (a : BitVec N) :
    -2 ^ (N - 1) ≤ a.toInt ∧ a.toInt < 2 ^ (N - 1) := by
  have h1 := BitVec.toInt_intMin_le a
  rw [BitVec.toInt_intMin_of_pos hN] at h1
  refine ⟨h1, ?_⟩
  have := BitVec.two_mul_toInt_lt (x := a)
  obtain ⟨n, rfl⟩ : ∃ n, N = n + 1 := ⟨N - 1, by omega⟩
  rw [Nat.add_sub_cancel]
  rw [pow_succ] at this
  omega

theorem toInt_neg_one {N : Nat} (hN : 1 < N) : (-1#N : BitVec N).toInt = -1 := by
  have : (BitVec.ofInt N (-1)) = -1#N := by
    rw [BitVec.ofInt_neg]; rfl
  rw [← this, BitVec.toInt_ofInt_eq_self (by omega)]
  · have : (0 : Int) < 2 ^ (N - 1) := by positivity
    omega
  · have : (0 : Int) < 2 ^ (N - 1) := by positivity
    omega

theorem tdiv_top {N : Nat} (hN : 1 < N) (a b : BitVec N) :
    a.toInt.tdiv b.toInt = 2 ^ (N - 1) ↔ a = BitVec.intMin N ∧ b = -1#N := by
  obtain ⟨h1, h2⟩ := toInt_bounds (by omega) a
  have hm := BitVec.toInt_intMin_of_pos (v := N) (by omega)
  have hn := toInt_neg_one hN
  constructor
  · intro h
    have ha := congrArg Int.natAbs h
    rw [Int.natAbs_tdiv, Int.natAbs_pow] at ha
    have hp : 0 < 2 ^ (N - 1) := by positivity
    have hle : a.toInt.natAbs ≤ 2 ^ (N - 1) := by
      have : ((a.toInt.natAbs : Nat) : Int) ≤ ((2 ^ (N - 1) : Nat) : Int) := by
        push_cast
        rw [abs_le]
        constructor <;> omega
      exact_mod_cast this
    have hb : b.toInt.natAbs = 1 := by
      rcases Nat.lt_or_ge b.toInt.natAbs 2 with hb | hb
      · rcases Nat.eq_zero_or_pos b.toInt.natAbs with h0 | h0
        · rw [h0, show a.toInt.natAbs.div 0 = a.toInt.natAbs / 0 from rfl, Nat.div_zero] at ha
          simp at ha
          omega
        · omega
      · exfalso
        have : a.toInt.natAbs / b.toInt.natAbs ≤ a.toInt.natAbs / 2 := Nat.div_le_div_left hb (by norm_num)
        have h3 : a.toInt.natAbs / b.toInt.natAbs = 2 ^ (N - 1) := ha.trans (by simp)
        omega
    rcases Int.natAbs_eq b.toInt with e | e
    · rw [hb] at e
      rw [e] at h
      simp at h
      omega
    · rw [hb] at e
      rw [e] at h
      simp at h
      refine ⟨BitVec.eq_of_toInt_eq ?_, BitVec.eq_of_toInt_eq ?_⟩
      · rw [hm]; omega
      · rw [hn, e]; rfl
  · rintro ⟨rfl, rfl⟩
    rw [hm, hn]
    simp

theorem sdiv_ofInt {N : Nat} (a b : BitVec N) :
    a.sdiv b = BitVec.ofInt N (a.toInt.tdiv b.toInt) := by
  apply BitVec.eq_of_toInt_eq
  rw [BitVec.toInt_sdiv, BitVec.toInt_ofInt]

theorem srem_ofInt {N : Nat} (a b : BitVec N) :
    a.srem b = BitVec.ofInt N (a.toInt.tmod b.toInt) := by
  rw [← BitVec.toInt_srem, BitVec.ofInt_toInt]

theorem toNat_eq_zero {N : Nat} (b : BitVec N) : b.toNat = 0 ↔ b = 0#N := by
  constructor
  · intro h; apply BitVec.eq_of_toNat_eq; simpa using h
  · rintro rfl; simp

/-- the rotation by a count already reduced -/
theorem rotl_num {N : Nat} (a : BitVec N) (k : Nat) (hk : k ≤ N) :
    ((a <<< k) ||| (a >>> (N - k))).toNat = a.toNat * 2 ^ k % 2 ^ N + a.toNat / 2 ^ (N - k) := by
  rw [BitVec.toNat_or, BitVec.toNat_shiftLeft, BitVec.toNat_ushiftRight, Nat.shiftLeft_eq,
    Nat.shiftRight_eq_div_pow, shl_add_shr N _ k hk a.isLt]

theorem rotr_num {N : Nat} (a : BitVec N) (k : Nat) (hk : k ≤ N) :
    ((a >>> k) ||| (a <<< (N - k))).toNat = a.toNat / 2 ^ k + a.toNat * 2 ^ (N - k) % 2 ^ N := by
  rw [BitVec.toNat_or, BitVec.toNat_shiftLeft, BitVec.toNat_ushiftRight, Nat.shiftLeft_eq,
    Nat.shiftRight_eq_div_pow, shr_add_shl N _ k hk a.isLt]

/-- both counts of the interpreter's rotations -/
theorem neg_mask (e : Nat) (he : e ≤ 32) (c : BitVec 32) (h : c.toNat < 2 ^ e) :
    ((-c) &&& BitVec.ofNat 32 (2 ^ e - 1)).toNat = (2 ^ e - c.toNat) % 2 ^ e := by
  rw [mask_mod e _ he, BitVec.toNat_neg]
  have hp : 2 ^ 32 = 2 ^ e * 2 ^ (32 - e) := by rw [← Nat.pow_add, Nat.add_sub_cancel' he]
  rw [hp, Nat.mod_mul_right_mod]
  obtain ⟨q, hq⟩ : ∃ q, 2 ^ (32 - e) = q + 1 := ⟨2 ^ (32 - e) - 1, by
    have : 0 < 2 ^ (32 - e) := by positivity
    omega⟩
  rw [hq, Nat.mul_add, Nat.mul_one,
    show 2 ^ e * q + 2 ^ e - c.toNat = (2 ^ e - c.toNat) + 2 ^ e * q by omega, Nat.add_mul_mod_self_left]

theorem interpBin_spec {N e : Nat} (he : N = 2 ^ e) (he5 : 5 ≤ e) (he6 : e ≤ 6) (op : Bin) (a b : BitVec N) :
    interpBin N op a b = (binSpec N op a.toNat b.toNat).map (BitVec.ofNat N) := by
  have hN : 1 < N := by
    rw [he]
    exact Nat.one_lt_two_pow (by omega)
  have hsh : ∀ x : BitVec N, (x &&& BitVec.ofNat N (N - 1)).toNat = x.toNat % N := by
    intro x
    have := mask_mod e x (by rw [he]; exact Nat.lt_two_pow_self.le)
    rwa [← he] at this
  have hrot : ∀ x : BitVec N, (x.setWidth 32 &&& BitVec.ofNat 32 (N - 1)).toNat = x.toNat % N := by
    intro x
    have := mask_mod e (x.setWidth 32) (by omega)
    rw [← he, BitVec.toNat_setWidth] at this
    rw [this]
    exact Nat.mod_mod_of_dvd _ (by rw [he]; exact Nat.pow_dvd_pow 2 (by omega))
  have hneg : ∀ x : BitVec N, ((-(x.setWidth 32 &&& BitVec.ofNat 32 (N - 1))) &&& BitVec.ofNat 32 (N - 1)).toNat =
      (N - x.toNat % N) % N := by
    intro x
    have := neg_mask e (by omega) (x.setWidth 32 &&& BitVec.ofNat 32 (N - 1))
      (by rw [hrot, ← he]; exact Nat.mod_lt _ (by omega))
    rwa [hrot, ← he] at this
  cases op <;> simp only [interpBin, binSpec, Option.map_some]
  case add => congr 1; apply ofNat_toNat'; rw [BitVec.toNat_add]
  case sub =>
    congr 1; apply ofNat_toNat'
    rw [BitVec.toNat_sub]
    have := b.isLt
    congr 1; omega
  case mul => congr 1; apply ofNat_toNat'; rw [BitVec.toNat_mul]
  case divS =>
    simp only [sgn_toInt (by omega : 0 < N), toNat_eq_zero, tdiv_top hN]
    by_cases h : b = 0#N
    · rw [if_pos h, if_pos h]; rfl
    · rw [if_neg h, if_neg h]
      by_cases h' : a = BitVec.intMin N ∧ b = -1#N
      · rw [if_pos h', if_pos h']; rfl
      · rw [if_neg h', if_neg h', Option.map_some, ofNat_unsgn, sdiv_ofInt]
  case divU =>
    simp only [toNat_eq_zero]
    by_cases h : b = 0#N
    · rw [if_pos h, if_pos h]; rfl
    · rw [if_neg h, if_neg h, Option.map_some]
      congr 1; apply ofNat_toNat'; rw [BitVec.toNat_udiv]
  case remS =>
    simp only [sgn_toInt (by omega : 0 < N), toNat_eq_zero]
    by_cases h : b = 0#N
    · rw [if_pos h, if_pos h]; rfl
    · rw [if_neg h, if_neg h, Option.map_some, ofNat_unsgn, ← srem_ofInt]
      by_cases h' : a = BitVec.intMin N ∧ b = -1#N
      · rw [if_pos h', srem_ofInt, h'.2, toInt_neg_one hN]
        simp
      · rw [if_neg h']
  case remU =>
    simp only [toNat_eq_zero]
    by_cases h : b = 0#N
    · rw [if_pos h, if_pos h]; rfl
    · rw [if_neg h, if_neg h, Option.map_some]
      congr 1; apply ofNat_toNat'; rw [BitVec.toNat_umod]
  case and => congr 1; apply ofNat_toNat'; rw [BitVec.toNat_and]
  case or => congr 1; apply ofNat_toNat'; rw [BitVec.toNat_or]
  case xor => congr 1; apply ofNat_toNat'; rw [BitVec.toNat_xor]
  case shl =>
    congr 1; apply ofNat_toNat'
    rw [BitVec.toNat_shiftLeft, hsh, Nat.shiftLeft_eq]
  case shrU =>
    congr 1; apply ofNat_toNat'
    rw [BitVec.toNat_ushiftRight, hsh, Nat.shiftRight_eq_div_pow]
  case shrS =>
    congr 1
    rw [ofNat_unsgn, sgn_toInt (by omega : 0 < N), hsh]
    have := BitVec.toInt_sshiftRight (x := a) (n := b.toNat % N)
    rw [Int.shiftRight_eq_div_pow] at this
    have e2 := BitVec.ofInt_toInt (x := a.sshiftRight (b.toNat % N))
    rw [this] at e2
    rw [← e2]
    norm_cast
  case rotl =>
    congr 1; apply ofNat_toNat'
    rw [hneg, hrot]
    rcases Nat.eq_zero_or_pos (b.toNat % N) with h | h
    · rw [h]; simp [a.isLt]
    · have hlt : b.toNat % N < N := Nat.mod_lt _ (by omega)
      rw [Nat.mod_eq_of_lt (by omega : N - b.toNat % N < N)]
      exact rotl_num a _ (by omega)
  case rotr =>
    congr 1; apply ofNat_toNat'
    rw [hneg, hrot]
    rcases Nat.eq_zero_or_pos (b.toNat % N) with h | h
    · rw [h]; simp
    · have hlt : b.toNat % N < N := Nat.mod_lt _ (by omega)
      rw [Nat.mod_eq_of_lt (by omega : N - b.toNat % N < N)]
      exact rotr_num a _ (by omega)

theorem interpRel_spec {N : Nat} (hN : 0 < N) (op : Rel) (a b : BitVec N) :
    interpRel N op a b = relSpec N op a.toNat b.toNat := by
  have hinj : ∀ x y : BitVec N, x = y ↔ x.toNat = y.toNat := fun x y => BitVec.toNat_inj.symm
  cases op <;> simp only [interpRel, relSpec, sgn_toInt hN]
  case eq => rw [Bool.eq_iff_iff]; simp [hinj]
  case ne => rw [Bool.eq_iff_iff]; simp [hinj]
  all_goals rfl

theorem clz_log2 (n a : Nat) (h0 : 0 < a) (h : a < 2 ^ n) : clzSpec n a = n - 1 - a.log2 := by
  induction n with
  | zero => simp at h; omega
  | succ n ih =>
    rw [clzSpec]
    by_cases hb : a < 2 ^ n
    · rw [Nat.testBit_lt_two_pow hb, ih hb]
      have : a.log2 < n := (Nat.log2_lt (by omega)).2 hb
      simp
      omega
    · have h1 : n ≤ a.log2 := (Nat.le_log2 (by omega)).2 (by omega)
      have h2 : a.log2 < n + 1 := (Nat.log2_lt (by omega)).2 h
      have h3 : a.testBit n = true := by
        rw [Nat.testBit_eq_decide_div_mod_eq]
        have : a / 2 ^ n = 1 := by
          rw [Nat.div_eq_iff (by positivity)]
          rw [Nat.pow_succ] at h
          omega
        rw [this]; rfl
      rw [h3]
      simp
      omega

theorem clz_zero (n : Nat) : clzSpec n 0 = n := by
  induction n with
  | zero => rfl
  | succ n ih => rw [clzSpec, ih]; simp; omega

theorem ctz_zero (n : Nat) : ctzSpec n 0 = n := by
  induction n with
  | zero => rfl
  | succ n ih => rw [ctzSpec]; simp [ih]; omega

theorem interpUn_spec {N : Nat} (op : Un) (a : BitVec N) :
    interpUn N op a = BitVec.ofNat N (unSpec N op a.toNat) := by
  cases op <;> simp only [interpUn, unSpec]
  case clz =>
    split
    · next h => rw [h]; simp [clz_zero]
    · next h =>
      rw [builtinClz, clz_log2 N _ (Nat.pos_of_ne_zero fun h0 => h ((toNat_eq_zero a).1 h0)) a.isLt]
  case ctz =>
    split
    · next h => rw [h]; simp [ctz_zero]
    · rfl

theorem signExtend_spec (a : BitVec 32) : a.signExtend 64 = BitVec.ofNat 64 (unsgn 64 (sgn 32 a.toNat)) := by
  rw [ofNat_unsgn, sgn_toInt (by norm_num)]
  rfl

/-- one step of the interpreter is a step of the standard -/
theorem interpStep_spec (i : Ins) (s : List Val) : interpStep i s = specStep i s := by
  have b32 := @interpBin_spec 32 5 rfl (by omega) (by omega)
  have b64 := @interpBin_spec 64 6 rfl (by omega) (by omega)
  have r32 := @interpRel_spec 32 (by omega)
  have r64 := @interpRel_spec 64 (by omega)
  have eqz : ∀ (N : Nat) (x : BitVec N), (x == 0#N) = decide (x.toNat = 0) := by
    intro N x; rw [Bool.eq_iff_iff]; simp [toNat_eq_zero]
  have sel : ∀ (x : BitVec 32) (v w : Val), (if x == 0#32 then w else v) = if x.toNat ≠ 0 then v else w := by
    intro x v w
    by_cases h : x = 0#32
    · rw [h]; rfl
    · have h' : x.toNat ≠ 0 := fun h0 => h ((toNat_eq_zero x).1 h0)
      rw [if_pos h', if_neg (by simpa using h)]
  have wr : ∀ x : BitVec 64, x.setWidth 32 = BitVec.ofNat 32 (x.toNat % 2 ^ 32) := by
    intro x; apply ofNat_toNat'; rw [BitVec.toNat_setWidth]
  have eu : ∀ x : BitVec 32, x.setWidth 64 = BitVec.ofNat 64 x.toNat := by
    intro x; apply ofNat_toNat'; rw [BitVec.toNat_setWidth, Nat.mod_eq_of_lt (by have := x.isLt; omega)]
  rcases i with v | ⟨_ | _, op⟩ | ⟨_ | _, op⟩ | ⟨_ | _⟩ | ⟨_ | _, op⟩ | _ | _ | _ | _ | _ <;>
    rcases s with _ | ⟨b | b, _ | ⟨a | a, _ | ⟨d, s⟩⟩⟩ <;>
    first
      | rfl
      | (simp only [interpStep, specStep, interpUn_spec, signExtend_spec, r32, r64, eqz, wr, eu]; done)
      | (simp only [interpStep, specStep]; rw [sel])
      | (simp only [interpStep, specStep, b32, b64]
         cases binSpec _ op a.toNat b.toNat <;> rfl)

end Verif.Vm
