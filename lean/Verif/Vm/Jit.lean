import Verif.Vm.Lemmas

/-! Proofs: the compiled code computes what the interpreter computes. -/

namespace Verif.Vm

/-- the code of an instruction takes a stack to another and goes on behind the code -/
def Does (code : List Nat) (s s' : List (BitVec 64)) : Prop :=
  ∀ c : Cpu, c.stack = s → ∃ c' : Cpu, c'.stack = s' ∧
    ∀ rest o, Runs rest c' o → Runs (code ++ rest) c o

def Traps (code : List Nat) (s : List (BitVec 64)) : Prop :=
  ∀ c : Cpu, c.stack = s → ∀ rest, Runs (code ++ rest) c .trap

theorem low (x : BitVec 32) : (x.setWidth 64).setWidth 32 = x := by
  rw [BitVec.setWidth_setWidth_of_le _ (by omega), BitVec.setWidth_eq]

theorem low_toNat (x : BitVec 32) : (x.setWidth 64).toNat = x.toNat := by
  rw [BitVec.toNat_setWidth, Nat.mod_eq_of_lt (by have := x.isLt; omega)]

/-- the sign flag differs from the overflow flag after `x - y` exactly when `x < y` -/
theorem flag_lt {N : Nat} (hN : 0 < N) (x y : BitVec N) :
    ((x - y).msb != BitVec.ssubOverflow x y) = x.slt y := by
  obtain ⟨n, rfl⟩ : ∃ n, N = n + 1 := ⟨N - 1, by omega⟩
  obtain ⟨x1, x2⟩ := toInt_bounds hN x
  obtain ⟨y1, y2⟩ := toInt_bounds hN y
  rw [BitVec.msb_eq_toInt, BitVec.toInt_sub, BitVec.ssubOverflow, BitVec.slt]
  rw [Nat.add_sub_cancel] at *
  have hp : ((2 ^ (n + 1) : Nat) : Int) = 2 * 2 ^ n := by push_cast; ring
  rw [Int.bmod_def, hp]
  generalize x.toInt = X at *
  generalize y.toInt = Y at *
  generalize (2 : Int) ^ n = P at *
  rw [Bool.eq_iff_iff]
  simp only [bne_iff_ne, ne_eq, decide_eq_true_eq]
  have hP : (2 * P + 1) / 2 = P := by omega
  rw [hP]
  by_cases h1 : X - Y < -P
  · have e : (X - Y) % (2 * P) = X - Y + 2 * P := by
      rw [← Int.add_emod_right, Int.emod_eq_of_lt (by omega) (by omega)]
    rw [e, if_pos (by omega), decide_eq_false (by omega : ¬X - Y + 2 * P < 0), decide_eq_true h1]
    simp
    omega
  · by_cases h2 : X - Y < 0
    · have e : (X - Y) % (2 * P) = X - Y + 2 * P := by
        rw [← Int.add_emod_right, Int.emod_eq_of_lt (by omega) (by omega)]
      rw [e, if_neg (by omega), decide_eq_true (by omega : X - Y + 2 * P - 2 * P < 0), decide_eq_false h1,
        decide_eq_false (by omega : ¬X - Y ≥ P)]
      simp
      omega
    · have e : (X - Y) % (2 * P) = X - Y := Int.emod_eq_of_lt (by omega) (by omega)
      rw [e]
      by_cases h3 : X - Y < P
      · rw [if_pos h3, decide_eq_false h2, decide_eq_false h1, decide_eq_false (by omega : ¬X - Y ≥ P)]
        simp
        omega
      · rw [if_neg h3, decide_eq_true (by omega : X - Y - 2 * P < 0), decide_eq_true (by omega : X - Y ≥ P)]
        simp
        omega

theorem setLow_zero (b : Bool) : setLow (0#64) b = enc (boolVal b) := by
  cases b <;> rfl

theorem flags {N : Nat} (x y : BitVec N) :
    (x == y || x.slt y) = x.sle y ∧ (!x.slt y) = y.sle x ∧ (!x.sle y) = y.slt x ∧
    (x.ult y || x == y) = x.ule y ∧ (!x.ule y) = y.ult x ∧ (!x.ult y) = y.ule x := by
  have hinj : x = y ↔ x.toInt = y.toInt := ⟨fun h => by rw [h], BitVec.eq_of_toInt_eq⟩
  have hinj' : x = y ↔ x.toNat = y.toNat := ⟨fun h => by rw [h], BitVec.eq_of_toNat_eq⟩
  refine ⟨?_, ?_, ?_, ?_, ?_, ?_⟩ <;> rw [Bool.eq_iff_iff] <;>
    simp [BitVec.slt, BitVec.sle, BitVec.ult, BitVec.ule]
  · rw [hinj]; omega
  · rw [hinj']; omega

theorem jit_rel32 (op : Rel) (a b : BitVec 32) (s : List (BitVec 64)) (tz : Bool) :
    Does (jit tz (.rel .w32 op)) (b.setWidth 64 :: a.setWidth 64 :: s)
      (enc (boolVal (interpRel 32 op a b)) :: s) := by
  intro c hc
  obtain ⟨rax, rcx, rdx, rsi, zf, cf, sf, ovf, stack, junk⟩ := c
  subst hc
  obtain ⟨f1, f2, f3, f4, f5, f6⟩ := flags a b
  have f0 := flag_lt (by omega : 0 < 32) a b
  cases op <;>
  · refine ⟨_, ?_, fun rest o hr =>
      .step rfl (.step rfl (.step rfl (.step rfl (.step rfl (.step rfl hr)))))⟩
    simp only [Cpu.cmp, ite_true, Bool.false_eq_true, ite_false, BitVec.xor_self, low, setLow_zero, interpRel,
      f0, f1, f2, f3, f4, f5, f6]
    try rfl

theorem jit_rel64 (op : Rel) (a b : BitVec 64) (s : List (BitVec 64)) (tz : Bool) :
    Does (jit tz (.rel .w64 op)) (b :: a :: s) (enc (boolVal (interpRel 64 op a b)) :: s) := by
  intro c hc
  obtain ⟨rax, rcx, rdx, rsi, zf, cf, sf, ovf, stack, junk⟩ := c
  subst hc
  obtain ⟨f1, f2, f3, f4, f5, f6⟩ := flags a b
  have f0 := flag_lt (by omega : 0 < 64) a b
  cases op <;>
  · refine ⟨_, ?_, fun rest o hr =>
      .step rfl (.step rfl (.step rfl (.step rfl (.step rfl (.step rfl hr)))))⟩
    simp only [Cpu.cmp, ite_true, BitVec.xor_self, setLow_zero, interpRel,
      f0, f1, f2, f3, f4, f5, f6]
    try rfl

theorem jit_bin64_plain (op : Bin) (a b r : BitVec 64) (s : List (BitVec 64)) (h : interpBin 64 op a b = some r)
    (hd : op ≠ .divS ∧ op ≠ .divU ∧ op ≠ .remS ∧ op ≠ .remU) :
    Does (jitBin64 op) (b :: a :: s) (r :: s) := by
  have hk : b.toNat % 256 % 64 = b.toNat % 64 := by omega
  have hm : (b &&& BitVec.ofNat 64 (64 - 1)).toNat = b.toNat % 64 := mask_mod 6 b (by omega)
  have hs := @interpBin_spec 64 6 rfl (by omega) (by omega) op a b
  intro c hc
  obtain ⟨rax, rcx, rdx, rsi, zf, cf, sf, ovf, stack, junk⟩ := c
  subst hc
  obtain ⟨d1, d2, d3, d4⟩ := hd
  cases op <;> first | contradiction | skip
  all_goals
    refine ⟨_, ?_, fun rest o hr => .step rfl (.step rfl (.step rfl (.step rfl hr)))⟩
  case rotl =>
    rw [h] at hs
    simp only [binSpec, Option.map_some, Option.some.injEq] at hs
    rw [hs]
    simp only [if_true]
    congr 1
    apply ofNat_toNat'
    rw [BitVec.rotateLeft_def, hk, Nat.mod_mod]
    exact rotl_num a _ (by omega)
  case rotr =>
    rw [h] at hs
    simp only [binSpec, Option.map_some, Option.some.injEq] at hs
    rw [hs]
    simp only [if_true]
    congr 1
    apply ofNat_toNat'
    rw [BitVec.rotateRight_def, hk, Nat.mod_mod]
    exact rotr_num a _ (by omega)
  all_goals
    simp only [interpBin, Option.some.injEq, hm] at h
    simp only [if_true, ← h, hk]

theorem jit_bin32_plain (op : Bin) (a b r : BitVec 32) (s : List (BitVec 64)) (h : interpBin 32 op a b = some r)
    (hd : op ≠ .divS ∧ op ≠ .divU ∧ op ≠ .remS ∧ op ≠ .remU) :
    Does (jitBin32 op) (b.setWidth 64 :: a.setWidth 64 :: s) (r.setWidth 64 :: s) := by
  have hk : (b.setWidth 64).toNat % 256 % 32 = b.toNat % 32 := by rw [low_toNat]; omega
  have hm : (b &&& BitVec.ofNat 32 (32 - 1)).toNat = b.toNat % 32 := mask_mod 5 b (by omega)
  have hs := @interpBin_spec 32 5 rfl (by omega) (by omega) op a b
  intro c hc
  obtain ⟨rax, rcx, rdx, rsi, zf, cf, sf, ovf, stack, junk⟩ := c
  subst hc
  obtain ⟨d1, d2, d3, d4⟩ := hd
  cases op <;> first | contradiction | skip
  all_goals
    refine ⟨_, ?_, fun rest o hr => .step rfl (.step rfl (.step rfl (.step rfl hr)))⟩
  case rotl =>
    rw [h] at hs
    simp only [binSpec, Option.map_some, Option.some.injEq] at hs
    rw [hs]
    simp only [Bool.false_eq_true, if_false, low]
    congr 2
    apply ofNat_toNat'
    rw [BitVec.rotateLeft_def, hk, Nat.mod_mod]
    exact rotl_num a _ (by omega)
  case rotr =>
    rw [h] at hs
    simp only [binSpec, Option.map_some, Option.some.injEq] at hs
    rw [hs]
    simp only [Bool.false_eq_true, if_false, low]
    congr 2
    apply ofNat_toNat'
    rw [BitVec.rotateRight_def, hk, Nat.mod_mod]
    exact rotr_num a _ (by omega)
  all_goals
    simp only [interpBin, Option.some.injEq, hm] at h
    simp only [Bool.false_eq_true, if_false, ← h, hk, low]

theorem divU_zero {N : Nat} (a b : BitVec N) :
    divU N 0#N a b = if b = 0#N then none else some (a / b, a % b) := by
  unfold divU
  simp only [toNat_eq_zero, BitVec.toNat_ofNat, Nat.zero_mod, Nat.zero_mul, Nat.zero_add]
  by_cases h : b = 0#N
  · rw [if_pos h, if_pos h]
  · rw [if_neg h, if_neg h, if_pos (lt_of_le_of_lt (Nat.div_le_self _ _) a.isLt)]
    congr 2
    · exact (ofNat_toNat' _ _ (by rw [BitVec.toNat_udiv])).symm
    · exact (ofNat_toNat' _ _ (by rw [BitVec.toNat_umod])).symm

theorem sign_ext_toInt {N : Nat} (hN : 1 < N) (a : BitVec N) :
    (if a.msb then BitVec.allOnes N else 0#N).toInt * 2 ^ N + a.toNat = a.toInt := by
  have ho : (BitVec.allOnes N).toInt = -1 := by
    rw [← BitVec.neg_one_eq_allOnes]; exact toInt_neg_one hN
  rw [BitVec.toInt_eq_msb_cond a]
  by_cases h : a.msb = true
  · rw [if_pos h, if_pos h, ho]; push_cast; omega
  · rw [if_neg h, if_neg h]; simp

theorem divS_ext {N : Nat} (hN : 1 < N) (a b : BitVec N) :
    divS N (if a.msb then BitVec.allOnes N else 0#N) a b =
      if b = 0#N then none else if a = BitVec.intMin N ∧ b = -1#N then none
      else some (a.sdiv b, a.srem b) := by
  unfold divS
  simp only [sign_ext_toInt hN]
  have hb0 : b.toInt = 0 ↔ b = 0#N := by
    constructor
    · intro h; apply BitVec.eq_of_toInt_eq; rw [h]; simp
    · rintro rfl; simp
  by_cases h : b = 0#N
  · rw [if_pos h, if_pos (hb0.2 h)]
  · rw [if_neg h, if_neg (fun h' => h (hb0.1 h')), ← sdiv_ofInt, ← srem_ofInt]
    obtain ⟨h1, h2⟩ := toInt_bounds (by omega : 0 < N) a
    have hp : 0 < 2 ^ (N - 1) := by positivity
    have hle : a.toInt.natAbs ≤ 2 ^ (N - 1) := by
      have : ((a.toInt.natAbs : Nat) : Int) ≤ ((2 ^ (N - 1) : Nat) : Int) := by
        push_cast; rw [abs_le]; constructor <;> omega
      exact_mod_cast this
    have hq : (a.toInt.tdiv b.toInt).natAbs ≤ 2 ^ (N - 1) := by
      rw [Int.natAbs_tdiv]
      exact (Nat.div_le_self _ _).trans hle
    have hq' : -2 ^ (N - 1) ≤ a.toInt.tdiv b.toInt ∧ a.toInt.tdiv b.toInt ≤ 2 ^ (N - 1) := by
      have : (((a.toInt.tdiv b.toInt).natAbs : Nat) : Int) ≤ ((2 ^ (N - 1) : Nat) : Int) := by exact_mod_cast hq
      push_cast at this
      rw [abs_le] at this
      exact this
    by_cases ht : a = BitVec.intMin N ∧ b = -1#N
    · rw [if_pos ht, if_neg]
      rw [(tdiv_top hN a b).2 ht]
      omega
    · rw [if_neg ht, if_pos]
      have hne : a.toInt.tdiv b.toInt ≠ 2 ^ (N - 1) := fun h' => ht ((tdiv_top hN a b).1 h')
      exact ⟨hq'.1, lt_of_le_of_ne hq'.2 hne⟩

theorem div64_ok {c : Cpu} {f d y q r rest} (hy : c.get d = some y) (h : f 64 c.rdx c.rax y = some (q, r)) :
    c.div true f d rest = .next rest { c with rax := q, rdx := r } := by
  simp only [Cpu.div, hy, if_true, h]

theorem div64_trap {c : Cpu} {f d y rest} (hy : c.get d = some y) (h : f 64 c.rdx c.rax y = none) :
    c.div true f d rest = .trap := by
  simp only [Cpu.div, hy, if_true, h]

theorem div32_ok {c : Cpu} {f d y q r rest} (hy : c.get d = some y)
    (h : f 32 (c.rdx.setWidth 32) (c.rax.setWidth 32) (y.setWidth 32) = some (q, r)) :
    c.div false f d rest = .next rest { c with rax := q.setWidth 64, rdx := r.setWidth 64 } := by
  simp only [Cpu.div, hy, Bool.false_eq_true, if_false, h]

theorem div32_trap {c : Cpu} {f d y rest} (hy : c.get d = some y)
    (h : f 32 (c.rdx.setWidth 32) (c.rax.setWidth 32) (y.setWidth 32) = none) :
    c.div false f d rest = .trap := by
  simp only [Cpu.div, hy, Bool.false_eq_true, if_false, h]

theorem je_taken {c : Cpu} {i0 i1 i2 i3 : Nat} {r : List Nat} (h : (rd32 i0 i1 i2 i3).msb = false)
    (hz : c.zf = true) :
    cpuStep c (0x0f :: 0x84 :: i0 :: i1 :: i2 :: i3 :: r) = .next (r.drop (rd32 i0 i1 i2 i3).toNat) c := by
  show (if (rd32 i0 i1 i2 i3).msb then Step.bad else if c.zf then _ else _) = _
  rw [h, hz]; rfl

theorem je_skip {c : Cpu} {i0 i1 i2 i3 : Nat} {r : List Nat} (h : (rd32 i0 i1 i2 i3).msb = false)
    (hz : c.zf = false) :
    cpuStep c (0x0f :: 0x84 :: i0 :: i1 :: i2 :: i3 :: r) = .next r c := by
  show (if (rd32 i0 i1 i2 i3).msb then Step.bad else if c.zf then _ else _) = _
  rw [h, hz]; rfl

theorem jit_divU32 (a b : BitVec 32) (s : List (BitVec 64)) :
    (interpBin 32 .divU a b = none → Traps (jitBin32 .divU) (b.setWidth 64 :: a.setWidth 64 :: s)) ∧
    (∀ r, interpBin 32 .divU a b = some r → Does (jitBin32 .divU) (b.setWidth 64 :: a.setWidth 64 :: s) (r.setWidth 64 :: s)) := by
  have hd := divU_zero a b
  by_cases h0 : b = 0#32
  · rw [if_pos h0] at hd
    refine ⟨fun _ c hc rest => ?_, fun r h => by simp [interpBin, h0] at h⟩
    obtain ⟨rax, rcx, rdx, rsi, zf, cf, sf, ovf, stack, junk⟩ := c
    subst hc
    refine .step rfl (.step rfl (.step rfl (.trap (div32_trap (f := divU) (d := 1) rfl ?_))))
    · simpa [low] using hd
  · rw [if_neg h0] at hd
    refine ⟨fun h => by simp [interpBin, if_neg h0] at h, fun r h c hc => ?_⟩
    simp only [interpBin, if_neg h0, Option.some.injEq] at h
    subst h
    obtain ⟨rax, rcx, rdx, rsi, zf, cf, sf, ovf, stack, junk⟩ := c
    subst hc
    refine ⟨_, ?_, fun rest o hr => .step rfl (.step rfl (.step rfl (.step
      (div32_ok (f := divU) (d := 1) (q := a / b) (r := a % b) rfl ?_) (.step rfl hr))))⟩
    · rfl
    · simpa [low] using hd

theorem jit_remU32 (a b : BitVec 32) (s : List (BitVec 64)) :
    (interpBin 32 .remU a b = none → Traps (jitBin32 .remU) (b.setWidth 64 :: a.setWidth 64 :: s)) ∧
    (∀ r, interpBin 32 .remU a b = some r → Does (jitBin32 .remU) (b.setWidth 64 :: a.setWidth 64 :: s) (r.setWidth 64 :: s)) := by
  have hd := divU_zero a b
  by_cases h0 : b = 0#32
  · rw [if_pos h0] at hd
    refine ⟨fun _ c hc rest => ?_, fun r h => by simp [interpBin, h0] at h⟩
    obtain ⟨rax, rcx, rdx, rsi, zf, cf, sf, ovf, stack, junk⟩ := c
    subst hc
    refine .step rfl (.step rfl (.step rfl (.trap (div32_trap (f := divU) (d := 1) rfl ?_))))
    · simpa [low] using hd
  · rw [if_neg h0] at hd
    refine ⟨fun h => by simp [interpBin, if_neg h0] at h, fun r h c hc => ?_⟩
    simp only [interpBin, if_neg h0, Option.some.injEq] at h
    subst h
    obtain ⟨rax, rcx, rdx, rsi, zf, cf, sf, ovf, stack, junk⟩ := c
    subst hc
    refine ⟨_, ?_, fun rest o hr => .step rfl (.step rfl (.step rfl (.step
      (div32_ok (f := divU) (d := 1) (q := a / b) (r := a % b) rfl ?_) (.step rfl hr))))⟩
    · rfl
    · simpa [low] using hd

theorem jit_divS32 (a b : BitVec 32) (s : List (BitVec 64)) :
    (interpBin 32 .divS a b = none → Traps (jitBin32 .divS) (b.setWidth 64 :: a.setWidth 64 :: s)) ∧
    (∀ r, interpBin 32 .divS a b = some r → Does (jitBin32 .divS) (b.setWidth 64 :: a.setWidth 64 :: s) (r.setWidth 64 :: s)) := by
  have hd := divS_ext (by omega : 1 < 32) a b
  by_cases h0 : b = 0#32
  · rw [if_pos h0] at hd
    refine ⟨fun _ c hc rest => ?_, fun r h => by simp [interpBin, h0] at h⟩
    obtain ⟨rax, rcx, rdx, rsi, zf, cf, sf, ovf, stack, junk⟩ := c
    subst hc
    refine .step rfl (.step rfl (.step rfl (.trap (div32_trap (f := divS) (d := 1) rfl ?_))))
    · simp only [Cpu.cdq, Bool.false_eq_true, if_false, low]; exact hd
  by_cases ht : a = BitVec.intMin 32 ∧ b = -1#32
  · rw [if_neg h0, if_pos ht] at hd
    refine ⟨fun _ c hc rest => ?_, fun r h => by rw [interpBin, if_neg h0, if_pos ht] at h; cases h⟩
    obtain ⟨rax, rcx, rdx, rsi, zf, cf, sf, ovf, stack, junk⟩ := c
    subst hc
    refine .step rfl (.step rfl (.step rfl (.trap (div32_trap (f := divS) (d := 1) rfl ?_))))
    · simp only [Cpu.cdq, Bool.false_eq_true, if_false, low]; exact hd
  · rw [if_neg h0, if_neg ht] at hd
    refine ⟨fun h => (nomatch (by simpa only [interpBin, if_neg h0, if_neg ht] using h : some _ = none)), fun r h c hc => ?_⟩
    simp only [interpBin, if_neg h0, if_neg ht, Option.some.injEq] at h
    subst h
    obtain ⟨rax, rcx, rdx, rsi, zf, cf, sf, ovf, stack, junk⟩ := c
    subst hc
    refine ⟨_, ?_, fun rest o hr => .step rfl (.step rfl (.step rfl (.step
      (div32_ok (f := divS) (d := 1) (q := a.sdiv b) (r := a.srem b) rfl ?_) (.step rfl hr))))⟩
    · rfl
    · simp only [Cpu.cdq, Bool.false_eq_true, if_false, low]; exact hd

theorem jit_remS32 (a b : BitVec 32) (s : List (BitVec 64)) :
    (interpBin 32 .remS a b = none → Traps (jitBin32 .remS) (b.setWidth 64 :: a.setWidth 64 :: s)) ∧
    (∀ r, interpBin 32 .remS a b = some r → Does (jitBin32 .remS) (b.setWidth 64 :: a.setWidth 64 :: s) (r.setWidth 64 :: s)) := by
  have hd := divS_ext (by omega : 1 < 32) a b
  have hz : ((imm8 0xff 32) : BitVec 32) = -1#32 := by decide
  by_cases h1 : b = -1#32
  · have hi : interpBin 32 .remS a b = some 0#32 := by
      subst h1
      simp only [interpBin, srem_ofInt, toInt_neg_one (by omega : 1 < 32)]
      rw [if_neg (by decide)]
      split <;> simp
    refine ⟨fun h => by simp [hi] at h, fun r h c hc => ?_⟩
    rw [hi, Option.some.injEq] at h
    subst h
    obtain ⟨rax, rcx, rdx, rsi, zf, cf, sf, ovf, stack, junk⟩ := c
    subst hc
    refine ⟨_, ?_, fun rest o hr => .step rfl (.step rfl (.step rfl (.step (je_taken rfl ?_) (.step rfl
      (.step rfl hr)))))⟩
    · simp [Cpu.cmp]
    · show ((b.setWidth 64).setWidth 32 == imm8 0xff 32) = true
      rw [hz, low, h1]; rfl
  by_cases h0 : b = 0#32
  · rw [if_pos h0] at hd
    refine ⟨fun _ c hc rest => ?_, fun r h => by simp [interpBin, h0] at h⟩
    obtain ⟨rax, rcx, rdx, rsi, zf, cf, sf, ovf, stack, junk⟩ := c
    subst hc
    refine .step rfl (.step rfl (.step rfl (.step (je_skip rfl ?_) (.step rfl (.trap (div32_trap (f := divS) (d := 1) rfl ?_))))))
    · show ((b.setWidth 64).setWidth 32 == imm8 0xff 32) = false
      rw [hz, low]; simpa using h1
    · simp only [Cpu.cdq, Cpu.cmp, Bool.false_eq_true, if_false, low]; exact hd
  · have ht : ¬(a = BitVec.intMin 32 ∧ b = -1#32) := fun h => h1 h.2
    rw [if_neg h0, if_neg ht] at hd
    refine ⟨fun h => (nomatch (by simpa only [interpBin, if_neg h0, if_neg ht] using h : some _ = none)), fun r h c hc => ?_⟩
    simp only [interpBin, if_neg h0, if_neg ht, Option.some.injEq] at h
    subst h
    obtain ⟨rax, rcx, rdx, rsi, zf, cf, sf, ovf, stack, junk⟩ := c
    subst hc
    refine ⟨_, ?_, fun rest o hr => .step rfl (.step rfl (.step rfl (.step (je_skip rfl ?_) (.step rfl (.step
      (div32_ok (f := divS) (d := 1) (q := a.sdiv b) (r := a.srem b) rfl ?_) (.step rfl (.step rfl hr)))))))⟩
    · rfl
    · show ((b.setWidth 64).setWidth 32 == imm8 0xff 32) = false
      rw [hz, low]; simpa using h1
    · simp only [Cpu.cdq, Cpu.cmp, Bool.false_eq_true, if_false, low]; exact hd

theorem jit_divU64 (a b : BitVec 64) (s : List (BitVec 64)) :
    (interpBin 64 .divU a b = none → Traps (jitBin64 .divU) (b :: a :: s)) ∧
    (∀ r, interpBin 64 .divU a b = some r → Does (jitBin64 .divU) (b :: a :: s) (r :: s)) := by
  have hd := divU_zero a b
  by_cases h0 : b = 0#64
  · rw [if_pos h0] at hd
    refine ⟨fun _ c hc rest => ?_, fun r h => by simp [interpBin, h0] at h⟩
    obtain ⟨rax, rcx, rdx, rsi, zf, cf, sf, ovf, stack, junk⟩ := c
    subst hc
    refine .step rfl (.step rfl (.step rfl (.trap (div64_trap (f := divU) (d := 1) rfl ?_))))
    · simpa using hd
  · rw [if_neg h0] at hd
    refine ⟨fun h => by simp [interpBin, if_neg h0] at h, fun r h c hc => ?_⟩
    simp only [interpBin, if_neg h0, Option.some.injEq] at h
    subst h
    obtain ⟨rax, rcx, rdx, rsi, zf, cf, sf, ovf, stack, junk⟩ := c
    subst hc
    refine ⟨_, ?_, fun rest o hr => .step rfl (.step rfl (.step rfl (.step
      (div64_ok (f := divU) (d := 1) (q := a / b) (r := a % b) rfl ?_) (.step rfl hr))))⟩
    · rfl
    · simpa using hd

theorem jit_remU64 (a b : BitVec 64) (s : List (BitVec 64)) :
    (interpBin 64 .remU a b = none → Traps (jitBin64 .remU) (b :: a :: s)) ∧
    (∀ r, interpBin 64 .remU a b = some r → Does (jitBin64 .remU) (b :: a :: s) (r :: s)) := by
  have hd := divU_zero a b
  by_cases h0 : b = 0#64
  · rw [if_pos h0] at hd
    refine ⟨fun _ c hc rest => ?_, fun r h => by simp [interpBin, h0] at h⟩
    obtain ⟨rax, rcx, rdx, rsi, zf, cf, sf, ovf, stack, junk⟩ := c
    subst hc
    refine .step rfl (.step rfl (.step rfl (.trap (div64_trap (f := divU) (d := 1) rfl ?_))))
    · simpa using hd
  · rw [if_neg h0] at hd
    refine ⟨fun h => by simp [interpBin, if_neg h0] at h, fun r h c hc => ?_⟩
    simp only [interpBin, if_neg h0, Option.some.injEq] at h
    subst h
    obtain ⟨rax, rcx, rdx, rsi, zf, cf, sf, ovf, stack, junk⟩ := c
    subst hc
    refine ⟨_, ?_, fun rest o hr => .step rfl (.step rfl (.step rfl (.step
      (div64_ok (f := divU) (d := 1) (q := a / b) (r := a % b) rfl ?_) (.step rfl hr))))⟩
    · rfl
    · simpa using hd

theorem jit_divS64 (a b : BitVec 64) (s : List (BitVec 64)) :
    (interpBin 64 .divS a b = none → Traps (jitBin64 .divS) (b :: a :: s)) ∧
    (∀ r, interpBin 64 .divS a b = some r → Does (jitBin64 .divS) (b :: a :: s) (r :: s)) := by
  have hd := divS_ext (by omega : 1 < 64) a b
  by_cases h0 : b = 0#64
  · rw [if_pos h0] at hd
    refine ⟨fun _ c hc rest => ?_, fun r h => by simp [interpBin, h0] at h⟩
    obtain ⟨rax, rcx, rdx, rsi, zf, cf, sf, ovf, stack, junk⟩ := c
    subst hc
    refine .step rfl (.step rfl (.step rfl (.trap (div64_trap (f := divS) (d := 1) rfl ?_))))
    · exact hd
  by_cases ht : a = BitVec.intMin 64 ∧ b = -1#64
  · rw [if_neg h0, if_pos ht] at hd
    refine ⟨fun _ c hc rest => ?_, fun r h => by rw [interpBin, if_neg h0, if_pos ht] at h; cases h⟩
    obtain ⟨rax, rcx, rdx, rsi, zf, cf, sf, ovf, stack, junk⟩ := c
    subst hc
    refine .step rfl (.step rfl (.step rfl (.trap (div64_trap (f := divS) (d := 1) rfl ?_))))
    · exact hd
  · rw [if_neg h0, if_neg ht] at hd
    refine ⟨fun h => (nomatch (by simpa only [interpBin, if_neg h0, if_neg ht] using h : some _ = none)), fun r h c hc => ?_⟩
    simp only [interpBin, if_neg h0, if_neg ht, Option.some.injEq] at h
    subst h
    obtain ⟨rax, rcx, rdx, rsi, zf, cf, sf, ovf, stack, junk⟩ := c
    subst hc
    refine ⟨_, ?_, fun rest o hr => .step rfl (.step rfl (.step rfl (.step
      (div64_ok (f := divS) (d := 1) (q := a.sdiv b) (r := a.srem b) rfl ?_) (.step rfl hr))))⟩
    · rfl
    · exact hd

theorem jit_remS64 (a b : BitVec 64) (s : List (BitVec 64)) :
    (interpBin 64 .remS a b = none → Traps (jitBin64 .remS) (b :: a :: s)) ∧
    (∀ r, interpBin 64 .remS a b = some r → Does (jitBin64 .remS) (b :: a :: s) (r :: s)) := by
  have hd := divS_ext (by omega : 1 < 64) a b
  have hz : ((imm8 0xff 64) : BitVec 64) = -1#64 := by decide
  by_cases h1 : b = -1#64
  · have hi : interpBin 64 .remS a b = some 0#64 := by
      subst h1
      simp only [interpBin, srem_ofInt, toInt_neg_one (by omega : 1 < 64)]
      rw [if_neg (by decide)]
      split <;> simp
    refine ⟨fun h => by simp [hi] at h, fun r h c hc => ?_⟩
    rw [hi, Option.some.injEq] at h
    subst h
    obtain ⟨rax, rcx, rdx, rsi, zf, cf, sf, ovf, stack, junk⟩ := c
    subst hc
    refine ⟨_, ?_, fun rest o hr => .step rfl (.step rfl (.step rfl (.step (je_taken rfl ?_) (.step rfl
      (.step rfl hr)))))⟩
    · simp [Cpu.cmp]
    · show (b == imm8 0xff 64) = true
      rw [hz, h1]; rfl
  by_cases h0 : b = 0#64
  · rw [if_pos h0] at hd
    refine ⟨fun _ c hc rest => ?_, fun r h => by simp [interpBin, h0] at h⟩
    obtain ⟨rax, rcx, rdx, rsi, zf, cf, sf, ovf, stack, junk⟩ := c
    subst hc
    refine .step rfl (.step rfl (.step rfl (.step (je_skip rfl ?_) (.step rfl (.trap (div64_trap (f := divS) (d := 1) rfl ?_))))))
    · show (b == imm8 0xff 64) = false
      rw [hz]; simpa using h1
    · exact hd
  · have ht : ¬(a = BitVec.intMin 64 ∧ b = -1#64) := fun h => h1 h.2
    rw [if_neg h0, if_neg ht] at hd
    refine ⟨fun h => (nomatch (by simpa only [interpBin, if_neg h0, if_neg ht] using h : some _ = none)), fun r h c hc => ?_⟩
    simp only [interpBin, if_neg h0, if_neg ht, Option.some.injEq] at h
    subst h
    obtain ⟨rax, rcx, rdx, rsi, zf, cf, sf, ovf, stack, junk⟩ := c
    subst hc
    refine ⟨_, ?_, fun rest o hr => .step rfl (.step rfl (.step rfl (.step (je_skip rfl ?_) (.step rfl (.step
      (div64_ok (f := divS) (d := 1) (q := a.sdiv b) (r := a.srem b) rfl ?_) (.step rfl (.step rfl hr)))))))⟩
    · rfl
    · show (b == imm8 0xff 64) = false
      rw [hz]; simpa using h1
    · exact hd

theorem neg_sub_clz {N : Nat} (l k : Nat) (hl : l ≤ k) :
    -(BitVec.ofNat N l - BitVec.ofNat N k) = BitVec.ofNat N (k - l) := by
  have h : BitVec.ofNat N k = BitVec.ofNat N (k - l) + BitVec.ofNat N l := by
    rw [← BitVec.ofNat_add]; congr 1; omega
  rw [BitVec.neg_sub, BitVec.add_comm, ← BitVec.sub_eq_add_neg, h, BitVec.add_sub_cancel]

theorem log2_le (N : Nat) (x : BitVec N) (h : x ≠ 0#N) : x.toNat.log2 ≤ N - 1 := by
  have h0 : x.toNat ≠ 0 := fun e => h ((toNat_eq_zero x).1 e)
  have := (Nat.log2_lt h0).2 x.isLt
  omega

theorem jit_un32 (tz : Bool) (op : Un) (a : BitVec 32) (s : List (BitVec 64)) :
    Does (jitUn tz .w32 op) ((a).setWidth 64 :: s) ((interpUn 32 op a).setWidth 64 :: s) := by
  intro c hc
  obtain ⟨rax, rcx, rdx, rsi, zf, cf, sf, ovf, stack, junk⟩ := c
  subst hc
  cases op
  case popcnt =>
    refine ⟨_, ?_, fun rest o hr => .step rfl (.step rfl (.step rfl hr))⟩
    simp [interpUn]
  case ctz =>
    cases tz
    · refine ⟨_, ?_, fun rest o hr => .step rfl (.step rfl (.step rfl (.step rfl (.step rfl hr))))⟩
      simp only [interpUn, low]
      by_cases h : a = 0#32
      · simp [h, rd32]
      · simp [h]

    · refine ⟨_, ?_, fun rest o hr => .step rfl (.step rfl (.step rfl hr))⟩
      simp only [interpUn, low]
      by_cases h : a = 0#32
      · simp [h, ctz_zero]
      · simp [h]

  case clz =>
    cases tz
    · refine ⟨_, ?_, fun rest o hr => .step rfl (.step rfl (.step rfl (.step rfl (.step rfl (.step rfl (.step rfl hr))))))⟩
      simp only [interpUn, builtinClz, low, show imm8 0x1f 32 = BitVec.ofNat 32 31 by decide]
      by_cases h : a = 0#32
      · simp [h, rd32]
      · have := neg_sub_clz (N := 32) _ _ (log2_le 32 a h)
        simp [h] at this ⊢
        rw [this]

    · refine ⟨_, ?_, fun rest o hr => .step rfl (.step rfl (.step rfl hr))⟩
      simp only [interpUn, builtinClz, low]
      by_cases h : a = 0#32
      · simp [h, clz_zero]
      · simp only [h, if_false, Bool.false_eq_true]
        rw [clz_log2 _ _ (Nat.pos_of_ne_zero fun e => h ((toNat_eq_zero a).1 e)) a.isLt]


theorem jit_eqz32 (tz : Bool) (a : BitVec 32) (s : List (BitVec 64)) :
    Does (jit tz (.eqz .w32)) ((a).setWidth 64 :: s) (enc (boolVal (a == 0#32)) :: s) := by
  intro c hc
  obtain ⟨rax, rcx, rdx, rsi, zf, cf, sf, ovf, stack, junk⟩ := c
  subst hc
  refine ⟨_, ?_, fun rest o hr => .step rfl (.step rfl (.step rfl (.step rfl (.step rfl hr))))⟩
  simp only [boolVal, enc, low, BitVec.and_self]
  cases h : (a == 0#32) <;> simp_all [setLow]

theorem jit_un64 (tz : Bool) (op : Un) (a : BitVec 64) (s : List (BitVec 64)) :
    Does (jitUn tz .w64 op) (a :: s) (interpUn 64 op a :: s) := by
  intro c hc
  obtain ⟨rax, rcx, rdx, rsi, zf, cf, sf, ovf, stack, junk⟩ := c
  subst hc
  cases op
  case popcnt =>
    refine ⟨_, ?_, fun rest o hr => .step rfl (.step rfl (.step rfl hr))⟩
    simp [interpUn]
  case ctz =>
    cases tz
    · refine ⟨_, ?_, fun rest o hr => .step rfl (.step rfl (.step rfl (.step rfl (.step rfl hr))))⟩
      simp only [interpUn]
      by_cases h : a = 0#64
      · simp [h, rd32]
      · simp [h]

    · refine ⟨_, ?_, fun rest o hr => .step rfl (.step rfl (.step rfl hr))⟩
      simp only [interpUn]
      by_cases h : a = 0#64
      · simp [h, ctz_zero]
      · simp [h]

  case clz =>
    cases tz
    · refine ⟨_, ?_, fun rest o hr => .step rfl (.step rfl (.step rfl (.step rfl (.step rfl (.step rfl (.step rfl hr))))))⟩
      simp only [interpUn, builtinClz, show imm8 0x3f 64 = BitVec.ofNat 64 63 by decide]
      by_cases h : a = 0#64
      · simp [h, rd32]
      · have := neg_sub_clz (N := 64) _ _ (log2_le 64 a h)
        simp [h] at this ⊢
        exact this

    · refine ⟨_, ?_, fun rest o hr => .step rfl (.step rfl (.step rfl hr))⟩
      simp only [interpUn, builtinClz]
      by_cases h : a = 0#64
      · simp [h, clz_zero]
      · simp only [h, if_false, if_true]
        rw [clz_log2 _ _ (Nat.pos_of_ne_zero fun e => h ((toNat_eq_zero a).1 e)) a.isLt]


theorem jit_eqz64 (tz : Bool) (a : BitVec 64) (s : List (BitVec 64)) :
    Does (jit tz (.eqz .w64)) (a :: s) (enc (boolVal (a == 0#64)) :: s) := by
  intro c hc
  obtain ⟨rax, rcx, rdx, rsi, zf, cf, sf, ovf, stack, junk⟩ := c
  subst hc
  refine ⟨_, ?_, fun rest o hr => .step rfl (.step rfl (.step rfl (.step rfl (.step rfl hr))))⟩
  simp only [boolVal, enc, BitVec.and_self]
  cases h : (a == 0#64) <;> simp_all [setLow]

theorem jit_wrap (tz : Bool) (a : BitVec 64) (s : List (BitVec 64)) :
    Does (jit tz .wrap) (a :: s) (((a.setWidth 32).setWidth 64) :: s) := by
  intro c hc
  obtain ⟨rax, rcx, rdx, rsi, zf, cf, sf, ovf, stack, junk⟩ := c
  subst hc
  refine ⟨_, ?_, fun rest o hr => .step rfl (.step rfl hr)⟩
  simp only [List.cons.injEq, and_true]
  apply BitVec.eq_of_toNat_eq
  rw [BitVec.toNat_append]
  simp
  omega

theorem jit_extS (tz : Bool) (a : BitVec 32) (s : List (BitVec 64)) :
    Does (jit tz .extS) (a.setWidth 64 :: s) ((a.signExtend 64) :: s) := by
  intro c hc
  obtain ⟨rax, rcx, rdx, rsi, zf, cf, sf, ovf, stack, junk⟩ := c
  subst hc
  refine ⟨_, ?_, fun rest o hr => .step rfl (.step rfl hr)⟩
  simp

theorem jit_drop (tz : Bool) (a : BitVec 64) (s : List (BitVec 64)) :
    Does (jit tz .drop) (a :: s) s := by
  intro c hc
  obtain ⟨rax, rcx, rdx, rsi, zf, cf, sf, ovf, stack, junk⟩ := c
  subst hc
  refine ⟨_, ?_, fun rest o hr => .step rfl hr⟩
  rfl

theorem jit_select (tz : Bool) (k : BitVec 32) (x y : BitVec 64) (s : List (BitVec 64)) :
    Does (jit tz .select) (k.setWidth 64 :: y :: x :: s) ((if k == 0#32 then y else x) :: s) := by
  intro c hc
  obtain ⟨rax, rcx, rdx, rsi, zf, cf, sf, ovf, stack, junk⟩ := c
  subst hc
  refine ⟨_, ?_, fun rest o hr => .step rfl (.step rfl (.step rfl (.step rfl (.step rfl hr))))⟩
  simp only [BitVec.and_self, low, Bool.false_eq_true, if_false]

theorem jit_const32 (tz : Bool) (x : BitVec 32) (s : List (BitVec 64)) :
    Does (jit tz (.const (.i32 x))) s (x.setWidth 64 :: s) := by
  intro c hc
  obtain ⟨rax, rcx, rdx, rsi, zf, cf, sf, ovf, stack, junk⟩ := c
  subst hc
  refine ⟨_, ?_, fun rest o hr => .step rfl (.step rfl hr)⟩
  simp only [rd32]
  congr 2
  apply BitVec.eq_of_toNat_eq
  have := x.isLt
  rw [BitVec.toNat_ofNat]
  omega

theorem jit_const64 (tz : Bool) (x : BitVec 64) (s : List (BitVec 64)) :
    Does (jit tz (.const (.i64 x))) s (x :: s) := by
  intro c hc
  obtain ⟨rax, rcx, rdx, rsi, zf, cf, sf, ovf, stack, junk⟩ := c
  subst hc
  refine ⟨_, ?_, fun rest o hr => .step rfl (.step rfl hr)⟩
  simp only [rd32]
  congr 1
  apply BitVec.eq_of_toNat_eq
  have := x.isLt
  rw [BitVec.toNat_append, BitVec.toNat_ofNat, BitVec.toNat_ofNat]
  rw [Nat.shiftLeft_eq, Nat.mul_comm, ← Nat.two_pow_add_eq_or_of_lt (by omega)]
  omega

theorem jit_bin32 (op : Bin) (a b : BitVec 32) (s : List (BitVec 64)) :
    (interpBin 32 op a b = none → Traps (jitBin32 op) (b.setWidth 64 :: a.setWidth 64 :: s)) ∧
    (∀ r, interpBin 32 op a b = some r →
      Does (jitBin32 op) (b.setWidth 64 :: a.setWidth 64 :: s) (r.setWidth 64 :: s)) := by
  cases op
  case divS => exact jit_divS32 a b s
  case divU => exact jit_divU32 a b s
  case remS => exact jit_remS32 a b s
  case remU => exact jit_remU32 a b s
  all_goals exact ⟨fun h => (by simp [interpBin] at h), fun r h => jit_bin32_plain _ a b r s h (by simp)⟩

theorem jit_bin64 (op : Bin) (a b : BitVec 64) (s : List (BitVec 64)) :
    (interpBin 64 op a b = none → Traps (jitBin64 op) (b :: a :: s)) ∧
    (∀ r, interpBin 64 op a b = some r → Does (jitBin64 op) (b :: a :: s) (r :: s)) := by
  cases op
  case divS => exact jit_divS64 a b s
  case divU => exact jit_divU64 a b s
  case remS => exact jit_remS64 a b s
  case remU => exact jit_remU64 a b s
  all_goals exact ⟨fun h => (by simp [interpBin] at h), fun r h => jit_bin64_plain _ a b r s h (by simp)⟩

/-- what the code of one instruction has to do for an outcome of the interpreter -/
def Refines (code : List Nat) (s : List Val) : Out (List Val) → Prop
  | .ok s' => Does code (s.map enc) (s'.map enc)
  | .trap => Traps code (s.map enc)
  | .stuck => True

theorem jit_step (tz : Bool) (i : Ins) (s : List Val) : Refines (jit tz i) s (interpStep i s) := by
  unfold interpStep
  split
  · rename_i v
    cases v
    · exact jit_const32 tz _ _
    · exact jit_const64 tz _ _
  · rename_i op b a s
    have h := jit_bin32 op a b (s.map enc)
    split
    · rename_i r hr; exact h.2 r hr
    · rename_i hr; exact h.1 hr
  · rename_i op b a s
    have h := jit_bin64 op a b (s.map enc)
    split
    · rename_i r hr; exact h.2 r hr
    · rename_i hr; exact h.1 hr
  · exact jit_rel32 _ _ _ _ tz
  · exact jit_rel64 _ _ _ _ tz
  · exact jit_eqz32 tz _ _
  · exact jit_eqz64 tz _ _
  · exact jit_un32 tz _ _ _
  · exact jit_un64 tz _ _ _
  · exact jit_wrap tz _ _
  · exact jit_extS tz _ _
  · exact fun c hc => ⟨c, hc, fun rest o hr => hr⟩
  · exact jit_drop tz _ _
  · rename_i k v2 v1 s
    have h := jit_select tz k (enc v1) (enc v2) (s.map enc)
    show Does _ _ _
    simp only [List.map_cons, apply_ite enc]
    exact h
  · trivial

theorem runs_det {code : List Nat} {c : Cpu} {o o' : Out Cpu} (h : Runs code c o) (h' : Runs code c o') :
    o = o' := by
  induction h with
  | done c =>
    cases h' with
    | done => rfl
    | step e _ => simp [cpuStep, exec] at e
    | trap e => simp [cpuStep, exec] at e
  | step e _ ih =>
    cases h' with
    | done => simp [cpuStep, exec] at e
    | step e' h' => rw [e] at e'; cases e'; exact ih h'
    | trap e' => rw [e] at e'; cases e'
  | trap e =>
    cases h' with
    | done => simp [cpuStep, exec] at e
    | step e' h' => rw [e] at e'; cases e'
    | trap e' => rfl

theorem jit_all (tz : Bool) (p : List Ins) (s : List Val) (c : Cpu) (hc : c.stack = s.map enc) :
    match runWith interpStep p s with
    | .ok s' => ∃ c' : Cpu, c'.stack = s'.map enc ∧ ∀ rest o, Runs rest c' o → Runs (jitAll tz p ++ rest) c o
    | .trap => ∀ rest, Runs (jitAll tz p ++ rest) c .trap
    | .stuck => True := by
  induction p generalizing s c with
  | nil => exact ⟨c, hc, fun rest o h => h⟩
  | cons i is ih =>
    have h := jit_step tz i s
    rw [runWith]
    rcases hi : interpStep i s with s1 | _ | _
    · rw [hi] at h
      obtain ⟨c1, h1, h2⟩ := h c hc
      have := ih s1 c1 h1
      simp only
      rcases hr : runWith interpStep is s1 with s2 | _ | _
      · rw [hr] at this
        obtain ⟨c2, h3, h4⟩ := this
        refine ⟨c2, h3, fun rest o hx => ?_⟩
        rw [jitAll, List.append_assoc]
        exact h2 _ _ (h4 _ _ hx)
      · rw [hr] at this
        intro rest
        rw [jitAll, List.append_assoc]
        exact h2 _ _ (this rest)
      · trivial
    · rw [hi] at h
      intro rest
      rw [jitAll, List.append_assoc]
      exact h c hc _
    · trivial

end Verif.Vm
