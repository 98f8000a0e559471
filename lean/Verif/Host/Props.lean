import Verif.Host.Model

/-!
# Properties of what contracts call in the node (C141-C145)
-/
namespace Verif.Host

/-! ## C141: arithmetic is exact or refused -/

/-- The numbers of an `int64_t`. -/
def In64 (x : Int) : Prop := -9223372036854775808 ≤ x ∧ x < 9223372036854775808

instance (x : Int) : Decidable (In64 x) := by unfold In64; infer_instance

/-- The result when it fits, nothing otherwise. -/
def exact (x : Int) : Option Int := if In64 x then some x else none

theorem exact_in {x : Int} (h : -9223372036854775808 ≤ x ∧ x < 9223372036854775808) : exact x = some x := if_pos h
theorem exact_out {x : Int} (h : ¬ (-9223372036854775808 ≤ x ∧ x < 9223372036854775808)) : exact x = none := if_neg h

/-- **C141** -/
theorem add_exact {a b : Int} (ha : In64 a) (hb : In64 b) : safeAdd a b = exact (a + b) := by
  have hs : S (U a + U b) = (if -9223372036854775808 ≤ a + b then if a + b < 9223372036854775808 then a + b
      else a + b - 18446744073709551616 else a + b + 18446744073709551616) := by
    unfold In64 at *
    unfold S U; split <;> split <;> (try split) <;> omega
  unfold safeAdd exact
  dsimp only
  rw [hs]
  by_cases h1 : -9223372036854775808 ≤ a + b
  · by_cases h2 : a + b < 9223372036854775808
    · have h3 : In64 (a + b) := ⟨h1, h2⟩
      unfold In64 at ha hb
      rw [if_pos h1, if_pos h2, if_pos h3]
      repeat' split
      all_goals first | rfl | omega
    · have h3 : ¬ In64 (a + b) := fun h => h2 h.2
      unfold In64 at ha hb
      rw [if_pos h1, if_neg h2, if_neg h3]
      repeat' split
      all_goals first | rfl | omega
  · have h3 : ¬ In64 (a + b) := fun h => h1 h.1
    unfold In64 at ha hb
    rw [if_neg h1, if_neg h3]
    repeat' split
    all_goals first | rfl | omega

/-- **C141** -/
theorem sub_exact {a b : Int} (ha : In64 a) (hb : In64 b) : safeSub a b = exact (a - b) := by
  have hs : S (U a + (18446744073709551616 - U b)) = (if -9223372036854775808 ≤ a - b then if a - b < 9223372036854775808 then a - b
      else a - b - 18446744073709551616 else a - b + 18446744073709551616) := by
    unfold In64 at *
    unfold S U; split <;> split <;> (try split) <;> omega
  unfold safeSub exact
  dsimp only
  rw [hs]
  by_cases h1 : -9223372036854775808 ≤ a - b
  · by_cases h2 : a - b < 9223372036854775808
    · have h3 : In64 (a - b) := ⟨h1, h2⟩
      unfold In64 at ha hb
      rw [if_pos h1, if_pos h2, if_pos h3]
      repeat' split
      all_goals first | rfl | omega
    · have h3 : ¬ In64 (a - b) := fun h => h2 h.2
      unfold In64 at ha hb
      rw [if_pos h1, if_neg h2, if_neg h3]
      repeat' split
      all_goals first | rfl | omega
  · have h3 : ¬ In64 (a - b) := fun h => h1 h.1
    unfold In64 at ha hb
    rw [if_neg h1, if_neg h3]
    repeat' split
    all_goals first | rfl | omega

/-- **C141** Division drops the fraction; only the division by zero and the one that does not fit are refused. -/
theorem div_exact {a b : Int} (ha : In64 a) (hb : In64 b) :
    safeDiv a b = if b = 0 then none else exact (Int.tdiv a b) := by
  unfold safeDiv
  by_cases h0 : b = 0
  · rw [if_pos h0, if_pos h0]
  · rw [if_neg h0, if_neg h0]
    by_cases hz : a = 0
    · subst hz; rw [if_pos rfl, Int.zero_tdiv]; rfl
    · rw [if_neg hz]
      unfold In64 at *
      by_cases hm : a = -9223372036854775808 ∧ b = -1
      · rw [if_pos hm, hm.1, hm.2]; rfl
      · rw [if_neg hm]
        have hn := Int.natAbs_tdiv a b
        have : -9223372036854775808 ≤ Int.tdiv a b ∧ Int.tdiv a b < 9223372036854775808 := by
          by_cases h1 : b = 1
          · subst h1; rw [Int.tdiv_one]; exact ha
          · by_cases h2 : b = -1
            · subst h2
              rw [Int.tdiv_neg, Int.tdiv_one]
              omega
            · have hb2 : 2 ≤ b.natAbs := by omega
              have : a.natAbs / b.natAbs ≤ a.natAbs / 2 := Nat.div_le_div_left hb2 (by decide)
              have h3 : a.natAbs ≤ 9223372036854775808 := by omega
              have h4 : (a.tdiv b).natAbs ≤ 4611686018427387904 := by rw [hn, show a.natAbs.div b.natAbs = a.natAbs / b.natAbs from rfl]; omega
              omega
        rw [exact_in this]

theorem regMul_exact {a b : Nat} (ha : a < 18446744073709551616) (hb : b < 18446744073709551616) :
    regMul a b = if a * b < 18446744073709551616 then some (a * b) else none := by
  have ea : a = a / 4294967296 * 4294967296 + a % 4294967296 := by omega
  have eb : b = b / 4294967296 * 4294967296 + b % 4294967296 := by omega
  have ha2 : a / 4294967296 < 4294967296 := by omega
  have hb2 : b / 4294967296 < 4294967296 := by omega
  have ha3 : a % 4294967296 < 4294967296 := by omega
  have hb3 : b % 4294967296 < 4294967296 := by omega
  unfold regMul
  dsimp only
  generalize a / 4294967296 = ah at *
  generalize a % 4294967296 = al at *
  generalize b / 4294967296 = bh at *
  generalize b % 4294967296 = bl at *
  have ht : al * bl ≤ 18446744065119617025 :=
    Nat.le_trans (Nat.mul_le_mul (Nat.le_of_lt_succ ha3) (Nat.le_of_lt_succ hb3)) (by decide)
  by_cases h1 : ah = 0
  · rw [if_pos h1]
    subst h1
    have ea' : a = al := by omega
    have hp : a * b = al * bh * 4294967296 + al * bl := by
      rw [ea', eb, Nat.mul_add, Nat.mul_assoc]
    by_cases h2 : bh = 0
    · rw [if_neg (by simp [h2])]
      dsimp only
      rw [if_neg (by simp)]
      subst h2
      simp only [Nat.mul_zero, Nat.zero_mul, Nat.zero_add] at hp
      rw [hp, if_pos (Nat.lt_of_le_of_lt ht (by decide))]
    · rw [if_pos h2]
      dsimp only
      rw [hp]
      generalize al * bl = t at ht ⊢
      by_cases h3 : al * bh = 0
      · rw [h3, if_neg (by simp)]
        simp only [Nat.zero_mul, Nat.zero_add]
        rw [if_pos (by omega)]
      · generalize al * bh = r at h3 ⊢
        rw [if_pos h3]
        by_cases h4 : r / 4294967296 = 0
        · rw [if_neg (by simp [h4])]
          by_cases h5 : r * 4294967296 + t < 18446744073709551616
          · rw [if_pos h5, Nat.mod_eq_of_lt h5, if_neg (by omega)]
          · rw [if_neg h5, if_pos (by omega)]
        · rw [if_pos h4, if_neg (by omega)]
  · rw [if_neg h1]
    by_cases h2 : bh = 0
    · rw [if_pos h2]
      dsimp only
      subst h2
      have eb' : b = bl := by omega
      have hp : a * b = ah * bl * 4294967296 + al * bl := by
        rw [ea, eb', Nat.add_mul, Nat.mul_right_comm]
      rw [hp]
      generalize al * bl = t at ht ⊢
      by_cases h3 : ah * bl = 0
      · rw [h3, if_neg (by simp)]
        simp only [Nat.zero_mul, Nat.zero_add]
        rw [if_pos (by omega)]
      · generalize ah * bl = r at h3 ⊢
        rw [if_pos h3]
        by_cases h4 : r / 4294967296 = 0
        · rw [if_neg (by simp [h4])]
          by_cases h5 : r * 4294967296 + t < 18446744073709551616
          · rw [if_pos h5, Nat.mod_eq_of_lt h5, if_neg (by omega)]
          · rw [if_neg h5, if_pos (by omega)]
        · rw [if_pos h4, if_neg (by omega)]
    · rw [if_neg h2]
      dsimp only
      have h3 : 4294967296 * 4294967296 ≤ a * b := Nat.mul_le_mul (by omega) (by omega)
      rw [if_neg (by omega)]

/-- **C141** -/
theorem mul_exact {a b : Int} (ha : In64 a) (hb : In64 b) : safeMul a b = exact (a * b) := by
  unfold In64 at *
  have h1 : (if a < 0 then (18446744073709551616 - U a) % 18446744073709551616 else U a) = a.natAbs := by
    unfold U; split <;> omega
  have h2 : (if b < 0 then (18446744073709551616 - U b) % 18446744073709551616 else U b) = b.natAbs := by
    unfold U; split <;> omega
  unfold safeMul
  dsimp only
  rw [h1, h2, regMul_exact (by omega) (by omega), ← Int.natAbs_mul]
  have hneg : (decide (a < 0) != decide (b < 0)) = true → a * b ≤ 0 := by
    intro h
    by_cases ha0 : a < 0
    · have : ¬ b < 0 := by intro hb0; simp [ha0, hb0] at h
      exact Int.mul_nonpos_of_nonpos_of_nonneg (by omega) (by omega)
    · have : b < 0 := by by_cases hb0 : b < 0; exact hb0; simp [ha0, hb0] at h
      exact Int.mul_nonpos_of_nonneg_of_nonpos (by omega) (by omega)
  have hpos : ¬ (decide (a < 0) != decide (b < 0)) = true → 0 ≤ a * b := by
    intro h
    by_cases ha0 : a < 0
    · have : b < 0 := by by_cases hb0 : b < 0; exact hb0; simp [ha0, hb0] at h
      exact Int.mul_nonneg_of_nonpos_of_nonpos (by omega) (by omega)
    · have : ¬ b < 0 := by intro hb0; simp [ha0, hb0] at h
      exact Int.mul_nonneg (by omega) (by omega)
  generalize (decide (a < 0) != decide (b < 0)) = sg at *
  generalize a * b = p at *
  by_cases hp : p.natAbs < 18446744073709551616
  · rw [if_pos hp]
    dsimp only
    cases sg
    · have := hpos (by simp)
      rw [if_neg (by simp)]
      by_cases h : p.natAbs ≤ 9223372036854775807
      · rw [if_pos h, exact_in (by omega)]; congr 1; unfold S; split <;> omega
      · rw [if_neg h, exact_out (by omega)]
    · have := hneg rfl
      rw [if_pos rfl]
      by_cases h : p.natAbs ≤ 9223372036854775808
      · rw [if_pos h, exact_in (by omega)]; congr 1; unfold S; split <;> omega
      · rw [if_neg h, exact_out (by omega)]
  · rw [if_neg hp, exact_out (by omega)]

/-- **C141** The same for unsigned numbers. -/
theorem unsigned_exact {a b : Nat} (ha : a < 18446744073709551616) (hb : b < 18446744073709551616) :
    safeAddU a b = (if a + b < 18446744073709551616 then some (a + b) else none) ∧
    safeSubU a b = (if b ≤ a then some (a - b) else none) := by
  refine ⟨?_, rfl⟩
  unfold safeAddU
  dsimp only
  by_cases h : a + b < 18446744073709551616
  · rw [if_pos h, Nat.mod_eq_of_lt h, if_pos (by omega)]
  · rw [if_neg h, if_neg (by omega)]

example : safeMul (-9223372036854775808) (-1) = none ∧ safeMul (-3037000500) 3037000499 = some (-9223372033963249500) ∧
    safeAdd 9223372036854775807 1 = none ∧ safeSub (-9223372036854775808) 1 = none ∧ safeDiv (-7) 2 = some (-3) := by decide

/-! ## C142: numbers survive the way through bytes -/

theorem le_length : ∀ (n x : Nat), (le n x).length = n
  | 0, _ => rfl
  | n + 1, x => by rw [le, List.length_cons, le_length n]

theorem le_byte : ∀ (n x : Nat), ∀ b ∈ le n x, b < 256
  | 0, _, b, h => by cases h
  | n + 1, x, b, h => by
    rw [le, List.mem_cons] at h
    rcases h with rfl | h
    · omega
    · exact le_byte n _ b h

theorem ofLe_le : ∀ (n x : Nat), ofLe (le n x) = x % 256 ^ n
  | 0, x => by rw [le, ofLe, Nat.pow_zero, Nat.mod_one]
  | n + 1, x => by
    rw [le, ofLe, ofLe_le n, Nat.pow_succ, Nat.mul_comm (256 ^ n), Nat.mod_mul]

theorem ofLe_lt : ∀ {bs : Bytes}, (∀ b ∈ bs, b < 256) → ofLe bs < 256 ^ bs.length
  | [], _ => by decide
  | b :: bs, h => by
    have h1 := ofLe_lt (fun x hx => h x (List.mem_cons_of_mem _ hx))
    have h2 := h b List.mem_cons_self
    rw [ofLe, List.length_cons, Nat.pow_succ]
    omega

theorem le_ofLe : ∀ {bs : Bytes}, (∀ b ∈ bs, b < 256) → le bs.length (ofLe bs) = bs
  | [], _ => rfl
  | b :: bs, h => by
    have h1 := le_ofLe (fun x hx => h x (List.mem_cons_of_mem _ hx))
    have h2 := h b List.mem_cons_self
    rw [List.length_cons, ofLe, le]
    congr 1
    · omega
    · rw [show (b + 256 * ofLe bs) / 256 = ofLe bs by omega, h1]

/-- Bytes as arguments of a Lua call. -/
def args (bs : Bytes) : List (Option Int) := bs.map (fun (b : Nat) => some (b : Int))

theorem readArr_args : ∀ {bs : Bytes} (rest : List (Option Int)), (∀ b ∈ bs, b < 256) →
    readArr bs.length (args bs ++ rest) = .ok bs
  | [], _, _ => rfl
  | b :: bs, rest, h => by
    have h1 := readArr_args rest (fun x hx => h x (List.mem_cons_of_mem _ hx))
    have h2 := h b List.mem_cons_self
    rw [args, List.map_cons, List.length_cons, List.cons_append, readArr, if_pos (by omega)]
    rw [args] at h1
    rw [h1]
    rfl

theorem byteToInt_args {bs : Bytes} (hb : ∀ b ∈ bs, b < 256) (hl : bs.length = 4 ∨ bs.length = 8) :
    byteToInt (args bs) = .ok (if bs.length = 4 then (ofLe bs : Int) else S (ofLe bs)) := by
  unfold byteToInt
  have hlen : (args bs).length = bs.length := by unfold args; rw [List.length_map]
  rw [hlen, if_neg (by omega)]
  have := readArr_args (bs := bs) [] hb
  rw [List.append_nil] at this
  rw [this]
  dsimp only
  by_cases h4 : bs.length = 4
  · rw [if_pos h4, if_pos h4]
  · rw [if_neg h4, if_neg h4, if_pos (by omega)]

/-- **C142** An integer of the contract language comes back from its eight bytes, whatever it is. -/
theorem eight_bytes_round_trip {n : Int} (h : In64 n) : byteToInt (args (intToByte8 n)) = .ok n := by
  unfold intToByte8
  rw [byteToInt_args (le_byte _ _) (Or.inr (le_length _ _)), le_length, if_neg (by decide), ofLe_le]
  congr 1
  unfold In64 at h
  unfold S U
  have : (256 : Nat) ^ 8 = 18446744073709551616 := by decide
  rw [this]
  split <;> omega

/-- **C142** Eight bytes come back from their integer. -/
theorem eight_bytes_back {bs : Bytes} (hb : ∀ b ∈ bs, b < 256) (hl : bs.length = 8) :
    ∃ n, byteToInt (args bs) = .ok n ∧ In64 n ∧ intToByte8 n = bs := by
  have h1 := ofLe_lt hb
  rw [hl, show (256 : Nat) ^ 8 = 18446744073709551616 by decide] at h1
  refine ⟨S (ofLe bs), ?_, ?_, ?_⟩
  · rw [byteToInt_args hb (Or.inr hl), if_neg (by omega)]
  · unfold In64 S; split <;> omega
  · unfold intToByte8
    have : U (S (ofLe bs)) = ofLe bs := by unfold U S; split <;> omega
    rw [this, ← hl, le_ofLe hb]

/-- **C142** Four bytes come back from their integer. -/
theorem four_bytes_back {bs : Bytes} (hb : ∀ b ∈ bs, b < 256) (hl : bs.length = 4) :
    ∃ n, byteToInt (args bs) = .ok n ∧ intToByte4 n = bs := by
  have h1 := ofLe_lt hb
  rw [hl, show (256 : Nat) ^ 4 = 4294967296 by decide] at h1
  refine ⟨ofLe bs, ?_, ?_⟩
  · rw [byteToInt_args hb (Or.inl hl), if_pos hl]
  · unfold intToByte4
    have : (((ofLe bs : Nat) : Int) % 4294967296).toNat = ofLe bs := by omega
    rw [this, ← hl, le_ofLe hb]

/-- **C142** (partial: not negative numbers and those that need more than four bytes, which come back as another number) -/
theorem four_bytes_round_trip_partial (n : Int) :
    byteToInt (args (intToByte4 n)) = .ok n ↔ 0 ≤ n ∧ n < 4294967296 := by
  unfold intToByte4
  rw [byteToInt_args (le_byte _ _) (Or.inl (le_length _ _)), le_length, if_pos rfl, ofLe_le]
  have : (256 : Nat) ^ 4 = 4294967296 := by decide
  rw [this]
  constructor
  · intro h
    have h := Res.ok.inj h
    omega
  · intro h
    congr 1
    omega

/-- **C142 violated** -/
theorem four_bytes_violated : byteToInt (args (intToByte4 (-1))) = .ok 4294967295 ∧
    byteToInt (args (intToByte4 4294967303)) = .ok 7 := by decide

example : byteToInt (args (intToByte8 (-5))) = .ok (-5) ∧ byteToInt [some 1, none, some 3, some 4] = .fail ∧
    byteToInt [some 256, some 0, some 0, some 0] = .undef := by decide

/-! ## C143: the data of a contract is a map of its own -/

/-- What the author of a Lua contract means. -/
inductive AOp
  | write (k v : Bytes)
  | modify (k v : Bytes)
  | delete (k : Bytes)
  | read (k : Bytes)
  | readOf (d : Reg) (k : Bytes)

/-- The limits: keys of at most 500 bytes, values of 1 to 500 bytes, a registration id that is not empty.
Keys without a zero byte. -/
def AOp.Ok : AOp → Prop
  | .write k v => 0 ∉ k ∧ k.length ≤ 500 ∧ 0 < v.length ∧ v.length ≤ 500 ∧ ∀ b ∈ v, b < 256
  | .modify k v => 0 ∉ k ∧ k.length ≤ 500 ∧ 0 < v.length ∧ v.length ≤ 500 ∧ ∀ b ∈ v, b < 256
  | .delete k => 0 ∉ k ∧ k.length ≤ 500
  | .read k => 0 ∉ k ∧ k.length ≤ 500
  | .readOf d k => 0 ∉ k ∧ k.length ≤ 500 ∧ d ≠ (0, 0) ∧ d.1 < 4294967296 ∧ d.2 < 65536

/-- The call that says it; the table of the value may be longer than the length says. -/
def AOp.call (extra : List (Option Int)) : AOp → Call
  | .write k v => .luaWrite (some k) (some v.length) (some (args v ++ extra))
  | .modify k v => .luaModify (some k) (some v.length) (some (args v ++ extra))
  | .delete k => .luaDelete (some k)
  | .read k => .luaRead (some k)
  | .readOf d k => .luaReadOf (some (args (le 4 d.1 ++ le 2 d.2) ++ extra)) (some k)

/-- The map. -/
abbrev Spec := Reg → Bytes → Option Bytes

def Spec.set (m : Spec) (c : Reg) (k : Bytes) (v : Option Bytes) : Spec :=
  fun d q => if d = c then if q = k then v else m c q else m d q

def look (m : Spec) (c : Reg) (k : Bytes) : Out := ((m c k).map Out.bytes).getD .none

def AOp.spec (m : Spec) (c : Reg) : AOp → Out × Spec
  | .write k v => (.flag true, m.set c k (some v))
  | .modify k v => if (m c k).isSome then (.flag true, m.set c k (some v)) else (.flag false, m)
  | .delete k => (.flag true, m.set c k none)
  | .read k => (look m c k, m)
  | .readOf d k => (look m d k, m)

def specRun (m : Spec) : List (Reg × AOp) → List Out × Spec
  | [] => ([], m)
  | (c, x) :: rest => ((x.spec m c).1 :: (specRun (x.spec m c).2 rest).1, (specRun (x.spec m c).2 rest).2)

theorem put_eq_set (m : Spec) (c : Reg) (k : Bytes) (v : Option Bytes) : put m c k v = m.set c k v := by
  funext d q
  unfold put Spec.set
  by_cases h : d = c
  · subst h
    by_cases h' : q = k
    · rw [if_pos ⟨rfl, h'⟩, if_pos rfl, if_pos h']
    · rw [if_neg (fun x => h' x.2), if_pos rfl, if_neg h']
  · rw [if_neg (fun x => h x.1), if_neg h]

theorem cstr_clean {k : Bytes} (h : 0 ∉ k) : cstr k = k := by
  unfold cstr
  induction k with
  | nil => rfl
  | cons b k ih =>
    rw [List.mem_cons] at h
    have hb : (b != 0) = true := by simp; omega
    rw [List.takeWhile_cons, if_pos hb, ih (fun hk => h (Or.inr hk))]

theorem getKey_clean {k : Bytes} (h : 0 ∉ k) (hl : k.length ≤ 500) : getKey (some k) = some k := by
  unfold getKey
  dsimp only
  rw [cstr_clean h, if_pos hl]

theorem getTable_clean {k v : Bytes} (extra : List (Option Int)) (h : 0 ∉ k) (hl : k.length ≤ 500) (h0 : 0 < v.length)
    (hv : v.length ≤ 500) (hb : ∀ b ∈ v, b < 256) :
    getTable (some k) (some v.length) (some (args v ++ extra)) = .ok (k, v) := by
  unfold getTable
  rw [getKey_clean h hl]
  dsimp only
  rw [if_pos (by omega), if_pos (by omega), Int.toNat_natCast, readArr_args extra hb]
  rfl

/-- All values have 1 to 500 bytes. -/
def Small (s : Store) : Prop := ∀ c k v, s c k = some v → 0 < v.length ∧ v.length ≤ 500

theorem small_set {s : Store} (hs : Small s) (c : Reg) (k : Bytes) (v : Option Bytes)
    (hv : ∀ x, v = some x → 0 < x.length ∧ x.length ≤ 500) : Small (Spec.set s c k v) := by
  intro d q x hx
  unfold Spec.set at hx
  by_cases h : d = c
  · rw [if_pos h] at hx
    by_cases h' : q = k
    · rw [if_pos h'] at hx; exact hv x hx
    · rw [if_neg h'] at hx; exact hs _ _ _ hx
  · rw [if_neg h] at hx; exact hs _ _ _ hx

theorem luaRead_look {s : Store} (hs : Small s) {c : Reg} {k : Bytes} (hk : k.length ≤ 500) :
    luaRead s c k = .ok (look s c k, s) := by
  unfold luaRead dbGet tailKey look
  rw [if_pos (by simp; omega)]
  cases h : s c k with
  | none => rfl
  | some v =>
    have := hs c k v h
    dsimp only
    unfold retBytes
    rw [List.take_of_length_le this.2, if_pos this.1]
    rfl

theorem step_spec {s : Store} (hs : Small s) (c : Reg) {x : AOp} (hx : x.Ok) (extra : List (Option Int)) :
    step s c (x.call extra) = .ok (x.spec s c) ∧ Small (x.spec s c).2 := by
  cases x with
  | write k v =>
    obtain ⟨h1, h2, h3, h4, h5⟩ := hx
    refine ⟨?_, small_set hs _ _ _ (by rintro x ⟨⟩; exact ⟨h3, h4⟩)⟩
    have hne : ¬ v = [] := by intro h; rw [h] at h3; exact absurd h3 (by decide)
    unfold AOp.call step
    dsimp only
    rw [getTable_clean extra h1 h2 h3 h4 h5]
    dsimp only
    unfold luaWrite dbGet dbSet tailKey
    rw [if_pos (by simp; omega), if_pos (by simp; omega), if_neg hne, put_eq_set]
    rfl
  | modify k v =>
    obtain ⟨h1, h2, h3, h4, h5⟩ := hx
    have hne : ¬ v = [] := by intro h; rw [h] at h3; exact absurd h3 (by decide)
    unfold AOp.call AOp.spec
    dsimp only
    unfold step
    dsimp only
    rw [getTable_clean extra h1 h2 h3 h4 h5]
    dsimp only
    unfold luaModify dbGet dbSet tailKey
    rw [if_pos (by simp; omega)]
    cases hv : s c k with
    | none => exact ⟨rfl, hs⟩
    | some w =>
      dsimp only
      rw [if_pos (by simp; omega), if_neg hne, put_eq_set]
      exact ⟨rfl, small_set hs _ _ _ (by rintro x ⟨⟩; exact ⟨h3, h4⟩)⟩
  | delete k =>
    obtain ⟨h1, h2⟩ := hx
    refine ⟨?_, small_set hs _ _ _ (by rintro x ⟨⟩)⟩
    unfold AOp.call step
    dsimp only
    rw [getKey_clean h1 h2]
    dsimp only
    unfold dbGet dbErase tailKey
    rw [if_pos (by simp; omega), if_pos (by simp; omega), put_eq_set]
    rfl
  | read k =>
    obtain ⟨h1, h2⟩ := hx
    refine ⟨?_, hs⟩
    unfold AOp.call step
    dsimp only
    rw [getKey_clean h1 h2]
    exact luaRead_look hs h2
  | readOf d k =>
    obtain ⟨h1, h2, h3, h4, h5⟩ := hx
    refine ⟨?_, hs⟩
    unfold AOp.call step
    dsimp only
    have hb : ∀ b ∈ le 4 d.1 ++ le 2 d.2, b < 256 := by
      intro b hb
      rw [List.mem_append] at hb
      rcases hb with hb | hb <;> exact le_byte _ _ b hb
    have hl : (le 4 d.1 ++ le 2 d.2).length = 6 := by rw [List.length_append, le_length, le_length]
    have := readArr_args extra hb
    rw [hl] at this
    rw [this, getKey_clean h1 h2]
    dsimp only
    have e1 : (le 4 d.1 ++ le 2 d.2).take 4 = le 4 d.1 := by
      rw [List.take_left' (le_length _ _)]
    have e2 : (le 4 d.1 ++ le 2 d.2).drop 4 = le 2 d.2 := by
      rw [List.drop_left' (le_length _ _)]
    have e3 : ofLe (le 4 d.1) = d.1 := by rw [ofLe_le]; exact Nat.mod_eq_of_lt (by simpa using h4)
    have e4 : ofLe (le 2 d.2) = d.2 := by rw [ofLe_le]; exact Nat.mod_eq_of_lt (by simpa using h5)
    rw [e1, e2, e3, e4, if_neg h3]
    exact luaRead_look hs h2

/-- **C143** (partial: keys without a zero byte) Whatever Lua contracts do within the limits, in any order, each gets what a map of
its own would give: its own last value for the key, also when it is read by another contract, or nothing. -/
theorem lua_data_is_map_partial (extra : List (Option Int)) : ∀ (l : List (Reg × AOp)) {s : Store}, Small s →
    (∀ p ∈ l, p.2.Ok) → run s (l.map (fun p => (p.1, p.2.call extra))) = .ok (specRun s l)
  | [], _, _, _ => rfl
  | (c, x) :: rest, s, hs, hl => by
    obtain ⟨h1, h2⟩ := step_spec hs c (hl _ List.mem_cons_self) extra
    rw [List.map_cons, run, h1]
    dsimp only
    rw [lua_data_is_map_partial extra rest h2 (fun p hp => hl p (List.mem_cons_of_mem _ hp))]
    rfl

/-- What the map means: the last thing a contract did to a key decides what is read. -/
theorem spec_set_read (m : Spec) (c d : Reg) (k q : Bytes) (v : Option Bytes) :
    (m.set c k v) d q = if d = c ∧ q = k then v else m d q := by rw [← put_eq_set]; rfl

def noData : Store := fun _ _ => none

theorem noData_small : Small noData := by intro c k v h; cases h

/-- The key "balance". -/
def kBal : Bytes := [98, 97, 108]

example : run noData ([((5, 1), .write kBal [7, 8]), ((6, 2), .read kBal), ((6, 2), .readOf (5, 1) kBal), ((5, 1), .modify [1] [2]),
    ((5, 1), .modify kBal [9]), ((5, 1), .read kBal), ((5, 1), .delete kBal), ((5, 1), .read kBal)].map
      (fun p : Reg × AOp => (p.1, p.2.call [some 99]))) =
    .ok (specRun noData [((5, 1), .write kBal [7, 8]), ((6, 2), .read kBal), ((6, 2), .readOf (5, 1) kBal), ((5, 1), .modify [1] [2]),
    ((5, 1), .modify kBal [9]), ((5, 1), .read kBal), ((5, 1), .delete kBal), ((5, 1), .read kBal)]) :=
  lua_data_is_map_partial _ _ noData_small (by
    intro p hp
    simp only [List.mem_cons, List.not_mem_nil, or_false] at hp
    rcases hp with rfl | rfl | rfl | rfl | rfl | rfl | rfl | rfl <;> simp [AOp.Ok, kBal])

example : (specRun noData [((5, 1), .write kBal [7, 8]), ((6, 2), .read kBal), ((6, 2), .readOf (5, 1) kBal), ((5, 1), .modify [1] [2]),
    ((5, 1), .modify kBal [9]), ((5, 1), .read kBal), ((5, 1), .delete kBal), ((5, 1), .read kBal)]).1 =
    [.flag true, .none, .bytes [7, 8], .flag false, .flag true, .bytes [9], .flag true, .none] := by decide

/-- **C143 violated** Two keys that differ after a zero byte are the same record: the second write replaces the first value. -/
theorem zero_byte_key_violated :
    (run noData [((5, 1), .luaWrite (some [98, 0, 1]) (some 1) (some [some 7])),
      ((5, 1), .luaWrite (some [98, 0, 2]) (some 1) (some [some 8])), ((5, 1), .luaRead (some [98, 0, 1]))]).map (·.1) =
    .ok [.flag true, .flag true, .bytes [8]] := by decide

/-- What the author of a wasm contract means. -/
inductive WOp
  | store (k v : Bytes)
  | update (k v : Bytes)
  | remove (k : Bytes)
  | get (k : Bytes) (len : Nat)

/-- The limits. -/
def WOp.Ok : WOp → Prop
  | .store k v => k.length ≤ 504 ∧ v.length ≤ 1048576
  | .update k v => k.length ≤ 504 ∧ v.length ≤ 1048576
  | .remove k => k.length ≤ 504
  | .get k len => k.length ≤ 504 ∧ len ≤ 1048576

def WOp.call : WOp → Call
  | .store k v => .wStore k v
  | .update k v => .wUpdate k v
  | .remove k => .wRemove k
  | .get k len => .wGet k len

/-- An absent record and an empty value look the same: a map to byte strings. -/
abbrev WSpec := Reg → Bytes → Bytes

def WSpec.set (m : WSpec) (c : Reg) (k v : Bytes) : WSpec := fun d q => if d = c ∧ q = k then v else m d q

def WOp.spec (m : WSpec) (c : Reg) : WOp → Out × WSpec
  | .store k v => (.num 1, m.set c k v)
  | .update k v => (.num 1, m.set c k v)
  | .remove k => (.num 1, m.set c k [])
  | .get k len => (if len = 0 ∨ m c k = [] then .num (m c k).length else .bytes ((m c k).take len), m)

def wspecRun (m : WSpec) : List (Reg × WOp) → List Out × WSpec
  | [] => ([], m)
  | (c, x) :: rest => ((x.spec m c).1 :: (wspecRun (x.spec m c).2 rest).1, (wspecRun (x.spec m c).2 rest).2)

/-- The table holds the map. -/
def Holds (s : Store) (m : WSpec) : Prop := ∀ c k, s c (wKey c k) = if m c k = [] then none else some (m c k)

theorem wKey_inj {c : Reg} {k q : Bytes} (h : wKey c k = wKey c q) : k = q := List.append_cancel_left h

theorem holds_put {s : Store} {m : WSpec} (h : Holds s m) (c : Reg) (k v : Bytes) :
    Holds (put s c (wKey c k) (if v = [] then none else some v)) (m.set c k v) := by
  intro d q
  unfold put WSpec.set
  by_cases hd : d = c ∧ q = k
  · obtain ⟨rfl, rfl⟩ := hd
    simp
  · rw [if_neg hd]
    by_cases h' : d = c ∧ wKey d q = wKey c k
    · obtain ⟨rfl, h''⟩ := h'
      exact absurd ⟨rfl, wKey_inj h''⟩ hd
    · rw [if_neg h']; exact h d q

theorem wKey_ok {c : Reg} {k : Bytes} (h : k.length ≤ 504) : tailKey (wKey c k) = true := by
  unfold tailKey wKey
  rw [List.length_append, le_length]
  simp only [decide_eq_true_eq]; omega

theorem wSet_spec {s : Store} {m : WSpec} (h : Holds s m) (c : Reg) {k v : Bytes} (hk : k.length ≤ 504) (hv : v.length ≤ 1048576) :
    ∃ s', wSet s c k v = .ok (.num 1, s') ∧ Holds s' (m.set c k v) := by
  unfold wSet dbSet
  rw [if_pos ⟨by unfold sizeOk; simp; omega, by unfold sizeOk; simp; omega⟩, if_pos (wKey_ok hk)]
  exact ⟨_, rfl, holds_put h c k v⟩

theorem wstep_spec {s : Store} {m : WSpec} (h : Holds s m) (c : Reg) {x : WOp} (hx : x.Ok) :
    ∃ s', step s c x.call = .ok ((x.spec m c).1, s') ∧ Holds s' (x.spec m c).2 := by
  cases x with
  | store k v => exact wSet_spec h c hx.1 hx.2
  | update k v => exact wSet_spec h c hx.1 hx.2
  | remove k =>
    have hx' : k.length ≤ 504 := hx
    unfold WOp.call step dbErase
    dsimp only
    rw [if_pos (by unfold sizeOk; simp; omega), if_pos (wKey_ok hx')]
    have := holds_put h c k []
    rw [if_pos rfl] at this
    exact ⟨_, rfl, this⟩
  | get k len =>
    obtain ⟨h1, h2⟩ := hx
    unfold WOp.call step dbGet WOp.spec
    dsimp only
    rw [if_pos (by unfold sizeOk; simp; omega), if_pos (wKey_ok h1), h c k]
    by_cases he : m c k = []
    · rw [if_pos he, if_pos (Or.inr he), he]
      exact ⟨s, rfl, h⟩
    · rw [if_neg he]
      dsimp only
      by_cases h0 : len = 0
      · rw [if_pos h0, if_pos (Or.inl h0)]; exact ⟨s, rfl, h⟩
      · rw [if_neg h0, if_pos h2, if_neg (by simp [h0, he])]; exact ⟨s, rfl, h⟩

/-- **C143** The same for wasm contracts, for every byte string as key. -/
theorem wasm_data_is_map : ∀ (l : List (Reg × WOp)) {s : Store} {m : WSpec}, Holds s m → (∀ p ∈ l, p.2.Ok) →
    ∃ s', run s (l.map (fun p => (p.1, p.2.call))) = .ok ((wspecRun m l).1, s') ∧ Holds s' (wspecRun m l).2
  | [], s, _, h, _ => ⟨s, rfl, h⟩
  | (c, x) :: rest, s, m, h, hl => by
    obtain ⟨s1, h1, h2⟩ := wstep_spec h c (hl _ List.mem_cons_self)
    obtain ⟨s2, h3, h4⟩ := wasm_data_is_map rest h2 (fun p hp => hl p (List.mem_cons_of_mem _ hp))
    refine ⟨s2, ?_, h4⟩
    rw [List.map_cons, run, h1]
    dsimp only
    rw [h3]
    rfl

example : Holds noData (fun _ _ => []) := fun _ _ => rfl

example : (wspecRun (fun _ _ => []) [((5, 1), .store [0, 1] [7, 8]), ((6, 1), .get [0, 1] 9), ((5, 1), .get [0, 1] 1),
    ((5, 1), .get [0, 1] 0), ((5, 1), .update [0, 1] []), ((5, 1), .get [0, 1] 9)]).1 =
    [.num 1, .num 0, .bytes [7], .num 2, .num 1, .num 0] := by decide

theorem put_other {s : Store} {c d : Reg} (h : d ≠ c) (k : Bytes) (v : Option Bytes) : (put s c k v) d = s d := by
  funext q; unfold put; rw [if_neg (fun x => h x.1)]

theorem dbSet_other {s s' : Store} {c d : Reg} {k v : Bytes} (h : d ≠ c) (hs : dbSet s c k v = .ok s') : s' d = s d := by
  unfold dbSet at hs; split at hs
  · rw [← Res.ok.inj hs, put_other h]
  · cases hs

theorem dbErase_other {s s' : Store} {c d : Reg} {k : Bytes} (h : d ≠ c) (hs : dbErase s c k = .ok s') : s' d = s d := by
  unfold dbErase at hs; split at hs
  · rw [← Res.ok.inj hs, put_other h]
  · cases hs

/-- **C143** No call of a contract, with whatever arguments, changes the data of another contract. -/
theorem other_contracts_untouched {s s' : Store} {c d : Reg} {x : Call} {o : Out} (h : d ≠ c)
    (hs : step s c x = .ok (o, s')) : s' d = s d := by
  have hread : ∀ e k, luaRead s e k = .ok (o, s') → s' = s := by
    intro e k hr
    unfold luaRead at hr
    split at hr <;> first | (cases hr; rfl; done) | cases hr
  have hset : ∀ k v, wSet s c k v = .ok (o, s') → s' d = s d := by
    intro k v hr
    unfold wSet at hr
    split at hr
    · split at hr
      · rename_i s1 h1
        injection hr with hr; injection hr with _ hr; subst hr; exact dbSet_other h h1
      all_goals cases hr
    · cases hr
  cases x with
  | luaWrite key length value =>
    simp only [step] at hs
    split at hs
    · rename_i k v _
      unfold luaWrite at hs
      split at hs
      · split at hs
        · rename_i s1 h1
          injection hs with hs; injection hs with _ hs; subst hs; exact dbSet_other h h1
        · injection hs with hs; injection hs with _ hs; subst hs; rfl
        all_goals cases hs
      all_goals cases hs
    · injection hs with hs; injection hs with _ hs; subst hs; rfl
    all_goals cases hs
  | luaModify key length value =>
    simp only [step] at hs
    split at hs
    · rename_i k v _
      unfold luaModify at hs
      split at hs
      · split at hs
        · rename_i s1 h1
          injection hs with hs; injection hs with _ hs; subst hs; exact dbSet_other h h1
        · injection hs with hs; injection hs with _ hs; subst hs; rfl
        all_goals cases hs
      · injection hs with hs; injection hs with _ hs; subst hs; rfl
      all_goals cases hs
    · injection hs with hs; injection hs with _ hs; subst hs; rfl
    all_goals cases hs
  | luaDelete key =>
    simp only [step] at hs
    split at hs
    · injection hs with hs; injection hs with _ hs; subst hs; rfl
    · split at hs
      · split at hs
        · rename_i s1 h1
          injection hs with hs; injection hs with _ hs; subst hs; exact dbErase_other h h1
        · injection hs with hs; injection hs with _ hs; subst hs; rfl
        all_goals cases hs
      all_goals cases hs
  | luaRead key =>
    simp only [step] at hs
    split at hs
    · injection hs with hs; injection hs with _ hs; subst hs; rfl
    · rw [hread _ _ hs]
  | luaReadOf id key =>
    simp only [step] at hs
    split at hs
    · injection hs with hs; injection hs with _ hs; subst hs; rfl
    · split at hs
      · split at hs
        · injection hs with hs; injection hs with _ hs; subst hs; rfl
        · split at hs
          · injection hs with hs; injection hs with _ hs; subst hs; rfl
          · rw [hread _ _ hs]
      · injection hs with hs; injection hs with _ hs; subst hs; rfl
      all_goals cases hs
  | wStore key val => exact hset _ _ hs
  | wUpdate key val => exact hset _ _ hs
  | wRemove key =>
    simp only [step] at hs
    split at hs
    · split at hs
      · rename_i s1 h1
        injection hs with hs; injection hs with _ hs; subst hs; exact dbErase_other h h1
      all_goals cases hs
    · cases hs
  | wGet key len =>
    simp only [step] at hs
    split at hs
    · split at hs
      · injection hs with hs; injection hs with _ hs; subst hs; rfl
      · split at hs
        · injection hs with hs; injection hs with _ hs; subst hs; rfl
        · split at hs
          · injection hs with hs; injection hs with _ hs; subst hs; rfl
          · cases hs
      all_goals cases hs
    · cases hs

example : ∃ o s', step noData (5, 1) (.luaWrite (some kBal) (some 1) (some [some 7])) = .ok (o, s') ∧ s' (5, 1) kBal = some [7] :=
  ⟨_, _, rfl, by decide⟩

/-! ## C144: contracts do not stop the node by the keys they use -/

/-- The calls open to Lua contracts. -/
def Call.isLua : Call → Bool
  | .luaWrite .. => true
  | .luaModify .. => true
  | .luaDelete .. => true
  | .luaRead .. => true
  | .luaReadOf .. => true
  | _ => false

/-- The key of a call of a wasm contract. -/
def Call.wasmKey : Call → Bytes
  | .wStore k _ => k
  | .wUpdate k _ => k
  | .wRemove k => k
  | .wGet k _ => k
  | _ => []

theorem getKey_tail {key : Option Bytes} {k : Bytes} (h : getKey key = some k) : tailKey k = true := by
  unfold getKey at h
  split at h
  · cases h
  · split at h
    · injection h with h; subst h; unfold tailKey; simp; omega
    · cases h

theorem readArr_no_crash : ∀ (n : Nat) (l : List (Option Int)), readArr n l ≠ .crash
  | 0, _ => by intro h; cases h
  | _ + 1, [] => by intro h; cases h
  | _ + 1, none :: _ => by intro h; cases h
  | n + 1, some x :: l => by
    intro h
    rw [readArr] at h
    split at h
    · cases h' : readArr n l with
      | crash => exact readArr_no_crash n l h'
      | ok a => rw [h'] at h; cases h
      | fail => rw [h'] at h; cases h
      | undef => rw [h'] at h; cases h
    · cases h

theorem getTable_tail {key : Option Bytes} {len : Option Int} {val : Option (List (Option Int))} :
    getTable key len val ≠ .crash ∧ ∀ k v, getTable key len val = .ok (k, v) → tailKey k = true := by
  unfold getTable
  cases hk : getKey key with
  | none => exact ⟨(by intro h; cases h), by intro k v h; cases h⟩
  | some k =>
    cases len with
    | none => exact ⟨(by intro h; cases h), by intro k v h; cases h⟩
    | some d =>
      dsimp only
      split
      · split
        · cases val with
          | none => exact ⟨(by intro h; cases h), by intro k v h; cases h⟩
          | some l =>
            dsimp only
            cases hr : readArr d.toNat l with
            | crash => exact absurd hr (readArr_no_crash _ _)
            | ok a =>
              refine ⟨(by intro h; cases h), ?_⟩
              intro k' v h
              injection h with h; injection h with h _; subst h; exact getKey_tail hk
            | fail => exact ⟨(by intro h; cases h), by intro k v h; cases h⟩
            | undef => exact ⟨(by intro h; cases h), by intro k v h; cases h⟩
        · exact ⟨(by intro h; cases h), by intro k v h; cases h⟩
      · exact ⟨(by intro h; cases h), by intro k v h; cases h⟩

/-- **C144** No call of a Lua contract, with whatever arguments, stops the node. -/
theorem lua_calls_never_stop_node (s : Store) (c : Reg) {x : Call} (hx : x.isLua = true) : step s c x ≠ .crash := by
  have hread : ∀ e k, tailKey k = true → luaRead s e k ≠ .crash := by
    intro e k hk h
    unfold luaRead dbGet at h
    rw [if_pos hk] at h
    cases h' : s e k <;> rw [h'] at h <;> cases h
  cases x with
  | luaWrite key length value =>
    intro h
    simp only [step] at h
    split at h
    · rename_i k v hg
      have hk := getTable_tail.2 _ _ hg
      unfold luaWrite dbGet dbSet at h
      rw [if_pos hk, if_pos hk] at h
      cases h
    · cases h
    · cases h
    · rename_i hg; exact getTable_tail.1 hg
  | luaModify key length value =>
    intro h
    simp only [step] at h
    split at h
    · rename_i k v hg
      have hk := getTable_tail.2 _ _ hg
      unfold luaModify dbGet dbSet at h
      rw [if_pos hk, if_pos hk] at h
      cases h' : s c k <;> rw [h'] at h <;> cases h
    · cases h
    · cases h
    · rename_i hg; exact getTable_tail.1 hg
  | luaDelete key =>
    intro h
    simp only [step] at h
    split at h
    · cases h
    · rename_i k hk
      have hk := getKey_tail hk
      unfold dbGet dbErase at h
      rw [if_pos hk, if_pos hk] at h
      cases h
  | luaRead key =>
    intro h
    simp only [step] at h
    split at h
    · cases h
    · rename_i k hk; exact hread _ _ (getKey_tail hk) h
  | luaReadOf id key =>
    intro h
    simp only [step] at h
    split at h
    · cases h
    · split at h
      · split at h
        · cases h
        · rename_i k hk
          split at h
          · cases h
          · exact hread _ _ (getKey_tail hk) h
      · cases h
      · cases h
      · rename_i hr; exact readArr_no_crash _ _ hr
  | wStore => cases hx
  | wUpdate => cases hx
  | wRemove => cases hx
  | wGet => cases hx

/-- **C144** (partial: keys of at most 504 bytes) For wasm contracts: exactly the keys between 505 bytes and the 1 MiB the
interface allows stop the node. -/
theorem wasm_key_stops_node_iff_partial (s : Store) (c : Reg) {x : Call} (hx : x.isLua = false)
    (hv : ∀ k v, x = .wStore k v ∨ x = .wUpdate k v → v.length ≤ 1048576) :
    step s c x = .crash ↔ 504 < x.wasmKey.length ∧ x.wasmKey.length ≤ 1048576 := by
  have htail : ∀ k : Bytes, tailKey (wKey c k) = true ↔ k.length ≤ 504 := by
    intro k
    unfold tailKey wKey
    rw [List.length_append, le_length, decide_eq_true_eq]; omega
  have hset : ∀ k v : Bytes, v.length ≤ 1048576 → (wSet s c k v = .crash ↔ 504 < k.length ∧ k.length ≤ 1048576) := by
    intro k v hv
    unfold wSet sizeOk
    by_cases h1 : k.length ≤ 1048576
    · rw [if_pos ⟨by simpa using h1, by simpa using hv⟩]
      unfold dbSet
      by_cases h2 : k.length ≤ 504
      · rw [if_pos ((htail k).2 h2)]
        exact ⟨(by intro h; cases h), by omega⟩
      · rw [if_neg (fun h => h2 ((htail k).1 h))]
        exact ⟨fun _ => ⟨by omega, h1⟩, fun _ => rfl⟩
    · rw [if_neg (by intro h; exact h1 (by simpa using h.1))]
      exact ⟨(by intro h; cases h), by omega⟩
  cases x with
  | luaWrite => cases hx
  | luaModify => cases hx
  | luaDelete => cases hx
  | luaRead => cases hx
  | luaReadOf => cases hx
  | wStore k v => exact hset k v (hv k v (Or.inl rfl))
  | wUpdate k v => exact hset k v (hv k v (Or.inr rfl))
  | wRemove k =>
    simp only [step, Call.wasmKey]
    unfold sizeOk dbErase
    by_cases h1 : k.length ≤ 1048576
    · rw [if_pos (by simpa using h1)]
      by_cases h2 : k.length ≤ 504
      · rw [if_pos ((htail k).2 h2)]
        exact ⟨(by intro h; cases h), by omega⟩
      · rw [if_neg (fun h => h2 ((htail k).1 h))]
        exact ⟨fun _ => ⟨by omega, h1⟩, fun _ => rfl⟩
    · rw [if_neg (by intro h; exact h1 (by simpa using h))]
      exact ⟨(by intro h; cases h), by omega⟩
  | wGet k len =>
    simp only [step, Call.wasmKey]
    unfold sizeOk dbGet
    by_cases h1 : k.length ≤ 1048576
    · rw [if_pos (by simpa using h1)]
      by_cases h2 : k.length ≤ 504
      · rw [if_pos ((htail k).2 h2)]
        refine ⟨?_, by omega⟩
        intro h
        cases h' : s c (wKey c k) with
        | none => rw [h'] at h; cases h
        | some v =>
          rw [h'] at h
          dsimp only at h
          split at h
          · cases h
          · split at h <;> cases h
      · rw [if_neg (fun h => h2 ((htail k).1 h))]
        exact ⟨fun _ => ⟨by omega, h1⟩, fun _ => rfl⟩
    · rw [if_neg (by intro h; exact h1 (by simpa using h))]
      exact ⟨(by intro h; cases h), by omega⟩

/-- **C144 violated** A wasm contract that looks up a key of 505 bytes aborts every node that runs it. -/
theorem long_key_stops_node_violated (s : Store) (c : Reg) : step s c (.wGet (List.replicate 505 0) 0) = .crash :=
  (wasm_key_stops_node_iff_partial s c rfl (by intro k v h; rcases h with h | h <;> cases h)).2 (by
    show 504 < (List.replicate 505 0).length ∧ _
    rw [show (Call.wGet (List.replicate 505 0) 0).wasmKey = List.replicate 505 0 from rfl, List.length_replicate]; decide)

/-! ## C145: what a contract is told about the chain is decided by the ancestors of its block -/

theorem saveIndex_find {idx : List (Nat × Nat)} {h : Nat} {b : Block} (t : Nat) :
    ((saveIndex true idx h b).find? (fun p => p.1 == t)).map (·.2) =
      if t ∈ b.txids then some h else (idx.find? (fun p => p.1 == t)).map (·.2) := by
  unfold saveIndex
  rw [if_pos rfl]
  generalize b.txids = ts
  induction ts generalizing idx with
  | nil => simp
  | cons x xs ih =>
    rw [List.foldl_cons, ih]
    by_cases hx : t ∈ xs
    · rw [if_pos hx, if_pos (List.mem_cons_of_mem _ hx)]
    · rw [if_neg hx]
      by_cases he : x = t
      · subst he
        rw [if_pos List.mem_cons_self, List.find?_cons]
        simp
      · rw [if_neg (by simp [hx, Ne.symm he]), List.find?_cons]
        have : (x == t) = false := by simp [he]
        simp [this]

theorem connectAll_find (t : Nat) : ∀ (bs : List Block) (idx : List (Nat × Nat)) (h : Nat),
    (∀ i (hi : i < bs.length), t ∉ bs[i].txids) →
    ((connectAll true idx h bs).find? (fun p => p.1 == t)).map (·.2) = (idx.find? (fun p => p.1 == t)).map (·.2)
  | [], _, _, _ => rfl
  | b :: bs, idx, h, hn => by
    rw [connectAll, connectAll_find t bs _ _ (fun i hi => by
      have := hn (i + 1) (by rw [List.length_cons]; omega)
      rwa [List.getElem_cons_succ] at this), saveIndex_find,
      if_neg (show t ∉ b.txids from hn 0 (by rw [List.length_cons]; omega))]

theorem connectAll_pos (t : Nat) : ∀ (bs : List Block) (idx : List (Nat × Nat)) (h i : Nat) (hi : i < bs.length), t ∈ bs[i].txids →
    (∀ j (hj : j < bs.length), t ∈ bs[j].txids → j = i) →
    ((connectAll true idx h bs).find? (fun p => p.1 == t)).map (·.2) = some (h + i)
  | [], _, _, i, hi, _, _ => absurd hi (by simp)
  | b :: bs, idx, h, 0, _, ht, hu => by
    rw [connectAll, connectAll_find t bs _ _ (fun j hj hm => by
      have := hu (j + 1) (by rw [List.length_cons]; omega) (by rwa [List.getElem_cons_succ])
      omega), saveIndex_find, if_pos (by simpa using ht)]
    rfl
  | b :: bs, idx, h, i + 1, hi, ht, hu => by
    rw [connectAll, connectAll_pos t bs _ (h + 1) i (by rw [List.length_cons] at hi; omega) (by rwa [List.getElem_cons_succ] at ht)
      (fun j hj hm => by
        have := hu (j + 1) (by rw [List.length_cons]; omega) (by rwa [List.getElem_cons_succ])
        omega)]
    congr 1
    omega

theorem i32_small {q : Int} (h0 : -2147483648 ≤ q) (h1 : q < 2147483648) : i32 q = q := by
  unfold i32; split <;> omega

/-- **C145** (partial: when the block extends the active chain, and for heights of 32 bits) The hash of a block is that of the
ancestor of the block being executed at this height; nothing for the block itself, for later ones and for the first one. -/
theorem block_hash_is_ancestor_partial (txIndex : Bool) {anc : List Block} {q : Int} (h0 : -2147483648 ≤ q) (h1 : q < 2147483648) :
    blockHash (nodeFor txIndex anc anc) anc.length q =
      if 0 < q ∧ q < anc.length then (anc[q.toNat]?).map (·.hash) else none := by
  unfold blockHash nodeFor
  rw [i32_small h0 h1]
  dsimp only
  by_cases h : 0 < q ∧ q < anc.length
  · rw [if_pos h, if_neg (by omega), if_neg (by omega)]
  · rw [if_neg h, if_pos (by omega)]

/-- **C145** (partial: on a node that keeps the index of transactions) The confirmation height of a transaction is the height of
the ancestor that contains it, whatever the node's active chain is; nothing for a transaction that is in none. -/
theorem confirm_height_is_ancestor_partial (active : List Block) {anc : List Block} (t : Nat) :
    (∀ i (hi : i < anc.length), t ∈ anc[i].txids → (∀ j (hj : j < anc.length), t ∈ anc[j].txids → j = i) →
      confirmHeight (nodeFor true active anc) t = some i) ∧
    ((∀ i (hi : i < anc.length), t ∉ anc[i].txids) → confirmHeight (nodeFor true active anc) t = none) := by
  unfold confirmHeight nodeFor
  dsimp only
  rw [if_pos rfl]
  refine ⟨?_, ?_⟩
  · intro i hi ht hu
    rw [connectAll_pos t anc [] 0 i hi ht hu, Nat.zero_add]
  · intro hn
    rw [connectAll_find t anc [] 0 hn]
    rfl

/-- Three blocks, and a branch that leaves after the second. -/
def exA : List Block := [⟨100, [1]⟩, ⟨101, [2, 3]⟩, ⟨102, [4]⟩]
def exB : List Block := [⟨100, [1]⟩, ⟨101, [2, 3]⟩, ⟨202, [5]⟩]

example : blockHash (nodeFor true exA exA) 3 2 = some 102 ∧ blockHash (nodeFor true exA exA) 3 3 = none ∧
    confirmHeight (nodeFor true exA exB) 5 = some 2 ∧ confirmHeight (nodeFor true exA exB) 4 = none := by decide

/-- **C145 violated** A block of another branch is executed with the hashes of the active chain: two nodes that connect the same
block with the same ancestors give the contract different hashes. -/
theorem branch_hash_violated : blockHash (nodeFor true exB exB) 3 2 = some 202 ∧ blockHash (nodeFor true exA exB) 3 2 = some 102 := by
  decide

/-- **C145 violated** A node started without the transaction index tells the contract that a confirmed transaction is not there. -/
theorem no_index_violated : confirmHeight (nodeFor true exA exA) 4 = some 2 ∧ confirmHeight (nodeFor false exA exA) 4 = none := by
  decide

/-- **C145 violated** A height of more than 32 bits is taken for another height. -/
theorem wide_height_violated : blockHash (nodeFor true exA exA) 3 4294967298 = some 102 := by decide

end Verif.Host
