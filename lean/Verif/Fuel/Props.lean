import Verif.Fuel.Model

/-! # Fuel: properties C19, C59, C60 -/
namespace Verif.Fuel

/-! ## C19: the fuel limit and the fuel fee -/

theorem wmul_le (a b : Nat) : wmul a b ≤ a * b := Nat.mod_le _ _

/-- **C19.** The fuel limit times the fuel rate (both are per 100) is covered by the fee
less the miner's reserved 10% of the minimum fee, and the limit is at most the block's. -/
theorem fuel_limit_paid_for {fee minFee rate lim : Nat} (hf : fee < U64) (hm : minFee * 10 < U64)
    (h : getFuelLimit fee minFee rate = some lim) :
    lim * rate ≤ 100 * (fee - minFee / 10) ∧ lim ≤ 600562500 ∧ 0 < lim ∧ minFee ≤ fee := by
  unfold getFuelLimit at h
  split at h
  · cases h
  split at h
  · cases h
  rename_i hr hmin
  simp only at h
  split at h
  · cases h
  rename_i h0
  simp only [Option.some.injEq] at h
  have hres : reservedForMiner minFee = minFee / 10 := by
    unfold reservedForMiner
    rw [wmul_eq hm]
    omega
  rw [hres, wsub_eq (by omega) hf] at h h0
  have h1 : lim ≤ (fee - minFee / 10) / rate * 100 :=
    h ▸ Nat.le_trans (Nat.min_le_left _ _) (wmul_le _ _)
  refine ⟨?_, h ▸ Nat.min_le_right _ _, by omega, by omega⟩
  calc lim * rate ≤ (fee - minFee / 10) / rate * 100 * rate := Nat.mul_le_mul_right _ h1
    _ = 100 * ((fee - minFee / 10) / rate * rate) := by
      rw [Nat.mul_comm _ 100, Nat.mul_assoc]
    _ ≤ 100 * (fee - minFee / 10) := Nat.mul_le_mul_left _ (Nat.div_mul_le_self _ _)

/-- With exact arithmetic the charge would always be covered: rounding a run's fuel up
to the next hundred, at the given rate, costs at most the fee less the reserve. -/
theorem exact_charge_covered {fee minFee rate lim fuel : Nat} (hf : fee < U64) (hm : minFee * 10 < U64)
    (h : getFuelLimit fee minFee rate = some lim) (hu : fuel ≤ lim) :
    (fuel + 99) / 100 * rate ≤ fee - minFee / 10 := by
  unfold getFuelLimit at h
  split at h
  · cases h
  split at h
  · cases h
  rename_i hr hmin
  simp only at h
  split at h
  · cases h
  simp only [Option.some.injEq] at h
  have hres : reservedForMiner minFee = minFee / 10 := by
    unfold reservedForMiner
    rw [wmul_eq hm]
    omega
  rw [hres, wsub_eq (by omega) hf] at h
  have h1 : lim ≤ (fee - minFee / 10) / rate * 100 :=
    h ▸ Nat.le_trans (Nat.min_le_left _ _) (wmul_le _ _)
  have h2 : (fuel + 99) / 100 ≤ (fee - minFee / 10) / rate := by omega
  exact Nat.le_trans (Nat.mul_le_mul_right _ h2) (Nat.div_mul_le_self _ _)

theorem ceil_div_le {fuel k : Nat} (hk : k ≤ 2 ^ 24) (h : fround 24 fuel 1 ≤ 100 * k) :
    (fuelDiv100 fuel + SC - 1) / SC ≤ k := by
  have h1 : fuelDiv100 fuel ≤ k * 2 ^ 40 := by
    unfold fuelDiv100
    apply fround_le (by decide) (by decide) hk
    calc fround 24 fuel 1 * SC ≤ 100 * k * SC := Nat.mul_le_mul_right _ h
      _ = k * 2 ^ 40 * 100 := by rw [Nat.mul_comm 100 k, Nat.mul_assoc, Nat.mul_assoc, Nat.mul_comm 100]
  have : (fuelDiv100 fuel + SC - 1) < (k + 1) * SC := by
    simp only [SC]
    omega
  have := (Nat.div_lt_iff_lt_mul (by decide : 0 < SC)).2 this
  omega

theorem le_ceil_div {fuel k : Nat} (h : 100 * k < fuel) (hf : fuel ≤ 2 ^ 24) :
    k < (fuelDiv100 fuel + SC - 1) / SC := by
  unfold fuelDiv100
  rw [Nat.lt_iff_add_one_le, Nat.le_div_iff_mul_le (show 0 < SC by decide)]
  have hx : fround 24 fuel 1 = fuel := by
    by_cases e : fuel = 2 ^ 24
    · subst e; decide
    · exact fround_exact (by decide) (by omega)
  rw [hx]
  have hl := fround_lower (p := 24) (n := fuel * SC) (d := 100) (by decide) (by decide) (by simp only [SC]; omega)
  generalize fround 24 (fuel * SC) 100 = q at *
  have hc : 0 < SC := by decide
  generalize SC = c at *
  have h1 : k * c < q := by
    apply Nat.lt_of_not_le
    intro hq
    have h2 : fuel * c * 2 ^ 24 ≤ k * c * 100 * 2 ^ 24 + fuel * c :=
      Nat.le_trans hl (Nat.add_le_add_right (Nat.mul_le_mul_right _ (Nat.mul_le_mul_right _ hq)) _)
    have h3 : (fuel * 2 ^ 24) * c ≤ (k * 100 * 2 ^ 24 + fuel) * c := by
      rw [Nat.add_mul]
      calc fuel * 2 ^ 24 * c = fuel * c * 2 ^ 24 := by ac_rfl
        _ ≤ k * c * 100 * 2 ^ 24 + fuel * c := h2
        _ = _ := by congr 1; ac_rfl
    have h4 := Nat.le_of_mul_le_mul_right h3 hc
    omega
  rw [Nat.add_mul]
  omega

/-- The float computation is exact in the ordinary range: the charge is the rate times the
fuel rounded up to hundreds. -/
theorem fuelFee_exact {fuel rate : Nat} (hf : fuel ≤ 2 ^ 24) (hr : rate < 2 ^ 24)
    (hp : (fuel + 99) / 100 * rate < 2 ^ 24) : fuelFee fuel rate = (fuel + 99) / 100 * rate := by
  unfold fuelFee
  split
  · rename_i h
    rcases h with h | h <;> subst h <;> simp
  rename_i h0
  have hx : fround 24 fuel 1 = fuel := by
    by_cases e : fuel = 2 ^ 24
    · subst e; decide
    · exact fround_exact (by decide) (by omega)
  have h1 := ceil_div_le (fuel := fuel) (k := (fuel + 99) / 100) (by omega) (by rw [hx]; omega)
  have h2 := le_ceil_div (fuel := fuel) (k := (fuel + 99) / 100 - 1) (by omega) hf
  have e : (fuelDiv100 fuel + SC - 1) / SC = (fuel + 99) / 100 := by omega
  rw [e, fround_exact (by decide) hr, fround_exact (by decide) hp]

/-- **C19 (partial).** The fuel fee charged for any run within the limit is at most the
fee paid, provided the reserved part is at least twice the fuel rate (with the default
minimum fee of 0.01 coins, any rate up to 50000; rates start at 100) and the rate is
below 2^24.  Without the proviso the property fails: see the witnesses below. -/
theorem fuel_fee_le_fee_partial {fee minFee rate lim fuel : Nat} (hf : fee < U64) (hm : minFee * 10 < U64)
    (hr : rate < 2 ^ 24) (hres : 2 * rate ≤ minFee / 10)
    (h : getFuelLimit fee minFee rate = some lim) (hu : fuel ≤ lim) :
    fuelFee fuel rate ≤ fee := by
  obtain ⟨h1, h2, h3, h4⟩ := fuel_limit_paid_for hf hm h
  unfold fuelFee
  split
  · omega
  have hx : fround 24 fuel 1 ≤ 100 * ((fuel + 99) / 100 + 1) := by
    have := fround_upper (p := 24) (n := fuel) (by decide)
    omega
  have hc := ceil_div_le (k := (fuel + 99) / 100 + 1) (by omega) hx
  rw [fround_exact (by decide) hr]
  generalize (fuelDiv100 fuel + SC - 1) / SC = c at *
  have hp := fround_upper (p := 24) (n := c * rate) (by decide)
  generalize fround 24 (c * rate) 1 = p at *
  have hcr : c * rate ≤ ((fuel + 99) / 100 + 1) * rate := Nat.mul_le_mul_right _ hc
  have hc2 : c * rate ≤ 2 ^ 24 * rate := Nat.mul_le_mul_right _ (by omega)
  have hk : (fuel + 99) / 100 * rate ≤ fee - minFee / 10 := exact_charge_covered hf hm h hu
  rw [Nat.add_mul] at hcr
  rw [Nat.mul_add] at hp
  omega

/-- The hypotheses of `fuel_fee_le_fee_partial` hold for an ordinary contract call: fee
0.05 coins, default minimum fee, initial rate. -/
example : getFuelLimit 5000000 1000000 100 = some 4900000 ∧ fuelFee 4899901 100 = 4900000 := by decide

/-- **C19 violated (rounding).** With a minimum fee of one unit, a contract run that uses
exactly its fuel limit is charged more than the fee: `float` rounding makes
`ceil(67109100 / 100.0f)` equal 671092.  `ConnectBlock` then fails
`assert(fees >= fuelFee)` (src/main.cpp:1099). -/
theorem fuel_fee_exceeds_fee_violated :
    ∃ fee minFee rate lim, getFuelLimit fee minFee rate = some lim ∧ fee < fuelFee lim rate :=
  ⟨67109100, 1, 100, 67109100, by decide⟩

/-- The same with the default minimum fee of 0.01 coins, at a fuel rate of 200000. -/
theorem fuel_fee_exceeds_fee_default_violated :
    ∃ fee rate lim, getFuelLimit fee 1000000 rate = some lim ∧ fee < fuelFee lim rate :=
  ⟨134218300000, 200000, 67109100, by decide⟩

/-- **C19 violated (universal transactions).** A WASM transaction whose fee passes the
fee check can still be charged more fuel than its fee, at the default minimum fee and
the initial fuel rate: the check rounds the fuel down, the charge rounds it up. -/
theorem universal_fuel_fee_exceeds_violated :
    ∃ fee fuel, universalCheck fee 100000 fuel 100 = true ∧ fee < fuelFee fuel 100 :=
  ⟨100000, 100010, by decide⟩

/-- What holds for universal transactions: the excess is at most three units of the rate,
and a fee with that much to spare over the run fee covers the charge. -/
theorem universal_fuel_fee_partial {fee minFee fuel rate : Nat} (hr : rate < 2 ^ 24)
    (h : universalCheck fee minFee fuel rate = true) :
    fuelFee fuel rate ≤ fee + 3 * rate ∧ minFee ≤ fee ∧
    (fuel / 100 * rate + 3 * rate ≤ fee → fuelFee fuel rate ≤ fee) := by
  unfold universalCheck at h
  simp only [Bool.and_eq_true, decide_eq_true_eq] at h
  obtain ⟨⟨h1, h2⟩, h3⟩ := h
  have h2 : fuel ≤ 600562500 := h2
  unfold fuelFee
  split
  · omega
  have hx : fround 24 fuel 1 ≤ 100 * ((fuel + 99) / 100 + 1) := by
    have := fround_upper (p := 24) (n := fuel) (by decide)
    omega
  have hc := ceil_div_le (k := (fuel + 99) / 100 + 1) (by omega) hx
  rw [fround_exact (by decide) hr]
  generalize (fuelDiv100 fuel + SC - 1) / SC = c at *
  have hp := fround_upper (p := 24) (n := c * rate) (by decide)
  generalize fround 24 (c * rate) 1 = p at *
  have hcr : c * rate ≤ (fuel / 100 + 2) * rate := Nat.mul_le_mul_right _ (by omega)
  have hc2 : c * rate ≤ 2 ^ 24 * rate := Nat.mul_le_mul_right _ (by omega)
  have hw : universalRunFee fuel rate = fuel / 100 * rate := by
    apply wmul_eq
    calc fuel / 100 * rate ≤ 2 ^ 24 * 2 ^ 24 := Nat.mul_le_mul (by omega) (by omega)
      _ < U64 := by decide
  rw [hw] at h3
  rw [Nat.add_mul] at hcr
  rw [Nat.mul_add] at hp
  omega

example : universalCheck 200000 100000 100010 100 = true ∧ 100010 / 100 * 100 + 3 * 100 ≤ 200000 := by decide

/-- **C19 violated (deployment).** The deployment fee check runs before the fuel is known
and so compares with the minimum fee only; at a high fuel rate the charge exceeds the
fee. -/
theorem deploy_fuel_fee_exceeds_violated :
    ∃ fee rate, deployCheck fee rate 100000000 = true ∧ fee < deployFuelFee 65536 rate 100000000 :=
  ⟨100000000, 200000, by decide⟩

/-- What holds for deployments: when size times rate is at most 50 times the minimum fee
(for the default 1 coin and the largest contract: any rate up to 75000) the charge
is exactly the minimum fee, and covered. -/
theorem deploy_fuel_fee_partial {fee minFee size rate : Nat} (hs : 0 < size) (hsz : size < 2 ^ 24) (hr : rate < 2 ^ 24)
    (hb : size * rate ≤ 50 * minFee) (h : deployCheck fee rate minFee = true) :
    deployFuelFee size rate minFee = minFee ∧ minFee ≤ fee := by
  have hmf : minFee ≤ fee := by
    unfold deployCheck deployFuelFee at h
    simpa using h
  refine ⟨?_, hmf⟩
  unfold deployFuelFee
  rw [if_neg (by omega), fround_exact (by decide) hr]
  have hq : fuelDiv100 size ≤ size * 2 ^ 34 := by
    unfold fuelDiv100
    rw [fround_exact (by decide) hsz]
    apply fround_le (by decide) (by decide) (by omega)
    have : SC = 2 ^ 6 * 2 ^ 34 := by decide
    rw [this]
    calc size * (2 ^ 6 * 2 ^ 34) = size * 2 ^ 34 * 2 ^ 6 := by ac_rfl
      _ ≤ size * 2 ^ 34 * 100 := Nat.mul_le_mul_left _ (by decide)
  have hp := fround_upper (p := 24) (n := fuelDiv100 size * rate) (by decide)
  have h1 : fuelDiv100 size * rate ≤ 50 * minFee * 2 ^ 34 := by
    calc fuelDiv100 size * rate ≤ size * 2 ^ 34 * rate := Nat.mul_le_mul_right _ hq
      _ = size * rate * 2 ^ 34 := by ac_rfl
      _ ≤ _ := Nat.mul_le_mul_right _ hb
  generalize fuelDiv100 size * rate = n at *
  generalize fround 24 n 1 = p at *
  have h2 : p ≤ minFee * SC := by
    have : SC = 2 ^ 40 := rfl
    rw [this]
    omega
  have h3 : p / SC ≤ minFee := by
    have := Nat.div_le_div_right (c := SC) h2
    rwa [Nat.mul_div_cancel _ (by decide)] at this
  omega

example : deployCheck 100000000 100 100000000 = true ∧ 65536 * 100 ≤ 50 * 100000000 := by decide

/-! ## C59: the fuel meter -/

/-- Fuel, refund and memory requested by a list of requests. -/
def fuelOf (qs : List Burn) : Nat := (qs.map Burn.fuel).sum
def refundOf (qs : List Burn) : Nat := (qs.map Burn.refund).sum
def memOf (qs : List Burn) : Nat := (qs.map Burn.size).sum

/-- What a run should cost: fuel plus 3 per 32 bytes allocated, less the refund, which is
at most half. -/
def cost (fuel refund mem : Nat) : Nat :=
  let f := fuel + (mem + 31) / 32 * 3
  f - min (f / 2) refund

/-- Requests are small (each below 2^56: sizes are bounded by memory). -/
def Small (qs : List Burn) : Prop := ∀ q ∈ qs, q.fuel < 2 ^ 56 ∧ q.refund < 2 ^ 56 ∧ q.size < 2 ^ 56

theorem run_err (b : Burner) (h : b.err = true) : ∀ qs, (b.run qs).1 = b ∧ ∀ ok ∈ (b.run qs).2, ok = true := by
  intro qs
  induction qs with
  | nil => simp [Burner.run]
  | cons q qs ih =>
    have : b.step q = (b, true) := by unfold Burner.step; simp [h]
    simp only [Burner.run, this]
    refine ⟨ih.1, ?_⟩
    intro ok ho
    rcases List.mem_cons.1 ho with rfl | ho
    · rfl
    · exact ih.2 ok ho

/-- The meter's reading equals the cost while the meter is within the limit. -/
theorem burned_eq {b : Burner} (hf : b.fuel < 2 ^ 60) (hm : b.mem < 2 ^ 60) :
    b.burned = cost b.fuel b.refund b.mem := by
  unfold Burner.burned cost
  have h1 : wadd b.mem 31 = b.mem + 31 := wadd_eq (by unfold U64; omega)
  have h2 : wmul ((b.mem + 31) / 32) 3 = (b.mem + 31) / 32 * 3 := wmul_eq (by unfold U64; omega)
  have h3 : wadd b.fuel ((b.mem + 31) / 32 * 3) = b.fuel + (b.mem + 31) / 32 * 3 := wadd_eq (by unfold U64; omega)
  rw [h1, h2, h3]

theorem start_burned (lim : Nat) : (Burner.start lim).burned = 0 := by
  simp only [Burner.start, Burner.burned]; decide

theorem cost_bounds {f r m lim : Nat} (h : cost f r m ≤ lim) : f ≤ 2 * lim + 1 ∧ m ≤ 11 * (2 * lim + 1) := by
  unfold cost at h
  simp only at h
  omega

theorem run_facts : ∀ (qs : List Burn) (b : Burner), b.err = false → b.limit < 2 ^ 50 → b.burned ≤ b.limit →
    b.fuel < 2 ^ 56 → b.mem < 2 ^ 56 → b.burned = cost b.fuel b.refund b.mem → Small qs → b.refund + refundOf qs < U64 →
    ((b.run qs).1.err = true → (b.run qs).1.burned > (b.run qs).1.limit) ∧
    ((b.run qs).1.err = true ↔ ∃ ok ∈ (b.run qs).2, ok = false) ∧ (b.run qs).1.limit = b.limit ∧
    ((b.run qs).1.err = false →
      (b.run qs).1.burned = cost (b.fuel + fuelOf qs) (b.refund + refundOf qs) (b.mem + memOf qs) ∧
      (b.run qs).1.burned ≤ b.limit) := by
  intro qs
  induction qs with
  | nil => intro b h1 h2 h3 h4 h5 h6 h7 h8; simp [Burner.run, h1, ← h6, h3, fuelOf, refundOf, memOf]
  | cons q qs ih =>
    intro b h1 h2 h3 h4 h5 h6 h7 h8
    obtain ⟨q1, q2, q3⟩ := h7 q (by simp)
    have h8' : b.refund + (q.refund + refundOf qs) < U64 := by simpa [refundOf] using h8
    have e1 : wadd b.fuel q.fuel = b.fuel + q.fuel := wadd_eq (by unfold U64; omega)
    have e2 : wadd b.refund q.refund = b.refund + q.refund := wadd_eq (by omega)
    have e3 : wadd b.mem q.size = b.mem + q.size := wadd_eq (by unfold U64; omega)
    by_cases hb : (⟨b.limit, b.fuel + q.fuel, b.refund + q.refund, b.mem + q.size, b.err⟩ : Burner).burned > b.limit
    · have hs : b.step q = (⟨b.limit, b.fuel + q.fuel, b.refund + q.refund, b.mem + q.size, true⟩, false) := by
        unfold Burner.step
        rw [if_neg (by simp [h1])]
        simp only [e1, e2, e3]
        rw [if_pos hb]
      simp only [Burner.run, hs]
      obtain ⟨r1, r2⟩ := run_err (⟨b.limit, b.fuel + q.fuel, b.refund + q.refund, b.mem + q.size, true⟩) rfl qs
      rw [r1]
      refine ⟨fun _ => hb, ⟨fun _ => ⟨false, by simp, rfl⟩, fun _ => rfl⟩, rfl, fun h => by simp at h⟩
    · have hs : b.step q = (⟨b.limit, b.fuel + q.fuel, b.refund + q.refund, b.mem + q.size, b.err⟩, true) := by
        unfold Burner.step
        rw [if_neg (by simp [h1])]
        simp only [e1, e2, e3]
        rw [if_neg hb]
      have hbe := burned_eq (b := ⟨b.limit, b.fuel + q.fuel, b.refund + q.refund, b.mem + q.size, b.err⟩)
        (by simp only; omega) (by simp only; omega)
      have hle : cost (b.fuel + q.fuel) (b.refund + q.refund) (b.mem + q.size) ≤ b.limit := by
        simp only at hbe; omega
      have hcb := cost_bounds hle
      have := ih ⟨b.limit, b.fuel + q.fuel, b.refund + q.refund, b.mem + q.size, b.err⟩ h1 h2 (by simp only; omega)
        (by simp only; omega) (by simp only; omega) hbe (fun x hx => h7 x (by simp [hx]))
        (by simp only; omega)
      simp only [Burner.run, hs]
      obtain ⟨i1, i2, i3, i4⟩ := this
      refine ⟨i1, ?_, i3, ?_⟩
      · rw [i2]; simp
      · intro h
        have := i4 h
        simp only [fuelOf, refundOf, memOf, List.map_cons, List.sum_cons] at this ⊢
        rw [Nat.add_assoc, Nat.add_assoc, Nat.add_assoc] at this
        exact this

/-- **C59.** A contract run is accepted only if no request was ever refused, the
fuel charged is exactly the cost of everything it did, and this is within the limit. -/
theorem accepted_run_fully_metered (lim : Nat) (qs : List Burn) (charged : Nat) (hl : lim ≤ MAX_BLOCK_FUEL)
    (hs : Small qs) (hr : refundOf qs < U64)
    (h : ((Burner.start lim).run qs).1.finish = some charged) :
    (∀ ok ∈ ((Burner.start lim).run qs).2, ok = true) ∧
    charged = cost (fuelOf qs) (refundOf qs) (memOf qs) ∧ charged ≤ lim := by
  have hl' : lim ≤ 600562500 := hl
  obtain ⟨f1, f2, f3, f4⟩ := run_facts qs (Burner.start lim) rfl (by simp only [Burner.start]; omega)
    (by rw [start_burned]; exact Nat.zero_le _) (by simp [Burner.start]) (by simp [Burner.start])
    (by rw [start_burned]; simp only [Burner.start]; decide) hs (by simpa [Burner.start] using hr)
  unfold Burner.finish at h
  split at h
  · cases h
  rename_i hb
  have he : ((Burner.start lim).run qs).1.err = false := by
    cases hx : ((Burner.start lim).run qs).1.err
    · rfl
    · have := f1 hx; omega
  obtain ⟨g1, g2⟩ := f4 he
  simp only [Option.some.injEq] at h
  refine ⟨?_, ?_, ?_⟩
  · intro ok ho
    cases ok
    · have := f2.2 ⟨false, ho, rfl⟩
      rw [he] at this; cases this
    · rfl
  · rw [← h, g1]; simp [Burner.start]
  · rw [← h]; exact g2

/-- **C59.** A run in which any request was refused (even if the contract caught the error)
is rejected at the end. -/
theorem burned_out_run_rejected (lim : Nat) (qs : List Burn) (hl : lim ≤ MAX_BLOCK_FUEL)
    (hs : Small qs) (hr : refundOf qs < U64) (h : ∃ ok ∈ ((Burner.start lim).run qs).2, ok = false) :
    ((Burner.start lim).run qs).1.finish = none := by
  cases hf : ((Burner.start lim).run qs).1.finish with
  | none => rfl
  | some c =>
    obtain ⟨ok, ho, e⟩ := h
    have := (accepted_run_fully_metered lim qs c hl hs hr hf).1 ok ho
    rw [e] at this; cases this

/-- **C59 (partial).** As long as no request has been refused, the work done is bounded by
the limit: at most `2 * lim + 1` fuel (half may be refunded) and proportional memory.
Missing: after a refusal nothing is bounded, see `unmetered_work_violated`. -/
theorem work_bounded_partial (lim : Nat) (qs : List Burn) (hl : lim ≤ MAX_BLOCK_FUEL)
    (hs : Small qs) (hr : refundOf qs < U64) (h : ∀ ok ∈ ((Burner.start lim).run qs).2, ok = true) :
    fuelOf qs ≤ 2 * lim + 1 ∧ memOf qs ≤ 11 * (2 * lim + 1) := by
  have hl' : lim ≤ 600562500 := hl
  obtain ⟨f1, f2, f3, f4⟩ := run_facts qs (Burner.start lim) rfl (by simp only [Burner.start]; omega)
    (by rw [start_burned]; exact Nat.zero_le _) (by simp [Burner.start]) (by simp [Burner.start])
    (by rw [start_burned]; simp only [Burner.start]; decide) hs (by simpa [Burner.start] using hr)
  have he : ((Burner.start lim).run qs).1.err = false := by
    cases hx : ((Burner.start lim).run qs).1.err
    · rfl
    · obtain ⟨ok, ho, e⟩ := f2.1 hx
      have := h ok ho
      rw [e] at this; cases this
  obtain ⟨g1, g2⟩ := f4 he
  rw [g1] at g2
  simp only [Burner.start, Nat.zero_add] at g2
  exact cost_bounds g2

/-- **C59 violated.** Once a request has been refused the meter is off: a contract that
catches the error with `pcall` can do any amount of further work, every request
succeeding.  (`lua_BurnStep` and the others count only while `error == 0`; `pcall` is in
the base library opened by `vm_openlibs`.)  So work, e.g. a loop, is not bounded by the
limit. -/
theorem unmetered_work_violated (lim : Nat) (hl : lim ≤ MAX_BLOCK_FUEL) :
    ∀ N, ∃ qs, Small qs ∧ ((Burner.start lim).run qs).2 = false :: List.replicate N true ∧ N ≤ fuelOf qs.tail := by
  intro N
  have hl' : lim ≤ 600562500 := hl
  have hrep : ∀ M, fuelOf (List.replicate M (Burn.add 1)) = M := by
    intro M; induction M with
    | zero => rfl
    | succ M ih =>
      simp only [fuelOf] at ih
      simp only [fuelOf, List.replicate_succ, List.map_cons, List.sum_cons, ih]; simp [Burn.fuel]; omega
  refine ⟨Burn.add (lim + 1) :: List.replicate N (Burn.add 1), ?_, ?_, ?_⟩
  · intro q hq
    rcases List.mem_cons.1 hq with rfl | hq
    · simp only [Burn.fuel, Burn.refund, Burn.size]; omega
    · rw [(List.mem_replicate.1 hq).2]; decide
  · have hst : ((Burner.start lim).step (.add (lim + 1))) = (⟨lim, lim + 1, 0, 0, true⟩, false) := by
      unfold Burner.step Burner.start
      have e : wadd 0 (lim + 1) = lim + 1 := by rw [wadd_eq] <;> (unfold U64 at *; omega)
      have e0 : wadd 0 0 = 0 := rfl
      simp only [Burn.fuel, Burn.refund, Burn.size, e, e0]
      rw [if_neg (by simp), if_pos]
      have := burned_eq (b := ⟨lim, lim + 1, 0, 0, false⟩) (by simp only; omega) (by simp)
      rw [this]
      unfold cost
      simp
    have hrun : ∀ M (b : Burner), b.err = true → (b.run (List.replicate M (Burn.add 1))).2 = List.replicate M true := by
      intro M
      induction M with
      | zero => intro b _; rfl
      | succ M ih =>
        intro b hb
        have : b.step (.add 1) = (b, true) := by unfold Burner.step; simp [hb]
        simp only [List.replicate_succ, Burner.run, this, ih b hb]
    simp only [Burner.run, hst]
    rw [hrun N _ rfl]
  · simp [hrep]

example : ((Burner.start 1000).run [.add 100, .storeSet 4 0 1, .mem 64, .storeSet 4 1 0, .storeGet 3 2]).1.finish = none ∧
    ((Burner.start 4000).run [.add 100, .storeSet 4 0 1, .mem 64, .storeSet 4 1 0, .storeGet 3 2]).1.finish = some 2686 := by decide

/-! ## C60: the fuel rate -/

/-- The average fuel used by the last 50 blocks. -/
def load (chain : List Blk) : Nat := ((chain.take 50).map fun b => b.fuelFee / b.fuelRate * 100).sum / 50

/-- The `double` computations amount to truncated 90% and 110%. -/
theorem rate09_eq {r : Nat} (hr : r < 2 ^ 32) : rate09 r = 9 * r / 10 := by
  unfold rate09
  have h1 : fround 53 (r * 8106479329266893) 1 ≤ ((9 * r / 10 + 1) * 2 ^ 20 - 1) * 2 ^ 33 := by
    apply fround_le (by decide) (by decide) (by omega)
    omega
  have h2 : 9 * r / 10 * 2 ^ 53 ≤ fround 53 (r * 8106479329266893) 1 := by
    apply le_fround (by decide) (by decide) (by omega)
    omega
  omega

theorem rate11_eq {r : Nat} (hr : r < 2 ^ 32) : rate11 r = 11 * r / 10 := by
  unfold rate11
  have h1 : fround 53 (r * 4953959590107546) 1 ≤ ((11 * r / 10 + 1) * 2 ^ 20 - 1) * 2 ^ 32 := by
    apply fround_le (by decide) (by decide) (by omega)
    omega
  have h2 : 11 * r / 10 * 2 ^ 52 ≤ fround 53 (r * 4953959590107546) 1 := by
    apply le_fround (by decide) (by decide) (by omega)
    omega
  omega

theorem nextRate_eq (tip : Blk) (rest : List Blk) (hl : 102 < (tip :: rest).length) (hr : tip.fuelRate < 2 ^ 32) :
    nextRate (tip :: rest) = max 1 (if load (tip :: rest) < 450421875 then 9 * tip.fuelRate / 10
      else if load (tip :: rest) > 510478125 then 11 * tip.fuelRate / 10 else tip.fuelRate) := by
  unfold nextRate
  simp only
  have hb : ¬ BURN_BLOCKS * 2 + 2 ≥ (tip :: rest).length := by
    show ¬ (50 * 2 + 2 ≥ _); omega
  rw [if_neg hb, rate09_eq hr, rate11_eq hr]
  have e : ((tip :: rest).take BURN_BLOCKS |>.map Blk.used).sum / BURN_BLOCKS = load (tip :: rest) := rfl
  rw [e]
  generalize (if load (tip :: rest) < 450421875 then 9 * tip.fuelRate / 10
      else if load (tip :: rest) > 510478125 then 11 * tip.fuelRate / 10 else tip.fuelRate) = x
  show (if x < 1 then 1 else x) = _
  split <;> omega

/-- **C60 (partial).** After the start-up period the fuel rate is never below the minimum,
moves by at most a tenth per block, strictly falls under low load (down to the
minimum), stays put in the band, and strictly rises under high load provided it is at
least 10.  Missing: rates below 10 do not rise, see `rate_never_recovers_violated`. -/
theorem fuel_rate_follows_load_partial (tip : Blk) (rest : List Blk) (hl : 102 < (tip :: rest).length)
    (hr : tip.fuelRate < 2 ^ 32) (h1 : 1 ≤ tip.fuelRate) :
    1 ≤ nextRate (tip :: rest) ∧ 10 * nextRate (tip :: rest) ≤ 11 * tip.fuelRate ∧
    9 * tip.fuelRate ≤ 10 * nextRate (tip :: rest) + 9 ∧
    (load (tip :: rest) < 450421875 → nextRate (tip :: rest) < tip.fuelRate ∨ nextRate (tip :: rest) = 1) ∧
    (450421875 ≤ load (tip :: rest) → load (tip :: rest) ≤ 510478125 → nextRate (tip :: rest) = tip.fuelRate) ∧
    (510478125 < load (tip :: rest) → 10 ≤ tip.fuelRate → tip.fuelRate < nextRate (tip :: rest)) := by
  rw [nextRate_eq tip rest hl hr]
  generalize load (tip :: rest) = l
  refine ⟨by omega, ?_, ?_, ?_, ?_, ?_⟩
  · (repeat' split) <;> omega
  · (repeat' split) <;> omega
  · intro h; rw [if_pos h]; omega
  · intro h h'; rw [if_neg (by omega), if_neg (by omega)]; omega
  · intro h h'; rw [if_neg (by omega), if_pos h]; omega

/-- A chain (newest first) in which every block carries the rate the rule demands
(`AcceptBlock`, src/main.cpp:1896). -/
def ValidRates : List Blk → Prop
  | [] => True
  | b :: rest => b.fuelRate = nextRate rest ∧ ValidRates rest

/-- **C60 violated.** Once the fuel rate has fallen below 10 it never rises again, however
high the load: 110% of 1..9 truncates to the same number. -/
theorem rate_never_recovers_violated : ∀ (later chain : List Blk), 102 < chain.length → ValidRates (later ++ chain) →
    (∀ tip ∈ chain.head?, 1 ≤ tip.fuelRate ∧ tip.fuelRate ≤ 9) → ∀ b ∈ later, b.fuelRate ≤ 9 := by
  intro later chain hl
  suffices H : ValidRates (later ++ chain) → (∀ tip ∈ chain.head?, 1 ≤ tip.fuelRate ∧ tip.fuelRate ≤ 9) →
      (∀ b ∈ later, b.fuelRate ≤ 9) ∧ ∀ tip ∈ (later ++ chain).head?, 1 ≤ tip.fuelRate ∧ tip.fuelRate ≤ 9 from
    fun hv hh => (H hv hh).1
  intro hv hh
  induction later with
  | nil => exact ⟨by simp, by simpa using hh⟩
  | cons b later ih =>
    obtain ⟨e, hv⟩ := hv
    obtain ⟨i1, i2⟩ := ih hv
    have key : 1 ≤ b.fuelRate ∧ b.fuelRate ≤ 9 := by
      have hlen : 102 < (later ++ chain).length := by simp; omega
      change b.fuelRate = nextRate (later ++ chain) at e
      cases hlc : later ++ chain with
      | nil => rw [hlc] at hlen; simp at hlen
      | cons t r =>
        rw [hlc] at e i2 hlen
        have ht := i2 t (by simp)
        rw [e, nextRate_eq t r hlen (by omega)]
        constructor
        · omega
        · (repeat' split) <;> omega
    refine ⟨?_, ?_⟩
    · intro x hx
      rcases List.mem_cons.1 hx with rfl | hx
      · exact key.2
      · exact i1 x hx
    · intro t ht
      simp at ht
      subst ht
      exact key

/-- The situation arises on a chain of empty blocks: from the initial 100, the rule gives
90, 81, ..., 9 and then stays. -/
def emptyChain : Nat → List Blk
  | 0 => []
  | n + 1 => ⟨0, nextRate (emptyChain n)⟩ :: emptyChain n

theorem emptyChain_valid : ∀ n, ValidRates (emptyChain n)
  | 0 => trivial
  | n + 1 => ⟨rfl, emptyChain_valid n⟩

set_option maxRecDepth 4000 in
example : ((emptyChain 125).head?.map Blk.fuelRate) = some 6 := by decide +kernel

end Verif.Fuel
