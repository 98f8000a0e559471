import Verif.Cdp.Select
/-!
# Forced liquidation, safe positions and different processors

C81-C83.
-/
namespace Verif.Cdp

open Verif.Account Verif.Ledger Verif.Dbl

/-- A history computed from accounts without pledges. -/
theorem run_of {m : Mem} {es : List Ev} {α : Type} {f : St → α} {a : α} (h0 : ∀ r s, bal m r s .pledged = 0)
    (h : ∀ ev ∈ es, ev.Ok x86) (hid : (es.filterMap Ev.newId).Nodup)
    (hr : (run (empty m) es).map f = some a) : ∃ σ, Run x86 m es σ ∧ f σ = a := by
  cases hx : run (empty m) es with
  | none => rw [hx] at hr; cases hr
  | some σ =>
    rw [hx] at hr
    exact ⟨σ, ⟨h0, h, hid, hx⟩, by simpa using hr⟩

/-- Accounts 5 and 8 hold WICC, 30 million and one thousand coins. -/
def acctB : Mem := fun r =>
  ⟨r, fun s => if s = "WICC" then some (fun b => if b = .free then (if r = 5 then 3000000000000000 else if r = 8 then 100000000000 else 0) else 0) else none, 0, 0⟩

theorem acctB_pledged (r : Ref) (s : Sym) : bal acctB r s .pledged = 0 := by
  unfold bal acctB Account.token
  by_cases h : s = "WICC" <;> simp [h, Token.zero]

/-- Example for C81: the price falls to 0.5, so that the ratio of the sample position is 0.95: it is the only candidate. -/
example : ∃ es σ c, Run x86 acct0 es σ ∧ Open σ c ∧ c.pair = ("WICC", WUSD) ∧ 2 * c.owed ≤ c.staked * PB ∧
    candidates (envW 50000000 20) σ ("WICC", WUSD) = [c] ∧ candidates (envW 70000000 20) σ ("WICC", WUSD) = [] := by
  obtain ⟨σ, h1, h2⟩ := hist_run (es := [])
    (f := fun σ => (find σ.cdps 7, candidates (envW 50000000 20) σ ("WICC", WUSD), candidates (envW 70000000 20) σ ("WICC", WUSD)))
    (a := (some ⟨7, 5, 10, "WICC", WUSD, 190000000, 100000000⟩, [⟨7, 5, 10, "WICC", WUSD, 190000000, 100000000⟩], [])) (by simp) (by decide +kernel)
  simp only [Prod.mk.injEq] at h2
  exact ⟨_, σ, ⟨7, 5, 10, "WICC", WUSD, 190000000, 100000000⟩, h1, h2.1, rfl, by decide, h2.2.1, h2.2.2⟩

/-- C81 is violated: two units of a coin worth `10^9` dollars each back a debt of 10 WUSD; the price halves, the ratio is now
1.0, below the forced ratio 1.04, but the position is not a candidate: its index key, `2 * 10^-9` times `10^8`, is zero and
taken for an overflow. -/
theorem force_misses_violated :
    ∃ es σ c, Run x86 acctB es σ ∧ Open σ c ∧ c.pair = ("WICC", WUSD) ∧
      ratioQ c.staked c.owed 50000000000000000 = 10000 ∧ (defaults.forced = 10400) ∧
      floorReached x86 (σ.glob c.pair) 50000000000000000 defaults.gmin = false ∧
      candidates (envW 50000000000000000 20) σ ("WICC", WUSD) = [] := by
  obtain ⟨σ, h1, h2⟩ := run_of (m := acctB)
    (es := [.stake (envW 100000000000000000 10) ⟨7, 8, none, [("WICC", 2)], WUSD, 1000000000⟩])
    (f := fun σ => (find σ.cdps 7, candidates (envW 50000000000000000 20) σ ("WICC", WUSD),
      floorReached x86 (σ.glob ("WICC", WUSD)) 50000000000000000 defaults.gmin))
    (a := (some ⟨7, 8, 10, "WICC", WUSD, 2, 1000000000⟩, [], false)) acctB_pledged
    (by
      intro ev hev
      simp only [List.mem_cons, List.not_mem_nil, or_false] at hev
      subst hev
      exact ⟨rfl, envW_ok _ _, by decide, by intro x hx; simp at hx; subst hx; decide⟩)
    (by decide) (by decide +kernel)
  simp only [Prod.mk.injEq] at h2
  refine ⟨_, σ, ⟨7, 8, 10, "WICC", WUSD, 2, 1000000000⟩, h1, h2.1, rfl, ?_, rfl, h2.2.2, h2.2.1⟩
  unfold ratioQ PB RB
  norm_num

/-! ## C82: safe positions -/

/-- C82 in part: whatever liquidation is accepted, by whom and for whatever amount, the position's ratio is below the
starting ratio of liquidation plus one part in ten thousand, if it fits in 64 bits.
Missing: ratios of `2^64` and more, see `safe_liquidated_violated`. -/
theorem safe_kept_partial {e : Env} {σ σ' : St} {t : Liq} {c : Cdp} (hf : find σ.cdps t.cdp = some c)
    (h1 : 0 < c.staked) (h3 : c.owed < 2 ^ 64) (hl : (e.par c.pair).startLiq < MAXU)
    (hr : ratioQ c.staked c.owed (e.price c.pair) * (1 + δ) < 2 ^ 64) (h : liquidate e σ t = .ok σ') :
    0 < c.owed ∧ ratioQ c.staked c.owed (e.price c.pair) * (1 - δ) < (e.par c.pair).startLiq + 1 := by
  unfold liquidate at h
  simp only [bind_ok, chk_ok, ex_unit] at h
  obtain ⟨-, h⟩ := h
  rw [hf] at h
  simp only [bind_ok, chk_ok, ex_unit, decide_eq_true_eq] at h
  obtain ⟨-, -, hp, -, x, hx, -⟩ := h
  unfold terms at hx
  dsimp only at hx
  rw [ite_eq_iff] at hx
  rcases hx with ⟨-, hx⟩ | ⟨hle, -⟩
  · cases hx
  · rcases Nat.eq_zero_or_pos c.owed with ho | ho
    · exfalso
      have hb : c.base = ofU MAXU := by unfold Cdp.base; rw [if_pos ⟨by omega, ho⟩]
      have : c.ratio e.k (e.price c.pair) = MAXU := by unfold Cdp.ratio; rw [if_pos hb]
      omega
    · exact ⟨ho, ratio_le e.k h1 ho h3 (Nat.pos_of_ne_zero hp) hr hl (by omega)⟩

/-- On a processor that saturates there is no exception: the ratio of a liquidated position is below the starting ratio. -/
theorem safe_kept_saturating {e : Env} {σ σ' : St} {t : Liq} {c : Cdp} (hk : e.k = saturating) (hf : find σ.cdps t.cdp = some c)
    (h1 : 0 < c.staked) (h3 : c.owed < 2 ^ 64) (hl : (e.par c.pair).startLiq < MAXU) (h : liquidate e σ t = .ok σ') :
    0 < c.owed ∧ ratioQ c.staked c.owed (e.price c.pair) * (1 - δ) < (e.par c.pair).startLiq + 1 := by
  by_cases hr : ratioQ c.staked c.owed (e.price c.pair) * (1 + δ) < 2 ^ 64
  · exact safe_kept_partial hf h1 h3 hl hr h
  · have hlq : ((e.par c.pair).startLiq : ℚ) < 18446744073709551615 := by exact_mod_cast hl
    have h' := h
    unfold liquidate at h'
    simp only [bind_ok, chk_ok, ex_unit] at h'
    obtain ⟨-, h'⟩ := h'
    rw [hf] at h'
    simp only [bind_ok, chk_ok, ex_unit, decide_eq_true_eq] at h'
    obtain ⟨-, -, hp, -, x, hx, -⟩ := h'
    unfold terms at hx
    dsimp only at hx
    rw [ite_eq_iff] at hx
    rcases hx with ⟨-, hx⟩ | ⟨hle, -⟩
    · cases hx
    · rcases Nat.eq_zero_or_pos c.owed with ho | ho
      · exfalso
        have hb : c.base = ofU MAXU := by unfold Cdp.base; rw [if_pos ⟨by omega, ho⟩]
        have : c.ratio e.k (e.price c.pair) = MAXU := by unfold Cdp.ratio; rw [if_pos hb]
        omega
      · refine ⟨ho, ?_⟩
        have n1 := near_le (ratio_near h1 ho h3 (Nat.pos_of_ne_zero hp)) (by decide) ratioQ_pos
        rw [hk] at hle
        unfold Cdp.ratio at hle
        split at hle
        · omega
        · rw [not_lt] at hle
          unfold saturating at hle
          dsimp only at hle
          split at hle
          · rename_i hin
            have hv : val (mul (mul (div (ofU (e.price c.pair)) (ofU PB)) c.base) (ofU RB)) <
                (mul (mul (div (ofU (e.price c.pair)) (ofU PB)) c.base) (ofU RB) / ONE : Nat) + 1 := by
              unfold val
              rw [div_lt_iff₀ oneQ_pos]
              have := Nat.lt_div_mul_add (a := mul (mul (div (ofU (e.price c.pair)) (ofU PB)) c.base) (ofU RB)) Dbl.one_pos
              have h2 : mul (mul (div (ofU (e.price c.pair)) (ofU PB)) c.base) (ofU RB) <
                (mul (mul (div (ofU (e.price c.pair)) (ofU PB)) c.base) (ofU RB) / ONE + 1) * ONE := by rw [Nat.add_mul, Nat.one_mul]; exact this
              exact_mod_cast h2
            have : ((mul (mul (div (ofU (e.price c.pair)) (ofU PB)) c.base) (ofU RB) / ONE : Nat) : ℚ) ≤ (e.par c.pair).startLiq := by
              exact_mod_cast hle
            linarith [n1.1]
          · unfold MAXU at hl; omega

/-- No interest. -/
def envF (price height : Nat) : Env := { envW price height with interest := fun _ _ _ _ => some 0 }

theorem envF_ok (p h : Nat) : (envF p h).Ok := fun _ _ _ _ i hi => by cases hi; decide

def bigEvs : List Ev :=
  [.stake (envF PB 10) ⟨7, 5, none, [("WICC", 2000000000000000)], WUSD, 1000⟩,
   .stake (envF PB 10) ⟨9, 8, none, [("WICC", 200000000)], WUSD, 100000000⟩,
   .other [⟨8, WUSD, .subFree, 1, some 6⟩],
   .redeem (envF PB 11) ⟨5, 7, 999, [("WICC", 0)]⟩]

theorem bigEvs_ok : ∀ ev ∈ bigEvs, ev.Ok x86 := by
  intro ev hev
  simp only [bigEvs, List.mem_cons, List.not_mem_nil, or_false] at hev
  rcases hev with rfl | rfl | rfl | rfl
  · exact ⟨rfl, envF_ok _ _, by decide, by intro x hx; simp at hx; subst hx; decide⟩
  · exact ⟨rfl, envF_ok _ _, by decide, by intro x hx; simp at hx; subst hx; decide⟩
  · intro q hq; simp at hq; subst hq; exact ⟨by decide, by decide⟩
  · exact ⟨rfl, envF_ok _ _⟩

/-- C82 is violated on x86: twenty million WICC at the price 1.0 back a debt of one unit (`10^-8` WUSD). The ratio does not
fit in 64 bits and is taken for zero; anybody may have all the collateral for one unit of WUSD. -/
theorem safe_liquidated_violated :
    ∃ es σ c σ', Run x86 acctB es σ ∧ Open σ c ∧ c.id = 7 ∧ ratioQ c.staked c.owed PB = 20000000000000000000 ∧
      liquidate (envF PB 12) σ ⟨6, 7, none, 1⟩ = .ok σ' ∧ find σ'.cdps 7 = none ∧
      bal σ'.mem 6 "WICC" .free = 2000000000000000 ∧ bal σ.mem 6 "WICC" .free = 0 := by
  obtain ⟨σ, h1, h2⟩ := run_of (m := acctB) (es := bigEvs)
    (f := fun σ => (find σ.cdps 7, bal σ.mem 6 "WICC" .free, match liquidate (envF PB 12) σ ⟨6, 7, none, 1⟩ with
      | .ok σ' => some (find σ'.cdps 7, bal σ'.mem 6 "WICC" .free)
      | _ => none))
    (a := (some ⟨7, 5, 11, "WICC", WUSD, 2000000000000000, 1⟩, 0, some (none, 2000000000000000))) acctB_pledged bigEvs_ok
    (by decide) (by decide +kernel)
  simp only [Prod.mk.injEq] at h2
  obtain ⟨a, b, c⟩ := h2
  cases hx : liquidate (envF PB 12) σ ⟨6, 7, none, 1⟩ with
  | ok σ' =>
    rw [hx] at c
    simp only [Option.some.injEq, Prod.mk.injEq] at c
    refine ⟨_, σ, ⟨7, 5, 11, "WICC", WUSD, 2000000000000000, 1⟩, σ', h1, a, rfl, ?_, hx, c.1, c.2, b⟩
    unfold ratioQ PB RB
    norm_num
  | fail => rw [hx] at c; cases c
  | crash => rw [hx] at c; cases c

/-- Example for C82: the sample position at the price 0.7 (ratio 1.33) is liquidated. -/
example : ∃ es σ σ' c, Run x86 acct0 es σ ∧ find σ.cdps 7 = some c ∧ 0 < c.staked ∧ liquidate (envW 70000000 20) σ ⟨6, 7, none, 10000000⟩ = .ok σ' := by
  obtain ⟨σ, h1, h2⟩ := hist_run (es := [])
    (f := fun σ => (find σ.cdps 7, match liquidate (envW 70000000 20) σ ⟨6, 7, none, 10000000⟩ with | .ok _ => true | _ => false))
    (a := (some ⟨7, 5, 10, "WICC", WUSD, 190000000, 100000000⟩, true)) (by simp) (by decide +kernel)
  simp only [Prod.mk.injEq] at h2
  cases hx : liquidate (envW 70000000 20) σ ⟨6, 7, none, 10000000⟩ with
  | ok σ' => exact ⟨_, σ, σ', ⟨7, 5, 10, "WICC", WUSD, 190000000, 100000000⟩, h1, h2.1, by decide, hx⟩
  | fail => rw [hx] at h2; cases h2.2
  | crash => rw [hx] at h2; cases h2.2

/-! ## C83: different processors -/

theorem cv_agree (k k' : Conv) {a : Nat} (h : val a < 2 ^ 64) : k.cv a = k'.cv a := by
  have : a < 2 ^ 64 * ONE := by
    unfold val at h
    rw [div_lt_iff₀ oneQ_pos] at h
    exact_mod_cast h
  rw [k.inRange a this, k'.inRange a this]

theorem calcRatio_agree (k k' : Conv) {a s p : Nat} (ha : 0 < a) (hp : 0 < p) (hs : s < 2 ^ 64)
    (h : ratioQ a s p * (1 + δ) < 2 ^ 64) : calcRatio k a s p = calcRatio k' a s p := by
  unfold calcRatio
  split
  · rfl
  · rename_i h0
    exact cv_agree k k' (lt_of_le_of_lt (near_le (calc_near ha hp (Nat.pos_of_ne_zero h0) hs) (by decide) ratioQ_pos).2 h)

theorem ratio_agree (k k' : Conv) {c : Cdp} {p : Nat} (h1 : 0 < c.staked) (h3 : c.owed < 2 ^ 64) (hp : 0 < p)
    (h : ratioQ c.staked c.owed p * (1 + δ) < 2 ^ 64) : c.ratio k p = c.ratio k' p := by
  unfold Cdp.ratio
  rcases Nat.eq_zero_or_pos c.owed with ho | ho
  · have hb : c.base = ofU MAXU := by unfold Cdp.base; rw [if_pos ⟨by omega, ho⟩]
    rw [if_pos hb, if_pos hb]
  · split
    · rfl
    · exact cv_agree k k' (lt_of_le_of_lt (near_le (ratio_near h1 ho h3 hp) (by decide) ratioQ_pos).2 h)

theorem rkey_agree (k k' : Conv) {c : Cdp} (h1 : 0 < c.staked) (h2 : 0 < c.owed) (h3 : c.owed < 2 ^ 64)
    (h : (c.staked : ℚ) / c.owed * PB * (1 + δ) < 2 ^ 64) : rkey k c = rkey k' c := by
  unfold rkey
  rw [cv_agree k k' (lt_of_le_of_lt (near_le (base_boost h1 h2 h3) (by decide) (by positivity)).2 h)]

theorem minStake_agree (k k' : Conv) {m p : Nat} (hm : m ≤ 100000000000) (hp : 0 < p) (hp' : p < 2 ^ 64) :
    k.cv (div (ofU m) (div (ofU p) (ofU PB))) = k'.cv (div (ofU m) (div (ofU p) (ofU PB))) := by
  rcases Nat.eq_zero_or_pos m with rfl | h0
  · have hpos : 0 < div (ofU p) (ofU PB) := by
      have n := (price_near hp).1
      have p1 := qpos hp
      have : (0 : ℚ) < val (div (ofU p) (ofU PB)) := by
        refine lt_of_lt_of_le ?_ (near_le (price_near hp) (by decide) (by positivity)).1
        have : (0 : ℚ) < 1 - δ := by unfold δ; norm_num
        rw [PBq]; positivity
      unfold val at this
      rw [lt_div_iff₀ oneQ_pos, zero_mul] at this
      exact_mod_cast this
    rw [ofU_zero, div_zero_left hpos, cv_zero, cv_zero]
  · have p1 := qpos hp
    have m1 := qpos h0
    have p2 : (p : ℚ) < 2 ^ 64 := by exact_mod_cast hp'
    have hm' : (m : ℚ) ≤ 100000000000 := by exact_mod_cast hm
    have n : Near 6 (div (ofU m) (div (ofU p) (ofU PB))) ((m : ℚ) / (p / PB)) := by
      refine near_div (near_ofU m) (price_near hp) (by positivity) (by rw [PBq]; positivity) (by decide) ?_
      rw [PBq]
      calc (1 : ℚ) / 2 ^ 200 ≤ 1 / (2 ^ 64 / 100000000) := by norm_num
        _ ≤ _ := by gcongr
    refine cv_agree k k' (lt_of_le_of_lt (near_le n (by decide) (by positivity)).2 ?_)
    have hd : (1 : ℚ) + δ ≤ 101 / 100 := by unfold δ; norm_num
    have hd0 : (0 : ℚ) ≤ 1 + δ := by unfold δ; norm_num
    rw [PBq]
    calc (m : ℚ) / (p / 100000000) * (1 + δ) ≤ 100000000000 / (1 / 100000000) * (101 / 100) := by gcongr
      _ < 2 ^ 64 := by norm_num

theorem globRatio_agree (k k' : Conv) {g : Nat × Nat} {p : Nat} (hp : 0 < p) (hg : g.2 < 2 ^ 64) (hg0 : g.2 ≠ 0 → 0 < g.1)
    (h : ratioQ g.1 g.2 p * (1 + δ) < 2 ^ 64) : globRatio k g p = globRatio k' g p := by
  obtain ⟨a, b⟩ := g
  by_cases h0 : b = 0
  · unfold globRatio; rw [if_pos h0, if_pos h0]
  · have := calcRatio_agree k k' (hg0 h0) hp hg h
    unfold calcRatio at this
    unfold globRatio
    exact this

theorem newCDP_agree (k k' : Conv) {σ : St} {c : Cdp} (h : rkey k c = rkey k' c) : newCDP k σ c = newCDP k' σ c := by
  unfold newCDP saveIdx
  rw [h]

theorem chk_bind_congr {α : Type} {b : Bool} {f g : Unit → Res α} (h : b = true → f () = g ()) : (chk b >>= f) = (chk b >>= g) := by
  cases b with
  | true => exact h rfl
  | false => rfl

theorem openCdp_agree (k : Conv) {e : Env} {σ : St} {t : Stake} {a : Sym} {v : Nat} (hpp : 0 < e.price (a, t.scoin))
    (hp : e.price (a, t.scoin) < 2 ^ 64) (hm : t.mint < 2 ^ 64) (hms : (e.par (a, t.scoin)).minStake ≤ 100000000000)
    (hr : ratioQ v t.mint (e.price (a, t.scoin)) * (1 + δ) < 2 ^ 64) (hb : (v : ℚ) / t.mint * PB * (1 + δ) < 2 ^ 64) :
    openCdp e σ t a v = openCdp { e with k := k } σ t a v := by
  unfold openCdp
  dsimp only
  refine chk_bind_congr fun h0 => ?_
  rw [decide_eq_true_eq] at h0
  have hv := Nat.pos_of_ne_zero h0.1
  have hmm := Nat.pos_of_ne_zero h0.2
  have e1 := calcRatio_agree e.k k hv hpp hm hr
  have e2 : minBcoins { e with k := k } (a, t.scoin) = minBcoins e (a, t.scoin) := by
    unfold minBcoins
    exact (minStake_agree e.k k hms hpp hp).symm
  have e3 := newCDP_agree (σ := σ) e.k k (rkey_agree e.k k (c := ⟨t.id, t.who, e.height, a, t.scoin, v, t.mint⟩) hv hmm hm hb)
  rw [e1, e2, e3]

theorem fail_bind {α β : Type} (f : α → Res β) : ((Res.fail : Res α) >>= f) = .fail := rfl
theorem crash_bind {α β : Type} (f : α → Res β) : ((Res.crash : Res α) >>= f) = .crash := rfl
theorem ok_bind {α β : Type} (a : α) (f : α → Res β) : ((Res.ok a : Res α) >>= f) = f a := rfl

/-- `stake` with the parts that convert doubles taken out. -/
def stakeWith (e : Env) (σ : St) (t : Stake) (G : Sym → Nat) (P : Sym → Nat → Res St) : Res St := do
  let (a, v) ← checkStake e t
  let p : Pair := (a, t.scoin)
  chk (e.price p ≠ 0)
  chk (e.testnet ∨ (e.par p).gmin ≤ G a)
  chk (!ceilReached (σ.glob p) v (e.par p).ceil)
  let σ1 ← P a v
  let m ← ops σ1.mem [⟨t.who, a, .pledge, v, none⟩, ⟨t.who, t.scoin, .addFree, t.mint, none⟩]
  pure { σ1 with mem := m }

theorem stake_with (e : Env) (k : Conv) (σ : St) (t : Stake) : stake { e with k := k } σ t =
    stakeWith e σ t (fun a => globRatio k (σ.glob (a, t.scoin)) (e.price (a, t.scoin))) (position { e with k := k } σ t) := rfl

theorem stakeWith_congr {e : Env} {σ : St} {t : Stake} {G G' : Sym → Nat} {P P' : Sym → Nat → Res St}
    (h : ∀ a v, t.assets = [(a, v)] → e.price (a, t.scoin) ≠ 0 → G a = G' a ∧ P a v = P' a v) : stakeWith e σ t G P = stakeWith e σ t G' P' := by
  unfold stakeWith
  cases hcs : checkStake e t with
  | fail => rw [fail_bind, fail_bind]
  | crash => rw [crash_bind, crash_bind]
  | ok x =>
    obtain ⟨a, v⟩ := x
    rw [ok_bind, ok_bind]
    dsimp only
    refine chk_bind_congr fun h0 => ?_
    rw [decide_eq_true_eq] at h0
    obtain ⟨h1, h2⟩ := h a v (checkStake_ok hcs).1 h0
    rw [h1, h2]

/-- C83 in part: two nodes whose processors convert doubles differently accept or reject the same new position and store the
same data, if the ratios of the position and of all positions of the pair together, and the collateral per unit of debt,
fit in 64 bits.  Missing: values that do not fit, see `processors_differ_violated`; the other transactions (their ratios
agree by `ratio_agree`, `calcRatio_agree`, `rkey_agree`). -/
theorem open_agree_partial (k : Conv) {e : Env} {σ : St} {t : Stake} {a : Sym} {v : Nat} (ht : t.cdp = none) (ha : t.assets = [(a, v)])
    (hp : e.price (a, t.scoin) < 2 ^ 64) (hm : t.mint < 2 ^ 64) (hms : (e.par (a, t.scoin)).minStake ≤ 100000000000)
    (hg : (σ.glob (a, t.scoin)).2 < 2 ^ 64) (hg0 : (σ.glob (a, t.scoin)).2 ≠ 0 → 0 < (σ.glob (a, t.scoin)).1)
    (hgr : ratioQ (σ.glob (a, t.scoin)).1 (σ.glob (a, t.scoin)).2 (e.price (a, t.scoin)) * (1 + δ) < 2 ^ 64)
    (hr : ratioQ v t.mint (e.price (a, t.scoin)) * (1 + δ) < 2 ^ 64) (hb : (v : ℚ) / t.mint * PB * (1 + δ) < 2 ^ 64) :
    stake e σ t = stake { e with k := k } σ t := by
  show stake { e with k := e.k } σ t = _
  rw [stake_with, stake_with]
  refine stakeWith_congr fun a' v' hx h0 => ?_
  rw [ha] at hx
  simp only [List.cons.injEq, Prod.mk.injEq, and_true] at hx
  obtain ⟨rfl, rfl⟩ := hx
  have hpp := Nat.pos_of_ne_zero h0
  refine ⟨globRatio_agree e.k k hpp hg hg0 hgr, ?_⟩
  unfold position
  rw [ht]
  exact openCdp_agree k hpp hp hm hms hr hb

/-- Example for C83: an ordinary position. -/
example : ∃ t : Stake, t.cdp = none ∧ t.assets = [("WICC", 190000000)] ∧
    ratioQ 190000000 t.mint PB * (1 + δ) < 2 ^ 64 ∧ ((190000000 : Nat) : ℚ) / t.mint * PB * (1 + δ) < 2 ^ 64 ∧
    ∃ σ', stake (envW PB 10) (empty acct0) t = .ok σ' := by
  refine ⟨⟨7, 5, none, [("WICC", 190000000)], WUSD, 100000000⟩, rfl, rfl, ?_, ?_, ?_⟩
  · unfold ratioQ PB RB δ; norm_num
  · unfold PB δ; norm_num
  · have h : (match stake (envW PB 10) (empty acct0) ⟨7, 5, none, [("WICC", 190000000)], WUSD, 100000000⟩ with | .ok _ => true | _ => false) = true := by
      decide +kernel
    cases hx : stake (envW PB 10) (empty acct0) ⟨7, 5, none, [("WICC", 190000000)], WUSD, 100000000⟩ with
    | ok σ' => exact ⟨σ', rfl⟩
    | fail => rw [hx] at h; cases h
    | crash => rw [hx] at h; cases h

/-- C83 is violated: twenty million WICC against one unit of WUSD. A processor that saturates sees an enormous ratio and
opens the position; x86 sees zero and rejects the transaction, and the block with it. -/
theorem processors_differ_violated :
    (∃ σ', stake { envW PB 10 with k := saturating } (empty acctB) ⟨7, 5, none, [("WICC", 2000000000000000)], WUSD, 1⟩ = .ok σ') ∧
    stake { envW PB 10 with k := x86 } (empty acctB) ⟨7, 5, none, [("WICC", 2000000000000000)], WUSD, 1⟩ = .fail := by
  have h : ∀ (k : Conv) (b : Nat), (match stake { envW PB 10 with k := k } (empty acctB) ⟨7, 5, none, [("WICC", 2000000000000000)], WUSD, 1⟩ with
      | .ok _ => 0 | .fail => 1 | .crash => 2) = b →
      (b = 0 → ∃ σ', stake { envW PB 10 with k := k } (empty acctB) ⟨7, 5, none, [("WICC", 2000000000000000)], WUSD, 1⟩ = .ok σ') ∧
      (b = 1 → stake { envW PB 10 with k := k } (empty acctB) ⟨7, 5, none, [("WICC", 2000000000000000)], WUSD, 1⟩ = .fail) := by
    intro k b h
    cases hx : stake { envW PB 10 with k := k } (empty acctB) ⟨7, 5, none, [("WICC", 2000000000000000)], WUSD, 1⟩ with
    | ok σ' => rw [hx] at h; exact ⟨fun _ => ⟨σ', rfl⟩, fun e => (by subst e; cases h)⟩
    | fail => rw [hx] at h; exact ⟨fun e => (by subst e; cases h), fun _ => rfl⟩
    | crash => rw [hx] at h; exact ⟨fun e => (by subst e; cases h), fun e => (by subst e; cases h)⟩
  exact ⟨(h saturating 0 (by decide +kernel)).1 rfl, (h x86 1 (by decide +kernel)).2 rfl⟩

end Verif.Cdp
