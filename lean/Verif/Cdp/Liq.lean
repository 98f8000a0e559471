import Verif.Cdp.Ratio
/-! Arithmetic of liquidations. -/
namespace Verif.Cdp

open Verif.Account Verif.Ledger Verif.Dbl

/-- Parameters for which liquidation makes sense: a liquidator pays at least the debt. -/
structure Sane (par : Params) : Prop where
  nr : par.nonReturn * par.discount ≥ 100000001
  fd : par.forced * par.discount ≥ 100000000
  nr' : par.nonReturn ≤ 100000
  d' : par.discount ≤ 10000
  sl : par.startLiq < MAXU

/-- Sizes for which the doubles are precise enough: amounts up to `2^52` and a ratio that fits in 64 bits. -/
structure Sized (c : Cdp) (price : Nat) : Prop where
  s0 : 0 < c.staked
  s1 : c.staked ≤ 2 ^ 52
  o1 : c.owed ≤ 2 ^ 52
  p0 : 0 < price
  p1 : price < 2 ^ 64
  r : ratioQ c.staked c.owed price * (1 + δ) < 2 ^ 64

theorem sane_pos {par : Params} (h : Sane par) : 0 < par.nonReturn ∧ 0 < par.discount ∧ 0 < par.forced := by
  have h1 := h.nr
  have h2 := h.fd
  refine ⟨Nat.pos_of_ne_zero ?_, Nat.pos_of_ne_zero ?_, Nat.pos_of_ne_zero ?_⟩
  · intro e; rw [e] at h1; simp at h1
  · intro e; rw [e] at h1; simp at h1
  · intro e; rw [e] at h2; simp at h2

theorem nat_of_q {a b : Nat} {x : ℚ} (h1 : (a : ℚ) ≤ x) (h2 : x < b + 1) : a ≤ b := by
  have : (a : ℚ) < b + 1 := lt_of_le_of_lt h1 h2
  have h : a < b + 1 := by exact_mod_cast this
  omega

theorem base_ne_max {c : Cdp} {p : Nat} (h : Sized c p) (h2 : 0 < c.owed) : c.base ≠ ofU MAXU := by
  intro hb
  have n1 := near_le (base_near h.s0 h2 (by have := h.o1; omega)) (by decide) (by positivity)
  rw [hb] at n1
  have hm := maxU_val
  have a1 : (c.staked : ℚ) ≤ 2 ^ 52 := by exact_mod_cast h.s1
  have a2 := qpos h2
  have : (c.staked : ℚ) / c.owed * (1 + δ) ≤ 2 ^ 52 / 1 * 2 := by
    have : (1 : ℚ) + δ ≤ 2 := by unfold δ; norm_num
    have hd : (0 : ℚ) ≤ 1 + δ := by unfold δ; norm_num
    gcongr
  have : (9223372036854775808 : ℚ) ≤ 2 ^ 52 / 1 * 2 := by linarith [n1.2]
  norm_num at this

/-- The terms of a complete liquidation: never an abort, and the liquidator pays at least the debt, and not absurdly more. -/
theorem terms_sane (k : Conv) {par : Params} {c : Cdp} {p : Nat} (hp : Sane par) (hz : Sized c p) :
    terms k par c p ≠ .crash ∧ ∀ x, terms k par c p = .ok x → c.owed ≤ x.pay ∧ 0 < c.owed ∧ x.pay ≤ 11 * c.owed := by
  have hd0 : (0 : ℚ) < 1 + δ := by unfold δ; norm_num
  have hd1 : (0 : ℚ) < 1 - δ := by unfold δ; norm_num
  rcases Nat.eq_zero_or_pos c.owed with ho | ho
  · -- no debt: the ratio is infinite and the liquidation refused
    have hb : c.base = ofU MAXU := by
      unfold Cdp.base; rw [if_pos ⟨by have := hz.s0; omega, ho⟩]
    have hr : c.ratio k p = MAXU := by unfold Cdp.ratio; rw [if_pos hb]
    have : terms k par c p = .fail := by
      unfold terms; dsimp only; rw [hr, if_pos hp.sl]
    rw [this]
    exact ⟨by simp, fun x h => by cases h⟩
  · obtain ⟨np, dp, fp⟩ := sane_pos hp
    have ho64 : c.owed < 2 ^ 64 := by have := hz.o1; omega
    have hbm := base_ne_max hz ho
    have o1 := qpos ho
    have a1 := qpos hz.s0
    have p1 := qpos hz.p0
    have p2 : (p : ℚ) < 2 ^ 64 := by exact_mod_cast hz.p1
    have n1 := qpos np
    have d1 := qpos dp
    have n2 : (par.nonReturn : ℚ) ≤ 100000 := by exact_mod_cast hp.nr'
    have d2 : (par.discount : ℚ) ≤ 10000 := by exact_mod_cast hp.d'
    have o2 : (c.owed : ℚ) ≤ 2 ^ 52 := by exact_mod_cast hz.o1
    have a2 : (c.staked : ℚ) ≤ 2 ^ 52 := by exact_mod_cast hz.s1
    have hnr : (100000001 : ℚ) ≤ par.nonReturn * par.discount := by exact_mod_cast hp.nr
    have hfd : (100000000 : ℚ) ≤ par.forced * par.discount := by exact_mod_cast hp.fd
    have eo : Near 0 (ofU c.owed) c.owed := near_exact (by have := hz.o1; omega)
    have es : Near 0 (ofU c.staked) c.staked := near_exact (by have := hz.s1; omega)
    have en : Near 0 (ofU par.nonReturn) par.nonReturn := near_exact (by have := hp.nr'; omega)
    have ed : Near 0 (ofU par.discount) par.discount := near_exact (by have := hp.d'; omega)
    unfold terms
    dsimp only
    by_cases g1 : par.startLiq < c.ratio k p
    · rw [if_pos g1]; exact ⟨by simp, fun x h => by cases h⟩
    · rw [if_neg g1]
      by_cases g2 : par.nonReturn < c.ratio k p
      · rw [if_pos g2]
        have hR := ratio_gt k hz.s0 ho ho64 hz.p0 hbm g2
        -- x
        have q0 : (1 : ℚ) ≤ c.owed * par.nonReturn := by nlinarith
        have x1 := near_mul eo en (by linarith) (by linarith) (by decide) (by
          calc (1 : ℚ) / 2 ^ 200 ≤ 1 := by norm_num
            _ ≤ _ := q0)
        have q1 : (1 : ℚ) / 10000 ≤ c.owed * par.nonReturn / RB := by rw [RBq]; gcongr
        have x2 := near_div x1 RB_exact (by positivity) (by rw [RBq]; norm_num) (by decide) (by
          calc (1 : ℚ) / 2 ^ 200 ≤ 1 / 10000 := by norm_num
            _ ≤ _ := q1)
        -- pay
        have q2 : (1 : ℚ) / 10000 * 1 ≤ c.owed * par.nonReturn / RB * par.discount := by gcongr
        have y1 := near_mul x2 ed (by positivity) (by linarith) (by decide) (by
          calc (1 : ℚ) / 2 ^ 200 ≤ 1 / 10000 * 1 := by norm_num
            _ ≤ _ := q2)
        have q3 : (1 : ℚ) / 10000 * 1 / 10000 ≤ c.owed * par.nonReturn / RB * par.discount / RB := by
          rw [RBq] at q2 ⊢; gcongr
        have y2 := near_le (near_div y1 RB_exact (by positivity) (by rw [RBq]; norm_num) (by decide) (by
          calc (1 : ℚ) / 2 ^ 200 ≤ 1 / 10000 * 1 / 10000 := by norm_num
            _ ≤ _ := q3)) (by decide) (by positivity)
        -- toLiq
        have pp : (p : ℚ) / PB ≤ 2 ^ 64 := by
          rw [PBq]
          calc (p : ℚ) / 100000000 ≤ 2 ^ 64 / 1 := by gcongr; norm_num
            _ = 2 ^ 64 := by norm_num
        have pp0 : (0 : ℚ) < p / PB := by rw [PBq]; positivity
        have q4 : (1 : ℚ) / 10000 / 2 ^ 64 ≤ c.owed * par.nonReturn / RB / (p / PB) := by gcongr
        have z := near_le (near_div x2 (price_near hz.p0) (by positivity) pp0 (by decide) (by
          calc (1 : ℚ) / 2 ^ 200 ≤ 1 / 10000 / 2 ^ 64 := by norm_num
            _ ≤ _ := q4)) (by decide) (by positivity)
        -- the collateral suffices
        have hT : (c.owed : ℚ) * par.nonReturn / RB / (p / PB) * (1 + δ) ≤ c.staked := by
          have e : ratioQ c.staked c.owed p = c.staked * (p / PB) * RB / c.owed := by unfold ratioQ; ring
          rw [e] at hR
          have h2 : (c.owed : ℚ) * (par.nonReturn + 1) ≤ c.staked * (p / PB) * RB * (1 + δ) := by
            have : (0 : ℚ) < c.owed := by linarith
            calc (c.owed : ℚ) * (par.nonReturn + 1) ≤ c.owed * (c.staked * (p / PB) * RB / c.owed * (1 + δ)) := by gcongr
              _ = _ := by field_simp
          have h3 : (1 + δ) * (1 + δ) * (par.nonReturn : ℚ) ≤ par.nonReturn + 1 := by
            have : ((1 + δ) * (1 + δ) - 1) * 100000 ≤ 1 := by unfold δ; norm_num
            have h0 : (0 : ℚ) ≤ (1 + δ) * (1 + δ) - 1 := by unfold δ; norm_num
            nlinarith
          rw [div_mul_eq_mul_div, div_le_iff₀ pp0, div_mul_eq_mul_div, div_le_iff₀ (by rw [RBq]; norm_num)]
          have h4 : (c.owed : ℚ) * par.nonReturn * (1 + δ) * (1 + δ) ≤ c.staked * (p / PB) * RB * (1 + δ) := by
            calc (c.owed : ℚ) * par.nonReturn * (1 + δ) * (1 + δ) = c.owed * ((1 + δ) * (1 + δ) * par.nonReturn) := by ring
              _ ≤ c.owed * (par.nonReturn + 1) := by gcongr
              _ ≤ _ := h2
          exact le_of_mul_le_mul_right h4 hd0
        have hzr : val (div (div (mul (ofU c.owed) (ofU par.nonReturn)) (ofU RB)) (div (ofU p) (ofU PB))) ≤ c.staked := le_trans z.2 hT
        have hc1 := cv_eq k (lt_of_le_of_lt (le_trans hzr a2) (by norm_num))
        have hle : k.cv (div (div (mul (ofU c.owed) (ofU par.nonReturn)) (ofU RB)) (div (ofU p) (ofU PB))) ≤ c.staked := by
          have := le_trans hc1.1 hzr
          exact_mod_cast this
        rw [if_pos hle]
        refine ⟨by simp, ?_⟩
        intro x hx
        cases hx
        suffices H : _ ∧ _ from ⟨H.1, ho, H.2⟩
        dsimp only
        have hv : (c.owed : ℚ) * par.nonReturn / RB * par.discount / RB = c.owed * (par.nonReturn * par.discount) / 100000000 := by
          rw [RBq]; ring
        have hup0 : val (div (mul (div (mul (ofU c.owed) (ofU par.nonReturn)) (ofU RB)) (ofU par.discount)) (ofU RB)) ≤ 11 * c.owed := by
          refine le_trans y2.2 ?_
          rw [hv]
          calc (c.owed : ℚ) * (par.nonReturn * par.discount) / 100000000 * (1 + δ)
              ≤ c.owed * (100000 * 10000) / 100000000 * (11 / 10) := by
                have : (1 : ℚ) + δ ≤ 11 / 10 := by unfold δ; norm_num
                gcongr
            _ = 11 * c.owed := by ring
        have hup := lt_of_le_of_lt hup0 (show (11 : ℚ) * c.owed < 2 ^ 64 by linarith)
        have hc2 := cv_eq k hup
        refine ⟨nat_of_q (le_trans ?_ y2.1) hc2.2, by exact_mod_cast le_trans hc2.1 hup0⟩
        rw [hv]
        calc (c.owed : ℚ) = c.owed * 1 := by ring
          _ ≤ c.owed * (100000001 / 100000000 * (1 - δ)) := by gcongr; unfold δ; norm_num
          _ = c.owed * 100000001 / 100000000 * (1 - δ) := by ring
          _ ≤ _ := by gcongr
      · rw [if_neg g2]
        by_cases g3 : par.forced < c.ratio k p
        · rw [if_pos g3]
          refine ⟨by simp, ?_⟩
          intro x hx
          cases hx
          suffices H : _ ∧ _ from ⟨H.1, ho, H.2⟩
          dsimp only
          have hR := ratio_gt k hz.s0 ho ho64 hz.p0 hbm g3
          have hU := ratio_le k hz.s0 ho ho64 hz.p0 hz.r (by have := hp.nr'; unfold MAXU; omega) (Nat.not_lt.1 g2)
          have pp0 : (1 : ℚ) / 100000000 ≤ p / PB := by rw [PBq]; gcongr
          have q0 : (1 : ℚ) * (1 / 100000000) ≤ c.staked * (p / PB) := by gcongr
          have x1 := near_mul es (price_near hz.p0) (by linarith) (by positivity) (by decide) (by
            calc (1 : ℚ) / 2 ^ 200 ≤ 1 * (1 / 100000000) := by norm_num
              _ ≤ _ := q0)
          have q1 : (1 : ℚ) * (1 / 100000000) * 1 ≤ c.staked * (p / PB) * par.discount := by gcongr
          have x2 := near_mul x1 ed (by positivity) (by linarith) (by decide) (by
            calc (1 : ℚ) / 2 ^ 200 ≤ 1 * (1 / 100000000) * 1 := by norm_num
              _ ≤ _ := q1)
          have q2 : (1 : ℚ) * (1 / 100000000) * 1 / 10000 ≤ c.staked * (p / PB) * par.discount / RB := by rw [RBq]; gcongr
          have y := near_le (near_div x2 RB_exact (by positivity) (by rw [RBq]; norm_num) (by decide) (by
            calc (1 : ℚ) / 2 ^ 200 ≤ 1 * (1 / 100000000) * 1 / 10000 := by norm_num
              _ ≤ _ := q2)) (by decide) (by positivity)
          have hv : (c.staked : ℚ) * (p / PB) * par.discount / RB = ratioQ c.staked c.owed p * par.discount * c.owed / 100000000 := by
            have : (0 : ℚ) < c.owed := by linarith
            unfold ratioQ; rw [RBq]; field_simp; norm_num
          have hup0 : val (div (mul (mul (ofU c.staked) (div (ofU p) (ofU PB))) (ofU par.discount)) (ofU RB)) ≤ 11 * c.owed := by
            refine le_trans y.2 ?_
            rw [hv]
            have hr2 : ratioQ c.staked c.owed p ≤ 100002 := by
              by_contra hcon
              rw [not_le] at hcon
              have h2 : (100002 : ℚ) * (1 - δ) ≤ ratioQ c.staked c.owed p * (1 - δ) := by gcongr
              have h3 : (100001 : ℚ) ≤ 100002 * (1 - δ) := by unfold δ; norm_num
              linarith
            calc ratioQ c.staked c.owed p * par.discount * c.owed / 100000000 * (1 + δ)
                ≤ 100002 * 10000 * c.owed / 100000000 * (109 / 100) := by
                  have : (1 : ℚ) + δ ≤ 109 / 100 := by unfold δ; norm_num
                  have h0 : (0 : ℚ) ≤ ratioQ c.staked c.owed p := ratioQ_pos
                  gcongr
              _ ≤ 11 * c.owed := by linarith
          have hup := lt_of_le_of_lt hup0 (show (11 : ℚ) * c.owed < 2 ^ 64 by linarith)
          have hc2 := cv_eq k hup
          refine ⟨nat_of_q (le_trans ?_ y.1) hc2.2, by exact_mod_cast le_trans hc2.1 hup0⟩
          rw [hv]
          have h5 : (par.forced : ℚ) * par.discount + par.discount ≤ ratioQ c.staked c.owed p * par.discount * (1 + δ) := by
            calc (par.forced : ℚ) * par.discount + par.discount = (par.forced + 1) * par.discount := by ring
              _ ≤ ratioQ c.staked c.owed p * (1 + δ) * par.discount := by gcongr
              _ = _ := by ring
          have h6 : (100000001 : ℚ) ≤ ratioQ c.staked c.owed p * par.discount * (1 + δ) := by linarith
          have h7 : (100000000 : ℚ) ≤ ratioQ c.staked c.owed p * par.discount * (1 - δ) := by
            have hX : (0 : ℚ) ≤ ratioQ c.staked c.owed p * par.discount := mul_nonneg ratioQ_pos (by linarith)
            have k1 : (100000000 : ℚ) * (1 + δ) ≤ 100000001 * (1 - δ) := by unfold δ; norm_num
            have k2 : (100000001 : ℚ) * (1 - δ) ≤ ratioQ c.staked c.owed p * par.discount * (1 + δ) * (1 - δ) := by gcongr
            have k3 : (100000000 : ℚ) * (1 + δ) ≤ ratioQ c.staked c.owed p * par.discount * (1 - δ) * (1 + δ) := by linarith
            exact le_of_mul_le_mul_right k3 hd0
          calc (c.owed : ℚ) = 100000000 * c.owed / 100000000 := by ring
            _ ≤ ratioQ c.staked c.owed p * par.discount * (1 - δ) * c.owed / 100000000 := by gcongr
            _ = _ := by ring
        · rw [if_neg g3]
          refine ⟨by simp, ?_⟩
          intro x hx
          cases hx
          refine ⟨Nat.le_refl _, ho, ?_⟩
          dsimp only; omega

/-! Partial liquidation: the rate is below one, and every amount strictly shrinks. -/

theorem rate_le {a b : Nat} (h : a < b) (hb : b ≤ 2 ^ 52) : div (ofU a) (ofU b) ≤ (2 ^ 52 - 1) * 2 ^ 248 := by
  rw [ofU_exact (by omega), ofU_exact (by omega)]
  unfold div
  refine fround_le (p := 53) (n := a * ONE * ONE) (d := b * ONE) (m := 2 ^ 52 - 1) (t := 248) (by decide) (Nat.mul_pos (by omega) Dbl.one_pos) (by decide) ?_
  have hO : ONE = 2 ^ 248 * 2 ^ 52 := by unfold ONE SC; rw [← Nat.pow_add]
  have h1 : a * 2 ^ 52 ≤ (2 ^ 52 - 1) * b := by omega
  calc a * ONE * ONE = a * 2 ^ 52 * (2 ^ 248 * ONE) := by
        rw [show a * ONE * ONE = a * ONE * (2 ^ 248 * 2 ^ 52) by rw [← hO]]; ac_rfl
    _ ≤ (2 ^ 52 - 1) * b * (2 ^ 248 * ONE) := Nat.mul_le_mul_right _ h1
    _ = (2 ^ 52 - 1) * 2 ^ 248 * (b * ONE) := by ac_rfl

theorem rate_lt_one {a b : Nat} (h : a < b) (hb : b ≤ 2 ^ 52) : div (ofU a) (ofU b) < ONE := by
  have := rate_le h hb
  have hO : ONE = 2 ^ 52 * 2 ^ 248 := by unfold ONE SC; rw [← Nat.pow_add]
  have h2 : (2 ^ 52 - 1) * 2 ^ 248 < 2 ^ 52 * 2 ^ 248 := Nat.mul_lt_mul_of_pos_right (by decide) (Nat.two_pow_pos _)
  omega

theorem scaled_lt (k : Conv) {n r : Nat} (hn : 0 < n) (hn' : n ≤ 2 ^ 52) (hr : r ≤ (2 ^ 52 - 1) * 2 ^ 248) : k.cv (mul (ofU n) r) < n := by
  have hO : ONE = 2 ^ 52 * 2 ^ 248 := by unfold ONE SC; rw [← Nat.pow_add]
  have key : mul (ofU n) r < n * ONE := by
    rw [ofU_exact (by omega)]
    unfold mul
    obtain ⟨l, hl⟩ : ∃ l, l = Nat.log2 n := ⟨_, rfl⟩
    have hlow : 2 ^ l ≤ n := by rw [hl]; exact Nat.log2_self_le (by omega)
    have hl52 : l ≤ 52 := by
      rcases Nat.lt_or_ge 52 l with h | h
      · have : 2 ^ 53 ≤ 2 ^ l := Nat.pow_le_pow_right (by decide) h
        have : (2 : Nat) ^ 53 = 9007199254740992 := by decide
        omega
      · exact h
    have hm : n * 2 ^ (52 - l) ≤ 2 ^ 53 := by
      have h1 : n < 2 ^ (l + 1) := by rw [hl]; exact Nat.lt_log2_self
      calc n * 2 ^ (52 - l) ≤ 2 ^ (l + 1) * 2 ^ (52 - l) := Nat.mul_le_mul_right _ (Nat.le_of_lt h1)
        _ = 2 ^ 53 := by rw [← Nat.pow_add]; congr 1; omega
    have e1 : n * 2 ^ (52 - l) * 2 ^ (248 + l) = n * ONE := by
      rw [Nat.mul_assoc, ← Nat.pow_add]; unfold ONE SC; congr 2; omega
    have hpos : 0 < n * 2 ^ (52 - l) := Nat.mul_pos hn (Nat.two_pow_pos _)
    have e2 : (n * 2 ^ (52 - l) - 1) * 2 ^ (248 + l) = n * ONE - 2 ^ (248 + l) := by
      rw [Nat.sub_mul, e1, Nat.one_mul]
    have hb : fround 53 (n * ONE * r) ONE ≤ (n * 2 ^ (52 - l) - 1) * 2 ^ (248 + l) := by
      refine fround_le (p := 53) (n := n * ONE * r) (d := ONE) (m := n * 2 ^ (52 - l) - 1) (t := 248 + l) (by decide) Dbl.one_pos (by omega) ?_
      rw [e2]
      have : n * r ≤ n * ONE - 2 ^ (248 + l) := by
        have h1 : n * r ≤ n * ((2 ^ 52 - 1) * 2 ^ 248) := Nat.mul_le_mul_left _ hr
        have h2 : n * ((2 ^ 52 - 1) * 2 ^ 248) = n * ONE - n * 2 ^ 248 := by
          rw [hO, Nat.sub_mul, Nat.mul_sub, Nat.one_mul]
        have h3 : 2 ^ (248 + l) ≤ n * 2 ^ 248 := by
          rw [Nat.pow_add, Nat.mul_comm]; exact Nat.mul_le_mul_right _ hlow
        omega
      calc n * ONE * r = n * r * ONE := by ac_rfl
        _ ≤ _ := Nat.mul_le_mul_right _ this
    have hp2 : 0 < 2 ^ (248 + l) := Nat.two_pow_pos _
    have hle : 2 ^ (248 + l) ≤ n * ONE := by
      rw [← e1]; exact Nat.le_mul_of_pos_left _ hpos
    omega
  have hin : mul (ofU n) r < 2 ^ 64 * ONE := Nat.lt_of_lt_of_le key (Nat.mul_le_mul_right _ (by omega))
  rw [k.inRange _ hin]
  exact (Nat.div_lt_iff_lt_mul Dbl.one_pos).2 key

theorem scaled_zero (k : Conv) (r : Nat) : k.cv (mul (ofU 0) r) = 0 := by
  rw [ofU_zero, mul_zero_left, cv_zero]

/-- The debt closed by a partial liquidation is at most what is paid. -/
theorem close_le (k : Conv) {a o b : Nat} (ha : 0 < a) (h : a < b) (hb : b ≤ 2 ^ 52) (ho : o ≤ b) :
    k.cv (mul (ofU o) (div (ofU a) (ofU b))) ≤ a := by
  rcases Nat.eq_zero_or_pos o with rfl | ho0
  · rw [scaled_zero]; omega
  · have va : val (ofU a) = a := val_exact (by omega)
    have vb : val (ofU b) = b := val_exact (by omega)
    have vo : val (ofU o) = o := val_exact (by omega)
    have a1 := qpos ha
    have b1 : (1 : ℚ) ≤ b := by exact_mod_cast (by omega : 1 ≤ b)
    have o1 := qpos ho0
    have b2 : (b : ℚ) ≤ 2 ^ 52 := by exact_mod_cast hb
    have ab : (a : ℚ) ≤ 2 ^ 52 - 1 := by
      have : a + 1 ≤ 2 ^ 52 := by omega
      have : (a : ℚ) + 1 ≤ 2 ^ 52 := by exact_mod_cast this
      linarith
    have ob : (o : ℚ) ≤ b := by exact_mod_cast ho
    have q1 : (1 : ℚ) / 2 ^ 52 ≤ a / b := by
      have : (0 : ℚ) < b := by linarith
      gcongr
    have r1 := div_bounds (a := ofU a) (b := ofU b) (by rw [vb]; linarith) (by
      rw [va, vb]
      calc tiny ≤ 1 / 2 ^ 52 := by unfold tiny; norm_num
        _ ≤ _ := q1)
    rw [va, vb] at r1
    have rl : (1 : ℚ) / 2 ^ 52 * (1 / 2) ≤ val (div (ofU a) (ofU b)) := by
      refine le_trans ?_ r1.1
      have : (1 : ℚ) / 2 ≤ 1 - ε / 2 := by unfold ε; norm_num
      gcongr
    have m1 := mul_bounds (a := ofU o) (b := div (ofU a) (ofU b)) (by
      rw [vo]
      calc tiny ≤ 1 * (1 / 2 ^ 52 * (1 / 2)) := by unfold tiny; norm_num
        _ ≤ _ := by gcongr)
    rw [vo] at m1
    have he : (0 : ℚ) < 1 + ε / 2 := by unfold ε; norm_num
    have hb0 : (0 : ℚ) < b := by linarith
    have up : val (mul (ofU o) (div (ofU a) (ofU b))) < a + 1 := by
      calc val (mul (ofU o) (div (ofU a) (ofU b))) ≤ o * val (div (ofU a) (ofU b)) * (1 + ε / 2) := m1.2
        _ ≤ b * (a / b * (1 + ε / 2)) * (1 + ε / 2) := mul_le_mul_of_nonneg_right (mul_le_mul ob r1.2 (val_nonneg _) hb0.le) he.le
        _ = (b * (a / b)) * ((1 + ε / 2) * (1 + ε / 2)) := by ring
        _ = a * ((1 + ε / 2) * (1 + ε / 2)) := by rw [mul_div_cancel₀ _ (ne_of_gt hb0)]
        _ = a + a * (ε + ε * ε / 4) := by ring
        _ ≤ a + (2 ^ 52 - 1) * (ε + ε * ε / 4) := by
          have : (0 : ℚ) ≤ ε + ε * ε / 4 := by unfold ε; norm_num
          gcongr
        _ < a + 1 := by unfold ε; norm_num
    have hc := cv_eq k (lt_trans up (by
      have : (2 : ℚ) ^ 52 - 1 + 1 < 2 ^ 64 := by norm_num
      linarith))
    have : (k.cv (mul (ofU o) (div (ofU a) (ofU b))) : ℚ) < a + 1 := lt_of_le_of_lt hc.1 up
    have h2 : k.cv (mul (ofU o) (div (ofU a) (ofU b))) < a + 1 := by exact_mod_cast this
    omega

end Verif.Cdp
