import Verif.Cdp.Safe
/-! # C84: a pair whose collateral as a whole is worth too little is locked -/
namespace Verif.Cdp

open Verif.Account Verif.Ledger Verif.Dbl

/-! ## Specification -/

/-- The event is a transaction on positions of pair `p` under the conditions `e`. -/
inductive Touches (σ : St) (p : Pair) (e : Env) : Ev → Prop
  | stake (t : Stake) (v : Nat) (h : t.assets = [(p.1, v)]) (hs : t.scoin = p.2) : Touches σ p e (.stake e t)
  | redeem (t : Redeem) (c : Cdp) (h : Open σ c) (hi : c.id = t.cdp) (hp : c.pair = p) : Touches σ p e (.redeem e t)
  | liquidate (t : Liq) (c : Cdp) (h : Open σ c) (hi : c.id = t.cdp) (hp : c.pair = p) : Touches σ p e (.liquidate e t)
  | settle (ids : List Nat) (c : Cdp) (h : Open σ c) (hi : ids.head? = some c.id) (hp : c.pair = p) : Touches σ p e (.settle e ids)

def Res.isOk {α : Type} : Res α → Bool
  | .ok _ => true
  | _ => false

/-! ## Proofs -/

theorem glob_covers {e : Env} {g : Nat × Nat} {p : Nat} {lim : Nat} (h2 : g.2 < 2 ^ 64) (hl : lim < 2 ^ 64)
    (h : lim ≤ globRatio e.k g p) : Covers g.1 g.2 p lim := calcRatio_covers e.k h2 hl h

theorem not_floor {k : Conv} {g : Nat × Nat} {p lim : Nat} (h : (!floorReached k g p lim) = true) : lim ≤ globRatio k g p := by
  simp only [floorReached, Bool.not_eq_true', decide_eq_false_iff_not] at h
  omega

/-- C84: if the collateral of all open positions of a pair together does not cover the floor ratio of all their debt at the current
price, then no transaction on a position of the pair is accepted: none is opened, increased, redeemed (not even by paying
back debt), liquidated, or charged interest. -/
theorem pair_locked {k : Conv} {m : Mem} {es : List Ev} {σ σ' : St} (H : Run k m es σ) {p : Pair} {e : Env} {ev : Ev}
    (ht : Touches σ p e ev) (hmain : e.testnet = false) {staked owed : Nat} (h1 : (staked : Int) = stakedOf σ.cdps p)
    (h2 : (owed : Int) = owedOf σ.cdps p) (b1 : staked < U64) (b2 : owed < U64) (hl : (e.par p).gmin < U64)
    (hu : ¬ Covers staked owed (e.price p) (e.par p).gmin) : ev.apply σ ≠ .ok σ' := by
  obtain ⟨t1, t2⟩ := totals_exact H p
  have g1 : (σ.glob p).1 = staked := by have := t1 (by omega); omega
  have g2 : (σ.glob p).2 = owed := by have := t2 (by omega); omega
  have key : (e.par p).gmin ≤ globRatio e.k (σ.glob p) (e.price p) → False := by
    intro hg
    apply hu
    have := glob_covers (e := e) (g := σ.glob p) (by rw [g2]; exact b2) hl hg
    rw [g1, g2] at this
    exact this
  intro ha
  cases ht with
  | stake t v h hs =>
    obtain ⟨a, v', σ1, hc, -, -, -⟩ := stake_ok ha
    have ha' : Cdp.stake e σ t = .ok σ' := ha
    unfold Cdp.stake at ha'
    simp only [bind_ok, chk_ok, ex_unit, Prod.exists, decide_eq_true_eq] at ha'
    obtain ⟨a, v, hc, -, hg, -⟩ := ha'
    have := (checkStake_ok hc).1
    rw [h] at this
    simp only [List.cons.injEq, Prod.mk.injEq, and_true] at this
    obtain ⟨rfl, rfl⟩ := this
    rw [hmain, hs] at hg
    exact key (by simpa using hg)
  | redeem t c h hi hp =>
    have ha' : Verif.Cdp.redeem e σ t = .ok σ' := ha
    unfold Open at h
    rw [hi] at h
    unfold Verif.Cdp.redeem at ha'
    rw [h] at ha'
    dsimp only at ha'
    split at ha'
    · simp only [bind_ok, chk_ok, ex_unit] at ha'
      obtain ⟨-, -, -, hf, -⟩ := ha'
      rw [hp] at hf
      exact key (not_floor hf)
    · cases ha'
  | liquidate t c h hi hp =>
    have ha' : Cdp.liquidate e σ t = .ok σ' := ha
    unfold Open at h
    rw [hi] at h
    unfold Cdp.liquidate at ha'
    rw [h] at ha'
    simp only [bind_ok, chk_ok, ex_unit] at ha'
    obtain ⟨-, -, -, -, hf, -⟩ := ha'
    rw [hp] at hf
    exact key (not_floor hf)
  | settle ids c h hi hp =>
    have ha' : Cdp.settle e σ ids = .ok σ' := ha
    unfold Cdp.settle at ha'
    simp only [bind_ok, chk_ok, ex_unit] at ha'
    obtain ⟨-, hs⟩ := ha'
    cases ids with
    | nil => cases hi
    | cons i is =>
      simp only [List.head?_cons, Option.some.injEq] at hi
      subst hi
      unfold settleLoop at hs
      rw [if_neg (by simp)] at hs
      cases h1 : settleOne e σ c.id with
      | fail => rw [h1] at hs; cases hs
      | crash => rw [h1] at hs; cases hs
      | ok σ1 =>
        unfold settleOne at h1
        unfold Open at h
        rw [h] at h1
        simp only [bind_ok, chk_ok, ex_unit] at h1
        obtain ⟨-, hf, -⟩ := h1
        rw [hp] at hf
        exact key (not_floor hf)

/-- C84: forced liquidation passes a locked pair over. -/
theorem locked_not_forced {k : Conv} {m : Mem} {es : List Ev} {σ σ' : St} (H : Run k m es σ) {p : Pair} {e : Env} {fp : Nat}
    {staked owed : Nat} (h1 : (staked : Int) = stakedOf σ.cdps p)
    (h2 : (owed : Int) = owedOf σ.cdps p) (b1 : staked < U64) (b2 : owed < U64) (hl : (e.par p).gmin < U64)
    (hu : ¬ Covers staked owed (e.price p) (e.par p).gmin) (h : force e σ fp [p] = .ok σ') : σ' = σ := by
  obtain ⟨t1, t2⟩ := totals_exact H p
  have g1 : (σ.glob p).1 = staked := by have := t1 (by omega); omega
  have g2 : (σ.glob p).2 = owed := by have := t2 (by omega); omega
  have hf : floorReached e.k (σ.glob p) (e.price p) (e.par p).gmin = true := by
    by_contra hc
    apply hu
    have := glob_covers (e := e) (g := σ.glob p) (by rw [g2]; exact b2) hl (not_floor (by simpa using hc))
    rw [g1, g2] at this
    exact this
  unfold force at h
  split at h
  · cases h; rfl
  · simp only [forceAll, forcePair, hf, if_true] at h
    split at h
    · omega
    · cases h; rfl

/-- Example for C84: at a tenth of the price at which it was opened, the only position of the pair cannot even be paid back,
and it can at the original price. -/
example : ∃ es σ, Run x86 acct0 es σ ∧ Touches σ ("WICC", WUSD) (envW 10000000 20) (.redeem (envW 10000000 20) ⟨5, 7, 50000000, [("WICC", 0)]⟩) ∧
    stakedOf σ.cdps ("WICC", WUSD) = 190000000 ∧ owedOf σ.cdps ("WICC", WUSD) = 100000000 ∧
    ¬ Covers 190000000 100000000 10000000 defaults.gmin ∧
    (Ev.apply σ (.redeem (envW 10000000 20) ⟨5, 7, 50000000, [("WICC", 0)]⟩)).isOk = false ∧
    (Ev.apply σ (.redeem (envW PB 20) ⟨5, 7, 50000000, [("WICC", 0)]⟩)).isOk = true := by
  obtain ⟨σ, h1, h2⟩ := hist_run (es := [.other [⟨6, WUSD, .subFree, 100000000, some 5⟩]])
    (f := fun σ => (find σ.cdps 7, stakedOf σ.cdps ("WICC", WUSD), owedOf σ.cdps ("WICC", WUSD),
      (Ev.apply σ (.redeem (envW 10000000 20) ⟨5, 7, 50000000, [("WICC", 0)]⟩)).isOk,
      (Ev.apply σ (.redeem (envW PB 20) ⟨5, 7, 50000000, [("WICC", 0)]⟩)).isOk))
    (a := (some ⟨7, 5, 10, "WICC", WUSD, 190000000, 100000000⟩, 190000000, 100000000, false, true))
    (by
      intro ev hev
      simp only [List.mem_cons, List.not_mem_nil, or_false] at hev
      subst hev
      exact ⟨by intro q hq; simp at hq; subst hq; exact ⟨by decide, by decide⟩, rfl⟩)
    (by decide +kernel)
  simp only [Prod.mk.injEq] at h2
  exact ⟨_, σ, h1, .redeem _ ⟨7, 5, 10, "WICC", WUSD, 190000000, 100000000⟩ h2.1 rfl rfl, h2.2.1, h2.2.2.1,
    not_covers (by decide), h2.2.2.2.1, h2.2.2.2.2⟩

end Verif.Cdp
