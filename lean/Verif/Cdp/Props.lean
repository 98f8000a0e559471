import Verif.Cdp.Hist
import Verif.Cdp.Ratio
/-!
# Properties of collateralised debt positions: books, pledges, debt and collateral

C33, C34, C35, C36.  Liquidation (C37) and the remaining ones are in `Liquid.lean`.
-/
namespace Verif.Cdp

open Verif.Account Verif.Ledger Verif.Dbl

/-! ## Specification -/

/-- `c` is an open position. -/
def Open (σ : St) (c : Cdp) : Prop := find σ.cdps c.id = some c

/-- A list that contains every open position of pair `p` exactly once, and nothing else. -/
def Lists (σ : St) (p : Pair) (l : List Cdp) : Prop := l.Nodup ∧ ∀ c, c ∈ l ↔ Open σ c ∧ c.pair = p

/-- A history the network may go through: starting without positions, numbers of 64 bits, transaction hashes that differ,
and all nodes converting doubles alike. -/
structure Run (k : Conv) (m : Mem) (es : List Ev) (σ : St) : Prop where
  start : ∀ r s, bal m r s .pledged = 0
  ok : ∀ ev ∈ es, ev.Ok k
  ids : (es.filterMap Ev.newId).Nodup
  run : run (empty m) es = some σ

theorem Run.inv {k : Conv} {m : Mem} {es : List Ev} {σ : St} (H : Run k m es σ) : Inv k σ :=
  (run_inv es (empty_inv k m H.start) H.ok H.ids (fun _ _ => rfl) H.run).1

/-! ## C33 -/

theorem nodup_snd {K : Type} [DecidableEq K] {key : Cdp → K} {cdps : List (Nat × Cdp)} {p : Pair} {lt : K → K → Bool}
    (ho : StrictTotal lt) : ∀ {idx : List (K × Cdp)}, SortedBy lt idx → (∀ x ∈ idx, key x.2 = x.1) → (idx.map (·.2)).Nodup
  | [], _, _ => List.nodup_nil
  | x :: r, hs, hk => by
    rw [List.map_cons, List.nodup_cons]
    refine ⟨?_, nodup_snd (cdps := cdps) (p := p) ho (List.pairwise_cons.1 hs).2 (fun y hy => hk y (by simp [hy]))⟩
    intro hx
    rw [List.mem_map] at hx
    obtain ⟨y, hy, e⟩ := hx
    have h1 := (List.pairwise_cons.1 hs).1 y hy
    rw [← hk x (by simp), ← hk y (by simp [hy]), e, ho.irrefl] at h1
    cases h1

theorem lists_of_idx {K : Type} [DecidableEq K] {key : Cdp → K} {σ : St} {p : Pair} {lt : K → K → Bool}
    (ho : StrictTotal lt) {idx : List (K × Cdp)} (hs : SortedBy lt idx) (hi : IdxOk key σ.cdps p idx) :
    Lists σ p (idx.map (·.2)) := by
  have hm : ∀ x ∈ idx, find σ.cdps x.2.id = some x.2 ∧ x.2.pair = p ∧ key x.2 = x.1 := by
    rintro ⟨q, c⟩ hx
    exact (hi q c).1 ((mem_iff_find ho hs q c).1 hx)
  refine ⟨nodup_snd (cdps := σ.cdps) (p := p) ho hs (fun x hx => (hm x hx).2.2), fun c => ?_⟩
  rw [List.mem_map]
  constructor
  · rintro ⟨x, hx, rfl⟩
    exact ⟨(hm x hx).1, (hm x hx).2.1⟩
  · rintro ⟨h1, h2⟩
    exact ⟨(key c, c), (mem_iff_find ho hs _ _).2 ((hi _ _).2 ⟨h1, h2, rfl⟩), rfl⟩

/-- C33: after every history both indexes of every pair list exactly the open positions, each once; the index by owner
finds exactly the open positions; and the totals are the sums of the positions, counted in 64 bits. -/
theorem books_agree {k : Conv} {m : Mem} {es : List Ev} {σ : St} (H : Run k m es σ) (p : Pair) :
    Lists σ p ((σ.ridx p).map (·.2)) ∧ Lists σ p ((σ.hidx p).map (·.2)) ∧
    (∀ o id, σ.user (o, p) = some id ↔ ∃ c, c.id = id ∧ Open σ c ∧ c.owner = o ∧ c.pair = p) ∧
    ((σ.glob p).1 : Int) = stakedOf σ.cdps p % U64 ∧ ((σ.glob p).2 : Int) = owedOf σ.cdps p % U64 := by
  have G := H.inv.good
  refine ⟨lists_of_idx ltR_total (G.rs p) (G.ridx p), lists_of_idx ltH_total (G.hs p) (G.hidx p), ?_, G.g1 p, G.g2 p⟩
  intro o id
  rw [G.user]
  constructor
  · rintro ⟨c, h1, h2, h3⟩
    have := G.ids _ _ h1
    exact ⟨c, this, by unfold Open; rw [this]; exact h1, h2, h3⟩
  · rintro ⟨c, rfl, h1, h2, h3⟩
    exact ⟨c, h1, h2, h3⟩

/-- C33: sums that fit in 64 bits are recorded exactly. -/
theorem totals_exact {k : Conv} {m : Mem} {es : List Ev} {σ : St} (H : Run k m es σ) (p : Pair) :
    (stakedOf σ.cdps p < U64 → ((σ.glob p).1 : Int) = stakedOf σ.cdps p) ∧
    (owedOf σ.cdps p < U64 → ((σ.glob p).2 : Int) = owedOf σ.cdps p) := by
  have G := H.inv.good
  have nn : ∀ (f : Nat → Cdp → Int) (l : List (Nat × Cdp)), (∀ a b, 0 ≤ f a b) → 0 ≤ ssum f l := by
    intro f l hf
    induction l with
    | nil => simp [ssum]
    | cons x r ih => obtain ⟨a, b⟩ := x; have := hf a b; simp only [ssum]; omega
  refine ⟨fun h => ?_, fun h => ?_⟩
  · rw [G.g1]; exact Int.emod_eq_of_lt (nn _ _ (fun _ _ => by split <;> omega)) h
  · rw [G.g2]; exact Int.emod_eq_of_lt (nn _ _ (fun _ _ => by split <;> omega)) h

/-! ## C34 -/

/-- C34: after every history each account's pledged amount of a coin is the collateral of its open positions in that coin. -/
theorem pledged_is_collateral {k : Conv} {m : Mem} {es : List Ev} {σ : St} (H : Run k m es σ) (r : Ref) (s : Sym) :
    (bal σ.mem r s .pledged : Int) = lockedOf σ.cdps r s := H.inv.pledged r s

/-- C34: in particular the collateral of a position is there when it is to be returned. -/
theorem pledge_of_position {k : Conv} {m : Mem} {es : List Ev} {σ : St} (H : Run k m es σ) {c : Cdp} (hc : Open σ c) :
    bal σ.mem c.owner c.bcoin .pledged = c.staked := H.inv.pledged_eq hc

/-! ## C35 -/

/-- C35: what a history does to the stable coin.  The changes to accounts are balance operations that create, net of what
they destroy, the growth of the recorded debt and the `extras`: interest minted for owners who cannot pay it, wrapped
penalties, and what transactions other than those on positions create. -/
theorem debt_and_supply {k : Conv} {m : Mem} {es : List Ev} {σ : St} (H : Run k m es σ) :
    ∃ qs, execAll m qs = some σ.mem ∧ net WUSD qs = debtOf σ.cdps WUSD + extras (empty m) es ∧
    ∀ S : Finset Ref, WF m → (∀ q ∈ qs, q.Within S) → (∀ s, total m s S + mintedAll s qs < U64) →
      (total σ.mem WUSD S : Int) = total m WUSD S + debtOf σ.cdps WUSD + extras (empty m) es := by
  obtain ⟨I, qs, h1, h2⟩ := run_inv es (empty_inv k m H.start) H.ok H.ids (fun _ _ => rfl) H.run
  have h0 : debtOf (empty m).cdps WUSD = 0 := rfl
  refine ⟨qs, h1, by omega, fun S hw hin ht => ?_⟩
  have := (execAll_exact S qs m σ.mem hw hin ht h1).2.2 WUSD
  unfold net at h2
  omega

/-- No owner's interest goes unpaid and no penalty wraps. -/
def Covered : St → List Ev → Prop
  | _, [] => True
  | σ, e :: es =>
    match e.apply σ with
    | .ok σ' =>
      (match e with
       | .stake e t => uncovered e σ t = 0
       | .liquidate e t => overMint e σ t = 0
       | .other qs => net WUSD qs = 0
       | _ => True) ∧ Covered σ' es
    | .fail => Covered σ es
    | .crash => True

theorem extras_zero : ∀ (es : List Ev) (σ : St), Covered σ es → extras σ es = 0
  | [], _, _ => rfl
  | ev :: es, σ, h => by
    unfold Covered at h
    unfold extras
    cases ha : ev.apply σ with
    | crash => rfl
    | fail => rw [ha] at h; exact extras_zero es σ h
    | ok σ' =>
      rw [ha] at h
      dsimp only at h ⊢
      rw [extras_zero es σ' h.2]
      cases ev <;> simp only [Ev.extra] <;> first | (have := h.1; dsimp only at this; omega) | rfl

/-- C35 in part: when no owner's interest goes unpaid and no penalty wraps, stable coins come into being and disappear
exactly as recorded debt does.  Missing: interest beyond the owner's balance, see `uncovered_interest_violated`. -/
theorem debt_is_supply_partial {k : Conv} {m : Mem} {es : List Ev} {σ : St} (H : Run k m es σ) (hc : Covered (empty m) es) :
    ∃ qs, execAll m qs = some σ.mem ∧ net WUSD qs = debtOf σ.cdps WUSD ∧
    ∀ S : Finset Ref, WF m → (∀ q ∈ qs, q.Within S) → (∀ s, total m s S + mintedAll s qs < U64) →
      (total σ.mem WUSD S : Int) = total m WUSD S + debtOf σ.cdps WUSD := by
  obtain ⟨qs, h1, h2, h3⟩ := debt_and_supply H
  rw [extras_zero _ _ hc] at h2
  refine ⟨qs, h1, by omega, fun S a b c => ?_⟩
  have := h3 S a b c
  rw [extras_zero _ _ hc] at this
  omega

/-- C35: one transaction on a position changes no supply except that of the stable coin and, in a forced liquidation, of
WGRT. -/
theorem other_supplies {k : Conv} {m : Mem} {es : List Ev} {σ σ' : St} {ev : Ev} (H : Run k m es σ) (hok : ev.Ok k)
    (hid : ∀ id, ev.newId = some id → find σ.cdps id = none) (h : ev.apply σ = .ok σ') (hn : ∀ qs, ev ≠ .other qs) :
    ∃ qs, execAll σ.mem qs = some σ'.mem ∧ ∀ s, s ≠ WUSD → s ≠ WGRT → net s qs = 0 := by
  have I := H.inv
  cases ev with
  | stake e t =>
    obtain ⟨h1, -, h3, h4⟩ := hok
    obtain ⟨qs, a, -, b⟩ := (stake_step h1 I (fun e => hid _ (by simp [Ev.newId, e])) h4 h3 h).coins
    exact ⟨qs, a, b⟩
  | redeem e t => obtain ⟨qs, a, -, b⟩ := (redeem_step hok.1 I h).coins; exact ⟨qs, a, b⟩
  | liquidate e t => obtain ⟨qs, a, -, b⟩ := (liquidate_step hok.1 I hok.2.2 h).coins; exact ⟨qs, a, b⟩
  | settle e ids => obtain ⟨qs, a, -, b⟩ := (settle_step hok.1 hok.2 I h).coins; exact ⟨qs, a, b⟩
  | force e fp ps => obtain ⟨qs, a, -, b⟩ := (force_step hok.1 I h).coins; exact ⟨qs, a, b⟩
  | other qs => exact absurd rfl (hn qs)

/-! ## C36 -/

theorem covers_add {s o v n p st : Nat} (h1 : Covers s o p st) (h2 : Covers v n p st) : Covers (s + v) (o + n) p st := by
  unfold Covers at *
  push_cast
  calc (st : ℚ) * (o + n) * PB = st * o * PB + st * n * PB := by ring
    _ ≤ s * p * RB * (1 + δ) + v * p * RB * (1 + δ) := add_le_add h1 h2
    _ = _ := by ring

theorem covers_mono {s o o' p st : Nat} (h : Covers s o p st) (ho : o' ≤ o) : Covers s o' p st := by
  unfold Covers at *
  have : (o' : ℚ) ≤ o := by exact_mod_cast ho
  refine le_trans ?_ h
  gcongr

theorem checkStake_ok {e : Env} {t : Stake} {a : Sym} {v : Nat} (hc : checkStake e t = .ok (a, v)) :
    t.assets = [(a, v)] ∧ t.scoin = WUSD ∧ a ≠ WGRT ∧ a ≠ WUSD ∧ e.bcoinOk a = true := by
  unfold checkStake at hc
  split at hc
  · rename_i a' v' hs
    simp only [bind_ok, chk_ok, ex_unit, pure_ok, decide_eq_true_eq] at hc
    obtain ⟨c1, c2, c3⟩ := hc
    cases c3
    exact ⟨hs, c1, c2.1, c2.2.1, c2.2.2⟩
  · cases hc

theorem stake_ok {e : Env} {σ σ' : St} {t : Stake} (h : stake e σ t = .ok σ') :
    ∃ a v σ1, checkStake e t = .ok (a, v) ∧ e.price (a, t.scoin) ≠ 0 ∧ position e σ t a v = .ok σ1 ∧ σ'.cdps = σ1.cdps := by
  unfold stake at h
  simp only [bind_ok, chk_ok, ex_unit, ops_ok, pure_ok, Prod.exists, decide_eq_true_eq] at h
  obtain ⟨a, v, hc, hpr, hg, hceil, σ1, h1, m, hm2, rfl⟩ := h
  exact ⟨a, v, σ1, hc, hpr, h1, rfl⟩

/-- C36: a position is opened only if its collateral covers the starting ratio. -/
theorem open_covered {e : Env} {σ σ' : St} {t : Stake} (hn : t.cdp = none) (hm : t.mint < U64)
    (hst : ∀ p, (e.par p).start < U64) (h : stake e σ t = .ok σ') :
    ∃ c, find σ'.cdps t.id = some c ∧ c.owner = t.who ∧ c.owed = t.mint ∧ 0 < c.owed ∧
      t.assets = [(c.bcoin, c.staked)] ∧ Covers c.staked c.owed (e.price c.pair) (e.par c.pair).start := by
  obtain ⟨a, v, σ1, hc, hp, h1, h2⟩ := stake_ok h
  obtain ⟨has, -, -, -, -⟩ := checkStake_ok hc
  rw [h2]
  unfold position at h1
  rw [hn] at h1
  simp only [openCdp, bind_ok, chk_ok, ex_unit, pure_ok, decide_eq_true_eq] at h1
  obtain ⟨hvm, hu, hr, -, rfl⟩ := h1
  refine ⟨⟨t.id, t.who, e.height, a, t.scoin, v, t.mint⟩, ?_, rfl, rfl, Nat.pos_of_ne_zero hvm.2, has, calcRatio_covers e.k hm (hst _) hr⟩
  simp only [newCDP, saveIdx]; rw [find_put, if_pos rfl]

/-- C36 in part: debt is added to a position only by its owner, and if neither sum wraps, the position covers the starting
ratio afterwards, unless it did not before and what is added covers it alone.  Missing: sums that wrap
(`debt_without_collateral_violated`), and that the total is covered (`grow_violated`). -/
theorem grow_covered_partial {e : Env} {σ σ' : St} {t : Stake} {cid : Nat} {c : Cdp} (hn : t.cdp = some cid)
    (hf : find σ.cdps cid = some c) (hid : c.id = cid) (hok : CdpOk c) (ha : ∀ x ∈ t.assets, x.2 < U64) (hm : t.mint < U64)
    (hst : ∀ p, (e.par p).start < U64) (hw : c.owed + t.mint + uncovered e σ t < U64)
    (h : stake e σ t = .ok σ') :
    ∃ c' v, find σ'.cdps cid = some c' ∧ t.who = c.owner ∧ t.assets = [(c.bcoin, v)] ∧ c'.staked = c.staked + v ∧
      c'.owed = c.owed + t.mint ∧
      (Covers c'.staked c'.owed (e.price c.pair) (e.par c.pair).start ∨
       (¬ Covers c.staked c.owed (e.price c.pair) (e.par c.pair).start ∧
        Covers v t.mint (e.price c.pair) (e.par c.pair).start)) := by
  obtain ⟨a, v, σ1, hc, hp, h1, h2⟩ := stake_ok h
  obtain ⟨has, hsc, -, -, -⟩ := checkStake_ok hc
  rw [h2]
  unfold position at h1
  rw [hn] at h1
  simp only [growCdp, hf, bind_ok, chk_ok, ex_unit, pure_ok, decide_eq_true_eq, ops_ok] at h1
  obtain ⟨rfl, hw0, -, i, hi, m1, -, hr, m2, -, c', hc', rfl⟩ := h1
  have hv : v < U64 := ha (c.bcoin, v) (by rw [has]; simp)
  obtain ⟨b1, b2, rfl⟩ := addStake_ok hok hv hm hc'
  have hpair : c.pair = (c.bcoin, t.scoin) := by unfold Cdp.pair; rw [hsc, hok.scoin]
  have hs : shortfall e σ.mem t.who t.scoin i = uncovered e σ t := by
    unfold uncovered shortfall
    rw [hn]; dsimp only; rw [hf]; dsimp only
    unfold getInterest at hi
    dsimp only at hi
    by_cases h0 : c.owed = 0
    · rw [if_pos h0] at hi; cases hi
      rw [if_pos (Or.inl h0)]; split <;> omega
    · rw [if_neg h0] at hi
      cases hx : e.interest (c.bcoin, t.scoin) c.owed c.height e.height with
      | none => rw [show Cdp.pair { c with scoin := t.scoin } = (c.bcoin, t.scoin) from rfl, hx] at hi; cases hi
      | some j =>
        rw [show Cdp.pair { c with scoin := t.scoin } = (c.bcoin, t.scoin) from rfl, hx] at hi; cases hi
        cases hr3 : e.r3 with
        | false => simp
        | true => simp [h0]
  rw [hs] at hr
  refine ⟨{ c with height := e.height, staked := c.staked + v, owed := c.owed + t.mint }, v, ?_, hw0, has, rfl, rfl, ?_⟩
  · simp only [updateCDP, eraseIdx, saveIdx]; rw [find_put]; rw [if_pos hid.symm]
  · dsimp only
    rw [wadd_eq (a := t.mint) (by omega), wadd_eq b1, wadd_eq (a := c.owed) (by omega), ← hpair] at hr
    rcases hr with hr | hr
    · have h1 : Covers v (t.mint + uncovered e σ t) (e.price c.pair) (e.par c.pair).start :=
        calcRatio_covers e.k (by unfold U64 at hw; omega) (hst _) hr
      have h1 := covers_mono h1 (Nat.le_add_right _ _)
      by_cases ho : Covers c.staked c.owed (e.price c.pair) (e.par c.pair).start
      · exact Or.inl (covers_add ho h1)
      · exact Or.inr ⟨ho, h1⟩
    · have h1 := calcRatio_covers e.k (by unfold U64 at hw; omega) (hst _) hr
      exact Or.inl (covers_mono h1 (by omega))

/-- C36: collateral is withdrawn only by the owner, and only if what remains covers the starting ratio or the position is
closed. -/
theorem redeem_covered {e : Env} {σ σ' : St} {t : Redeem} {c : Cdp} (hf : find σ.cdps t.cdp = some c) (hid : c.id = t.cdp)
    (hok : CdpOk c) (hst : ∀ p, (e.par p).start ≤ 2 ^ 40) (h : Verif.Cdp.redeem e σ t = .ok σ') :
    t.who = c.owner ∧ ∃ v, t.assets = [(c.bcoin, v)] ∧
    ((find σ'.cdps t.cdp = none ∧ c.staked ≤ v ∧ c.owed ≤ t.repay) ∨
     ∃ c', find σ'.cdps t.cdp = some c' ∧ c'.staked = c.staked - min v c.staked ∧ c'.owed = c.owed - min t.repay c.owed ∧
      (c'.staked < c.staked → Covers c'.staked c'.owed (e.price c.pair) (e.par c.pair).start)) := by
  unfold Verif.Cdp.redeem at h
  rw [hf] at h
  dsimp only at h
  split at h
  · rename_i a v0 has
    simp only [bind_ok, chk_ok, ex_unit, pure_ok, decide_eq_true_eq, ops_ok] at h
    obtain ⟨rfl, hw, hp, -, -, i, -, m1, -, -, c', hc', σ1, hs, m, -, rfl⟩ := h
    obtain ⟨b1, b2, rfl⟩ := redeem_ok hc'
    refine ⟨hw, v0, has, ?_⟩
    unfold storeRedeemed at hs
    dsimp only at hs
    rw [ite_eq_iff] at hs
    rcases hs with ⟨⟨z1, z2⟩, hs⟩ | ⟨-, hs⟩
    · rw [pure_ok] at hs; subst hs
      refine Or.inl ⟨?_, by omega, by omega⟩
      simp only [eraseCDP, eraseIdx]; rw [find_del, if_pos hid.symm]
    · refine Or.inr ⟨{ c with height := e.height, staked := c.staked - min v0 c.staked, owed := c.owed - min t.repay c.owed }, ?_, rfl, rfl, ?_⟩
      · rw [ite_eq_iff] at hs
        rcases hs with ⟨-, hs⟩ | ⟨-, hs⟩
        · simp only [bind_ok, chk_ok, ex_unit, pure_ok] at hs
          obtain ⟨-, -, rfl⟩ := hs
          simp only [updateCDP, eraseIdx, saveIdx]; rw [find_put, if_pos hid.symm]
        · rw [pure_ok] at hs; subst hs
          simp only [updateCDP, eraseIdx, saveIdx]; rw [find_put, if_pos hid.symm]
      · dsimp only
        intro hlt
        rw [if_pos (by omega)] at hs
        simp only [bind_ok, chk_ok, ex_unit, pure_ok, decide_eq_true_eq] at hs
        exact ratio_covers e.k (c := { c with height := e.height, staked := c.staked - min v0 c.staked, owed := c.owed - min t.repay c.owed })
          (by have := hok.owed; unfold U64 at this; dsimp only; omega) (Nat.pos_of_ne_zero hp) (hst _) hs.1
  · cases h

/-! ## Examples and counterexamples -/

def acct0 : Mem := fun r =>
  ⟨r, fun s => if r = 5 ∧ s = "WICC" then some (fun b => if b = .free then 1000000000 else 0) else none, 0, 0⟩

/-- Default parameters, the given price of collateral, five units of interest on any debt. -/
def envW (price height : Nat) : Env where
  k := x86
  price := fun _ => price
  par := fun _ => defaults
  bcoinOk := fun _ => true
  interest := fun _ _ _ _ => some 5
  height := height
  fcoin := 1
  r3 := true
  testnet := false
  oneDay := 28800
  orderOk := fun _ _ => true

/-- Account 5 opens position 7 with 1.9 WICC for 1 WUSD at the price 1.0, and pays the WUSD to account 6. -/
def hist0 : List Ev :=
  [.stake (envW PB 10) ⟨7, 5, none, [("WICC", 190000000)], WUSD, 100000000⟩,
   .other [⟨5, WUSD, .subFree, 100000000, some 6⟩]]

theorem envW_ok (p h : Nat) : (envW p h).Ok := by
  intro _ _ _ _ i hi
  cases hi
  decide

theorem acct0_pledged (r : Ref) (s : Sym) : bal acct0 r s .pledged = 0 := by
  unfold bal acct0 Account.token
  by_cases h : r = 5 ∧ s = "WICC" <;> simp [h, Token.zero]

/-- A history in which the sample position is opened and anything else happens with it. -/
theorem hist0_ok {es : List Ev} (h : ∀ ev ∈ es, ev.Ok x86 ∧ ev.newId = none) :
    (∀ ev ∈ hist0 ++ es, ev.Ok x86) ∧ ((hist0 ++ es).filterMap Ev.newId).Nodup := by
  constructor
  · intro ev hev
    rw [List.mem_append] at hev
    rcases hev with hev | hev
    · simp only [hist0, List.mem_cons, List.not_mem_nil, or_false] at hev
      rcases hev with rfl | rfl
      · exact ⟨rfl, envW_ok _ _, by decide, by intro x hx; simp at hx; subst hx; decide⟩
      · intro q hq; simp at hq; subst hq; exact ⟨by decide, by decide⟩
    · exact (h ev hev).1
  · rw [List.filterMap_append]
    have : es.filterMap Ev.newId = [] := List.filterMap_eq_nil_iff.2 (fun ev hev => (h ev hev).2)
    rw [this]
    decide

theorem hist_run {es : List Ev} {α : Type} {f : St → α} {a : α} (h : ∀ ev ∈ es, ev.Ok x86 ∧ ev.newId = none)
    (hr : (run (empty acct0) (hist0 ++ es)).map f = some a) : ∃ σ, Run x86 acct0 (hist0 ++ es) σ ∧ f σ = a := by
  cases hx : run (empty acct0) (hist0 ++ es) with
  | none => rw [hx] at hr; cases hr
  | some σ =>
    rw [hx] at hr
    exact ⟨σ, ⟨acct0_pledged, (hist0_ok h).1, (hist0_ok h).2, hx⟩, by simpa using hr⟩

/-- Examples for C33, C34 and C35: the hypotheses hold of a history that opens a position, adds to it and withdraws from it;
the indexes list it and the totals count it. -/
example : ∃ es σ, Run x86 acct0 es σ ∧ (σ.ridx ("WICC", WUSD)).map (·.2.id) = [7] ∧ σ.glob ("WICC", WUSD) = (200000000, 60000000) ∧
    bal σ.mem 5 "WICC" .pledged = 200000000 := by
  obtain ⟨σ, h1, h2⟩ := hist_run
    (es := [.other [⟨6, WUSD, .subFree, 100000000, some 5⟩],
      .stake (envW PB 11) ⟨8, 5, some 7, [("WICC", 30000000)], WUSD, 10000000⟩,
      .redeem (envW PB 12) ⟨5, 7, 50000000, [("WICC", 20000000)]⟩])
    (f := fun σ => ((σ.ridx ("WICC", WUSD)).map (·.2.id), σ.glob ("WICC", WUSD), bal σ.mem 5 "WICC" .pledged))
    (a := ([7], (200000000, 60000000), 200000000))
    (by
      intro ev hev
      simp only [List.mem_cons, List.not_mem_nil, or_false] at hev
      rcases hev with rfl | rfl | rfl
      · exact ⟨by intro q hq; simp at hq; subst hq; exact ⟨by decide, by decide⟩, rfl⟩
      · exact ⟨⟨rfl, envW_ok _ _, by decide, by intro x hx; simp at hx; subst hx; decide⟩, rfl⟩
      · exact ⟨⟨rfl, envW_ok _ _⟩, rfl⟩)
    (by decide +kernel)
  simp only [Prod.mk.injEq] at h2
  exact ⟨_, σ, h1, h2.1, h2.2.1, h2.2.2⟩

/-- C35 is violated: the owner of a position has spent the stable coins, five units of interest are due, and adding collateral
(no new debt is asked for) makes the supply of stable coins grow by five units that are nobody's debt. -/
theorem uncovered_interest_violated :
    ∃ (es : List Ev) (σ : St) (ev : Ev) (σ' : St), Run x86 acct0 es σ ∧ ev.Ok x86 ∧ ev.newId = none ∧ ev.apply σ = .ok σ' ∧
      debtOf σ'.cdps WUSD = debtOf σ.cdps WUSD ∧
      total σ.mem WUSD {1, 5, 6} = 100000000 ∧ total σ'.mem WUSD {1, 5, 6} = 100000005 := by
  have hok : ∀ ev ∈ ([.stake (envW PB 11) ⟨8, 5, some 7, [("WICC", 30000000)], WUSD, 0⟩] : List Ev), ev.Ok x86 ∧ ev.newId = none := by
    intro ev hev
    simp only [List.mem_cons, List.not_mem_nil, or_false] at hev
    subst hev
    exact ⟨⟨rfl, envW_ok _ _, by decide, by intro x hx; simp at hx; subst hx; decide⟩, rfl⟩
  obtain ⟨σ, h1, h2⟩ := hist_run (es := [])
    (f := fun σ => (debtOf σ.cdps WUSD, total σ.mem WUSD {1, 5, 6},
      match (Ev.stake (envW PB 11) ⟨8, 5, some 7, [("WICC", 30000000)], WUSD, 0⟩).apply σ with
      | .ok σ' => some (debtOf σ'.cdps WUSD, total σ'.mem WUSD {1, 5, 6})
      | _ => none))
    (a := (100000000, 100000000, some (100000000, 100000005))) (by simp) (by decide +kernel)
  refine ⟨hist0 ++ [], σ, .stake (envW PB 11) ⟨8, 5, some 7, [("WICC", 30000000)], WUSD, 0⟩, ?_⟩
  cases hx : (Ev.stake (envW PB 11) ⟨8, 5, some 7, [("WICC", 30000000)], WUSD, 0⟩).apply σ with
  | ok σ' =>
    rw [hx] at h2
    simp only [Prod.mk.injEq, Option.some.injEq] at h2
    exact ⟨σ', h1, (hok _ (by simp)).1, rfl, rfl, by rw [h2.2.2.1, h2.1], h2.2.1, h2.2.2.2⟩
  | fail => rw [hx] at h2; simp at h2
  | crash => rw [hx] at h2; simp at h2

theorem not_covers {s o p st : Nat} (h : s * p * RB * 2 < st * o * PB) : ¬ Covers s o p st := by
  unfold Covers
  intro hc
  have h1 : (s : ℚ) * p * RB * 2 < st * o * PB := by exact_mod_cast h
  have h2 : (s : ℚ) * p * RB * (1 + δ) ≤ s * p * RB * 2 := by
    have : (1 : ℚ) + δ ≤ 2 := by unfold δ; norm_num
    gcongr
  linarith

/-- C36 is violated, and C35 with it in effect: the owner of a position with 1.9 WICC of collateral whose interest is not
covered asks for `2^64 - 100000005` units (184 billion WUSD) against no further collateral. The recorded debt plus the new
coins plus the interest is `0` modulo `2^64`, so the ratio counts as infinite, and the coins are paid out. -/
theorem debt_without_collateral_violated :
    ∃ es σ c, Run x86 acct0 es σ ∧ Open σ c ∧ c.staked = 190000000 ∧ c.owed = 18446744073709551611 ∧
      bal σ.mem c.owner WUSD .free = 18446744073609551611 ∧
      ¬ Covers c.staked c.owed PB defaults.start := by
  obtain ⟨σ, h1, h2⟩ := hist_run (es := [.stake (envW PB 11) ⟨8, 5, some 7, [("WICC", 0)], WUSD, 18446744073609551611⟩])
    (f := fun σ => (find σ.cdps 7, bal σ.mem 5 WUSD .free))
    (a := (some ⟨7, 5, 11, "WICC", WUSD, 190000000, 18446744073709551611⟩, 18446744073609551611))
    (by
      intro ev hev
      simp only [List.mem_cons, List.not_mem_nil, or_false] at hev
      subst hev
      exact ⟨⟨rfl, envW_ok _ _, by decide, by intro x hx; simp at hx; subst hx; decide⟩, rfl⟩)
    (by decide +kernel)
  simp only [Prod.mk.injEq] at h2
  exact ⟨_, σ, ⟨7, 5, 11, "WICC", WUSD, 190000000, 18446744073709551611⟩, h1, h2.1, rfl, rfl, h2.2, not_covers (by decide)⟩

/-- C36 is violated: after the price has fallen to 0.6 the position has ratio 1.14. Adding 4 WICC for 1.2 WUSD passes because
the addition alone has ratio 2, and leaves a position with more debt and ratio 1.61 where 1.9 is required. -/
theorem grow_violated :
    ∃ es σ c, Run x86 acct0 es σ ∧ Open σ c ∧ es.getLast? = some (.stake (envW 60000000 11) ⟨8, 5, some 7, [("WICC", 400000000)], WUSD, 120000000⟩) ∧
      c.owed = 220000000 ∧ c.staked * 60000000 * RB < 16100 * c.owed * PB := by
  obtain ⟨σ, h1, h2⟩ := hist_run (es := [.stake (envW 60000000 11) ⟨8, 5, some 7, [("WICC", 400000000)], WUSD, 120000000⟩])
    (f := fun σ => find σ.cdps 7)
    (a := some ⟨7, 5, 11, "WICC", WUSD, 590000000, 220000000⟩)
    (by
      intro ev hev
      simp only [List.mem_cons, List.not_mem_nil, or_false] at hev
      subst hev
      exact ⟨⟨rfl, envW_ok _ _, by decide, by intro x hx; simp at hx; subst hx; decide⟩, rfl⟩)
    (by decide +kernel)
  exact ⟨_, σ, ⟨7, 5, 11, "WICC", WUSD, 590000000, 220000000⟩, h1, h2, rfl, rfl, by decide⟩

/-- C36 is violated: settling interest adds debt to a position without regard to its ratio and without its owner. The
position had exactly the starting ratio and does not have it any more. -/
theorem settle_violated :
    ∃ es σ c, Run x86 acct0 es σ ∧ Open σ c ∧ es.getLast? = some (.settle (envW PB 2000000) [7]) ∧
      c.staked = 190000000 ∧ c.owed = 100000005 ∧ ¬ Covers c.staked c.owed PB defaults.start := by
  obtain ⟨σ, h1, h2⟩ := hist_run (es := [.settle (envW PB 2000000) [7]])
    (f := fun σ => find σ.cdps 7)
    (a := some ⟨7, 5, 2000000, "WICC", WUSD, 190000000, 100000005⟩)
    (by
      intro ev hev
      simp only [List.mem_cons, List.not_mem_nil, or_false] at hev
      subst hev
      exact ⟨⟨rfl, envW_ok _ _⟩, rfl⟩)
    (by decide +kernel)
  refine ⟨_, σ, ⟨7, 5, 2000000, "WICC", WUSD, 190000000, 100000005⟩, h1, h2, rfl, rfl, rfl, ?_⟩
  unfold Covers
  rw [not_le]
  dsimp only [defaults]
  rw [PBq, RBq]
  unfold δ
  norm_num

/-- Example for C36: the hypotheses of `grow_covered_partial` hold of a stake that succeeds. -/
example : ∃ es σ σ' c, Run x86 acct0 es σ ∧ find σ.cdps 7 = some c ∧ CdpOk c ∧
    stake (envW PB 11) σ ⟨8, 5, some 7, [("WICC", 30000000)], WUSD, 10000000⟩ = .ok σ' ∧
    c.owed + 10000000 + uncovered (envW PB 11) σ ⟨8, 5, some 7, [("WICC", 30000000)], WUSD, 10000000⟩ < U64 := by
  obtain ⟨σ, h1, h2⟩ := hist_run (es := [])
    (f := fun σ => (find σ.cdps 7, uncovered (envW PB 11) σ ⟨8, 5, some 7, [("WICC", 30000000)], WUSD, 10000000⟩,
      match stake (envW PB 11) σ ⟨8, 5, some 7, [("WICC", 30000000)], WUSD, 10000000⟩ with
      | .ok _ => true
      | _ => false))
    (a := (some ⟨7, 5, 10, "WICC", WUSD, 190000000, 100000000⟩, 5, true)) (by simp) (by decide +kernel)
  simp only [Prod.mk.injEq] at h2
  cases hx : stake (envW PB 11) σ ⟨8, 5, some 7, [("WICC", 30000000)], WUSD, 10000000⟩ with
  | ok σ' => exact ⟨_, σ, σ', _, h1, h2.1, h1.inv.ok _ _ h2.1, hx, by rw [h2.2.1]; decide⟩
  | fail => rw [hx] at h2; simp at h2
  | crash => rw [hx] at h2; simp at h2

end Verif.Cdp
