import Verif.Gov.Lemmas

/-!
# Lemmas about the parameters governance sets
-/
namespace Verif.Gov

variable {σ : Type}

/-- Everything governance stores besides proposals and approvals is the same. -/
structure SameParams (a b : State σ) : Prop where
  sys : a.sys = b.sys
  cdp : a.cdp = b.cdp
  fee : a.fee = b.fee
  changes : a.changes = b.changes
  govs : a.govs = b.govs
  bpCur : a.bpCur = b.bpCur
  bpNew : a.bpNew = b.bpNew

theorem noted_same (st : State σ) (id : Nat) (r : RegId) : SameParams (noted st id r) st :=
  ⟨rfl, rfl, rfl, rfl, rfl, rfl, rfl⟩

/-- A step either leaves the parameters and the log alone, or it executes one proposal that passed its check. -/
theorem step_effect (cfg : Cfg) (st : State σ) (e : Ev σ) :
    ((step cfg st e).log = st.log ∧ SameParams (step cfg st e) st) ∨
    ∃ ctx id r p s, e = .approve ctx id r ∧ st.proposals id = some p ∧
      check cfg ctx (noted st id r) false p.kind = true ∧
      exec cfg ctx (noted st id r) p.kind = some s ∧
      step cfg st e = { s with log := st.log ++ [⟨id, ctx.height, p.kind⟩] } := by
  cases e with
  | elect l => exact Or.inl ⟨rfl, ⟨rfl, rfl, rfl, rfl, rfl, rfl, rfl⟩⟩
  | outside l => exact Or.inl ⟨rfl, ⟨rfl, rfl, rfl, rfl, rfl, rfl, rfl⟩⟩
  | request ctx id k =>
    left
    cases hr : request cfg ctx st id k with
    | none => simp only [step, hr, Option.getD_none, true_and]; exact ⟨rfl, rfl, rfl, rfl, rfl, rfl, rfl⟩
    | some st' =>
      obtain ⟨n, s', _, _, he⟩ := request_spec hr
      simp only [step, hr, Option.getD_some]
      subst he
      exact ⟨rfl, rfl, rfl, rfl, rfl, rfl, rfl, rfl⟩
  | approve ctx id r =>
    cases hr : approve cfg ctx st id r with
    | none => simp only [step, hr, Option.getD_none, true_and]; exact Or.inl ⟨rfl, rfl, rfl, rfl, rfl, rfl, rfl⟩
    | some st' =>
      simp only [step, hr, Option.getD_some]
      obtain ⟨p, hp, _, _, _, _, hcase⟩ := approve_spec.mp hr
      rcases hcase with ⟨_, rfl⟩ | ⟨_, hc, s, hs, rfl⟩
      · exact Or.inl ⟨rfl, noted_same st id r⟩
      · right
        refine ⟨ctx, id, r, p, s, rfl, hp, hc, hs, ?_⟩
        obtain ⟨_, _, _, hl⟩ := exec_frame hs
        have : s.log = st.log := hl
        rw [this]

/-! ## Values as set -/

/-- The value a list of settings gives to `k`: the last one, else what it was. -/
def lastIn (k : Nat) : Option Nat → List (Nat × Nat) → Option Nat
  | acc, [] => acc
  | acc, (q, v) :: r => lastIn k (if q = k then some v else acc) r

theorem setSys_sys (k : Nat) (ps : List (Nat × Nat)) : ∀ st : State σ, (setSys st ps).sys k = lastIn k (st.sys k) ps := by
  induction ps with
  | nil => intro st; rfl
  | cons e r ih =>
    intro st
    obtain ⟨q, v⟩ := e
    simp only [setSys, ih, lastIn]
    by_cases h : q = k
    · subst h; simp
    · rw [if_neg h, if_neg (Ne.symm h)]

theorem setCdp_cdp (h : Nat) (p p' : Pair) (k : Nat) (ps : List (Nat × Nat)) : ∀ st : State σ,
    (setCdp h p st ps).cdp p' k = if p' = p then lastIn k (st.cdp p k) ps else st.cdp p' k := by
  induction ps with
  | nil =>
    intro st
    simp only [setCdp, lastIn]
    by_cases hp : p' = p
    · rw [if_pos hp, hp]
    · rw [if_neg hp]
  | cons e r ih =>
    intro st
    obtain ⟨q, v⟩ := e
    simp only [setCdp, ih, lastIn]
    generalize hs : ({ st with cdp := fun p' q' => if p' = p ∧ q' = q then some v else st.cdp p' q' } : State σ) = st1
    have hcdp : (if q = 10 ∨ q = 11 then setInterest st1 p q h v else st1).cdp = st1.cdp := by
      split
      · exact (setInterest_frame st1 p q h v).2.2.2.2.1
      · rfl
    rw [hcdp]
    subst hs
    by_cases hp : p' = p
    · rw [if_pos hp, if_pos hp]
      congr 1
      by_cases hq : q = k
      · simp [hq]
      · rw [if_neg hq]
        exact if_neg (fun hh => hq hh.2.symm)
    · rw [if_neg hp, if_neg hp]
      exact if_neg (fun hh => hp hh.1)

theorem lastIn_mem {k : Nat} {v : Nat} : ∀ {ps : List (Nat × Nat)} {acc : Option Nat},
    lastIn k acc ps = some v → (k, v) ∈ ps ∨ acc = some v := by
  intro ps
  induction ps with
  | nil => intro acc h; exact Or.inr h
  | cons e r ih =>
    intro acc h
    obtain ⟨q, w⟩ := e
    simp only [lastIn] at h
    rcases ih h with h' | h'
    · exact Or.inl (List.mem_cons_of_mem _ h')
    · by_cases hq : q = k
      · rw [if_pos hq] at h'
        cases h'
        subst hq
        exact Or.inl (by simp)
      · rw [if_neg hq] at h'
        exact Or.inr h'

theorem lastIn_not_mem {k : Nat} : ∀ {ps : List (Nat × Nat)} {acc : Option Nat},
    (∀ e ∈ ps, e.1 ≠ k) → lastIn k acc ps = acc := by
  intro ps
  induction ps with
  | nil => intro acc _; rfl
  | cons e r ih =>
    intro acc h
    obtain ⟨q, w⟩ := e
    simp only [lastIn]
    rw [if_neg (h (q, w) (by simp))]
    exact ih (fun e he => h e (List.mem_cons_of_mem _ he))

theorem lastIn_isSome {k : Nat} : ∀ {ps : List (Nat × Nat)} {acc : Option Nat},
    (∃ v, (k, v) ∈ ps) → ∃ v, (k, v) ∈ ps ∧ lastIn k acc ps = some v := by
  intro ps
  induction ps with
  | nil => rintro acc ⟨v, hv⟩; cases hv
  | cons e r ih =>
    rintro acc ⟨v, hv⟩
    obtain ⟨q, w⟩ := e
    simp only [lastIn]
    by_cases hr : ∃ v, (k, v) ∈ r
    · obtain ⟨u, hu, hl⟩ := ih (acc := if q = k then some w else acc) hr
      exact ⟨u, List.mem_cons_of_mem _ hu, hl⟩
    · have hq : q = k := by
        rcases List.mem_cons.mp hv with h | h
        · exact (congrArg Prod.fst h).symm
        · exact absurd ⟨v, h⟩ hr
      subst hq
      refine ⟨w, by simp, ?_⟩
      rw [if_pos rfl]
      exact lastIn_not_mem (fun e he heq => hr ⟨e.2, by rw [← heq]; exact he⟩)

/-! ## The stored values are those the executed proposals set -/

/-- The value the executed proposals gave to a system parameter. -/
def sysSet (k : Nat) (log : List Done) : Option Nat :=
  log.foldl (fun acc d => match d.kind with | .sysParam ps => lastIn k acc ps | _ => acc) none

/-- … to a CDP parameter of a pair. -/
def cdpSet (p : Pair) (k : Nat) (log : List Done) : Option Nat :=
  log.foldl (fun acc d => match d.kind with
    | .cdpParam p' ps => if p = p' then lastIn k acc ps else acc
    | _ => acc) none

/-- … to a miner fee. -/
def feeSet (t : Nat) (q : String) (log : List Done) : Option Nat :=
  log.foldl (fun acc d => match d.kind with
    | .minerFee t' q' v => if t = t' ∧ q = q' then some v else acc
    | _ => acc) none

theorem stored_sys (cfg : Cfg) (ds : List RegId) (s : σ) (k : Nat) (evs : List (Ev σ)) :
    (run cfg (genesis ds s) evs).sys k = sysSet k (run cfg (genesis ds s) evs).log := by
  induction evs using List.reverseRecOn with
  | nil => rfl
  | append_singleton evs e ih =>
    rw [run_snoc]
    generalize run cfg (genesis ds s) evs = st at ih ⊢
    rcases step_effect cfg st e with ⟨hl, hs⟩ | ⟨ctx, id, r, p, s', _, _, _, hx, he⟩
    · rw [hl, hs.sys]; exact ih
    · rw [he]
      simp only [sysSet, List.foldl_append, List.foldl_cons, List.foldl_nil] at ih ⊢
      rw [← ih]
      cases hk : p.kind with
      | sysParam ps =>
        rw [hk] at hx; simp only [exec, Option.some.injEq] at hx; subst hx
        exact setSys_sys k ps _
      | bpmc r op =>
        rw [hk] at hx; simp only [exec] at hx
        split at hx
        · cases hx; rfl
        · split at hx
          · cases hx; rfl
          · cases hx
      | bpSize n eff => rw [hk] at hx; simp only [exec, Option.some.injEq] at hx; subst hx; rfl
      | minerFee t q v => rw [hk] at hx; simp only [exec, Option.some.injEq] at hx; subst hx; rfl
      | cdpParam pr ps =>
        rw [hk] at hx; simp only [exec, Option.some.injEq] at hx; subst hx
        rw [(setCdp_frame _ _ _ _).2.2.2.2.2.1]; rfl
      | other d a t =>
        rw [hk] at hx; simp only [exec, Option.map_eq_some_iff] at hx
        obtain ⟨r, _, hx⟩ := hx; subst hx; rfl

theorem stored_cdp (cfg : Cfg) (ds : List RegId) (s : σ) (pr : Pair) (k : Nat) (evs : List (Ev σ)) :
    (run cfg (genesis ds s) evs).cdp pr k = cdpSet pr k (run cfg (genesis ds s) evs).log := by
  induction evs using List.reverseRecOn with
  | nil => rfl
  | append_singleton evs e ih =>
    rw [run_snoc]
    generalize run cfg (genesis ds s) evs = st at ih ⊢
    rcases step_effect cfg st e with ⟨hl, hs⟩ | ⟨ctx, id, r, p, s', _, _, _, hx, he⟩
    · rw [hl, hs.cdp]; exact ih
    · rw [he]
      simp only [cdpSet, List.foldl_append, List.foldl_cons, List.foldl_nil] at ih ⊢
      rw [← ih]
      cases hk : p.kind with
      | sysParam ps =>
        rw [hk] at hx; simp only [exec, Option.some.injEq] at hx; subst hx
        rw [(setSys_frame ps _).2.2.2.2.1]; rfl
      | bpmc r op =>
        rw [hk] at hx; simp only [exec] at hx
        split at hx
        · cases hx; rfl
        · split at hx
          · cases hx; rfl
          · cases hx
      | bpSize n eff => rw [hk] at hx; simp only [exec, Option.some.injEq] at hx; subst hx; rfl
      | minerFee t q v => rw [hk] at hx; simp only [exec, Option.some.injEq] at hx; subst hx; rfl
      | cdpParam p' ps =>
        rw [hk] at hx; simp only [exec, Option.some.injEq] at hx; subst hx
        dsimp only
        rw [setCdp_cdp]
        by_cases hp : pr = p'
        · rw [if_pos hp, if_pos hp, hp]; rfl
        · rw [if_neg hp, if_neg hp]; rfl
      | other d a t =>
        rw [hk] at hx; simp only [exec, Option.map_eq_some_iff] at hx
        obtain ⟨r, _, hx⟩ := hx; subst hx; rfl

theorem stored_fee (cfg : Cfg) (ds : List RegId) (s : σ) (t : Nat) (q : String) (evs : List (Ev σ)) :
    (run cfg (genesis ds s) evs).fee t q = feeSet t q (run cfg (genesis ds s) evs).log := by
  induction evs using List.reverseRecOn with
  | nil => rfl
  | append_singleton evs e ih =>
    rw [run_snoc]
    generalize run cfg (genesis ds s) evs = st at ih ⊢
    rcases step_effect cfg st e with ⟨hl, hs⟩ | ⟨ctx, id, r, p, s', _, _, _, hx, he⟩
    · rw [hl, hs.fee]; exact ih
    · rw [he]
      simp only [feeSet, List.foldl_append, List.foldl_cons, List.foldl_nil] at ih ⊢
      rw [← ih]
      cases hk : p.kind with
      | sysParam ps =>
        rw [hk] at hx; simp only [exec, Option.some.injEq] at hx; subst hx
        rw [(setSys_frame ps _).2.2.2.2.2.1]; rfl
      | bpmc r op =>
        rw [hk] at hx; simp only [exec] at hx
        split at hx
        · cases hx; rfl
        · split at hx
          · cases hx; rfl
          · cases hx
      | bpSize n eff => rw [hk] at hx; simp only [exec, Option.some.injEq] at hx; subst hx; rfl
      | minerFee t' q' v => rw [hk] at hx; simp only [exec, Option.some.injEq] at hx; subst hx; rfl
      | cdpParam p' ps =>
        rw [hk] at hx; simp only [exec, Option.some.injEq] at hx; subst hx
        rw [(setCdp_frame _ _ _ _).2.2.2.2.1]; rfl
      | other d a t =>
        rw [hk] at hx; simp only [exec, Option.map_eq_some_iff] at hx
        obtain ⟨r, _, hx⟩ := hx; subst hx; rfl

/-- A miner fee that was set is not zero. -/
theorem fee_not_zero (cfg : Cfg) (ds : List RegId) (s : σ) (t : Nat) (q : String) (evs : List (Ev σ)) (v : Nat)
    (h : (run cfg (genesis ds s) evs).fee t q = some v) : v ≠ 0 := by
  induction evs using List.reverseRecOn generalizing v with
  | nil => cases h
  | append_singleton evs e ih =>
    rw [run_snoc] at h
    generalize run cfg (genesis ds s) evs = st at ih h
    rcases step_effect cfg st e with ⟨hl, hs⟩ | ⟨ctx, id, r, p, s', _, _, hc, hx, he⟩
    · rw [hs.fee] at h; exact ih v h
    · rw [he] at h
      cases hk : p.kind with
      | sysParam ps =>
        rw [hk] at hx; simp only [exec, Option.some.injEq] at hx; subst hx
        rw [show ({ setSys (noted st id r) ps with log := st.log ++ [_] } : State σ).fee = st.fee from
          (setSys_frame ps _).2.2.2.2.2.1] at h
        exact ih v h
      | bpmc r op =>
        rw [hk] at hx; simp only [exec] at hx
        split at hx
        · cases hx; exact ih v h
        · split at hx
          · cases hx; exact ih v h
          · cases hx
      | bpSize n eff => rw [hk] at hx; simp only [exec, Option.some.injEq] at hx; subst hx; exact ih v h
      | minerFee t' q' w =>
        rw [hk] at hx hc; simp only [exec, Option.some.injEq] at hx; subst hx
        simp only [check, Bool.and_eq_true, decide_eq_true_eq] at hc
        dsimp only at h
        split at h
        · cases h; exact hc.2
        · exact ih v h
      | cdpParam p' ps =>
        rw [hk] at hx; simp only [exec, Option.some.injEq] at hx; subst hx
        rw [show ({ setCdp ctx.height p' (noted st id r) ps with log := st.log ++ [_] } : State σ).fee = st.fee from
          (setCdp_frame _ _ _ _).2.2.2.2.1] at h
        exact ih v h
      | other d a t =>
        rw [hk] at hx; simp only [exec, Option.map_eq_some_iff] at hx
        obtain ⟨r, _, hx⟩ := hx; subst hx; exact ih v h

/-! ## Ratios -/

/-- The four ratios of a pair are in order (values as they read). -/
def RatiosOrdered (st : State σ) (p : Pair) : Prop :=
  ∃ a b c d, getCdp st p 4 = some a ∧ getCdp st p 5 = some b ∧ getCdp st p 7 = some c ∧ getCdp st p 8 = some d ∧
    a > b ∧ b > c ∧ c * d ≥ 10000 * 10000

theorem getCdp_congr {a b : State σ} {p : Pair} {k : Nat} (h : a.cdp p k = b.cdp p k) : getCdp a p k = getCdp b p k := by
  unfold getCdp; rw [h]

theorem RatiosOrdered.congr {a b : State σ} {p : Pair} (h : a.cdp = b.cdp) (hb : RatiosOrdered b p) :
    RatiosOrdered a p := by
  obtain ⟨x, y, z, w, h1, h2, h3, h4, h5⟩ := hb
  refine ⟨x, y, z, w, ?_, ?_, ?_, ?_, h5⟩ <;> rw [getCdp_congr (b := b) (by rw [h])] <;> assumption

/-- The settings change at most one of the four ratios. -/
def OneRatio (ps : List (Nat × Nat)) : Prop :=
  ∃ k, ∀ e ∈ ps, (e.1 = 4 ∨ e.1 = 5 ∨ e.1 = 7 ∨ e.1 = 8) → e.1 = k

theorem range_bound {k v hi lo : Nat} (hf : find cdpRange k = some (lo, hi)) (hne : hi ≠ 0)
    (h : inRange cdpRange k v = true) : lo ≤ v ∧ v ≤ hi := by
  unfold inRange at h
  rw [hf] at h
  have hb : (hi == 0) = false := by simp [hne]
  simp only [hb, Bool.and_false, Bool.false_or, Bool.not_eq_true', Bool.or_eq_false_iff, decide_eq_false_iff_not] at h
  omega

/-- A list that changes at most one ratio and passes the check keeps the ratios in order. -/
theorem setCdp_ordered {st : State σ} {p q : Pair} {ps : List (Nat × Nat)} (h : Nat)
    (hall : ps.all (cdpEntryOk st p) = true) (h1 : OneRatio ps)
    (hmax : ∀ a b c d, getCdp st p 4 = some a → getCdp st p 5 = some b → getCdp st p 7 = some c →
      getCdp st p 8 = some d → c ≤ 20000 ∧ d ≤ 10000)
    (ho : ∀ q, RatiosOrdered st q) : RatiosOrdered (setCdp h p st ps) q := by
  by_cases hq : q = p
  · subst hq
    obtain ⟨k, hk⟩ := h1
    obtain ⟨a, b, c, d, ha, hb, hc, hd, ho1, ho2, ho3⟩ := ho q
    obtain ⟨hc20, hd10⟩ := hmax a b c d ha hb hc hd
    have hother : ∀ j, (j = 4 ∨ j = 5 ∨ j = 7 ∨ j = 8) → j ≠ k → getCdp (setCdp h q st ps) q j = getCdp st q j := by
      intro j hj hne
      apply getCdp_congr
      rw [setCdp_cdp, if_pos rfl]
      exact lastIn_not_mem (fun e he heq => hne (heq ▸ hk e he (heq ▸ hj)))
    by_cases hex : ∃ v, (k, v) ∈ ps ∧ (k = 4 ∨ k = 5 ∨ k = 7 ∨ k = 8)
    · obtain ⟨v0, hv0, hkk⟩ := hex
      obtain ⟨v, hv, hlast⟩ := lastIn_isSome (acc := st.cdp q k) ⟨v0, hv0⟩
      have hok := List.all_eq_true.mp hall (k, v) hv
      unfold cdpEntryOk at hok
      simp only [Bool.and_eq_true] at hok
      obtain ⟨⟨_, hrange⟩, hrel⟩ := hok
      rw [if_pos hkk] at hrel
      have hnew : v ≠ 0 → getCdp (setCdp h q st ps) q k = some v := by
        intro hv0
        unfold getCdp
        rw [setCdp_cdp, if_pos rfl, hlast]
        have hp : present (some v) = some v := by simp [present, hv0]
        rw [hp]
        rcases hkk with rfl | rfl | rfl | rfl <;> rfl
      rcases hkk with rfl | rfl | rfl | rfl
      · obtain ⟨hlo, hhi⟩ := range_bound (k := 4) (lo := 10000) (hi := 1000000) rfl (by decide) hrange
        simp only [ratioWith, hb, hc, hd] at hrel
        simp [ratiosOk, BOOST] at hrel
        rw [wmul_eq (by have := Nat.mul_le_mul hc20 hd10; unfold U64; omega)] at hrel
        exact ⟨v, b, c, d, hnew (by omega), (hother 5 (by simp) (by decide)).trans hb,
          (hother 7 (by simp) (by decide)).trans hc, (hother 8 (by simp) (by decide)).trans hd, by omega, by omega, ho3⟩
      · obtain ⟨hlo, hhi⟩ := range_bound (k := 5) (lo := 10000) (hi := 100000) rfl (by decide) hrange
        simp only [ratioWith, ha, hc, hd] at hrel
        simp [ratiosOk, BOOST] at hrel
        exact ⟨a, v, c, d, (hother 4 (by simp) (by decide)).trans ha, hnew (by omega),
          (hother 7 (by simp) (by decide)).trans hc, (hother 8 (by simp) (by decide)).trans hd, by omega, by omega, ho3⟩
      · obtain ⟨hlo, hhi⟩ := range_bound (k := 7) (lo := 0) (hi := 20000) rfl (by decide) hrange
        simp only [ratioWith, ha, hb, hd] at hrel
        simp [ratiosOk, BOOST] at hrel
        have hle := Nat.mul_le_mul hhi hd10
        rw [wmul_eq (by unfold U64; omega)] at hrel
        have hprod := of_decide_eq_false hrel.2
        have hvne : v ≠ 0 := by rintro rfl; simp at hprod
        exact ⟨a, b, v, d, (hother 4 (by simp) (by decide)).trans ha, (hother 5 (by simp) (by decide)).trans hb,
          hnew hvne, (hother 8 (by simp) (by decide)).trans hd, by omega, by omega, by omega⟩
      · obtain ⟨hlo, hhi⟩ := range_bound (k := 8) (lo := 0) (hi := 10000) rfl (by decide) hrange
        simp only [ratioWith, ha, hb, hc] at hrel
        simp [ratiosOk, BOOST] at hrel
        have hle := Nat.mul_le_mul hc20 hhi
        rw [wmul_eq (by unfold U64; omega)] at hrel
        have hprod := of_decide_eq_false hrel.2
        have hvne : v ≠ 0 := by rintro rfl; simp at hprod
        exact ⟨a, b, c, v, (hother 4 (by simp) (by decide)).trans ha, (hother 5 (by simp) (by decide)).trans hb,
          (hother 7 (by simp) (by decide)).trans hc, hnew hvne, by omega, by omega, by omega⟩
    · have hsame : ∀ j, (j = 4 ∨ j = 5 ∨ j = 7 ∨ j = 8) → getCdp (setCdp h q st ps) q j = getCdp st q j := by
        intro j hj
        by_cases hjk : j = k
        · apply getCdp_congr
          rw [setCdp_cdp, if_pos rfl]
          exact lastIn_not_mem (fun e he heq => hex ⟨e.2, by rw [← hjk, ← heq]; exact he, hjk ▸ hj⟩)
        · exact hother j hj hjk
      exact ⟨a, b, c, d, (hsame 4 (by simp)).trans ha, (hsame 5 (by simp)).trans hb, (hsame 7 (by simp)).trans hc,
        (hsame 8 (by simp)).trans hd, ho1, ho2, ho3⟩
  · obtain ⟨a, b, c, d, ha, hb, hc, hd, ho'⟩ := ho q
    have hsame : ∀ j, getCdp (setCdp h p st ps) q j = getCdp st q j := by
      intro j
      apply getCdp_congr
      rw [setCdp_cdp, if_neg hq]
    exact ⟨a, b, c, d, (hsame 4).trans ha, (hsame 5).trans hb, (hsame 7).trans hc, (hsame 8).trans hd, ho'⟩

/-- Force and discount ratios stay in their ranges. -/
def RatiosBounded (st : State σ) : Prop :=
  ∀ p, (∀ v, st.cdp p 7 = some v → v ≤ 20000) ∧ (∀ v, st.cdp p 8 = some v → v ≤ 10000)

theorem present_le {o : Option Nat} {d m : Nat} (hd : d ≤ m) (h : ∀ v, o = some v → v ≤ m) :
    (present o).getD d ≤ m := by
  cases o with
  | none => exact hd
  | some v =>
    unfold present
    dsimp only
    split
    · exact hd
    · exact h v rfl

theorem RatiosBounded.reads {st : State σ} (h : RatiosBounded st) (p : Pair) {c d : Nat}
    (hc : getCdp st p 7 = some c) (hd : getCdp st p 8 = some d) : c ≤ 20000 ∧ d ≤ 10000 := by
  obtain ⟨h7, h8⟩ := h p
  have e7 : getCdp st p 7 = some ((present (st.cdp p 7)).getD 10400) := rfl
  have e8 : getCdp st p 8 = some ((present (st.cdp p 8)).getD 9700) := rfl
  rw [e7] at hc
  rw [e8] at hd
  cases hc
  cases hd
  exact ⟨present_le (by decide) h7, present_le (by decide) h8⟩

theorem setCdp_bounded {st : State σ} {p : Pair} {ps : List (Nat × Nat)} (h : Nat)
    (hall : ps.all (cdpEntryOk st p) = true) (hb : RatiosBounded st) : RatiosBounded (setCdp h p st ps) := by
  have hrange : ∀ e ∈ ps, inRange cdpRange e.1 e.2 = true := by
    intro e he
    have := List.all_eq_true.mp hall e he
    unfold cdpEntryOk at this
    simp only [Bool.and_eq_true] at this
    exact this.1.2
  intro q
  constructor
  · intro v hv
    rw [setCdp_cdp] at hv
    split at hv
    · rename_i hq
      rcases lastIn_mem hv with h' | h'
      · exact (range_bound (k := 7) (lo := 0) (hi := 20000) rfl (by decide) (hrange _ h')).2
      · exact (hb p).1 v h'
    · exact (hb q).1 v hv
  · intro v hv
    rw [setCdp_cdp] at hv
    split at hv
    · rcases lastIn_mem hv with h' | h'
      · exact (range_bound (k := 8) (lo := 0) (hi := 10000) rfl (by decide) (hrange _ h')).2
      · exact (hb p).2 v h'
    · exact (hb q).2 v hv

/-- An executed proposal changes CDP parameters only if it is a CDP parameter proposal. -/
theorem exec_cdp {cfg : Cfg} {ctx : Ctx σ} {st s : State σ} {k : Kind} (h : exec cfg ctx st k = some s)
    (hk : ∀ p ps, k ≠ .cdpParam p ps) : s.cdp = st.cdp ∧ s.changes = st.changes := by
  cases k with
  | sysParam ps =>
    simp only [exec, Option.some.injEq] at h; subst h
    have := setSys_frame ps st
    exact ⟨this.2.2.2.2.1, this.2.2.2.2.2.2.1⟩
  | bpmc r op =>
    simp only [exec] at h
    split at h
    · cases h; simp
    · split at h
      · cases h; simp
      · cases h
  | bpSize n eff => simp only [exec, Option.some.injEq] at h; subst h; simp
  | minerFee t q v => simp only [exec, Option.some.injEq] at h; subst h; simp
  | cdpParam p ps => exact absurd rfl (hk p ps)
  | other d a t =>
    simp only [exec, Option.map_eq_some_iff] at h
    obtain ⟨r, _, h⟩ := h
    subst h; simp

theorem log_mono (cfg : Cfg) (st : State σ) (e : Ev σ) : ∀ d ∈ st.log, d ∈ (step cfg st e).log := by
  intro d hd
  rcases step_effect cfg st e with ⟨hl, _⟩ | ⟨_, _, _, _, _, _, _, _, _, he⟩
  · rw [hl]; exact hd
  · rw [he]; exact List.mem_append_left _ hd

theorem ratios_run (cfg : Cfg) (ds : List RegId) (s : σ) (evs : List (Ev σ)) :
    RatiosBounded (run cfg (genesis ds s) evs) ∧
    ((∀ d ∈ (run cfg (genesis ds s) evs).log, ∀ p ps, d.kind = .cdpParam p ps → OneRatio ps) →
      ∀ p, RatiosOrdered (run cfg (genesis ds s) evs) p) := by
  induction evs using List.reverseRecOn with
  | nil =>
    refine ⟨fun p => ⟨fun v h => by simp [run, genesis] at h, fun v h => by simp [run, genesis] at h⟩, fun _ p => ?_⟩
    exact ⟨19000, 15000, 10400, 9700, rfl, rfl, rfl, rfl, by decide, by decide, by decide⟩
  | append_singleton evs e ih =>
    rw [run_snoc]
    generalize run cfg (genesis ds s) evs = st at ih ⊢
    obtain ⟨ihb, iho⟩ := ih
    rcases step_effect cfg st e with ⟨hl, hs⟩ | ⟨ctx, id, r, p, s', _, _, hc, hx, he⟩
    · refine ⟨fun q => by rw [hs.cdp]; exact ihb q, fun h q => ?_⟩
      rw [hl] at h
      exact (iho h q).congr hs.cdp
    · by_cases hk : ∃ pr ps, p.kind = .cdpParam pr ps
      · obtain ⟨pr, ps, hk⟩ := hk
        rw [hk] at hx hc
        simp only [exec, Option.some.injEq] at hx
        simp only [check, Bool.and_eq_true] at hc
        subst hx
        have hbn : RatiosBounded (noted st id r) := ihb
        rw [he]
        refine ⟨fun q => setCdp_bounded ctx.height hc.2 hbn q, fun h q => ?_⟩
        have hone : OneRatio ps := h ⟨id, ctx.height, p.kind⟩ (by simp) pr ps hk
        have hst : ∀ q, RatiosOrdered (noted st id r) q := by
          intro q
          refine RatiosOrdered.congr (b := st) rfl (iho (fun d hd => h d ?_) q)
          exact List.mem_append_left _ hd
        have hfin := setCdp_ordered (q := q) ctx.height hc.2 hone
          (fun a b c d _ _ h7 h8 => hbn.reads pr h7 h8) hst
        exact hfin.congr rfl
      · have hk' : ∀ pr ps, p.kind ≠ .cdpParam pr ps := fun pr ps h => hk ⟨pr, ps, h⟩
        obtain ⟨hcdp, _⟩ := exec_cdp hx hk'
        have hcdp' : (step cfg st e).cdp = st.cdp := by rw [he]; exact hcdp
        refine ⟨fun q => by rw [hcdp']; exact ihb q, fun h q => ?_⟩
        exact (iho (fun d hd => h d (log_mono cfg st e d hd)) q).congr hcdp'

end Verif.Gov
