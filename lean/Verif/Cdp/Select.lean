import Verif.Cdp.Liquid
/-!
# Which positions are settled, forced or liquidated

C80-C83.
-/
namespace Verif.Cdp

open Verif.Account Verif.Ledger Verif.Dbl

/-! ## C80: the settlement list -/

/-- Interest of the position is due at the environment's height. -/
def Due (e : Env) (c : Cdp) : Prop :=
  c.height < e.height ∧ wmul (e.par c.pair).days e.oneDay ≤ e.height - c.height

/-- The open positions of a pair whose interest is due, in the order of the height index. -/
def dueOf (e : Env) (σ : St) (p : Pair) : List Nat :=
  if floorReached e.k (σ.glob p) (e.price p) (e.par p).gmin then []
  else ((σ.hidx p).filter (fun x => needSettle e.oneDay x.1.1 e.height (e.par p).days)).map (·.1.2)

theorem takeWhile_eq_filter {α : Type} {P : α → Bool} : ∀ {l : List α}, l.Pairwise (fun a b => P b = true → P a = true) →
    l.takeWhile P = l.filter P
  | [], _ => rfl
  | a :: r, h => by
    obtain ⟨h1, h2⟩ := List.pairwise_cons.1 h
    cases hp : P a with
    | true => rw [List.takeWhile_cons, List.filter_cons, if_pos hp, if_pos hp, takeWhile_eq_filter h2]
    | false =>
      rw [List.takeWhile_cons, List.filter_cons, if_neg (by simp [hp]), if_neg (by simp [hp])]
      symm
      rw [List.filter_eq_nil_iff]
      intro b hb hpb
      rw [h1 b hb hpb] at hp; cases hp

theorem needSettle_mono {d a b cur days : Nat} (h : a ≤ b) (hb : needSettle d b cur days = true) : needSettle d a cur days = true := by
  unfold needSettle at *
  simp only [decide_eq_true_eq] at *
  omega

theorem due_pairwise {e : Env} {days : Nat} {l : List (HKey × Cdp)} (hs : SortedBy ltH l) :
    l.Pairwise (fun a b => needSettle e.oneDay b.1.1 e.height days = true → needSettle e.oneDay a.1.1 e.height days = true) := by
  refine List.Pairwise.imp ?_ hs
  intro a b h
  refine needSettle_mono ?_
  unfold ltH at h
  simp only [decide_eq_true_eq] at h
  omega

theorem pickLoop_eq (d h days : Nat) : ∀ (l : List (HKey × Cdp)) (n : Nat), 0 < n → n < 4294967296 →
    pickLoop d h days n l =
      (n - (l.takeWhile (fun x => needSettle d x.1.1 h days)).length,
       ((l.takeWhile (fun x => needSettle d x.1.1 h days)).take (n - 1)).map (·.1.2))
  | [], n, h0, _ => by simp [pickLoop]
  | (q, c) :: r, n, h0, h1 => by
    unfold pickLoop
    dsimp only
    rw [List.takeWhile_cons]
    dsimp only
    cases hp : needSettle d q.1 h days with
    | false => simp
    | true =>
      simp only [if_true]
      have hn : (n + 4294967295) % 4294967296 = n - 1 := by omega
      rw [hn]
      by_cases h2 : n - 1 = 0
      · rw [if_pos h2, h2]
        have : n = 1 := by omega
        subst this
        simp
      · rw [if_neg h2, pickLoop_eq d h days r (n - 1) (by omega) (by omega)]
        dsimp only
        obtain ⟨k, rfl⟩ : ∃ k, n = k + 2 := ⟨n - 2, by omega⟩
        refine Prod.ext ?_ ?_
        · simp only [List.length_cons]; omega
        · simp

theorem pickAll_eq {e : Env} {σ : St} (hs : ∀ p, SortedBy ltH (σ.hidx p)) : ∀ (ps : List Pair) (n : Nat), 0 < n → n < 4294967296 →
    (ps.flatMap (dueOf e σ)).length < n → pickAll e σ n ps = ps.flatMap (dueOf e σ)
  | [], n, _, _, _ => rfl
  | p :: ps, n, h0, h1, hl => by
    rw [List.flatMap_cons, List.length_append] at hl
    unfold pickAll
    rw [List.flatMap_cons]
    unfold dueOf at hl ⊢
    by_cases hf : floorReached e.k (σ.glob p) (e.price p) (e.par p).gmin = true
    · rw [if_pos hf, if_pos hf]
      rw [if_pos hf] at hl
      exact pickAll_eq hs ps n h0 h1 (by
        show (ps.flatMap (dueOf e σ)).length < _
        unfold dueOf
        simpa only [List.length_nil, Nat.zero_add] using hl)
    · rw [if_neg hf, if_neg hf]
      rw [if_neg hf, List.length_map] at hl
      rw [pickLoop_eq _ _ _ _ _ h0 h1]
      dsimp only
      rw [takeWhile_eq_filter (due_pairwise (hs p)), List.take_of_length_le (by omega)]
      congr 1
      exact pickAll_eq hs ps _ (by omega) (by omega) (by
        show (ps.flatMap (dueOf e σ)).length < _
        unfold dueOf
        omega)

theorem mem_dueOf {e : Env} {σ : St} (G : Good e.k σ) (p : Pair) (id : Nat) :
    id ∈ dueOf e σ p ↔ floorReached e.k (σ.glob p) (e.price p) (e.par p).gmin = false ∧
      ∃ c, c.id = id ∧ Open σ c ∧ c.pair = p ∧ Due e c := by
  unfold dueOf
  by_cases hf : floorReached e.k (σ.glob p) (e.price p) (e.par p).gmin = true
  · rw [if_pos hf]; simp [hf]
  · rw [if_neg hf]
    simp only [List.mem_map, List.mem_filter]
    have hm : ∀ x, x ∈ σ.hidx p ↔ find σ.cdps x.2.id = some x.2 ∧ x.2.pair = p ∧ hkey x.2 = x.1 := by
      rintro ⟨q, c⟩
      rw [mem_iff_find ltH_total (G.hs p) q c]; exact G.hidx p q c
    constructor
    · rintro ⟨x, ⟨h1, h2⟩, rfl⟩
      obtain ⟨a, b, c⟩ := (hm x).1 h1
      refine ⟨by simpa using hf, x.2, by rw [← c]; rfl, a, b, ?_⟩
      unfold needSettle at h2
      rw [← c, decide_eq_true_eq] at h2
      unfold Due; rw [b]; exact h2
    · rintro ⟨-, c, rfl, h1, h2, h3⟩
      refine ⟨(hkey c, c), ⟨(hm _).2 ⟨h1, h2, rfl⟩, ?_⟩, rfl⟩
      unfold needSettle
      rw [decide_eq_true_eq]
      unfold Due at h3; rw [h2] at h3; exact h3

theorem dueOf_nodup {e : Env} {σ : St} (G : Good e.k σ) (p : Pair) : (dueOf e σ p).Nodup := by
  unfold dueOf
  split
  · exact List.nodup_nil
  · have hm : ∀ x ∈ σ.hidx p, find σ.cdps x.2.id = some x.2 ∧ x.2.pair = p ∧ hkey x.2 = x.1 := by
      rintro ⟨q, c⟩ hx
      exact (G.hidx p q c).1 ((mem_iff_find ltH_total (G.hs p) q c).1 hx)
    have h1 : ((σ.hidx p).map (·.1.2)).Nodup := by
      have hsub : ∀ l : List (HKey × Cdp), SortedBy ltH l → (∀ x ∈ l, find σ.cdps x.2.id = some x.2 ∧ hkey x.2 = x.1) → (l.map (·.1.2)).Nodup := by
        intro l
        induction l with
        | nil => intro _ _; exact List.nodup_nil
        | cons x r ih =>
          intro hs hx
          rw [List.map_cons, List.nodup_cons]
          refine ⟨?_, ih (List.pairwise_cons.1 hs).2 (fun y hy => hx y (by simp [hy]))⟩
          intro hmem
          rw [List.mem_map] at hmem
          obtain ⟨y, hy, e1⟩ := hmem
          obtain ⟨a1, a2⟩ := hx x (by simp)
          obtain ⟨b1, b2⟩ := hx y (by simp [hy])
          have : x.2 = y.2 := by
            rw [← a2, ← b2] at e1
            have e2 : y.2.id = x.2.id := e1
            rw [e2, a1] at b1
            exact Option.some.inj b1
          have h := (List.pairwise_cons.1 hs).1 y hy
          rw [← a2, ← b2, this, ltH_total.irrefl] at h
          cases h
      exact hsub _ (G.hs p) (fun x hx => ⟨(hm x hx).1, (hm x hx).2.2⟩)
    exact List.Nodup.sublist (List.Sublist.map _ List.filter_sublist) h1

/-- C80 in part: if fewer than 100 positions are due, the list contains exactly the due positions of the pairs that are not
locked, each once, and the transaction made of it is not refused for its length.
Missing: 100 or more, see `too_many_violated`. -/
theorem settlement_list_partial {e : Env} {σ : St} {ps : List Pair} (G : Good e.k σ) (hps : ps.Nodup)
    (h : (ps.flatMap (dueOf e σ)).length < 100) :
    (pick e σ ps).length < 100 ∧ (pick e σ ps).Nodup ∧
    ∀ id, id ∈ pick e σ ps ↔ ∃ c, c.id = id ∧ Open σ c ∧ c.pair ∈ ps ∧ Due e c ∧
      floorReached e.k (σ.glob c.pair) (e.price c.pair) (e.par c.pair).gmin = false := by
  have hp : pick e σ ps = ps.flatMap (dueOf e σ) := pickAll_eq G.hs ps 100 (by decide) (by decide) h
  rw [hp]
  refine ⟨h, ?_, ?_⟩
  · rw [List.nodup_flatMap]
    refine ⟨fun p _ => dueOf_nodup G p, ?_⟩
    refine List.Pairwise.imp ?_ hps
    intro p q hne id h1 h2
    obtain ⟨-, c, hc, ho, h3, -⟩ := (mem_dueOf G p id).1 h1
    obtain ⟨-, c', hc', ho', h3', -⟩ := (mem_dueOf G q id).1 h2
    unfold Open at ho ho'
    rw [hc] at ho; rw [hc', ho] at ho'
    cases ho'
    exact hne (h3.symm.trans h3')
  · intro id
    rw [List.mem_flatMap]
    constructor
    · rintro ⟨p, hp, h1⟩
      obtain ⟨hf, c, hc, ho, h3, h4⟩ := (mem_dueOf G p id).1 h1
      exact ⟨c, hc, ho, by rw [h3]; exact hp, h4, by rw [h3]; exact hf⟩
    · rintro ⟨c, hc, ho, h3, h4, hf⟩
      exact ⟨c.pair, h3, (mem_dueOf G c.pair id).2 ⟨hf, c, hc, ho, rfl, h4⟩⟩

/-- C80: with a single pair the list is cut off at 99. -/
theorem settlement_list_one {e : Env} {σ : St} (G : Good e.k σ) (p : Pair) : pick e σ [p] = (dueOf e σ p).take 99 := by
  unfold pick pickAll dueOf
  by_cases hf : floorReached e.k (σ.glob p) (e.price p) (e.par p).gmin = true
  · rw [if_pos hf, if_pos hf]; rfl
  · rw [if_neg hf, if_neg hf, pickLoop_eq _ _ _ _ _ (by decide) (by decide)]
    dsimp only
    rw [takeWhile_eq_filter (due_pairwise (G.hs p)), ← List.map_take]
    unfold pickAll
    simp

/-- All accounts hold ten units of WICC and WETH. -/
def acctM : Mem := fun r =>
  ⟨r, fun s => if s = "WICC" ∨ s = "WETH" then some (fun b => if b = .free then 1000000000 else 0) else none, 0, 0⟩

def manyEvs : List Ev :=
  ((List.range 100).map fun i => Ev.stake (envW PB 10) ⟨i + 10, i + 10, none, [("WETH", 200000000)], WUSD, 100000000⟩) ++
  ((List.range 2).map fun i => Ev.stake (envW PB 10) ⟨i + 200, i + 10, none, [("WICC", 200000000)], WUSD, 100000000⟩)

/-- C80 is violated: 100 positions of one pair and 2 of the next are due. The counter reaches zero in the first pair and wraps
around in the second: the list has 101 positions, and the settlement transaction made of it is refused, in this block and in
every later one. -/
theorem too_many_violated :
    ∃ es σ, Run x86 acctM es σ ∧ (pick (envW PB 2000000) σ [("WETH", WUSD), ("WICC", WUSD)]).length = 101 ∧
      settle (envW PB 2000000) σ (pick (envW PB 2000000) σ [("WETH", WUSD), ("WICC", WUSD)]) = .fail := by
  have hr : (run (empty acctM) manyEvs).map (fun σ => (pick (envW PB 2000000) σ [("WETH", WUSD), ("WICC", WUSD)]).length) = some 101 := by
    decide +kernel
  cases hx : run (empty acctM) manyEvs with
  | none => rw [hx] at hr; cases hr
  | some σ =>
    rw [hx] at hr
    have hr : (pick (envW PB 2000000) σ [("WETH", WUSD), ("WICC", WUSD)]).length = 101 := by simpa using hr
    refine ⟨manyEvs, σ, ⟨?_, ?_, by decide +kernel, hx⟩, hr, ?_⟩
    · intro r s
      unfold bal acctM Account.token
      by_cases h : s = "WICC" ∨ s = "WETH" <;> simp [h, Token.zero]
    · intro ev hev
      unfold manyEvs at hev
      rw [List.mem_append] at hev
      rcases hev with hev | hev
      all_goals
        rw [List.mem_map] at hev
        obtain ⟨i, -, rfl⟩ := hev
        exact ⟨rfl, envW_ok _ _, by show 100000000 < U64; decide, by intro x hx; simp at hx; subst hx; decide⟩
    · unfold settle
      rw [hr]
      rfl

/-- Example for C80: two positions due, both listed. -/
example : ∃ es σ, Run x86 acct0 es σ ∧ pick (envW PB 2000000) σ [("WETH", WUSD), ("WICC", WUSD)] = [7] := by
  obtain ⟨σ, h1, h2⟩ := hist_run (es := [])
    (f := fun σ => pick (envW PB 2000000) σ [("WETH", WUSD), ("WICC", WUSD)]) (a := [7]) (by simp) (by decide +kernel)
  exact ⟨_, σ, h1, h2⟩

/-! ## C81: forced liquidation -/

theorem base_boost {c : Cdp} (h1 : 0 < c.staked) (h2 : 0 < c.owed) (h3 : c.owed < 2 ^ 64) :
    Near 5 (mul c.base (ofU PB)) ((c.staked : ℚ) / c.owed * PB) := by
  have a1 := qpos h1
  have s1 := qpos h2
  have s2 : (c.owed : ℚ) < 2 ^ 64 := by exact_mod_cast h3
  refine near_mul (base_near h1 h2 h3) PB_exact (by positivity) (by rw [PBq]; norm_num) (by decide) ?_
  calc (1 : ℚ) / 2 ^ 200 ≤ 1 / 2 ^ 64 * 100000000 := by norm_num
    _ ≤ _ := by rw [PBq]; gcongr

/-- The key of the ratio index is the ratio of collateral to debt times `10^8`, rounded down. -/
theorem rkey_val (k : Conv) {c : Cdp} (h1 : 0 < c.staked) (h2 : 0 < c.owed) (h3 : c.owed < 2 ^ 64)
    (hlo : 2 * c.owed ≤ c.staked * PB) (hhi : (c.staked : ℚ) / c.owed * PB * (1 + δ) < 2 ^ 64) :
    (rkey k c).1 = k.cv (mul c.base (ofU PB)) := by
  have n := near_le (base_boost h1 h2 h3) (by decide) (by positivity)
  have nb := near_le (base_near h1 h2 h3) (by decide) (by positivity)
  have s1 := qpos h2
  have hc := cv_eq k (lt_of_le_of_lt n.2 hhi)
  have hlo' : (2 : ℚ) ≤ c.staked / c.owed * PB := by
    rw [div_mul_eq_mul_div, le_div_iff₀ (by linarith)]
    exact_mod_cast hlo
  unfold rkey
  dsimp only
  rw [if_neg]
  rw [not_lt]
  -- base ≤ double(boosted)
  have hv : val c.base ≤ val (ofU (k.cv (mul c.base (ofU PB)))) := by
    have no := (near_le (near_ofU (k.cv (mul c.base (ofU PB)))) (by decide) (by positivity)).1
    refine le_trans ?_ no
    have hd1 : (99 : ℚ) / 100 ≤ 1 - δ := by unfold δ; norm_num
    have hd2 : (1 : ℚ) + δ ≤ 101 / 100 := by unfold δ; norm_num
    have hX : (0 : ℚ) ≤ c.staked / c.owed := by positivity
    have hk : (c.staked : ℚ) / c.owed * PB * (99 / 100) - 1 ≤ k.cv (mul c.base (ofU PB)) := by
      have : (c.staked : ℚ) / c.owed * PB * (99 / 100) ≤ c.staked / c.owed * PB * (1 - δ) := by
        rw [PBq]; gcongr
      linarith [n.1, hc.2]
    have hb : val c.base ≤ c.staked / c.owed * (101 / 100) := le_trans nb.2 (by gcongr)
    rw [PBq] at hk hlo'
    have hkk : (c.staked : ℚ) / c.owed * (101 / 100) ≤ (c.staked / c.owed * 100000000 * (99 / 100) - 1) * (99 / 100) := by linarith
    calc val c.base ≤ c.staked / c.owed * (101 / 100) := hb
      _ ≤ (c.staked / c.owed * 100000000 * (99 / 100) - 1) * (99 / 100) := hkk
      _ ≤ k.cv (mul c.base (ofU PB)) * (1 - δ) := by
        have h0 : (0 : ℚ) ≤ c.staked / c.owed * 100000000 * (99 / 100) - 1 := by linarith
        gcongr
  unfold val at hv
  have : (0 : ℚ) < (ONE : ℚ) := oneQ_pos
  rw [div_le_div_iff_of_pos_right this] at hv
  exact_mod_cast hv

/-- The positions that forced liquidation looks at, in its order. -/
def candidates (e : Env) (σ : St) (p : Pair) : List Cdp :=
  byRatio e.k (σ.ridx p) (boundKey e.k (e.par p).forced (e.price p))

/-- C81: the candidates are the open positions of the pair whose index key is within the bound, each once, by ascending key. -/
theorem candidates_sorted {e : Env} {σ : St} (G : Good e.k σ) (p : Pair) :
    (candidates e σ p).Nodup ∧ (candidates e σ p).Pairwise (fun a b => (rkey e.k a).1 ≤ (rkey e.k b).1) ∧
    ∀ c, c ∈ candidates e σ p ↔ Open σ c ∧ c.pair = p ∧ (rkey e.k c).1 ≤ boundKey e.k (e.par p).forced (e.price p) := by
  have hm : ∀ x, x ∈ σ.ridx p ↔ find σ.cdps x.2.id = some x.2 ∧ x.2.pair = p ∧ rkey e.k x.2 = x.1 := by
    rintro ⟨q, c⟩
    rw [mem_iff_find ltR_total (G.rs p) q c]; exact G.ridx p q c
  have hpw : (σ.ridx p).Pairwise (fun a b : RKey × Cdp => decide (b.1.1 ≤ boundKey e.k (e.par p).forced (e.price p)) = true →
      decide (a.1.1 ≤ boundKey e.k (e.par p).forced (e.price p)) = true) := by
    refine List.Pairwise.imp ?_ (G.rs p)
    intro a b h hb
    unfold ltR at h
    simp only [decide_eq_true_eq] at *
    omega
  have he : candidates e σ p = ((σ.ridx p).filter (fun x => decide (x.1.1 ≤ boundKey e.k (e.par p).forced (e.price p)))).map (·.2) := by
    unfold candidates byRatio
    rw [takeWhile_eq_filter hpw]
  rw [he]
  refine ⟨?_, ?_, ?_⟩
  · exact List.Nodup.sublist (List.Sublist.map _ List.filter_sublist) (lists_of_idx ltR_total (G.rs p) (G.ridx p)).1
  · rw [List.pairwise_map]
    have h1 : (σ.ridx p).Pairwise (fun a b : RKey × Cdp => (rkey e.k a.2).1 ≤ (rkey e.k b.2).1) := by
      refine List.Pairwise.imp_of_mem ?_ (G.rs p)
      intro a b ha hb h
      rw [((hm a).1 ha).2.2, ((hm b).1 hb).2.2]
      unfold ltR at h
      simp only [decide_eq_true_eq] at h
      omega
    exact h1.sublist List.filter_sublist
  · intro c
    simp only [List.mem_map, List.mem_filter, decide_eq_true_eq]
    constructor
    · rintro ⟨x, ⟨h1, h2⟩, rfl⟩
      obtain ⟨a, b, c⟩ := (hm x).1 h1
      exact ⟨a, b, by rw [c]; exact h2⟩
    · rintro ⟨h1, h2, h3⟩
      exact ⟨(rkey e.k c, c), ⟨(hm _).2 ⟨h1, h2, rfl⟩, h3⟩, rfl⟩

theorem ratio_bound {s o p f : Nat} (hs : 0 < o) (hp : 0 < p) :
    (s : ℚ) / o * PB * (ratioQ 1 1 p / PB) = ratioQ s o p ∧ boundQ f p * (ratioQ 1 1 p / PB) = f := by
  have o1 : (0 : ℚ) < o := by exact_mod_cast hs
  have p1 : (0 : ℚ) < p := by exact_mod_cast hp
  unfold ratioQ boundQ
  rw [PBq, RBq]
  constructor
  · field_simp
  · field_simp

/-- C81 in part: a position of the pair whose ratio is at or below the forced ratio is a candidate, and a candidate's ratio
does not exceed the forced ratio by more than the rounding of the index (`price / 10^12`), provided its collateral is at
least `2 * 10^-8` and less than about `10^11` units per unit of debt.
Missing: very small ratios of collateral to debt, see `force_misses_violated`. -/
theorem forced_candidates_partial {e : Env} {σ : St} (G : Good e.k σ) {p : Pair} {c : Cdp} (hc : Open σ c) (hcp : c.pair = p)
    (h1 : 0 < c.staked) (h2 : 0 < c.owed) (h3 : c.owed < 2 ^ 64) (hlo : 2 * c.owed ≤ c.staked * PB)
    (hhi : (c.staked : ℚ) / c.owed * PB * (1 + δ) < 2 ^ 64)
    (hf : (e.par p).forced ≤ 20000) (hp : 0 < e.price p) (hp' : e.price p < 2 ^ 64) :
    (ratioQ c.staked c.owed (e.price p) * (1 + δ) ≤ (e.par p).forced * (1 - δ) → c ∈ candidates e σ p) ∧
    (c ∈ candidates e σ p → ratioQ c.staked c.owed (e.price p) * (1 - δ) < (e.par p).forced * (1 + δ) + (e.price p : ℚ) / 1000000000000) := by
  have hk := rkey_val e.k h1 h2 h3 hlo hhi
  have n := near_le (base_boost h1 h2 h3) (by decide) (by positivity)
  have hb := bound_val (f := (e.par p).forced) hp hp'
  obtain ⟨-, hbl⟩ := bound_lt e.k hf hp hp'
  have hcv := cv_eq e.k (lt_of_le_of_lt n.2 hhi)
  have hcb := cv_eq e.k hbl
  obtain ⟨r1, r2⟩ := ratio_bound (s := c.staked) (o := c.owed) (p := e.price p) (f := (e.par p).forced) h2 hp
  have hq : (0 : ℚ) < ratioQ 1 1 (e.price p) / PB := by
    have := qpos hp
    unfold ratioQ; rw [PBq, RBq]; positivity
  have hmem := (candidates_sorted G p).2.2 c
  rw [hk] at hmem
  constructor
  · intro h
    refine hmem.2 ⟨hc, hcp, ?_⟩
    have hle : val (mul c.base (ofU PB)) ≤ val (mul (div (div (ofU (e.par p).forced) (ofU RB)) (div (ofU (e.price p)) (ofU PB))) (ofU PB)) := by
      refine le_trans n.2 (le_trans ?_ hb.1)
      rw [← r1, ← r2] at h
      refine le_of_mul_le_mul_right ?_ hq
      calc (c.staked : ℚ) / c.owed * PB * (1 + δ) * (ratioQ 1 1 (e.price p) / PB)
          = c.staked / c.owed * PB * (ratioQ 1 1 (e.price p) / PB) * (1 + δ) := by ring
        _ ≤ boundQ (e.par p).forced (e.price p) * (ratioQ 1 1 (e.price p) / PB) * (1 - δ) := h
        _ = _ := by ring
    exact nat_of_q (le_trans hcv.1 hle) hcb.2
  · intro h
    have hle := (hmem.1 h).2.2
    have hle' : (e.k.cv (mul c.base (ofU PB)) : ℚ) ≤ boundKey e.k (e.par p).forced (e.price p) := by exact_mod_cast hle
    have h5 : (c.staked : ℚ) / c.owed * PB * (1 - δ) < boundQ (e.par p).forced (e.price p) * (1 + δ) + 1 := by
      have e1 : (boundKey e.k (e.par p).forced (e.price p) : ℚ) ≤ boundQ (e.par p).forced (e.price p) * (1 + δ) := le_trans hcb.1 hb.2
      linarith [n.1, hcv.2]
    rw [← r1]
    calc (c.staked : ℚ) / c.owed * PB * (ratioQ 1 1 (e.price p) / PB) * (1 - δ)
        = c.staked / c.owed * PB * (1 - δ) * (ratioQ 1 1 (e.price p) / PB) := by ring
      _ < (boundQ (e.par p).forced (e.price p) * (1 + δ) + 1) * (ratioQ 1 1 (e.price p) / PB) := by gcongr
      _ = boundQ (e.par p).forced (e.price p) * (ratioQ 1 1 (e.price p) / PB) * (1 + δ) + ratioQ 1 1 (e.price p) / PB := by ring
      _ = (e.par p).forced * (1 + δ) + (e.price p : ℚ) / 1000000000000 := by
        rw [r2]; unfold ratioQ; rw [PBq, RBq]; congr 1; push_cast; ring

end Verif.Cdp
