import Verif.Price.Inv
import Mathlib.Tactic.FinCases

/-!
# Theorems: medians (C39), the price window (C40), agreement of nodes (C77), feed heights (C78)
-/
namespace Verif.Price

/-! ## C39: the median -/

/-- The median of a list: with the list in order, the element in the middle, or half the sum of the two in the middle (rounded down)
as long as that sum has 64 bits. -/
theorem median_characterised (l : List Nat) (hl : l ≠ []) : ∃ A B a b,
    ((a = b ∧ l.Perm (A ++ a :: B) ∧ medianNumber l = a) ∨
      (l.Perm (A ++ a :: b :: B) ∧ (a + b < 2 ^ 64 → medianNumber l = (a + b) / 2))) ∧
    A.length = B.length ∧ (∀ x ∈ A, x ≤ a) ∧ a ≤ b ∧ ∀ y ∈ B, b ≤ y := by
  have hs := sort_sorted l
  have hp := sort_perm l
  have hn := sort_length l
  have hpos := List.length_pos_iff.2 hl
  generalize hS : sort l = s at *
  have hget : ∀ i (h : i < s.length), s.getD i 0 = s[i] := fun i h => by simp [h]
  have hmono := List.pairwise_iff_getElem.1 hs
  by_cases hodd : l.length % 2 = 1
  · have hi : l.length / 2 < s.length := by omega
    refine ⟨s.take (l.length / 2), s.drop (l.length / 2 + 1), s[l.length / 2], s[l.length / 2], Or.inl ⟨rfl, ?_, ?_⟩, ?_, ?_, le_refl _, ?_⟩
    · have e : s.take (l.length / 2) ++ s[l.length / 2] :: s.drop (l.length / 2 + 1) = s := by
        rw [List.getElem_cons_drop, List.take_append_drop]
      rw [e]; exact hp.symm
    · unfold medianNumber
      by_cases h1 : l.length < 2
      · rw [if_pos h1]
        match l, hl, h1 with
        | [x], _, _ =>
          have : s = [x] := hS.symm
          subst this
          simp
        | x :: y :: r, _, h1 => simp at h1; omega
      · rw [if_neg h1, if_neg (by omega), hS, hget _ hi]
    · simp; omega
    · intro x hx
      obtain ⟨i, hi', rfl⟩ := List.mem_iff_getElem.1 hx
      rw [List.length_take] at hi'
      rw [List.getElem_take]
      exact hmono i _ (by omega) hi (by omega)
    · intro y hy
      obtain ⟨i, hi', rfl⟩ := List.mem_iff_getElem.1 hy
      rw [List.length_drop] at hi'
      rw [List.getElem_drop]
      exact hmono _ _ hi (by omega) (by omega)
  · have hi : l.length / 2 - 1 + 1 < s.length := by omega
    have hi0 : l.length / 2 - 1 < s.length := by omega
    refine ⟨s.take (l.length / 2 - 1), s.drop (l.length / 2 - 1 + 1 + 1), s[l.length / 2 - 1], s[l.length / 2 - 1 + 1], Or.inr ⟨?_, ?_⟩, ?_, ?_, ?_, ?_⟩
    · have e : s.take (l.length / 2 - 1) ++ s[l.length / 2 - 1] :: s[l.length / 2 - 1 + 1] :: s.drop (l.length / 2 - 1 + 1 + 1) = s := by
        rw [List.getElem_cons_drop, List.getElem_cons_drop, List.take_append_drop]
      rw [e]; exact hp.symm
    · intro hw
      unfold medianNumber
      rw [if_neg (by omega), if_pos (by omega), hS]
      have e2 : s.getD (l.length / 2) 0 = s[l.length / 2 - 1 + 1] := by
        rw [← hget _ hi]; congr 1; omega
      rw [e2, hget _ hi0, wadd_eq hw]
    · simp; omega
    · intro x hx
      obtain ⟨i, hi', rfl⟩ := List.mem_iff_getElem.1 hx
      rw [List.length_take] at hi'
      rw [List.getElem_take]
      exact hmono i _ (by omega) hi0 (by omega)
    · exact hmono _ _ hi0 hi (by omega)
    · intro y hy
      obtain ⟨i, hi', rfl⟩ := List.mem_iff_getElem.1 hy
      rw [List.length_drop] at hi'
      rw [List.getElem_drop]
      exact hmono _ _ hi (by omega) (by omega)

/-- The order of the feeds does not matter. -/
theorem median_order_independent (l l' : List Nat) (h : l.Perm l') : medianNumber l = medianNumber l' := by
  unfold medianNumber
  rw [h.length_eq, sort_congr h]
  by_cases h1 : l'.length < 2
  · rw [if_pos h1, if_pos h1]
    match l', h1 with
    | [], _ => rw [List.perm_nil.1 h]
    | [x], _ => rw [List.perm_singleton.1 h]
    | x :: y :: r, h1 => simp at h1; omega
  · rw [if_neg h1, if_neg h1]

theorem countP_all {P : Nat → Bool} {l : List Nat} (h : ∀ x ∈ l, P x = true) : l.countP P = l.length := List.countP_eq_length.2 h

/-- The two middle values, and how many feeds lie on either side of them. -/
theorem median_middles (l : List Nat) (hl : l ≠ []) : ∃ a b, a ≤ b ∧ l.length ≤ 2 * l.countP (fun x => x ≤ a) ∧
    l.length ≤ 2 * l.countP (fun x => b ≤ x) ∧ (a + b < 2 ^ 64 → medianNumber l = (a + b) / 2) := by
  obtain ⟨A, B, a, b, hab, hlen, hA, hle, hB⟩ := median_characterised l hl
  refine ⟨a, b, hle, ?_⟩
  have hA' : A.countP (fun x => decide (x ≤ a)) = A.length := countP_all (fun x hx => by simpa using hA x hx)
  have hB' : B.countP (fun x => decide (b ≤ x)) = B.length := countP_all (fun x hx => by simpa using hB x hx)
  rcases hab with ⟨e, hp, hm⟩ | ⟨hp, hm⟩
  · subst e
    rw [hp.length_eq, hp.countP_eq, hp.countP_eq]
    simp only [List.length_append, List.length_cons, List.countP_append, List.countP_cons, hA', hB', decide_true, if_true, le_refl]
    exact ⟨by omega, by omega, fun _ => by omega⟩
  · rw [hp.length_eq, hp.countP_eq, hp.countP_eq]
    simp only [List.length_append, List.length_cons, List.countP_append, List.countP_cons, hA', hB', decide_true, if_true, le_refl]
    exact ⟨by omega, by omega, hm⟩

/-- At least half the feeds are at or below the median and at least half at or above it, for prices below `2^63`. -/
theorem median_halves_partial (l : List Nat) (hl : l ≠ []) (hb : ∀ x ∈ l, x < 2 ^ 63) :
    l.length ≤ 2 * l.countP (fun x => x ≤ medianNumber l) ∧ l.length ≤ 2 * l.countP (fun x => medianNumber l ≤ x) := by
  obtain ⟨a, b, hle, h1, h2, hm⟩ := median_middles l hl
  have hpos := List.length_pos_iff.2 hl
  have hbb : b < 2 ^ 63 := by
    have : 0 < l.countP (fun x => b ≤ x) := by omega
    obtain ⟨x, hx, hbx⟩ := List.countP_pos_iff.1 this
    have := hb x hx
    have := of_decide_eq_true hbx
    omega
  have hm' := hm (by omega)
  constructor
  · have : l.countP (fun x => x ≤ a) ≤ l.countP (fun x => x ≤ medianNumber l) :=
      List.countP_mono_left (fun x _ h => by simp only [decide_eq_true_eq] at h ⊢; omega)
    omega
  · have : l.countP (fun x => b ≤ x) ≤ l.countP (fun x => medianNumber l ≤ x) :=
      List.countP_mono_left (fun x _ h => by simp only [decide_eq_true_eq] at h ⊢; omega)
    omega

/-- Whoever controls less than half of the feeds cannot move the median out of the range of the others, provided that range is below
`2^63`. -/
theorem minority_cannot_move_median (l : List Nat) (lo hi : Nat) (hhi : hi < 2 ^ 63)
    (hmin : 2 * l.countP (fun x => ¬ (lo ≤ x ∧ x ≤ hi)) < l.length) : lo ≤ medianNumber l ∧ medianNumber l ≤ hi := by
  have hl : l ≠ [] := by rintro rfl; simp at hmin
  obtain ⟨a, b, hle, h1, h2, hm⟩ := median_middles l hl
  have ha : lo ≤ a := by
    by_cases h : lo ≤ a
    · exact h
    · have : l.countP (fun x => x ≤ a) ≤ l.countP (fun x => ¬ (lo ≤ x ∧ x ≤ hi)) :=
        List.countP_mono_left (fun x _ hx => by simp only [decide_eq_true_eq] at hx ⊢; omega)
      omega
  have hb : b ≤ hi := by
    by_cases h : b ≤ hi
    · exact h
    · have : l.countP (fun x => b ≤ x) ≤ l.countP (fun x => ¬ (lo ≤ x ∧ x ≤ hi)) :=
        List.countP_mono_left (fun x _ hx => by simp only [decide_eq_true_eq] at hx ⊢; omega)
      omega
  have := hm (by omega)
  omega

/-- **Violated.** The sum of the two middle prices wraps: all feeders agree on a price and the median is zero. -/
theorem median_halves_violated : ∃ l : List Nat, l ≠ [] ∧ (∀ x ∈ l, x = 2 ^ 63) ∧ medianNumber l = 0 ∧
    ¬ l.length ≤ 2 * l.countP (fun x => x ≤ medianNumber l) :=
  ⟨[2 ^ 63, 2 ^ 63], by decide, by decide, by decide, by decide⟩

example : medianNumber [7, 1, 5] = 5 ∧ medianNumber [7, 1, 5, 2] = 3 ∧ medianNumber [9] = 9 := by decide

example : 2 * [1000, 1000, 7, 9, 8].countP (fun x => ¬ (7 ≤ x ∧ x ≤ 9)) < 5 := by decide

/-! ## C40: the window -/

/-- A node on a history of blocks connected, disconnected, disconnected on a copy, and restarts; the window is `w` throughout and every
block lists its feeds first. -/
structure Regular (w : Nat) (g : Entry) (es : List Ev) : Prop where
  pos : 0 < w
  genesis : ∀ t ∈ g.block, t.isFeed = false
  events : ∀ e ∈ es, e.Regular w

theorem Regular.inv {w : Nat} {g : Entry} {es : List Ev} (h : Regular w g es) : Inv w (run (start g) es) :=
  run_inv h.pos es _ (start_inv w h.genesis) h.events

/-- The prices fed for `p` in the last `n` blocks of a chain, the first block not counted. -/
def recent (chain : List Entry) (n : Nat) (p : Pair) : List Nat :=
  ((chain.take (min n (chain.length - 1))).flatMap (fun e => fed e.block p)).map (·.2)

theorem collect_perm (up : Nat → Option Users) (p : Pair) : ∀ (n h : Nat) (bs : List Block), n ≤ bs.length → n ≤ h + 1 →
    (∀ i b, i < n → bs[i]? = some b → ((up (h - i)).getD []).Perm (fed b p)) →
    (collect up h n).Perm (((bs.take n).flatMap (fun b => fed b p)).map (·.2)) := by
  intro n
  induction n with
  | zero => intro h bs _ _ _; simp [collect]
  | succ n ih =>
    intro h bs hl hh hb
    cases bs with
    | nil => simp at hl
    | cons b bs =>
      simp only [collect, List.take_succ_cons, List.flatMap_cons, List.map_append]
      refine List.Perm.append ?_ ?_
      · have := hb 0 b (by omega) rfl
        simp only [Nat.sub_zero] at this
        cases hu : up h with
        | none => rw [hu] at this; simp only [Option.getD_none] at this; rw [List.nil_perm.1 this]; exact List.Perm.refl _
        | some u => rw [hu] at this; exact this.map _
      · cases n with
        | zero => simp [collect]
        | succ n =>
          refine ih (h - 1) bs (by simpa using hl) (by omega) (fun i b' hi hbi => ?_)
          have := hb (i + 1) b' (by omega) (by simpa using hbi)
          rw [show h - 1 - i = h - (i + 1) by omega]
          exact this

/-- The prices collected for a pair while a block at height `tip+1` is executed, after the transactions `done`. -/
theorem collect_window {w : Nat} {st : State} (I : Inv w st) (hw : 0 < w) {cw : Layer} {done : List Tx} (H : Holds (st.tip + 1) cw done)
    (med : Details) (p : Pair) :
    (collect (userPrices [cw, st.base] p) (st.tip + 1) (st.tip + 1 - (if st.tip + 1 > w then st.tip + 1 - w else 0))).Perm
      (recent (⟨done, med⟩ :: st.chain) w p) ∧
    ((userPrices [cw, st.base] p (st.tip + 1)).isSome = true ↔ fed done p ≠ []) := by
  have hlen := I.len
  have htop : ((userPrices [cw, st.base] p (st.tip + 1)).getD []).Perm (fed done p) := by
    rw [userPrices_list]
    by_cases hs : (cw.users p (st.tip + 1)).isSome = true
    · rw [if_pos hs]; exact H.here p
    · rw [if_neg hs, I.above p (Nat.lt_succ_self _)]
      have := H.here p
      unfold usr at this
      rw [Option.not_isSome_iff_eq_none.1 hs] at this
      exact this
  constructor
  · have hn : st.tip + 1 - (if st.tip + 1 > w then st.tip + 1 - w else 0) = min w (st.tip + 1) := by split <;> omega
    rw [hn]
    have := collect_perm (userPrices [cw, st.base] p) p (min w (st.tip + 1)) (st.tip + 1) (done :: st.chain.map (·.block))
      (by simp [hlen]) (by omega) (fun i b hi hbi => by
        cases i with
        | zero => simp only [List.getElem?_cons_zero, Option.some.injEq] at hbi; subst hbi; exact htop
        | succ i =>
          rw [userPrices_list, H.other p _ (by omega)]
          simp only [Option.isSome_none, Bool.false_eq_true, if_false]
          refine (I.win p _).trans ?_
          rw [if_pos (by omega)]
          unfold fedAt
          rw [List.getElem?_cons_succ, List.getElem?_map] at hbi
          rw [show st.chain.length - 1 - (st.tip + 1 - (i + 1)) = i by omega]
          cases hc : st.chain[i]? with
          | none => rw [hc] at hbi; cases hbi
          | some e => rw [hc] at hbi; simp only [Option.map_some, Option.some.injEq] at hbi; subst hbi; exact List.Perm.refl _)
    refine this.trans ?_
    unfold recent
    simp only [List.length_cons, Nat.add_sub_cancel, hlen]
    rw [show (done :: st.chain.map (·.block)) = (⟨done, med⟩ :: st.chain : List Entry).map (·.block) from rfl, ← List.map_take,
      List.flatMap_map]
  · rw [userPrices_isSome, decide_eq_true_eq]
    constructor
    · intro h e; rw [e] at htop; exact h (List.perm_nil.1 htop)
    · intro h e; rw [e] at htop; exact h (List.nil_perm.1 htop)

/-- What the median transaction finds for a pair, in terms of the chain. -/
def expected (chain : List Entry) (latest : Details) (h w : Nat) (done : List Tx) (p : Pair) : Detail :=
  let m := medianNumber (recent chain w p)
  match find latest p with
  | none => ⟨m, if fed done p ≠ [] then h else 0⟩
  | some prev => if m = 0 then prev else ⟨m, if fed done p ≠ [] then h else prev.last⟩

theorem medianPrice_eq {w : Nat} {st : State} (I : Inv w st) (hw : 0 < w) {cw : Layer} {done : List Tx} (H : Holds (st.tip + 1) cw done)
    (med latest : Details) (p : Pair) : medianPrice latest (st.tip + 1) w [cw, st.base] p =
      expected (⟨done, med⟩ :: st.chain) latest (st.tip + 1) w done p := by
  obtain ⟨h1, h2⟩ := collect_window I hw H med p
  unfold medianPrice expected blockMedian
  dsimp only
  rw [median_order_independent _ _ h1]
  have hbegin : (if st.tip + 1 > w then st.tip + 1 - w else 0) < st.tip + 1 := by split <;> omega
  have h3 : ((userPrices [cw, st.base] p (st.tip + 1)).isSome = true ∧ (if st.tip + 1 > w then st.tip + 1 - w else 0) < st.tip + 1) ↔
      fed done p ≠ [] := by rw [h2]; exact and_iff_left hbegin
  rw [if_congr h3 rfl rfl]
  cases find latest p with
  | none => rfl
  | some prev =>
    dsimp only
    by_cases hf : fed done p ≠ []
    · simp only [if_pos hf, ne_eq, not_true, if_false]
    · simp only [if_neg hf]
      by_cases h0 : medianNumber (recent (⟨done, med⟩ :: st.chain) w p) = 0
      · simp only [if_pos h0]
      · simp only [if_neg h0]
        rw [if_pos (by omega)]

theorem find_filterMap (ps : List Pair) (f : Pair → Detail) (p : Pair) :
    find (ps.filterMap (fun q => if (f q).price = 0 then none else some (q, f q))) p =
      if p ∈ ps ∧ (f p).price ≠ 0 then some (f p) else none := by
  induction ps with
  | nil => simp [find]
  | cons q ps ih =>
    by_cases h0 : (f q).price = 0
    · rw [List.filterMap_cons_none (by simp [h0]), ih]
      by_cases e : p = q
      · subst e; simp [h0]
      · simp [e]
    · rw [List.filterMap_cons_some (by rw [if_neg h0])]
      unfold find
      by_cases e : p = q
      · subst e; simp [h0]
      · rw [if_neg e, ih]; simp [e]

/-- A pair with a median price: listed, and its asset permitted. -/
def Tracked (env : Env) (p : Pair) : Prop := p ∈ env.pairs ∧ env.asset p.1 = some true

instance (env : Env) (p : Pair) : Decidable (Tracked env p) := by unfold Tracked; infer_instance

theorem split_median {b : List Tx} (hm : (b.filter Tx.isMedian).length = 1) : ∃ pre c post, b = pre ++ .median c :: post ∧
    (∀ t ∈ pre, t.isMedian = false) ∧ ∀ t ∈ post, t.isMedian = false := by
  induction b with
  | nil => simp at hm
  | cons t b ih =>
    by_cases ht : t.isMedian = true
    · cases t with
      | median c =>
        refine ⟨[], c, b, rfl, by simp, fun t ht' => ?_⟩
        rw [List.filter_cons_of_pos ht, List.length_cons] at hm
        have : b.filter Tx.isMedian = [] := List.length_eq_zero_iff.1 (by omega)
        have := List.filter_eq_nil_iff.1 this t ht'
        simpa using this
      | feed r pts => cases ht
      | other => cases ht
    · rw [List.filter_cons_of_neg ht] at hm
      obtain ⟨pre, c, post, rfl, h1, h2⟩ := ih hm
      refine ⟨t :: pre, c, post, rfl, fun x hx => ?_, h2⟩
      rcases List.mem_cons.1 hx with rfl | hx
      · simpa using ht
      · exact h1 x hx

/-- In an ordered block all feeds come before the median transaction. -/
theorem ordered_split {pre post : List Tx} {c : List (Pair × Nat)} (h : Ordered (pre ++ .median c :: post)) (p : Pair) :
    fed (pre ++ .median c :: post) p = fed pre p := by
  rw [fed_append, fed_cons]
  have hpost : ∀ t ∈ post, t.isFeed = false := by
    intro t ht
    refine h t ?_
    have : ∀ pre : List Tx, t ∈ (pre ++ .median c :: post).dropWhile Tx.isFeed := by
      intro pre
      induction pre with
      | nil => simp [List.dropWhile, Tx.isFeed, ht]
      | cons x pre ih =>
        rw [List.cons_append, List.dropWhile_cons]
        split
        · exact ih
        · simp [ht]
    exact this pre
  rw [fed_of_no_feed hpost]
  simp [feedsOf]

/-- The medians after a block, for every block order. -/
theorem connect_medians {w : Nat} {st st' : State} {env : Env} {b : Block} (I : Inv w st) (hw : 0 < w) (he : env.window = w)
    (h : connect st env b = some st') : ∃ pre c post, b = pre ++ .median c :: post ∧
    (∀ p, find st'.medians p = if Tracked env p ∧ (expected (⟨pre, []⟩ :: st.chain) st.medians (st.tip + 1) w pre p).price ≠ 0 then
      some (expected (⟨pre, []⟩ :: st.chain) st.medians (st.tip + 1) w pre p) else none) ∧
    c.filter (fun x => x.2 ≠ 0) = st'.medians.map (fun x => (x.1, x.2.price)) ∧ Distinct b := by
  obtain ⟨hm, cw, med, cw', hx, hp, rfl⟩ := connect_some h
  obtain ⟨pre, c, post, rfl, hpre, hpost⟩ := split_median hm
  refine ⟨pre, c, post, rfl, ?_⟩
  have Hd := execTxs_holds (fun p => I.above p (Nat.lt_succ_self _)) _ _ _ _ _ [] (holds_empty _) hx
  rw [execTxs_append] at hx
  cases hx1 : execTxs env st.base (st.tip + 1) pre Layer.empty st.medians with
  | none => rw [hx1] at hx; cases hx
  | some x =>
    obtain ⟨cw1, med1⟩ := x
    rw [hx1] at hx
    simp only [Option.bind_some] at hx
    have hmed1 := execTxs_medians _ _ _ _ _ hpre hx1
    subst hmed1
    have H : Holds (st.tip + 1) cw1 pre := by
      have := execTxs_holds (fun p => I.above p (Nat.lt_succ_self _)) pre _ _ _ _ [] (holds_empty _) hx1
      simpa using this
    simp only [execTxs] at hx
    cases hc : calcDetails env st.medians (st.tip + 1) [cw1, st.base] with
    | none => rw [hc] at hx; cases hx
    | some d =>
      rw [hc] at hx
      dsimp only at hx
      simp only [Option.ite_none_right_eq_some] at hx
      obtain ⟨hclaim, hx⟩ := hx
      have := execTxs_medians _ _ _ _ _ hpost hx
      subst this
      unfold calcDetails at hc
      simp only [Option.ite_none_right_eq_some, Option.some.injEq] at hc
      obtain ⟨_, hc⟩ := hc
      refine ⟨fun p => ?_, (by show _ = med.map _; simpa [claimOk] using hclaim), by simpa using Hd.distinct⟩
      show find med p = _
      rw [← hc, find_filterMap, he, medianPrice_eq I hw H []]
      have : (p ∈ env.pairs.filter (fun p => env.asset p.1 = some true)) ↔ Tracked env p := by
        simp only [List.mem_filter, decide_eq_true_eq, Tracked]
      simp only [this]

/-! ### Prices are positive -/

def Priced (st : State) : Prop :=
  (∀ e ∈ st.chain, ∀ p, ∀ x ∈ fed e.block p, x.2 ≠ 0) ∧ ∀ e ∈ st.chain, ∀ x ∈ e.medians, x.2.price ≠ 0

theorem execTxs_priced {env : Env} {base : Layer} {h : Nat} :
    ∀ (ts : List Tx) (cw : Layer) (med : Details) (cw' : Layer) (med' : Details), execTxs env base h ts cw med = some (cw', med') →
      (∀ x ∈ med, x.2.price ≠ 0) → (∀ p, ∀ x ∈ fed ts p, x.2 ≠ 0) ∧ ∀ x ∈ med', x.2.price ≠ 0 := by
  intro ts
  induction ts with
  | nil => intro cw med cw' med' hx hm; cases hx; exact ⟨by simp [fed], hm⟩
  | cons t ts ih =>
    intro cw med cw' med' hx hm
    cases t with
    | feed r pts =>
      simp only [execTxs, Option.ite_none_left_eq_some] at hx
      obtain ⟨hok, _, hx⟩ := hx
      rcases ha : addPrice cw [base] h r pts with ⟨cw1, ok⟩
      rw [ha] at hx
      cases ok with
      | false => cases hx
      | true =>
        dsimp only at hx
        obtain ⟨i1, i2⟩ := ih _ _ _ _ hx hm
        refine ⟨fun p x hxm => ?_, i2⟩
        rw [fed_cons] at hxm
        rcases List.mem_append.1 hxm with hxm | hxm
        · simp only [feedsOf, List.mem_map, List.mem_filter] at hxm
          obtain ⟨y, ⟨hy, _⟩, rfl⟩ := hxm
          simp only [feedOk, Bool.not_eq_true', Bool.not_eq_false, Bool.and_eq_true, List.all_eq_true, decide_eq_true_eq] at hok
          exact (hok.2 y hy).1.1.1.1
        · exact i1 p x hxm
    | median c =>
      simp only [execTxs] at hx
      cases hc : calcDetails env med h [cw, base] with
      | none => rw [hc] at hx; cases hx
      | some d =>
        rw [hc] at hx
        dsimp only at hx
        simp only [Option.ite_none_right_eq_some] at hx
        refine ih _ _ _ _ hx.2 (fun x hxm => ?_)
        unfold calcDetails at hc
        simp only [Option.ite_none_right_eq_some, Option.some.injEq] at hc
        rw [← hc.2, List.mem_filterMap] at hxm
        obtain ⟨q, _, hq⟩ := hxm
        simp only [Option.ite_none_left_eq_some, Option.some.injEq] at hq
        rw [← hq.2]
        exact hq.1
    | other => exact ih _ _ _ _ hx hm

theorem priced_medians {st : State} (h : Priced st) : ∀ x ∈ st.medians, x.2.price ≠ 0 := by
  intro x hx
  unfold State.medians at hx
  cases hc : st.chain with
  | nil => rw [hc] at hx; cases hx
  | cons e es => rw [hc] at hx; exact h.2 e (by rw [hc]; simp) x hx

theorem step_priced {st : State} {e : Ev} (h : Priced st) : Priced (step st e) := by
  unfold step
  have htail : ∀ (b : Layer) (x : Entry) (xs : List Entry), st.chain = x :: xs → Priced ⟨b, xs⟩ := by
    intro b x xs hc
    exact ⟨fun e he => h.1 e (by rw [hc]; simp [he]), fun e he => h.2 e (by rw [hc]; simp [he])⟩
  cases ha : apply st e with
  | none => exact h
  | some st' =>
    cases e with
    | connect env b =>
      obtain ⟨hm, cw, med, cw', hx, hp, rfl⟩ := connect_some ha
      obtain ⟨h1, h2⟩ := execTxs_priced _ _ _ _ _ hx (priced_medians h)
      refine ⟨fun e he => ?_, fun e he => ?_⟩
      · rcases List.mem_cons.1 he with rfl | he
        · exact h1
        · exact h.1 e he
      · rcases List.mem_cons.1 he with rfl | he
        · exact h2
        · exact h.2 e he
    | disconnect w =>
      simp only [apply, disconnect] at ha
      split at ha
      · rename_i x x' xs hc
        split at ha
        · cases ha
        · cases ha; exact htail _ _ _ hc
      · cases ha
    | disconnectCopy w =>
      simp only [apply, disconnectCopy] at ha
      split at ha
      · rename_i x x' xs hc
        split at ha
        · cases ha
        · cases ha; exact htail _ _ _ hc
      · cases ha
    | restart w => cases ha; exact h

theorem run_priced (es : List Ev) : ∀ st, Priced st → Priced (run st es) := by
  induction es with
  | nil => intro st h; exact h
  | cons e es ih => intro st h; exact ih _ (step_priced h)

theorem start_priced {g : Entry} (hg : ∀ t ∈ g.block, t.isFeed = false) (hm : g.medians = []) : Priced (start g) := by
  refine ⟨fun e he p x hx => ?_, fun e he x hx => ?_⟩
  · rw [List.mem_singleton.1 he, fed_of_no_feed hg] at hx; cases hx
  · rw [List.mem_singleton.1 he, hm] at hx; cases hx

theorem median_pos {l : List Nat} (hl : l ≠ []) (h0 : ∀ x ∈ l, x ≠ 0) (hb : ∀ x ∈ l, x < 2 ^ 63) : medianNumber l ≠ 0 := by
  intro e
  have := (median_halves_partial l hl hb).1
  rw [e] at this
  have hpos := List.length_pos_iff.2 hl
  have h : 0 < l.countP (fun x => x ≤ 0) := by omega
  obtain ⟨x, hx, hx0⟩ := List.countP_pos_iff.1 h
  simp only [decide_eq_true_eq] at hx0
  exact h0 x hx (by omega)

/-- **Partial** (constant window, feeds first in every block, prices below `2^63`). After any history, when a block is connected, the
median of every tracked pair is that of exactly the prices fed in the last `w` blocks, this one included; if there are none the
previous median stays. Pairs that are not tracked have no median. The block states these medians. -/
theorem window_exact_partial (w : Nat) (g : Entry) (es : List Ev) (hR : Regular w g es) (hg : g.medians = []) (env : Env) (b : Block)
    (st' : State) (he : (Ev.connect env b).Regular w) (h : connect (run (start g) es) env b = some st') (p : Pair)
    (hb : ∀ v ∈ recent st'.chain w p, v < 2 ^ 63) :
    (¬ Tracked env p → find st'.medians p = none) ∧
    (Tracked env p → recent st'.chain w p = [] → find st'.medians p = find (run (start g) es).medians p) ∧
    (Tracked env p → recent st'.chain w p ≠ [] → (find st'.medians p).map (·.price) = some (medianNumber (recent st'.chain w p))) := by
  have I := hR.inv
  have hP := run_priced es _ (start_priced hR.genesis hg)
  have hP' : Priced st' := by
    have := step_priced (e := .connect env b) hP
    have e : step (run (start g) es) (.connect env b) = st' := by
      show (connect _ _ _).getD _ = _
      rw [h]; rfl
    rwa [e] at this
  obtain ⟨_, med, hchain⟩ := connect_inv hR.pos I he.2.1 he.2.2 h
  obtain ⟨pre, c, post, rfl, hm, _, _⟩ := connect_medians I hR.pos he.1 h
  have hfed : ∀ q, fed (pre ++ .median c :: post) q = fed pre q := ordered_split he.2.2
  have hrec : recent (⟨pre, []⟩ :: (run (start g) es).chain) w p = recent st'.chain w p := by
    rw [hchain]
    unfold recent
    simp only [List.length_cons, Nat.add_sub_cancel]
    generalize min w (run (start g) es).chain.length = n
    cases n with
    | zero => rfl
    | succ n => simp only [List.take_succ_cons, List.flatMap_cons]; rw [hfed]
  have hm := hm p
  refine ⟨fun hT => ?_, fun hT hr => ?_, fun hT hr => ?_⟩
  · rw [hm, if_neg (fun h => hT h.1)]
  · rw [hm]
    unfold expected
    dsimp only
    rw [hrec, hr]
    have h0 : medianNumber [] = 0 := rfl
    cases hf : find (run (start g) es).medians p with
    | none => simp [h0]
    | some prev =>
      simp only [h0, if_true]
      rw [if_pos ⟨hT, priced_medians hP _ (find_mem hf)⟩]
  · have hne : medianNumber (recent st'.chain w p) ≠ 0 := by
      refine median_pos hr (fun x hx => ?_) hb
      unfold recent at hx
      simp only [List.mem_map, List.mem_flatMap] at hx
      obtain ⟨y, ⟨e, he', hy⟩, rfl⟩ := hx
      exact hP'.1 e (List.mem_of_mem_take he') p y hy
    rw [hm]
    unfold expected
    dsimp only
    rw [hrec]
    cases hf : find (run (start g) es).medians p with
    | none => simp [hT, hne]
    | some prev => simp [hT, hne]

/-- One price per feeder, pair and block, in every block accepted after such a history. -/
theorem one_price_per_feeder (w : Nat) (g : Entry) (es : List Ev) (hR : Regular w g es) (env : Env) (b : Block) (st' : State)
    (h : connect (run (start g) es) env b = some st') (p : Pair) : ((fed b p).map (·.1)).Nodup := by
  obtain ⟨_, cw, med, cw', hx, _, _⟩ := connect_some h
  have := execTxs_holds (fun p => hR.inv.above p (Nat.lt_succ_self _)) b _ _ _ _ [] (holds_empty _) hx
  exact this.distinct p

/-! ### Which blocks are accepted -/

theorem execTxs_ok {env : Env} {base : Layer} {h : Nat} (hb : ∀ p, usr base p h = []) :
    ∀ (ts : List Tx) (cw : Layer) (med : Details) (done : List Tx), Holds h cw done → (∀ t ∈ ts, t.isMedian = false) →
      (∀ r pts, Tx.feed r pts ∈ ts → feedOk env pts = true ∧ env.feeder r = true) → Distinct (done ++ ts) →
      ∃ cw', execTxs env base h ts cw med = some (cw', med) := by
  intro ts
  induction ts with
  | nil => intro cw med done _ _ _ _; exact ⟨cw, rfl⟩
  | cons t ts ih =>
    intro cw med done H hm hf hd
    rw [List.append_cons] at hd
    cases t with
    | median c => have := hm (.median c) (by simp); cases this
    | other =>
      exact ih cw med _ (holds_skip (t := .other) H rfl) (fun t ht => hm t (by simp [ht])) (fun r pts h => hf r pts (by simp [h])) hd
    | feed r pts =>
      obtain ⟨h1, h2⟩ := hf r pts (by simp)
      have a := addPrice_spec [base] h r pts cw (fun l hl p => by rw [List.mem_singleton.1 hl]; exact hb p)
      have e := a.2.1 (fun p => ((H.here p).map _).nodup_iff.2 (H.distinct p))
      have hok : (addPrice cw [base] h r pts).2 = true := e.2 (fun p => by
        have := hd p
        rw [fed_append, fed_append, List.map_append] at this
        have this := (List.nodup_append.1 this).1
        refine (List.Perm.map _ ?_).nodup_iff.1 this
        rw [fed_cons, show fed [] p = [] from rfl, List.append_nil]
        exact (H.here p).symm.append_right _)
      rcases ha : addPrice cw [base] h r pts with ⟨c1, ok⟩
      rw [ha] at hok
      dsimp only at hok
      subst hok
      have N : Holds h c1 (done ++ [.feed r pts]) :=
        execTxs_holds (env := env) hb [.feed r pts] cw med c1 med done H (by simp [execTxs, ha, h1, h2])
      obtain ⟨cw', hx⟩ := ih c1 med _ N (fun t ht => hm t (by simp [ht])) (fun r pts h => hf r pts (by simp [h])) hd
      exact ⟨cw', by simp [execTxs, ha, h1, h2, hx]⟩

theorem execTxs_feeds {env : Env} {base : Layer} {h : Nat} : ∀ (ts : List Tx) (cw : Layer) (med : Details) (cw' : Layer) (med' : Details),
    execTxs env base h ts cw med = some (cw', med') → ∀ r pts, Tx.feed r pts ∈ ts → feedOk env pts = true ∧ env.feeder r = true := by
  intro ts
  induction ts with
  | nil => intro _ _ _ _ _ r pts hm; cases hm
  | cons t ts ih =>
    intro cw med cw' med' hx r pts hm
    cases t with
    | feed r' pts' =>
      simp only [execTxs, Option.ite_none_left_eq_some] at hx
      obtain ⟨h1, h2, hx⟩ := hx
      rcases ha : addPrice cw [base] h r' pts' with ⟨c1, ok⟩
      rw [ha] at hx
      cases ok with
      | false => cases hx
      | true =>
        rcases List.mem_cons.1 hm with e | hm
        · cases e; simp at h1 h2; exact ⟨h1, h2⟩
        · exact ih _ _ _ _ hx r pts hm
    | median c =>
      simp only [execTxs] at hx
      cases hc : calcDetails env med h [cw, base] with
      | none => rw [hc] at hx; cases hx
      | some d =>
        rw [hc] at hx
        dsimp only at hx
        simp only [Option.ite_none_right_eq_some] at hx
        rcases List.mem_cons.1 hm with e | hm
        · cases e
        · exact ih _ _ _ _ hx.2 r pts hm
    | other =>
      rcases List.mem_cons.1 hm with e | hm
      · cases e
      · exact ih _ _ _ _ hx r pts hm

/-- The list of medians a block must state. -/
def required (st : State) (env : Env) (w : Nat) (b : Block) : List (Pair × Nat) :=
  (env.pairs.filter (fun p => Tracked env p)).filterMap (fun p =>
    let d := expected (⟨b, []⟩ :: st.chain) st.medians (st.tip + 1) w b p
    if d.price = 0 then none else some (p, d.price))

theorem accepted_iff (w : Nat) (g : Entry) (es : List Ev) (hR : Regular w g es) (env : Env) (b : Block)
    (he : (Ev.connect env b).Regular w) :
    (connect (run (start g) es) env b).isSome = true ↔
      (b.filter Tx.isMedian).length = 1 ∧ (∀ r pts, Tx.feed r pts ∈ b → feedOk env pts = true ∧ env.feeder r = true) ∧
      (∀ p, ((fed b p).map (·.1)).Nodup) ∧ (∀ p ∈ env.pairs, (env.asset p.1).isSome = true) ∧
      ∀ c, Tx.median c ∈ b → c.filter (fun x => x.2 ≠ 0) = required (run (start g) es) env w b := by
  have I := hR.inv
  have hlen := I.len
  have habove : ∀ p, usr (run (start g) es).base p ((run (start g) es).tip + 1) = [] := fun p => I.above p (Nat.lt_succ_self _)
  generalize hst : run (start g) es = st at *
  have hdet : ∀ (pre post : List Tx) (c : List (Pair × Nat)) (cw : Layer), Ordered (pre ++ .median c :: post) →
      Holds (st.tip + 1) cw pre → (∀ p ∈ env.pairs, (env.asset p.1).isSome = true) →
      ∃ d, calcDetails env st.medians (st.tip + 1) [cw, st.base] = some d ∧
        d.map (fun x => (x.1, x.2.price)) = required st env w (pre ++ .median c :: post) := by
    intro pre post c cw ho H ha
    refine ⟨_, by unfold calcDetails; rw [if_pos (by simpa using ha)], ?_⟩
    unfold required
    rw [List.map_filterMap]
    have hfilter : env.pairs.filter (fun p => decide (env.asset p.1 = some true)) = env.pairs.filter (fun p => decide (Tracked env p)) := by
      refine List.filter_congr (fun p hp => ?_)
      simp [Tracked, hp]
    rw [hfilter]
    refine List.filterMap_congr (fun p _ => ?_)
    have hfed : ∀ p, fed (pre ++ .median c :: post) p = fed pre p := ordered_split ho
    have e : expected (⟨pre ++ .median c :: post, []⟩ :: st.chain) st.medians (st.tip + 1) w (pre ++ .median c :: post) p =
        expected (⟨pre, []⟩ :: st.chain) st.medians (st.tip + 1) w pre p := by
      unfold expected
      rw [hfed]
      have : recent (⟨pre ++ .median c :: post, []⟩ :: st.chain) w p = recent (⟨pre, []⟩ :: st.chain) w p := by
        unfold recent
        simp only [List.length_cons, Nat.add_sub_cancel]
        generalize min w st.chain.length = n
        cases n with
        | zero => rfl
        | succ n => simp only [List.take_succ_cons, List.flatMap_cons]; rw [hfed]
      rw [this]
    rw [he.1, medianPrice_eq I hR.pos H [], e]
    dsimp only
    split <;> rfl
  constructor
  · intro h
    obtain ⟨st', h⟩ := Option.isSome_iff_exists.1 h
    obtain ⟨hm, cw, med, cw', hx, hp, rfl⟩ := connect_some h
    have Hd := execTxs_holds habove _ _ _ _ _ [] (holds_empty _) hx
    have hfeeds := execTxs_feeds _ _ _ _ _ hx
    refine ⟨hm, hfeeds, fun p => Hd.distinct p, ?_⟩
    obtain ⟨pre, c, post, rfl, hpre, hpost⟩ := split_median hm
    rw [execTxs_append] at hx
    cases hx1 : execTxs env st.base (st.tip + 1) pre Layer.empty st.medians with
    | none => rw [hx1] at hx; cases hx
    | some x =>
      obtain ⟨cw1, med1⟩ := x
      rw [hx1] at hx
      simp only [Option.bind_some] at hx
      have hmed1 := execTxs_medians _ _ _ _ _ hpre hx1
      subst hmed1
      have H : Holds (st.tip + 1) cw1 pre := by
        have := execTxs_holds habove pre _ _ _ _ [] (holds_empty _) hx1
        simpa using this
      simp only [execTxs] at hx
      have hall : ∀ p ∈ env.pairs, (env.asset p.1).isSome = true := by
        unfold calcDetails at hx
        by_cases ha : (env.pairs.all fun p => (env.asset p.1).isSome) = true
        · simpa using ha
        · rw [if_neg ha] at hx; cases hx
      obtain ⟨d, hd, hreq⟩ := hdet pre post c cw1 he.2.2 H hall
      rw [hd] at hx
      dsimp only at hx
      simp only [Option.ite_none_right_eq_some] at hx
      refine ⟨hall, fun c' hc' => ?_⟩
      have : c' = c := by
        rcases List.mem_append.1 hc' with h' | h'
        · have := hpre _ h'; cases this
        · rcases List.mem_cons.1 h' with h' | h'
          · cases h'; rfl
          · have := hpost _ h'; cases this
      subst this
      rw [← hreq]
      simpa [claimOk] using hx.1
  · rintro ⟨hm, hfeeds, hd, hall, hc⟩
    have hm' := hm
    obtain ⟨pre, c, post, rfl, hpre, hpost⟩ := split_median hm
    have hdp : Distinct pre := fun p => by rw [← ordered_split he.2.2 p]; exact hd p
    obtain ⟨cw1, hx1⟩ := execTxs_ok habove pre Layer.empty st.medians [] (holds_empty _) hpre
      (fun r pts h => hfeeds r pts (by simp [h])) (by simpa using hdp)
    have H : Holds (st.tip + 1) cw1 pre := by
      have := execTxs_holds habove pre _ _ _ _ [] (holds_empty _) hx1
      simpa using this
    obtain ⟨d, hdd, hreq⟩ := hdet pre post c cw1 he.2.2 H hall
    obtain ⟨cw2, hx2⟩ := execTxs_ok habove post cw1 d (pre ++ [.median c]) (holds_skip (t := .median c) H rfl) hpost
      (fun r pts h => hfeeds r pts (by simp [h])) (by rw [← List.append_cons]; exact hd)
    have hclaim : claimOk c d = true := by
      have := hc c (by simp)
      rw [← hreq] at this
      simpa [claimOk] using this
    unfold connect
    rw [if_neg (by omega), execTxs_append, hx1]
    simp only [Option.bind_some, execTxs, hdd, hclaim, if_true, hx2]
    unfold pushBlock
    by_cases hgt : st.tip + 1 > env.windowAfter
    · rw [if_pos hgt, List.getElem?_eq_getElem (by simp; omega)]
      rfl
    · rw [if_neg hgt]; rfl

/-- A feed that may be made: up to a hundred positive prices of listed pairs of a permitted asset and a quote currency. -/
def WellFormed (env : Env) (pts : List (Pair × Nat)) : Prop :=
  0 < pts.length ∧ pts.length ≤ 100 ∧
    ∀ x ∈ pts, 0 < x.2 ∧ x.1.1 ≠ x.1.2 ∧ env.asset x.1.1 = some true ∧ env.quote x.1.2 = true ∧ x.1 ∈ env.pairs

theorem feedOk_iff (env : Env) (pts : List (Pair × Nat)) : feedOk env pts = true ↔ WellFormed env pts := by
  unfold feedOk WellFormed maxPoints
  simp only [Bool.and_eq_true, decide_eq_true_eq, List.all_eq_true, List.contains_iff_mem, Nat.pos_iff_ne_zero,
    ne_eq, List.length_eq_zero_iff, and_assoc]

/-- **Partial** (constant window, feeds first). After any history a block is accepted exactly when it has one median transaction, all
its feeds are well formed and by permitted feeders, no feeder feeds a pair twice, all assets of the tracked pairs exist, and the
stated medians are the required ones. -/
theorem accepted_iff_partial (w : Nat) (g : Entry) (es : List Ev) (hR : Regular w g es) (env : Env) (b : Block)
    (he : (Ev.connect env b).Regular w) :
    (connect (run (start g) es) env b).isSome = true ↔
      (b.filter Tx.isMedian).length = 1 ∧ (∀ r pts, Tx.feed r pts ∈ b → WellFormed env pts ∧ env.feeder r = true) ∧
      (∀ p, ((fed b p).map (·.1)).Nodup) ∧ (∀ p ∈ env.pairs, (env.asset p.1).isSome = true) ∧
      ∀ c, Tx.median c ∈ b → c.filter (fun x => x.2 ≠ 0) = required (run (start g) es) env w b := by
  simp only [← feedOk_iff]
  exact accepted_iff w g es hR env b he

/-- An accepted block states the medians it leads to (zero entries apart). -/
theorem block_states_medians (w : Nat) (g : Entry) (es : List Ev) (hR : Regular w g es) (env : Env) (b : Block) (st' : State)
    (he : env.window = w) (h : connect (run (start g) es) env b = some st') :
    ∃ c, Tx.median c ∈ b ∧ c.filter (fun x => x.2 ≠ 0) = st'.medians.map (fun x => (x.1, x.2.price)) := by
  obtain ⟨pre, c, post, rfl, _, hc, _⟩ := connect_medians hR.inv hR.pos he h
  exact ⟨c, by simp, hc⟩

/-! ## C77: nodes on the same chain agree -/

theorem execTxs_agree {w : Nat} {s1 s2 : State} (I1 : Inv w s1) (I2 : Inv w s2) (hw : 0 < w) (hc : s1.chain = s2.chain) {env : Env}
    (he : env.window = w) : ∀ (ts : List Tx) (cw1 cw2 : Layer) (med : Details) (done : List Tx) (cw1' : Layer) (med' : Details),
      Holds (s1.tip + 1) cw1 done → Holds (s1.tip + 1) cw2 done → execTxs env s1.base (s1.tip + 1) ts cw1 med = some (cw1', med') →
      ∃ cw2', execTxs env s2.base (s1.tip + 1) ts cw2 med = some (cw2', med') := by
  have ht : s2.tip = s1.tip := by unfold State.tip; rw [hc]
  intro ts
  induction ts with
  | nil => intro cw1 cw2 med done cw1' med' H1 H2 hx; cases hx; exact ⟨cw2, rfl⟩
  | cons t ts ih =>
    intro cw1 cw2 med done cw1' med' H1 H2 hx
    cases t with
    | feed r pts =>
      simp only [execTxs, Option.ite_none_left_eq_some] at hx ⊢
      obtain ⟨h1, h2, hx⟩ := hx
      have a1 := addPrice_spec [s1.base] (s1.tip + 1) r pts cw1
        (fun l hl p => by rw [List.mem_singleton.1 hl]; exact I1.above p (Nat.lt_succ_self _))
      have a2 := addPrice_spec [s2.base] (s1.tip + 1) r pts cw2
        (fun l hl p => by rw [List.mem_singleton.1 hl]; exact I2.above p (by omega))
      have e1 := a1.2.1 (fun p => ((H1.here p).map _).nodup_iff.2 (H1.distinct p))
      have e2 := a2.2.1 (fun p => ((H2.here p).map _).nodup_iff.2 (H2.distinct p))
      rcases ha1 : addPrice cw1 [s1.base] (s1.tip + 1) r pts with ⟨c1, ok1⟩
      rcases ha2 : addPrice cw2 [s2.base] (s1.tip + 1) r pts with ⟨c2, ok2⟩
      rw [ha1] at hx a1 e1
      rw [ha2] at a2 e2
      cases ok1 with
      | false => cases hx
      | true =>
        have hd := e1.1 rfl
        have hok2 : ok2 = true := e2.2 (fun p => by
          refine (List.Perm.map _ ?_).nodup_iff.1 (hd p)
          exact ((H1.here p).trans (H2.here p).symm).append_right _)
        subst hok2
        dsimp only at hx ⊢
        have N1 : Holds (s1.tip + 1) c1 (done ++ [.feed r pts]) :=
          execTxs_holds (env := env) (fun p => I1.above p (Nat.lt_succ_self _)) [.feed r pts] cw1 med c1 med done H1
            (by simp [execTxs, ha1]; simp at h1 h2; exact ⟨h1, h2⟩)
        have N2 : Holds (s1.tip + 1) c2 (done ++ [.feed r pts]) :=
          execTxs_holds (env := env) (fun p => I2.above p (by omega)) [.feed r pts] cw2 med c2 med done H2
            (by simp [execTxs, ha2]; simp at h1 h2; exact ⟨h1, h2⟩)
        obtain ⟨c, hcx⟩ := ih c1 c2 med _ _ _ N1 N2 hx
        exact ⟨c, h1, h2, hcx⟩
    | median c =>
      simp only [execTxs] at hx ⊢
      have e : calcDetails env med (s1.tip + 1) [cw2, s2.base] = calcDetails env med (s1.tip + 1) [cw1, s1.base] := by
        unfold calcDetails
        have : ∀ p, medianPrice med (s1.tip + 1) env.window [cw2, s2.base] p = medianPrice med (s1.tip + 1) env.window [cw1, s1.base] p :=
          fun p => by
            have m1 := medianPrice_eq I1 hw H1 [] med p
            have m2 := medianPrice_eq I2 hw (ht ▸ H2) [] med p
            rw [ht, ← hc] at m2
            rw [he, m1, m2]
        simp only [this]
      rw [e]
      cases hd : calcDetails env med (s1.tip + 1) [cw1, s1.base] with
      | none => rw [hd] at hx; cases hx
      | some d =>
        rw [hd] at hx
        dsimp only at hx ⊢
        simp only [Option.ite_none_right_eq_some] at hx ⊢
        obtain ⟨c2, hc2⟩ := ih cw1 cw2 d _ _ _ (holds_skip (t := .median c) H1 rfl) (holds_skip (t := .median c) H2 rfl) hx.2
        exact ⟨c2, hx.1, hc2⟩
    | other =>
      exact ih cw1 cw2 med _ _ _ (holds_skip (t := .other) H1 rfl) (holds_skip (t := .other) H2 rfl) hx

/-- What a node makes of a block: the new chain with all medians, or a refusal. -/
def verdict (st : State) (env : Env) (b : Block) : Option (List Entry) := (connect st env b).map (·.chain)

theorem verdict_le {w : Nat} {s1 s2 : State} (I1 : Inv w s1) (I2 : Inv w s2) (hw : 0 < w) (hc : s1.chain = s2.chain) {env : Env}
    {b : Block} (he : env.window = w) {c : List Entry} (h : verdict s1 env b = some c) : verdict s2 env b = some c := by
  unfold verdict at h ⊢
  cases h1 : connect s1 env b with
  | none => rw [h1] at h; cases h
  | some s1' =>
    rw [h1] at h
    simp only [Option.map_some, Option.some.injEq] at h
    subst h
    obtain ⟨hm, cw, med, cw', hx, hp, rfl⟩ := connect_some h1
    have ht : s2.tip = s1.tip := by unfold State.tip; rw [hc]
    have hmed : s2.medians = s1.medians := by unfold State.medians; rw [hc]
    obtain ⟨cw2, hx2⟩ := execTxs_agree I1 I2 hw hc he b _ _ _ _ _ _ (holds_empty _) (holds_empty _) hx
    unfold connect
    rw [if_neg (by omega), ht, hmed, hx2]
    dsimp only
    rw [← hc]
    unfold pushBlock at hp ⊢
    by_cases hgt : s1.tip + 1 > env.windowAfter
    · rw [if_pos hgt] at hp ⊢
      split at hp
      · cases hp
      · rename_i e hce
        rfl
    · rw [if_neg hgt]; rfl

theorem verdict_eq {w : Nat} {s1 s2 : State} (I1 : Inv w s1) (I2 : Inv w s2) (hw : 0 < w) (hc : s1.chain = s2.chain) {env : Env}
    (he : env.window = w) (b : Block) : verdict s1 env b = verdict s2 env b := by
  cases h1 : verdict s1 env b with
  | some c => exact (verdict_le I1 I2 hw hc he h1).symm
  | none =>
    cases h2 : verdict s2 env b with
    | none => rfl
    | some c => rw [verdict_le I2 I1 hw hc.symm he h2] at h1; cases h1

/-- **Partial** (constant window, feeds first in the blocks of both histories). Two nodes with the same chain accept the same blocks and
derive the same medians, whatever reorganisations and restarts each has been through. -/
theorem nodes_agree_partial (w : Nat) (g : Entry) (es1 es2 : List Ev) (h1 : Regular w g es1) (h2 : Regular w g es2)
    (hc : (run (start g) es1).chain = (run (start g) es2).chain) (env : Env) (he : env.window = w) (b : Block) :
    verdict (run (start g) es1) env b = verdict (run (start g) es2) env b :=
  verdict_eq h1.inv h2.inv h1.pos hc he b

theorem disconnect_ok {w : Nat} {st : State} (I : Inv w st) (h2 : 1 < st.chain.length) :
    (∃ s, disconnect st w = some s) ∧ ∃ s, disconnectCopy st w = some s := by
  have hlen := I.len
  match hc : st.chain, h2 with
  | e :: e' :: rest, _ =>
    have : ∀ top rest' b, ∃ cw, undoBlock top rest' st.chain st.tip w b = some cw := by
      intro top rest' b
      unfold undoBlock
      dsimp only
      by_cases hgt : st.tip > w
      · rw [if_pos hgt, List.getElem?_eq_getElem (by omega)]
        exact ⟨_, rfl⟩
      · rw [if_neg hgt]; exact ⟨_, rfl⟩
    constructor
    · obtain ⟨cw, hcw⟩ := this Layer.empty [st.base] e.block
      exact ⟨_, by unfold disconnect; rw [hc] at hcw ⊢; dsimp only; rw [hcw]⟩
    · obtain ⟨cw, hcw⟩ := this st.base [] e.block
      exact ⟨_, by unfold disconnectCopy; rw [hc] at hcw ⊢; dsimp only; rw [hcw]⟩

/-- **Partial** (as above). Connecting a block and disconnecting it, on the node or on a copy, gives back the chain and a window that
treats every later block alike. -/
theorem disconnect_restores_partial (w : Nat) (g : Entry) (es : List Ev) (hR : Regular w g es) (env : Env) (b : Block) (st' : State)
    (he : (Ev.connect env b).Regular w) (h : connect (run (start g) es) env b = some st') :
    (∃ s, disconnect st' w = some s ∧ s.chain = (run (start g) es).chain ∧
      ∀ env' b', env'.window = w → verdict s env' b' = verdict (run (start g) es) env' b') ∧
    ∃ s, disconnectCopy st' w = some s ∧ s.chain = (run (start g) es).chain ∧
      ∀ env' b', env'.window = w → verdict s env' b' = verdict (run (start g) es) env' b' := by
  have I := hR.inv
  obtain ⟨I', med, hchain⟩ := connect_inv hR.pos I he.2.1 he.2.2 h
  have hl : 1 < st'.chain.length := by
    have := List.length_pos_iff.2 I.ne
    rw [hchain, List.length_cons]; omega
  obtain ⟨⟨s, hs⟩, s', hs'⟩ := disconnect_ok I' hl
  obtain ⟨J, hj⟩ := disconnect_inv hR.pos I' hs
  obtain ⟨J', hj'⟩ := disconnectCopy_inv hR.pos I' hs'
  rw [hchain] at hj hj'
  exact ⟨⟨s, hs, hj, fun env' b' e => verdict_eq J I hR.pos hj e b'⟩, s', hs', hj', fun env' b' e => verdict_eq J' I hR.pos hj' e b'⟩

/-- **Partial** (as above). A restart changes nothing. -/
theorem restart_same_partial (w : Nat) (g : Entry) (es : List Ev) (hR : Regular w g es) (env : Env) (he : env.window = w) (b : Block) :
    verdict (restart (run (start g) es) w) env b = verdict (run (start g) es) env b :=
  verdict_eq (restart_inv hR.inv) hR.inv hR.pos rfl he b

/-! ## C78: the recorded feed height -/

/-- Height of the last block of a chain that feeds `p`. -/
def lastFed : List Entry → Pair → Option Nat
  | [], _ => none
  | e :: es, p => if fed e.block p ≠ [] then some es.length else lastFed es p

/-- The medians of every block of the chain give the height of the last feed of `p`. -/
def Heights (p : Pair) : List Entry → Prop
  | [] => True
  | e :: es => (find e.medians p).map (·.last) = lastFed (e :: es) p ∧ Heights p es

theorem lastFed_some {es : List Entry} {p : Pair} : (lastFed es p).isSome = true ↔ ∃ e ∈ es, fed e.block p ≠ [] := by
  induction es with
  | nil => simp [lastFed]
  | cons e es ih =>
    unfold lastFed
    by_cases h : fed e.block p ≠ []
    · rw [if_pos h]; simp [h]
    · rw [if_neg h, ih]; simp only [ne_eq, Decidable.not_not] at h; simp [h]

/-- Every event keeps `p` tracked, the window at `w`, the feeds first and the prices below `2^63`. -/
def Ev.Feeds (w : Nat) (p : Pair) : Ev → Prop
  | .connect env b => (Ev.connect env b).Regular w ∧ Tracked env p ∧ ∀ x ∈ fed b p, x.2 < 2 ^ 63
  | e => e.Regular w

theorem Ev.Feeds.regular {w : Nat} {p : Pair} {e : Ev} (h : e.Feeds w p) : e.Regular w := by
  cases e with
  | connect env b => exact h.1
  | disconnect _ => exact h
  | disconnectCopy _ => exact h
  | restart _ => exact h

structure HInv (w : Nat) (p : Pair) (st : State) : Prop where
  inv : Inv w st
  priced : Priced st
  small : ∀ e ∈ st.chain, ∀ x ∈ fed e.block p, x.2 < 2 ^ 63
  heights : Heights p st.chain

theorem connect_heights {w : Nat} {p : Pair} {st st' : State} {env : Env} {b : Block} (hw : 0 < w) (H : HInv w p st)
    (hf : (Ev.connect env b).Feeds w p) (h : connect st env b = some st') : HInv w p st' := by
  obtain ⟨⟨hew, hea, ho⟩, hT, hsmall⟩ := hf
  have I := H.inv
  obtain ⟨I', med, hchain⟩ := connect_inv hw I hea ho h
  have hP' : Priced st' := by
    have := step_priced (e := .connect env b) H.priced
    have e : step st (.connect env b) = st' := by
      show (connect _ _ _).getD _ = _
      rw [h]; rfl
    rwa [e] at this
  have hsm : ∀ e ∈ st'.chain, ∀ x ∈ fed e.block p, x.2 < 2 ^ 63 := by
    rw [hchain]
    intro e he
    rcases List.mem_cons.1 he with rfl | he
    · exact hsmall
    · exact H.small e he
  refine ⟨I', hP', hsm, ?_⟩
  obtain ⟨pre, c, post, rfl, hm, _, _⟩ := connect_medians I hw hew h
  have hmed : st'.medians = med := by unfold State.medians; rw [hchain]
  have hfed : fed (pre ++ .median c :: post) p = fed pre p := ordered_split ho p
  have hm := hm p
  rw [hmed] at hm
  rw [hchain]
  refine ⟨?_, H.heights⟩
  dsimp only
  rw [hm]
  have hprev : (find st.medians p).map (·.last) = lastFed st.chain p := by
    have hne := I.ne
    have := H.heights
    unfold State.medians
    cases hc : st.chain with
    | nil => exact absurd hc hne
    | cons e es => rw [hc] at this; exact this.1
  have hmid : ∀ (l : List Nat), l ≠ [] → (∀ v ∈ l, ∃ e ∈ st'.chain, ∃ x ∈ fed e.block p, v = x.2) → medianNumber l ≠ 0 := by
    intro l hl hv
    refine median_pos hl (fun v hv' => ?_) (fun v hv' => ?_)
    · obtain ⟨e, he, x, hx, rfl⟩ := hv v hv'; exact hP'.1 e he p x hx
    · obtain ⟨e, he, x, hx, rfl⟩ := hv v hv'; exact hsm e he x hx
  have hrec : recent (⟨pre, []⟩ :: st.chain) w p = recent st'.chain w p := by
    rw [hchain]
    unfold recent
    simp only [List.length_cons, Nat.add_sub_cancel]
    generalize min w st.chain.length = n
    cases n with
    | zero => rfl
    | succ n => simp only [List.take_succ_cons, List.flatMap_cons]; rw [hfed]
  have hmem : ∀ v ∈ recent st'.chain w p, ∃ e ∈ st'.chain, ∃ x ∈ fed e.block p, v = x.2 := by
    intro v hv
    unfold recent at hv
    simp only [List.mem_map, List.mem_flatMap] at hv
    obtain ⟨y, ⟨e, he', hy⟩, rfl⟩ := hv
    exact ⟨e, List.mem_of_mem_take he', y, hy, rfl⟩
  have hlen := I.len
  unfold expected
  dsimp only
  rw [hrec]
  unfold lastFed
  dsimp only
  rw [hfed]
  by_cases hf : fed pre p ≠ []
  · have hne : recent st'.chain w p ≠ [] := by
      rw [← hrec]
      unfold recent
      simp only [List.length_cons, Nat.add_sub_cancel, hlen]
      obtain ⟨n, hn⟩ : ∃ n, min w (st.tip + 1) = n + 1 := ⟨min w (st.tip + 1) - 1, by omega⟩
      rw [hn]
      simp [hf]
    have h0 := hmid _ hne hmem
    cases hfm : find st.medians p with
    | none => simp [hT, h0, hf, hlen]
    | some prev => simp [hT, h0, hf, hlen]
  · simp only [hf, if_false]
    cases hfm : find st.medians p with
    | none =>
      rw [hfm] at hprev
      have hnone : recent st'.chain w p = [] := by
        refine List.eq_nil_iff_forall_not_mem.2 (fun v hv => ?_)
        obtain ⟨e, he, x, hx, _⟩ := hmem v hv
        rw [hchain] at he
        rcases List.mem_cons.1 he with rfl | he
        · dsimp only at hx; rw [hfed] at hx
          exact hf (fun e => by rw [e] at hx; cases hx)
        · have := lastFed_some.2 ⟨e, he, fun e => by rw [e] at hx; cases hx⟩
          rw [← hprev] at this; cases this
      rw [hnone, ← hprev]
      simp [medianNumber]
    | some prev =>
      rw [hfm] at hprev
      have hpp : prev.price ≠ 0 := priced_medians H.priced _ (find_mem hfm)
      rw [← hprev]
      by_cases h0 : medianNumber (recent st'.chain w p) = 0
      · simp [h0, hT, hpp]
      · simp [h0, hT]

theorem step_heights {w : Nat} {p : Pair} {st : State} {e : Ev} (hw : 0 < w) (H : HInv w p st) (hf : e.Feeds w p) :
    HInv w p (step st e) := by
  have I := step_inv hw H.inv hf.regular
  have P := step_priced (e := e) H.priced
  have htail : ∀ c, c = st.chain.tail → (∀ e ∈ c, ∀ x ∈ fed e.block p, x.2 < 2 ^ 63) ∧ Heights p c := by
    rintro c rfl
    refine ⟨fun e he => H.small e (List.mem_of_mem_tail he), ?_⟩
    have := H.heights
    cases hc : st.chain with
    | nil => trivial
    | cons x xs => rw [hc] at this; exact this.2
  cases ha : apply st e with
  | none =>
    have : step st e = st := by unfold step; rw [ha]; rfl
    rw [this]; exact H
  | some st' =>
    have hs : step st e = st' := by unfold step; rw [ha]; rfl
    rw [hs] at I P ⊢
    cases e with
    | connect env b => exact connect_heights hw H hf ha
    | disconnect w' => cases hf; obtain ⟨_, hc⟩ := disconnect_inv hw H.inv ha; exact ⟨I, P, (htail _ hc).1, (htail _ hc).2⟩
    | disconnectCopy w' => cases hf; obtain ⟨_, hc⟩ := disconnectCopy_inv hw H.inv ha; exact ⟨I, P, (htail _ hc).1, (htail _ hc).2⟩
    | restart w' => cases ha; exact ⟨I, P, H.small, H.heights⟩

/-- **Partial** (constant window, feeds first, prices below `2^63`, the pair tracked at every block). The feed height recorded with the
median of a pair is that of the last block of the chain that feeds it, and there is a median exactly when some block has. -/
theorem last_feed_height_partial (w : Nat) (hw : 0 < w) (g : Entry) (hg : ∀ t ∈ g.block, t.isFeed = false) (hm : g.medians = [])
    (p : Pair) (es : List Ev) (hf : ∀ e ∈ es, e.Feeds w p) :
    (find (run (start g) es).medians p).map (·.last) = lastFed (run (start g) es).chain p := by
  have : ∀ (es : List Ev) (st : State), HInv w p st → (∀ e ∈ es, e.Feeds w p) → HInv w p (run st es) := by
    intro es
    induction es with
    | nil => intro st h _; exact h
    | cons e es ih =>
      intro st h hf
      exact ih _ (step_heights hw h (hf e (by simp))) (fun x hx => hf x (by simp [hx]))
  have H := this es (start g) ⟨start_inv w hg, start_priced hg hm,
    (fun e he x hx => by rw [List.mem_singleton.1 he, fed_of_no_feed hg] at hx; cases hx),
    ⟨by simp [lastFed, fed_of_no_feed hg, hm, find], trivial⟩⟩ hf
  have hne := H.inv.ne
  have hh := H.heights
  unfold State.medians
  cases hc : (run (start g) es).chain with
  | nil => exact absurd hc hne
  | cons e es => rw [hc] at hh; exact hh.1

/-! ## Examples -/

def pq : Pair := ("WICC", "USD")

/-- Anyone may feed the one pair; the window is `w`, and `w'` when the block is pushed. -/
def env0 (w w' : Nat) : Env := ⟨w, w', [pq], fun _ => some true, fun _ => true, fun _ => true⟩

def gen0 : Entry := ⟨[.other], []⟩

/-- Feeds of two delegates, then the median transaction. -/
def feeds2 (v v' m : Nat) : Block := [.feed 1 [(pq, v)], .feed 2 [(pq, v')], .median [(pq, m)]]

def feeds1 (v m : Nat) : Block := [.feed 1 [(pq, v)], .median [(pq, m)]]

def quiet (m : Nat) : Block := [.median [(pq, m)], .other]

/-- The median transaction before the feed. -/
def late (v m : Nat) : Block := [.median [(pq, m)], .feed 1 [(pq, v)]]

def hist0 : List Ev := [.connect (env0 2 2) (feeds2 100 300 200), .connect (env0 2 2) (feeds2 500 700 400), .restart 2,
  .connect (env0 2 2) (quiet 600), .disconnect 2, .disconnectCopy 2]

theorem regular0 : Regular 2 gen0 hist0 :=
  ⟨by decide, by decide, by intro e he; fin_cases he <;> simp [Ev.Regular, env0, feeds2, quiet] <;> decide⟩

/-- The hypotheses of the window theorems hold, all events succeed, and the block is accepted. -/
example : (Ev.connect (env0 2 2) (feeds2 10 20 60)).Regular 2 ∧ Tracked (env0 2 2) pq ∧ (run (start gen0) hist0).chain.length = 2 ∧
    (connect (run (start gen0) hist0) (env0 2 2) (feeds2 10 20 60)).map
      (fun st' => (recent st'.chain 2 pq, (find st'.medians pq).map (fun d => (d.price, d.last)))) =
        some ([10, 20, 100, 300], some (60, 2)) :=
  ⟨by simp [Ev.Regular, env0, feeds2]; decide, by decide +kernel, by decide +kernel, by decide +kernel⟩

/-- A second price of the same feeder is refused, a wrong median is refused. -/
example : verdict (run (start gen0) hist0) (env0 2 2) [.feed 1 [(pq, 10)], .feed 1 [(pq, 20)], .median [(pq, 60)]] = none ∧
    verdict (run (start gen0) hist0) (env0 2 2) (feeds2 10 20 61) = none :=
  ⟨by rw [← Option.isNone_iff_eq_none]; decide +kernel, by rw [← Option.isNone_iff_eq_none]; decide +kernel⟩

/-- Two different histories with the same chain. -/
example : (run (start gen0) hist0).chain = (run (start gen0) (hist0.take 1)).chain := by rfl

example : ∀ e ∈ hist0, e.Feeds 2 pq := by
  intro e he
  fin_cases he
  · exact ⟨⟨rfl, rfl, by decide⟩, by decide +kernel, by decide +kernel⟩
  · exact ⟨⟨rfl, rfl, by decide⟩, by decide +kernel, by decide +kernel⟩
  · exact rfl
  · exact ⟨⟨rfl, rfl, by decide⟩, by decide +kernel, by decide +kernel⟩
  · exact rfl
  · exact rfl

/-! ## Violations -/

/-- **Violated.** Nothing makes a block list its feeds first. A feed after the median transaction does not count for the block's own
median. It counts for later ones on a node that keeps running, but not on a node restarted since: the two nodes have the same chain
and refuse each other's blocks. -/
theorem nodes_agree_order_violated : ∃ es : List Ev, (∀ e ∈ es, ∃ b, e = .connect (env0 9 9) b) ∧
    (run (start gen0) (es ++ [.restart 9])).chain = (run (start gen0) es).chain ∧
    (verdict (run (start gen0) es) (env0 9 9) (quiet 100)).isSome = true ∧
    verdict (run (start gen0) (es ++ [.restart 9])) (env0 9 9) (quiet 100) = none :=
  ⟨[.connect (env0 9 9) (late 100 0)], by simp, rfl, by decide +kernel, by rw [← Option.isNone_iff_eq_none]; decide +kernel⟩

/-- **Violated.** Such a feed survives the disconnection of its block: the very same block is refused afterwards, as a second price of
the feeder. -/
theorem disconnect_restores_violated :
    (verdict (start gen0) (env0 9 9) (late 100 0)).isSome = true ∧
    (run (start gen0) [.connect (env0 9 9) (late 100 0), .disconnect 9]).chain = (start gen0).chain ∧
    verdict (run (start gen0) [.connect (env0 9 9) (late 100 0), .disconnect 9]) (env0 9 9) (late 100 0) = none :=
  ⟨by decide +kernel, rfl, by rw [← Option.isNone_iff_eq_none]; decide +kernel⟩

/-- The window grows from 1 to 9 blocks. -/
def grow : List Ev := [.connect (env0 1 1) (feeds1 100 100), .connect (env0 1 1) (feeds1 300 300), .connect (env0 1 1) (quiet 300),
  .connect (env0 1 9) (quiet 300)]

/-- **Violated.** When the window is enlarged the prices already dropped do not come back: the median is not that of the last 9 blocks
(100 and 300), while a node restarted since does use them. The nodes refuse each other's blocks, all of which list feeds first. -/
theorem window_growth_violated :
    ((connect (run (start gen0) grow) (env0 9 9) (quiet 300)).map
      (fun st' => (recent st'.chain 9 pq, (find st'.medians pq).map (·.price))) = some ([300, 100], some 300)) ∧
    medianNumber [300, 100] = 200 ∧
    verdict (run (start gen0) (grow ++ [.restart 9])) (env0 9 9) (quiet 300) = none ∧
    (verdict (run (start gen0) (grow ++ [.restart 9])) (env0 9 9) (quiet 200)).isSome = true ∧
    (∀ b, b = feeds1 100 100 ∨ b = feeds1 300 300 ∨ b = quiet 300 → Ordered b) :=
  ⟨by decide +kernel, by decide, by rw [← Option.isNone_iff_eq_none]; decide +kernel, by decide +kernel,
    by rintro b (rfl | rfl | rfl) <;> decide⟩

/-- **Violated.** With the feed after the median transaction the pair is fed but the recorded height is zero, which reads as a price
that was never updated. -/
theorem last_feed_height_violated :
    (let st := run (start gen0) [.connect (env0 9 9) (late 100 0), .connect (env0 9 9) (quiet 100)]
     ((find st.medians pq).map (·.last), lastFed st.chain pq)) = (some 0, some 1) := by decide +kernel

/-- The asset loses its feed permission. -/
def envOff (w : Nat) : Env := ⟨w, w, [pq], fun _ => some false, fun _ => true, fun _ => true⟩

/-- **Violated.** Likewise when the permission of an asset is withdrawn for one block and given back: the price returns with height
zero though the last feed is in the window. -/
theorem last_feed_height_permission_violated :
    (let st := run (start gen0) [.connect (env0 9 9) (feeds1 100 100), .connect (envOff 9) [.median [], .other],
      .connect (env0 9 9) (quiet 100)]
     (st.chain.length, (find st.medians pq).map (fun d => (d.price, d.last)), lastFed st.chain pq)) = (4, some (100, 0), some 1) := by
  decide +kernel

end Verif.Price
