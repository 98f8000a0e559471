import Verif.Price.Lemmas

/-!
# The window invariant
-/
namespace Verif.Price

/-! ## Executing the transactions of a block -/

theorem execTxs_append (env : Env) (base : Layer) (h : Nat) (a b : List Tx) (cw : Layer) (med : Details) :
    execTxs env base h (a ++ b) cw med = (execTxs env base h a cw med).bind (fun x => execTxs env base h b x.1 x.2) := by
  induction a generalizing cw med with
  | nil => rfl
  | cons t a ih =>
    cases t with
    | feed r pts =>
      simp only [List.cons_append, execTxs]
      by_cases h1 : (!feedOk env pts) = true
      · rw [if_pos h1, if_pos h1]; rfl
      · rw [if_neg h1, if_neg h1]
        by_cases h2 : (!env.feeder r) = true
        · rw [if_pos h2, if_pos h2]; rfl
        · rw [if_neg h2, if_neg h2]
          rcases hx : addPrice cw [base] h r pts with ⟨cw', ok⟩
          cases ok with
          | false => rfl
          | true => exact ih _ _
    | median c =>
      simp only [List.cons_append, execTxs]
      cases hx : calcDetails env med h [cw, base] with
      | none => rfl
      | some d =>
        dsimp only
        by_cases h1 : claimOk c d = true
        · rw [if_pos h1, if_pos h1]; exact ih _ _
        · rw [if_neg h1, if_neg h1]; rfl
    | other => exact ih _ _

/-- What the layer of a block holds after the transactions `done`: their feeds, nothing else. -/
structure Holds (h : Nat) (cw : Layer) (done : List Tx) : Prop where
  other : ∀ p k, k ≠ h → cw.users p k = none
  here : ∀ p, (usr cw p h).Perm (fed done p)
  distinct : Distinct done

theorem holds_empty (h : Nat) : Holds h Layer.empty [] :=
  ⟨fun _ _ _ => rfl, fun _ => List.Perm.refl _, fun _ => List.nodup_nil⟩

theorem holds_skip {h : Nat} {cw : Layer} {done : List Tx} {t : Tx} (H : Holds h cw done) (ht : t.isFeed = false) :
    Holds h cw (done ++ [t]) := by
  have e : ∀ p, fed (done ++ [t]) p = fed done p := fun p => by
    rw [fed_append, fed_of_no_feed (b := [t]) (by simpa using ht), List.append_nil]
  exact ⟨H.other, fun p => by rw [e]; exact H.here p, fun p => by rw [e]; exact H.distinct p⟩

theorem execTxs_holds {env : Env} {base : Layer} {h : Nat} (hb : ∀ p, usr base p h = []) :
    ∀ (ts : List Tx) (cw : Layer) (med : Details) (cw' : Layer) (med' : Details) (done : List Tx), Holds h cw done →
      execTxs env base h ts cw med = some (cw', med') → Holds h cw' (done ++ ts) := by
  intro ts
  induction ts with
  | nil => intro cw med cw' med' done H hx; cases hx; simpa using H
  | cons t ts ih =>
    intro cw med cw' med' done H hx
    rw [List.append_cons]
    cases t with
    | feed r pts =>
      simp only [execTxs, Option.ite_none_left_eq_some] at hx
      obtain ⟨_, _, hx⟩ := hx
      rcases ha : addPrice cw [base] h r pts with ⟨cw1, ok⟩
      rw [ha] at hx
      cases ok with
      | false => cases hx
      | true =>
        dsimp only at hx
        refine ih _ _ _ _ (done ++ [.feed r pts]) ?_ hx
        obtain ⟨a1, a2, a3⟩ := addPrice_spec [base] h r pts cw (by intro l hl p; rw [List.mem_singleton.1 hl]; exact hb p)
        rw [ha] at a1 a2 a3
        have hn : ∀ p, ((usr cw p h).map (·.1)).Nodup := fun p => by
          rw [((H.here p).map _).nodup_iff]; exact H.distinct p
        have e : ∀ p, fed (done ++ [.feed r pts]) p = fed done p ++ feedsOf p (.feed r pts) := fun p => by
          rw [fed_append]; simp [fed]
        refine ⟨fun p k hk => (a1 p k hk).trans (H.other p k hk), fun p => ?_, fun p => ?_⟩
        · rw [e]; exact (a3 rfl p).trans (List.Perm.append_right _ (H.here p))
        · have := (a2 hn).1 rfl p
          rw [e]
          rw [((List.Perm.append_right _ (H.here p)).map _).nodup_iff] at this
          exact this
    | median c =>
      simp only [execTxs] at hx
      cases hc : calcDetails env med h [cw, base] with
      | none => rw [hc] at hx; cases hx
      | some d =>
        rw [hc] at hx
        dsimp only at hx
        simp only [Option.ite_none_right_eq_some] at hx
        exact ih _ _ _ _ _ (holds_skip H rfl) hx.2
    | other => exact ih _ _ _ _ _ (holds_skip H rfl) hx

/-- Without a median transaction the medians stay. -/
theorem execTxs_medians {env : Env} {base : Layer} {h : Nat} :
    ∀ (ts : List Tx) (cw : Layer) (med : Details) (cw' : Layer) (med' : Details), (∀ t ∈ ts, t.isMedian = false) →
      execTxs env base h ts cw med = some (cw', med') → med' = med := by
  intro ts
  induction ts with
  | nil => intro cw med cw' med' _ hx; cases hx; rfl
  | cons t ts ih =>
    intro cw med cw' med' hm hx
    have hm' : ∀ t ∈ ts, t.isMedian = false := fun t ht => hm t (by simp [ht])
    cases t with
    | feed r pts =>
      simp only [execTxs, Option.ite_none_left_eq_some] at hx
      obtain ⟨_, _, hx⟩ := hx
      rcases ha : addPrice cw [base] h r pts with ⟨cw1, ok⟩
      rw [ha] at hx
      cases ok with
      | false => cases hx
      | true => exact ih _ _ _ _ hm' hx
    | median c => have := hm (.median c) (by simp); cases this
    | other => exact ih _ _ _ _ hm' hx

/-! ## The chain -/

/-- The prices fed at height `k` of a chain (the tip first). -/
def fedAt (chain : List Entry) (k : Nat) (p : Pair) : List (Nat × Nat) :=
  match chain[chain.length - 1 - k]? with
  | some e => fed e.block p
  | none => []

theorem fedAt_cons_top (e : Entry) (chain : List Entry) (p : Pair) : fedAt (e :: chain) chain.length p = fed e.block p := by
  simp [fedAt]

theorem fedAt_cons (e : Entry) (chain : List Entry) (p : Pair) {k : Nat} (hk : k < chain.length) :
    fedAt (e :: chain) k p = fedAt chain k p := by
  unfold fedAt
  have : (e :: chain).length - 1 - k = (chain.length - 1 - k) + 1 := by simp only [List.length_cons]; omega
  rw [this, List.getElem?_cons_succ]

def GoodBlock (b : Block) : Prop := Ordered b ∧ Distinct b ∧ (b.length < 2 → ∀ p, fed b p = [])

/-- The cache holds the feeds of the last `w` blocks and nothing else. -/
structure Inv (w : Nat) (st : State) : Prop where
  ne : st.chain ≠ []
  gen : ∀ p, fedAt st.chain 0 p = []
  good : ∀ e ∈ st.chain, GoodBlock e.block
  win : ∀ p k, (usr st.base p k).Perm (if k ≤ st.tip ∧ st.tip < k + w then fedAt st.chain k p else [])

theorem Inv.len {w : Nat} {st : State} (h : Inv w st) : st.chain.length = st.tip + 1 := by
  have := List.length_pos_iff.2 h.ne
  unfold State.tip; omega

theorem Inv.above {w : Nat} {st : State} (h : Inv w st) (p : Pair) {k : Nat} (hk : st.tip < k) : usr st.base p k = [] := by
  have := h.win p k
  rw [if_neg (by omega)] at this
  exact List.perm_nil.1 this

theorem good_fed_lead {b : Block} (h : GoodBlock b) (p : Pair) : fed (b.takeWhile Tx.isFeed) p = fed b p := fed_lead h.1 p

theorem one_median_long {b : Block} (hm : (b.filter Tx.isMedian).length = 1) (h : b.length < 2) (p : Pair) : fed b p = [] := by
  match b with
  | [] => rfl
  | [t] =>
    cases t with
    | feed r pts => simp [Tx.isMedian] at hm
    | median c => rfl
    | other => rfl
  | t :: t' :: b => simp at h; omega

/-- What a successful connection consists of. -/
theorem connect_some {st st' : State} {env : Env} {b : Block} (h : connect st env b = some st') :
    (b.filter Tx.isMedian).length = 1 ∧ ∃ cw med cw', execTxs env st.base (st.tip + 1) b Layer.empty st.medians = some (cw, med) ∧
      pushBlock cw (⟨b, med⟩ :: st.chain) (st.tip + 1) env.windowAfter = some cw' ∧
      st' = ⟨batchWrite st.base cw', ⟨b, med⟩ :: st.chain⟩ := by
  unfold connect at h
  simp only [Option.ite_none_left_eq_some, Decidable.not_not] at h
  obtain ⟨h1, h⟩ := h
  cases hx : execTxs env st.base (st.tip + 1) b Layer.empty st.medians with
  | none => rw [hx] at h; cases h
  | some x =>
    obtain ⟨cw, med⟩ := x
    rw [hx] at h
    dsimp only at h
    cases hp : pushBlock cw (⟨b, med⟩ :: st.chain) (st.tip + 1) env.windowAfter with
    | none => rw [hp] at h; cases h
    | some cw' => rw [hp] at h; cases h; exact ⟨h1, cw, med, cw', rfl, hp, rfl⟩

theorem connect_inv {w : Nat} {st st' : State} {env : Env} {b : Block} (hw : 0 < w) (I : Inv w st) (he : env.windowAfter = w)
    (hb : Ordered b) (h : connect st env b = some st') : Inv w st' ∧ ∃ med, st'.chain = ⟨b, med⟩ :: st.chain := by
  obtain ⟨hm, cw, med, cw', hx, hp, rfl⟩ := connect_some h
  have hlen := I.len
  have H : Holds (st.tip + 1) cw b := by
    have := execTxs_holds (fun p => I.above p (by omega)) b _ _ _ _ [] (holds_empty _) hx
    simpa using this
  have hgood : GoodBlock b := ⟨hb, H.distinct, fun hl p => one_median_long hm hl p⟩
  have htip : State.tip ⟨batchWrite st.base cw', ⟨b, med⟩ :: st.chain⟩ = st.tip + 1 := by
    show st.chain.length + 1 - 1 = st.tip + 1
    omega
  have hfed : ∀ p k, k ≤ st.tip → fedAt (⟨b, med⟩ :: st.chain) k p = fedAt st.chain k p := fun p k hk =>
    fedAt_cons _ _ _ (by omega)
  have htop : ∀ p, fedAt (⟨b, med⟩ :: st.chain) (st.tip + 1) p = fed b p := fun p => by
    have := fedAt_cons_top ⟨b, med⟩ st.chain p
    rw [hlen] at this; exact this
  refine ⟨⟨by simp, fun p => by show fedAt (⟨b, med⟩ :: st.chain) 0 p = []; rw [hfed p 0 (by omega)]; exact I.gen p, fun e hm => ?_, fun p k => ?_⟩, med, rfl⟩
  · rcases List.mem_cons.1 hm with rfl | hm
    · exact hgood
    · exact I.good e hm
  · rw [htip]
    show (usr (batchWrite st.base cw') p k).Perm (if k ≤ st.tip + 1 ∧ st.tip + 1 < k + w then fedAt (⟨b, med⟩ :: st.chain) k p else [])
    -- the layer before deletion, at the new height
    have hnew : (usr cw p (st.tip + 1)).Perm (fed b p) := H.here p
    have hnd : ((usr cw p (st.tip + 1)).map (·.1)).Nodup := by
      rw [(hnew.map _).nodup_iff]; exact H.distinct p
    unfold pushBlock at hp
    rw [he] at hp
    by_cases hgt : st.tip + 1 > w
    · rw [if_pos hgt] at hp
      cases hc : (⟨b, med⟩ :: st.chain : List Entry)[w]? with
      | none => rw [hc] at hp; cases hp
      | some e =>
        rw [hc] at hp
        cases hp
        have hemem : e ∈ st.chain := by
          cases w with
          | zero => omega
          | succ n => rw [List.getElem?_cons_succ] at hc; exact List.mem_of_getElem? hc
        have hefed : fedAt st.chain (st.tip + 1 - w) p = fed e.block p := by
          unfold fedAt
          have : st.chain.length - 1 - (st.tip + 1 - w) = w - 1 := by omega
          rw [this]
          cases w with
          | zero => omega
          | succ n =>
            rw [List.getElem?_cons_succ] at hc
            simp [hc]
        by_cases h1 : k = st.tip + 1 - w
        · subst h1
          rw [if_neg (by omega)]
          rcases users_delete_same cw (st.tip + 1 - w) e.block p with hd | ⟨hd, hnl, _⟩
          · unfold usr; rw [users_batchWrite, hd]; exact List.Perm.refl _
          · rw [usr_flush_none hd]
            have := I.win p (st.tip + 1 - w)
            rw [if_pos (by omega), hefed, ← good_fed_lead (I.good e hemem), not_leadPairs hnl] at this
            exact this
        · by_cases h2 : k = st.tip + 1
          · subst h2
            rw [if_pos (by omega), htop]
            have hu : (deleteBlock cw (st.tip + 1 - w) e.block).users p (st.tip + 1) = cw.users p (st.tip + 1) :=
              users_delete _ _ _ _ _ h1
            have hu' : usr (deleteBlock cw (st.tip + 1 - w) e.block) p (st.tip + 1) = usr cw p (st.tip + 1) := by
              unfold usr; rw [hu]
            have := usr_flush_some (base := st.base) (child := deleteBlock cw (st.tip + 1 - w) e.block) (p := p)
              (I.above p (Nat.lt_succ_self st.tip)) (by rw [hu']; exact hnd)
            rw [hu'] at this
            exact this.trans hnew
          · rw [usr_flush_none (by rw [users_delete _ _ _ _ _ h1]; exact H.other p k h2)]
            refine (I.win p k).trans ?_
            by_cases h3 : k ≤ st.tip ∧ st.tip < k + w
            · rw [if_pos h3, if_pos (by omega), hfed p k h3.1]
            · rw [if_neg h3, if_neg (by omega)]
    · rw [if_neg hgt] at hp
      cases hp
      by_cases h2 : k = st.tip + 1
      · subst h2
        rw [if_pos (by omega), htop]
        exact (usr_flush_some (I.above p (Nat.lt_succ_self st.tip)) hnd).trans hnew
      · rw [usr_flush_none (H.other p k h2)]
        refine (I.win p k).trans ?_
        by_cases h3 : k ≤ st.tip
        · rw [if_pos (by omega)]
          by_cases h4 : st.tip + 1 < k + w
          · rw [if_pos (by omega), hfed p k h3]
          · rw [if_neg (by omega)]
            have : k = 0 := by omega
            subst this
            rw [I.gen]
        · rw [if_neg (by omega), if_neg (by omega)]

/-- Adding the block at height `k` again. -/
theorem addBlock_good {top : Layer} {rest : List Layer} {k : Nat} {b : Block} (hb : GoodBlock b)
    (ht : ∀ p, usr top p k = []) (hrest : ∀ l ∈ rest, ∀ p, usr l p k = []) :
    (∀ p j, j ≠ k → (addBlock top rest k b).users p j = top.users p j) ∧ ∀ p, (usr (addBlock top rest k b) p k).Perm (fed b p) := by
  unfold addBlock
  by_cases hl : b.length + 1 < 3
  · rw [if_pos hl]
    exact ⟨fun _ _ _ => rfl, fun p => by rw [ht, hb.2.2 (by omega)]⟩
  · rw [if_neg hl]
    obtain ⟨a1, a2⟩ := addFeeds_spec rest k b top hrest (fun p => by
      rw [ht, List.nil_append, good_fed_lead hb]; exact hb.2.1 p)
    refine ⟨a1, fun p => ?_⟩
    have := a2 p
    rwa [ht, List.nil_append, good_fed_lead hb] at this

/-- Removing the tip, whatever the layer is called. -/
theorem undo_inv {w : Nat} {st : State} {e e' : Entry} {rest : List Entry} (hw : 0 < w) (I : Inv w st)
    (hc : st.chain = e :: e' :: rest) (base' : Layer)
    (hwin : ∀ p k, (usr base' p k).Perm (if k = st.tip then [] else if k + w = st.tip then fedAt st.chain k p else usr st.base p k)) :
    Inv w ⟨base', e' :: rest⟩ := by
  have hlen := I.len
  have hl : rest.length + 1 = st.tip := by rw [hc] at hlen; simp at hlen; omega
  have htip : State.tip ⟨base', e' :: rest⟩ = st.tip - 1 := by simp [State.tip]; omega
  have hfed : ∀ p k, k < st.tip → fedAt st.chain k p = fedAt (e' :: rest) k p := fun p k hk => by
    rw [hc]; exact fedAt_cons _ _ _ (by simp; omega)
  refine ⟨by simp, fun p => ?_, fun x hx => I.good x (by rw [hc]; simp only [List.mem_cons] at hx ⊢; exact Or.inr hx), fun p k => ?_⟩
  · have := I.gen p
    rw [hfed p 0 (by omega)] at this
    exact this
  · rw [htip]
    refine (hwin p k).trans ?_
    by_cases h1 : k = st.tip
    · rw [if_pos h1, if_neg (by omega)]
    · rw [if_neg h1]
      by_cases h2 : k + w = st.tip
      · rw [if_pos h2, if_pos (by omega), hfed p k (by omega)]
      · rw [if_neg h2]
        refine (I.win p k).trans ?_
        by_cases h3 : k ≤ st.tip ∧ st.tip < k + w
        · rw [if_pos h3, if_pos (by omega), hfed p k (by omega)]
        · rw [if_neg h3, if_neg (by omega)]

theorem chain_at {w : Nat} {st : State} (I : Inv w st) {e : Entry} (h : st.chain[w]? = some e) (hw : w ≤ st.tip) (p : Pair) :
    fedAt st.chain (st.tip - w) p = fed e.block p := by
  have hlen := I.len
  unfold fedAt
  have : st.chain.length - 1 - (st.tip - w) = w := by omega
  rw [this, h]

/-- The window entry that comes back when the chain is as long as the window: the first block, which feeds nothing. -/
theorem back_short {w : Nat} {st : State} (I : Inv w st) (h : ¬ st.tip > w) (p : Pair) {k : Nat} (hk : k + w = st.tip) :
    fedAt st.chain k p = [] := by
  have : k = 0 := by omega
  subst this; exact I.gen p

theorem disconnect_inv {w : Nat} {st st' : State} (hw : 0 < w) (I : Inv w st) (h : disconnect st w = some st') :
    Inv w st' ∧ st'.chain = st.chain.tail := by
  unfold disconnect at h
  split at h
  · rename_i e e' rest hc
    cases hu : undoBlock Layer.empty [st.base] st.chain st.tip w e.block with
    | none => rw [hu] at h; cases h
    | some cw =>
      rw [hu] at h
      cases h
      refine ⟨undo_inv hw I hc _ ?_, by rw [hc]; rfl⟩
      intro p k
      have hefed : fed e.block p = fedAt st.chain st.tip p := by
        have hlen := I.len
        rw [hc] at hlen ⊢
        have := fedAt_cons_top e (e' :: rest) p
        simp only [List.length_cons] at hlen this
        rw [show st.tip = rest.length + 1 by omega]; exact this.symm
      have hgood := I.good e (by rw [hc]; simp)
      -- the height removed
      have hgone : ∀ c : Layer, c.users p st.tip = (deleteBlock Layer.empty st.tip e.block).users p st.tip →
          usr (batchWrite st.base c) p st.tip = [] := by
        intro c hcc
        rcases users_delete_same Layer.empty st.tip e.block p with hd | ⟨hd, hnl, _⟩
        · unfold usr; rw [users_batchWrite, hcc, hd]; rfl
        · rw [usr_flush_none (hcc.trans hd)]
          have := I.win p st.tip
          rw [if_pos (by omega), ← hefed, ← good_fed_lead hgood, not_leadPairs hnl] at this
          exact List.perm_nil.1 this
      have hkeep : ∀ q j, j ≠ st.tip → (deleteBlock Layer.empty st.tip e.block).users q j = none := fun q j hj => by
        rw [users_delete _ _ _ _ _ hj]; rfl
      unfold undoBlock at hu
      dsimp only at hu
      by_cases hgt : st.tip > w
      · rw [if_pos hgt] at hu
        cases hr : st.chain[w]? with
        | none => rw [hr] at hu; cases hu
        | some r =>
          rw [hr] at hu
          cases hu
          have hrg := I.good r (List.mem_of_getElem? hr)
          have hback := chain_at I hr (by omega)
          obtain ⟨a1, a2⟩ := addBlock_good (top := deleteBlock Layer.empty st.tip e.block) (rest := [st.base]) (k := st.tip - w) hrg
            (fun q => by unfold usr; rw [hkeep q _ (by omega)]; rfl)
            (fun l hl q => by
              rw [List.mem_singleton.1 hl]
              have := I.win q (st.tip - w)
              rw [if_neg (by omega)] at this
              exact List.perm_nil.1 this)
          by_cases h1 : k = st.tip
          · subst h1
            rw [if_pos rfl, hgone _ (a1 p _ (by omega))]
          · rw [if_neg h1]
            by_cases h2 : k + w = st.tip
            · have h2' : k = st.tip - w := by omega
              subst h2'
              rw [if_pos h2, hback]
              have hb0 : usr st.base p (st.tip - w) = [] := by
                have := I.win p (st.tip - w)
                rw [if_neg (by omega)] at this
                exact List.perm_nil.1 this
              refine (usr_flush_some hb0 ?_).trans (a2 p)
              rw [((a2 p).map _).nodup_iff]
              exact hrg.2.1 p
            · rw [if_neg h2, usr_flush_none (by rw [a1 p k (by omega)]; exact hkeep p k h1)]
      · rw [if_neg hgt] at hu
        cases hu
        by_cases h1 : k = st.tip
        · subst h1
          rw [if_pos rfl, hgone _ rfl]
        · rw [if_neg h1, usr_flush_none (hkeep p k h1)]
          by_cases h2 : k + w = st.tip
          · rw [if_pos h2, back_short I hgt p h2]
            have := I.win p k
            rw [if_neg (by omega)] at this
            exact this
          · rw [if_neg h2]
  · cases h

theorem disconnectCopy_inv {w : Nat} {st st' : State} (hw : 0 < w) (I : Inv w st) (h : disconnectCopy st w = some st') :
    Inv w st' ∧ st'.chain = st.chain.tail := by
  unfold disconnectCopy at h
  split at h
  · rename_i e e' rest hc
    cases hu : undoBlock st.base [] st.chain st.tip w e.block with
    | none => rw [hu] at h; cases h
    | some cw =>
      rw [hu] at h
      cases h
      refine ⟨undo_inv hw I hc _ ?_, by rw [hc]; rfl⟩
      intro p k
      have hgone : usr (deleteBlock st.base st.tip e.block) p st.tip = [] := by
        unfold usr
        rcases users_delete_same st.base st.tip e.block p with hd | ⟨hd, _⟩ <;> rw [hd] <;> rfl
      have hkeep : ∀ q j, j ≠ st.tip → usr (deleteBlock st.base st.tip e.block) q j = usr st.base q j := fun q j hj => by
        unfold usr; rw [users_delete _ _ _ _ _ hj]
      unfold undoBlock at hu
      dsimp only at hu
      by_cases hgt : st.tip > w
      · rw [if_pos hgt] at hu
        cases hr : st.chain[w]? with
        | none => rw [hr] at hu; cases hu
        | some r =>
          rw [hr] at hu
          cases hu
          have hrg := I.good r (List.mem_of_getElem? hr)
          have hback := chain_at I hr (by omega)
          obtain ⟨a1, a2⟩ := addBlock_good (top := deleteBlock st.base st.tip e.block) (rest := []) (k := st.tip - w) hrg
            (fun q => by
              rw [hkeep q _ (by omega)]
              have := I.win q (st.tip - w)
              rw [if_neg (by omega)] at this
              exact List.perm_nil.1 this)
            (fun l hl => by cases hl)
          have a1' : ∀ q j, j ≠ st.tip - w → usr (addBlock (deleteBlock st.base st.tip e.block) [] (st.tip - w) r.block) q j =
              usr (deleteBlock st.base st.tip e.block) q j := fun q j hj => by unfold usr; rw [a1 q j hj]
          by_cases h1 : k = st.tip
          · subst h1
            rw [if_pos rfl, a1' _ _ (by omega), hgone]
          · rw [if_neg h1]
            by_cases h2 : k + w = st.tip
            · have h2' : k = st.tip - w := by omega
              subst h2'
              rw [if_pos h2, hback]
              exact a2 p
            · rw [if_neg h2, a1' _ _ (by omega), hkeep _ _ h1]
      · rw [if_neg hgt] at hu
        cases hu
        by_cases h1 : k = st.tip
        · subst h1
          rw [if_pos rfl, hgone]
        · rw [if_neg h1, hkeep _ _ h1]
          by_cases h2 : k + w = st.tip
          · rw [if_pos h2, back_short I hgt p h2]
            have := I.win p k
            rw [if_neg (by omega)] at this
            exact this
          · rw [if_neg h2]
  · cases h

/-- Reading `n` blocks from height `h` down. -/
theorem reload_spec (es : List Entry) (n h : Nat) (l : Layer) (hl : es.length = h + 1) (hg : ∀ e ∈ es, GoodBlock e.block)
    (hlow : ∀ p k, k ≤ h → usr l p k = []) :
    ∀ p k, (usr (reload l h es n) p k).Perm (if k ≤ h ∧ h < k + n then fedAt es k p else if k ≤ h then [] else usr l p k) := by
  induction n generalizing es h l with
  | zero =>
    intro p k
    have : reload l h es 0 = l := by cases es <;> rfl
    rw [this, if_neg (by omega)]
    by_cases hk : k ≤ h
    · rw [if_pos hk, hlow p k hk]
    · rw [if_neg hk]
  | succ n ih =>
    intro p k
    cases es with
    | nil => simp at hl
    | cons e es =>
      obtain ⟨a1, a2⟩ := addBlock_good (top := l) (rest := []) (k := h) (hg e (by simp)) (fun q => hlow q h (le_refl _))
        (fun x hx => by cases hx)
      have a1' : ∀ q j, j ≠ h → usr (addBlock l [] h e.block) q j = usr l q j := fun q j hj => by unfold usr; rw [a1 q j hj]
      have hel : es.length = h := by simpa using hl
      have htop : fedAt (e :: es) h p = fed e.block p := by rw [← hel]; exact fedAt_cons_top e es p
      show (usr (reload (addBlock l [] h e.block) (h - 1) es n) p k).Perm _
      cases h with
      | zero =>
        have he : es = [] := List.length_eq_zero_iff.1 hel
        subst he
        have : reload (addBlock l [] 0 e.block) (0 - 1) [] n = addBlock l [] 0 e.block := by cases n <;> rfl
        rw [this]
        by_cases hk : k = 0
        · subst hk
          rw [if_pos (by omega), htop]; exact a2 p
        · rw [if_neg (by omega), if_neg (by omega), a1' p k hk]
      | succ h =>
        have := ih es h (addBlock l [] (h + 1) e.block) hel (fun x hx => hg x (by simp [hx]))
          (fun q j hj => by rw [a1' q j (by omega)]; exact hlow q j (by omega)) p k
        refine this.trans ?_
        by_cases h1 : k = h + 1
        · subst h1
          rw [if_neg (by omega), if_neg (by omega), if_pos (by omega), htop]
          exact a2 p
        · by_cases h2 : k ≤ h
          · by_cases h3 : h < k + n
            · rw [if_pos ⟨h2, h3⟩, if_pos (by omega), fedAt_cons _ _ _ (by omega)]
            · rw [if_neg (by omega), if_pos h2, if_neg (by omega), if_pos (by omega)]
          · rw [if_neg (by omega), if_neg h2, if_neg (by omega), if_neg (by omega), a1' p k h1]

theorem restart_inv {w : Nat} {st : State} (I : Inv w st) : Inv w (restart st w) := by
  refine ⟨I.ne, I.gen, I.good, fun p k => ?_⟩
  have := reload_spec st.chain w st.tip Layer.empty I.len I.good (fun _ _ _ => rfl) p k
  refine this.trans ?_
  show List.Perm _ (if k ≤ st.tip ∧ st.tip < k + w then fedAt st.chain k p else [])
  by_cases h : k ≤ st.tip ∧ st.tip < k + w
  · rw [if_pos h, if_pos h]
  · rw [if_neg h, if_neg h]
    split
    · exact List.Perm.refl _
    · exact List.Perm.refl _

/-- Every event uses the window `w`, every block lists its feeds first. -/
def Ev.Regular (w : Nat) : Ev → Prop
  | .connect env b => env.window = w ∧ env.windowAfter = w ∧ Ordered b
  | .disconnect w' => w' = w
  | .disconnectCopy w' => w' = w
  | .restart w' => w' = w

theorem step_inv {w : Nat} {st : State} {e : Ev} (hw : 0 < w) (I : Inv w st) (he : e.Regular w) : Inv w (step st e) := by
  unfold step
  cases h : apply st e with
  | none => exact I
  | some st' =>
    cases e with
    | connect env b => exact (connect_inv hw I he.2.1 he.2.2 h).1
    | disconnect w' => have := he; unfold Ev.Regular at this; subst this; exact (disconnect_inv hw I h).1
    | disconnectCopy w' => have := he; unfold Ev.Regular at this; subst this; exact (disconnectCopy_inv hw I h).1
    | restart w' =>
      have := he; unfold Ev.Regular at this; subst this
      cases h
      exact restart_inv I

theorem run_inv {w : Nat} (hw : 0 < w) : ∀ (es : List Ev) (st : State), Inv w st → (∀ e ∈ es, e.Regular w) → Inv w (run st es) := by
  intro es
  induction es with
  | nil => intro st I _; exact I
  | cons e es ih => intro st I he; exact ih _ (step_inv hw I (he e (by simp))) (fun x hx => he x (by simp [hx]))

/-- A node that knows only the first block, which feeds nothing. -/
def start (g : Entry) : State := ⟨Layer.empty, [g]⟩

theorem start_inv (w : Nat) {g : Entry} (hg : ∀ t ∈ g.block, t.isFeed = false) : Inv w (start g) := by
  have hf : ∀ p, fed g.block p = [] := fun p => fed_of_no_feed hg p
  refine ⟨by simp [start], fun p => by simpa [fedAt, start] using hf p, fun e he => ?_, fun p k => ?_⟩
  · simp only [start, List.mem_singleton] at he
    subst he
    exact ⟨fun t ht => hg t (List.dropWhile_sublist _ |>.subset ht), fun p => by rw [hf]; exact List.nodup_nil, fun _ p => hf p⟩
  · show List.Perm [] _
    split
    · rename_i h
      have : fedAt (start g).chain k p = [] := by
        have : k = 0 := by have := h.1; simp [start, State.tip] at this; exact this
        subst this
        simpa [fedAt, start] using hf p
      rw [this]
    · exact List.Perm.refl _

end Verif.Price
