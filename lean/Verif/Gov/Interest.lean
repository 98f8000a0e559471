import Verif.Gov.Params

/-!
# Lemmas about the history of interest parameters
-/
namespace Verif.Gov

variable {σ : Type}

def nlt (a b : Nat) : Bool := decide (a < b)

/-! ## Cutting a range -/

/-- `x` lies in the segment. -/
def Seg.has (s : Seg) (x : Nat) : Bool := decide (s.lo ≤ x) && decide (x ≤ s.hi)

theorem cut_below (e : Nat) : ∀ (r : List (Nat × Params)) (b : Nat) (p : Params) (x : Nat),
    (∀ a ∈ r, b < a.1) → r.Pairwise (fun a c => a.1 < c.1) → x < b →
    (cut e b p r).filter (·.has x) = [] := by
  intro r
  induction r with
  | nil =>
    intro b p x _ _ hx
    have : (Seg.has ⟨b, e, p⟩ x) = false := by simp [Seg.has]; omega
    simp [cut, this]
  | cons a r ih =>
    intro b p x hb hs hx
    obtain ⟨h, q⟩ := a
    have hbh := hb (h, q) (by simp)
    simp only [cut]
    split
    · have : (Seg.has ⟨b, e, p⟩ x) = false := by simp [Seg.has]; omega
      simp [this]
    · have : (Seg.has ⟨b, h - 1, p⟩ x) = false := by simp [Seg.has]; omega
      rw [List.filter_cons, this]
      simp only [Bool.false_eq_true, if_false]
      exact ih h q x (fun a ha => List.rel_of_pairwise_cons hs ha) (List.Pairwise.of_cons hs) (by dsimp only at hbh; omega)

theorem cut_above (e : Nat) : ∀ (r : List (Nat × Params)) (b : Nat) (p : Params) (x : Nat),
    e < x → (cut e b p r).filter (·.has x) = [] := by
  intro r
  induction r with
  | nil =>
    intro b p x hx
    have : (Seg.has ⟨b, e, p⟩ x) = false := by simp [Seg.has]; omega
    simp [cut, this]
  | cons a r ih =>
    intro b p x hx
    obtain ⟨h, q⟩ := a
    simp only [cut]
    split
    · have : (Seg.has ⟨b, e, p⟩ x) = false := by simp [Seg.has]; omega
      simp [this]
    · have : (Seg.has ⟨b, h - 1, p⟩ x) = false := by simp [Seg.has]; omega
      rw [List.filter_cons, this]
      simp only [Bool.false_eq_true, if_false]
      exact ih h q x hx

theorem cut_at (e : Nat) : ∀ (r : List (Nat × Params)) (b : Nat) (p : Params) (x : Nat),
    (∀ a ∈ r, b < a.1) → r.Pairwise (fun a c => a.1 < c.1) → b ≤ x → x ≤ e →
    ∃ s, (cut e b p r).filter (·.has x) = [s] ∧ (scan x r (some p)).1 = some s.p := by
  intro r
  induction r with
  | nil =>
    intro b p x _ _ h1 h2
    have : (Seg.has ⟨b, e, p⟩ x) = true := by simp [Seg.has]; omega
    exact ⟨⟨b, e, p⟩, by simp [cut, this], rfl⟩
  | cons a r ih =>
    intro b p x hb hs h1 h2
    obtain ⟨h, q⟩ := a
    have hbh := hb (h, q) (by simp)
    have hr : ∀ a ∈ r, h < a.1 := fun a ha => List.rel_of_pairwise_cons hs ha
    have hs' := List.Pairwise.of_cons hs
    simp only [cut]
    split
    · rename_i he
      have : (Seg.has ⟨b, e, p⟩ x) = true := by simp [Seg.has]; omega
      refine ⟨⟨b, e, p⟩, by simp [this], ?_⟩
      simp only [scan]
      rw [if_pos (by omega)]
    · rename_i he
      dsimp only at hbh
      by_cases hx : x < h
      · have : (Seg.has ⟨b, h - 1, p⟩ x) = true := by simp [Seg.has]; omega
        refine ⟨⟨b, h - 1, p⟩, ?_, ?_⟩
        · rw [List.filter_cons, this, cut_below e r h q x hr hs' hx]
          rfl
        · simp only [scan]
          rw [if_pos (by omega)]
      · have : (Seg.has ⟨b, h - 1, p⟩ x) = false := by simp [Seg.has]; omega
        obtain ⟨s, hs1, hs2⟩ := ih h q x hr hs' (by omega) h2
        refine ⟨s, ?_, ?_⟩
        · rw [List.filter_cons, this]
          simpa using hs1
        · simp only [scan]
          rw [if_neg (by omega)]
          exact hs2

theorem cut_blocks (e : Nat) : ∀ (r : List (Nat × Params)) (b : Nat) (p : Params),
    (∀ a ∈ r, b < a.1) → r.Pairwise (fun a c => a.1 < c.1) → b ≤ e →
    ((cut e b p r).map (fun s => s.hi - s.lo)).sum + (cut e b p r).length = e - b + 1 := by
  intro r
  induction r with
  | nil => intro b p _ _ _; simp [cut]
  | cons a r ih =>
    intro b p hb hs hbe
    obtain ⟨h, q⟩ := a
    have hbh := hb (h, q) (by simp)
    have hr : ∀ a ∈ r, h < a.1 := fun a ha => List.rel_of_pairwise_cons hs ha
    simp only [cut]
    split
    · simp
    · have := ih h q hr (List.Pairwise.of_cons hs) (by omega)
      simp only [List.map_cons, List.sum_cons, List.length_cons]
      dsimp only at hbh
      omega

theorem scan_split (b : Nat) : ∀ (l : List (Nat × Params)) (acc : Option Params),
    l.Pairwise (fun a c => a.1 < c.1) →
    (∀ a ∈ (scan b l acc).2, b < a.1) ∧ (scan b l acc).2.Pairwise (fun a c => a.1 < c.1) ∧
    ∀ x, b ≤ x → (scan x l acc).1 = (scan x (scan b l acc).2 (scan b l acc).1).1 := by
  intro l
  induction l with
  | nil => intro acc _; simp [scan]
  | cons a r ih =>
    intro acc hs
    obtain ⟨h, q⟩ := a
    have hr : ∀ a ∈ r, h < a.1 := fun a ha => List.rel_of_pairwise_cons hs ha
    by_cases hb : h > b
    · have he : scan b ((h, q) :: r) acc = (acc, (h, q) :: r) := by simp [scan, hb]
      rw [he]
      refine ⟨?_, hs, fun x _ => rfl⟩
      intro a ha
      rcases List.mem_cons.mp ha with rfl | ha
      · exact hb
      · have := hr a ha; omega
    · have he : scan b ((h, q) :: r) acc = scan b r (some q) := by simp [scan, hb]
      rw [he]
      obtain ⟨h1, h2, h3⟩ := ih (some q) (List.Pairwise.of_cons hs)
      refine ⟨h1, h2, fun x hx => ?_⟩
      have : scan x ((h, q) :: r) acc = scan x r (some q) := by simp only [scan]; rw [if_neg (by omega)]
      rw [this]
      exact h3 x hx

theorem scan_default (x : Nat) : ∀ (l : List (Nat × Params)) (p d : Params),
    (scan x l (some d)).1 = some p → (scan x l none).1.getD d = p := by
  intro l
  induction l with
  | nil => intro p d h; simp [scan] at h ⊢; exact h
  | cons a r ih =>
    intro p d h
    obtain ⟨k, q⟩ := a
    simp only [scan] at h ⊢
    split at h
    · rename_i hk
      rw [if_pos hk]
      simpa using h
    · rename_i hk
      rw [if_neg hk]
      simp [h]

/-- The parameters of the last change at or before `x`. -/
def valAt (l : List (Nat × Params)) (x : Nat) : Params := (scan x l none).1.getD defParams

theorem segments_at {l : List (Nat × Params)} (hs : l.Pairwise (fun a c => a.1 < c.1)) {b e x : Nat} (h1 : b ≤ x)
    (h2 : x ≤ e) : ∃ s, (segments l b e).filter (·.has x) = [s] ∧ s.p = valAt l x := by
  obtain ⟨ha, hb, hc⟩ := scan_split b l none hs
  unfold segments
  generalize hsc : scan b l none = pr at *
  obtain ⟨o, r⟩ := pr
  cases o with
  | none =>
    obtain ⟨s, hs1, hs2⟩ := cut_at e r b defParams x ha hb h1 h2
    refine ⟨s, hs1, ?_⟩
    unfold valAt
    rw [hc x h1]
    exact (scan_default x r s.p defParams hs2).symm
  | some p =>
    obtain ⟨s, hs1, hs2⟩ := cut_at e r b p x ha hb h1 h2
    refine ⟨s, hs1, ?_⟩
    unfold valAt
    rw [hc x h1, hs2]
    rfl

theorem segments_out {l : List (Nat × Params)} (hs : l.Pairwise (fun a c => a.1 < c.1)) {b e x : Nat}
    (h : x < b ∨ e < x) : (segments l b e).filter (·.has x) = [] := by
  obtain ⟨ha, hb, _⟩ := scan_split b l none hs
  unfold segments
  generalize scan b l none = pr at *
  obtain ⟨o, r⟩ := pr
  cases o with
  | none =>
    rcases h with h | h
    · exact cut_below e r b _ x ha hb h
    · exact cut_above e r b _ x h
  | some p =>
    rcases h with h | h
    · exact cut_below e r b _ x ha hb h
    · exact cut_above e r b _ x h

theorem segments_blocks {l : List (Nat × Params)} (hs : l.Pairwise (fun a c => a.1 < c.1)) {b e : Nat} (h : b ≤ e) :
    ((segments l b e).map (fun s => s.hi - s.lo)).sum + (segments l b e).length = e - b + 1 := by
  obtain ⟨ha, hb, _⟩ := scan_split b l none hs
  unfold segments
  generalize scan b l none = pr at *
  obtain ⟨o, r⟩ := pr
  cases o with
  | none => exact cut_blocks e r b _ ha hb h
  | some p => exact cut_blocks e r b _ ha hb h

/-! ## Recording a change -/

theorem scan_put (H : Nat) (q : Params) (x : Nat) : ∀ (l : List (Nat × Params)) (acc : Option Params),
    l.Pairwise (fun a c => a.1 < c.1) → (∀ a ∈ l, a.1 ≤ H) →
    (scan x (put nlt l H q) acc).1 = if H ≤ x then some q else (scan x l acc).1 := by
  intro l
  induction l with
  | nil =>
    intro acc _ _
    simp only [put, scan]
    by_cases h : H ≤ x
    · rw [if_neg (by omega), if_pos h]
    · rw [if_pos (by omega), if_neg h]
  | cons a r ih =>
    intro acc hs hle
    obtain ⟨k, v⟩ := a
    have hkH := hle (k, v) (by simp)
    have hr : ∀ a ∈ r, k < a.1 := fun a ha => List.rel_of_pairwise_cons hs ha
    by_cases hk : H = k
    · subst hk
      have hnil : r = [] := by
        cases r with
        | nil => rfl
        | cons b r' =>
          have h1 := hr b (by simp)
          have h2 := hle b (by simp)
          omega
      subst hnil
      simp only [put, if_true, scan]
      by_cases h : H ≤ x
      · have h' : ¬ H > x := by omega
        simp [h, h']
      · have h' : H > x := by omega
        simp [h, h']
    · have hn : nlt H k = false := by simp [nlt]; exact hkH
      have he : put nlt ((k, v) :: r) H q = (k, v) :: put nlt r H q := by simp [put, hk, hn]
      rw [he]
      simp only [scan]
      dsimp only at hkH
      by_cases hx : k > x
      · rw [if_pos hx, if_pos hx, if_neg (by omega)]
      · rw [if_neg hx, if_neg hx]
        exact ih (some v) (List.Pairwise.of_cons hs) (fun a ha => hle a (by simp [ha]))

theorem valAt_put {H : Nat} {q : Params} {l : List (Nat × Params)} (x : Nat)
    (hs : l.Pairwise (fun a c => a.1 < c.1)) (hle : ∀ a ∈ l, a.1 ≤ H) :
    valAt (put nlt l H q) x = if H ≤ x then q else valAt l x := by
  unfold valAt
  rw [scan_put H q x l none hs hle]
  by_cases h : H ≤ x
  · rw [if_pos h, if_pos h]; rfl
  · rw [if_neg h, if_neg h]

theorem nlt_total : StrictTotal nlt :=
  ⟨fun a => by simp [nlt], fun a b c h1 h2 => by simp [nlt] at *; omega, fun a b h1 h2 => by simp [nlt] at *; omega⟩

theorem put_pairwise {H : Nat} {q : Params} {l : List (Nat × Params)} (hs : l.Pairwise (fun a c => a.1 < c.1)) :
    (put nlt l H q).Pairwise (fun a c => a.1 < c.1) := by
  have h1 : SortedBy nlt l := hs.imp (fun h => by simp [nlt]; exact h)
  have h2 : SortedBy nlt (put nlt l H q) := sorted_put nlt_total h1 H q
  exact h2.imp (fun h => of_decide_eq_true h)

theorem put_bound {H : Nat} {q : Params} {l : List (Nat × Params)} (hle : ∀ a ∈ l, a.1 ≤ H) :
    ∀ a ∈ put nlt l H q, a.1 ≤ H := by
  induction l with
  | nil => intro a ha; simp [put] at ha; subst ha; exact Nat.le_refl _
  | cons b r ih =>
    obtain ⟨k, v⟩ := b
    intro a ha
    simp only [put] at ha
    split at ha
    · rcases List.mem_cons.mp ha with rfl | ha
      · exact Nat.le_refl _
      · exact hle a (by simp [ha])
    · split at ha
      · rcases List.mem_cons.mp ha with rfl | ha
        · exact Nat.le_refl _
        · exact hle a ha
      · rcases List.mem_cons.mp ha with rfl | ha
        · exact hle _ (by simp)
        · exact ih (fun a ha => hle a (by simp [ha])) a ha

/-- The interest parameters of a pair as they read now. -/
def current (st : State σ) (p : Pair) : Params :=
  ⟨(present (st.cdp p 10)).getD 2, (present (st.cdp p 11)).getD 1⟩

theorem setInterest_changes {st : State σ} {p : Pair} {k H v : Nat} (hk : k = 10 ∨ k = 11) (p' : Pair)
    (hcur : (if k = 10 then (current st p).a else (current st p).b) = v) :
    (setInterest st p k H v).changes p' =
      if p' = p then put nlt (st.changes p) H (current st p) else st.changes p' := by
  have hb : getCdp st p 11 = some (current st p).b := rfl
  have ha : getCdp st p 10 = some (current st p).a := rfl
  unfold setInterest
  rcases hk with rfl | rfl
  · simp only [if_true] at hcur
    simp only [if_true, hb, Option.map_some]
    rw [← hcur]
    rfl
  · have h10 : ¬ (11 = 10) := by decide
    simp only [if_neg h10] at hcur
    simp only [if_neg h10, if_true, ha, Option.map_some]
    rw [← hcur]
    rfl

theorem setCdp_changes (H : Nat) (p p' : Pair) (ps : List (Nat × Nat)) : ∀ st : State σ,
    (∀ e ∈ ps, (e.1 = 10 ∨ e.1 = 11) → e.2 ≠ 0) →
    (st.changes p').Pairwise (fun a c => a.1 < c.1) → (∀ a ∈ st.changes p', a.1 ≤ H) →
    (∀ x, H ≤ x → valAt (st.changes p') x = current st p') →
    ((setCdp H p st ps).changes p').Pairwise (fun a c => a.1 < c.1) ∧
    (∀ a ∈ (setCdp H p st ps).changes p', a.1 ≤ H) ∧
    (∀ x, H ≤ x → valAt ((setCdp H p st ps).changes p') x = current (setCdp H p st ps) p') ∧
    (∀ x, x < H → valAt ((setCdp H p st ps).changes p') x = valAt (st.changes p') x) := by
  induction ps with
  | nil => intro st _ h1 h2 h3; exact ⟨h1, h2, h3, fun _ _ => rfl⟩
  | cons e r ih =>
    intro st hnz h1 h2 h3
    obtain ⟨k, v⟩ := e
    simp only [setCdp]
    generalize hs1 : ({ st with cdp := fun p' q => if p' = p ∧ q = k then some v else st.cdp p' q } : State σ) = st1
    have hc1 : st1.changes = st.changes := by subst hs1; rfl
    have hcur_other : k ≠ 10 → k ≠ 11 → current st1 p' = current st p' := by
      intro a b
      subst hs1
      simp [current, Ne.symm a, Ne.symm b]
    have hnzr : ∀ e ∈ r, (e.1 = 10 ∨ e.1 = 11) → e.2 ≠ 0 := fun e he => hnz e (by simp [he])
    by_cases hk : k = 10 ∨ k = 11
    · rw [if_pos hk]
      have hv : v ≠ 0 := hnz (k, v) (by simp) hk
      have hcur : (if k = 10 then (current st1 p).a else (current st1 p).b) = v := by
        subst hs1
        rcases hk with rfl | rfl
        · simp [current, present, hv]
        · simp [current, present, hv]
      have hch := setInterest_changes (H := H) hk p' hcur
      generalize hs2 : setInterest st1 p k H v = st2 at hch ⊢
      have hcdp2 : st2.cdp = st1.cdp := by subst hs2; exact (setInterest_frame st1 p k H v).2.2.2.2.1
      have hcur2 : current st2 p' = current st1 p' := by simp [current, hcdp2]
      by_cases hp : p' = p
      · rw [if_pos hp, hc1, ← hp] at hch
        have a1 : (st2.changes p').Pairwise (fun a c => a.1 < c.1) := by rw [hch]; exact put_pairwise h1
        have a2 : ∀ a ∈ st2.changes p', a.1 ≤ H := by rw [hch]; exact put_bound h2
        have a3 : ∀ x, H ≤ x → valAt (st2.changes p') x = current st2 p' := by
          intro x hx
          rw [hch, valAt_put x h1 h2, if_pos hx, hcur2]
        obtain ⟨b1, b2, b3, b4⟩ := ih st2 hnzr a1 a2 a3
        refine ⟨b1, b2, b3, fun x hx => ?_⟩
        rw [b4 x hx, hch, valAt_put x h1 h2, if_neg (by omega)]
      · rw [if_neg hp, hc1] at hch
        have hcurp : current st1 p' = current st p' := by
          subst hs1
          simp [current, hp]
        obtain ⟨b1, b2, b3, b4⟩ := ih st2 hnzr (by rw [hch]; exact h1) (by rw [hch]; exact h2)
          (fun x hx => by rw [hch, h3 x hx, hcur2, hcurp])
        refine ⟨b1, b2, b3, fun x hx => ?_⟩
        rw [b4 x hx, hch]
    · rw [if_neg hk]
      obtain ⟨b1, b2, b3, b4⟩ := ih st1 hnzr (by rw [hc1]; exact h1) (by rw [hc1]; exact h2)
        (fun x hx => by rw [hc1, h3 x hx, hcur_other (fun h => hk (Or.inl h)) (fun h => hk (Or.inr h))])
      refine ⟨b1, b2, b3, fun x hx => ?_⟩
      rw [b4 x hx, hc1]

/-! ## The history -/

/-- The settings of the executed proposals up to a height. -/
def settingsUpTo (p : Pair) (x : Nat) (log : List Done) : List (Nat × Nat) :=
  (log.filter (fun d => decide (d.height ≤ x))).flatMap (fun d => match d.kind with
    | .cdpParam p' ps => if p' = p then ps else []
    | _ => [])

/-- The interest parameters in force at a height: the last value set at or before it, else the default. -/
def inForce (p : Pair) (log : List Done) (x : Nat) : Params :=
  ⟨(lastIn 10 none (settingsUpTo p x log)).getD 2, (lastIn 11 none (settingsUpTo p x log)).getD 1⟩

theorem lastIn_append (k : Nat) (b : List (Nat × Nat)) : ∀ (a : List (Nat × Nat)) (acc : Option Nat),
    lastIn k acc (a ++ b) = lastIn k (lastIn k acc a) b := by
  intro a
  induction a with
  | nil => intro acc; rfl
  | cons e r ih => intro acc; obtain ⟨q, v⟩ := e; simp only [List.cons_append, lastIn]; exact ih _

theorem settingsUpTo_snoc (p : Pair) (x : Nat) (log : List Done) (d : Done) :
    settingsUpTo p x (log ++ [d]) = settingsUpTo p x log ++
      (if d.height ≤ x then (match d.kind with | .cdpParam p' ps => if p' = p then ps else [] | _ => []) else []) := by
  unfold settingsUpTo
  by_cases h : d.height ≤ x
  · simp [List.filter_append, h]
  · simp [List.filter_append, h]

/-- Heights at which approvals were made, in order. -/
def heights : List (Ev σ) → List Nat
  | [] => []
  | .approve ctx _ _ :: r => ctx.height :: heights r
  | _ :: r => heights r

theorem heights_append (a b : List (Ev σ)) : heights (a ++ b) = heights a ++ heights b := by
  induction a with
  | nil => rfl
  | cons e r ih => cases e <;> simp [heights, ih]

/-- The log's heights come from the events. -/
theorem log_heights (cfg : Cfg) (ds : List RegId) (s : σ) (evs : List (Ev σ)) :
    ∀ d ∈ (run cfg (genesis ds s) evs).log, d.height ∈ heights evs := by
  induction evs using List.reverseRecOn with
  | nil => intro d hd; simp [run, genesis] at hd
  | append_singleton evs e ih =>
    intro d hd
    rw [run_snoc] at hd
    rw [heights_append]
    rcases step_effect cfg (run cfg (genesis ds s) evs) e with ⟨hl, _⟩ | ⟨ctx, id, r, p, s', he, _, _, _, hs⟩
    · rw [hl] at hd; exact List.mem_append_left _ (ih d hd)
    · rw [hs] at hd
      rcases List.mem_append.mp hd with hd | hd
      · exact List.mem_append_left _ (ih d hd)
      · simp at hd; subst hd; subst he
        exact List.mem_append_right _ (by simp [heights])

/-- No executed proposal sets interest parameter A to zero. -/
def NoZeroA (log : List Done) : Prop :=
  ∀ d ∈ log, ∀ p ps, d.kind = .cdpParam p ps → ∀ e ∈ ps, e.1 = 10 → e.2 ≠ 0

theorem lastIn_some_ne {k : Nat} : ∀ {ps : List (Nat × Nat)} {acc : Option Nat},
    (∀ e ∈ ps, e.1 = k → e.2 ≠ 0) → (∀ v, acc = some v → v ≠ 0) → ∀ v, lastIn k acc ps = some v → v ≠ 0 := by
  intro ps acc h1 h2 v hv
  rcases lastIn_mem hv with h | h
  · exact h1 _ h rfl
  · exact h2 v h

theorem present_of_ne {o : Option Nat} (h : ∀ v, o = some v → v ≠ 0) : present o = o := by
  cases o with
  | none => rfl
  | some v => simp [present, h v rfl]

theorem entry_b_ne {st : State σ} {p : Pair} {ps : List (Nat × Nat)} (hall : ps.all (cdpEntryOk st p) = true) :
    ∀ e ∈ ps, e.1 = 11 → e.2 ≠ 0 := by
  intro e he h11
  have := List.all_eq_true.mp hall e he
  unfold cdpEntryOk at this
  simp only [Bool.and_eq_true] at this
  have hr := this.1.2
  rw [h11] at hr
  have := (range_bound (k := 11) (lo := 1) (hi := 100000000) rfl (by decide) hr).1
  omega

structure IInv (evs : List (Ev σ)) (st : State σ) (p : Pair) : Prop where
  sorted : (st.changes p).Pairwise (fun a c => a.1 < c.1)
  bound : ∀ a ∈ st.changes p, a.1 ∈ heights evs
  val : NoZeroA st.log → ∀ x, valAt (st.changes p) x = inForce p st.log x
  /-- what is stored is the last setting, and not zero -/
  cdp : ∀ k x, (∀ h ∈ heights evs, h ≤ x) → st.cdp p k = lastIn k none (settingsUpTo p x st.log)
  nz11 : ∀ v, st.cdp p 11 = some v → v ≠ 0
  nz10 : NoZeroA st.log → ∀ v, st.cdp p 10 = some v → v ≠ 0

theorem inForce_current {st : State σ} {p : Pair} {x : Nat} {log : List Done}
    (h10 : st.cdp p 10 = lastIn 10 none (settingsUpTo p x log)) (h11 : st.cdp p 11 = lastIn 11 none (settingsUpTo p x log))
    (n10 : ∀ v, st.cdp p 10 = some v → v ≠ 0) (n11 : ∀ v, st.cdp p 11 = some v → v ≠ 0) :
    current st p = inForce p log x := by
  unfold current inForce
  rw [present_of_ne n10, present_of_ne n11, h10, h11]

/-- The recorded history gives, at every height, the parameters in force there; A and B are stored under keys 10 and 11. -/
theorem interest_run (cfg : Cfg) (ds : List RegId) (s : σ) (p : Pair) (evs : List (Ev σ)) :
    (heights evs).Pairwise (· ≤ ·) → IInv evs (run cfg (genesis ds s) evs) p := by
  induction evs using List.reverseRecOn with
  | nil =>
    intro _
    refine ⟨by simp [run, genesis], by simp [run, genesis], ?_, ?_, ?_, ?_⟩
    · intro _ x; rfl
    · intro k x _; rfl
    · intro v h; simp [run, genesis] at h
    · intro _ v h; simp [run, genesis] at h
  | append_singleton evs e ih =>
    intro hh
    rw [heights_append] at hh
    obtain ⟨hh1, _, hh2⟩ := List.pairwise_append.mp hh
    have hi := ih hh1
    have hlogh := log_heights cfg ds s evs
    rw [run_snoc]
    generalize run cfg (genesis ds s) evs = st at hi hlogh ⊢
    rcases step_effect cfg st e with ⟨hl, hs⟩ | ⟨ctx, id, r, pr, s', he, _, hc, hx, hstep⟩
    · refine ⟨hs.changes ▸ hi.sorted, ?_, ?_, ?_, ?_, ?_⟩
      · intro a ha
        rw [hs.changes] at ha
        rw [heights_append]
        exact List.mem_append_left _ (hi.bound a ha)
      · rw [hl, hs.changes]; exact hi.val
      · intro k x hx'
        rw [hl, hs.cdp]
        exact hi.cdp k x (fun h hm => hx' h (by rw [heights_append]; exact List.mem_append_left _ hm))
      · rw [hs.cdp]; exact hi.nz11
      · rw [hl, hs.cdp]; exact hi.nz10
    · subst he
      have hhs : heights (evs ++ [Ev.approve ctx id r]) = heights evs ++ [ctx.height] := by
        rw [heights_append]; rfl
      have hle : ∀ h ∈ heights evs, h ≤ ctx.height := fun h hm => hh2 h hm ctx.height (by simp [heights])
      have hlogle : ∀ d ∈ st.log, d.height ≤ ctx.height := fun d hd => hle _ (hlogh d hd)
      by_cases hk : ∃ pp ps, pr.kind = .cdpParam pp ps
      · obtain ⟨pp, ps, hk⟩ := hk
        rw [hk] at hx hc hstep
        simp only [exec, Option.some.injEq] at hx
        simp only [check, Bool.and_eq_true] at hc
        have hst : step cfg st (Ev.approve ctx id r) =
            { setCdp ctx.height pp (noted st id r) ps with log := st.log ++ [⟨id, ctx.height, .cdpParam pp ps⟩] } := by
          rw [hstep, ← hx]
        generalize hstep' : step cfg st (Ev.approve ctx id r) = st' at hst ⊢
        have hlog' : st'.log = st.log ++ [⟨id, ctx.height, .cdpParam pp ps⟩] := by rw [hst]
        have hcdp' : ∀ k, st'.cdp p k = if p = pp then lastIn k (st.cdp pp k) ps else st.cdp p k := by
          intro k
          rw [hst]
          exact setCdp_cdp ctx.height pp p k ps (noted st id r)
        have hch' : st'.changes = (setCdp ctx.height pp (noted st id r) ps).changes := by rw [hst]
        have hcdpall : ∀ k x, (∀ h ∈ heights evs ++ [ctx.height], h ≤ x) →
            st'.cdp p k = lastIn k none (settingsUpTo p x st'.log) := by
          intro k x hx'
          rw [hlog', settingsUpTo_snoc, if_pos (hx' ctx.height (by simp)), hcdp' k, lastIn_append]
          have := hi.cdp k x (fun h hm => hx' h (List.mem_append_left _ hm))
          by_cases hp : p = pp
          · subst hp
            rw [if_pos rfl]
            simp only [if_true]
            rw [this]
          · have hp' : ¬ pp = p := fun h => hp h.symm
            rw [if_neg hp]
            simp only [if_neg hp', lastIn]
            exact this
        have hnz11 : ∀ v, st'.cdp p 11 = some v → v ≠ 0 := by
          intro v hv
          rw [hcdp'] at hv
          split at hv
          · rename_i hp
            refine lastIn_some_ne (entry_b_ne hc.2) ?_ v hv
            rw [← hp]; exact hi.nz11
          · exact hi.nz11 v hv
        have hnz0 : NoZeroA st'.log → NoZeroA st.log := fun h d hd => h d (by rw [hlog']; exact List.mem_append_left _ hd)
        have hnz10 : NoZeroA st'.log → ∀ v, st'.cdp p 10 = some v → v ≠ 0 := by
          intro hz v hv
          rw [hcdp'] at hv
          split at hv
          · rename_i hp
            refine lastIn_some_ne (fun e he h => ?_) ?_ v hv
            · exact hz ⟨id, ctx.height, .cdpParam pp ps⟩ (by rw [hlog']; simp) pp ps rfl e he h
            · rw [← hp]; exact hi.nz10 (hnz0 hz)
          · exact hi.nz10 (hnz0 hz) v hv
        -- the structural part does not need the absence of zeros
        have hstruct : ((setCdp ctx.height pp (noted st id r) ps).changes p).Pairwise (fun a c => a.1 < c.1) ∧
            ∀ a ∈ (setCdp ctx.height pp (noted st id r) ps).changes p, a.1 ∈ heights evs ++ [ctx.height] := by
          have : ∀ (ps : List (Nat × Nat)) (t : State σ),
              (t.changes p).Pairwise (fun a c => a.1 < c.1) → (∀ a ∈ t.changes p, a.1 ∈ heights evs ++ [ctx.height]) →
              ((setCdp ctx.height pp t ps).changes p).Pairwise (fun a c => a.1 < c.1) ∧
              ∀ a ∈ (setCdp ctx.height pp t ps).changes p, a.1 ∈ heights evs ++ [ctx.height] := by
            intro ps
            induction ps with
            | nil => intro t h1 h2; exact ⟨h1, h2⟩
            | cons e rr ihp =>
              intro t h1 h2
              obtain ⟨k, v⟩ := e
              simp only [setCdp]
              apply ihp
              · split
                · unfold setInterest
                  dsimp only
                  split
                  · exact h1
                  · dsimp only
                    split
                    · rename_i hpp
                      rw [← hpp]
                      exact put_pairwise h1
                    · exact h1
                · exact h1
              · split
                · unfold setInterest
                  dsimp only
                  split
                  · exact h2
                  · dsimp only
                    split
                    · rename_i hpp
                      rw [← hpp]
                      intro a ha
                      rcases mem_put ha with h | h
                      · subst h; simp
                      · exact h2 a h
                    · exact h2
                · exact h2
          exact this ps (noted st id r) hi.sorted
            (fun a ha => List.mem_append_left _ (hi.bound a ha))
        refine ⟨by rw [hch']; exact hstruct.1, by rw [hch', hhs]; exact hstruct.2, ?_,
          by rw [hhs]; exact hcdpall, hnz11, hnz10⟩
        intro hz x
        have hz0 := hnz0 hz
        have hnzps : ∀ e ∈ ps, (e.1 = 10 ∨ e.1 = 11) → e.2 ≠ 0 := by
          intro e he h
          rcases h with h | h
          · exact hz ⟨id, ctx.height, .cdpParam pp ps⟩ (by rw [hlog']; simp) pp ps rfl e he h
          · exact entry_b_ne hc.2 e he h
        have hbd : ∀ a ∈ (noted st id r).changes p, a.1 ≤ ctx.height := fun a ha => hle _ (hi.bound a ha)
        have hcur : ∀ x, ctx.height ≤ x → valAt ((noted st id r).changes p) x = current (noted st id r) p := by
          intro x hx'
          have hall : ∀ h ∈ heights evs, h ≤ x := fun h hm => Nat.le_trans (hle h hm) hx'
          have e1 : current (noted st id r) p = inForce p st.log x :=
            inForce_current (st := noted st id r) (hi.cdp 10 x hall) (hi.cdp 11 x hall) (hi.nz10 hz0) hi.nz11
          rw [e1]
          exact hi.val hz0 x
        obtain ⟨_, _, b3, b4⟩ := setCdp_changes ctx.height pp p ps (noted st id r) hnzps hi.sorted hbd hcur
        rw [hch']
        by_cases hx' : ctx.height ≤ x
        · rw [b3 x hx']
          have hall : ∀ h ∈ heights evs ++ [ctx.height], h ≤ x := by
            intro h hm
            rcases List.mem_append.mp hm with hm | hm
            · exact Nat.le_trans (hle h hm) hx'
            · simp at hm; omega
          have e2 : current (setCdp ctx.height pp (noted st id r) ps) p = current st' p := by rw [hst]; rfl
          rw [e2]
          exact inForce_current (hcdpall 10 x hall) (hcdpall 11 x hall) (hnz10 hz) hnz11
        · rw [b4 x (by omega)]
          have e3 : inForce p st'.log x = inForce p st.log x := by
            unfold inForce
            rw [hlog', settingsUpTo_snoc, if_neg hx', List.append_nil]
          rw [e3]
          exact hi.val hz0 x
      · have hk' : ∀ pp ps, pr.kind ≠ .cdpParam pp ps := fun pp ps h => hk ⟨pp, ps, h⟩
        obtain ⟨hcdp, hch⟩ := exec_cdp hx hk'
        have hcdp' : (step cfg st (Ev.approve ctx id r)).cdp = st.cdp := by rw [hstep]; exact hcdp
        have hch' : (step cfg st (Ev.approve ctx id r)).changes = st.changes := by rw [hstep]; exact hch
        have hlog' : (step cfg st (Ev.approve ctx id r)).log = st.log ++ [⟨id, ctx.height, pr.kind⟩] := by rw [hstep]
        have hset : ∀ x, settingsUpTo p x (st.log ++ [⟨id, ctx.height, pr.kind⟩]) = settingsUpTo p x st.log := by
          intro x
          rw [settingsUpTo_snoc]
          have : (match pr.kind with | .cdpParam p' ps => if p' = p then ps else [] | _ => ([] : List (Nat × Nat))) = [] := by
            cases hkk : pr.kind with
            | cdpParam pp ps => exact absurd hkk (hk' pp ps)
            | _ => rfl
          simp only [this, ite_self, List.append_nil]
        have hz0 : NoZeroA (st.log ++ [⟨id, ctx.height, pr.kind⟩]) → NoZeroA st.log :=
          fun h d hd => h d (List.mem_append_left _ hd)
        refine ⟨by rw [hch']; exact hi.sorted, ?_, ?_, ?_, by rw [hcdp']; exact hi.nz11, ?_⟩
        · intro a ha
          rw [hch'] at ha
          rw [hhs]
          exact List.mem_append_left _ (hi.bound a ha)
        · intro hz x
          rw [hch', hlog']
          rw [hlog'] at hz
          rw [hi.val (hz0 hz) x]
          unfold inForce
          rw [hset]
        · intro k x hx'
          rw [hcdp', hlog', hset]
          exact hi.cdp k x (fun h hm => hx' h (by rw [hhs]; exact List.mem_append_left _ hm))
        · intro hz
          rw [hlog'] at hz
          rw [hcdp']
          exact hi.nz10 (hz0 hz)

end Verif.Gov
