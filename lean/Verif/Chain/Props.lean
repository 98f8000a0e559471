import Verif.Chain.Lemmas

/-!
# Chain view queries (C51) and the cached tip block (C65)
-/
namespace Verif.Chain

/-! ## Skip links are kept right -/

theorem up_congr {t u : Tree} {K : Ptr → Prop} (hc : ∀ p q, K p → t.prev p = some q → K q) (he : ∀ p, K p → u.prev p = t.prev p)
    {p : Ptr} (hp : K p) (k : Nat) : up u k p = up t k p := by
  induction k generalizing p with
  | zero => rfl
  | succ k ih =>
    simp only [up, he p hp]
    cases hq : t.prev p with
    | none => rfl
    | some q => exact ih (hc p q hp hq)

theorem ancestorAt_congr {t u : Tree} {K : Ptr → Prop} (hc : ∀ p q, K p → t.prev p = some q → K q) (he : ∀ p, K p → u.prev p = t.prev p)
    {p : Ptr} (hp : K p) (hh : u.height p = t.height p) (h : Nat) : ancestorAt u p h = ancestorAt t p h := by
  unfold ancestorAt
  rw [hh, up_congr hc he hp]

/-- A skip link built on a well linked tree leads to the ancestor at the skip height. -/
theorem buildSkip_spec {t : Tree} {K : Ptr → Prop} (wf : WF t K) (sk : SkipOK t K) {p q : Ptr} (hq : K q) (hpq : t.prev p = some q)
    (hh : t.height p = t.height q + 1) :
    ∃ u, buildSkip t p = some u ∧ u.prev = t.prev ∧ u.height = t.height ∧ (∀ x, x ≠ p → u.skip x = t.skip x) ∧
      u.skip p = ancestorAt t p (skipHeight (t.height p)) := by
  unfold buildSkip
  rw [hpq]
  simp only
  rw [getAncestor_eq wf sk hq]
  refine ⟨_, rfl, rfl, rfl, fun x hx => by simp [hx], ?_⟩
  have hlt := skipHeight_lt (h := t.height p) (by omega)
  simp only [if_true]
  unfold ancestorAt
  rw [if_pos (by omega), if_pos (by omega), show t.height p - skipHeight (t.height p) = (t.height q - skipHeight (t.height p)) + 1 by omega]
  simp [up, hpq]

/-- Adding a block keeps every height, predecessor and skip link right and makes the new block known. -/
theorem addIndex_keeps {t : Tree} {K : Ptr → Prop} (wf : WF t K) (sk : SkipOK t K) {p q : Ptr} (hq : K q) (hp : ¬ K p) :
    ∃ u, addIndex t p q = some u ∧ WF u (fun x => K x ∨ x = p) ∧ SkipOK u (fun x => K x ∨ x = p) ∧ u.prev p = some q ∧
      (∀ x, K x → u.prev x = t.prev x ∧ u.height x = t.height x) := by
  have hne : ∀ x, K x → x ≠ p := fun x hx e => hp (e ▸ hx)
  let t1 : Tree := { prev := fun x => if x = p then some q else t.prev x,
                     height := fun x => if x = p then t.height q + 1 else t.height x,
                     skip := fun x => if x = p then none else t.skip x }
  have e1 : ∀ x, K x → t1.prev x = t.prev x := fun x hx => by simp [t1, hne x hx]
  have e2 : ∀ x, K x → t1.height x = t.height x := fun x hx => by simp [t1, hne x hx]
  have e3 : ∀ x, K x → t1.skip x = t.skip x := fun x hx => by simp [t1, hne x hx]
  have pp : t1.prev p = some q := by simp [t1]
  have ph : t1.height p = t1.height q + 1 := by simp [t1, hne q hq]
  have wf1 : WF t1 K := by
    refine ⟨fun a b ha h => wf.prev_known a b ha (by rw [← e1 a ha]; exact h), ?_, ?_⟩
    · intro a b ha h
      rw [e1 a ha] at h
      rw [e2 a ha, e2 b (wf.prev_known a b ha h)]
      exact wf.height_succ a b ha h
    · intro a ha h
      rw [e1 a ha] at h
      rw [e2 a ha]
      exact wf.root a ha h
  have sk1 : SkipOK t1 K := by
    intro a ha h
    rw [e1 a ha] at h
    rw [e3 a ha, e2 a ha, sk a ha h]
    exact (ancestorAt_congr wf.prev_known e1 ha (e2 a ha) _).symm
  obtain ⟨u, hu, u1, u2, u3, u4⟩ := buildSkip_spec wf1 sk1 hq pp ph
  have hu' : addIndex t p q = some u := hu
  have wfu : WF u (fun x => K x ∨ x = p) := by
    refine ⟨?_, ?_, ?_⟩
    · rintro a b (ha | rfl) h <;> rw [u1] at h
      · exact .inl (wf1.prev_known a b ha h)
      · rw [pp] at h; simp only [Option.some.injEq] at h; subst h; exact .inl hq
    · rintro a b (ha | rfl) h <;> rw [u1] at h <;> rw [u2]
      · exact wf1.height_succ a b ha h
      · rw [pp] at h; simp only [Option.some.injEq] at h; subst h; exact ph
    · rintro a (ha | rfl) h <;> rw [u1] at h
      · rw [u2]; exact wf1.root a ha h
      · rw [pp] at h; simp at h
  have anc : ∀ a, ancestorAt u a = ancestorAt t1 a := by
    intro a; funext h
    exact ancestorAt_congr (K := fun _ => True) (fun _ _ _ _ => trivial) (fun x _ => by rw [u1]) trivial (by rw [u2]) h
  refine ⟨u, hu', wfu, ?_, by rw [u1]; exact pp, fun x hx => ⟨by rw [u1]; exact e1 x hx, by rw [u2]; exact e2 x hx⟩⟩
  rintro a (ha | rfl) h
  · rw [u3 a (hne a ha), anc, u2]
    exact sk1 a ha (by rw [← u1]; exact h)
  · rw [u4, anc, u2]

/-- Loading the index, with the blocks sorted by height, sets every skip link right. -/
theorem loadSkips_spec {K : Ptr → Prop} (ps : List Ptr) :
    ∀ (t : Tree), WF t K → (∀ p ∈ ps, K p) → ps.Pairwise (fun a b => t.height a ≤ t.height b) →
      (∀ x, K x → x ∉ ps → t.prev x ≠ none → t.skip x = ancestorAt t x (skipHeight (t.height x))) →
      ∃ u, loadSkips ps t = some u ∧ u.prev = t.prev ∧ u.height = t.height ∧ SkipOK u K := by
  induction ps with
  | nil =>
    intro t _ _ _ h
    exact ⟨t, rfl, rfl, rfl, fun x hx => h x hx (by simp)⟩
  | cons p ps ih =>
    intro t wf hK hsort hdone
    have step : ∃ u, buildSkip t p = some u ∧ u.prev = t.prev ∧ u.height = t.height ∧ (∀ x, x ≠ p → u.skip x = t.skip x) ∧
        (t.prev p ≠ none → u.skip p = ancestorAt t p (skipHeight (t.height p))) := by
      cases hq : t.prev p with
      | none => exact ⟨t, by simp [buildSkip, hq], rfl, rfl, fun _ _ => rfl, fun h => absurd rfl h⟩
      | some q =>
        have kp := hK p (by simp)
        have hh := wf.height_succ p q kp hq
        have wf' : WF t (fun x => K x ∧ t.height x < t.height p) :=
          ⟨fun a b ha h => ⟨wf.prev_known a b ha.1 h, by have := wf.height_succ a b ha.1 h; omega⟩,
           fun a b ha h => wf.height_succ a b ha.1 h, fun a ha h => wf.root a ha.1 h⟩
        have sk' : SkipOK t (fun x => K x ∧ t.height x < t.height p) := by
          intro x hx hne
          apply hdone x hx.1 ?_ hne
          intro hmem
          rcases List.mem_cons.1 hmem with rfl | hmem
          · have := hx.2; omega
          · have := List.rel_of_pairwise_cons hsort hmem
            have := hx.2; omega
        obtain ⟨u, a, b, c, d, e⟩ := buildSkip_spec wf' sk' ⟨wf.prev_known p q kp hq, by omega⟩ hq hh
        exact ⟨u, a, b, c, d, fun _ => e⟩
    obtain ⟨u, h1, h2, h3, h4, h5⟩ := step
    have anc : ∀ a, ancestorAt u a = ancestorAt t a := by
      intro a; funext h
      exact ancestorAt_congr (K := fun _ => True) (fun _ _ _ _ => trivial) (fun x _ => by rw [h2]) trivial (by rw [h3]) h
    have wfu : WF u K := ⟨fun a b ha h => wf.prev_known a b ha (h2 ▸ h), fun a b ha h => h3 ▸ wf.height_succ a b ha (h2 ▸ h),
      fun a ha h => h3 ▸ wf.root a ha (h2 ▸ h)⟩
    obtain ⟨w, w1, w2, w3, w4⟩ := ih u wfu (fun x hx => hK x (by simp [hx])) (by rw [h3]; exact (List.pairwise_cons.1 hsort).2)
      (by
        intro x hx hn hne
        rw [anc, h3]
        rw [h2] at hne
        by_cases hxp : x = p
        · subst hxp; exact h5 hne
        · rw [h4 x hxp]; exact hdone x hx (by simp [hxp, hn]) hne)
    exact ⟨w, by simp [loadSkips, h1, w1], w2.trans h2, w3.trans h3, w4⟩

/-- C51, index loaded: from any skip values, loading the blocks in height order gives right ancestor lookups. -/
theorem loaded_ancestors_right {K : Ptr → Prop} {t : Tree} (wf : WF t K) {ps : List Ptr} (hps : ∀ p, p ∈ ps ↔ K p)
    (hsort : ps.Pairwise (fun a b => t.height a ≤ t.height b)) :
    ∃ u, loadSkips ps t = some u ∧ ∀ p, K p → ∀ h, getAncestor u p h = some (ancestorAt t p h) := by
  obtain ⟨u, h1, h2, h3, h4⟩ := loadSkips_spec ps t wf (fun p => (hps p).1) hsort (fun x hx hn => absurd ((hps x).2 hx) hn)
  refine ⟨u, h1, fun p hp h => ?_⟩
  have wfu : WF u K := ⟨fun a b ha h => wf.prev_known a b ha (h2 ▸ h), fun a b ha h => h3 ▸ wf.height_succ a b ha (h2 ▸ h),
    fun a ha h => h3 ▸ wf.root a ha (h2 ▸ h)⟩
  rw [getAncestor_eq wfu h4 hp]
  congr 1
  exact ancestorAt_congr (K := fun _ => True) (fun _ _ _ _ => trivial) (fun x _ => by rw [h2]) trivial (by rw [h3]) h

/-- Index trees that can arise: a genesis block, then blocks added on known blocks. -/
inductive Reach : Tree → (Ptr → Prop) → Prop
  | genesis (t : Tree) (g : Ptr) (h0 : t.prev g = none) (h1 : t.height g = 0) : Reach t (· = g)
  | add {t u : Tree} {K : Ptr → Prop} {p q : Ptr} (hr : Reach t K) (hq : K q) (hp : ¬ K p) (h : addIndex t p q = some u) :
      Reach u (fun x => K x ∨ x = p)

/-- Two known blocks of a tree have the same genesis block. -/
def OneRoot (t : Tree) (K : Ptr → Prop) : Prop := ∃ g, ∀ p, K p → Anc t g p ∧ t.height g = 0

theorem reach_inv {t : Tree} {K : Ptr → Prop} (hr : Reach t K) : WF t K ∧ SkipOK t K ∧ OneRoot t K := by
  induction hr with
  | genesis t g h0 h1 =>
    refine ⟨⟨?_, ?_, ?_⟩, ?_, g, ?_⟩
    · rintro p q rfl h; rw [h0] at h; simp at h
    · rintro p q rfl h; rw [h0] at h; simp at h
    · rintro p rfl _; exact h1
    · rintro p rfl h; exact absurd h0 h
    · rintro p rfl; exact ⟨anc_refl t p, h1⟩
  | @add t u K p q _ hq hp h ih =>
    obtain ⟨wf, sk, g, hg⟩ := ih
    obtain ⟨u', h', a, b, hpq, hsame⟩ := addIndex_keeps wf sk hq hp
    rw [h] at h'
    simp only [Option.some.injEq] at h'
    subst h'
    refine ⟨a, b, g, ?_⟩
    have hold : ∀ x, K x → Anc u g x ∧ u.height g = 0 := by
      intro x hx
      obtain ⟨⟨k, hk⟩, h0⟩ := hg x hx
      have kg : K g := (up_some wf hx hk).1
      refine ⟨⟨k, ?_⟩, by rw [(hsame g kg).2]; exact h0⟩
      rw [up_congr wf.prev_known (fun y hy => (hsame y hy).1) hx]
      exact hk
    rintro x (hx | rfl)
    · exact hold x hx
    · obtain ⟨h1, h2⟩ := hold q hq
      exact ⟨anc_trans h1 ⟨1, by simp [up, hpq]⟩, h2⟩

/-- C51, index grown: in every tree that can arise, ancestor lookup through skip links never fails and returns the ancestor at
the requested height, or nothing above the block's height. -/
theorem ancestor_lookup_right {t : Tree} {K : Ptr → Prop} (hr : Reach t K) {p : Ptr} (hp : K p) (h : Nat) :
    ∃ r, getAncestor t p h = some r ∧ ∀ b, r = some b ↔ Anc t b p ∧ t.height b = h := by
  obtain ⟨wf, sk, -⟩ := reach_inv hr
  refine ⟨_, getAncestor_eq wf sk hp h, fun b => ⟨fun e => ?_, fun e => ?_⟩⟩
  · unfold ancestorAt at e
    split at e
    · exact ⟨⟨_, e⟩, by have := (up_some wf hp e).2; omega⟩
    · simp at e
  · rw [← e.2]; exact (anc_at wf hp).1 e.1

/-- C51: setting the tip makes the view the ancestors of the tip, one per height, and returns the last block common with the
chain before, or nothing if there is none. -/
theorem set_tip_right {t : Tree} {K : Ptr → Prop} (hr : Reach t K) {p : Ptr} (hp : K p) {old : Option Ptr} (ho : ∀ o, old = some o → K o) :
    ∃ v f, setTip t (viewOf t old) (some p) = some (v, f) ∧ v = chainOf t p ∧ v.length = t.height p + 1 ∧
      (∀ b, contains t v b = true ↔ Anc t b p) ∧ v.tip = some p ∧
      (∀ b c, next t v b = some c ↔ Anc t c p ∧ t.prev c = some b) ∧ LastCommon t p old f := by
  obtain ⟨wf, -, -⟩ := reach_inv hr
  obtain ⟨f, h1, h2⟩ := setTip_spec wf hp ho
  exact ⟨_, f, h1, rfl, chainOf_length t p, fun b => contains_iff wf hp, chainOf_tip t p, fun b c => next_spec wf hp c, h2⟩

/-- In a tree with one genesis block the fork point always exists. -/
theorem fork_point_exists {t : Tree} {K : Ptr → Prop} (hr : Reach t K) {p o : Ptr} (hp : K p) (ho : K o) :
    ∃ v f, setTip t (chainOf t o) (some p) = some (v, some f) ∧ Anc t f p ∧ Anc t f o ∧ ∀ b, Anc t b p → Anc t b o → Anc t b f := by
  obtain ⟨wf, -, g, hg⟩ := reach_inv hr
  obtain ⟨f, h1, h2⟩ := setTip_spec wf hp (old := some o) (by intro x hx; simp only [Option.some.injEq] at hx; subst hx; exact ho)
  cases f with
  | none => exact absurd (hg o ho).1 (h2 o rfl g (hg p hp).1)
  | some f =>
    obtain ⟨o', e, a, b, c⟩ := h2
    simp only [Option.some.injEq] at e
    subst e
    exact ⟨_, f, h1, a, b, c⟩

/-! ## Locators -/

theorem backToChain_spec {t : Tree} {K : Ptr → Prop} (wf : WF t K) {o q : Ptr} (ho : K o) (hq : K q) {g : Ptr} (hg : Anc t g q)
    (hg' : Anc t g o) {fuel : Nat} (hf : t.height q < fuel + t.height g) :
    ∃ r, backToChain t (chainOf t o) fuel q = some r ∧ Anc t r q ∧ Anc t r o ∧ (Anc t q o → r = q) := by
  induction fuel generalizing q with
  | zero =>
    obtain ⟨k, hk⟩ := hg
    have := (up_some wf hq hk).2
    omega
  | succ fuel ih =>
    simp only [backToChain]
    by_cases hc : contains t (chainOf t o) q = true
    · rw [if_pos hc]
      exact ⟨q, rfl, anc_refl t q, (contains_iff wf ho).1 hc, fun _ => rfl⟩
    · rw [if_neg hc]
      have hnq : ¬ Anc t q o := fun h => hc ((contains_iff wf ho).2 h)
      obtain ⟨k, hk⟩ := hg
      cases k with
      | zero => simp only [up, Option.some.injEq] at hk; subst hk; exact absurd hg' hnq
      | succ k =>
        simp only [up] at hk
        cases hp : t.prev q with
        | none => simp [hp] at hk
        | some x =>
          rw [hp] at hk
          have hx := wf.height_succ q x hq hp
          obtain ⟨r, e, a, b, -⟩ := ih (wf.prev_known q x hq hp) ⟨k, hk⟩ (by omega)
          exact ⟨r, e, anc_trans a ⟨1, by simp [up, hp]⟩, b, fun h => absurd h hnq⟩

/-- What a locator of `p` against the chain of `o` must look like. -/
structure LocatorOK (t : Tree) (o p : Ptr) (l : List Ptr) : Prop where
  head : l.head? = some p
  decreasing : l.Pairwise fun a b => t.height b < t.height a
  ancestors : ∀ b ∈ l, Anc t b p
  onChain : ∀ b ∈ l.tail, Anc t b o
  last : ∃ g, l.getLast? = some g ∧ t.height g = 0

theorem locLoop_spec {t : Tree} {K : Ptr → Prop} (wf : WF t K) (sk : SkipOK t K) {o p g : Ptr} (ho : K o) (hp : K p) (hg : Anc t g p)
    (hg' : Anc t g o) (h0 : t.height g = 0) {fuel n step : Nat} (hf : t.height p < fuel) (hs : 1 ≤ step) :
    ∃ l, locLoop t (chainOf t o) fuel n step p = some l ∧ LocatorOK t o p l ∧
      (Anc t p o → step = 1 → ∀ i, n + i ≤ 11 → i ≤ t.height p → l[i]? = up t i p) := by
  induction fuel generalizing p n step with
  | zero => omega
  | succ fuel ih =>
    simp only [locLoop]
    by_cases hh : t.height p = 0
    · rw [if_pos hh]
      refine ⟨[p], rfl, ⟨rfl, by simp, by simpa using anc_refl t p, by simp, p, rfl, hh⟩, ?_⟩
      intro _ _ i _ hi
      have : i = 0 := by omega
      subst this; rfl
    · rw [if_neg hh]
      rw [if_pos (by omega), getAncestor_eq wf sk hp]
      obtain ⟨q, e, kq, hq⟩ := up_ok wf hp (k := t.height p - (t.height p - step)) (by omega)
      have e' : ancestorAt t p (t.height p - step) = some q := by rw [ancestorAt, if_pos (by omega), e]
      have hqp : Anc t q p := ⟨_, e⟩
      have hgq : Anc t g q := anc_of_anc wf hp hg hqp (by omega)
      obtain ⟨r, er, ra, ro, rq⟩ := backToChain_spec wf ho kq hgq hg' (fuel := t.height q + 1) (by omega)
      have hr : t.height r ≤ t.height q := by
        obtain ⟨k, hk⟩ := ra
        have := (up_some wf kq hk).2; omega
      have kr : K r := by obtain ⟨k, hk⟩ := ra; exact (up_some wf kq hk).1
      have hrp := anc_trans ra hqp
      obtain ⟨l, el, lok, ldense⟩ := ih (p := r) (n := n + 1) (step := if n + 1 > 10 then step * 2 else step) kr
        (anc_of_anc wf hp hg hrp (by omega)) (by omega) (by split <;> omega)
      simp only [e', er]
      rw [if_neg (by omega)]
      simp only [el]
      refine ⟨p :: l, rfl, ⟨rfl, ?_, ?_, ?_, ?_⟩, ?_⟩
      · refine List.pairwise_cons.2 ⟨fun b hb => ?_, lok.decreasing⟩
        obtain ⟨k, hk⟩ := lok.ancestors b hb
        have := (up_some wf kr hk).2; omega
      · intro b hb
        rcases List.mem_cons.1 hb with rfl | hb
        · exact anc_refl t _
        · exact anc_trans (lok.ancestors b hb) hrp
      · intro b hb
        exact anc_trans (lok.ancestors b hb) ro
      · obtain ⟨x, hx, hx0⟩ := lok.last
        refine ⟨x, ?_, hx0⟩
        rw [List.getLast?_cons, hx]; rfl
      · intro hpo hst i hi hle
        cases i with
        | zero => rfl
        | succ i =>
          have hrq := rq (anc_trans hqp hpo)
          subst hrq
          subst hst
          have h1 : t.height p - (t.height p - 1) = 1 := by omega
          rw [h1] at e
          rw [List.getElem?_cons_succ]
          by_cases hi0 : i = 0
          · subst hi0
            have := lok.head
            rw [List.head?_eq_getElem?] at this
            rw [this, e]
          · rw [ldense (anc_trans hqp hpo) (by rw [if_neg (by omega)]) i (by omega) (by omega),
              Nat.add_comm i 1, up_add, e]
            rfl

/-- C51: a locator starts at the block, lists known blocks of strictly decreasing height, after the first one all on the chain,
and ends at the genesis block; without argument it starts at the tip. -/
theorem locator_right {t : Tree} {K : Ptr → Prop} (hr : Reach t K) {o : Ptr} (ho : K o) {p : Option Ptr} (hp : ∀ x, p = some x → K x) :
    ∃ l, getLocator t (chainOf t o) p = some l ∧ LocatorOK t o (p.getD o) l ∧ (∀ b ∈ l, K b) ∧ l.getLast? = (chainOf t o).genesis := by
  obtain ⟨wf, sk, g, hg⟩ := reach_inv hr
  have key : ∀ x, K x → ∃ l, locLoop t (chainOf t o) (t.height x + 1) 0 1 x = some l ∧ LocatorOK t o x l ∧ (∀ b ∈ l, K b) ∧
      l.getLast? = (chainOf t o).genesis := by
    intro x hx
    obtain ⟨l, e, lok, -⟩ := locLoop_spec wf sk ho hx (hg x hx).1 (hg o ho).1 (hg o ho).2 (fuel := t.height x + 1) (n := 0) (step := 1)
      (by omega) (by omega)
    refine ⟨l, e, lok, fun b hb => ?_, ?_⟩
    · obtain ⟨k, hk⟩ := lok.ancestors b hb
      exact (up_some wf hx hk).1
    · obtain ⟨y, hy, hy0⟩ := lok.last
      have hyx := lok.ancestors y (List.mem_of_getLast? hy)
      have h1 := anc_of_anc wf hx hyx (hg x hx).1 (by rw [hy0]; omega)
      have h2 := anc_of_anc wf hx (hg x hx).1 hyx (by rw [hy0]; exact Nat.le_of_eq (hg x hx).2)
      have hgy : y = g := by
        obtain ⟨k, hk⟩ := h1
        have kg : K g := by obtain ⟨j, hj⟩ := (hg x hx).1; exact (up_some wf hx hj).1
        have := (up_some wf kg hk).2
        have h0 := (hg x hx).2
        have : k = 0 := by omega
        subst this
        simp only [up, Option.some.injEq] at hk
        exact hk.symm
      subst hgy
      rw [hy, View.genesis, chainOf_at]
      have := (anc_at wf ho).1 (hg o ho).1
      rw [hy0] at this
      exact this.symm
  unfold getLocator
  cases p with
  | none => rw [chainOf_tip]; exact key o ho
  | some x => exact key x (hp x rfl)

/-- The first locator entry on the chain. -/
theorem findFork_spec {t : Tree} {K : Ptr → Prop} (wf : WF t K) {o : Ptr} (ho : K o) (known : Ptr → Bool) (l : List Ptr)
    (hl : ∃ b ∈ l, known b = true ∧ Anc t b o) :
    ∃ (i : Nat) (b : Ptr), findFork t (chainOf t o) known l = some b ∧ l[i]? = some b ∧ Anc t b o ∧
      ∀ (j : Nat) (c : Ptr), j < i → l[j]? = some c → ¬ (known c = true ∧ Anc t c o) := by
  induction l with
  | nil => obtain ⟨b, hb, -⟩ := hl; simp at hb
  | cons p l ih =>
    simp only [findFork]
    by_cases hc : known p = true ∧ Anc t p o
    · rw [if_pos (by simp [hc.1, (contains_iff wf ho).2 hc.2])]
      exact ⟨0, p, rfl, rfl, hc.2, fun j c hj => by omega⟩
    · rw [if_neg (by
        rw [Bool.and_eq_true]
        rintro ⟨h1, h2⟩
        exact hc ⟨h1, (contains_iff wf ho).1 h2⟩)]
      obtain ⟨i, b, e, g1, g2, g3⟩ := ih (by
        obtain ⟨b, hb, h1, h2⟩ := hl
        rcases List.mem_cons.1 hb with rfl | hb
        · exact absurd ⟨h1, h2⟩ hc
        · exact ⟨b, hb, h1, h2⟩)
      refine ⟨i + 1, b, e, g1, g2, ?_⟩
      intro j c hj hjc
      cases j with
      | zero => simp only [List.getElem?_cons_zero, Option.some.injEq] at hjc; subst hjc; exact hc
      | succ j => exact g3 j c (by omega) (by simpa using hjc)

/-- C51: looking up the locator of another node's chain ending in `p` finds a block common to both chains, and no entry of greater
height is common; when the chains parted at most eleven blocks below `p`, it is their last common block. -/
theorem locator_finds_common {t : Tree} {K : Ptr → Prop} (hr : Reach t K) {o p : Ptr} (ho : K o) (hp : K p) {known : Ptr → Bool}
    (hk : ∀ b, Anc t b o → known b = true) :
    ∃ l f, getLocator t (chainOf t p) none = some l ∧ findFork t (chainOf t o) known l = some f ∧ f ∈ l ∧ Anc t f o ∧ Anc t f p ∧
      (∀ b ∈ l, Anc t b o → Anc t b f) ∧
      (∀ c, Anc t c p → Anc t c o → (∀ b, Anc t b p → Anc t b o → Anc t b c) → t.height p ≤ t.height c + 11 → f = c) := by
  obtain ⟨wf, sk, g, hg⟩ := reach_inv hr
  obtain ⟨l, e, lok, dense⟩ := locLoop_spec wf sk hp hp (hg p hp).1 (hg p hp).1 (hg p hp).2 (fuel := t.height p + 1) (n := 0) (step := 1)
      (by omega) (by omega)
  obtain ⟨y, hy, hy0⟩ := lok.last
  have hymem := List.mem_of_getLast? hy
  have hyo : Anc t y o := by
    have h1 := anc_of_anc wf hp (lok.ancestors y hymem) (hg p hp).1 (by omega)
    exact anc_trans h1 (hg o ho).1
  obtain ⟨i, f, h1, h2, h3, h4⟩ := findFork_spec wf ho known l ⟨y, hymem, hk y hyo, hyo⟩
  have hfl : f ∈ l := List.mem_of_getElem? h2
  have hfp := lok.ancestors f hfl
  have hbest : ∀ b ∈ l, Anc t b o → Anc t b f := by
    intro b hb hbo
    obtain ⟨j, hj, hjb⟩ := List.mem_iff_getElem.1 hb
    have hj' : l[j]? = some b := by rw [List.getElem?_eq_getElem hj, hjb]
    have hij : i ≤ j := by
      by_contra hc
      exact h4 j b (by omega) hj' ⟨hk b hbo, hbo⟩
    refine anc_of_anc wf ho hbo h3 ?_
    rcases Nat.lt_or_eq_of_le hij with hlt | heq
    · obtain ⟨hi, hif⟩ := List.getElem?_eq_some_iff.1 h2
      have := List.pairwise_iff_getElem.1 lok.decreasing i j hi hj hlt
      rw [hjb, hif] at this; omega
    · subst heq
      rw [h2] at hj'
      simp only [Option.some.injEq] at hj'
      subst hj'; omega
  refine ⟨l, f, ?_, h1, hfl, h3, hfp, hbest, ?_⟩
  · unfold getLocator; rw [chainOf_tip]; exact e
  · intro c hcp hco hmax hdeep
    have hk' := hcp
    obtain ⟨k, hkc⟩ := hk'
    have hkh := (up_some wf hp hkc).2
    have hcl : c ∈ l := List.mem_of_getElem? ((dense (anc_refl t p) rfl k (by omega) (by omega)).trans hkc)
    obtain ⟨a, ha⟩ := hbest c hcl hco
    obtain ⟨b, hb⟩ := hmax f hfp h3
    have kf : K f := by obtain ⟨m, hm⟩ := hfp; exact (up_some wf hp hm).1
    have kc : K c := (up_some wf hp hkc).1
    have h5 := (up_some wf kf ha).2
    have h6 := (up_some wf kc hb).2
    have : a = 0 := by omega
    subst this
    simpa [up] using ha

/-! ### A tree with a fork -/

/-- `0 - 1 - 2 - 3` and `1 - 4`. -/
def exTree : Tree :=
  let t0 : Tree := ⟨fun _ => none, fun _ => 0, fun _ => none⟩
  ((((addIndex t0 1 0).bind (addIndex · 2 1)).bind (addIndex · 3 2)).bind (addIndex · 4 1)).getD t0

theorem addIndex_known {t : Tree} {K : Ptr → Prop} (hr : Reach t K) {p q : Ptr} (hq : K q) (hp : ¬ K p) :
    ∃ u, addIndex t p q = some u ∧ Reach u (fun x => K x ∨ x = p) := by
  obtain ⟨wf, sk, -⟩ := reach_inv hr
  obtain ⟨u, h, -⟩ := addIndex_keeps wf sk hq hp
  exact ⟨u, h, .add hr hq hp h⟩

theorem exTree_reach : Reach exTree (fun x => (((x = 0 ∨ x = 1) ∨ x = 2) ∨ x = 3) ∨ x = 4) := by
  have r0 := Reach.genesis ⟨fun _ => none, fun _ => 0, fun _ => none⟩ 0 rfl rfl
  obtain ⟨u1, h1, r1⟩ := addIndex_known r0 (p := 1) (q := 0) rfl (by decide)
  obtain ⟨u2, h2, r2⟩ := addIndex_known r1 (p := 2) (q := 1) (by simp) (by simp)
  obtain ⟨u3, h3, r3⟩ := addIndex_known r2 (p := 3) (q := 2) (by simp) (by simp)
  obtain ⟨u4, h4, r4⟩ := addIndex_known r3 (p := 4) (q := 1) (by simp) (by simp)
  have : exTree = u4 := by simp [exTree, h1, h2, h3, h4]
  rw [this]; exact r4

example : (setTip exTree (chainOf exTree 3) (some 4)) = some ([some 0, some 1, some 4], some 1) := by decide
example : getLocator exTree (chainOf exTree 3) (some 4) = some [4, 1, 0] := by decide

/-! ## C65: the cached tip block -/

theorem activeSetTip_spec {t : Tree} {K : Ptr → Prop} (hr : Reach t K) {p : Ptr} (hp : K p) {old : Option Ptr} (ho : ∀ o, old = some o → K o)
    (cached : Option Ptr) (block : Ptr) :
    activeSetTip t ⟨viewOf t old, cached⟩ (some p) block =
      some ⟨chainOf t p, if old.isSome then some block else none⟩ := by
  obtain ⟨wf, -, g, hg⟩ := reach_inv hr
  obtain ⟨f, h1, h2⟩ := setTip_spec wf hp ho
  unfold activeSetTip
  rw [h1]
  simp only [Option.some.injEq, Active.mk.injEq, true_and]
  cases old with
  | none =>
    cases f with
    | none => rfl
    | some f => obtain ⟨o, e, -⟩ := h2; simp at e
  | some o =>
    cases f with
    | none => exact absurd (hg o (ho o rfl)).1 (h2 o rfl g (hg p hp).1)
    | some f => rfl

/-- Connecting a block on top of the tip leaves that block cached; the view is its chain. -/
theorem tip_block_after_connect_partial {t : Tree} {K : Ptr → Prop} (hr : Reach t K) {p o : Ptr} (hp : K p) (ho : K o)
    (hprev : t.prev p = some o) (cached : Option Ptr) :
    ∃ a, step t ⟨chainOf t o, cached⟩ (.connect p) = some a ∧ a.view.tip = some p ∧ a.tipBlock = a.view.tip := by
  have := activeSetTip_spec hr hp (old := some o) (by intro x hx; simp only [Option.some.injEq] at hx; subst hx; exact ho) cached p
  refine ⟨⟨chainOf t p, some p⟩, ?_, chainOf_tip t p, (chainOf_tip t p).symm⟩
  simp only [step, chainOf_tip, hprev, if_true]
  exact this

/-- After disconnecting, the cached block is the disconnected one, never the new tip. -/
theorem tip_block_after_disconnect_wrong {t : Tree} {K : Ptr → Prop} (hr : Reach t K) {p o : Ptr} (hp : K p) (ho : K o)
    (hprev : t.prev p = some o) (cached : Option Ptr) :
    ∃ a, step t ⟨chainOf t p, cached⟩ .disconnect = some a ∧ a.view.tip = some o ∧ a.tipBlock = some p ∧ a.tipBlock ≠ a.view.tip := by
  obtain ⟨wf, -, -⟩ := reach_inv hr
  have := activeSetTip_spec hr ho (old := some p) (by intro x hx; simp only [Option.some.injEq] at hx; subst hx; exact hp) cached p
  refine ⟨⟨chainOf t o, some p⟩, ?_, chainOf_tip t o, rfl, ?_⟩
  · simp only [step, chainOf_tip, hprev]
    exact this
  · rw [chainOf_tip]
    intro h
    simp only [Option.some.injEq] at h
    subst h
    have := wf.height_succ p p hp hprev
    omega

/-- After loading, the cached block is an empty block whatever the tip. -/
theorem tip_block_after_load_wrong {t : Tree} {K : Ptr → Prop} (hr : Reach t K) {p : Ptr} (hp : K p) (cached : Option Ptr) :
    ∃ a, step t ⟨[], cached⟩ (.load p) = some a ∧ a.view.tip = some p ∧ a.tipBlock = none := by
  have := activeSetTip_spec hr hp (old := none) (by intro x hx; simp at hx) cached p
  exact ⟨⟨chainOf t p, none⟩, this, chainOf_tip t p, rfl⟩

/-- The property fails: after a start and after a disconnect the cached block is not the block at the tip. -/
theorem tip_block_violated :
    (∃ a, run exTree [.load 3] ⟨[], none⟩ = some a ∧ a.view.tip = some 3 ∧ a.tipBlock = none) ∧
    (∃ a, run exTree [.load 2, .connect 3, .disconnect] ⟨[], none⟩ = some a ∧ a.view.tip = some 2 ∧ a.tipBlock = some 3) := by
  refine ⟨⟨⟨[some 0, some 1, some 2, some 3], none⟩, ?_, by decide, rfl⟩, ⟨⟨[some 0, some 1, some 2], some 3⟩, ?_, by decide, rfl⟩⟩ <;> rfl

end Verif.Chain
