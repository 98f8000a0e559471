import Verif.Mine.Spec

/-! # Lemmas for the pool and the making of blocks -/
namespace Verif.Mine
open Spec

/-! ## The comparison -/

theorem dist_group {p q : Nat} (hp : legal p) (hq : legal q) : dist p q ≤ 1000 ↔ group p = group q := by
  unfold dist legal group at *
  rcases hp with hp | rfl | rfl <;> rcases hq with hq | rfl | rfl <;> simp <;> (try omega) <;>
    (have h1 : ¬ (20000 : Nat) ≤ 1000 := by omega) <;> simp_all <;> omega

theorem group_lt {p q : Nat} (hp : legal p) (hq : legal q) (h : group p ≠ group q) : p < q ↔ group p < group q := by
  unfold legal group at *
  rcases hp with hp | rfl | rfl <;> rcases hq with hq | rfl | rfl <;> simp_all <;> omega

theorem less_true {V : Type} {a b : Item V} (ha : legal a.prio) (hb : legal b.prio) :
    less a b = true ↔ group a.prio < group b.prio ∨ (group a.prio = group b.prio ∧ (a.fee < b.fee ∨ a.id < b.id)) := by
  unfold less
  by_cases hg : group a.prio = group b.prio
  · rw [if_pos ((dist_group ha hb).2 hg)]
    by_cases hf : a.fee < b.fee
    · simp [hf, hg]
    · simp [hf, hg]
  · rw [if_neg (fun h => hg ((dist_group ha hb).1 h))]
    simp [group_lt ha hb hg, hg]

theorem after_less {V : Type} {a b : Item V} (ha : legal a.prio) (hb : legal b.prio) (h : after a b) : less a b = true := by
  rw [less_true ha hb]
  unfold after at h
  omega

theorem less_iff {V : Type} {a b : Item V} (ha : legal a.prio) (hb : legal b.prio)
    (hk : group a.prio = group b.prio → b.id < a.id ∨ a.fee ≤ b.fee) : less a b = true ↔ after a b := by
  rw [less_true ha hb]
  unfold after
  omega

theorem after_trans {V : Type} {a b c : Item V} (h : after a b) (h' : after b c) : after a c := by
  unfold after at *; omega

theorem after_total {V : Type} {a b : Item V} (h : ¬ after a b) (hid : group a.prio = group b.prio → a.id ≠ b.id) : after b a := by
  unfold after at *; omega

/-! ## Insertion -/

/-- Elements that compare as greater than the new one stand behind the others. -/
def Mono {V : Type} (k : Item V) (l : List (Item V)) : Prop := l.Pairwise fun x y => less k x = true → less k y = true

theorem pos_count {V : Type} (k : Item V) : ∀ t : Tree V, Mono k t.flat → t.pos k = (t.flat.filter fun x => !less k x).length
  | .leaf, _ => by simp [Tree.pos, Tree.flat]
  | .node l x r, h => by
    unfold Mono at h
    simp only [Tree.flat, List.pairwise_append, List.pairwise_cons] at h
    obtain ⟨hl, ⟨hx, hr⟩, hlr⟩ := h
    simp only [Tree.pos, Tree.flat, List.filter_append, List.length_append, List.filter_cons]
    by_cases hk : less k x = true
    · have : r.flat.filter (fun x => !less k x) = [] := by
        rw [List.filter_eq_nil_iff]
        intro y hy
        simp [hx y hy hk]
      simp [hk, this, pos_count k l hl]
    · have : l.flat.filter (fun x => !less k x) = l.flat := by
        rw [List.filter_eq_self]
        intro y hy
        have := hlr y hy x (by simp)
        cases hy' : less k y
        · rfl
        · exact absurd (this hy') hk
      simp only [Bool.not_eq_true] at hk
      simp [hk, this, pos_count k r hr]
      omega

theorem split_mono {V : Type} (k : Item V) : ∀ l : List (Item V), Mono k l →
    l.take (l.filter fun x => !less k x).length = (l.filter fun x => !less k x) ∧
      l.drop (l.filter fun x => !less k x).length = l.filter fun x => less k x
  | [], _ => by simp
  | x :: xs, h => by
    unfold Mono at h
    rw [List.pairwise_cons] at h
    obtain ⟨hx, hxs⟩ := h
    obtain ⟨h1, h2⟩ := split_mono k xs hxs
    by_cases hk : less k x = true
    · have he : xs.filter (fun x => !less k x) = [] := by
        rw [List.filter_eq_nil_iff]
        intro y hy
        simp [hx y hy hk]
      have ha : xs.filter (fun x => less k x) = xs := by
        rw [List.filter_eq_self]
        intro y hy
        exact hx y hy hk
      simp [hk, he, ha]
    · simp only [Bool.not_eq_true] at hk
      simp [hk, h1, h2]

/-- What inserting needs to know about the new item. -/
def Fit {V : Type} (k : Item V) (l : List (Item V)) : Prop :=
  legal k.prio ∧ ∀ x ∈ l, legal x.prio ∧ (group k.prio = group x.prio → k.id ≠ x.id ∧ (x.id < k.id ∨ k.fee ≤ x.fee))

theorem insert_sorted {V : Type} {k : Item V} {t : Tree V} (hs : t.flat.Pairwise after) (hf : Fit k t.flat) :
    (t.insert k).Pairwise after ∧ (t.insert k).Perm (k :: t.flat) := by
  have hiff : ∀ x ∈ t.flat, (less k x = true ↔ after k x) := fun x hx =>
    less_iff hf.1 (hf.2 x hx).1 fun h => ((hf.2 x hx).2 h).2
  have hm : Mono k t.flat := by
    refine List.Pairwise.imp_of_mem ?_ hs
    intro a b ha hb hab h
    rw [hiff b hb]
    exact after_trans ((hiff a ha).1 h) hab
  have hp := pos_count k t hm
  obtain ⟨htake, hdrop⟩ := split_mono k t.flat hm
  have hlow : ∀ x ∈ t.flat.filter (fun x => !less k x), after x k := by
    intro x hx
    rw [List.mem_filter] at hx
    refine after_total ?_ fun h => ((hf.2 x hx.1).2 h).1
    rw [← hiff x hx.1]
    simpa using hx.2
  have hfits : fits k t.flat (t.pos k) = true := by
    rw [hp]
    unfold fits
    cases hc : (t.flat.filter fun x => !less k x).length with
    | zero => rfl
    | succ q =>
      have hq : q < t.flat.length := by
        have := List.length_filter_le (fun x => !less k x) t.flat
        omega
      simp only [List.getElem?_eq_getElem hq]
      have hmem : t.flat[q] ∈ t.flat.filter fun x => !less k x := by
        rw [← htake, hc]
        exact List.mem_take_iff_getElem.2 ⟨q, by omega, by simp⟩
      exact after_less (hf.2 _ (List.mem_filter.1 hmem).1).1 hf.1 (hlow _ hmem)
  have he : t.insert k = (t.flat.filter fun x => !less k x) ++ k :: t.flat.filter fun x => less k x := by
    unfold Tree.insert
    rw [if_pos hfits, hp, htake, hdrop]
  rw [he]
  constructor
  · rw [List.pairwise_append, List.pairwise_cons]
    refine ⟨hs.filter _, ⟨?_, hs.filter _⟩, ?_⟩
    · intro x hx
      rw [List.mem_filter] at hx
      exact (hiff x hx.1).1 hx.2
    · intro x hx y hy
      rcases List.mem_cons.1 hy with rfl | hy
      · exact hlow x hx
      · exact after_trans (hlow x hx) ((hiff y (List.mem_filter.1 hy).1).1 (List.mem_filter.1 hy).2)
  · refine List.perm_middle.trans (List.Perm.cons _ ?_)
    have := List.filter_append_perm (fun x => !less k x) t.flat
    simpa using this

/-- Every item fits behind those inserted before it. -/
def Fits {V : Type} (ks : List (Item V)) : Prop := ∀ a k b, ks = a ++ k :: b → Fit k a

theorem built_sorted {V : Type} {ks : List (Item V)} {t : Tree V} (hb : Built ks t) (hf : Fits ks) :
    t.flat.Pairwise after ∧ t.flat.Perm ks := by
  induction hb with
  | nil t h => rw [h]; exact ⟨List.Pairwise.nil, List.Perm.refl _⟩
  | snoc ks k t t' hb he ih =>
    have hks : Fits ks := fun a x b h => hf a x (b ++ [k]) (by rw [h]; simp)
    obtain ⟨hs, hp⟩ := ih hks
    have hk : Fit k t.flat := by
      have := hf ks k [] rfl
      exact ⟨this.1, fun x hx => this.2 x (hp.mem_iff.1 hx)⟩
    obtain ⟨h1, h2⟩ := insert_sorted hs hk
    rw [he]
    refine ⟨h1, h2.trans ?_⟩
    exact (List.Perm.cons k hp).trans (List.perm_append_comm (l₁ := [k]))

/-! ## The pool -/

theorem mem_insertTx {V : Type} {t x : Tx V} : ∀ {l : List (Tx V)}, x ∈ insertTx t l → x = t ∨ x ∈ l
  | [], h => by simpa [insertTx] using h
  | y :: ys, h => by
    unfold insertTx at h
    split at h
    · simpa using h
    · split at h
      · exact Or.inr h
      · rcases List.mem_cons.1 h with h | h
        · exact Or.inr (by simp [h])
        · rcases mem_insertTx h with h | h
          · exact Or.inl h
          · exact Or.inr (by simp [h])

theorem insertTx_sorted {V : Type} {t : Tx V} : ∀ {l : List (Tx V)}, l.Pairwise (fun a b => a.id < b.id) →
    (insertTx t l).Pairwise fun a b => a.id < b.id
  | [], _ => by simp [insertTx]
  | y :: ys, h => by
    unfold insertTx
    have h0 := h
    rw [List.pairwise_cons] at h
    split
    · rename_i hlt
      rw [List.pairwise_cons]
      refine ⟨?_, h0⟩
      intro z hz
      rcases List.mem_cons.1 hz with rfl | hz
      · exact hlt
      · exact Nat.lt_trans hlt (h.1 z hz)
    · split
      · exact h0
      · rw [List.pairwise_cons]
        refine ⟨?_, insertTx_sorted h.2⟩
        intro z hz
        rcases mem_insertTx hz with rfl | hz
        · omega
        · exact h.1 z hz

theorem insertTx_perm {V : Type} {t : Tx V} : ∀ {l : List (Tx V)}, (∀ x ∈ l, x.id ≠ t.id) → (insertTx t l).Perm (t :: l)
  | [], _ => by simp [insertTx]
  | y :: ys, h => by
    unfold insertTx
    split
    · exact List.Perm.refl _
    · split
      · rename_i he
        exact absurd he.symm (h y (by simp))
      · exact ((insertTx_perm fun x hx => h x (by simp [hx])).cons y).trans (List.Perm.swap t y ys)

theorem follows_append {V : Type} {c : Nat → Ctx} {v w u : V} {a b : List (Nat × Tx V)} (h : Follows c v a w) (h' : Follows c w b u) :
    Follows c v (a ++ b) u := by
  induction h with
  | nil => exact h'
  | cons v w' u' i f t r he _ ih => exact Follows.cons v w' u i f t _ he (ih h')

theorem inPool_some {V : Type} {e : Env} {n : Node V} {t : Tx V} {i : Nat} {v : V} (h : inPool e n t i = some v) :
    validAt t ((n.tip : Int) + 1) = true ∧ n.conf t.id = false ∧ ∃ f, t.exec (ctx e n.tip i) n.view = some (v, f) := by
  unfold inPool at h
  split at h
  · cases h
  · rename_i hv
    split at h
    · cases h
    · rename_i hc
      refine ⟨by simpa using hv, by simpa using hc, ?_⟩
      cases hx : t.exec (ctx e n.tip i) n.view with
      | none => rw [hx] at h; cases h
      | some p =>
        rw [hx] at h
        simp only [Option.map_some, Option.some.injEq] at h
        exact ⟨p.2, by rw [← h]⟩

theorem validAt_range {V : Type} {t : Tx V} {h : Int} (hf : forbidden t = false) (hv : validAt t h = true) :
    (t.kind = .feed ∨ t.kind = .other) ∧ inRange t h := by
  unfold forbidden at hf
  unfold validAt half at hv
  unfold inRange
  cases hk : t.kind <;> rw [hk] at hf hv <;> simp at hf hv ⊢ <;> omega

/-- What is true of the pool before it is checked against the tip. -/
def Tidy {V : Type} (n : Node V) : Prop := n.pool.Pairwise (fun a b => a.id < b.id) ∧ ∀ t ∈ n.pool, forbidden t = false

theorem rescanLoop_ok {V : Type} (e : Env) : ∀ (ts : List (Tx V)) (n : Node V) (i : Nat),
    (rescanLoop e n i ts).1.Sublist ts ∧
      (∀ t ∈ (rescanLoop e n i ts).1, validAt t ((n.tip : Int) + 1) = true ∧ n.conf t.id = false) ∧
      ∃ s : List (Nat × Tx V), s.map (·.2) = (rescanLoop e n i ts).1 ∧ Follows (ctx e n.tip) n.view s (rescanLoop e n i ts).2
  | [], n, i => ⟨List.Sublist.refl _, by simp [rescanLoop], [], by simp [rescanLoop], by simpa [rescanLoop] using Follows.nil _⟩
  | t :: ts, n, i => by
    unfold rescanLoop
    cases h : inPool e n t i with
    | none =>
      obtain ⟨h1, h2, h3⟩ := rescanLoop_ok e ts n (i + 1)
      exact ⟨h1.cons t, h2, h3⟩
    | some v =>
      obtain ⟨h1, h2, s, h3, h4⟩ := rescanLoop_ok e ts { n with view := v } (i + 1)
      obtain ⟨hv, hc, f, hx⟩ := inPool_some h
      refine ⟨h1.cons_cons t, ?_, (i, t) :: s, ?_, ?_⟩
      · intro x hx
        rcases List.mem_cons.1 hx with rfl | hx
        · exact ⟨hv, hc⟩
        · exact h2 x hx
      · simp [h3]
      · exact Follows.cons _ v _ i f t s hx h4

theorem rescan_ok {V : Type} {e : Env} {n : Node V} (h : Tidy n) : Clean (rescan e n) ∧ Runs e (rescan e n) := by
  obtain ⟨h1, h2, s, h3, h4⟩ := rescanLoop_ok e n.pool { n with view := n.base } 0
  refine ⟨⟨h.1.sublist h1, ?_⟩, s, ?_, ?_⟩
  · intro t ht
    have hv := h2 t ht
    have hf := h.2 t (h1.subset ht)
    obtain ⟨a, b⟩ := validAt_range hf hv.1
    exact ⟨a, hv.2, b⟩
  · rw [h3]; exact List.Perm.refl _
  · exact h4

theorem clean_tidy {V : Type} {n : Node V} (h : Clean n) : Tidy n := by
  refine ⟨h.1, fun t ht => ?_⟩
  unfold forbidden
  rcases (h.2 t ht).1 with hk | hk <;> rw [hk]

theorem accept_some {V : Type} {e : Env} {n m : Node V} {t : Tx V} (h : accept e n t = some m) :
    (∀ x ∈ n.pool, x.id ≠ t.id) ∧ forbidden t = false ∧ t.check (ctx e n.tip 0) n.view = true ∧
      ∃ v, inPool e n t n.pool.length = some v ∧ m = { n with pool := insertTx t n.pool, view := v } := by
  unfold accept at h
  split at h
  · cases h
  · rename_i hn
    split at h
    · cases h
    · rename_i hf
      split at h
      · cases h
      · rename_i hc
        cases hi : inPool e n t n.pool.length with
        | none => rw [hi] at h; cases h
        | some v =>
          rw [hi] at h
          simp only [Option.map_some, Option.some.injEq] at h
          refine ⟨?_, by simpa using hf, by simpa using hc, v, rfl, h.symm⟩
          simpa using hn

theorem accept_tidy {V : Type} {e : Env} {n m : Node V} {t : Tx V} (h : accept e n t = some m) (hn : Tidy n) : Tidy m := by
  obtain ⟨_, hf, _, v, _, rfl⟩ := accept_some h
  refine ⟨insertTx_sorted hn.1, fun x hx => ?_⟩
  rcases mem_insertTx hx with rfl | hx
  · exact hf
  · exact hn.2 x hx

theorem accept_ok {V : Type} {e : Env} {n m : Node V} {t : Tx V} (h : accept e n t = some m) (hn : Clean n ∧ Runs e n) :
    Clean m ∧ Runs e m := by
  obtain ⟨hid, hf, _, v, hi, rfl⟩ := accept_some h
  obtain ⟨hv, hc, f, hx⟩ := inPool_some hi
  obtain ⟨hcl, s, hp, hfol⟩ := hn
  refine ⟨⟨insertTx_sorted hcl.1, ?_⟩, s ++ [(n.pool.length, t)], ?_, ?_⟩
  · intro x hx
    rcases mem_insertTx hx with rfl | hx
    · obtain ⟨a, b⟩ := validAt_range hf hv
      exact ⟨a, hc, b⟩
    · exact hcl.2 x hx
  · simp only [List.map_append, List.map_cons, List.map_nil]
    refine (List.perm_append_comm (l₂ := [t])).trans ?_
    exact (List.Perm.cons t hp).trans (insertTx_perm hid).symm
  · exact follows_append hfol (Follows.cons _ v _ _ f t [] hx (Follows.nil _))

theorem back_tidy {V : Type} {e : Env} {n : Node V} {t : Tx V} (hn : Tidy n) : Tidy (back e n t) := by
  unfold back
  split
  · exact hn
  · cases h : accept e n t with
    | some m => exact accept_tidy h hn
    | none => exact ⟨hn.1.filter _, fun x hx => hn.2 x (List.mem_filter.1 hx).1⟩

theorem foldl_back_tidy {V : Type} {e : Env} : ∀ {txs : List (Tx V)} {n : Node V}, Tidy n → Tidy (txs.foldl (back e) n)
  | [], _, h => h
  | _ :: ts, _, h => foldl_back_tidy (txs := ts) (back_tidy h)

theorem reach_ok {V : Type} {e : Env} {n : Node V} (h : Reach e n) : Clean n ∧ Runs e n := by
  induction h with
  | start e tip base conf =>
    exact ⟨⟨List.Pairwise.nil, by simp⟩, [], by simp, Follows.nil _⟩
  | accept e n m t _ ha ih => exact accept_ok ha ih
  | newTip e e' n base conf ids _ ih =>
    refine rescan_ok ?_
    have := clean_tidy ih.1
    exact ⟨this.1.filter _, fun x hx => this.2 x (List.mem_filter.1 hx).1⟩
  | reorg e e' n tip base stale conf txs _ ih =>
    refine rescan_ok (foldl_back_tidy ?_)
    have := clean_tidy ih.1
    exact ⟨this.1, this.2⟩

/-! ## The order of packing -/

theorem legal_prioOf {V : Type} (t : Tx V) : legal (prioOf t) := by
  unfold prioOf legal
  have : 1000 / t.size ≤ 1000 := Nat.div_le_self _ _
  cases t.kind <;> simp [this]

theorem fits_snoc {V : Type} {ks : List (Item V)} {k : Item V} (h : Fits ks) (hk : Fit k ks) : Fits (ks ++ [k]) := by
  intro a x b he
  rcases List.eq_nil_or_concat b with rfl | ⟨b', y, rfl⟩
  · have he' : ks ++ [k] = a ++ [x] := he
    obtain ⟨rfl, h2⟩ := List.append_inj' he' rfl
    simp only [List.cons.injEq, and_true] at h2
    rw [← h2]; exact hk
  · have : ks ++ [k] = (a ++ x :: b') ++ [y] := by rw [he]; simp
    obtain ⟨h1, _⟩ := List.append_inj' this rfl
    exact h a x b' h1

theorem fits_map {V : Type} (g : Tx V → Nat) {l : List (Tx V)} (hl : l.Pairwise fun a b => a.id < b.id) : Fits (l.map (itemOf g)) := by
  intro a k b he
  have hp : (l.map (itemOf g)).Pairwise fun a b => a.id < b.id := List.pairwise_map.2 hl
  have hleg : ∀ x ∈ l.map (itemOf g), legal x.prio := by
    intro x hx
    obtain ⟨t, _, rfl⟩ := List.mem_map.1 hx
    exact legal_prioOf t
  rw [he] at hp hleg
  rw [List.pairwise_append] at hp
  refine ⟨hleg k (by simp), fun x hx => ⟨hleg x (by simp [hx]), fun _ => ?_⟩⟩
  have := hp.2.2 x hx k (by simp)
  exact ⟨by omega, Or.inl this⟩

theorem fits_items {V : Type} (g : Tx V → Nat) {n : Node V} (mid : Nat) {settle : Option (Tx V)} (hn : Clean n)
    (hs : ∀ t, settle = some t → ∀ x ∈ n.pool, x.id ≠ t.id) : Fits (items g n mid settle) := by
  have h1 : Fits (((n.pool.filter fun t => t.kind != .reward && !n.conf t.id).map (itemOf g))) := fits_map g (hn.1.filter _)
  have hmem : ∀ x ∈ (n.pool.filter fun t => t.kind != .reward && !n.conf t.id).map (itemOf g), ∃ t ∈ n.pool, x = itemOf g t := by
    intro x hx
    obtain ⟨t, ht, rfl⟩ := List.mem_map.1 hx
    exact ⟨t, (List.mem_filter.1 ht).1, rfl⟩
  have h2 : Fits ((n.pool.filter fun t => t.kind != .reward && !n.conf t.id).map (itemOf g) ++
      [{ prio := 10000, fee := 0, id := mid, cand := .median }]) := by
    refine fits_snoc h1 ⟨Or.inr (Or.inl rfl), fun x hx => ?_⟩
    obtain ⟨t, _, rfl⟩ := hmem x hx
    refine ⟨legal_prioOf t, fun hg => ?_⟩
    exfalso
    have := legal_prioOf t
    simp only [itemOf] at hg
    unfold legal at this
    unfold group at hg
    simp only [show ¬ (10000 : Nat) ≤ 1000 by omega, if_false, le_refl, if_true] at hg
    split at hg
    · omega
    · split at hg
      · have : prioOf t = 10000 := by omega
        unfold prioOf at this
        have hd : 1000 / t.size ≤ 1000 := Nat.div_le_self _ _
        cases hk : t.kind <;> rw [hk] at this <;> simp at this <;> omega
      · omega
  unfold items
  cases settle with
  | none => exact h2
  | some t =>
    have := fits_snoc h2 (k := { prio := 1000, fee := 0, id := t.id, cand := .tx t }) ⟨Or.inl (le_refl _), fun x hx => ?_⟩
    · simpa using this
    · rcases List.mem_append.1 hx with hx | hx
      · obtain ⟨y, hy, rfl⟩ := hmem x hx
        exact ⟨legal_prioOf y, fun _ => ⟨fun h => hs t rfl y hy h.symm, Or.inr (Nat.zero_le _)⟩⟩
      · rw [List.mem_singleton] at hx
        subst hx
        exact ⟨Or.inr (Or.inl rfl), fun hg => absurd (show group 1000 = group 10000 from hg) (by decide)⟩

/-! ## Packing and connecting -/

def Pack.conn {V : Type} (p : Pack V) : Conn V := { view := p.view, fuel := p.fuel, fuelFee := p.fuelFee, wicc := p.wicc, wusd := p.wusd }

/-- The block states the circumstances of the producer. -/
structure Same {V : Type} (e : Env) (n : Node V) (b : Block V) : Prop where
  height : b.height = n.tip + 1
  rate : b.rate = e.rate
  time : b.time = e.time
  bp : b.bp = e.bp

theorem pack_step {V : Type} {cfg : Cfg V} {e : Env} {n : Node V} {b : Block V} {p q : Pack V} {c : Cand V} (hb : Same e n b)
    (h : pack cfg e n.tip p c = some q)
    (hc : ∀ x v, n.conf (c.get cfg x v).id = false ∧ validAt (c.get cfg x v) (n.tip : Int) = true) :
    q = p ∨ ∃ x v t, t = c.get cfg x v ∧ q.txs = p.txs ++ [t] ∧ q.size = p.size + t.size ∧ q.size < cfg.maxSize ∧
      connTx cfg n b e.prev (p.txs.length + 1) p.conn t = .ok q.conn := by
  unfold pack at h
  simp only at h
  split at h
  · exact Or.inl (Option.some.inj h).symm
  · rename_i hsz
    cases hr : (c.get cfg (ctx e n.tip (p.txs.length + 1)) p.view).run (ctx e n.tip (p.txs.length + 1)) p.view with
    | none =>
      rw [hr] at h
      exact Or.inl (Option.some.inj h).symm
    | some r =>
      obtain ⟨v, f⟩ := r
      rw [hr] at h
      simp only at h
      split at h
      · exact Or.inl (Option.some.inj h).symm
      · rename_i hfu
        split at h
        · cases h
        · rename_i hfee
          have h := Option.some.inj h
          subst h
          refine Or.inr ⟨ctx e n.tip (p.txs.length + 1), p.view, _, rfl, rfl, rfl, by simpa using hsz, ?_⟩
          obtain ⟨h1, h2⟩ := hc (ctx e n.tip (p.txs.length + 1)) p.view
          unfold connTx
          rw [h1, h2, hb.height, hb.rate, hb.time, hb.bp]
          have hr' : (c.get cfg (ctx e n.tip (p.txs.length + 1)) p.view).run
              { height := n.tip + 1, index := p.txs.length + 1, rate := e.rate, time := e.time, prev := e.prev, bp := e.bp }
              p.conn.view = some (v, f) := hr
          rw [hr']
          have hfu' : ¬ p.conn.fuel + f > MAXFUEL := by
            have : p.conn.fuel = p.fuel := rfl
            rw [this]; omega
          simp only [Bool.false_eq_true, if_false, reduceCtorEq, if_neg hfu', if_neg hfee]
          rfl

theorem packAll_conn {V : Type} {cfg : Cfg V} {e : Env} {n : Node V} {b : Block V} (hb : Same e n b) :
    ∀ (cs : List (Cand V)) (p q : Pack V), packAll cfg e n.tip cs p = some q →
      (∀ c ∈ cs, ∀ x v, n.conf (c.get cfg x v).id = false ∧ validAt (c.get cfg x v) (n.tip : Int) = true) →
      ∃ ts, q.txs = p.txs ++ ts ∧ q.size = p.size + (ts.map (·.size)).sum ∧ (ts ≠ [] → q.size < cfg.maxSize) ∧
        connAll cfg n b e.prev (p.txs.length + 1) ts p.conn = .ok q.conn
  | [], p, q, h, _ => by
    have h := Option.some.inj h
    subst h
    exact ⟨[], by simp, by simp, by simp, rfl⟩
  | c :: cs, p, q, h, hc => by
    unfold packAll at h
    cases hp : pack cfg e n.tip p c with
    | none => rw [hp] at h; cases h
    | some p' =>
      rw [hp] at h
      have h : packAll cfg e n.tip cs p' = some q := h
      obtain ⟨ts, h1, h2, h3, h4⟩ := packAll_conn hb cs p' q h fun c' hc' => hc c' (by simp [hc'])
      rcases pack_step hb hp (hc c (by simp)) with rfl | ⟨x, v, t, ht, g1, g2, g3, g4⟩
      · exact ⟨ts, h1, h2, h3, h4⟩
      · refine ⟨t :: ts, by rw [h1, g1]; simp, by rw [h2, g2]; simp [Nat.add_assoc], fun _ => ?_, ?_⟩
        · cases ts with
          | nil => simp at h2; omega
          | cons a as => exact h3 (by simp)
        · unfold connAll
          rw [g4]
          rw [g1] at h4
          simpa using h4

/-- Candidates that are different transactions whatever the circumstances. -/
def Apart {V : Type} (cfg : Cfg V) (a b : Cand V) : Prop := ∀ x v y w, (a.get cfg x v).id ≠ (b.get cfg y w).id

theorem pack_txs {V : Type} {cfg : Cfg V} {e : Env} {tip : Nat} {p q : Pack V} {c : Cand V} (h : pack cfg e tip p c = some q) :
    q.txs = p.txs ∨ ∃ x v, q.txs = p.txs ++ [c.get cfg x v] := by
  unfold pack at h
  simp only at h
  split at h
  · exact Or.inl (by rw [Option.some.inj h])
  · split at h
    · exact Or.inl (by rw [Option.some.inj h])
    · split at h
      · exact Or.inl (by rw [Option.some.inj h])
      · split at h
        · cases h
        · rw [← Option.some.inj h]
          exact Or.inr ⟨_, _, rfl⟩

theorem packAll_nodup {V : Type} {cfg : Cfg V} {e : Env} {tip : Nat} : ∀ (cs : List (Cand V)) (p q : Pack V),
    packAll cfg e tip cs p = some q → cs.Pairwise (Apart cfg) → (p.txs.map (·.id)).Nodup →
      (∀ t ∈ p.txs, ∀ c ∈ cs, ∀ x v, t.id ≠ (c.get cfg x v).id) → (q.txs.map (·.id)).Nodup
  | [], p, q, h, _, hn, _ => by rw [← Option.some.inj h]; exact hn
  | c :: cs, p, q, h, ha, hn, hd => by
    unfold packAll at h
    rw [List.pairwise_cons] at ha
    cases hp : pack cfg e tip p c with
    | none => rw [hp] at h; cases h
    | some p' =>
      rw [hp] at h
      have h : packAll cfg e tip cs p' = some q := h
      refine packAll_nodup cs p' q h ha.2 ?_ ?_
      · rcases pack_txs hp with he | ⟨x, v, he⟩
        · rw [he]; exact hn
        · rw [he, List.map_append, List.nodup_append]
          refine ⟨hn, by simp, ?_⟩
          intro i hi j hj
          obtain ⟨t, ht, rfl⟩ := List.mem_map.1 hi
          simp only [List.map_cons, List.map_nil, List.mem_singleton] at hj
          rw [hj]
          exact hd t ht c (by simp) x v
      · intro t ht c' hc' x' v'
        rcases pack_txs hp with he | ⟨x, v, he⟩
        · rw [he] at ht
          exact hd t ht c' (by simp [hc']) x' v'
        · rw [he] at ht
          rcases List.mem_append.1 ht with ht | ht
          · exact hd t ht c' (by simp [hc']) x' v'
          · rw [List.mem_singleton] at ht
            rw [ht]
            exact ha.1 c' hc' x v x' v'

def Cand.isMedian {V : Type} : Cand V → Bool
  | .median => true
  | .tx _ => false

theorem packAll_mem {V : Type} {cfg : Cfg V} {e : Env} {tip : Nat} : ∀ (cs : List (Cand V)) (p q : Pack V),
    packAll cfg e tip cs p = some q → ∀ t ∈ q.txs, t ∈ p.txs ∨ ∃ c ∈ cs, ∃ x v, t = c.get cfg x v
  | [], p, q, h, t, ht => by rw [← Option.some.inj h] at ht; exact Or.inl ht
  | c :: cs, p, q, h, t, ht => by
    unfold packAll at h
    cases hp : pack cfg e tip p c with
    | none => rw [hp] at h; cases h
    | some p' =>
      rw [hp] at h
      have h : packAll cfg e tip cs p' = some q := h
      rcases packAll_mem cs p' q h t ht with h1 | ⟨c', hc', x, v, h1⟩
      · rcases pack_txs hp with he | ⟨x, v, he⟩
        · rw [he] at h1; exact Or.inl h1
        · rw [he] at h1
          rcases List.mem_append.1 h1 with h1 | h1
          · exact Or.inl h1
          · exact Or.inr ⟨c, by simp, x, v, by simpa using h1⟩
      · exact Or.inr ⟨c', by simp [hc'], x, v, h1⟩

theorem packAll_median {V : Type} {cfg : Cfg V} {e : Env} {tip : Nat} : ∀ (cs : List (Cand V)) (p q : Pack V),
    packAll cfg e tip cs p = some q → (∀ t, Cand.tx t ∈ cs → t.kind ≠ .median) →
      (q.txs.filter fun t => t.kind == .median).length ≤
        (p.txs.filter fun t => t.kind == .median).length + (cs.filter Cand.isMedian).length
  | [], p, q, h, _ => by rw [← Option.some.inj h]; simp
  | c :: cs, p, q, h, hk => by
    unfold packAll at h
    cases hp : pack cfg e tip p c with
    | none => rw [hp] at h; cases h
    | some p' =>
      rw [hp] at h
      have h : packAll cfg e tip cs p' = some q := h
      have := packAll_median cs p' q h fun t ht => hk t (by simp [ht])
      have hp' : (p'.txs.filter fun t => t.kind == .median).length ≤
          (p.txs.filter fun t => t.kind == .median).length + (if c.isMedian then 1 else 0) := by
        rcases pack_txs hp with he | ⟨x, v, he⟩
        · rw [he]; omega
        · rw [he, List.filter_append, List.length_append]
          cases c with
          | median =>
            have := List.length_filter_le (fun t : Tx V => t.kind == .median) [Cand.median.get cfg x v]
            simp [Cand.isMedian] at this ⊢
            omega
          | tx t =>
            have : t.kind ≠ .median := hk t (by simp)
            simp [Cand.get, Cand.isMedian, this]
      rw [List.filter_cons]
      split <;> simp_all <;> omega

end Verif.Mine
