import Verif.Sync.Model

/-!
# The books of block download are kept consistent
-/
namespace Verif.Sync

/-- One book agrees with itself: counters are lengths, lists and map hold the same entries, iterators are valid and of existing
nodes. -/
structure TabInv (conn : Peer → Bool) (b : Tab) (n : Nat) : Prop where
  cnt : ∀ p, b.cnt p = (b.list p).length
  up : ∀ p e, e ∈ b.list p → b.map e.hash = some (p, e.tok, e.time)
  down : ∀ h p t m, b.map h = some (p, t, m) → conn p = true ∧ (⟨t, h, m⟩ : Entry) ∈ b.list p
  tok : ∀ p, (b.list p).Pairwise (fun x y => x.tok ≠ y.tok)
  lt : ∀ p e, e ∈ b.list p → e.tok < n

theorem upd_same {α : Type} (f : Nat → α) (k : Nat) (v : α) : upd f k v k = v := if_pos rfl
theorem upd_ne {α : Type} (f : Nat → α) {k x : Nat} (v : α) (h : x ≠ k) : upd f k v x = f x := if_neg h

theorem eraseTok_filter {t : Nat} {h : Hash} : ∀ {l : List Entry}, l.Pairwise (fun x y => x.tok ≠ y.tok) →
    (∀ e ∈ l, e.tok = t ↔ e.hash = h) → (∃ e ∈ l, e.tok = t) →
    eraseTok t l = some (l.filter (fun e => decide (e.hash ≠ h))) ∧ (l.filter (fun e => decide (e.hash ≠ h))).length + 1 = l.length
  | [], _, _, ⟨_, hm, _⟩ => by cases hm
  | e :: l, hp, hi, hx => by
    rw [List.pairwise_cons] at hp
    rw [eraseTok]
    by_cases he : e.tok = t
    · rw [if_pos he, List.filter_cons]
      have hh : e.hash = h := (hi e List.mem_cons_self).1 he
      have hf : l.filter (fun e => decide (e.hash ≠ h)) = l := by
        rw [List.filter_eq_self]
        intro x hxl
        have h1 : x.tok ≠ t := fun hc => hp.1 x hxl (he.trans hc.symm)
        have h2 : x.hash ≠ h := fun hc => h1 ((hi x (List.mem_cons_of_mem _ hxl)).2 hc)
        simp [h2]
      rw [if_neg (by simp [hh]), hf]
      exact ⟨rfl, rfl⟩
    · have hh : e.hash ≠ h := fun hc => he ((hi e List.mem_cons_self).2 hc)
      obtain ⟨x, hxm, hxt⟩ := hx
      have hxl : x ∈ l := by
        rcases List.mem_cons.1 hxm with rfl | hxl
        · exact absurd hxt he
        · exact hxl
      obtain ⟨h1, h2⟩ := eraseTok_filter hp.2 (fun y hy => hi y (List.mem_cons_of_mem _ hy)) ⟨x, hxl, hxt⟩
      rw [if_neg he, h1, List.filter_cons, if_pos (by simp [hh])]
      refine ⟨rfl, ?_⟩
      rw [List.length_cons, h2, List.length_cons]

theorem tok_inj : ∀ {l : List Entry}, l.Pairwise (fun x y => x.tok ≠ y.tok) → ∀ x ∈ l, ∀ y ∈ l, x.tok = y.tok → x = y
  | [], _, _, hx, _, _, _ => by cases hx
  | a :: l, hl, x, hx, y, hy, hxy => by
    rw [List.pairwise_cons] at hl
    rcases List.mem_cons.1 hx with hx | hx
    · rcases List.mem_cons.1 hy with hy | hy
      · rw [hx, hy]
      · rw [hx] at hxy; exact absurd hxy (hl.1 y hy)
    · rcases List.mem_cons.1 hy with hy | hy
      · rw [hy] at hxy; exact absurd hxy.symm (hl.1 x hx)
      · exact tok_inj hl.2 x hx y hy hxy

variable {conn : Peer → Bool} {b : Tab} {n : Nat}

/-- Removing a block from a book: it is gone, and nothing else. -/
theorem remove_ok (hb : TabInv conn b n) (h : Hash) :
    ∃ b', b.remove conn h = some b' ∧ TabInv conn b' n ∧ b'.map h = none ∧ (∀ g, g ≠ h → b'.map g = b.map g) ∧
      ∀ p, b'.list p = (b.list p).filter (fun e => decide (e.hash ≠ h)) := by
  have hno : ∀ q : Peer, (∀ t m, b.map h ≠ some (q, t, m)) → (b.list q).filter (fun e => decide (e.hash ≠ h)) = b.list q := by
    intro q hq
    rw [List.filter_eq_self]
    intro e he
    have : e.hash ≠ h := by
      intro hc
      have := hb.up q e he
      rw [hc] at this
      exact hq _ _ this
    simp [this]
  unfold Tab.remove
  cases hm : b.map h with
  | none =>
    refine ⟨b, rfl, hb, hm, fun _ _ => rfl, fun q => (hno q (by intro t m hc; rw [hm] at hc; cases hc)).symm⟩
  | some r =>
    obtain ⟨p, t, m⟩ := r
    obtain ⟨hc, hin⟩ := hb.down h p t m hm
    dsimp only
    rw [if_pos hc]
    have hi : ∀ e ∈ b.list p, e.tok = t ↔ e.hash = h := by
      intro e he
      constructor
      · intro het
        by_cases hee : e = ⟨t, h, m⟩
        · rw [hee]
        · exfalso
          exact hee (tok_inj (hb.tok p) e he _ hin het)
      · intro heh
        have h1 := hb.up p e he
        rw [heh, hm] at h1
        injection h1 with h1
        injection h1 with _ h1
        injection h1 with h1 _
        exact h1.symm
    obtain ⟨h1, h2⟩ := eraseTok_filter (hb.tok p) hi ⟨_, hin, rfl⟩
    rw [h1]
    refine ⟨_, rfl, ?_, upd_same _ _ _, fun g hg => upd_ne _ _ hg, ?_⟩
    · constructor
      · intro q
        dsimp only
        by_cases hq : q = p
        · subst hq
          rw [upd_same, upd_same, hb.cnt]
          omega
        · rw [upd_ne _ _ hq, upd_ne _ _ hq, hb.cnt]
      · intro q e he
        dsimp only at he ⊢
        by_cases hq : q = p
        · subst hq
          rw [upd_same, List.mem_filter] at he
          have : e.hash ≠ h := by simpa using he.2
          rw [upd_ne _ _ this]
          exact hb.up q e he.1
        · rw [upd_ne _ _ hq] at he
          have h3 := hb.up q e he
          have : e.hash ≠ h := by
            intro hc
            rw [hc, hm] at h3
            injection h3 with h3
            injection h3 with h3 _
            exact hq h3.symm
          rw [upd_ne _ _ this]
          exact h3
      · intro g q t' m' hg
        dsimp only at hg ⊢
        by_cases hgh : g = h
        · subst hgh; rw [upd_same] at hg; cases hg
        · rw [upd_ne _ _ hgh] at hg
          obtain ⟨h3, h4⟩ := hb.down g q t' m' hg
          refine ⟨h3, ?_⟩
          by_cases hq : q = p
          · subst hq
            rw [upd_same, List.mem_filter]
            exact ⟨h4, by simpa using hgh⟩
          · rw [upd_ne _ _ hq]; exact h4
      · intro q
        dsimp only
        by_cases hq : q = p
        · subst hq
          rw [upd_same]
          exact (hb.tok q).filter _
        · rw [upd_ne _ _ hq]; exact hb.tok q
      · intro q e he
        dsimp only at he
        by_cases hq : q = p
        · subst hq
          rw [upd_same, List.mem_filter] at he
          exact hb.lt q e he.1
        · rw [upd_ne _ _ hq] at he; exact hb.lt q e he
    · intro q
      dsimp only
      by_cases hq : q = p
      · subst hq; rw [upd_same]
      · rw [upd_ne _ _ hq, hno q]
        intro t' m' hc
        rw [hm] at hc
        injection hc with hc
        injection hc with hc _
        exact hq hc.symm

theorem push_ok (hb : TabInv conn b n) {p : Peer} {h : Hash} (time : Int) (hc : conn p = true) (hm : b.map h = none) :
    TabInv conn (b.push p h n time) (n + 1) := by
  unfold Tab.push
  constructor
  · intro q
    dsimp only
    by_cases hq : q = p
    · subst hq; rw [upd_same, upd_same, hb.cnt, List.length_append]; simp
    · rw [upd_ne _ _ hq, upd_ne _ _ hq, hb.cnt]
  · intro q e he
    dsimp only at he ⊢
    have hold : e ∈ b.list q → upd b.map h (some (p, n, time)) e.hash = some (q, e.tok, e.time) := by
      intro he
      have h1 := hb.up q e he
      have : e.hash ≠ h := by intro hx; rw [hx, hm] at h1; cases h1
      rw [upd_ne _ _ this]; exact h1
    by_cases hq : q = p
    · subst hq
      rw [upd_same, List.mem_append, List.mem_singleton] at he
      rcases he with he | rfl
      · exact hold he
      · rw [upd_same]
    · rw [upd_ne _ _ hq] at he; exact hold he
  · intro g q t m hg
    dsimp only at hg ⊢
    by_cases hgh : g = h
    · subst hgh
      rw [upd_same] at hg
      injection hg with hg
      injection hg with h1 hg
      injection hg with h2 h3
      subst h1; subst h2; subst h3
      refine ⟨hc, ?_⟩
      rw [upd_same, List.mem_append, List.mem_singleton]
      exact Or.inr rfl
    · rw [upd_ne _ _ hgh] at hg
      obtain ⟨h1, h2⟩ := hb.down g q t m hg
      refine ⟨h1, ?_⟩
      by_cases hq : q = p
      · subst hq; rw [upd_same, List.mem_append]; exact Or.inl h2
      · rw [upd_ne _ _ hq]; exact h2
  · intro q
    dsimp only
    by_cases hq : q = p
    · subst hq
      rw [upd_same, List.pairwise_append]
      refine ⟨hb.tok q, List.pairwise_singleton _ _, ?_⟩
      intro x hx y hy
      rw [List.mem_singleton] at hy
      subst hy
      have := hb.lt q x hx
      show x.tok ≠ n
      omega
    · rw [upd_ne _ _ hq]; exact hb.tok q
  · intro q e he
    dsimp only at he
    by_cases hq : q = p
    · subst hq
      rw [upd_same, List.mem_append, List.mem_singleton] at he
      rcases he with he | rfl
      · have := hb.lt q e he; omega
      · show n < n + 1; omega
    · rw [upd_ne _ _ hq] at he; have := hb.lt q e he; omega

theorem TabInv.mono (hb : TabInv conn b n) {m : Nat} (h : n ≤ m) : TabInv conn b m :=
  ⟨hb.cnt, hb.up, hb.down, hb.tok, fun p e he => Nat.lt_of_lt_of_le (hb.lt p e he) h⟩

theorem drop_ok (hb : TabInv conn b n) (p : Peer) : TabInv (upd conn p false) (b.drop p) n := by
  unfold Tab.drop
  constructor
  · intro q
    dsimp only
    by_cases hq : q = p
    · subst hq; rw [upd_same, upd_same]; rfl
    · rw [upd_ne _ _ hq, upd_ne _ _ hq, hb.cnt]
  · intro q e he
    dsimp only at he ⊢
    by_cases hq : q = p
    · subst hq; rw [upd_same] at he; cases he
    · rw [upd_ne _ _ hq] at he
      have h1 := hb.up q e he
      rw [if_neg, h1]
      intro hc
      rw [List.mem_map] at hc
      obtain ⟨x, hx, hxe⟩ := hc
      have h2 := hb.up p x hx
      rw [hxe, h1] at h2
      injection h2 with h2
      injection h2 with h2 _
      exact hq h2
  · intro g q t m hg
    dsimp only at hg ⊢
    split at hg
    · cases hg
    · rename_i hx
      obtain ⟨h1, h2⟩ := hb.down g q t m hg
      have hq : q ≠ p := by
        intro hc
        subst hc
        exact hx (List.mem_map.2 ⟨_, h2, rfl⟩)
      rw [upd_ne _ _ hq, upd_ne _ _ hq]
      exact ⟨h1, h2⟩
  · intro q
    dsimp only
    by_cases hq : q = p
    · subst hq; rw [upd_same]; exact List.Pairwise.nil
    · rw [upd_ne _ _ hq]; exact hb.tok q
  · intro q e he
    dsimp only at he
    by_cases hq : q = p
    · subst hq; rw [upd_same] at he; cases he
    · rw [upd_ne _ _ hq] at he; exact hb.lt q e he

theorem TabInv.list_nil (hb : TabInv conn b n) {p : Peer} (hp : conn p = false) : b.list p = [] := by
  cases hl : b.list p with
  | nil => rfl
  | cons e l =>
    have h1 := hb.up p e (by rw [hl]; exact List.mem_cons_self)
    have := (hb.down _ _ _ _ h1).1
    rw [hp] at this; cases this

theorem fresh_ok (hb : TabInv conn b n) {p : Peer} (hp : conn p = false) : TabInv (upd conn p true) (b.fresh p) n := by
  have hl := hb.list_nil hp
  have hc : b.cnt p = 0 := by rw [hb.cnt, hl]; rfl
  have he : b.fresh p = b := by
    unfold Tab.fresh
    have h1 : upd b.list p [] = b.list := by funext q; unfold upd; split; · rename_i h; rw [h, hl]
                                             · rfl
    have h2 : upd b.cnt p 0 = b.cnt := by funext q; unfold upd; split; · rename_i h; rw [h, hc]
                                          · rfl
    rw [h1, h2]
  rw [he]
  refine ⟨hb.cnt, hb.up, ?_, hb.tok, hb.lt⟩
  intro g q t m hg
  obtain ⟨h1, h2⟩ := hb.down g q t m hg
  have hq : q ≠ p := by intro hx; rw [hx, hp] at h1; cases h1
  rw [upd_ne _ _ hq]; exact ⟨h1, h2⟩

/-- Both books. -/
structure Inv' (s : St) : Prop where
  todo : TabInv s.conn s.todo s.nextTok
  flight : TabInv s.conn s.flight s.nextTok
  disj : ∀ h, s.todo.map h ≠ none → s.flight.map h = none
  cap : ∀ p, s.flight.cnt p ≤ 128
  peers : ∀ p, s.nextPeer ≤ p → s.conn p = false

theorem filter_length_le {α : Type} (f : α → Bool) (l : List α) : (l.filter f).length ≤ l.length := List.length_filter_le f l

theorem received_ok {s : St} (hs : Inv' s) (h : Hash) :
    ∃ s', received s h = some s' ∧ Inv' s' ∧ s'.todo.map h = none ∧ s'.flight.map h = none ∧
      (∀ g, g ≠ h → s'.todo.map g = s.todo.map g ∧ s'.flight.map g = s.flight.map g) ∧
      (∀ p, s'.todo.list p = (s.todo.list p).filter (fun e => decide (e.hash ≠ h)) ∧
        s'.flight.list p = (s.flight.list p).filter (fun e => decide (e.hash ≠ h))) ∧
      s'.conn = s.conn ∧ s'.nextTok = s.nextTok ∧ s'.nextPeer = s.nextPeer ∧ s'.score = s.score := by
  obtain ⟨t, h1, h2, h3, h4, h5⟩ := remove_ok hs.todo h
  obtain ⟨f, g1, g2, g3, g4, g5⟩ := remove_ok hs.flight h
  unfold received
  rw [h1]
  dsimp only
  rw [g1]
  refine ⟨_, rfl, ⟨h2, g2, ?_, ?_, hs.peers⟩, h3, g3, fun g hg => ⟨h4 g hg, g4 g hg⟩, fun p => ⟨h5 p, g5 p⟩, rfl, rfl, rfl, rfl⟩
  · intro g hg
    by_cases hgh : g = h
    · rw [hgh]; exact g3
    · dsimp only at hg ⊢
      rw [h4 g hgh] at hg
      rw [g4 g hgh]
      exact hs.disj g hg
  · intro p
    dsimp only
    rw [g2.cnt, g5]
    have := hs.cap p
    rw [hs.flight.cnt] at this
    have h6 := filter_length_le (fun e => decide (e.hash ≠ h)) (s.flight.list p)
    omega

theorem filter_absent {l : List Entry} {h : Hash} (hl : ∀ e ∈ l, e.hash ≠ h) :
    l.filter (fun e => decide (e.hash ≠ h)) = l := by
  rw [List.filter_eq_self]
  intro e he
  simpa using hl e he

theorem TabInv.absent (hb : TabInv conn b n) {h : Hash} (hm : b.map h = none) (p : Peer) : ∀ e ∈ b.list p, e.hash ≠ h := by
  intro e he hc
  have := hb.up p e he
  rw [hc, hm] at this; cases this

theorem TabInv.hash_inj (hb : TabInv conn b n) (p : Peer) : (b.list p).Pairwise (fun x y => x.hash ≠ y.hash) := by
  have hall := hb.up p
  have ht := hb.tok p
  generalize b.list p = l at *
  induction l with
  | nil => exact List.Pairwise.nil
  | cons a l ih =>
    rw [List.pairwise_cons] at ht ⊢
    refine ⟨?_, ih (fun e he => hall e (List.mem_cons_of_mem _ he)) ht.2⟩
    intro x hx hc
    have h1 := hall a List.mem_cons_self
    have h2 := hall x (List.mem_cons_of_mem _ hx)
    rw [hc, h2] at h1
    injection h1 with h1
    injection h1 with _ h1
    injection h1 with h1 _
    exact ht.1 x hx h1.symm

/-- One round of the loop that asks for blocks. -/
theorem inFlight_ok {s : St} (hs : Inv' s) {p : Peer} (hp : s.conn p = true) {e : Entry} {l : List Entry}
    (hl : s.todo.list p = e :: l) (hc : s.flight.cnt p < 128) (now : Int) :
    ∃ s', inFlight s e.hash p now = some s' ∧ Inv' s' ∧ s'.todo.list p = l ∧
      s'.flight.list p = s.flight.list p ++ [⟨s.nextTok, e.hash, now⟩] ∧
      (∀ q, q ≠ p → s'.todo.list q = s.todo.list q ∧ s'.flight.list q = s.flight.list q) ∧
      s'.conn = s.conn ∧ s'.nextPeer = s.nextPeer := by
  obtain ⟨s1, h1, h2, h3, h4, h5, h6, h7, h8, h9, h10⟩ := received_ok hs e.hash
  have hmap : s.todo.map e.hash ≠ none := by
    rw [hs.todo.up p e (by rw [hl]; exact List.mem_cons_self)]; exact Option.some_ne_none _
  have hfl := hs.disj _ hmap
  unfold inFlight
  rw [if_pos hp, h1]
  dsimp only
  have hconn : s1.conn p = true := by rw [h7]; exact hp
  have hflist : ∀ q, s1.flight.list q = s.flight.list q := by
    intro q; rw [(h6 q).2, filter_absent (hs.flight.absent hfl q)]
  refine ⟨_, rfl, ⟨h2.todo.mono (Nat.le_succ _), push_ok h2.flight now hconn h4, ?_, ?_, h2.peers⟩, ?_, ?_, ?_, h7, h9⟩
  · intro g hg
    dsimp only at hg ⊢
    by_cases hgh : g = e.hash
    · subst hgh; exact absurd h3 hg
    · unfold Tab.push; dsimp only; rw [upd_ne _ _ hgh]; exact h2.disj g hg
  · intro q
    unfold Tab.push
    dsimp only
    by_cases hq : q = p
    · subst hq
      rw [upd_same, h2.flight.cnt, hflist]
      rw [hs.flight.cnt] at hc
      omega
    · rw [upd_ne _ _ hq]; exact h2.cap q
  · dsimp only
    rw [(h6 p).1, hl, List.filter_cons, if_neg (by simp)]
    have hin := hs.todo.hash_inj p
    rw [hl, List.pairwise_cons] at hin
    exact filter_absent (fun x hx => fun hc => hin.1 x hx hc.symm)
  · unfold Tab.push
    dsimp only
    rw [upd_same, hflist, h8]
  · intro q hq
    unfold Tab.push
    dsimp only
    rw [upd_ne _ _ hq, hflist, (h6 q).1]
    refine ⟨filter_absent ?_, rfl⟩
    intro x hx hxe
    have e1 := hs.todo.up q x hx
    have e2 := hs.todo.up p e (by rw [hl]; exact List.mem_cons_self)
    rw [hxe, e2] at e1
    injection e1 with e1
    injection e1 with e1 _
    exact hq e1.symm

/-- How many blocks are asked for. -/
def quota (s : St) (p : Peer) : Nat := min (s.todo.list p).length (128 - (s.flight.list p).length)

theorem askLoop_ok : ∀ (n : Nat) {s : St}, Inv' s → ∀ {p : Peer}, s.conn p = true → ∀ (now : Int), quota s p < n →
    ∃ s', askLoop n s p now = some (((s.todo.list p).take (quota s p)).map (·.hash), s') ∧ Inv' s' ∧
      s'.todo.list p = (s.todo.list p).drop (quota s p) ∧
      (s'.flight.list p).map (·.hash) = (s.flight.list p).map (·.hash) ++ ((s.todo.list p).take (quota s p)).map (·.hash) ∧
      (∀ q, q ≠ p → s'.todo.list q = s.todo.list q ∧ s'.flight.list q = s.flight.list q) ∧
      s'.conn = s.conn ∧ s'.nextPeer = s.nextPeer ∧ (∀ x ∈ s.flight.list p, x ∈ s'.flight.list p)
  | 0, _, _, _, _, _, hn => absurd hn (Nat.not_lt_zero _)
  | n + 1, s, hs, p, hp, now, hn => by
    rw [askLoop]
    have hct := hs.todo.cnt p
    have hcf := hs.flight.cnt p
    by_cases hc : s.todo.cnt p ≠ 0 ∧ s.flight.cnt p < 128
    · rw [if_pos hc]
      cases hl : s.todo.list p with
      | nil => rw [hl] at hct; exact absurd hct hc.1
      | cons e l =>
        dsimp only
        obtain ⟨s1, h1, h2, h3, h4, h5, h6, h7⟩ := inFlight_ok hs hp hl hc.2 now
        rw [h1]
        dsimp only
        have hq : quota s p = quota s1 p + 1 := by
          unfold quota
          rw [h3, h4, hl, List.length_cons, List.length_append, List.length_singleton]
          have := hc.2
          omega
        obtain ⟨s2, g1, g2, g3, g4, g5, g6, g7, g8⟩ := askLoop_ok n h2 (p := p) (by rw [h6]; exact hp) now (by omega)
        rw [g1]
        refine ⟨s2, ?_, g2, ?_, ?_, ?_, g6.trans h6, g7.trans h7,
          fun x hx => g8 x (by rw [h4]; exact List.mem_append_left _ hx)⟩
        · rw [hq, h3]; rfl
        · rw [g3, hq, h3]; rfl
        · rw [g4, h4, hq, h3, List.map_append, List.append_assoc]; rfl
        · intro q hqp
          exact ⟨(g5 q hqp).1.trans (h5 q hqp).1, (g5 q hqp).2.trans (h5 q hqp).2⟩
    · rw [if_neg hc]
      have hq : quota s p = 0 := by
        unfold quota
        have := hs.cap p
        omega
      refine ⟨s, ?_, hs, ?_, ?_, fun _ _ => ⟨rfl, rfl⟩, rfl, rfl, fun _ hx => hx⟩
      · rw [hq]; rfl
      · rw [hq]; rfl
      · rw [hq]; simp

theorem connect_ok {s : St} (hs : Inv' s) : Inv' (connect s) := by
  have hp := hs.peers s.nextPeer (Nat.le_refl _)
  have e1 := hs.flight.list_nil hp
  refine ⟨fresh_ok hs.todo hp, fresh_ok hs.flight hp, hs.disj, ?_, ?_⟩
  · intro q
    unfold connect Tab.fresh
    dsimp only
    by_cases hq : q = s.nextPeer
    · subst hq; rw [upd_same]; decide
    · rw [upd_ne _ _ hq]; exact hs.cap q
  · intro q hq
    have hq' : s.nextPeer + 1 ≤ q := hq
    show upd s.conn s.nextPeer true q = false
    rw [upd_ne _ _ (Nat.ne_of_gt hq')]
    exact hs.peers q (Nat.le_of_lt hq')

theorem disconnect_ok {s : St} (hs : Inv' s) {p : Peer} (hp : s.conn p = true) :
    ∃ s', disconnect s p = some s' ∧ Inv' s' := by
  unfold disconnect
  rw [if_pos hp]
  refine ⟨_, rfl, drop_ok hs.todo p, drop_ok hs.flight p, ?_, ?_, ?_⟩
  · intro h hh
    unfold Tab.drop at *
    dsimp only at *
    split at hh
    · exact absurd rfl hh
    · have := hs.disj h hh
      split
      · rfl
      · exact this
  · intro q
    unfold Tab.drop
    dsimp only
    by_cases hq : q = p
    · subst hq; rw [upd_same]; decide
    · rw [upd_ne _ _ hq]; exact hs.cap q
  · intro q hq
    dsimp only at *
    by_cases hqp : q = p
    · subst hqp; exact upd_same _ _ _
    · rw [upd_ne _ _ hqp]; exact hs.peers q hq

/-- What an announcement does when the block is not being fetched. -/
theorem addToQueue_new {s : St} (hs : Inv' s) (h : Hash) {p : Peer} (hp : s.conn p = true) (now : Int) (miner : Bool)
    (hy : (young s.todo h now (todoLimit miner) || young s.flight h now (flightLimit miner)) = false) :
    ∃ s', addToQueue s h p now miner = some (true, s') ∧ Inv' s' ∧ s'.conn = s.conn ∧
      s'.todo.list p = (s.todo.list p).filter (fun e => decide (e.hash ≠ h)) ++ [⟨s.nextTok, h, now⟩] ∧
      ∀ q, s'.flight.list q = (s.flight.list q).filter (fun e => decide (e.hash ≠ h)) := by
  obtain ⟨s1, h1, h2, h3, h4, h5, h6, h7, h8, h9, h10⟩ := received_ok hs h
  unfold addToQueue
  rw [hy, if_neg (by decide), if_pos hp, h1]
  dsimp only
  have hconn : s1.conn p = true := by rw [h7]; exact hp
  have hinv : Inv' { s1 with todo := s1.todo.push p h s1.nextTok now, nextTok := s1.nextTok + 1 } := by
    refine ⟨push_ok h2.todo now hconn h3, h2.flight.mono (Nat.le_succ _), ?_, h2.cap, h2.peers⟩
    intro g hg
    dsimp only at hg ⊢
    by_cases hgh : g = h
    · rw [hgh]; exact h4
    · unfold Tab.push at hg; dsimp only at hg; rw [upd_ne _ _ hgh] at hg; exact h2.disj g hg
  refine ⟨_, rfl, ?_, ?_, ?_, ?_⟩
  · split
    · exact ⟨hinv.todo, hinv.flight, hinv.disj, hinv.cap, hinv.peers⟩
    · exact hinv
  · split <;> exact h7
  · have h11 : (s1.todo.push p h s1.nextTok now).list p = s1.todo.list p ++ [⟨s1.nextTok, h, now⟩] := by
      unfold Tab.push; dsimp only; rw [upd_same]
    rw [← h8, ← (h6 p).1, ← h11]
    split <;> rfl
  · intro q
    rw [← (h6 q).2]
    split <;> rfl

/-- The peer an event is about exists. -/
def Ev.valid (s : St) : Ev → Prop
  | .disconnect p => s.conn p = true
  | .send p _ => s.conn p = true
  | _ => True

theorem init_inv : Inv' St.init := by
  have h : TabInv (fun _ => false) Tab.none 0 := by
    refine ⟨fun _ => rfl, ?_, ?_, fun _ => List.Pairwise.nil, ?_⟩
    · intro p e he; cases he
    · intro h p t m hm; cases hm
    · intro p e he; cases he
  exact ⟨h, h, fun _ _ => rfl, fun _ => by show (0 : Int) ≤ 128; decide, fun _ _ => rfl⟩

theorem step_ok {s : St} (hs : Inv' s) {e : Ev} (he : e.valid s) : ∃ o s', step s e = some (o, s') ∧ Inv' s' := by
  cases e with
  | connect => exact ⟨_, _, rfl, connect_ok hs⟩
  | disconnect p =>
    obtain ⟨s', h1, h2⟩ := disconnect_ok hs he
    exact ⟨[], s', by simp only [step, h1, Option.map_some], h2⟩
  | announce p h now miner =>
    cases hy : (young s.todo h now (todoLimit miner) || young s.flight h now (flightLimit miner)) with
    | true =>
      refine ⟨[], s, ?_, hs⟩
      simp only [step, addToQueue, hy, if_true, Option.map_some]
    | false =>
      cases hp : s.conn p with
      | true =>
        obtain ⟨s', h1, h2, _⟩ := addToQueue_new hs h hp now miner hy
        exact ⟨[], s', by simp only [step, h1, Option.map_some], h2⟩
      | false =>
        refine ⟨[], s, ?_, hs⟩
        simp only [step, addToQueue, hy, hp]
        rfl
  | send p now =>
    have hq : quota s p < 129 := by unfold quota; omega
    obtain ⟨s', h1, h2, _⟩ := askLoop_ok 129 hs he now hq
    have he' : s.conn p = true := he
    exact ⟨_, s', by simp only [step, he', if_true]; exact h1, h2⟩
  | block h =>
    obtain ⟨s', h1, h2, _⟩ := received_ok hs h
    exact ⟨[], s', by simp only [step, h1, Option.map_some], h2⟩

end Verif.Sync
