import Verif.Intake.Mixed

/-!
# Deliveries and commands in any order: the choice of the chain ends
-/
namespace Verif.Intake

/-- What is left of the meaning of the flags: candidates are not flagged, and an entry that is neither was executed. -/
structure Marks (e : Env) (idx : List Node) : Prop where
  cand : ∀ n ∈ idx, n.cand = true → n.failed = false
  lost : ∀ n ∈ idx, n.cand = false → n.failed = false → Sound e n.path

theorem marks_markIf {e : Env} {idx : List Node} (h : Marks e idx) (P : Nat → Bool) : Marks e (markIf idx P) := by
  constructor
  · intro n hn hc
    obtain ⟨m, hm, rfl⟩ := mem_markIf.1 hn
    split at hc <;> rename_i hp
    · simp at hc
    · rw [if_neg hp]; exact h.cand m hm hc
  · intro n hn hc hf
    obtain ⟨m, hm, rfl⟩ := mem_markIf.1 hn
    split at hf <;> rename_i hp
    · simp at hf
    · rw [if_neg hp] at hc ⊢; exact h.lost m hm hc hf

theorem marks_mark {e : Env} {idx : List Node} (h : Marks e idx) (x : Nat) : Marks e (mark idx x) := by
  rw [mark_eq]; exact marks_markIf h _

theorem marks_uncand {e : Env} {idx : List Node} (t : Tree e (skel idx)) (h : Marks e idx) {x : Nat} (hx : isFailed idx x = true) :
    Marks e (uncand idx x) := by
  obtain ⟨k, hk, hk1, hk2⟩ := isFailed_iff.1 hx
  constructor
  · intro n hn hc
    obtain ⟨m, hm, rfl⟩ := List.mem_map.1 hn
    split at hc <;> rename_i hp
    · simp at hc
    · rw [if_neg hp]; exact h.cand m hm hc
  · intro n hn hc hf
    obtain ⟨m, hm, rfl⟩ := List.mem_map.1 hn
    split at hf <;> rename_i hp
    · have := node_eq t hk hm (by rw [hk1, hp])
      subst this
      simp only at hf
      rw [hk2] at hf; cases hf
    · rw [if_neg hp] at hc ⊢; exact h.lost m hm hc hf

theorem open_upd (idx : List Node) (x : Nat) (f : Node → Node) (hf : ∀ n, (f n).failed = n.failed) : open_ (upd idx x f) = open_ idx := by
  unfold open_ upd
  rw [List.countP_map]
  apply List.countP_congr
  intro n _
  simp only [Function.comp]
  split
  · rw [hf]
  · rfl

theorem popMost_marks {e : Env} {idx : List Node} (t : Tree e (skel idx)) (h : Marks e idx) (most : List Blk) :
    Marks e (popMost idx most).1 ∧ open_ (popMost idx most).1 = open_ idx ∧
      ∀ b r, (popMost idx most).2 = b :: r → isFailed (popMost idx most).1 b.hash = false := by
  induction most generalizing idx with
  | nil => exact ⟨h, rfl, by simp [popMost]⟩
  | cons b r ih =>
    unfold popMost
    by_cases hf : isFailed idx b.hash = true
    · rw [if_pos hf]
      obtain ⟨i1, i2, i3⟩ := ih (idx := uncand idx b.hash) (by rw [skel_uncand]; exact t) (marks_uncand t h hf)
      exact ⟨i1, i2.trans (open_upd _ _ _ fun _ => rfl), i3⟩
    · rw [if_neg hf]
      refine ⟨h, rfl, ?_⟩
      rintro b' r' ⟨⟩
      simpa using hf

theorem pick_total {e : Env} {active : List Blk} {fuel : Nat} {idx : List Node} (t : Tree e (skel idx)) (h : Marks e idx)
    (hf : open_ idx < fuel) :
    ∃ idx' o, pick active fuel idx = some (idx', o) ∧ Marks e idx' ∧ best idx' = o ∧ (idx' = idx ∨ open_ idx' < open_ idx) ∧
      ∀ n, o = some n → ((n.path.takeWhile fun b => !inChain active b.hash).any fun b => isFailed idx' b.hash) = false := by
  induction fuel generalizing idx with
  | zero => omega
  | succ fuel ih =>
    unfold pick
    cases hb : best idx with
    | none => exact ⟨idx, none, rfl, h, hb, Or.inl rfl, by simp⟩
    | some n =>
      obtain ⟨hn, hc⟩ := best_mem hb
      simp only
      by_cases hany : ((n.path.takeWhile fun b => !inChain active b.hash).any fun b => isFailed idx b.hash) = true
      · rw [if_pos hany, markAll_eq]
        have hnf := h.cand n hn hc
        have hne : isFailed idx n.blk.hash = false := by
          rw [Bool.eq_false_iff]
          intro hh
          obtain ⟨m, hm, h1, h2⟩ := isFailed_iff.1 hh
          have := node_eq t hm hn h1
          subst this
          rw [hnf] at h2; cases h2
        have hin : inChain active n.blk.hash = false := by
          rw [Bool.eq_false_iff]
          intro hh
          simp [Node.path, hh] at hany
        have hnb : inChain ((n.path.takeWhile fun b => !inChain active b.hash).takeWhile fun b => !isFailed idx b.hash) n.blk.hash = true := by
          rw [Node.path, List.takeWhile_cons, if_pos (by simp [hin]), List.takeWhile_cons, if_pos (by simp [hne])]
          simp [inChain]
        have hlt := open_markIf_lt (P := fun x => inChain
          ((n.path.takeWhile fun b => !inChain active b.hash).takeWhile fun b => !isFailed idx b.hash) x) hn hnf hnb
        obtain ⟨idx', o, h1, h2, h3, h4, h5⟩ := ih (idx := markIf idx fun x => inChain
          ((n.path.takeWhile fun b => !inChain active b.hash).takeWhile fun b => !isFailed idx b.hash) x) (by rw [skel_markIf]; exact t) (marks_markIf h _) (by omega)
        refine ⟨idx', o, h1, h2, h3, Or.inr ?_, h5⟩
        rcases h4 with rfl | h4 <;> omega
      · rw [if_neg hany]
        refine ⟨idx, some n, rfl, h, hb, Or.inl rfl, ?_⟩
        rintro m ⟨⟩
        simpa using hany

theorem findMost_total {e : Env} {st : St} (hs : Safe e st) (h : Marks e st.idx) :
    ∃ s, findMost st = some s ∧ Marks e s.idx ∧ ∀ b p, b :: p <:+ s.most → (st.active.dropWhile fun x => !inChain s.most x.hash) <:+ p →
      ¬ Sound e (b :: p) → open_ (mark s.idx b.hash) < open_ st.idx := by
  obtain ⟨m1, m2, m3⟩ := popMost_marks hs.tree h st.most
  have hp1 := popMost_skel st.idx st.most
  have hp2 := suffix_known hs.tree hs.most (popMost_suffix st.idx st.most)
  unfold findMost
  cases hpm : popMost st.idx st.most with
  | mk idx most =>
    rw [hpm] at m1 m2 m3 hp1 hp2
    simp only at m1 m2 m3 hp1 hp2 ⊢
    obtain ⟨idx', o, k1, k2, k3, k4, k5⟩ := pick_total (active := st.active) (fuel := idx.length + 1) (by rw [hp1]; exact hs.tree) m1
      (by have := open_le_length idx; omega)
    have hk : skel idx' = skel st.idx := (pick_skel k1).trans hp1
    have ht : Tree e (skel idx') := by rw [hk]; exact hs.tree
    have hle : ∀ x, open_ (mark idx' x) ≤ open_ idx' := fun x => by rw [mark_eq]; exact open_markIf_le _ _
    -- the remembered chain is kept
    have old : (∀ t r, most = t :: r → ∀ n, o = some n → less idx' r.length t.hash n.anc.length n.blk.hash = false) →
        ∀ b p, b :: p <:+ most → (st.active.dropWhile fun x => !inChain most x.hash) <:+ p → ¬ Sound e (b :: p) →
          open_ (mark idx' b.hash) < open_ st.idx := by
      intro hl b p hb1 hb2 hb3
      have := hle b.hash
      rcases k4 with rfl | k4
      · cases most with
        | nil => simp at hb1
        | cons t r =>
          have hmk : t :: r ∈ skel idx' := by rw [hk]; exact hp2.resolve_left (by simp)
          obtain ⟨m, hm, rfl, rfl⟩ := node_of hmk
          have hmf : m.failed = false := isFailed_false (m3 _ _ rfl) hm rfl
          have hnc : m.cand = false ∨ o = some m := by
            by_cases hmc : m.cand = true
            · right
              cases o with
              | none => have := best_none k3 m hm; rw [hmc] at this; cases this
              | some n =>
                obtain ⟨hn, -⟩ := best_mem k3
                have h4 := best_max (hash_nodup ht) k3 hm hmc
                rw [node_eq ht hm hn (less_antisymm hm hn (hl _ _ rfl n rfl) h4)]
            · left; simpa using hmc
          rcases hnc with hnc | rfl
          · exact absurd ((m1.lost m hm hnc hmf).suffix hb1 (by simp)) hb3
          · have hbk := ht.suffix hmk hb1 (by simp)
            obtain ⟨q, hq, rfl, rfl⟩ := node_of hbk
            have hfalse := clean_suffix ht (by rw [hk]; exact hs.act) hm (k5 m rfl) hb1 hb2
            rw [mark_eq]
            have := open_markIf_lt (P := fun y => y == q.blk.hash) hq (isFailed_false hfalse hq rfl) (by simp)
            omega
      · omega
    rw [k1]
    cases o with
    | none => exact ⟨_, rfl, k2, old (by simp)⟩
    | some n =>
      obtain ⟨hn, -⟩ := best_mem k3
      have new : ∀ b p, b :: p <:+ n.path → (st.active.dropWhile fun x => !inChain n.path x.hash) <:+ p → ¬ Sound e (b :: p) →
          open_ (mark idx' b.hash) < open_ st.idx := by
        intro b p hb1 hb2 hb3
        have hbk := ht.suffix (mem_path hn) hb1 (by simp)
        obtain ⟨q, hq, rfl, rfl⟩ := node_of hbk
        have hfalse := clean_suffix ht (by rw [hk]; exact hs.act) hn (k5 n rfl) hb1 hb2
        rw [mark_eq]
        have := open_markIf_lt (P := fun y => y == q.blk.hash) hq (isFailed_false hfalse hq rfl) (by simp)
        rcases k4 with rfl | k4 <;> omega
      simp only
      cases most with
      | nil => exact ⟨_, rfl, k2, new⟩
      | cons t r =>
        simp only
        split
        · exact ⟨_, rfl, k2, new⟩
        · rename_i hl
          refine ⟨_, rfl, k2, old ?_⟩
          rintro t' r' ⟨⟩ n' ⟨⟩
          simpa using hl

theorem connectAll_total {e : Env} {fuel : Nat} {st : St} (hs : Safe e st) (hmk : st.most ∈ skel st.idx) (ha : st.active <:+ st.most)
    (hf : st.most.length < fuel + st.active.length) :
    ∃ s ok, connectAll e fuel st = some (s, ok) ∧ (ok = true → s.idx = st.idx) ∧
      (ok = false → ∃ b p, s.idx = mark st.idx b.hash ∧ b :: p <:+ st.most ∧ st.active <:+ p ∧ ¬ Sound e (b :: p)) := by
  induction fuel generalizing st with
  | zero => have := ha.length_le; omega
  | succ fuel ih =>
    obtain ⟨t, r, hm⟩ := List.exists_cons_of_ne_nil (hs.tree.linked _ hmk).ne
    unfold connectAll
    simp only [hm]
    by_cases hin : inChain st.active t.hash = true
    · rw [if_pos hin]
      exact ⟨_, _, rfl, fun _ => rfl, by simp⟩
    · rw [if_neg hin]
      have hne : st.active ≠ st.most := by
        intro h
        apply hin
        rw [h, hm]
        simp [inChain]
      obtain ⟨b, hb⟩ := suffix_step ha hne
      rw [← hm, upTo_suffix hb]
      simp only [ne_eq, not_true_eq_false, if_false]
      have hbk : b :: st.active ∈ skel st.idx := hs.tree.suffix hmk hb (by simp)
      by_cases hc : connect e st.active b = true
      · rw [if_pos hc]
        have hS : Sound e (b :: st.active) := (sound_cons hs.sound).2 hc
        obtain ⟨s, ok, h1, h2, h3⟩ := ih (st := { st with active := b :: st.active })
          ⟨hs.tree, hbk, hS, hs.most, hs.forks⟩ hmk hb (by simp only [List.length_cons]; omega)
        refine ⟨s, ok, h1, h2, fun ho => ?_⟩
        obtain ⟨x, p, e1, e2, e3, e4⟩ := h3 ho
        exact ⟨x, p, e1, e2, (List.suffix_cons _ _).trans e3, e4⟩
      · rw [if_neg hc]
        refine ⟨_, _, rfl, by simp, fun _ => ⟨b, st.active, rfl, hb, List.suffix_refl _, ?_⟩⟩
        rw [sound_cons hs.sound]; exact hc

theorem activate_total {e : Env} {prot : List Nat} {ob : Option Blk} {fuel : Nat} {st : St} (hs : Safe e st) (h : Marks e st.idx)
    (hf : open_ st.idx < fuel) : ∃ s, activate e prot ob fuel st = some s ∧ Marks e s.idx := by
  induction fuel generalizing st with
  | zero => omega
  | succ fuel ih =>
    obtain ⟨s1, f1, f2, f3⟩ := findMost_total hs h
    obtain ⟨g1, g2⟩ := findMost_safe hs f1
    unfold activate
    rw [f1]
    simp only
    by_cases hne : s1.most = []
    · rw [if_pos hne]; exact ⟨_, rfl, f2⟩
    · rw [if_neg hne]
      split
      · refine ⟨_, rfl, ?_⟩
        unfold onFinal
        split
        · exact f2
        · split
          · split
            · exact f2
            · exact marks_mark f2 _
          · exact f2
      · have hmk := g1.most.resolve_left hne
        obtain ⟨d1, d2, d3⟩ := dropWhile_inChain g1.tree g1.act hmk
        have safe2 : Safe e { s1 with active := s1.active.dropWhile fun x => !inChain s1.most x.hash } :=
          ⟨g1.tree, g1.tree.suffix g1.act d2 d3, g1.sound.suffix d2 d3, g1.most, g1.forks⟩
        obtain ⟨s2, ok, c1, c2, c3⟩ := connectAll_total (fuel := s1.most.length + 1) safe2 hmk d1 (by simp only; omega)
        rw [c1]
        cases ok with
        | true => exact ⟨s2, rfl, by rw [c2 rfl]; exact f2⟩
        | false =>
          simp only
          obtain ⟨b, p, e1, e2, e3, e4⟩ := c3 rfl
          have hlt := f3 b p e2 (by rw [← g2.active]; exact e3) e4
          refine ih (connectAll_safe safe2 c1).1 (by rw [e1]; exact marks_mark f2 _) ?_
          rw [e1]
          exact Nat.lt_of_lt_of_le hlt (by omega)

end Verif.Intake
