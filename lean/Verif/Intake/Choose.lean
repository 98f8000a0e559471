import Verif.Intake.Lemmas

/-!
# Intake of blocks: the choice of the chain
-/
namespace Verif.Intake

/-- The failure flag is set only for chains that are not sound; the candidates are the entries without it. -/
structure Flags (e : Env) (idx : List Node) : Prop where
  failed : ∀ n ∈ idx, n.failed = true → ¬ Sound e n.path
  cand : ∀ n ∈ idx, n.cand = !n.failed

/-- The invariant of the node. -/
structure Inv (e : Env) (st : St) : Prop where
  tree : Tree e (skel st.idx)
  flags : Flags e st.idx
  act : st.active ∈ skel st.idx
  sound : Sound e st.active
  most : st.most ∈ skel st.idx
  forks : ∀ p ∈ st.forks, p.2 ∈ skel st.idx ∧ Sound e p.2 ∧ tipHash p.2 = some p.1

theorem flags_markIf {e : Env} {idx : List Node} {P : Nat → Bool} (fl : Flags e idx)
    (h : ∀ n ∈ idx, P n.blk.hash = true → ¬ Sound e n.path) : Flags e (markIf idx P) := by
  constructor
  · intro n hn hf
    obtain ⟨m, hm, rfl⟩ := mem_markIf.1 hn
    split at hf <;> rename_i hp
    · rw [if_pos hp]; exact h m hm hp
    · rw [if_neg hp]; exact fl.failed m hm hf
  · intro n hn
    obtain ⟨m, hm, rfl⟩ := mem_markIf.1 hn
    split
    · rfl
    · exact fl.cand m hm

theorem isFailed_sound {e : Env} {idx : List Node} (t : Tree e (skel idx)) (fl : Flags e idx) {b : Blk} {p : List Blk}
    (hp : b :: p ∈ skel idx) (hf : isFailed idx b.hash = true) : ¬ Sound e (b :: p) := by
  obtain ⟨n, hn, h1, h2⟩ := isFailed_iff.1 hf
  have := t.eq (mem_path hn) hp (by simp [Node.path, tipHash_cons, h1])
  rw [← this]
  exact fl.failed n hn h2

theorem node_of {idx : List Node} {b : Blk} {p : List Blk} (hp : b :: p ∈ skel idx) : ∃ n ∈ idx, n.blk = b ∧ n.anc = p := by
  obtain ⟨n, hn, h⟩ := mem_skel.1 hp
  simp only [Node.path, List.cons.injEq] at h
  exact ⟨n, hn, h⟩

theorem uncand_id {e : Env} {idx : List Node} (t : Tree e (skel idx)) (fl : Flags e idx) {h : Nat} (hf : isFailed idx h = true) :
    uncand idx h = idx := by
  obtain ⟨m, hm, h1, h2⟩ := isFailed_iff.1 hf
  unfold uncand upd
  conv_rhs => rw [← List.map_id idx]
  apply List.map_congr_left
  intro n hn
  split
  · rename_i he
    have hnm : n = m := node_eq t hn hm (by rw [he, h1])
    subst hnm
    have := fl.cand n hn
    rw [h2] at this
    cases n
    simp only at this
    simp [this]
  · rfl

theorem popMost_spec {e : Env} {idx : List Node} (t : Tree e (skel idx)) (fl : Flags e idx) {most : List Blk} (hm : most ∈ skel idx) :
    ∃ b p, popMost idx most = (idx, b :: p) ∧ b :: p ∈ skel idx ∧ isFailed idx b.hash = false := by
  induction most with
  | nil => exact absurd (t.linked _ hm).ne (by simp)
  | cons b p ih =>
    unfold popMost
    by_cases hf : isFailed idx b.hash = true
    · rw [if_pos hf, uncand_id t fl hf]
      rcases t.closed b p hm with rfl | hp
      · exfalso
        apply isFailed_sound t fl hm hf
        have := t.linked _ hm
        exact this
      · exact ih hp
    · rw [if_neg hf]
      exact ⟨b, p, rfl, hm, by simpa using hf⟩

theorem takeWhile_split {α : Type} (f : α → Bool) (l : List α) (h : l.any f = true) :
    ∃ x r, l = l.takeWhile (fun y => !f y) ++ x :: r ∧ f x = true := by
  induction l with
  | nil => simp at h
  | cons a l ih =>
    by_cases ha : f a = true
    · exact ⟨a, l, by simp [List.takeWhile, ha], ha⟩
    · have : l.any f = true := by
        simp only [List.any_cons, Bool.or_eq_true] at h
        rcases h with h | h
        · exact absurd h ha
        · exact h
      obtain ⟨x, r, e, hx⟩ := ih this
      refine ⟨x, r, ?_, hx⟩
      rw [List.takeWhile_cons, if_pos (by simp [ha]), List.cons_append, ← e]

theorem unsound_above {e : Env} {l s : List Blk} (hs : s ≠ []) (h : ¬ Sound e s) {l1 l2 : List Blk} (hl : l = l1 ++ l2 ++ s) : ¬ Sound e (l2 ++ s) :=
  fun hc => h (hc.suffix (List.suffix_append _ _) hs)

theorem pick_spec {e : Env} {active : List Blk} {fuel : Nat} {idx : List Node} (t : Tree e (skel idx)) (fl : Flags e idx)
    (ha : active ∈ skel idx) (hs : Sound e active) (hf : open_ idx < fuel) :
    ∃ idx' n, pick active fuel idx = some (idx', some n) ∧ skel idx' = skel idx ∧ Flags e idx' ∧ best idx' = some n ∧
      ((n.path.takeWhile fun b => !inChain active b.hash).any fun b => isFailed idx' b.hash) = false ∧
      (idx' = idx ∨ open_ idx' < open_ idx) := by
  induction fuel generalizing idx with
  | zero => omega
  | succ fuel ih =>
    unfold pick
    cases hb : best idx with
    | none =>
      exfalso
      cases active with
      | nil => exact hs.ne rfl
      | cons a p =>
        obtain ⟨n, hn, rfl, rfl⟩ := node_of ha
        have h1 := best_none hb n hn
        rw [fl.cand n hn] at h1
        exact fl.failed n hn (by simpa using h1) hs
    | some n =>
      obtain ⟨hn, hc⟩ := best_mem hb
      simp only
      by_cases hany : ((n.path.takeWhile fun b => !inChain active b.hash).any fun b => isFailed idx b.hash) = true
      · rw [if_pos hany]
        obtain ⟨x, r, he, hx⟩ := takeWhile_split (fun b : Blk => isFailed idx b.hash) _ hany
        set off := n.path.takeWhile fun b => !inChain active b.hash with hoff
        set bad := off.takeWhile fun b => !isFailed idx b.hash with hbad
        obtain ⟨rest, hrest⟩ : ∃ rest, n.path = off ++ rest := ⟨_, (List.takeWhile_append_dropWhile).symm⟩
        have hpath : n.path = bad ++ (x :: (r ++ rest)) := by
          rw [hrest]
          conv_lhs => rw [he]
          simp
        have hxs : x :: (r ++ rest) ∈ skel idx := t.suffix (mem_path hn) ⟨bad, hpath.symm⟩ (by simp)
        have hxu := isFailed_sound t fl hxs hx
        rw [markAll_eq]
        have hfl : Flags e (markIf idx fun h => inChain bad h) := by
          apply flags_markIf fl
          intro m hm hP
          obtain ⟨l, b, r2, hl, hbm⟩ := inChain_split hP
          have hsuf : b :: (r2 ++ x :: (r ++ rest)) <:+ n.path := ⟨l, by rw [hpath, hl]; simp⟩
          have hbs := t.suffix (mem_path hn) hsuf (by simp)
          have := t.eq (mem_path hm) hbs (by simp [Node.path, tipHash_cons, hbm])
          rw [this]
          intro hc
          exact hxu (hc.suffix ⟨b :: r2, by simp⟩ (by simp))
        have hnf : n.failed = false := by
          have := fl.cand n hn
          rw [hc] at this
          simpa using this.symm
        have hnb : inChain bad n.blk.hash = true := by
          have hne : ¬ isFailed idx n.blk.hash = true := by
            intro hh
            obtain ⟨m, hm, h1, h2⟩ := isFailed_iff.1 hh
            have := node_eq t hm hn h1
            subst this
            rw [hnf] at h2; simp at h2
          have hbadne : bad ≠ [] := by
            intro h0
            rw [h0, List.nil_append] at hpath
            have : x = n.blk := by
              simp only [Node.path, List.cons.injEq] at hpath
              exact hpath.1.symm
            rw [this] at hx
            exact hne hx
          obtain ⟨y, ys, hy⟩ := List.exists_cons_of_ne_nil hbadne
          have : y = n.blk := by
            rw [hy] at hpath
            simp only [Node.path, List.cons_append, List.cons.injEq] at hpath
            exact hpath.1.symm
          rw [hy, this]
          simp [inChain]
        have hlt := open_markIf_lt (P := fun h => inChain bad h) hn hnf hnb
        obtain ⟨idx', n', h1, h2, h3, h4, h5, h6⟩ := ih (idx := markIf idx fun h => inChain bad h) (by rw [skel_markIf]; exact t) hfl
          (by rw [skel_markIf]; exact ha) (by omega)
        refine ⟨idx', n', h1, by rw [h2, skel_markIf], h3, h4, h5, Or.inr ?_⟩
        rcases h6 with rfl | h6 <;> omega
      · rw [if_neg hany]
        exact ⟨idx, n, rfl, rfl, fl, hb, by simpa using hany, Or.inl rfl⟩

theorem hash_nodup {e : Env} {idx : List Node} (t : Tree e (skel idx)) : (idx.map fun n => n.blk.hash).Nodup := by
  have := t.nodup
  unfold skel at this
  rw [List.map_map] at this
  have h2 : (idx.map (tipHash ∘ Node.path)) = (idx.map fun n => n.blk.hash).map some := by
    rw [List.map_map]; rfl
  rw [h2] at this
  exact List.Pairwise.of_map some (fun a b h hab => h (by rw [hab])) this

/-- The chain chosen by `FindMostWorkChain` ends in the best candidate or in a block that is no worse. -/
theorem findMost_spec {e : Env} {st : St} (inv : Inv e st) :
    ∃ idx n t r, findMost st = some { st with idx := idx, most := t :: r } ∧ skel idx = skel st.idx ∧ Flags e idx ∧
      t :: r ∈ skel idx ∧ best idx = some n ∧
      ((n.path.takeWhile fun b => !inChain st.active b.hash).any fun b => isFailed idx b.hash) = false ∧
      (t :: r = n.path ∨ less idx r.length t.hash n.anc.length n.blk.hash = false) ∧
      (open_ idx < open_ st.idx ∨ (open_ idx = open_ st.idx ∧ t :: r = n.path)) := by
  obtain ⟨b, p, h1, h2, h3⟩ := popMost_spec inv.tree inv.flags inv.most
  obtain ⟨idx, n, g1, g2, g3, g4, g5, g6⟩ := pick_spec (fuel := st.idx.length + 1) inv.tree inv.flags inv.act inv.sound
    (by have := open_le_length st.idx; omega)
  have ht : Tree e (skel idx) := by rw [g2]; exact inv.tree
  obtain ⟨hn, hc⟩ := best_mem g4
  unfold findMost
  simp only [h1, g1]
  by_cases hl : less idx p.length b.hash n.anc.length n.blk.hash = true
  · rw [if_pos hl]
    refine ⟨idx, n, n.blk, n.anc, rfl, g2, g3, mem_path hn, g4, g5, Or.inl rfl, ?_⟩
    rcases g6 with rfl | g6
    · exact Or.inr ⟨rfl, rfl⟩
    · exact Or.inl g6
  · rw [if_neg hl]
    refine ⟨idx, n, b, p, rfl, g2, g3, by rw [g2]; exact h2, g4, g5, Or.inr (by simpa using hl), ?_⟩
    rcases g6 with rfl | g6
    · refine Or.inr ⟨rfl, ?_⟩
      obtain ⟨m, hm, rfl, rfl⟩ := node_of h2
      have hmf : m.failed = false := by
        by_contra hcon
        rw [isFailed_iff.2 ⟨m, hm, rfl, by simpa using hcon⟩] at h3
        simp at h3
      have h4 := best_max (hash_nodup ht) g4 hm (by rw [inv.flags.cand m hm, hmf]; rfl)
      have h5 := less_antisymm hm hn (by simpa using hl) h4
      have := node_eq ht hm hn h5
      rw [this]; rfl
    · exact Or.inl g6

/-! ## Connecting -/

theorem upTo_suffix {p s : List Blk} {b : Blk} (h : b :: s <:+ p) : upTo p s.length = b :: s := by
  obtain ⟨l, rfl⟩ := h
  unfold upTo
  rw [if_pos (by simp; omega)]
  have : (l ++ b :: s).length - (s.length + 1) = l.length := by simp
  rw [this, List.drop_left]

theorem suffix_step {s p : List Blk} (h : s <:+ p) (hne : s ≠ p) : ∃ b, b :: s <:+ p := by
  obtain ⟨l, rfl⟩ := h
  rcases List.eq_nil_or_concat l with rfl | ⟨l', b, rfl⟩
  · exact absurd rfl hne
  · exact ⟨b, l', by simp⟩

theorem flags_mark {e : Env} {idx : List Node} (t : Tree e (skel idx)) (fl : Flags e idx) {b : Blk} {p : List Blk}
    (hp : b :: p ∈ skel idx) (hu : ¬ Sound e (b :: p)) : Flags e (mark idx b.hash) := by
  rw [mark_eq]
  apply flags_markIf fl
  intro n hn hh
  have := t.eq (mem_path hn) hp (by simp only [Node.path, tipHash_cons]; simpa using hh)
  rw [this]; exact hu

theorem connectAll_spec {e : Env} {fuel : Nat} {st : St} (inv : Inv e st) (hs : st.active <:+ st.most)
    (hf : st.most.length < fuel + st.active.length) :
    ∃ r, connectAll e fuel st = some r ∧
      ((r = ({ st with active := st.most }, true) ∧ Sound e st.most) ∨
       ∃ b p, r = ({ st with active := p, idx := mark st.idx b.hash }, false) ∧ b :: p <:+ st.most ∧ st.active <:+ p ∧ Sound e p ∧
        ¬ Sound e (b :: p)) := by
  induction fuel generalizing st with
  | zero => have := hs.length_le; omega
  | succ fuel ih =>
    obtain ⟨t, r, hm⟩ := List.exists_cons_of_ne_nil (inv.tree.linked _ inv.most).ne
    unfold connectAll
    simp only [hm]
    have hmk : t :: r ∈ skel st.idx := hm ▸ inv.most
    by_cases hin : inChain st.active t.hash = true
    · rw [if_pos hin]
      have h1 : t :: r <:+ st.active := (inv.tree.contains inv.act hmk).1 hin
      have h2 : st.active = t :: r := by
        rw [← hm] at h1 ⊢
        exact hs.eq_of_length_le h1.length_le
      refine ⟨_, rfl, Or.inl ⟨?_, h2 ▸ inv.sound⟩⟩
      have h3 : st.active = st.most := h2.trans hm.symm
      rw [← h2]
      cases st
      simp only at h3
      subst h3
      rfl
    · rw [if_neg hin]
      have hne : st.active ≠ st.most := by
        intro h
        apply hin
        rw [h, hm]
        simp [inChain]
      obtain ⟨b, hb⟩ := suffix_step hs hne
      rw [← hm, upTo_suffix hb]
      simp only [ne_eq, not_true_eq_false, if_false]
      have hbk : b :: st.active ∈ skel st.idx := inv.tree.suffix inv.most hb (by simp)
      by_cases hc : connect e st.active b = true
      · rw [if_pos hc]
        have hS : Sound e (b :: st.active) := (sound_cons inv.sound).2 hc
        obtain ⟨r', h1, h2⟩ := ih (st := { st with active := b :: st.active })
          ⟨inv.tree, inv.flags, hbk, hS, inv.most, inv.forks⟩ hb (by simp only [List.length_cons]; omega)
        refine ⟨r', h1, ?_⟩
        rcases h2 with h2 | ⟨x, p, e1, e2, e3, e4⟩
        · exact Or.inl h2
        · exact Or.inr ⟨x, p, e1, e2, (List.suffix_cons _ _).trans e3, e4⟩
      · rw [if_neg hc]
        refine ⟨_, rfl, Or.inr ⟨b, st.active, rfl, hb, List.suffix_refl _, inv.sound, ?_⟩⟩
        rw [sound_cons inv.sound]; exact hc

theorem dropWhile_inChain {e : Env} {sk : List (List Blk)} (t : Tree e sk) {c m : List Blk} (hc : c ∈ sk) (hm : m ∈ sk) :
    (c.dropWhile fun x => !inChain m x.hash) <:+ m ∧ (c.dropWhile fun x => !inChain m x.hash) <:+ c ∧
      (c.dropWhile fun x => !inChain m x.hash) ≠ [] := by
  induction c with
  | nil => exact absurd (t.linked _ hc).ne (by simp)
  | cons b p ih =>
    rw [List.dropWhile_cons]
    by_cases hb : inChain m b.hash = true
    · rw [if_neg (by simp [hb])]
      exact ⟨(t.contains hm hc).1 hb, List.suffix_refl _, by simp⟩
    · rw [if_pos (by simp [hb])]
      rcases t.closed b p hc with rfl | hp
      · exfalso
        apply hb
        rw [t.contains hm hc]
        have := t.linked _ hc
        rw [show b = e.genesis from this]
        exact (t.linked _ hm).genesis
      · obtain ⟨h1, h2, h3⟩ := ih hp
        exact ⟨h1, h2.trans (List.suffix_cons _ _), h3⟩

/-- What `ActivateBestChain` leaves behind. -/
structure Chosen (e : Env) (prot : List Nat) (b : Option Blk) (st st' : St) : Prop where
  inv : Inv e st'
  skel : skel st'.idx = skel st.idx
  forks : st'.forks = st.forks
  orphans : st'.orphans = st.orphans ∧ st'.byPrev = st.byPrev ∧ st'.oset = st.oset
  kept : ∀ x ∈ st.active, x.hash ∈ prot → x ∈ st'.active
  best : (∃ p ∈ Intake.skel st.idx, ∃ x ∈ st'.active, x.hash ∈ prot ∧ x ∉ p ∧ Sound e st'.active) ∨
    ∃ n, Intake.best st'.idx = some n ∧ st'.active = n.path ∧ st'.most = st'.active

theorem chosen_trans {e : Env} {prot : List Nat} {b : Option Blk} {s1 s2 s3 : St} (h : Chosen e prot b s2 s3) (hk : skel s2.idx = skel s1.idx)
    (hf : s2.forks = s1.forks) (ho : s2.orphans = s1.orphans ∧ s2.byPrev = s1.byPrev ∧ s2.oset = s1.oset)
    (hkept : ∀ x ∈ s1.active, x.hash ∈ prot → x ∈ s2.active) : Chosen e prot b s1 s3 :=
  ⟨h.inv, h.skel.trans hk, h.forks.trans hf, ⟨h.orphans.1.trans ho.1, h.orphans.2.1.trans ho.2.1, h.orphans.2.2.trans ho.2.2⟩,
    fun x hx hp => h.kept x (hkept x hx hp) hp, by rw [← hk]; exact h.best⟩

theorem clean_suffix {e : Env} {idx : List Node} {active : List Blk} {n : Node} (t : Tree e (skel idx)) (ha : active ∈ skel idx)
    (hn : n ∈ idx) (hclean : ((n.path.takeWhile fun b => !inChain active b.hash).any fun b => isFailed idx b.hash) = false)
    {b : Blk} {p : List Blk} (hb : b :: p <:+ n.path) (hd : (active.dropWhile fun x => !inChain n.path x.hash) <:+ p) :
    isFailed idx b.hash = false := by
  by_contra hf
  have hbk := t.suffix (mem_path hn) hb (by simp)
  have hnotin : ¬ inChain active b.hash = true := by
    intro hin
    have h1 := (t.contains ha hbk).1 hin
    obtain ⟨d1, d2, d3⟩ := dropWhile_inChain t ha (mem_path hn)
    have : (b :: p).length ≤ (active.dropWhile fun x => !inChain n.path x.hash).length := by
      obtain ⟨l, hl⟩ := h1
      rw [← hl]
      rw [List.dropWhile_append]
      split
      · rw [List.dropWhile_cons, if_neg (by
          obtain ⟨l2, hl2⟩ := hb
          rw [← hl2]; simp [inChain])]
        exact Nat.le_refl _
      · rw [List.length_append]; omega
    have := hd.length_le
    simp only [List.length_cons] at *
    omega
  have hmem : b ∈ n.path.takeWhile fun b => !inChain active b.hash := by
    obtain ⟨l, hl⟩ := hb
    have hall : ∀ x ∈ l, ¬ inChain active x.hash = true := by
      intro x hx hin
      obtain ⟨l1, l2, rfl⟩ := List.append_of_mem hx
      have hxs : x :: (l2 ++ b :: p) <:+ n.path := ⟨l1, by rw [← hl]; simp⟩
      have := (t.contains ha (t.suffix (mem_path hn) hxs (by simp))).1 hin
      apply hnotin
      rw [t.contains ha hbk]
      exact List.IsSuffix.trans ⟨x :: l2, by simp⟩ this
    rw [← hl, List.takeWhile_append_of_pos (by intro x hx; simpa using hall x hx)]
    rw [List.takeWhile_cons, if_pos (by simpa using hnotin)]
    simp
  rw [List.any_eq_false] at hclean
  exact hclean b hmem (by simpa using hf)

theorem isFailed_false {idx : List Node} {h : Nat} (hf : isFailed idx h = false) {n : Node} (hn : n ∈ idx) (hh : n.blk.hash = h) :
    n.failed = false := by
  by_contra hc
  rw [isFailed_iff.2 ⟨n, hn, hh, by simpa using hc⟩] at hf
  simp at hf

theorem takeWhile_mem {α : Type} {f : α → Bool} {l : List α} {x : α} (h : x ∈ l.takeWhile f) : f x = true := by
  induction l with
  | nil => simp at h
  | cons a l ih =>
    rw [List.takeWhile_cons] at h
    split at h
    · rcases List.mem_cons.1 h with rfl | h
      · assumption
      · exact ih h
    · simp at h

theorem takeWhile_kept {α : Type} {f : α → Bool} {l : List α} {x : α} (hx : x ∈ l) (h : x ∉ l.takeWhile f) : x ∈ l.dropWhile f := by
  rw [← List.takeWhile_append_dropWhile (p := f) (l := l)] at hx
  rcases List.mem_append.1 hx with hx | hx
  · exact absurd hx h
  · exact hx

theorem activate_spec {e : Env} {prot : List Nat} {ob : Option Blk} {fuel : Nat} {st : St} (inv : Inv e st)
    (hb : ∀ b, ob = some b → ∃ anc, b :: anc ∈ skel st.idx ∧ tipHash anc = some b.prev) (hf : open_ st.idx < fuel) :
    ∃ st', activate e prot ob fuel st = some st' ∧ Chosen e prot ob st st' := by
  induction fuel generalizing st with
  | zero => omega
  | succ fuel ih =>
    obtain ⟨idx, n, t, r, f1, f2, f3, f4, f5, f6, f7, f8⟩ := findMost_spec inv
    obtain ⟨hn, hnc⟩ := best_mem f5
    have ht : Tree e (skel idx) := by rw [f2]; exact inv.tree
    have inv1 : Inv e { st with idx := idx, most := t :: r } :=
      ⟨ht, f3, by show _ ∈ skel idx; rw [f2]; exact inv.act, inv.sound, f4, by show ∀ p ∈ st.forks, _; rw [f2]; exact inv.forks⟩
    unfold activate
    rw [f1]
    simp only [List.cons_ne_nil, if_false, reduceCtorEq]
    by_cases hp : ((st.active.takeWhile fun x => !inChain (t :: r) x.hash).any fun x => prot.contains x.hash) = true
    · rw [if_pos hp]
      obtain ⟨y, hy1, hy2⟩ := List.any_eq_true.1 hp
      have hyin : y ∈ st.active := (List.takeWhile_prefix _).subset hy1
      have hynot : y ∉ t :: r := by
        intro hc
        have h1 := takeWhile_mem hy1
        simp only [Bool.not_eq_true'] at h1
        rw [show inChain (t :: r) y.hash = true from by unfold inChain; rw [List.any_eq_true]; exact ⟨y, hc, by simp⟩] at h1
        simp at h1
      have hyp : y.hash ∈ prot := by simpa using hy2
      have hmost : t :: r ∈ skel st.idx := by rw [← f2]; exact f4
      refine ⟨_, rfl, ?_⟩
      unfold onFinal
      cases ob with
      | none => exact ⟨inv1, f2, rfl, ⟨rfl, rfl, rfl⟩, fun x hx _ => hx, Or.inl ⟨t :: r, hmost, y, hyin, hyp, hynot, inv.sound⟩⟩
      | some b =>
      obtain ⟨anc, hb, hprev⟩ := hb b rfl
      have hbk : b :: anc ∈ skel idx := by rw [f2]; exact hb
      simp only
      split
      · rename_i htip
        have hanc : anc ∈ skel idx := by
          rcases ht.closed b anc hbk with rfl | h
          · simp [tipHash] at hprev
          · exact h
        have heq : st.active = anc := ht.eq inv1.act hanc (by rw [htip, hprev])
        split
        · rename_i hc
          have hS : Sound e (b :: st.active) := (sound_cons inv.sound).2 hc
          refine ⟨⟨ht, f3, ?_, hS, f4, inv1.forks⟩, f2, rfl, ⟨rfl, rfl, rfl⟩, fun x hx _ => List.mem_cons_of_mem _ hx, Or.inl ?_⟩
          · show b :: st.active ∈ skel idx
            rw [heq]; exact hbk
          · exact ⟨t :: r, hmost, y, List.mem_cons_of_mem _ hyin, hyp, hynot, hS⟩
        · rename_i hc
          have hu : ¬ Sound e (b :: st.active) := by rw [sound_cons inv.sound]; exact hc
          refine ⟨⟨?_, flags_mark ht f3 (heq ▸ hbk) hu, ?_, inv.sound, ?_, ?_⟩, ?_, rfl, ⟨rfl, rfl, rfl⟩, fun x hx _ => hx,
            Or.inl ⟨t :: r, hmost, y, hyin, hyp, hynot, inv.sound⟩⟩ <;> simp only [skel_mark]
          · exact ht
          · exact inv1.act
          · exact f4
          · exact inv1.forks
          · exact f2
      · exact ⟨inv1, f2, rfl, ⟨rfl, rfl, rfl⟩, fun x hx _ => hx, Or.inl ⟨t :: r, hmost, y, hyin, hyp, hynot, inv.sound⟩⟩
    · rw [if_neg hp]
      obtain ⟨d1, d2, d3⟩ := dropWhile_inChain ht inv1.act f4
      have hkept : ∀ x ∈ st.active, x.hash ∈ prot → x ∈ st.active.dropWhile fun x => !inChain (t :: r) x.hash := by
        intro x hx hxp
        apply takeWhile_kept hx
        intro hc
        apply hp
        rw [List.any_eq_true]
        exact ⟨x, hc, by simpa using hxp⟩
      have inv2 : Inv e { st with idx := idx, most := t :: r, active := st.active.dropWhile fun x => !inChain (t :: r) x.hash } :=
        ⟨ht, f3, ht.suffix inv1.act d2 d3, inv.sound.suffix d2 d3, f4, inv1.forks⟩
      obtain ⟨res, c1, c2⟩ := connectAll_spec (fuel := (t :: r).length + 1) inv2 d1 (by simp only; omega)
      rw [c1]
      rcases c2 with ⟨rfl, c2⟩ | ⟨x, p, rfl, c2, c3, c4, c5⟩
      · refine ⟨_, rfl, ⟨ht, f3, f4, c2, f4, inv1.forks⟩, f2, rfl, ⟨rfl, rfl, rfl⟩, ?_, Or.inr ⟨n, f5, ?_, rfl⟩⟩
        · intro x hx hxp
          exact d1.subset (hkept x hx hxp)
        · show t :: r = n.path
          rcases f7 with f7 | f7
          · exact f7
          · obtain ⟨m, hm, rfl, rfl⟩ := node_of f4
            have hmf : m.failed = false := by
              by_contra hcon
              exact f3.failed m hm (by simpa using hcon) c2
            have h4 := best_max (hash_nodup ht) f5 hm (by rw [f3.cand m hm, hmf]; rfl)
            have := node_eq ht hm hn (less_antisymm hm hn f7 h4)
            rw [this]; rfl
      · simp only
        have hxk : x :: p ∈ skel idx := ht.suffix f4 c2 (by simp)
        have inv3 : Inv e { st with idx := mark idx x.hash, most := t :: r, active := p } := by
          refine ⟨?_, flags_mark ht f3 hxk c5, ?_, c4, ?_, ?_⟩ <;> simp only [skel_mark]
          · exact ht
          · exact ht.suffix hxk (List.suffix_cons _ _) c4.ne
          · exact f4
          · exact inv1.forks
        have hopen : open_ (mark idx x.hash) < open_ st.idx := by
          rw [mark_eq]
          rcases f8 with f8 | ⟨f8, f9⟩
          · have := open_markIf_le idx fun y => y == x.hash
            omega
          · obtain ⟨m, hm, rfl, rfl⟩ := node_of hxk
            have hfalse : isFailed idx m.blk.hash = false := by
              apply clean_suffix ht inv1.act hn f6 (p := m.anc)
              · rw [← f9]; exact c2
              · rw [← f9]; exact c3
            have := open_markIf_lt (P := fun y => y == m.blk.hash) hm (isFailed_false hfalse hm rfl) (by simp)
            omega
        obtain ⟨st', g1, g2⟩ := ih (st := { st with idx := mark idx x.hash, most := t :: r, active := p }) inv3
          (by simp only [skel_mark]; rw [f2]; exact hb) (by simp only; omega)
        refine ⟨st', g1, chosen_trans g2 (by simp only [skel_mark]; exact f2) rfl ⟨rfl, rfl, rfl⟩ ?_⟩
        intro y hy hyp
        exact c3.subset (hkept y hy hyp)

end Verif.Intake
