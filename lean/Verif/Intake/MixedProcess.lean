import Verif.Intake.MixedTotal

/-!
# Deliveries and commands in any order: every event ends
-/
namespace Verif.Intake

/-- The whole invariant for blocks and commands in any order. -/
structure Whole (e : Env) (st : St) : Prop where
  safe : Safe e st
  marks : Marks e st.idx

/-- The three collections of orphans. -/
def pools (st : St) : List Blk × List Blk × List Blk := (st.orphans, st.byPrev, st.oset)

theorem findMost_pools {st s : St} (h : findMost st = some s) : pools s = pools st := by
  unfold findMost at h
  cases hp : popMost st.idx st.most with
  | mk idx most =>
    rw [hp] at h
    simp only at h
    cases hk : pick st.active (idx.length + 1) idx with
    | none => rw [hk] at h; simp at h
    | some q =>
      obtain ⟨idx', o⟩ := q
      rw [hk] at h
      cases o with
      | none => cases h; rfl
      | some n =>
        simp only at h
        split at h
        · cases h; rfl
        · split at h <;> (cases h; rfl)

theorem connectAll_pools {e : Env} {fuel : Nat} {st s : St} {ok : Bool} (h : connectAll e fuel st = some (s, ok)) : pools s = pools st := by
  induction fuel generalizing st with
  | zero => simp [connectAll] at h
  | succ fuel ih =>
    unfold connectAll at h
    split at h
    · cases h
    · split at h
      · cases h; rfl
      · split at h
        · cases h
        · split at h
          · cases h
          · split at h
            · exact (ih h).trans rfl
            · cases h; rfl

theorem activate_pools {e : Env} {prot : List Nat} {ob : Option Blk} {fuel : Nat} {st s : St} (h : activate e prot ob fuel st = some s) :
    pools s = pools st := by
  induction fuel generalizing st with
  | zero => simp [activate] at h
  | succ fuel ih =>
    unfold activate at h
    cases hf : findMost st with
    | none => rw [hf] at h; simp at h
    | some s1 =>
      have hp := findMost_pools hf
      rw [hf] at h
      simp only at h
      split at h
      · cases h; exact hp
      · split at h
        · cases h
          rw [← hp]
          unfold onFinal
          split
          · rfl
          · split
            · split <;> rfl
            · rfl
        · cases hc : connectAll e (s1.most.length + 1) { s1 with active := s1.active.dropWhile fun x => !inChain s1.most x.hash } with
          | none => rw [hc] at h; simp at h
          | some q =>
            obtain ⟨s2, ok⟩ := q
            have hp2 : pools s2 = pools s1 := (connectAll_pools hc).trans rfl
            rw [hc] at h
            cases ok with
            | true => cases h; exact hp2.trans hp
            | false => exact (ih h).trans (hp2.trans hp)

/-! ## Side branches -/

theorem marks_revive {e : Env} {idx : List Node} (h : Marks e idx) {x : Nat} (hs : ∀ n ∈ idx, n.blk.hash = x → Sound e n.path) :
    Marks e (revive idx x) := by
  constructor
  · intro n hn hc
    obtain ⟨m, hm, rfl⟩ := List.mem_map.1 hn
    split at hc <;> rename_i hp
    · rw [if_pos hp]
    · rw [if_neg hp]; exact h.cand m hm hc
  · intro n hn hc hf
    obtain ⟨m, hm, rfl⟩ := List.mem_map.1 hn
    split at hf <;> rename_i hp
    · rw [if_pos hp]; exact hs m hm hp
    · rw [if_neg hp] at hc ⊢; exact h.lost m hm hc hf

theorem connectPre_marks {e : Env} {idx : List Node} {chain bs : List Blk} (t : Tree e (skel idx)) (hm : Marks e idx)
    (hs : Sound e chain) (hk : bs.reverse ++ chain ∈ skel idx) :
    ∃ i r, connectPre e idx chain bs = some (i, r) ∧ Marks e i ∧ skel i = skel idx := by
  induction bs generalizing idx chain with
  | nil => exact ⟨idx, _, rfl, hm, rfl⟩
  | cons b bs ih =>
    have hbs : b :: chain <:+ (b :: bs).reverse ++ chain := ⟨bs.reverse, by simp⟩
    have hbk := t.suffix hk hbs (by simp)
    have hL := t.linked _ hbk
    unfold connectPre
    have htip : tipHash chain = some b.prev := by
      cases chain with
      | nil => exact absurd hs.ne (by simp)
      | cons q r => rw [tipHash_cons, hL.1.1]
    rw [if_neg (by simp [htip])]
    by_cases hc : connect e chain b = true
    · rw [if_pos hc]
      have hS : Sound e (b :: chain) := (sound_cons hs).2 hc
      have hsk : skel (revive idx b.hash) = skel idx := skel_upd _ _ _ fun _ => rfl
      have hm2 : Marks e (revive idx b.hash) := by
        apply marks_revive hm
        intro n hn he
        rw [t.eq (mem_path hn) hbk (by simp [Node.path, tipHash_cons, he])]
        exact hS
      obtain ⟨i, r, h1, h2, h3⟩ := ih (by rw [hsk]; exact t) hm2 hS (by rw [hsk]; simpa using hk)
      exact ⟨i, r, h1, h2, h3.trans hsk⟩
    · rw [if_neg hc]
      exact ⟨idx, none, rfl, hm, rfl⟩

theorem forked_whole {e : Env} {st : St} (w : Whole e st) (b : Blk) {p0 : List Blk} (h0 : p0 ∈ skel st.idx) :
    ∃ s ok, forked e st b p0 = some (s, ok) ∧ Marks e s.idx ∧ pools s = pools st := by
  have inv := clear_inv w.safe
  have hsk := skel_clear st
  have hw := fun l tip pre p => walk_congr (s := clear st) (t := st) rfl rfl (has_congr hsk) l tip pre p
  have ws := walk_spec inv (limit := e.maxFork b.height) (p0 := p0) (by rw [hsk]; exact h0) (tip := none) (pre := []) (p := p0)
    (by rw [hsk]; exact h0) (Or.inl ⟨rfl, rfl⟩)
  rw [hw] at ws
  unfold forked
  rcases ws with h | ⟨q, tip, pre, h1, h2, h3, h4, h5⟩
  · rw [h]
    exact ⟨st, false, rfl, w.marks, rfl⟩
  · rw [h1]
    simp only
    split
    · exact ⟨st, false, rfl, w.marks, rfl⟩
    · obtain ⟨x, r, rfl⟩ := List.exists_cons_of_ne_nil h4
      have hxk : x :: r ∈ skel st.idx := w.safe.tree.suffix w.safe.act h3 (by simp)
      have hxS : Sound e (x :: r) := w.safe.sound.suffix h3 (by simp)
      rw [tipHash_cons]
      simp only
      obtain ⟨c, forks, hcc, hcS, hcS2, hp0⟩ : ∃ c forks, forkState st (tip.getD x.hash) x.hash = (c, forks) ∧
          c ∈ skel st.idx ∧ Sound e c ∧ p0 = pre ++ c := by
        unfold forkState
        rcases h5 with ⟨rfl, h5⟩ | ⟨h, c, rfl, hcc, h5⟩
        · simp only [Option.getD_none]
          cases hcx : cached st.forks x.hash with
          | none =>
            simp only
            have hd : (st.active.dropWhile fun y => y.hash != x.hash) = x :: r := dropWhile_suffix (st := clear st) inv rfl h3
            rw [hd]
            exact ⟨_, _, rfl, hxk, hxS, h5⟩
          | some c =>
            simp only
            obtain ⟨k1, k2, k3⟩ := w.safe.forks _ (cached_mem hcx)
            have : c = x :: r := w.safe.tree.eq k1 hxk (by rw [k3]; rfl)
            exact ⟨_, _, rfl, k1, k2, by rw [h5, this]⟩
        · have hcc : cached st.forks h = some c := hcc
          simp only [Option.getD_some, hcc]
          obtain ⟨k1, k2, k3⟩ := w.safe.forks _ (cached_mem hcc)
          exact ⟨_, _, rfl, k1, k2, h5⟩
      rw [hcc]
      simp only
      obtain ⟨y, ys, rfl⟩ := List.exists_cons_of_ne_nil hcS2.ne
      rw [tipHash_cons]
      simp only
      rw [has_iff.2 ⟨_, hcS, rfl⟩]
      simp only [Bool.not_true, Bool.false_eq_true, if_false]
      cases pre with
      | nil => exact ⟨_, _, rfl, w.marks, rfl⟩
      | cons top pre =>
        simp only
        obtain ⟨i, o, g1, g2, -⟩ := connectPre_marks w.safe.tree w.marks (bs := (top :: pre).reverse) hcS2
          (by rw [List.reverse_reverse, ← hp0]; exact h0)
        rw [g1]
        cases o with
        | none => exact ⟨_, _, rfl, g2, rfl⟩
        | some c => exact ⟨_, _, rfl, g2, rfl⟩

/-! ## Accepting -/

theorem addIndex_whole {e : Env} {inp : Inputs} {st : St} (w : Whole e st) {b : Blk} {p : List Blk} (hp : p ∈ skel st.idx)
    (hf : Fits e b p) (hr : b.byReg = true) (hn : has st.idx b.hash = false) :
    ∃ s, addIndex e inp st b p = some s ∧ Whole e s ∧ pools s = pools st ∧ skel s.idx = (b :: p) :: skel st.idx := by
  obtain ⟨idx', hidx⟩ : ∃ l, l = ({ blk := b, anc := p, failed := false, cand := true } : Node) :: st.idx := ⟨_, rfl⟩
  have hsk : skel idx' = (b :: p) :: skel st.idx := by rw [hidx]; rfl
  have ht : Tree e (skel idx') := by rw [hidx]; exact tree_cons w.safe.tree hp hf hr hn _ _
  have safe1 : Safe e { st with idx := idx' } := by
    refine ⟨ht, ?_, w.safe.sound, ?_, ?_⟩ <;> simp only [hsk]
    · exact List.mem_cons_of_mem _ w.safe.act
    · exact w.safe.most.imp id (List.mem_cons_of_mem _)
    · intro q hq
      obtain ⟨h1, h2⟩ := w.safe.forks q hq
      exact ⟨List.mem_cons_of_mem _ h1, h2⟩
  have marks1 : Marks e idx' := by
    rw [hidx]
    constructor
    · intro n hn hc
      rcases List.mem_cons.1 hn with rfl | hn
      · rfl
      · exact w.marks.cand n hn hc
    · intro n hn hc
      rcases List.mem_cons.1 hn with rfl | hn
      · simp at hc
      · exact w.marks.lost n hn hc
  have hprev : tipHash p = some b.prev := by
    obtain ⟨q, r, rfl, h1, -⟩ := hf
    rw [tipHash_cons, h1]
  obtain ⟨s, a1, a2⟩ := activate_total (prot := inp.prot b.hash) (ob := some b) (fuel := idx'.length + 1) safe1 marks1
    (by have := open_le_length idx'; simp only; omega)
  obtain ⟨b1, b2, -⟩ := activate_safe safe1 (by rintro _ ⟨⟩; exact ⟨p, by rw [hsk]; simp, hprev⟩) a1
  have hps : pools s = pools st := (activate_pools a1).trans rfl
  unfold addIndex
  rw [if_neg (by simp [hr])]
  simp only [← hidx]
  rw [a1]
  refine ⟨_, rfl, ?_⟩
  split
  · exact ⟨⟨⟨b1.tree, b1.act, b1.sound, b1.most, by simp⟩, a2⟩, hps, b2.trans hsk⟩
  · exact ⟨⟨b1, a2⟩, hps, b2.trans hsk⟩

theorem accept_whole {e : Env} {inp : Inputs} {st : St} (w : Whole e st) (b : Blk) :
    (accept e inp st b = none ∧ b.height ≠ 0 ∧ (b.byReg = false ∨ has st.idx b.prev = false)) ∨
    ∃ s ok, accept e inp st b = some (s, ok) ∧ Whole e s ∧ pools s = pools st ∧ (ok = false → skel s.idx = skel st.idx) ∧
      (ok = true → ∃ p, skel s.idx = (b :: p) :: skel st.idx) := by
  have hg : has st.idx e.genesis.hash = true := has_iff.2 ⟨_, w.safe.tree.genesis w.safe.act, rfl⟩
  have same : ∃ s ok, some (st, false) = some (s, ok) ∧ Whole e s ∧ pools s = pools st ∧ (ok = false → skel s.idx = skel st.idx) ∧
      (ok = true → ∃ p, skel s.idx = (b :: p) :: skel st.idx) := ⟨st, false, rfl, w, rfl, fun _ => rfl, by simp⟩
  unfold accept
  by_cases hb : has st.idx b.hash = true
  · rw [if_pos hb]; exact Or.inr same
  rw [if_neg hb]
  have hb' : has st.idx b.hash = false := by simpa using hb
  split
  · rename_i h; exact Or.inl ⟨rfl, h.1, Or.inr h.2⟩
  cases hfind : find st.idx b.prev with
  | none =>
    simp only
    rw [if_neg (by rintro h; rw [h] at hb; exact hb hg)]
    exact Or.inr same
  | some p =>
    obtain ⟨hpm, hph⟩ := find_some hfind
    simp only
    split
    · exact Or.inr same
    rename_i c1
    split
    · exact Or.inr same
    rename_i c2
    split
    · exact Or.inr same
    rename_i c3
    have hfits : Fits e b p.path := by
      simp only [ne_eq, Decidable.not_not] at c2
      refine ⟨p.blk, p.anc, rfl, hph.symm, c2, by omega, by omega, ?_⟩
      by_contra hc
      exact c1 ⟨by omega, by simpa using hc⟩
    have hnz : b.height ≠ 0 := by
      simp only [ne_eq, Decidable.not_not] at c2
      omega
    split
    · by_cases hr : b.byReg = true
      · obtain ⟨s, h1, h2, h3, h4⟩ := addIndex_whole (inp := inp) w (mem_path hpm) hfits hr hb'
        rw [h1]
        exact Or.inr ⟨s, true, rfl, h2, h3, by simp, fun _ => ⟨_, h4⟩⟩
      · rw [addIndex_stop hfits (by simpa using hr)]
        exact Or.inl ⟨rfl, hnz, Or.inl (by simpa using hr)⟩
    · obtain ⟨s1, ok, f1, f2, f3⟩ := forked_whole w b (mem_path hpm)
      obtain ⟨g1, g2, g3⟩ := forked_safe w.safe (mem_path hpm) f1
      rw [f1]
      cases ok with
      | false => exact Or.inr ⟨s1, false, rfl, ⟨g1, f2⟩, f3, fun _ => g2, by simp⟩
      | true =>
        simp only
        by_cases hr : b.byReg = true
        · obtain ⟨s, h1, h2, h3, h4⟩ := addIndex_whole (inp := inp) ⟨g1, f2⟩ (by rw [g2]; exact mem_path hpm) hfits hr
            (by rw [has_congr g2]; exact hb')
          rw [h1]
          exact Or.inr ⟨s, true, rfl, h2, h3.trans f3, by simp, fun _ => ⟨_, by rw [h4, g2]⟩⟩
        · rw [addIndex_stop hfits (by simpa using hr)]
          exact Or.inl ⟨rfl, hnz, Or.inl (by simpa using hr)⟩

theorem accept_grow {idx idx' : List Node} {b : Blk} {ok : Bool} (h1 : ok = false → skel idx' = skel idx)
    (h2 : ok = true → ∃ p, skel idx' = (b :: p) :: skel idx) :
    skel idx <:+ skel idx' ∧ ∀ x, has idx' x = true → has idx x = true ∨ (ok = true ∧ x = b.hash) := by
  cases ok with
  | false => rw [h1 rfl]; exact ⟨List.suffix_refl _, fun x hx => Or.inl (by rwa [has_congr (h1 rfl)] at hx)⟩
  | true =>
    obtain ⟨p, h⟩ := h2 rfl
    refine ⟨by rw [h]; exact List.suffix_cons _ _, fun x hx => ?_⟩
    obtain ⟨q, hq, he⟩ := has_iff.1 hx
    rw [h] at hq
    rcases List.mem_cons.1 hq with rfl | hq
    · right; exact ⟨rfl, by simpa [tipHash_cons] using he.symm⟩
    · left; exact has_iff.2 ⟨q, hq, he⟩

/-! ## Orphans -/

theorem Whole.pool {e : Env} {st : St} (h : Whole e st) (o b s : List Blk) : Whole e { st with orphans := o, byPrev := b, oset := s } :=
  ⟨h.safe.pool o b s, h.marks⟩

theorem kids_whole {e : Env} {inp : Inputs} {ks : List Blk} {st : St} (w : Whole e st) (hk : ∀ k ∈ ks, has st.idx k.prev = true) :
    (kids e inp st ks = none ∧ ∃ k ∈ ks, k.height ≠ 0 ∧ k.byReg = false) ∨
    ∃ s hs, kids e inp st ks = some (s, hs) ∧ Whole e s ∧ skel st.idx <:+ skel s.idx ∧
      s.orphans = st.orphans.filter (fun x => !(ks.any fun k => k.hash == x.hash)) ∧ s.byPrev = st.byPrev ∧
      s.oset = st.oset.filter (fun x => !(ks.any fun k => i32 k.height == i32 x.height)) ∧
      (∀ x, has s.idx x = true → has st.idx x = true ∨ x ∈ hs) ∧ (∀ x ∈ hs, x ∈ ks.map (·.hash) ∧ has s.idx x = true) ∧ hs.length ≤ ks.length := by
  induction ks generalizing st with
  | nil =>
    refine Or.inr ⟨st, [], rfl, w, List.suffix_refl _, ?_, rfl, ?_, fun x hx => Or.inl hx, by simp, by simp⟩
    · symm; rw [List.filter_eq_self]; simp
    · symm; rw [List.filter_eq_self]; simp
  | cons k ks ih =>
    unfold kids
    rcases accept_whole (inp := inp) w k with ⟨h1, h2, h3⟩ | ⟨st1, ok, h1, h2, h3, h4, h4'⟩
    · rw [h1]
      refine Or.inl ⟨rfl, k, by simp, h2, ?_⟩
      rcases h3 with h3 | h3
      · exact h3
      · rw [hk k (by simp)] at h3; simp at h3
    · rw [h1]
      simp only
      obtain ⟨g1, g5⟩ := accept_grow h4 h4'
      simp only [pools, Prod.mk.injEq] at h3
      obtain ⟨g2, g3, g4⟩ := h3
      rcases ih (st := { st1 with oset := oerase k st1.oset, orphans := st1.orphans.filter fun x => x.hash != k.hash })
          (h2.pool _ st1.byPrev _) (fun x hx => has_grow g1 (hk x (by simp [hx]))) with
        ⟨i1, x, i2, i3⟩ | ⟨s, hs, i1, i2, i3, i4, i5, i6, i7, i8, i9⟩
      · rw [i1]
        exact Or.inl ⟨rfl, x, by simp [i2], i3⟩
      · rw [i1]
        refine Or.inr ⟨s, _, rfl, i2, g1.trans i3, ?_, i5.trans g3, ?_, ?_, ?_, ?_⟩
        · rw [i4]
          show (st1.orphans.filter fun x => x.hash != k.hash).filter _ = _
          rw [List.filter_filter, g2]
          apply List.filter_congr
          intro x _
          simp only [List.any_cons, Bool.not_or]
          rw [Bool.and_comm]
          congr 1
          rw [Bool.beq_comm]; rfl
        · rw [i6]
          show (oerase k st1.oset).filter _ = _
          unfold oerase
          rw [List.filter_filter, g4]
          apply List.filter_congr
          intro x _
          simp only [List.any_cons, Bool.not_or]
          rw [Bool.and_comm]
          congr 1
          rw [Bool.beq_comm]; rfl
        · intro x hx
          rcases i7 x hx with h | h
          · rcases g5 x h with h | ⟨rfl, rfl⟩
            · exact Or.inl h
            · right; simp
          · right; split
            · exact List.mem_cons_of_mem _ h
            · exact h
        · intro x hx
          split at hx
          · rename_i hok
            rcases List.mem_cons.1 hx with rfl | hx
            · refine ⟨by simp, has_grow i3 ?_⟩
              obtain ⟨p, ha⟩ := h4' hok
              exact has_iff.2 ⟨k :: p, by show _ ∈ skel st1.idx; rw [ha]; simp, rfl⟩
            · exact ⟨List.mem_cons_of_mem _ (i8 x hx).1, (i8 x hx).2⟩
          · exact ⟨List.mem_cons_of_mem _ (i8 x hx).1, (i8 x hx).2⟩
        · split <;> simp only [List.length_cons] <;> omega

theorem resolve_whole {e : Env} {inp : Inputs} {fuel : Nat} {st : St} {q : List Nat} (w : Whole e st) (pool : Pool q st)
    (hq : ∀ h ∈ q, has st.idx h = true) (hf : st.byPrev.length + q.length ≤ fuel) :
    (resolve e inp fuel st q = none ∧ ∃ k ∈ st.orphans, k.height ≠ 0 ∧ k.byReg = false) ∨
    ∃ s, resolve e inp fuel st q = some s ∧ Whole e s ∧ Pool [] s ∧ (∀ x ∈ s.orphans, x ∈ st.orphans) := by
  induction fuel generalizing st q with
  | zero =>
    have : q = [] := List.length_eq_zero_iff.1 (by omega)
    subst this
    exact Or.inr ⟨st, rfl, w, pool, fun _ h => h⟩
  | succ fuel ih =>
    cases q with
    | nil => exact Or.inr ⟨st, by unfold resolve; rfl, w, pool, fun _ h => h⟩
    | cons h q =>
      unfold resolve
      have hkids : ∀ k ∈ st.byPrev.filter fun x => x.prev == h, has st.idx k.prev = true := by
        intro k hk
        have := (List.mem_filter.1 hk).2
        simp only [beq_iff_eq] at this
        rw [this]; exact hq h (by simp)
      rcases kids_whole (inp := inp) w hkids with ⟨k1, x, k2, k3⟩ | ⟨s, hs, k1, k2, k3, k4, k5, k6, k7, k8, k9⟩
      · rw [k1]
        exact Or.inl ⟨rfl, x, by rw [← pool.same]; exact List.mem_of_mem_filter k2, k3⟩
      · rw [k1]
        simp only
        rw [pool.same, filter_same pool.nodup] at k4
        have hlen : (st.byPrev.filter fun x => x.prev == h).length + (st.byPrev.filter fun x => x.prev != h).length = st.byPrev.length := by
          rw [← List.countP_eq_length_filter, ← List.countP_eq_length_filter]
          have := List.length_eq_countP_add_countP (p := fun x : Blk => x.prev == h) (l := st.byPrev)
          rw [this]
          congr 1
          apply List.countP_congr
          intro x _
          simp
        have hsubl : List.Sublist (st.orphans.filter fun x => x.prev != h) st.orphans := List.filter_sublist
        have pool2 : Pool (q ++ hs) { s with byPrev := s.byPrev.filter fun x => x.prev != h } := by
          constructor
          · simp only
            rw [k4, k5, pool.same]
          · show (s.orphans.map (·.hash)).Nodup
            rw [k4]
            exact pool.nodup.sublist (hsubl.map _)
          · intro x hx
            show x ∈ s.orphans
            change x ∈ s.oset at hx
            rw [k6, List.mem_filter] at hx
            rw [k4, List.mem_filter]
            refine ⟨pool.sub x hx.1, ?_⟩
            simp only [bne_iff_ne, ne_eq]
            intro hxp
            have h2 := hx.2
            simp only [Bool.not_eq_true', List.any_eq_false, List.mem_filter, beq_iff_eq] at h2
            exact h2 x ⟨by rw [pool.same]; exact pool.sub x hx.1, hxp⟩ rfl
          · show s.orphans.length ≤ _
            rw [k4]
            have := hsubl.length_le
            have := pool.bound
            omega
          · intro hl
            change s.orphans.length = _ at hl
            show s.oset ≠ []
            have hb := pool.bound
            have hle := hsubl.length_le
            rw [k4] at hl
            have hall : st.orphans.length = maxOrphans + 1 := by omega
            have heq := hsubl.eq_of_length (by omega)
            have hnil : (st.byPrev.filter fun x => x.prev == h) = [] := by
              rw [List.filter_eq_nil_iff, pool.same]
              intro x hx hc
              rw [← heq, List.mem_filter] at hx
              simp only [beq_iff_eq] at hc
              simp [hc] at hx
            rw [k6, hnil]
            simp only [List.any_nil, Bool.not_false, List.filter_true]
            exact pool.full hall
          · intro o ho hhas
            change o ∈ s.orphans at ho
            rw [k4, List.mem_filter] at ho
            rcases k7 _ hhas with h1 | h1
            · have := pool.waiting o ho.1 h1
              rcases List.mem_cons.1 this with h2 | h2
              · have h3 := ho.2
                simp [h2] at h3
              · exact List.mem_append_left _ h2
            · exact List.mem_append_right _ h1
          · intro o ho
            change o ∈ s.orphans at ho
            rw [k4, List.mem_filter] at ho
            by_contra hcon
            rcases k7 o.hash (by simpa using hcon) with h1 | h1
            · rw [pool.fresh o ho.1] at h1; simp at h1
            · obtain ⟨y, hy, he⟩ := List.mem_map.1 (k8 _ h1).1
              rw [List.mem_filter, pool.same] at hy
              have := inj_of_nodup_map pool.nodup hy.1 ho.1 he
              rw [this] at hy
              have h3 := ho.2
              simp at hy
              simp [hy.2] at h3
        have hq2 : ∀ x ∈ q ++ hs, has s.idx x = true := by
          intro x hx
          rcases List.mem_append.1 hx with hx | hx
          · exact has_grow k3 (hq x (by simp [hx]))
          · exact (k8 x hx).2
        have hfu : (s.byPrev.filter fun x => x.prev != h).length + (q ++ hs).length ≤ fuel := by
          rw [k5, List.length_append]
          simp only [List.length_cons] at hf
          omega
        have hsub : ∀ x ∈ s.orphans, x ∈ st.orphans := by
          intro x hx
          rw [k4] at hx
          exact List.mem_of_mem_filter hx
        rcases ih (k2.pool s.orphans (s.byPrev.filter fun x => x.prev != h) s.oset) pool2 hq2 hfu with ⟨i1, x, i2, i3⟩ | ⟨t, i1, i2, i3, i5⟩
        · exact Or.inl ⟨i1, x, hsub x i2, i3⟩
        · exact Or.inr ⟨t, i1, i2, i3, fun x hx => hsub x (i5 x hx)⟩

theorem Pool.of {st s : St} (pool : Pool [] st) (hk : skel s.idx = skel st.idx) (hp : pools s = pools st) : Pool [] s := by
  simp only [pools, Prod.mk.injEq] at hp
  obtain ⟨g2, g3, g4⟩ := hp
  constructor
  · rw [g2, g3]; exact pool.same
  · rw [g2]; exact pool.nodup
  · rw [g2, g4]; exact pool.sub
  · rw [g2]; exact pool.bound
  · rw [g2, g4]; exact pool.full
  · rw [g2]; intro o ho hh; exact pool.waiting o ho (by rwa [has_congr hk] at hh)
  · rw [g2]; intro o ho; rw [has_congr hk]; exact pool.fresh o ho

theorem keep_whole {e : Env} {st : St} (w : Whole e st) (pool : Pool [] st) {b : Blk} (h1 : has st.idx b.hash = false)
    (h2 : inChain st.orphans b.hash = false) (h3 : has st.idx b.prev = false) :
    ∃ s, keep st b = some s ∧ Whole e s ∧ Pool [] s ∧ ∀ x ∈ s.orphans, x ∈ st.orphans ∨ x = b := by
  have hsk := skel_clear st
  obtain ⟨s, k1, -, k3, k4, -, -, k7⟩ := keep_spec (clear_inv w.safe) (pool.of hsk rfl) (b := b) (by rw [has_congr hsk]; exact h1) h2
    (by rw [has_congr hsk]; exact h3)
  have key : ∃ t, keep st b = some t ∧ pools t = pools s ∧ t.idx = st.idx := by
    unfold keep prune at k1 ⊢
    have e1 : (clear st).byPrev = st.byPrev := rfl
    have e2 : (clear st).oset = st.oset := rfl
    rw [e1, e2] at k1
    by_cases hl : st.byPrev.length ≤ maxOrphans
    · rw [if_pos hl] at k1 ⊢
      cases k1; exact ⟨_, rfl, rfl, rfl⟩
    · rw [if_neg hl] at k1 ⊢
      cases hos : st.oset with
      | nil => rw [hos] at k1; simp at k1
      | cons t ts =>
        rw [hos] at k1
        simp only at k1 ⊢
        by_cases hh : i32 t.height ≤ i32 b.height
        · rw [if_pos hh] at k1 ⊢
          cases k1; exact ⟨_, rfl, rfl, rfl⟩
        · rw [if_neg hh] at k1 ⊢
          cases k1; exact ⟨_, rfl, rfl, rfl⟩
  obtain ⟨t, t1, t2, t3⟩ := key
  have safe := (keep_safe w.safe t1).1
  have hpt : Pool [] t := k3.of (by rw [t3, k4, hsk]) t2
  refine ⟨t, t1, ⟨safe, by rw [t3]; exact w.marks⟩, hpt, fun x hx => k7 x ?_⟩
  simp only [pools, Prod.mk.injEq] at t2
  rw [← t2.1]; exact hx

/-- All outcomes of `ProcessBlock` after blocks and commands in any order. -/
theorem process_whole {e : Env} {inp : Inputs} {peer : Bool} {st : St} (w : Whole e st) (pool : Pool [] st) (b : Blk) :
    (process e inp peer st b = none ∧ ((b.height ≠ 0 ∧ (b.byReg = false ∨ b.prev = 0)) ∨ ∃ k ∈ st.orphans, k.height ≠ 0 ∧ k.byReg = false)) ∨
    ∃ s ok, process e inp peer st b = some (s, ok) ∧ Whole e s ∧ Pool [] s ∧ (∀ x ∈ s.orphans, x ∈ st.orphans ∨ x = b) := by
  have same : ∀ r : Bool, ∃ s ok, some (st, r) = some (s, ok) ∧ Whole e s ∧ Pool [] s ∧ (∀ x ∈ s.orphans, x ∈ st.orphans ∨ x = b) :=
    fun r => ⟨st, r, rfl, w, pool, fun _ h => Or.inl h⟩
  unfold process
  split
  · exact Or.inr (same _)
  rename_i h1
  split
  · exact Or.inr (same _)
  rename_i h2
  split
  · exact Or.inr (same _)
  have h1' : has st.idx b.hash = false := by simpa using h1
  have h2' : inChain st.orphans b.hash = false := by simpa using h2
  split
  · rename_i h4
    split
    · obtain ⟨s, g1, g2, g3, g4⟩ := keep_whole w pool h1' h2' h4.2
      rw [g1]
      exact Or.inr ⟨s, true, rfl, g2, g3, g4⟩
    · exact Or.inr (same _)
  · rename_i h4
    rcases accept_whole (inp := inp) w b with ⟨a1, a2, a3⟩ | ⟨s, ok, a1, a2, a3, a4, a5⟩
    · rw [a1]
      refine Or.inl ⟨rfl, Or.inl ⟨a2, ?_⟩⟩
      rcases a3 with a3 | a3
      · exact Or.inl a3
      · right
        by_contra hc
        exact h4 ⟨hc, a3⟩
    · rw [a1]
      obtain ⟨g1, g5⟩ := accept_grow a4 a5
      simp only [pools, Prod.mk.injEq] at a3
      obtain ⟨g2, g3, g4⟩ := a3
      cases ok with
      | false =>
        refine Or.inr ⟨s, false, rfl, a2, ?_, fun x hx => Or.inl (by rw [← g2]; exact hx)⟩
        constructor
        · rw [g2, g3]; exact pool.same
        · rw [g2]; exact pool.nodup
        · rw [g2, g4]; exact pool.sub
        · rw [g2]; exact pool.bound
        · rw [g2, g4]; exact pool.full
        · rw [g2]; intro o ho hh; exact pool.waiting o ho (by rwa [has_congr (a4 rfl)] at hh)
        · rw [g2]; intro o ho; rw [has_congr (a4 rfl)]; exact pool.fresh o ho
      | true =>
        simp only
        obtain ⟨p0, ha⟩ := a5 rfl
        have hbi : has s.idx b.hash = true := has_iff.2 ⟨b :: p0, by rw [ha]; simp, rfl⟩
        have pool2 : Pool [b.hash] s := by
          constructor
          · rw [g2, g3]; exact pool.same
          · rw [g2]; exact pool.nodup
          · rw [g2, g4]; exact pool.sub
          · rw [g2]; exact pool.bound
          · rw [g2, g4]; exact pool.full
          · rw [g2]
            intro o ho hh
            rcases g5 _ hh with h | ⟨-, h⟩
            · have := pool.waiting o ho h
              simp at this
            · simp [h]
          · rw [g2]
            intro o ho
            by_contra hc
            rcases g5 o.hash (by simpa using hc) with h | ⟨-, h⟩
            · rw [pool.fresh o ho] at h; simp at h
            · apply h2
              unfold inChain
              exact List.any_eq_true.2 ⟨o, ho, by simp [h]⟩
        rcases resolve_whole (inp := inp) (fuel := s.byPrev.length + 1) a2 pool2 (by simpa using hbi) (by simp) with
          ⟨r1, k, r2, r3⟩ | ⟨t, r1, r2, r3, r5⟩
        · rw [r1]
          exact Or.inl ⟨rfl, Or.inr ⟨k, by rw [← g2]; exact r2, r3⟩⟩
        · rw [r1]
          exact Or.inr ⟨t, true, rfl, r2, r3, fun x hx => Or.inl (by rw [← g2]; exact r5 x hx)⟩

/-! ## The commands -/

theorem disconnectFrom_marks {e : Env} {h : Nat} {c : List Blk} {idx : List Node} (hm : Marks e idx) :
    Marks e (disconnectFrom h idx c).1 := by
  induction c generalizing idx with
  | nil => exact hm
  | cons b r ih =>
    unfold disconnectFrom
    split
    · split
      · exact marks_mark hm _
      · exact ih (marks_mark hm _)
    · exact hm

theorem invalidateCmd_whole {e : Env} {prot : List Nat} {st : St} (w : Whole e st) (pool : Pool [] st) (h : Nat) (flush : Bool) :
    ∃ s, invalidateCmd e prot st h flush = some s ∧ Whole e s ∧ Pool [] s ∧ s.orphans = st.orphans := by
  unfold invalidateCmd
  split
  · obtain ⟨i1, i2, i3⟩ := disconnectFrom_safe (h := h) (c := st.active) (idx := mark st.idx h)
    rw [skel_mark] at i1
    have i3 := i3 w.safe.sound.ne
    have safe1 : Safe e (invalidate st h flush) := by
      refine ⟨?_, ?_, w.safe.sound.suffix i2 i3, ?_, ?_⟩ <;> simp only [invalidate, i1]
      · exact w.safe.tree
      · exact w.safe.tree.suffix w.safe.act i2 i3
      · exact w.safe.most
      · cases flush with
        | true => simp
        | false => exact w.safe.forks
    have hlen : (invalidate st h flush).idx.length = st.idx.length := by
      have := congrArg List.length i1
      unfold skel at this
      rw [List.length_map, List.length_map] at this
      exact this
    obtain ⟨s, a1, a2⟩ := activate_total (prot := prot) (ob := none) (fuel := st.idx.length + 1) safe1
      (disconnectFrom_marks (marks_mark w.marks h)) (by have := open_le_length (invalidate st h flush).idx; omega)
    obtain ⟨b1, b2, -⟩ := activate_safe safe1 (by simp) a1
    exact ⟨s, a1, ⟨b1, a2⟩, pool.of (b2.trans i1) ((activate_pools a1).trans rfl), congrArg Prod.fst (activate_pools a1)⟩
  · exact ⟨st, rfl, w, pool, rfl⟩

theorem reconsiderCmd_whole {e : Env} {prot : List Nat} {st : St} (w : Whole e st) (pool : Pool [] st) (h : Nat) (children : Bool) :
    ∃ s, reconsiderCmd e prot st h children = some s ∧ Whole e s ∧ Pool [] s ∧ s.orphans = st.orphans := by
  unfold reconsiderCmd
  split
  · exact ⟨st, rfl, w, pool, rfl⟩
  · rename_i n _
    have hk := skel_reconsider st n.path h children
    have safe1 : Safe e (reconsider st n.path h children) :=
      ⟨by rw [hk]; exact w.safe.tree, by rw [hk]; exact w.safe.act, w.safe.sound, by rw [hk]; exact w.safe.most,
        by rw [hk]; exact w.safe.forks⟩
    have marks1 : Marks e (reconsider st n.path h children).idx := by
      constructor
      · intro m hm hc
        obtain ⟨k, hk, rfl⟩ := List.mem_map.1 hm
        split at hc <;> rename_i hp
        · rw [if_pos hp]
        · rw [if_neg hp]; exact w.marks.cand k hk hc
      · intro m hm hc hf
        obtain ⟨k, hk, rfl⟩ := List.mem_map.1 hm
        split at hf <;> rename_i hp
        · rw [if_pos hp] at hc; simp at hc
        · rw [if_neg hp] at hc ⊢; exact w.marks.lost k hk hc hf
    obtain ⟨s, a1, a2⟩ := activate_total (prot := prot) (ob := none) (fuel := st.idx.length + 1) safe1 marks1
      (by
        have h1 := open_le_length (reconsider st n.path h children).idx
        have h2 : (reconsider st n.path h children).idx.length = st.idx.length := List.length_map _
        omega)
    obtain ⟨b1, b2, -⟩ := activate_safe safe1 (by simp) a1
    exact ⟨s, a1, ⟨b1, a2⟩, pool.of (b2.trans hk) ((activate_pools a1).trans rfl), congrArg Prod.fst (activate_pools a1)⟩

end Verif.Intake
