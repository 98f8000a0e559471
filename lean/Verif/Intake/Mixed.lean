import Verif.Intake.OperatorLemmas

/-!
# Deliveries and commands in any order

The flags of the index may now be set for sound chains. They only matter for which chain is tried, so what keeps the active chain
sound is independent of them.
-/
namespace Verif.Intake

/-- The invariant without the flags. -/
structure Safe (e : Env) (st : St) : Prop where
  tree : Tree e (skel st.idx)
  act : st.active ∈ skel st.idx
  sound : Sound e st.active
  most : st.most = [] ∨ st.most ∈ skel st.idx
  forks : ∀ p ∈ st.forks, p.2 ∈ skel st.idx ∧ Sound e p.2 ∧ tipHash p.2 = some p.1

/-- The state with all flags cleared. -/
def clear (st : St) : St :=
  { st with idx := st.idx.map fun n => { n with failed := false, cand := true }, most := st.active }

theorem skel_clear (st : St) : skel (clear st).idx = skel st.idx := by
  unfold skel clear
  rw [List.map_map]
  rfl

theorem clear_inv {e : Env} {st : St} (s : Safe e st) : Inv e (clear st) := by
  refine ⟨by rw [skel_clear]; exact s.tree, ⟨?_, ?_⟩, by rw [skel_clear]; exact s.act, s.sound, by rw [skel_clear]; exact s.act,
    by rw [skel_clear]; exact s.forks⟩
  · intro n hn hf
    obtain ⟨m, -, rfl⟩ := List.mem_map.1 hn
    simp at hf
  · intro n hn
    obtain ⟨m, -, rfl⟩ := List.mem_map.1 hn
    rfl

theorem has_congr {a b : List Node} (h : skel a = skel b) (x : Nat) : has a x = has b x := by
  rw [Bool.eq_iff_iff, has_iff, has_iff, h]

theorem pick_skel {active : List Blk} {fuel : Nat} {idx idx' : List Node} {r : Option Node}
    (hp : pick active fuel idx = some (idx', r)) : skel idx' = skel idx := by
  induction fuel generalizing idx with
  | zero => simp [pick] at hp
  | succ fuel ih =>
    unfold pick at hp
    cases hb : best idx with
    | none => rw [hb] at hp; simp only [Option.some.injEq, Prod.mk.injEq] at hp; rw [← hp.1]
    | some n =>
      rw [hb] at hp
      simp only at hp
      split at hp
      · rw [ih hp, markAll_eq, skel_markIf]
      · simp only [Option.some.injEq, Prod.mk.injEq] at hp; rw [← hp.1]

theorem popMost_skel (idx : List Node) (most : List Blk) : skel (popMost idx most).1 = skel idx := by
  induction most generalizing idx with
  | nil => rfl
  | cons b r ih =>
    unfold popMost
    split
    · rw [ih, skel_uncand]
    · rfl

/-- Two states that differ in flags and the remembered chain only. -/
structure Same (st s : St) : Prop where
  skel : skel s.idx = skel st.idx
  active : s.active = st.active
  forks : s.forks = st.forks

theorem suffix_known {e : Env} {sk : List (List Blk)} (t : Tree e sk) {p s : List Blk} (hp : p = [] ∨ p ∈ sk) (hs : s <:+ p) :
    s = [] ∨ s ∈ sk := by
  rcases hp with rfl | hp
  · exact Or.inl (List.suffix_nil.1 hs)
  · by_cases h : s = []
    · exact Or.inl h
    · exact Or.inr (t.suffix hp hs h)

theorem findMost_safe {e : Env} {st s : St} (hs : Safe e st) (hf : findMost st = some s) : Safe e s ∧ Same st s := by
  have hp1 := popMost_skel st.idx st.most
  have hp2 := suffix_known hs.tree hs.most (popMost_suffix st.idx st.most)
  unfold findMost at hf
  cases hpm : popMost st.idx st.most with
  | mk idx most =>
    rw [hpm] at hf hp1 hp2
    simp only at hf hp1 hp2
    cases hpk : pick st.active (idx.length + 1) idx with
    | none => rw [hpk] at hf; simp at hf
    | some q =>
      obtain ⟨idx', o⟩ := q
      have hk : skel idx' = skel st.idx := (pick_skel hpk).trans hp1
      have key : ∀ m, (m = [] ∨ m ∈ skel st.idx) → Safe e { st with idx := idx', most := m } ∧ Same st { st with idx := idx', most := m } :=
        fun m hm => ⟨⟨by rw [hk]; exact hs.tree, by rw [hk]; exact hs.act, hs.sound, by rw [hk]; exact hm, by rw [hk]; exact hs.forks⟩,
          ⟨hk, rfl, rfl⟩⟩
      rw [hpk] at hf
      cases o with
      | none => cases hf; exact key most hp2
      | some n =>
        have hn : n.path ∈ skel st.idx := by rw [← hk]; exact mem_path (best_mem (pick_best hpk)).1
        simp only at hf
        split at hf
        · cases hf; exact key _ (Or.inr hn)
        · split at hf
          · cases hf; exact key _ (Or.inr hn)
          · cases hf; exact key _ hp2

theorem connectAll_safe {e : Env} {fuel : Nat} {st s : St} {ok : Bool} (hs : Safe e st) (hc : connectAll e fuel st = some (s, ok)) :
    Safe e s ∧ skel s.idx = skel st.idx ∧ st.active <:+ s.active := by
  induction fuel generalizing st with
  | zero => simp [connectAll] at hc
  | succ fuel ih =>
    unfold connectAll at hc
    cases hm : st.most with
    | nil => rw [hm] at hc; simp at hc
    | cons t r =>
      rw [hm] at hc
      simp only at hc
      split at hc
      · cases hc; exact ⟨hs, rfl, List.suffix_refl _⟩
      · cases hu : upTo (t :: r) st.active.length with
        | nil => rw [hu] at hc; simp at hc
        | cons b anc =>
          rw [hu] at hc
          simp only at hc
          split at hc
          · cases hc
          · rename_i htip
            have hmk : st.most ∈ skel st.idx := by
              rcases hs.most with h | h
              · rw [hm] at h; cases h
              · exact h
            have hbk : b :: anc ∈ skel st.idx := hs.tree.suffix hmk (by rw [hm, ← hu]; exact upTo_sub _ _) (by simp)
            have htip : tipHash anc = tipHash st.active := by simpa using htip
            have heq : anc = st.active := by
              rcases hs.tree.closed b anc hbk with rfl | h
              · obtain ⟨x, l, hx⟩ := List.exists_cons_of_ne_nil hs.sound.ne
                rw [hx] at htip; simp [tipHash] at htip
              · exact hs.tree.eq h hs.act htip
            rw [heq] at hbk
            split at hc
            · rename_i hcon
              obtain ⟨i1, i2, i3⟩ := ih (st := { st with active := b :: st.active, most := t :: r })
                ⟨hs.tree, hbk, (sound_cons hs.sound).2 hcon, Or.inr (hm ▸ hmk), hs.forks⟩ hc
              exact ⟨i1, i2, (List.suffix_cons _ _).trans i3⟩
            · cases hc
              refine ⟨⟨?_, ?_, hs.sound, ?_, ?_⟩, skel_mark _ _, List.suffix_refl _⟩ <;> simp only [skel_mark]
              · exact hs.tree
              · exact hs.act
              · exact Or.inr (hm ▸ hmk)
              · exact hs.forks

theorem activate_safe {e : Env} {prot : List Nat} {ob : Option Blk} {fuel : Nat} {st s : St} (hs : Safe e st)
    (hb : ∀ b, ob = some b → ∃ anc, b :: anc ∈ skel st.idx ∧ tipHash anc = some b.prev) (ha : activate e prot ob fuel st = some s) :
    Safe e s ∧ skel s.idx = skel st.idx ∧ ∀ x ∈ st.active, x.hash ∈ prot → x ∈ s.active := by
  induction fuel generalizing st with
  | zero => simp [activate] at ha
  | succ fuel ih =>
    unfold activate at ha
    cases hf : findMost st with
    | none => rw [hf] at ha; simp at ha
    | some s1 =>
      obtain ⟨f1, f2⟩ := findMost_safe hs hf
      rw [hf] at ha
      simp only at ha
      split at ha
      · cases ha; exact ⟨f1, f2.skel, fun x hx _ => by rw [f2.active]; exact hx⟩
      rename_i hne
      have hmk : s1.most ∈ skel s1.idx := f1.most.resolve_left hne
      split at ha
      · cases ha
        unfold onFinal
        cases ob with
        | none => exact ⟨f1, f2.skel, fun x hx _ => by simp only; rw [f2.active]; exact hx⟩
        | some b =>
          obtain ⟨anc, hb1, hb2⟩ := hb b rfl
          rw [← f2.skel] at hb1
          simp only
          split
          · rename_i htip
            have heq : anc = s1.active := by
              rcases f1.tree.closed b anc hb1 with rfl | h
              · simp [tipHash] at hb2
              · exact f1.tree.eq h f1.act (by rw [hb2, htip])
            rw [heq] at hb1
            split
            · rename_i hc
              exact ⟨⟨f1.tree, hb1, (sound_cons f1.sound).2 hc, f1.most, f1.forks⟩, f2.skel,
                fun x hx _ => by rw [← f2.active] at hx; exact List.mem_cons_of_mem _ hx⟩
            · refine ⟨⟨?_, ?_, f1.sound, ?_, ?_⟩, ?_, fun x hx _ => by rw [← f2.active] at hx; exact hx⟩ <;> simp only [skel_mark]
              · exact f1.tree
              · exact f1.act
              · exact f1.most
              · exact f1.forks
              · exact f2.skel
          · exact ⟨f1, f2.skel, fun x hx _ => by rw [f2.active]; exact hx⟩
      · rename_i hp
        obtain ⟨d1, d2, d3⟩ := dropWhile_inChain f1.tree f1.act hmk
        have hkept : ∀ x ∈ s1.active, x.hash ∈ prot → x ∈ s1.active.dropWhile fun x => !inChain s1.most x.hash := by
          intro x hx hxp
          apply takeWhile_kept hx
          intro hc
          apply hp
          rw [List.any_eq_true]
          exact ⟨x, hc, by simpa using hxp⟩
        have safe2 : Safe e { s1 with active := s1.active.dropWhile fun x => !inChain s1.most x.hash } :=
          ⟨f1.tree, f1.tree.suffix f1.act d2 d3, f1.sound.suffix d2 d3, f1.most, f1.forks⟩
        cases hc : connectAll e (s1.most.length + 1) { s1 with active := s1.active.dropWhile fun x => !inChain s1.most x.hash } with
        | none => rw [hc] at ha; simp at ha
        | some q =>
          obtain ⟨s2, ok⟩ := q
          obtain ⟨c1, c2, c3⟩ := connectAll_safe safe2 hc
          rw [hc] at ha
          have hk : skel s2.idx = skel st.idx := c2.trans f2.skel
          have hkeep : ∀ x ∈ st.active, x.hash ∈ prot → x ∈ s2.active := fun x hx hxp =>
            c3.subset (hkept x (by rw [f2.active]; exact hx) hxp)
          cases ok with
          | true => cases ha; exact ⟨c1, hk, hkeep⟩
          | false =>
            obtain ⟨i1, i2, i3⟩ := ih c1 (by rw [hk]; exact hb) ha
            exact ⟨i1, i2.trans hk, fun x hx hxp => i3 x (hkeep x hx hxp) hxp⟩

/-! ## Side branches -/

theorem walk_congr {s t : St} (ha : s.active = t.active) (hf : s.forks = t.forks) (hh : ∀ x, has s.idx x = has t.idx x) (limit : Nat)
    (tip : Option Nat) (pre p : List Blk) : walk s limit tip pre p = walk t limit tip pre p := by
  induction p generalizing tip pre with
  | nil => rfl
  | cons b r ih =>
    unfold walk
    rw [ha, hf]
    cases r with
    | nil => rfl
    | cons q l => simp only [hh, ih]

theorem connectPre_congr {e : Env} {idx idx' i : List Node} {chain : List Blk} {bs : List Blk} {r : Option (List Blk)}
    (h : connectPre e idx chain bs = some (i, r)) : skel i = skel idx ∧ ∃ i', connectPre e idx' chain bs = some (i', r) := by
  induction bs generalizing idx idx' chain with
  | nil => simp only [connectPre, Option.some.injEq, Prod.mk.injEq] at h ⊢; exact ⟨by rw [h.1], idx', rfl, h.2⟩
  | cons b bs ih =>
    unfold connectPre at h ⊢
    split at h
    · cases h
    · rename_i h1
      rw [if_neg h1]
      split at h
      · rename_i h2
        rw [if_pos h2]
        obtain ⟨a1, a2⟩ := ih (idx' := revive idx' b.hash) h
        exact ⟨a1.trans (skel_upd _ _ _ fun _ => rfl), a2⟩
      · rename_i h2
        rw [if_neg h2]
        simp only [Option.some.injEq, Prod.mk.injEq] at h
        exact ⟨by rw [h.1], idx', by rw [h.2]⟩

theorem forked_clear {e : Env} {st s : St} {b : Blk} {p0 : List Blk} {ok : Bool} (h : forked e st b p0 = some (s, ok)) :
    skel s.idx = skel st.idx ∧ s.active = st.active ∧ s.most = st.most ∧ ∃ s', forked e (clear st) b p0 = some (s', ok) ∧ s'.forks = s.forks := by
  have hw := fun l tip pre p => walk_congr (s := clear st) (t := st) rfl rfl (has_congr (skel_clear st)) l tip pre p
  unfold forked at h ⊢
  rw [hw]
  cases hwk : walk st (e.maxFork b.height) none [] p0 with
  | stop => rw [hwk] at h; simp at h
  | refused => rw [hwk] at h; cases h; exact ⟨rfl, rfl, rfl, _, rfl, rfl⟩
  | found p tip pre =>
    rw [hwk] at h
    simp only at h ⊢
    rw [show (clear st).active = st.active from rfl]
    split at h
    · rename_i h1
      rw [if_pos h1]
      cases h; exact ⟨rfl, rfl, rfl, _, rfl, rfl⟩
    · rename_i h1
      rw [if_neg h1]
      cases ht : tipHash p with
      | none => rw [ht] at h; simp at h
      | some hp =>
        rw [ht] at h
        simp only at h ⊢
        rw [show forkState (clear st) (tip.getD hp) hp = forkState st (tip.getD hp) hp from rfl]
        cases hfs : forkState st (tip.getD hp) hp with
        | mk chain forks =>
          rw [hfs] at h
          simp only at h ⊢
          cases htc : tipHash chain with
          | none => rw [htc] at h; simp at h
          | some t =>
            rw [htc] at h
            simp only at h ⊢
            rw [has_congr (skel_clear st) t]
            split at h
            · cases h
            · rename_i h2
              rw [if_neg h2]
              cases pre with
              | nil => cases h; exact ⟨rfl, rfl, rfl, _, rfl, rfl⟩
              | cons top pre =>
                simp only at h ⊢
                cases hc : connectPre e st.idx chain (top :: pre).reverse with
                | none => rw [hc] at h; simp at h
                | some q =>
                  obtain ⟨i, r⟩ := q
                  obtain ⟨k1, i', k2⟩ := connectPre_congr (idx' := (clear st).idx) hc
                  rw [hc] at h
                  rw [k2]
                  cases r with
                  | none => cases h; exact ⟨k1, rfl, rfl, _, rfl, rfl⟩
                  | some c => cases h; exact ⟨k1, rfl, rfl, _, rfl, rfl⟩

theorem forked_safe {e : Env} {st s : St} (hs : Safe e st) {b : Blk} {p0 : List Blk} (h0 : p0 ∈ skel st.idx) {ok : Bool}
    (h : forked e st b p0 = some (s, ok)) : Safe e s ∧ skel s.idx = skel st.idx ∧ s.active = st.active := by
  obtain ⟨k1, k2, k3, s', k4, k5⟩ := forked_clear h
  obtain ⟨forks, ok', f1, f2, -⟩ := forked_spec (clear_inv hs) (b := b) (by rw [skel_clear]; exact h0)
  rw [f1] at k4
  simp only [Option.some.injEq, Prod.mk.injEq] at k4
  have hfk := f2.forks
  rw [show ({ clear st with forks := forks } : St).forks = s.forks by rw [← k5, ← k4.1]] at hfk
  rw [show ({ clear st with forks := forks } : St).idx = (clear st).idx from rfl, skel_clear] at hfk
  refine ⟨⟨by rw [k1]; exact hs.tree, by rw [k1, k2]; exact hs.act, by rw [k2]; exact hs.sound, by rw [k1, k3]; exact hs.most,
    by rw [k1]; exact hfk⟩, k1, k2⟩

/-! ## Accepting and processing -/

theorem addIndex_safe {e : Env} {inp : Inputs} {st s : St} (hs : Safe e st) {b : Blk} {p : List Blk} (hp : p ∈ skel st.idx)
    (hf : Fits e b p) (hn : has st.idx b.hash = false) (h : addIndex e inp st b p = some s) :
    Safe e s ∧ ∀ x ∈ st.active, x.hash ∈ inp.prot b.hash → x ∈ s.active := by
  unfold addIndex at h
  split at h
  · cases h
  rename_i hr
  have hr' : b.byReg = true := by
    obtain ⟨q, r, -, -, h2, -⟩ := hf
    by_contra hc
    exact hr ⟨by omega, by simpa using hc⟩
  simp only at h
  obtain ⟨idx', hidx⟩ : ∃ l, l = ({ blk := b, anc := p, failed := false, cand := true } : Node) :: st.idx := ⟨_, rfl⟩
  rw [← hidx] at h
  have hsk : skel idx' = (b :: p) :: skel st.idx := by rw [hidx]; rfl
  have ht : Tree e (skel idx') := by rw [hidx]; exact tree_cons hs.tree hp hf hr' hn _ _
  have safe1 : Safe e { st with idx := idx' } := by
    refine ⟨ht, ?_, hs.sound, ?_, ?_⟩ <;> simp only [hsk]
    · exact List.mem_cons_of_mem _ hs.act
    · exact hs.most.imp id (List.mem_cons_of_mem _)
    · intro q hq
      obtain ⟨h1, h2⟩ := hs.forks q hq
      exact ⟨List.mem_cons_of_mem _ h1, h2⟩
  have hprev : tipHash p = some b.prev := by
    obtain ⟨q, r, rfl, h1, -⟩ := hf
    rw [tipHash_cons, h1]
  cases ha : activate e (inp.prot b.hash) (some b) (idx'.length + 1) { st with idx := idx' } with
  | none => rw [ha] at h; simp at h
  | some s1 =>
    obtain ⟨a1, a2, a3⟩ := activate_safe safe1 (by rintro _ ⟨⟩; exact ⟨p, by rw [hsk]; simp, hprev⟩) ha
    rw [ha] at h
    simp only [Option.some.injEq] at h
    subst h
    split
    · exact ⟨⟨a1.tree, a1.act, a1.sound, a1.most, by simp⟩, a3⟩
    · exact ⟨a1, a3⟩

theorem accept_safe {e : Env} {inp : Inputs} {st s : St} {ok : Bool} (hs : Safe e st) {b : Blk} (h : accept e inp st b = some (s, ok)) :
    Safe e s ∧ ∀ x ∈ st.active, x.hash ∈ inp.prot b.hash → x ∈ s.active := by
  have hg : has st.idx e.genesis.hash = true := has_iff.2 ⟨_, hs.tree.genesis hs.act, rfl⟩
  have same : ∀ {o : Option (St × Bool)}, o = some (st, false) → o = some (s, ok) →
      Safe e s ∧ ∀ x ∈ st.active, x.hash ∈ inp.prot b.hash → x ∈ s.active := by
    intro o h1 h2
    rw [h1] at h2
    cases h2
    exact ⟨hs, fun x hx _ => hx⟩
  unfold accept at h
  by_cases hb : has st.idx b.hash = true
  · rw [if_pos hb] at h; exact same rfl h
  rw [if_neg hb] at h
  have hb' : has st.idx b.hash = false := by simpa using hb
  split at h
  · cases h
  cases hfind : find st.idx b.prev with
  | none =>
    rw [hfind] at h
    simp only at h
    rw [if_neg (by rintro h; rw [h] at hb; exact hb hg)] at h
    exact same rfl h
  | some p =>
    rw [hfind] at h
    obtain ⟨hpm, hph⟩ := find_some hfind
    simp only at h
    split at h
    · exact same rfl h
    rename_i c1
    split at h
    · exact same rfl h
    rename_i c2
    split at h
    · exact same rfl h
    rename_i c3
    have hfits : Fits e b p.path := by
      simp only [ne_eq, Decidable.not_not] at c2
      refine ⟨p.blk, p.anc, rfl, hph.symm, c2, by omega, by omega, ?_⟩
      by_contra hc
      exact c1 ⟨by omega, by simpa using hc⟩
    split at h
    · obtain ⟨s', h1, h2⟩ := Option.map_eq_some_iff.1 h
      cases h2
      exact addIndex_safe hs (mem_path hpm) hfits hb' h1
    · cases hfk : forked e st b p.path with
      | none => rw [hfk] at h; simp at h
      | some q =>
        obtain ⟨s1, ok1⟩ := q
        obtain ⟨f1, f2, f3⟩ := forked_safe hs (mem_path hpm) hfk
        rw [hfk] at h
        cases ok1 with
        | false => cases h; exact ⟨f1, fun x hx _ => by rw [f3]; exact hx⟩
        | true =>
          simp only at h
          obtain ⟨s', h1, h2⟩ := Option.map_eq_some_iff.1 h
          cases h2
          have := addIndex_safe f1 (by rw [f2]; exact mem_path hpm) hfits (by rw [has_congr f2]; exact hb') h1
          rw [f3] at this
          exact this

/-- Sound, and what is protected throughout is kept. -/
def Good (e : Env) (inp : Inputs) (st s : St) : Prop := Safe e s ∧ ∀ x ∈ st.active, (∀ a, x.hash ∈ inp.prot a) → x ∈ s.active

theorem Good.trans {e : Env} {inp : Inputs} {s t u : St} (h1 : Good e inp s t) (h2 : Good e inp t u) : Good e inp s u :=
  ⟨h2.1, fun x hx hp => h2.2 x (h1.2 x hx hp) hp⟩

theorem Safe.pool {e : Env} {st : St} (h : Safe e st) (o b s : List Blk) : Safe e { st with orphans := o, byPrev := b, oset := s } :=
  ⟨h.tree, h.act, h.sound, h.most, h.forks⟩

theorem kids_safe {e : Env} {inp : Inputs} {ks : List Blk} {st s : St} {hs : List Nat} (h : Safe e st)
    (hk : kids e inp st ks = some (s, hs)) : Good e inp st s := by
  induction ks generalizing st hs with
  | nil => cases hk; exact ⟨h, fun x hx _ => hx⟩
  | cons k ks ih =>
    unfold kids at hk
    cases ha : accept e inp st k with
    | none => rw [ha] at hk; simp at hk
    | some q =>
      obtain ⟨s1, ok⟩ := q
      obtain ⟨a1, a2⟩ := accept_safe h ha
      rw [ha] at hk
      simp only at hk
      cases hr : kids e inp { s1 with oset := oerase k s1.oset, orphans := s1.orphans.filter fun x => x.hash != k.hash } ks with
      | none => rw [hr] at hk; simp at hk
      | some q =>
        obtain ⟨s2, hs2⟩ := q
        rw [hr] at hk
        cases hk
        have g := ih (a1.pool _ s1.byPrev _) hr
        exact ⟨g.1, fun x hx hp => g.2 x (a2 x hx (hp _)) hp⟩

theorem resolve_safe {e : Env} {inp : Inputs} {fuel : Nat} {st s : St} {q : List Nat} (h : Safe e st)
    (hr : resolve e inp fuel st q = some s) : Good e inp st s := by
  induction fuel generalizing st q with
  | zero =>
    cases q with
    | nil => cases hr; exact ⟨h, fun x hx _ => hx⟩
    | cons a q => simp [resolve] at hr
  | succ fuel ih =>
    cases q with
    | nil => cases hr; exact ⟨h, fun x hx _ => hx⟩
    | cons a q =>
      unfold resolve at hr
      cases hk : kids e inp st (st.byPrev.filter fun x => x.prev == a) with
      | none => rw [hk] at hr; simp at hr
      | some p =>
        obtain ⟨s1, hs1⟩ := p
        have g1 := kids_safe h hk
        rw [hk] at hr
        have g2 := ih (g1.1.pool s1.orphans _ s1.oset) hr
        exact ⟨g2.1, fun x hx hp => g2.2 x (g1.2 x hx hp) hp⟩

theorem keep_safe {e : Env} {st s : St} {b : Blk} (h : Safe e st) (hk : keep st b = some s) : Safe e s ∧ s.active = st.active := by
  have hp : ∀ s1 ok, prune st b.height = some (s1, ok) → Safe e s1 ∧ s1.active = st.active := by
    intro s1 ok hp
    unfold prune at hp
    split at hp
    · cases hp; exact ⟨h, rfl⟩
    · split at hp
      · cases hp
      · split at hp
        · cases hp; exact ⟨h, rfl⟩
        · cases hp; exact ⟨h.pool _ _ _, rfl⟩
  unfold keep at hk
  cases hpr : prune st b.height with
  | none => rw [hpr] at hk; simp at hk
  | some q =>
    obtain ⟨s1, ok⟩ := q
    obtain ⟨p1, p2⟩ := hp s1 ok hpr
    rw [hpr] at hk
    cases ok with
    | false => cases hk; exact ⟨p1, p2⟩
    | true => cases hk; exact ⟨p1.pool _ _ _, p2⟩

theorem process_safe {e : Env} {inp : Inputs} {peer ok : Bool} {st s : St} {b : Blk} (h : Safe e st)
    (hp : process e inp peer st b = some (s, ok)) : Good e inp st s := by
  have same : ∀ {o : Option (St × Bool)} {r : Bool}, o = some (st, r) → o = some (s, ok) → Good e inp st s := by
    intro o r h1 h2
    rw [h1] at h2
    cases h2
    exact ⟨h, fun x hx _ => hx⟩
  unfold process at hp
  split at hp
  · exact same rfl hp
  split at hp
  · exact same rfl hp
  split at hp
  · exact same rfl hp
  split at hp
  · split at hp
    · obtain ⟨s', h1, h2⟩ := Option.map_eq_some_iff.1 hp
      cases h2
      obtain ⟨k1, k2⟩ := keep_safe h h1
      exact ⟨k1, fun x hx _ => by rw [k2]; exact hx⟩
    · exact same rfl hp
  · cases ha : accept e inp st b with
    | none => rw [ha] at hp; simp at hp
    | some q =>
      obtain ⟨s1, ok1⟩ := q
      obtain ⟨a1, a2⟩ := accept_safe h ha
      have g1 : Good e inp st s1 := ⟨a1, fun x hx hpr => a2 x hx (hpr _)⟩
      rw [ha] at hp
      cases ok1 with
      | false => cases hp; exact g1
      | true =>
        simp only at hp
        obtain ⟨s', h1, h2⟩ := Option.map_eq_some_iff.1 hp
        cases h2
        exact g1.trans (resolve_safe a1 h1)

/-! ## The commands -/

theorem disconnectFrom_safe {h : Nat} {c : List Blk} {idx : List Node} :
    skel (disconnectFrom h idx c).1 = skel idx ∧ (disconnectFrom h idx c).2 <:+ c ∧ (c ≠ [] → (disconnectFrom h idx c).2 ≠ []) := by
  induction c generalizing idx with
  | nil => exact ⟨rfl, List.suffix_refl _, fun h => absurd rfl h⟩
  | cons b r ih =>
    unfold disconnectFrom
    split
    · split
      · rename_i hr
        subst hr
        exact ⟨skel_mark _ _, List.suffix_refl _, by simp⟩
      · rename_i hr
        obtain ⟨i1, i2, i3⟩ := ih (idx := mark idx b.hash)
        exact ⟨by rw [i1, skel_mark], i2.trans (List.suffix_cons _ _), fun _ => i3 hr⟩
    · exact ⟨rfl, List.suffix_refl _, by simp⟩

theorem invalidateCmd_safe {e : Env} {prot : List Nat} {st s : St} {h : Nat} {flush : Bool} (hs : Safe e st)
    (hc : invalidateCmd e prot st h flush = some s) : Safe e s := by
  unfold invalidateCmd at hc
  split at hc
  · obtain ⟨i1, i2, i3⟩ := disconnectFrom_safe (h := h) (c := st.active) (idx := mark st.idx h)
    rw [skel_mark] at i1
    have i3 := i3 hs.sound.ne
    have safe1 : Safe e (invalidate st h flush) := by
      refine ⟨?_, ?_, hs.sound.suffix i2 i3, ?_, ?_⟩ <;> simp only [invalidate, i1]
      · exact hs.tree
      · exact hs.tree.suffix hs.act i2 i3
      · exact hs.most
      · cases flush with
        | true => simp
        | false => exact hs.forks
    exact (activate_safe safe1 (by simp) hc).1
  · cases hc; exact hs

theorem reconsiderCmd_safe {e : Env} {prot : List Nat} {st s : St} {h : Nat} {children : Bool} (hs : Safe e st)
    (hc : reconsiderCmd e prot st h children = some s) : Safe e s ∧ ∀ x ∈ st.active, x.hash ∈ prot → x ∈ s.active := by
  unfold reconsiderCmd at hc
  split at hc
  · cases hc; exact ⟨hs, fun x hx _ => hx⟩
  · rename_i n _
    have hk := skel_reconsider st n.path h children
    have safe1 : Safe e (reconsider st n.path h children) :=
      ⟨by rw [hk]; exact hs.tree, by rw [hk]; exact hs.act, hs.sound, by rw [hk]; exact hs.most, by rw [hk]; exact hs.forks⟩
    obtain ⟨a1, -, a3⟩ := activate_safe safe1 (by simp) hc
    exact ⟨a1, a3⟩

end Verif.Intake
