import Verif.Intake.Operator

/-! # Proofs about `invalidateblock` and `reconsiderblock` -/

namespace Verif.Intake

/-- The rules with one block forbidden. -/
def Env.ban (e : Env) (h : Nat) : Env := { e with exec := fun c b => e.exec c b && b.hash != h }

theorem linked_ban {e : Env} {h : Nat} (p : List Blk) : Linked (e.ban h) p ↔ Linked e p := by
  induction p with
  | nil => exact Iff.rfl
  | cons b p ih => cases p with
    | nil => exact Iff.rfl
    | cons q r => unfold Linked; rw [ih]; exact Iff.rfl

theorem tree_ban {e : Env} {h : Nat} {sk : List (List Blk)} (t : Tree e sk) : Tree (e.ban h) sk :=
  ⟨t.nodup, t.closed, fun p hp => (linked_ban p).2 (t.linked p hp)⟩

theorem tree_unban {e : Env} {h : Nat} {sk : List (List Blk)} (t : Tree (e.ban h) sk) : Tree e sk :=
  ⟨t.nodup, t.closed, fun p hp => (linked_ban p).1 (t.linked p hp)⟩

theorem inChain_cons (b : Blk) (p : List Blk) (h : Nat) : inChain (b :: p) h = (b.hash == h || inChain p h) := by
  simp [inChain]

theorem sound_ban {e : Env} {h : Nat} (hg : e.genesis.hash ≠ h) (p : List Blk) :
    Sound (e.ban h) p ↔ Sound e p ∧ inChain p h = false := by
  induction p with
  | nil => simp [Sound]
  | cons b p ih => cases p with
    | nil =>
      simp only [Sound, inChain, List.any_cons, List.any_nil, Bool.or_false, beq_eq_false_iff_ne]
      constructor
      · intro hb; exact ⟨hb, by rw [show b = e.genesis from hb]; exact hg⟩
      · exact fun hb => hb.1
    | cons q r =>
      rw [inChain_cons, Bool.or_eq_false_iff]
      unfold Sound
      rw [ih]
      simp only [Env.ban, Bool.and_eq_true, bne_iff_ne, beq_eq_false_iff_ne]
      tauto

theorem connect_ban {e : Env} {h : Nat} (c : List Blk) {b : Blk} (hb : b.hash ≠ h) : connect (e.ban h) c b = connect e c b := by
  have : (b.hash != h) = true := by simpa using hb
  simp only [connect, Env.ban, this, Bool.and_true]

theorem inChain_suffix {p s : List Blk} {h : Nat} (hs : s <:+ p) (hp : inChain p h = false) : inChain s h = false := by
  rw [Bool.eq_false_iff] at hp ⊢
  intro hc
  apply hp
  obtain ⟨b, hb, e⟩ := List.any_eq_true.1 hc
  exact List.any_eq_true.2 ⟨b, hs.subset hb, e⟩

theorem upTo_sub (c : List Blk) (k : Nat) : upTo c k <:+ c := by
  unfold upTo
  split
  · exact List.drop_suffix _ _
  · exact List.nil_suffix

theorem connectAll_ban {e : Env} {h fuel : Nat} {st : St} (hm : inChain st.most h = false) :
    connectAll (e.ban h) fuel st = connectAll e fuel st := by
  induction fuel generalizing st with
  | zero => rfl
  | succ fuel ih =>
    unfold connectAll
    cases hmo : st.most with
    | nil => rfl
    | cons t r =>
      simp only
      cases hu : upTo (t :: r) st.active.length with
      | nil => rfl
      | cons b anc =>
        have hs : b :: anc <:+ st.most := by rw [hmo, ← hu]; exact upTo_sub _ _
        have hb : b.hash ≠ h := by
          have := inChain_suffix hs hm
          rw [inChain_cons, Bool.or_eq_false_iff] at this
          simpa using this.1
        simp only [connect_ban _ hb]
        rw [ih (st := { st with active := b :: st.active, most := t :: r }) (hmo ▸ hm)]

/-! ## The flag of the block stays set while the chain is chosen -/

theorem isFailed_markIf {idx : List Node} {P : Nat → Bool} {h : Nat} (hf : isFailed idx h = true) :
    isFailed (markIf idx P) h = true := by
  obtain ⟨n, hn, h1, h2⟩ := isFailed_iff.1 hf
  rw [isFailed_iff]
  by_cases hp : P n.blk.hash = true
  · exact ⟨{ n with failed := true, cand := false }, mem_markIf.2 ⟨n, hn, by simp [hp]⟩, h1, rfl⟩
  · exact ⟨n, mem_markIf.2 ⟨n, hn, by simp [hp]⟩, h1, h2⟩

theorem pick_failed {active : List Blk} {fuel h : Nat} {idx idx' : List Node} {r : Option Node} (hf : isFailed idx h = true)
    (hp : pick active fuel idx = some (idx', r)) : isFailed idx' h = true := by
  induction fuel generalizing idx with
  | zero => simp [pick] at hp
  | succ fuel ih =>
    unfold pick at hp
    cases hb : best idx with
    | none => rw [hb] at hp; simp only [Option.some.injEq, Prod.mk.injEq] at hp; rw [← hp.1]; exact hf
    | some n =>
      rw [hb] at hp
      simp only at hp
      split at hp
      · refine ih ?_ hp
        rw [markAll_eq]; exact isFailed_markIf hf
      · simp only [Option.some.injEq, Prod.mk.injEq] at hp; rw [← hp.1]; exact hf

theorem isFailed_uncand {idx : List Node} {h x : Nat} : isFailed (uncand idx x) h = isFailed idx h := by
  unfold isFailed uncand upd
  rw [List.any_map]
  congr 1
  funext n
  simp only [Function.comp_apply]
  split <;> rfl

theorem popMost_suffix (idx : List Node) (most : List Blk) : (popMost idx most).2 <:+ most := by
  induction most generalizing idx with
  | nil => exact List.suffix_refl _
  | cons b r ih =>
    unfold popMost
    split
    · exact (ih _).trans (List.suffix_cons _ _)
    · exact List.suffix_refl _

theorem popMost_failed (idx : List Node) (most : List Blk) (h : Nat) : isFailed (popMost idx most).1 h = isFailed idx h := by
  induction most generalizing idx with
  | nil => rfl
  | cons b r ih =>
    unfold popMost
    split
    · rw [ih, isFailed_uncand]
    · rfl

theorem pick_best {active : List Blk} {fuel : Nat} {idx idx' : List Node} {n : Node}
    (hp : pick active fuel idx = some (idx', some n)) : best idx' = some n := by
  induction fuel generalizing idx with
  | zero => simp [pick] at hp
  | succ fuel ih =>
    unfold pick at hp
    cases hb : best idx with
    | none => rw [hb] at hp; simp at hp
    | some m =>
      rw [hb] at hp
      simp only at hp
      split at hp
      · exact ih hp
      · simp only [Option.some.injEq, Prod.mk.injEq] at hp; rw [← hp.1, hb, hp.2]

/-- where the chosen chain comes from -/
theorem findMost_from {st s : St} {h : Nat} (hf : findMost st = some s) (hfl : isFailed st.idx h = true) :
    isFailed s.idx h = true ∧ (s.most = (popMost st.idx st.most).2 ∨ ∃ n, best s.idx = some n ∧ s.most = n.path) := by
  unfold findMost at hf
  have hp := popMost_failed st.idx st.most h
  rw [hfl] at hp
  cases hpm : popMost st.idx st.most with
  | mk idx most =>
    rw [hpm] at hf hp
    simp only at hf hp
    cases hpk : pick st.active (idx.length + 1) idx with
    | none => rw [hpk] at hf; simp at hf
    | some q =>
      obtain ⟨idx', o⟩ := q
      have hfl' := pick_failed hp hpk
      rw [hpk] at hf
      cases o with
      | none =>
        simp only [Option.some.injEq] at hf
        subst hf
        exact ⟨hfl', Or.inl rfl⟩
      | some n =>
        have hbest : best idx' = some n := pick_best hpk
        simp only at hf
        split at hf
        · cases hf; exact ⟨hfl', Or.inr ⟨n, hbest, rfl⟩⟩
        · split at hf
          · cases hf; exact ⟨hfl', Or.inr ⟨n, hbest, rfl⟩⟩
          · cases hf; exact ⟨hfl', Or.inl rfl⟩

/-! ## Choosing the chain with one block flagged -/

theorem activate_ban {e : Env} {h fuel : Nat} {prot : List Nat} {st : St} (hg : e.genesis.hash ≠ h) (inv : Inv (e.ban h) st)
    (hfl : isFailed st.idx h = true) (hm : inChain (popMost st.idx st.most).2 h = false) :
    activate e prot none fuel st = activate (e.ban h) prot none fuel st := by
  induction fuel generalizing st with
  | zero => rfl
  | succ fuel ih =>
    obtain ⟨idx, n, t, r, f1, f2, f3, f4, f5, f6, f7, f8⟩ := findMost_spec inv
    obtain ⟨hfl', hfrom⟩ := findMost_from f1 hfl
    obtain ⟨hn, hnc⟩ := best_mem f5
    have ht : Tree (e.ban h) (skel idx) := by rw [f2]; exact inv.tree
    have inv1 : Inv (e.ban h) { st with idx := idx, most := t :: r } :=
      ⟨ht, f3, by show _ ∈ skel idx; rw [f2]; exact inv.act, inv.sound, f4, by show ∀ p ∈ st.forks, _; rw [f2]; exact inv.forks⟩
    have hact : inChain st.active h = false := ((sound_ban hg _).1 inv.sound).2
    have hmost : inChain (t :: r) h = false := by
      rcases hfrom with hfrom | ⟨m, hb, hfrom⟩
      · simp only at hfrom; rw [hfrom]; exact hm
      · simp only at hfrom hb
        rw [f5] at hb
        cases hb
        rw [hfrom, Bool.eq_false_iff]
        intro hc
        obtain ⟨b, hb, hbh⟩ := List.any_eq_true.1 hc
        have hbh : b.hash = h := by simpa using hbh
        have hsp := List.takeWhile_append_dropWhile (p := fun b => !inChain st.active b.hash) (l := n.path)
        rw [← hsp] at hb
        rcases List.mem_append.1 hb with hb | hb
        · rw [Bool.eq_false_iff] at f6
          exact f6 (List.any_eq_true.2 ⟨b, hb, by rw [hbh]; exact hfl'⟩)
        · have h1 := (dropWhile_inChain ht (mem_path hn) inv1.act).1
          have h2 := inChain_suffix h1 hact
          rw [Bool.eq_false_iff] at h2
          exact h2 (List.any_eq_true.2 ⟨b, hb, by simpa using hbh⟩)
    unfold activate
    rw [f1]
    simp only [List.cons_ne_nil, if_false, reduceCtorEq]
    by_cases hp : ((st.active.takeWhile fun x => !inChain (t :: r) x.hash).any fun x => prot.contains x.hash) = true
    · rw [if_pos hp, if_pos hp]; rfl
    · rw [if_neg hp, if_neg hp]
      obtain ⟨d1, d2, d3⟩ := dropWhile_inChain ht inv1.act f4
      have inv2 : Inv (e.ban h) { st with idx := idx, most := t :: r, active := st.active.dropWhile fun x => !inChain (t :: r) x.hash } :=
        ⟨ht, f3, ht.suffix inv1.act d2 d3, inv.sound.suffix d2 d3, f4, inv1.forks⟩
      obtain ⟨res, c1, c2⟩ := connectAll_spec (fuel := (t :: r).length + 1) inv2 d1 (by simp only; omega)
      rw [← connectAll_ban (e := e) (h := h) hmost, c1]
      rcases c2 with ⟨rfl, c2⟩ | ⟨x, p, rfl, c2, c3, c4, c5⟩
      · rfl
      · simp only
        have hxk : x :: p ∈ skel idx := ht.suffix f4 c2 (by simp)
        have inv3 : Inv (e.ban h) { st with idx := mark idx x.hash, most := t :: r, active := p } := by
          refine ⟨?_, flags_mark ht f3 hxk c5, ?_, c4, ?_, ?_⟩ <;> simp only [skel_mark]
          · exact ht
          · exact ht.suffix hxk (List.suffix_cons _ _) c4.ne
          · exact f4
          · exact inv1.forks
        exact ih inv3 (by simp only; rw [mark_eq]; exact isFailed_markIf hfl') (inChain_suffix (popMost_suffix _ _) hmost)

/-! ## Kept states play no part -/

def St.setF (f : List (Nat × List Blk)) (st : St) : St := { st with forks := f }

theorem findMost_setF (f : List (Nat × List Blk)) (st : St) : findMost (st.setF f) = (findMost st).map (St.setF f) := by
  unfold findMost
  simp only [St.setF]
  cases popMost st.idx st.most with
  | mk idx most =>
    simp only
    cases pick st.active (idx.length + 1) idx with
    | none => rfl
    | some q =>
      obtain ⟨idx', o⟩ := q
      cases o with
      | none => rfl
      | some n =>
        cases most with
        | nil => rfl
        | cons t r => simp only; split <;> rfl

theorem connectAll_setF (e : Env) (f : List (Nat × List Blk)) (fuel : Nat) (st : St) :
    connectAll e fuel (st.setF f) = (connectAll e fuel st).map fun q => (q.1.setF f, q.2) := by
  induction fuel generalizing st with
  | zero => rfl
  | succ fuel ih =>
    obtain ⟨idx, active, most, forks, orphans, byPrev, oset⟩ := st
    show connectAll e (fuel + 1) ⟨idx, active, most, f, orphans, byPrev, oset⟩ = _
    unfold connectAll
    cases most with
    | nil => rfl
    | cons t r =>
      simp only
      by_cases h1 : inChain active t.hash = true
      · rw [if_pos h1, if_pos h1]; rfl
      · rw [if_neg h1, if_neg h1]
        cases upTo (t :: r) active.length with
        | nil => rfl
        | cons b anc =>
          simp only
          by_cases h2 : tipHash anc ≠ tipHash active
          · rw [if_pos h2, if_pos h2]; rfl
          · rw [if_neg h2, if_neg h2]
            by_cases h3 : connect e active b = true
            · rw [if_pos h3, if_pos h3]
              exact ih ⟨idx, b :: active, t :: r, forks, orphans, byPrev, oset⟩
            · rw [if_neg h3, if_neg h3]; rfl

theorem activate_setF (e : Env) (prot : List Nat) (f : List (Nat × List Blk)) (fuel : Nat) (st : St) :
    activate e prot none fuel (st.setF f) = (activate e prot none fuel st).map (St.setF f) := by
  induction fuel generalizing st with
  | zero => rfl
  | succ fuel ih =>
    unfold activate
    rw [findMost_setF]
    cases findMost st with
    | none => rfl
    | some s =>
      simp only [Option.map_some]
      by_cases h1 : s.most = []
      · rw [if_pos h1, if_pos (show (s.setF f).most = [] from h1)]; rfl
      · rw [if_neg h1, if_neg (show ¬ (s.setF f).most = [] from h1)]
        by_cases h2 : ((s.active.takeWhile fun x => !inChain s.most x.hash).any fun x => prot.contains x.hash) = true
        · rw [if_pos h2, if_pos (show (((s.setF f).active.takeWhile fun x => !inChain (s.setF f).most x.hash).any fun x => prot.contains x.hash) = true from h2)]
          rfl
        · rw [if_neg h2, if_neg (show ¬ (((s.setF f).active.takeWhile fun x => !inChain (s.setF f).most x.hash).any fun x => prot.contains x.hash) = true from h2)]
          have h3 := connectAll_setF e f (s.most.length + 1) { s with active := s.active.dropWhile fun x => !inChain s.most x.hash }
          have h4 : connectAll e ((s.setF f).most.length + 1)
              { s.setF f with active := (s.setF f).active.dropWhile fun x => !inChain (s.setF f).most x.hash } = _ := h3
          rw [h4]
          cases connectAll e (s.most.length + 1) { s with active := s.active.dropWhile fun x => !inChain s.most x.hash } with
          | none => rfl
          | some q =>
            obtain ⟨s', ok⟩ := q
            cases ok with
            | true => rfl
            | false => exact ih s'

/-! ## Marking and disconnecting -/

theorem flags_ban {e : Env} {h : Nat} (hg : e.genesis.hash ≠ h) {idx : List Node} (fl : Flags e idx) : Flags (e.ban h) idx :=
  ⟨fun n hn hf hs => fl.failed n hn hf ((sound_ban hg _).1 hs).1, fl.cand⟩

theorem disconnectFrom_spec {e : Env} {h : Nat} (hg : e.genesis.hash ≠ h) {c : List Blk} {idx : List Node} (t : Tree e (skel idx))
    (fl : Flags (e.ban h) idx) (hc : c ∈ skel idx) (hs : Sound e c) :
    skel (disconnectFrom h idx c).1 = skel idx ∧ Flags (e.ban h) (disconnectFrom h idx c).1 ∧
      (disconnectFrom h idx c).2 <:+ c ∧ (disconnectFrom h idx c).2 ≠ [] ∧ inChain (disconnectFrom h idx c).2 h = false ∧
      (∀ x, isFailed idx x = true → isFailed (disconnectFrom h idx c).1 x = true) ∧
      ∀ b p, b :: p <:+ c → inChain (b :: p) h = true → isFailed (disconnectFrom h idx c).1 b.hash = true := by
  induction c generalizing idx with
  | nil => exact absurd hs (by simp [Sound])
  | cons b r ih =>
    unfold disconnectFrom
    by_cases hin : inChain (b :: r) h = true
    · rw [if_pos hin]
      by_cases hr : r = []
      · exfalso
        subst hr
        have : b = e.genesis := hs
        rw [inChain_cons, this] at hin
        simp [inChain] at hin
        exact hg hin
      · rw [if_neg hr]
        have hu : ¬ Sound (e.ban h) (b :: r) := by
          rw [sound_ban hg]; rintro ⟨-, h2⟩; rw [hin] at h2; simp at h2
        have hrk : r ∈ skel idx := t.suffix hc (List.suffix_cons _ _) hr
        obtain ⟨i1, i2, i3, i4, i5, i6, i7⟩ := ih (idx := mark idx b.hash) (by rw [skel_mark]; exact t)
          (flags_mark (tree_ban t) fl hc hu) (by rw [skel_mark]; exact hrk) (hs.tail hr)
        refine ⟨by rw [i1, skel_mark], i2, i3.trans (List.suffix_cons _ _), i4, i5, fun x hx => i6 x ?_, fun y p hp hy => ?_⟩
        · rw [mark_eq]; exact isFailed_markIf hx
        · rcases List.suffix_cons_iff.1 hp with hp | hp
          · cases hp
            apply i6
            obtain ⟨m, hm, rfl, rfl⟩ := node_of hc
            rw [isFailed_iff, mark_eq]
            exact ⟨{ m with failed := true, cand := false }, mem_markIf.2 ⟨m, hm, by simp⟩, rfl, rfl⟩
          · exact i7 y p hp hy
    · rw [if_neg hin]
      refine ⟨rfl, fl, List.suffix_refl _, by simp, by simpa using hin, fun x hx => hx, fun y p hp hy => ?_⟩
      have := inChain_suffix hp (by simpa using hin)
      rw [hy] at this; simp at this

theorem popMost_avoids {h : Nat} {idx : List Node} {m : List Blk}
    (hf : ∀ b p, b :: p <:+ m → inChain (b :: p) h = true → isFailed idx b.hash = true) :
    inChain (popMost idx m).2 h = false := by
  induction m generalizing idx with
  | nil => rfl
  | cons b r ih =>
    unfold popMost
    by_cases hb : isFailed idx b.hash = true
    · rw [if_pos hb]
      apply ih
      intro y p hp hy
      rw [isFailed_uncand]
      exact hf y p (hp.trans (List.suffix_cons _ _)) hy
    · rw [if_neg hb]
      rw [Bool.eq_false_iff]
      exact fun hc => hb (hf b r (List.suffix_refl _) hc)

/-- What `invalidateblock` leaves behind, the kept states apart. -/
theorem invalidate_core {e : Env} {h : Nat} (hg : e.genesis.hash ≠ h) {st : St} (inv : Inv e st) (hh : has st.idx h = true)
    (hm : st.most = st.active ∨ inChain st.most h = false) (prot : List Nat) (flush : Bool) :
    ∃ s0, invalidateCmd e prot st h flush = some (s0.setF (if flush then [] else st.forks)) ∧
      Chosen (e.ban h) prot none ((invalidate st h flush).setF []) s0 ∧ skel s0.idx = skel st.idx ∧
      (invalidate st h flush).active <:+ st.active ∧ inChain (invalidate st h flush).active h = false := by
  obtain ⟨q, hq, hqt⟩ := has_iff.1 hh
  cases q with
  | nil => simp [tipHash] at hqt
  | cons b anc =>
  have hbh : b.hash = h := by simpa [tipHash_cons] using hqt
  have hu : ¬ Sound (e.ban h) (b :: anc) := by
    rw [sound_ban hg, inChain_cons, hbh]; simp
  have fl0 : Flags (e.ban h) (mark st.idx h) := by
    rw [← hbh]; rw [← hbh] at hu hg; exact flags_mark (tree_ban inv.tree) (flags_ban hg inv.flags) hq hu
  obtain ⟨i1, i2, i3, i4, i5, i6, i7⟩ := disconnectFrom_spec hg (idx := mark st.idx h) (by rw [skel_mark]; exact inv.tree) fl0
    (by rw [skel_mark]; exact inv.act) inv.sound
  rw [skel_mark] at i1
  have hfail : isFailed (mark st.idx h) h = true := by
    obtain ⟨m, hm, rfl, rfl⟩ := node_of hq
    rw [isFailed_iff, mark_eq]
    exact ⟨{ m with failed := true, cand := false }, mem_markIf.2 ⟨m, hm, by simp [hbh]⟩, hbh, rfl⟩
  have inv' : Inv (e.ban h) ((invalidate st h flush).setF []) := by
    refine ⟨?_, i2, ?_, ?_, ?_, by simp [St.setF]⟩
    · show Tree _ (skel (disconnectFrom h (mark st.idx h) st.active).1)
      rw [i1]; exact tree_ban inv.tree
    · show (disconnectFrom h (mark st.idx h) st.active).2 ∈ skel (disconnectFrom h (mark st.idx h) st.active).1
      rw [i1]; exact inv.tree.suffix inv.act i3 i4
    · exact (sound_ban hg _).2 ⟨inv.sound.suffix i3 i4, i5⟩
    · show st.most ∈ skel (disconnectFrom h (mark st.idx h) st.active).1
      rw [i1]; exact inv.most
  have hpop : inChain (popMost ((invalidate st h flush).setF []).idx ((invalidate st h flush).setF []).most).2 h = false := by
    apply popMost_avoids
    intro y p hp hy
    rcases hm with hm | hm
    · exact i7 y p (hm ▸ hp) hy
    · have := inChain_suffix (show y :: p <:+ st.most from hp) hm
      rw [hy] at this; simp at this
  have hlen : (disconnectFrom h (mark st.idx h) st.active).1.length = st.idx.length := by
    have := congrArg List.length i1
    simpa [skel] using this
  obtain ⟨s0, a1, a2⟩ := activate_spec (prot := prot) (ob := none) (fuel := st.idx.length + 1) inv' (by simp)
    (by have := open_le_length (disconnectFrom h (mark st.idx h) st.active).1
        show open_ (disconnectFrom h (mark st.idx h) st.active).1 < _
        omega)
  refine ⟨s0, ?_, a2, a2.skel.trans i1, i3, i5⟩
  rw [← activate_ban hg inv' (i6 h hfail) hpop] at a1
  have hset : invalidate st h flush = ((invalidate st h flush).setF []).setF (if flush then [] else st.forks) := rfl
  rw [invalidateCmd, if_pos hh, hset, activate_setF, a1]
  rfl

/-! ## Taking the mark back -/

theorem skel_reconsider (st : St) (p : List Blk) (h : Nat) (c : Bool) : skel (reconsider st p h c).idx = skel st.idx := by
  unfold skel reconsider
  rw [List.map_map]
  apply List.map_congr_left
  intro n _
  simp only [Function.comp_apply]
  split <;> rfl

/-- After the block and its descendants are reconsidered the flags are again those of the rules. -/
theorem reconsider_inv {e : Env} {h : Nat} (hg : e.genesis.hash ≠ h) {s : St} (inv : Inv (e.ban h) s) (f : List (Nat × List Blk))
    (hf : ∀ p ∈ f, p.2 ∈ skel s.idx ∧ Sound e p.2 ∧ tipHash p.2 = some p.1) (p : List Blk) :
    Inv e (reconsider (s.setF f) p h true) := by
  have hk := skel_reconsider (s.setF f) p h true
  refine ⟨?_, ⟨?_, ?_⟩, ?_, ((sound_ban hg _).1 inv.sound).1, ?_, ?_⟩
  · rw [hk]; exact tree_unban inv.tree
  · intro n hn hfl hs
    obtain ⟨m, hm, rfl⟩ := List.mem_map.1 hn
    by_cases hc : cleared p h true m = true
    · rw [if_pos hc] at hfl; simp at hfl
    · rw [if_neg hc] at hfl hs
      simp only [cleared, hfl, Bool.true_and, Bool.not_eq_true, Bool.or_eq_false_iff] at hc
      exact inv.flags.failed m hm hfl ((sound_ban hg _).2 ⟨hs, hc.1⟩)
  · intro n hn
    obtain ⟨m, hm, rfl⟩ := List.mem_map.1 hn
    by_cases hc : cleared p h true m = true
    · rw [if_pos hc]; rfl
    · rw [if_neg hc]; exact inv.flags.cand m hm
  · rw [hk]; exact inv.act
  · rw [hk]; exact inv.most
  · rw [hk]; exact hf

end Verif.Intake
