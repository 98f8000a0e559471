import Verif.Intake.Props
import Verif.Intake.OperatorLemmas

/-!
# The commands `invalidateblock` and `reconsiderblock`: properties
-/
namespace Verif.Intake

/-! ## C166: invalidating a block -/

/-- After any history of delivered blocks, invalidating a known block other than genesis succeeds and leaves an active chain that does
not contain the block, obeys all rules, contains all protected blocks it contained before up to the invalidated one, and, if nothing
is protected, is the longest known sound chain without the block. Missing: a chain that contains the block must not be remembered as
the best while another one is active, see `invalidate_remembered_violated`. -/
theorem invalidate_partial {e : Env} {st : St} (hr : Reachable e st) {h : Nat} (hk : has st.idx h = true) (hg : e.genesis.hash ≠ h)
    (hm : st.most = st.active ∨ inChain st.most h = false) (prot : List Nat) (flush : Bool) :
    ∃ s, invalidateCmd e prot st h flush = some s ∧ inChain s.active h = false ∧ Linked e s.active ∧ Sound e s.active ∧
      (∀ x ∈ st.active, inChain st.active h = false → x.hash ∈ prot → x ∈ s.active) ∧
      (prot = [] → ∀ p, Known s p → Sound e p → inChain p h = false → ¬ Prefer s p s.active) := by
  obtain ⟨s0, c1, c2, c3, c4, c5⟩ := invalidate_core hg hr.inv.1 hk hm prot flush
  have hs := (sound_ban hg _).1 c2.inv.sound
  refine ⟨_, c1, hs.2, (linked_ban _).1 (c2.inv.tree.linked _ c2.inv.act), hs.1, ?_, ?_⟩
  · intro x hx hn hp
    refine c2.kept x ?_ hp
    show x ∈ (disconnectFrom h (mark st.idx h) st.active).2
    cases hact : st.active with
    | nil => rw [hact] at hx; simp at hx
    | cons b r =>
      rw [hact] at hn hx
      unfold disconnectFrom
      rw [hn]
      exact hx
  · rintro rfl p hp hsp hin
    rcases c2.best with ⟨q, hq, x, hx, hxp, -⟩ | ⟨n, hn, ha, -⟩
    · simp at hxp
    · exact no_better c2.inv hn ha hp ((sound_ban hg _).2 ⟨hsp, hin⟩)

/-- As long as nothing is protected the missing condition always holds. -/
theorem invalidate_unprotected {e : Env} {vs : List Event} (hv : ∀ v ∈ vs, ∀ a, v.inp.prot a = []) {st : St}
    (hr : run e vs (init e) = some st) {h : Nat} (hk : has st.idx h = true) (hg : e.genesis.hash ≠ h) (flush : Bool) :
    ∃ s, invalidateCmd e [] st h flush = some s ∧ inChain s.active h = false ∧ Linked e s.active ∧ Sound e s.active ∧
      ∀ p, Known s p → Sound e p → inChain p h = false → ¬ Prefer s p s.active := by
  obtain ⟨-, n, -, -, hm⟩ := run_best hv hr
  obtain ⟨s, a, b, c, d, -, f⟩ := invalidate_partial ⟨vs, hr⟩ hk hg (Or.inl hm) [] flush
  exact ⟨s, a, b, c, d, f rfl⟩

theorem best_unique {e : Env} {s t : St} (is : Inv e s) (it : Inv e t) (hk : skel s.idx = skel t.idx) {m n : Node}
    (hm : best s.idx = some m) (ham : s.active = m.path) (hn : best t.idx = some n) (han : t.active = n.path) : s.active = t.active := by
  have hsk : s.active ∈ skel t.idx := hk ▸ is.act
  have htk : t.active ∈ skel s.idx := hk ▸ it.act
  have h1 := no_better is hm ham (mem_skel.1 htk) it.sound
  have h2 := no_better it hn han (mem_skel.1 hsk) is.sound
  obtain ⟨hmm, -⟩ := best_mem hm
  obtain ⟨hnn, -⟩ := best_mem hn
  have hseq : ∀ x, seqOf s.idx x = seqOf t.idx x := seqOf_skel hk
  unfold Prefer at h1 h2
  rw [not_or] at h1 h2
  have hlen : s.active.length = t.active.length := by omega
  have hts : tipHash s.active = some m.blk.hash := by rw [ham]; rfl
  have htt : tipHash t.active = some n.blk.hash := by rw [han]; rfl
  have g1 : ¬ seqOf s.idx n.blk.hash < seqOf s.idx m.blk.hash := fun hc => h1.2 ⟨hlen, _, _, hts, htt, hc⟩
  have g2 : ¬ seqOf t.idx m.blk.hash < seqOf t.idx n.blk.hash := fun hc => h2.2 ⟨hlen.symm, _, _, htt, hts, hc⟩
  rw [← hseq, ← hseq] at g2
  have hmin : ∃ k ∈ s.idx, k.blk.hash = n.blk.hash := by
    obtain ⟨k, hk', hp⟩ := mem_skel.1 (han ▸ htk)
    exact ⟨k, hk', congrArg Blk.hash (List.cons.inj hp).1⟩
  have := seqOf_inj ⟨m, hmm, rfl⟩ hmin (by omega : seqOf s.idx m.blk.hash = seqOf s.idx n.blk.hash)
  exact is.tree.eq is.act htk (by rw [hts, htt, this])

/-- Reconsidering the block with its descendants undoes the command: the node is back on the chain it was on. -/
theorem reconsider_undoes {e : Env} {vs : List Event} (hv : ∀ v ∈ vs, ∀ a, v.inp.prot a = []) {st : St}
    (hr : run e vs (init e) = some st) {h : Nat} (hk : has st.idx h = true) (hg : e.genesis.hash ≠ h) (flush : Bool) :
    ∃ s t, invalidateCmd e [] st h flush = some s ∧ reconsiderCmd e [] s h true = some t ∧ t.active = st.active := by
  obtain ⟨inv, n, hn, ha, hm⟩ := run_best hv hr
  obtain ⟨s0, c1, c2, c3, c4, c5⟩ := invalidate_core hg inv hk (Or.inl hm) [] flush
  have hf : ∀ p ∈ (if flush then [] else st.forks), p.2 ∈ skel s0.idx ∧ Sound e p.2 ∧ tipHash p.2 = some p.1 := by
    intro p hp
    rw [c3]
    cases flush with
    | true => simp at hp
    | false => exact inv.forks p hp
  have hk' : has (s0.setF (if flush then [] else st.forks)).idx h = true := by
    obtain ⟨q, hq, ht⟩ := has_iff.1 hk
    exact has_iff.2 ⟨q, by show q ∈ skel s0.idx; rw [c3]; exact hq, ht⟩
  obtain ⟨m, hmf⟩ := Option.isSome_iff_exists.1 hk'
  have inv2 := reconsider_inv hg c2.inv _ hf m.path
  obtain ⟨t, a1, a2⟩ := activate_spec (prot := []) (ob := none)
    (fuel := (s0.setF (if flush then [] else st.forks)).idx.length + 1) inv2 (by simp)
    (by
      have h1 := open_le_length (reconsider (s0.setF (if flush then [] else st.forks)) m.path h true).idx
      have h2 : (reconsider (s0.setF (if flush then [] else st.forks)) m.path h true).idx.length =
        (s0.setF (if flush then [] else st.forks)).idx.length := List.length_map _
      omega)
  refine ⟨_, t, c1, ?_, ?_⟩
  · unfold reconsiderCmd
    rw [hmf]
    exact a1
  · rcases a2.best with ⟨q, hq, x, hx, hxp, -⟩ | ⟨k, hkb, hka, -⟩
    · simp at hxp
    · refine best_unique a2.inv inv ?_ hkb hka hn ha
      rw [a2.skel, skel_reconsider]
      exact c3

/-- The remembered best chain is dropped only if its last block is flagged. Here blocks 12 and 13 are longer than the active block 2,
which is final; once it no longer is, invalidating block 12 makes the node switch to the chain with block 12. -/
theorem invalidate_remembered_violated : ∃ st s,
    run demo ([blk 2 1 1 0, blk 12 1 1 0, blk 13 12 2 0].map fun b => ⟨{ calm with prot := fun _ => [2] }, true, b⟩) (init demo) = some st ∧
    tips (some st) = some [2, 1] ∧ invalidateCmd demo [] st 12 false = some s ∧ tips (some s) = some [13, 12, 1] ∧
    isFailed s.idx 12 = true ∧ isFailed s.idx 13 = true :=
  ⟨_, _, rfl, by decide +kernel, rfl, by decide +kernel, by decide +kernel, by decide +kernel⟩

/-- The mark does not last: after block 2 is invalidated, the next block on top of its branch clears all marks and the node is back on
the branch. -/
theorem invalidate_lasts_violated : ∃ st s t, deliver [blk 2 1 1 0, blk 3 2 2 0] = some st ∧
    invalidateCmd demo [] st 2 false = some s ∧ tips (some s) = some [1] ∧
    process demo calm true s (blk 4 3 3 0) = some (t, true) ∧ tips (some t) = some [4, 3, 2, 1] :=
  ⟨_, _, _, rfl, rfl, by decide +kernel, rfl, by decide +kernel⟩

example : tips ((deliver [blk 2 1 1 0, blk 3 2 2 0, blk 12 1 1 0]).bind fun st => invalidateCmd demo [] st 2 false) = some [12, 1] ∧
    tips (((deliver [blk 2 1 1 0, blk 3 2 2 0, blk 12 1 1 0]).bind fun st => invalidateCmd demo [] st 2 false).bind
      fun s => reconsiderCmd demo [] s 2 true) = some [3, 2, 1] ∧
    tips (((deliver [blk 2 1 1 0, blk 3 2 2 0, blk 12 1 1 0]).bind fun st => invalidateCmd demo [] st 2 false).bind
      fun s => reconsiderCmd demo [] s 2 false) = some [2, 1] := by decide +kernel

end Verif.Intake
