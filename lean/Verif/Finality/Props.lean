import Verif.Finality.Lemmas
import Mathlib.Data.Finset.Card

/-!
# Properties of finality

* C46 "a globally final block is never reverted by reorganisation, and the finality height never decreases": proved over all
  sequences of accepted blocks (with arbitrary competing chains and failures), messages, forgotten entries and restarts. The
  height returned by `getfinblockcount` drops to 0 at a restart.
* C47 "finality needs a two-thirds quorum of distinct producers": proved when all delegate lists have the same size; violated
  when the number of delegates changes, because the required number comes from another block than the one finalised - named by
  the message, or the tip.
-/
namespace Verif.Finality
open Verif.Chain

variable {t : Tree}

/-! ## C46 -/

theorem start_inv (p : Ptr) : Inv t (start p) :=
  ⟨fun _ h => (by cases h), fun _ h => (by cases h), fun _ _ h => (by cases h), fun _ h => (by cases h), fun _ _ h => (by cases h)⟩

theorem low_tip (wf : W t) {s : St} (hi : Inv t s) : s.glob = none → ∀ B, s.stored = some B → t.height B ≤ t.height s.tip :=
  fun _ B hB => anc_height wf (hi.storedOn B hB)

theorem step_spec (wf : W t) (hh : ∀ p, t.height p < 2147483648) {s : St} (hi : Inv t s) (e : Ev) :
    Inv t (step t s e) ∧ ∀ B, s.stored = some B → ∃ B', (step t s e).stored = some B' ∧ Anc t B B' := by
  have keep : ∀ s' : St, s'.stored = s.stored → ∀ B, s.stored = some B → ∃ B', s'.stored = some B' ∧ Anc t B B' :=
    fun s' h B hB => ⟨B, h.trans hB, anc_refl t B⟩
  cases e with
  | accept new finOK rounds dels ownC ownF =>
    obtain ⟨i1, e1, g1, _, _, _⟩ := activate_spec wf new finOK rounds s hi
    simp only [step, accept]
    split
    · rename_i htip
      generalize activate t new finOK rounds s = s1 at *
      have i2 : Inv t (saveMiners s1 new dels) ∧ (saveMiners s1 new dels).stored = s1.stored ∧
          (saveMiners s1 new dels).tip = s1.tip := by
        unfold saveMiners
        split
        · exact ⟨i1, rfl, rfl⟩
        · exact ⟨⟨i1.storedOn, i1.glob, i1.cache, i1.locOn, i1.low⟩, rfl, rfl⟩
      generalize saveMiners s1 new dels = s2 at *
      obtain ⟨i2, e2, t2⟩ := i2
      have i3 : Inv t (sendConfirm t s2 ownC new) := sendConfirm_inv i2 ownC new (by rw [← htip, ← t2]; exact low_tip wf i2)
      have e3 : (sendConfirm t s2 ownC new).stored = s2.stored ∧ (sendConfirm t s2 ownC new).tip = s2.tip := by
        unfold sendConfirm; split <;> exact ⟨rfl, rfl⟩
      generalize sendConfirm t s2 ownC new = s3 at *
      split
      · exact ⟨i3, keep s3 (e3.1.trans (e2.trans e1))⟩
      · rename_i s4 h4
        obtain ⟨q, k, b, hq, hb, he, hu⟩ := updLocalIdx_some h4
        have i4 := updLocal_inv wf i3 hu
        obtain ⟨b', _, hs4⟩ := updLocal_some hu
        have e4 : s4.stored = s3.stored ∧ s4.tip = s3.tip := by rw [hs4]; exact ⟨rfl, rfl⟩
        have i5 : Inv t (sendFinality t s4 ownF new) :=
          sendFinality_inv i4 ownF new (by rw [← htip, ← t2, ← e3.2, ← e4.2]; exact low_tip wf i4)
        have e5 : (sendFinality t s4 ownF new).stored = s4.stored := by
          unfold sendFinality; split <;> rfl
        generalize sendFinality t s4 ownF new = s5 at *
        cases h6 : updGlobalIdx t s5 dels new with
        | none => exact ⟨i5, keep s5 (e5.trans (e4.1.trans (e3.1.trans (e2.trans e1))))⟩
        | some s6 =>
          obtain ⟨q', k', c, _, hc, he', hu'⟩ := updGlobalIdx_some h6
          obtain ⟨a1, a2, a3⟩ := updGlobal_inv wf i5 hu' hc (enough_store he')
          refine ⟨a1, fun B hB => ⟨c, a2, a3 B ?_⟩⟩
          rw [e5, e4.1, e3.1, e2, e1]; exact hB
    · exact ⟨i1, keep _ e1⟩
  | confirm dels own m sigOK =>
    simp only [step, onConfirm]
    by_cases hc : checkMsg t s m sigOK = true
    · rw [if_pos hc]
      obtain ⟨hb, hm, _⟩ := checkMsg_tip wf (hh _) hc
      have i1 : Inv t { s with confirms := (save s.confirms m.block m).1 } := by
        refine ⟨hi.storedOn, hi.glob, hi.cache, hi.locOn, ?_⟩
        intro hg B hB c hcs hca
        rcases hcs with h | h
        · exact hi.low hg B hB c (Or.inl h) hca
        · rcases (save_dom _ _ _ _).1 h with h | rfl
          · exact hi.low hg B hB c (Or.inr h) hca
          · rw [hb]; exact low_tip wf hi hg B hB
      generalize hs1 : ({ s with confirms := (save s.confirms m.block m).1 } : St) = s1 at *
      have e1 : s1.stored = s.stored ∧ s1.tip = s.tip := by rw [← hs1]; exact ⟨rfl, rfl⟩
      split
      · exact ⟨i1, keep _ e1.1⟩
      · rename_i s2 h2
        obtain ⟨ha, he, hu⟩ := updLocalMsg_some wf h2
        have i2 := updLocal_inv wf i1 hu
        obtain ⟨b', hb', hs2⟩ := updLocal_some hu
        rw [ha] at hb'; cases hb'
        have e2 : s2.stored = s1.stored ∧ s2.tip = s1.tip ∧ s2.locFin t = some m.block := by rw [hs2]; exact ⟨rfl, rfl, rfl⟩
        rw [e2.2.2]
        refine ⟨sendFinality_inv i2 own _ ?_, keep _ ?_⟩
        · rw [hb, ← e1.2, ← e2.2.1]; exact low_tip wf i2
        · have : (sendFinality t s2 own m.block).stored = s2.stored := by unfold sendFinality; split <;> rfl
          show (sendFinality t s2 own m.block).stored = _
          rw [this, e2.1, e1.1]
    · rw [if_neg hc]; exact ⟨hi, keep s rfl⟩
  | finality dels m sigOK =>
    simp only [step, onFinality]
    by_cases hc : checkMsg t s m sigOK = true
    · rw [if_pos hc]
      obtain ⟨hb, hm, _⟩ := checkMsg_tip wf (hh _) hc
      have i1 : Inv t { s with finals := (save s.finals m.block m).1 } := by
        refine ⟨hi.storedOn, hi.glob, hi.cache, hi.locOn, ?_⟩
        intro hg B hB c hcs hca
        rcases hcs with h | h
        · rcases (save_dom _ _ _ _).1 h with h | rfl
          · exact hi.low hg B hB c (Or.inl h) hca
          · rw [hb]; exact low_tip wf hi hg B hB
        · exact hi.low hg B hB c (Or.inr h) hca
      generalize hs1 : ({ s with finals := (save s.finals m.block m).1 } : St) = s1 at *
      have e1 : s1.stored = s.stored := by rw [← hs1]
      cases h2 : updGlobalMsg t s1 dels m (save s.finals m.block m).2 with
      | none => exact ⟨i1, keep _ e1⟩
      | some s2 =>
        obtain ⟨ha, he, hu⟩ := updGlobalMsg_some wf h2
        obtain ⟨a1, a2, a3⟩ := updGlobal_inv wf i1 hu ha (enough_store he)
        exact ⟨a1, fun B hB => ⟨m.block, a2, a3 B (e1.trans hB)⟩⟩
    · rw [if_neg hc]; exact ⟨hi, keep s rfl⟩
  | forgetC b =>
    refine ⟨forget_inv hi rfl rfl rfl rfl rfl ?_, keep _ rfl⟩
    intro c hc
    rcases hc with h | h
    · exact Or.inl h
    · right; intro hn; apply h; simp [step, hn]
  | forgetF b =>
    refine ⟨forget_inv hi rfl rfl rfl rfl rfl ?_, keep _ rfl⟩
    intro c hc
    rcases hc with h | h
    · left; intro hn; apply h; simp [step, hn]
    · exact Or.inr h
  | forgetL b => exact ⟨forget_inv hi rfl rfl rfl rfl rfl (fun _ h => h), keep _ rfl⟩
  | restart =>
    refine ⟨⟨hi.storedOn, fun _ h => (by cases h), fun _ _ h => (by cases h), fun _ h => (by cases h), ?_⟩, keep _ rfl⟩
    intro _ B _ c hc
    rcases hc with h | h <;> exact absurd rfl h

theorem run_spec (wf : W t) (hh : ∀ p, t.height p < 2147483648) : ∀ (es : List Ev) (s : St), Inv t s →
    Inv t (run t es s) ∧ ∀ B, s.stored = some B → ∃ B', (run t es s).stored = some B' ∧ Anc t B B'
  | [], s, hi => ⟨hi, fun B hB => ⟨B, hB, anc_refl t B⟩⟩
  | e :: es, s, hi => by
    obtain ⟨i1, k1⟩ := step_spec wf hh hi e
    obtain ⟨i2, k2⟩ := run_spec wf hh es _ i1
    refine ⟨i2, fun B hB => ?_⟩
    obtain ⟨B1, h1, a1⟩ := k1 B hB
    obtain ⟨B2, h2, a2⟩ := k2 B1 h1
    exact ⟨B2, h2, anc_trans a1 a2⟩

/-- C46: a block that was recorded as globally final at any time is on the active chain for ever after, whatever chains win,
messages arrive, blocks fail to connect, and across restarts. -/
theorem final_never_reverted (wf : W t) (hh : ∀ p, t.height p < 2147483648) (p : Ptr) (es1 es2 : List Ev) (B : Ptr)
    (hB : (run t es1 (start p)).stored = some B) : Anc t B (run t es2 (run t es1 (start p))).tip := by
  obtain ⟨i1, _⟩ := run_spec wf hh es1 (start p) (start_inv p)
  obtain ⟨i2, k2⟩ := run_spec wf hh es2 _ i1
  obtain ⟨B', h, a⟩ := k2 B hB
  exact anc_trans a (i2.storedOn B' h)

/-- C46: the recorded final block only moves forward along one chain, so its height never decreases, across restarts too. -/
theorem final_height_never_decreases (wf : W t) (hh : ∀ p, t.height p < 2147483648) (p : Ptr) (es1 es2 : List Ev) (B : Ptr)
    (hB : (run t es1 (start p)).stored = some B) :
    ∃ B', (run t es2 (run t es1 (start p))).stored = some B' ∧ Anc t B B' ∧ t.height B ≤ t.height B' := by
  obtain ⟨i1, _⟩ := run_spec wf hh es1 (start p) (start_inv p)
  obtain ⟨_, k2⟩ := run_spec wf hh es2 _ i1
  obtain ⟨B', h, a⟩ := k2 B hB
  exact ⟨B', h, a, anc_height wf a⟩

/-- C46: what `GetGlobalFinIndex` reports as final is the recorded block or genesis, and the local final block is on the active
chain, always. -/
theorem reported_final_on_chain (wf : W t) (hh : ∀ p, t.height p < 2147483648) (p : Ptr) (es : List Ev) :
    (∀ b, (run t es (start p)).globFin t = some b → Anc t b (run t es (start p)).tip ∧
      ((run t es (start p)).stored = some b ∨ t.height b = 0)) ∧
    (∀ b, (run t es (start p)).locFin t = some b → Anc t b (run t es (start p)).tip) := by
  obtain ⟨i, _⟩ := run_spec wf hh es (start p) (start_inv p)
  generalize run t es (start p) = s at *
  constructor
  · intro b hb
    unfold St.globFin at hb
    split at hb
    · rename_i g hg
      cases hb
      have := i.glob b hg
      exact ⟨i.storedOn b this, Or.inl this⟩
    · obtain ⟨a, h0⟩ := at_some wf hb
      exact ⟨a, Or.inr h0⟩
  · intro b hb
    unfold St.locFin at hb
    split at hb
    · rename_i g hg
      cases hb; exact i.locOn b hg
    · exact (at_some wf hb).1

/-! ## C47 -/

/-- Message stores: every block's messages name the block, come from different producers, and were sent. -/
structure StoreOK (sent : Msg → Prop) (store : Ptr → Option (List Msg)) : Prop where
  block : ∀ b ms, store b = some ms → ∀ m ∈ ms, m.block = b ∧ m.height = t.height b ∧ sent m
  nodup : ∀ b ms, store b = some ms → (ms.map (·.miner)).Nodup

theorem save_ok {sent : Msg → Prop} {store : Ptr → Option (List Msg)} (h : StoreOK (t := t) sent store) {b : Ptr} {m : Msg}
    (hb : m.block = b) (hh : m.height = t.height b) (hs : sent m) : StoreOK (t := t) sent (save store b m).1 := by
  unfold save
  cases hst : store b with
  | none =>
    refine ⟨fun x ms hx m' hm' => ?_, fun x ms hx => ?_⟩
    · dsimp only at hx
      by_cases hxb : x = b
      · rw [if_pos hxb] at hx
        cases hx
        rw [List.mem_singleton.1 hm', hxb]; exact ⟨hb, hh, hs⟩
      · rw [if_neg hxb] at hx; exact h.block x ms hx m' hm'
    · dsimp only at hx
      by_cases hxb : x = b
      · rw [if_pos hxb] at hx; cases hx; simp
      · rw [if_neg hxb] at hx; exact h.nodup x ms hx
  | some ms0 =>
    have hmem : ∀ m' ∈ (if ms0.any (same m) then ms0 else m :: ms0), m'.block = b ∧ m'.height = t.height b ∧ sent m' := by
      intro m' hm'
      split at hm'
      · exact h.block b ms0 hst m' hm'
      · rcases List.mem_cons.1 hm' with rfl | hm'
        · exact ⟨hb, hh, hs⟩
        · exact h.block b ms0 hst m' hm'
    have hnd : ((if ms0.any (same m) then ms0 else m :: ms0).map (·.miner)).Nodup := by
      split
      · exact h.nodup b ms0 hst
      · rename_i hany
        rw [List.map_cons, List.nodup_cons]
        refine ⟨?_, h.nodup b ms0 hst⟩
        intro hmm
        obtain ⟨m1, h1, h2⟩ := List.mem_map.1 hmm
        apply hany
        rw [List.any_eq_true]
        obtain ⟨hb1, hh1, _⟩ := h.block b ms0 hst m1 h1
        exact ⟨m1, h1, by simp [same, hb1, hh1, hb, hh, h2]⟩
    refine ⟨fun x ms hx m' hm' => ?_, fun x ms hx => ?_⟩
    · dsimp only at hx
      by_cases hxb : x = b
      · rw [if_pos hxb] at hx; cases hx; rw [hxb]; exact hmem m' hm'
      · rw [if_neg hxb] at hx; exact h.block x ms hx m' hm'
    · dsimp only at hx
      by_cases hxb : x = b
      · rw [if_pos hxb] at hx; cases hx; exact hnd
      · rw [if_neg hxb] at hx; exact h.nodup x ms hx

theorem saveOwn_ok {sent : Msg → Prop} {b p : Ptr} : ∀ (ds : List Nat) (store : Ptr → Option (List Msg)),
    StoreOK (t := t) sent store → (∀ d ∈ ds, sent ⟨d, t.height b, b, p⟩) → StoreOK (t := t) sent (saveOwn b p (t.height b) ds store)
  | [], _, h, _ => h
  | d :: ds, store, h, hs => by
    exact saveOwn_ok ds _ (save_ok h rfl rfl (hs d (List.mem_cons_self ..))) (fun d' hd' => hs d' (List.mem_cons_of_mem _ hd'))

theorem reaches_count (n : Nat) (miners : List Nat) : ∀ (ms : List Msg) (c : Nat), reaches n miners c ms = true →
    n ≤ c + (ms.filter (fun m => decide (m.miner ∈ miners))).length
  | [], c, h => by cases h
  | m :: ms, c, h => by
    simp only [reaches] at h
    by_cases hm : m.miner ∈ miners
    · simp only [hm, if_true] at h
      have hf : ((m :: ms).filter (fun m => decide (m.miner ∈ miners))) = m :: ms.filter (fun m => decide (m.miner ∈ miners)) := by
        simp [hm]
      rw [hf, List.length_cons]
      split at h
      · omega
      · have := reaches_count n miners ms (c + 1) h; omega
    · simp only [hm, if_false] at h
      have hf : ((m :: ms).filter (fun m => decide (m.miner ∈ miners))) = ms.filter (fun m => decide (m.miner ∈ miners)) := by
        simp [hm]
      rw [hf]
      split at h
      · omega
      · exact reaches_count n miners ms c h

/-- At least `n` different producers of the list `L` sent a message for `b`. -/
def Quorum (sent : Msg → Prop) (b : Ptr) (L : List Nat) (n : Nat) : Prop :=
  ∃ Q : List Nat, Q.Nodup ∧ (∀ d ∈ Q, d ∈ L) ∧ n ≤ Q.length ∧ ∀ d ∈ Q, ∃ m, sent m ∧ m.miner = d ∧ m.block = b

theorem enough_quorum {sent : Msg → Prop} {store : Ptr → Option (List Msg)} {lists : Ptr → Option (List Nat)} {n : Nat} {b : Ptr}
    (h : StoreOK (t := t) sent store) (he : enough t store lists n b = true) :
    ∃ p L, t.prev b = some p ∧ lists p = some L ∧ Quorum sent b L n := by
  unfold enough at he
  split at he
  · cases he
  · rename_i p hp
    split at he
    · rename_i ms L hms hL
      simp only [Bool.and_eq_true] at he
      have hc := reaches_count n L ms 0 he.2
      refine ⟨p, L, hp, hL, (ms.filter (fun m => decide (m.miner ∈ L))).map (·.miner), ?_, ?_, ?_, ?_⟩
      · exact (h.nodup b ms hms).sublist ((List.filter_sublist (l := ms)).map _)
      · intro d hd
        obtain ⟨m, hm, rfl⟩ := List.mem_map.1 hd
        simpa using (List.mem_filter.1 hm).2
      · rw [List.length_map]; omega
      · intro d hd
        obtain ⟨m, hm, rfl⟩ := List.mem_map.1 hd
        have := h.block b ms hms m (List.mem_filter.1 hm).1
        exact ⟨m, this.2.2, rfl, this.1⟩
    · cases he

/-- What the events must satisfy: messages with a valid signature, and own messages of producers whose key is held, were sent. -/
def EvSent (t : Tree) (sent : Msg → Prop) : Ev → Prop
  | .accept _ _ _ _ ownC ownF => ∀ o, (ownC = some o ∨ ownF = some o) → ∀ d ∈ o, ∀ h b p, sent ⟨d, h, b, p⟩
  | .confirm _ own m sigOK => (sigOK = true → sent m) ∧ ∀ o, own = some o → ∀ d ∈ o, ∀ h b p, sent ⟨d, h, b, p⟩
  | .finality _ m sigOK => sigOK = true → sent m
  | _ => True

/-- The delegate list given with an event has `n` entries. -/
def EvSize (n : Nat) : Ev → Prop
  | .accept _ _ _ dels _ _ => dels.length = n
  | .confirm dels _ _ _ => dels.length = n
  | .finality dels _ _ => dels.length = n
  | _ => True

structure MInv (t : Tree) (sent : Msg → Prop) (s : St) : Prop where
  c : StoreOK (t := t) sent s.confirms
  f : StoreOK (t := t) sent s.finals

/-- Every saved list has `n` entries. -/
def ListsSize (n : Nat) (s : St) : Prop := ∀ b l, s.lists b = some l → l.length = n

theorem sendConfirm_m {sent : Msg → Prop} {s : St} (h : MInv t sent s) {own : Option (List Nat)} {b : Ptr}
    (ho : ∀ o, own = some o → ∀ d ∈ o, ∀ h b p, sent ⟨d, h, b, p⟩) : MInv t sent (sendConfirm t s own b) := by
  unfold sendConfirm
  split
  · rename_i o p
    refine ⟨saveOwn_ok _ _ h.c ?_, h.f⟩
    intro d hd
    exact ho _ rfl d (by simpa using (List.mem_filter.1 hd).2) _ _ _
  · exact h

theorem sendFinality_m {sent : Msg → Prop} {s : St} (h : MInv t sent s) {own : Option (List Nat)} {b : Ptr}
    (ho : ∀ o, own = some o → ∀ d ∈ o, ∀ h b p, sent ⟨d, h, b, p⟩) : MInv t sent (sendFinality t s own b) := by
  unfold sendFinality
  split
  · rename_i o p
    refine ⟨h.c, saveOwn_ok _ _ h.f ?_⟩
    intro d hd
    exact ho _ rfl d (by simpa using (List.mem_filter.1 hd).2) _ _ _
  · exact h

/-- The required count of an event, over all blocks it may be taken from. -/
def NeedsAtLeast (s : St) (dels : List Nat) (k : Nat) : Prop := ∀ p, k ≤ need s dels p

/-- The block `b` was finalised with at least `k` distinct producers of its own list. -/
def Finalised (t : Tree) (sent : Msg → Prop) (s : St) (k : Nat) (b : Ptr) : Prop :=
  ∃ p L, t.prev b = some p ∧ s.lists p = some L ∧ Quorum sent b L k

theorem Quorum.mono {sent : Msg → Prop} {b : Ptr} {L : List Nat} {n k : Nat} (h : Quorum sent b L n) (hk : k ≤ n) :
    Quorum sent b L k := by
  obtain ⟨Q, a, b, c, d⟩ := h
  exact ⟨Q, a, b, by omega, d⟩

theorem need_uniform {n : Nat} {s : St} {dels : List Nat} (hl : ListsSize n s) (hd : dels.length = n) (p : Ptr) :
    need s dels p = n - n / 3 := by
  unfold need
  split
  · rename_i l h; rw [hl p l h]
  · rw [hd]

theorem guardWalk_loc (wf : W t) (most : Ptr) (stale : Bool) : ∀ (n : Nat) (s : St),
    (guardWalk t most stale n s).2.loc = s.loc ∨ ∀ b, (guardWalk t most stale n s).2.loc = some b → t.height b = 0
  | 0, s => Or.inl rfl
  | h + 1, s => by
    simp only [guardWalk]
    split
    · exact Or.inl rfl
    · rename_i c _
      split
      · exact Or.inl rfl
      · split
        · exact Or.inl rfl
        · have hs1 : ∀ s1, s1 = (if s.locFin t = some c then { s with loc := s.at t 0 } else s) →
              s1.loc = s.loc ∨ ∀ b, s1.loc = some b → t.height b = 0 := by
            intro s1 e
            split at e
            · right; intro b hb; rw [e] at hb; exact (at_some (h := 0) wf (s := s) hb).2
            · left; rw [e]
          have h1 := hs1 _ rfl
          generalize (if s.locFin t = some c then { s with loc := s.at t 0 } else s : St) = s1 at *
          have l2 := (globHash_alike (t := t) s1).2
          split
          · dsimp only; rw [l2]; exact h1
          · rcases guardWalk_loc wf most stale h (s1.globHash t).2 with e | e
            · rw [e, l2]; exact h1
            · exact Or.inr e

theorem activate_loc (wf : W t) (new : Ptr) (finOK : Bool) : ∀ (rs : List Round) (s : St),
    (activate t new finOK rs s).loc = s.loc ∨ ∀ b, (activate t new finOK rs s).loc = some b → t.height b = 0
  | [], s => Or.inl rfl
  | r :: rs, s => by
    have h1 := guardWalk_loc wf r.most r.stale (t.height s.tip + 1) s
    simp only [activate]
    rcases hg : guardWalk t r.most r.stale (t.height s.tip + 1) s with ⟨v, s1⟩
    rw [hg] at h1
    dsimp only at h1
    cases v with
    | done => exact h1
    | protect => dsimp only; split <;> exact h1
    | proceed =>
      dsimp only
      split
      · split
        · rcases activate_loc wf new finOK rs _ with e | e
          · rw [e]; exact h1
          · exact Or.inr e
        · exact h1
      · exact h1

/-- What one event does to the final blocks, with the number `k` any lower bound of the required counts. -/
theorem step_quorum (wf : W t) (hh : ∀ p, t.height p < 2147483648) {sent : Msg → Prop} {n : Nat} {s : St} (hi : Inv t s)
    (hm : MInv t sent s) (hl : ListsSize n s) (e : Ev) (hs : EvSent t sent e) (hn : EvSize n e) :
    MInv t sent (step t s e) ∧ ListsSize n (step t s e) ∧
    ((step t s e).glob = s.glob ∨ (step t s e).glob = none ∨
      ∃ b, (step t s e).glob = some b ∧ Finalised t sent (step t s e) (n - n / 3) b) ∧
    ((step t s e).loc = s.loc ∨ (∀ b, (step t s e).loc = some b → t.height b = 0) ∨
      ∃ b, (step t s e).loc = some b ∧ Finalised t sent (step t s e) (n - n / 3) b) := by
  cases e with
  | accept new finOK rounds dels ownC ownF =>
    have hdel : dels.length = n := hn
    have hsC : ∀ o, ownC = some o → ∀ d ∈ o, ∀ h b p, sent ⟨d, h, b, p⟩ := fun o h => hs o (Or.inl h)
    have hsF : ∀ o, ownF = some o → ∀ d ∈ o, ∀ h b p, sent ⟨d, h, b, p⟩ := fun o h => hs o (Or.inr h)
    obtain ⟨i1, e1, g1, c1, f1, l1⟩ := activate_spec wf new finOK rounds s hi
    have lo1 := activate_loc wf new finOK rounds s
    simp only [step, accept]
    generalize activate t new finOK rounds s = s1 at *
    have m1 : MInv t sent s1 := ⟨by rw [c1]; exact hm.c, by rw [f1]; exact hm.f⟩
    have n1 : ListsSize n s1 := by intro b l; rw [l1]; exact hl b l
    split
    · have m2 : MInv t sent (saveMiners s1 new dels) ∧ ListsSize n (saveMiners s1 new dels) ∧
          (saveMiners s1 new dels).glob = s1.glob ∧ (saveMiners s1 new dels).loc = s1.loc := by
        unfold saveMiners
        split
        · exact ⟨m1, n1, rfl, rfl⟩
        · refine ⟨⟨m1.c, m1.f⟩, ?_, rfl, rfl⟩
          intro b l hbl
          dsimp only at hbl
          split at hbl
          · cases hbl; exact hdel
          · exact n1 b l hbl
      generalize saveMiners s1 new dels = s2 at *
      obtain ⟨m2, n2, g2, lo2⟩ := m2
      have m3 := sendConfirm_m m2 (b := new) hsC
      have e3 : (sendConfirm t s2 ownC new).glob = s2.glob ∧ (sendConfirm t s2 ownC new).loc = s2.loc ∧
          (sendConfirm t s2 ownC new).lists = s2.lists := by unfold sendConfirm; split <;> exact ⟨rfl, rfl, rfl⟩
      generalize sendConfirm t s2 ownC new = s3 at *
      have n3 : ListsSize n s3 := by intro b l; rw [e3.2.2]; exact n2 b l
      have lo3 : s3.loc = s.loc ∨ ∀ b, s3.loc = some b → t.height b = 0 := by rw [e3.2.1, lo2]; exact lo1
      have g3 : s3.glob = s.glob := by rw [e3.1, g2, g1]
      split
      · exact ⟨m3, n3, Or.inl g3, by rcases lo3 with h | h; exacts [Or.inl h, Or.inr (Or.inl h)]⟩
      · rename_i s4 h4
        obtain ⟨q, k, b, hq, hb, he, hu⟩ := updLocalIdx_some h4
        obtain ⟨b', hb', hs4⟩ := updLocal_some hu
        rw [hb] at hb'; cases hb'
        rw [need_uniform n3 hdel] at he
        obtain ⟨p, L, hp, hL, hQ⟩ := enough_quorum m3.c he
        have m4 : MInv t sent s4 := by rw [hs4]; exact ⟨m3.c, m3.f⟩
        have m5 := sendFinality_m m4 (b := new) hsF
        have e5 : (sendFinality t s4 ownF new).glob = s4.glob ∧ (sendFinality t s4 ownF new).loc = s4.loc ∧
          (sendFinality t s4 ownF new).lists = s4.lists := by unfold sendFinality; split <;> exact ⟨rfl, rfl, rfl⟩
        generalize sendFinality t s4 ownF new = s5 at *
        have hl5 : s5.lists = s3.lists := by rw [e5.2.2, hs4]
        have hlo5 : s5.loc = some b := by rw [e5.2.1, hs4]
        have hg5 : s5.glob = s.glob := by rw [e5.1, hs4]; exact g3
        have n5 : ListsSize n s5 := by intro b l; rw [hl5]; exact n3 b l
        have fin5 : Finalised t sent s5 (n - n / 3) b := ⟨p, L, hp, by rw [hl5]; exact hL, hQ⟩
        cases h6 : updGlobalIdx t s5 dels new with
        | none => exact ⟨m5, n5, Or.inl hg5, Or.inr (Or.inr ⟨b, hlo5, fin5⟩)⟩
        | some s6 =>
          obtain ⟨q', k', c, _, hc, he', hu'⟩ := updGlobalIdx_some h6
          obtain ⟨c', g', hc', _, _, hs6⟩ := updGlobal_some hu'
          rw [hc] at hc'; cases hc'
          rw [need_uniform n5 hdel] at he'
          obtain ⟨p', L', hp', hL', hQ'⟩ := enough_quorum m5.f he'
          rw [Option.getD_some, hs6]
          exact ⟨⟨m5.c, m5.f⟩, n5, Or.inr (Or.inr ⟨c, rfl, p', L', hp', hL', hQ'⟩), Or.inr (Or.inr ⟨b, hlo5, fin5⟩)⟩
    · exact ⟨m1, n1, Or.inl g1, by rcases lo1 with h | h; exacts [Or.inl h, Or.inr (Or.inl h)]⟩
  | confirm dels own m sigOK =>
    have hdel : dels.length = n := hn
    simp only [step, onConfirm]
    by_cases hc : checkMsg t s m sigOK = true
    · rw [if_pos hc]
      obtain ⟨hb, hmh, hsig⟩ := checkMsg_tip wf (hh _) hc
      have m1 : MInv t sent { s with confirms := (save s.confirms m.block m).1 } :=
        ⟨save_ok hm.c rfl (by rw [hmh, hb]) (hs.1 hsig), hm.f⟩
      generalize hs1 : ({ s with confirms := (save s.confirms m.block m).1 } : St) = s1 at *
      have e1 : s1.glob = s.glob ∧ s1.loc = s.loc ∧ s1.lists = s.lists := by rw [← hs1]; exact ⟨rfl, rfl, rfl⟩
      have n1 : ListsSize n s1 := by intro b l; rw [e1.2.2]; exact hl b l
      split
      · exact ⟨m1, n1, Or.inl e1.1, Or.inl e1.2.1⟩
      · rename_i s2 h2
        obtain ⟨ha, he, hu⟩ := updLocalMsg_some wf h2
        obtain ⟨b', hb', hs2⟩ := updLocal_some hu
        rw [ha] at hb'; cases hb'
        rw [need_uniform n1 hdel] at he
        obtain ⟨p, L, hp, hL, hQ⟩ := enough_quorum m1.c he
        have e2 : s2.locFin t = some m.block := by rw [hs2]; rfl
        rw [e2]
        dsimp only
        have m2 : MInv t sent s2 := by rw [hs2]; exact ⟨m1.c, m1.f⟩
        have m3 := sendFinality_m m2 (b := m.block) hs.2
        have e3 : (sendFinality t s2 own m.block).glob = s2.glob ∧ (sendFinality t s2 own m.block).loc = s2.loc ∧
          (sendFinality t s2 own m.block).lists = s2.lists := by unfold sendFinality; split <;> exact ⟨rfl, rfl, rfl⟩
        generalize sendFinality t s2 own m.block = s3 at *
        have hl3 : s3.lists = s1.lists := by rw [e3.2.2, hs2]
        exact ⟨m3, by intro b l; rw [hl3]; exact n1 b l, Or.inl (by rw [e3.1, hs2]; exact e1.1),
          Or.inr (Or.inr ⟨m.block, by rw [e3.2.1, hs2], p, L, hp, by rw [hl3]; exact hL, hQ⟩)⟩
    · rw [if_neg hc]; exact ⟨hm, hl, Or.inl rfl, Or.inl rfl⟩
  | finality dels m sigOK =>
    have hdel : dels.length = n := hn
    simp only [step, onFinality]
    by_cases hc : checkMsg t s m sigOK = true
    · rw [if_pos hc]
      obtain ⟨hb, hmh, hsig⟩ := checkMsg_tip wf (hh _) hc
      have m1 : MInv t sent { s with finals := (save s.finals m.block m).1 } :=
        ⟨hm.c, save_ok hm.f rfl (by rw [hmh, hb]) (hs hsig)⟩
      generalize hs1 : ({ s with finals := (save s.finals m.block m).1 } : St) = s1 at *
      have e1 : s1.glob = s.glob ∧ s1.loc = s.loc ∧ s1.lists = s.lists := by rw [← hs1]; exact ⟨rfl, rfl, rfl⟩
      have n1 : ListsSize n s1 := by intro b l; rw [e1.2.2]; exact hl b l
      cases h2 : updGlobalMsg t s1 dels m (save s.finals m.block m).2 with
      | none => exact ⟨m1, n1, Or.inl e1.1, Or.inl e1.2.1⟩
      | some s2 =>
        obtain ⟨ha, he, hu⟩ := updGlobalMsg_some wf h2
        obtain ⟨c', g', hc', _, _, hs2⟩ := updGlobal_some hu
        rw [ha] at hc'; cases hc'
        rw [need_uniform n1 hdel] at he
        obtain ⟨p, L, hp, hL, hQ⟩ := enough_quorum m1.f he
        rw [Option.getD_some, hs2]
        exact ⟨⟨m1.c, m1.f⟩, n1, Or.inr (Or.inr ⟨m.block, rfl, p, L, hp, hL, hQ⟩), Or.inl e1.2.1⟩
    · rw [if_neg hc]; exact ⟨hm, hl, Or.inl rfl, Or.inl rfl⟩
  | forgetC b =>
    refine ⟨⟨⟨fun x ms hx => ?_, fun x ms hx => ?_⟩, hm.f⟩, hl, Or.inl rfl, Or.inl rfl⟩
    · simp only [step] at hx; split at hx
      · cases hx
      · exact hm.c.block x ms hx
    · simp only [step] at hx; split at hx
      · cases hx
      · exact hm.c.nodup x ms hx
  | forgetF b =>
    refine ⟨⟨hm.c, ⟨fun x ms hx => ?_, fun x ms hx => ?_⟩⟩, hl, Or.inl rfl, Or.inl rfl⟩
    · simp only [step] at hx; split at hx
      · cases hx
      · exact hm.f.block x ms hx
    · simp only [step] at hx; split at hx
      · cases hx
      · exact hm.f.nodup x ms hx
  | forgetL b =>
    refine ⟨⟨hm.c, hm.f⟩, ?_, Or.inl rfl, Or.inl rfl⟩
    intro x l hx
    simp only [step] at hx; split at hx
    · cases hx
    · exact hl x l hx
  | restart =>
    refine ⟨⟨⟨fun _ _ hx => (by cases hx), fun _ _ hx => (by cases hx)⟩, ⟨fun _ _ hx => (by cases hx), fun _ _ hx => (by cases hx)⟩⟩,
      fun _ _ hx => (by cases hx), Or.inr (Or.inl rfl), Or.inr (Or.inl fun _ hx => (by cases hx))⟩

/-- C47, partial: while every delegate list has `n` entries, each event that finalises a block, locally or globally, does so with
at least `n - n/3` different members of the list that follows the block's predecessor having sent a message for that block.
Missing: changes of the number of delegates (violated below). -/
theorem quorum_partial (wf : W t) (hh : ∀ p, t.height p < 2147483648) {sent : Msg → Prop} {n : Nat} (p : Ptr) :
    ∀ (es : List Ev) (e : Ev), (∀ x ∈ es ++ [e], EvSent t sent x ∧ EvSize n x) →
    let s := run t es (start p)
    ((step t s e).glob = s.glob ∨ (step t s e).glob = none ∨
      ∃ b, (step t s e).glob = some b ∧ Finalised t sent (step t s e) (n - n / 3) b) ∧
    ((step t s e).loc = s.loc ∨ (∀ b, (step t s e).loc = some b → t.height b = 0) ∨
      ∃ b, (step t s e).loc = some b ∧ Finalised t sent (step t s e) (n - n / 3) b) := by
  have key : ∀ (es : List Ev) (s : St), (∀ x ∈ es, EvSent t sent x ∧ EvSize n x) → Inv t s → MInv t sent s → ListsSize n s →
      Inv t (run t es s) ∧ MInv t sent (run t es s) ∧ ListsSize n (run t es s) := by
    intro es
    induction es with
    | nil => intro s _ a b c; exact ⟨a, b, c⟩
    | cons x xs ih =>
      intro s hx a b c
      obtain ⟨h1, h2⟩ := hx x (List.mem_cons_self ..)
      obtain ⟨q1, q2, _, _⟩ := step_quorum wf hh a b c x h1 h2
      exact ih _ (fun y hy => hx y (List.mem_cons_of_mem _ hy)) (step_spec wf hh a x).1 q1 q2
  intro es e hx
  obtain ⟨a, b, c⟩ := key es (start p) (fun x h => hx x (List.mem_append_left _ h)) (start_inv p)
    ⟨⟨fun _ _ h => (by cases h), fun _ _ h => (by cases h)⟩, ⟨fun _ _ h => (by cases h), fun _ _ h => (by cases h)⟩⟩ (fun _ _ h => (by cases h))
  obtain ⟨h1, h2⟩ := hx e (by simp)
  exact (step_quorum wf hh a b c e h1 h2).2.2

/-- C47, quorum intersection: two blocks finalised by quorums of the same list share at least a third of the list. -/
theorem quorums_intersect {sent : Msg → Prop} {b c : Ptr} {L : List Nat} (hL : L.Nodup)
    (hb : Quorum sent b L (L.length - L.length / 3)) (hc : Quorum sent c L (L.length - L.length / 3)) :
    ∃ Q : List Nat, Q.Nodup ∧ L.length ≤ 3 * Q.length ∧
      ∀ d ∈ Q, d ∈ L ∧ (∃ m, sent m ∧ m.miner = d ∧ m.block = b) ∧ ∃ m, sent m ∧ m.miner = d ∧ m.block = c := by
  obtain ⟨A, a1, a2, a3, a4⟩ := hb
  obtain ⟨B, b1, b2, b3, b4⟩ := hc
  refine ⟨A.filter (fun d => decide (d ∈ B)), a1.filter _, ?_, ?_⟩
  · have h1 : (A.toFinset ∪ B.toFinset).card ≤ L.toFinset.card := by
      apply Finset.card_le_card
      intro x hx
      rcases Finset.mem_union.1 hx with h | h
      · exact List.mem_toFinset.2 (a2 x (List.mem_toFinset.1 h))
      · exact List.mem_toFinset.2 (b2 x (List.mem_toFinset.1 h))
    have h2 := Finset.card_union_add_card_inter A.toFinset B.toFinset
    have h3 : (A.toFinset ∩ B.toFinset).card = (A.filter (fun d => decide (d ∈ B))).length := by
      rw [← List.toFinset_card_of_nodup (a1.filter _)]
      congr 1
      ext x; simp
    rw [List.toFinset_card_of_nodup a1, List.toFinset_card_of_nodup b1, h3] at h2
    rw [List.toFinset_card_of_nodup hL] at h1
    omega
  · intro d hd
    obtain ⟨h1, h2⟩ := List.mem_filter.1 hd
    exact ⟨a2 d h1, a4 d h1, b4 d (by simpa using h2)⟩

/-! ## Violations and examples -/

/-- A chain 0, 1, 2, … -/
def line : Tree := ⟨fun n => if n = 0 then none else some (n - 1), id, fun _ => none⟩

theorem line_wf : W line := by
  have key : ∀ a b : Nat, ¬ a = 0 → a - 1 = b → a = b + 1 := by omega
  refine ⟨fun _ _ _ _ => trivial, fun p q _ h => ?_, fun p _ h => ?_⟩
  · simp only [line] at h ⊢
    split at h
    · cases h
    · have h' : (p : Nat) - 1 = q := Option.some.inj h
      rename_i h0
      exact key p q h0 h'
  · simp only [line] at h ⊢
    split at h
    · simpa
    · cases h

/-- Block `b` arrives on top and is connected. -/
def ext (b : Ptr) (dels : List Nat) : Ev := .accept b true [⟨b, false, 0, 1, false⟩] dels none none

/-- C47 violated by a message: six delegates must agree by four, but a message naming an older block, made when there were three
delegates, as predecessor lowers the count to two, and the block is final with two of six. -/
theorem quorum_violated_by_message :
    let s := run line [ext 1 [1, 2, 3], ext 2 [1, 2, 3, 4, 5, 6], ext 3 [1, 2, 3, 4, 5, 6],
      .confirm [1, 2, 3, 4, 5, 6] none ⟨1, 3, 3, 2⟩ true, .confirm [1, 2, 3, 4, 5, 6] none ⟨2, 3, 3, 1⟩ true] (start 0)
    s.loc = some 3 ∧ line.prev 3 = some 2 ∧ s.lists 2 = some [1, 2, 3, 4, 5, 6] ∧
    s.confirms 3 = some [⟨2, 3, 3, 1⟩, ⟨1, 3, 3, 2⟩] := by decide

/-- The same run with the true predecessor named does not finalise. -/
example :
    let s := run line [ext 1 [1, 2, 3], ext 2 [1, 2, 3, 4, 5, 6], ext 3 [1, 2, 3, 4, 5, 6],
      .confirm [1, 2, 3, 4, 5, 6] none ⟨1, 3, 3, 2⟩ true, .confirm [1, 2, 3, 4, 5, 6] none ⟨2, 3, 3, 2⟩ true] (start 0)
    s.loc = none := by decide

/-- C47 violated without any bad message: block 2 is to be confirmed by four of six; when the next block arrives, after which
three delegates produce, its smaller count of two is applied to block 2. -/
theorem quorum_violated_by_next_block :
    let s := run line [ext 1 [1, 2, 3, 4, 5, 6], ext 2 [1, 2, 3],
      .confirm [1, 2, 3] none ⟨1, 2, 2, 1⟩ true, .confirm [1, 2, 3] none ⟨2, 2, 2, 1⟩ true, ext 3 [1, 2, 3]] (start 0)
    s.loc = some 2 ∧ line.prev 2 = some 1 ∧ s.lists 1 = some [1, 2, 3, 4, 5, 6] ∧
    s.confirms 2 = some [⟨2, 2, 2, 1⟩, ⟨1, 2, 2, 1⟩] := by decide

/-- C47, the strict form "more than a third" is violated: with three delegates two quorums may share exactly one. -/
theorem strict_third_violated :
    let sent : Msg → Prop := fun m => (m.block = 7 ∧ (m.miner = 1 ∨ m.miner = 2)) ∨ (m.block = 8 ∧ (m.miner = 2 ∨ m.miner = 3))
    Quorum sent 7 [1, 2, 3] (3 - 3 / 3) ∧ Quorum sent 8 [1, 2, 3] (3 - 3 / 3) ∧
    ∀ d m m', sent m → sent m' → m.miner = d → m'.miner = d → m.block = 7 → m'.block = 8 → d = 2 := by
  refine ⟨⟨[1, 2], by decide, by decide, by decide, ?_⟩, ⟨[2, 3], by decide, by decide, by decide, ?_⟩, ?_⟩
  · intro d hd
    refine ⟨⟨d, 0, 7, 0⟩, Or.inl ⟨rfl, ?_⟩, rfl, rfl⟩
    simpa using hd
  · intro d hd
    refine ⟨⟨d, 0, 8, 0⟩, Or.inr ⟨rfl, ?_⟩, rfl, rfl⟩
    simpa using hd
  · rintro d m m' h h' hd hd' hb hb'
    have ne : ¬ (7 : Ptr) = 8 := by decide
    rcases h with ⟨_, h⟩ | ⟨h, _⟩
    · rcases h' with ⟨h', _⟩ | ⟨_, h'⟩
      · exact absurd (h'.symm.trans hb') ne
      · rw [hd] at h; rw [hd'] at h'; omega
    · exact absurd (hb.symm.trans h) ne

/-- C46: the height reported by `getfinblockcount` drops to 0 at a restart, although the record is kept. -/
theorem reported_height_violated :
    let es := [ext 1 [1], ext 2 [1], .confirm [1] none ⟨1, 2, 2, 1⟩ true, .finality [1] ⟨1, 2, 2, 1⟩ true]
    ((run line es (start 0)).globFin line = some 2 ∧ (run line es (start 0)).stored = some 2) ∧
    ((run line (es ++ [.restart]) (start 0)).globFin line = some 0 ∧ (run line (es ++ [.restart]) (start 0)).stored = some 2) := by
  decide

/-- A tree with a fork: 0-1-2 and 0-3-4-5 (3 at height 1). -/
def fork : Tree := ⟨fun n => if n = 0 then none else if n = 3 then some 0 else some (n - 1),
  fun n => if n < 3 then n else n - 2, fun _ => none⟩

/-- Block 2 is final; a longer chain 3-4-5 wins but is not activated. Without finality it is. -/
example :
    let es := [ext 1 [1], ext 2 [1], .confirm [1] none ⟨1, 2, 2, 1⟩ true, .finality [1] ⟨1, 2, 2, 1⟩ true,
      .accept 5 true [⟨5, true, 9, 9, false⟩] [1] none none]
    (run fork es (start 0)).stored = some 2 ∧ (run fork es (start 0)).tip = 2 ∧
    (run fork [ext 1 [1], ext 2 [1], .accept 5 true [⟨5, true, 9, 9, false⟩] [1] none none] (start 0)).tip = 5 := by
  decide

end Verif.Finality
