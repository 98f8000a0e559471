import Verif.Gov.Model
import Mathlib.Data.List.Induction

/-!
# Lemmas about the governance model
-/
namespace Verif.Gov

variable {σ : Type}

/-! ## Frames -/

theorem setSys_frame (ps : List (Nat × Nat)) : ∀ st : State σ,
    (setSys st ps).proposals = st.proposals ∧ (setSys st ps).approvals = st.approvals ∧
    (setSys st ps).delegates = st.delegates ∧ (setSys st ps).log = st.log ∧ (setSys st ps).cdp = st.cdp ∧
    (setSys st ps).fee = st.fee ∧ (setSys st ps).changes = st.changes ∧ (setSys st ps).govs = st.govs ∧
    (setSys st ps).bpCur = st.bpCur ∧ (setSys st ps).bpNew = st.bpNew := by
  induction ps with
  | nil => intro st; simp [setSys]
  | cons e r ih => intro st; obtain ⟨k, v⟩ := e; simpa [setSys] using ih _

theorem setInterest_frame (st : State σ) (p : Pair) (k h v : Nat) :
    (setInterest st p k h v).proposals = st.proposals ∧ (setInterest st p k h v).approvals = st.approvals ∧
    (setInterest st p k h v).delegates = st.delegates ∧ (setInterest st p k h v).log = st.log ∧
    (setInterest st p k h v).cdp = st.cdp ∧ (setInterest st p k h v).fee = st.fee ∧
    (setInterest st p k h v).sys = st.sys ∧ (setInterest st p k h v).govs = st.govs ∧
    (setInterest st p k h v).bpCur = st.bpCur ∧ (setInterest st p k h v).bpNew = st.bpNew := by
  unfold setInterest
  dsimp only
  split <;> simp

theorem setCdp_frame (h : Nat) (p : Pair) (ps : List (Nat × Nat)) : ∀ st : State σ,
    (setCdp h p st ps).proposals = st.proposals ∧ (setCdp h p st ps).approvals = st.approvals ∧
    (setCdp h p st ps).delegates = st.delegates ∧ (setCdp h p st ps).log = st.log ∧
    (setCdp h p st ps).fee = st.fee ∧ (setCdp h p st ps).sys = st.sys ∧ (setCdp h p st ps).govs = st.govs ∧
    (setCdp h p st ps).bpCur = st.bpCur ∧ (setCdp h p st ps).bpNew = st.bpNew := by
  induction ps with
  | nil => intro st; simp [setCdp]
  | cons e r ih =>
    intro st
    obtain ⟨k, v⟩ := e
    simp only [setCdp]
    generalize hs : ({ st with cdp := fun p' q => if p' = p ∧ q = k then some v else st.cdp p' q } : State σ) = st1
    have h1 : st1.proposals = st.proposals ∧ st1.approvals = st.approvals ∧ st1.delegates = st.delegates ∧
        st1.log = st.log ∧ st1.fee = st.fee ∧ st1.sys = st.sys ∧ st1.govs = st.govs ∧ st1.bpCur = st.bpCur ∧
        st1.bpNew = st.bpNew := by subst hs; simp
    by_cases hk : k = 10 ∨ k = 11
    · rw [if_pos hk]
      have h2 := setInterest_frame st1 p k h v
      have h3 := ih (setInterest st1 p k h v)
      obtain ⟨a1, a2, a3, a4, a5, a6, a7, a8, a9⟩ := h1
      obtain ⟨b1, b2, b3, b4, b5, b6, b7, b8, b9, b10⟩ := h2
      obtain ⟨c1, c2, c3, c4, c5, c6, c7, c8, c9⟩ := h3
      exact ⟨c1.trans (b1.trans a1), c2.trans (b2.trans a2), c3.trans (b3.trans a3), c4.trans (b4.trans a4),
        c5.trans (b6.trans a5), c6.trans (b7.trans a6), c7.trans (b8.trans a7), c8.trans (b9.trans a8),
        c9.trans (b10.trans a9)⟩
    · rw [if_neg hk]
      have h3 := ih st1
      obtain ⟨a1, a2, a3, a4, a5, a6, a7, a8, a9⟩ := h1
      obtain ⟨c1, c2, c3, c4, c5, c6, c7, c8, c9⟩ := h3
      exact ⟨c1.trans a1, c2.trans a2, c3.trans a3, c4.trans a4, c5.trans a5, c6.trans a6, c7.trans a7, c8.trans a8,
        c9.trans a9⟩

theorem exec_frame {cfg : Cfg} {ctx : Ctx σ} {st s : State σ} {k : Kind} (h : exec cfg ctx st k = some s) :
    s.proposals = st.proposals ∧ s.approvals = st.approvals ∧ s.delegates = st.delegates ∧ s.log = st.log := by
  cases k with
  | sysParam ps =>
    simp only [exec, Option.some.injEq] at h; subst h
    obtain ⟨a, b, c, d, _⟩ := setSys_frame ps st
    exact ⟨a, b, c, d⟩
  | bpmc r op =>
    simp only [exec] at h
    split at h
    · cases h; simp
    · split at h
      · cases h; simp
      · cases h
  | bpSize n eff => simp only [exec, Option.some.injEq] at h; subst h; simp
  | minerFee t q v => simp only [exec, Option.some.injEq] at h; subst h; simp
  | cdpParam p ps =>
    simp only [exec, Option.some.injEq] at h; subst h
    obtain ⟨a, b, c, d, _⟩ := setCdp_frame ctx.height p ps st
    exact ⟨a, b, c, d⟩
  | other d a t =>
    simp only [exec, Option.map_eq_some_iff] at h
    obtain ⟨r, _, h⟩ := h
    subst h; simp

/-! ## What a request and an approval do -/

/-- A request stores the proposal and nothing else of governance. -/
theorem request_spec {cfg : Cfg} {ctx : Ctx σ} {st st' : State σ} {id : Nat} {k : Kind}
    (h : request cfg ctx st id k = some st') :
    ∃ n s, lifeOf st k = some n ∧ check cfg ctx st true k = true ∧
      st' = { st with rest := s, proposals := fun q =>
        if q = id then some ⟨k, wadd ctx.height n % U32, minCount cfg st k⟩ else st.proposals q } := by
  unfold request at h
  split at h
  · rename_i hc
    cases hs : requestRest ctx st k with
    | none => simp [hs] at h
    | some s =>
      cases hl : lifeOf st k with
      | none => simp [hs, hl] at h
      | some n =>
        simp only [hs, hl, Option.some.injEq] at h
        exact ⟨n, s, rfl, hc, h.symm⟩
  · cases h

/-- The state after recording an approval. -/
def noted (st : State σ) (id : Nat) (r : RegId) : State σ :=
  { st with approvals := fun q => if q = id then st.approvals id ++ [r] else st.approvals q }

/-- Exactly when an approval is accepted, and what it does. -/
theorem approve_spec {cfg : Cfg} {ctx : Ctx σ} {st st' : State σ} {id : Nat} {r : RegId} :
    approve cfg ctx st id r = some st' ↔
    ∃ p, st.proposals id = some p ∧ r ∈ council cfg st p.kind ∧ (st.approvals id).length < p.minCount ∧
      ctx.height % U32 ≤ p.expiry ∧ r ∉ st.approvals id ∧
      (((st.approvals id).length + 1 ≠ p.minCount ∧ st' = noted st id r) ∨
       ((st.approvals id).length + 1 = p.minCount ∧ check cfg ctx (noted st id r) false p.kind = true ∧
        ∃ s, exec cfg ctx (noted st id r) p.kind = some s ∧
          st' = { s with log := s.log ++ [⟨id, ctx.height, p.kind⟩] })) := by
  unfold approve
  cases hp : st.proposals id with
  | none => simp
  | some p =>
    simp only [isGovernor, setApproval]
    by_cases h1 : r ∈ council cfg st p.kind
    · by_cases h2 : (st.approvals id).length ≥ p.minCount
      · have : ¬ (st.approvals id).length < p.minCount := by omega
        simp [h1, h2, this]
      · have h2' : (st.approvals id).length < p.minCount := by omega
        by_cases h3 : p.expiry < ctx.height % U32
        · have : ¬ ctx.height % U32 ≤ p.expiry := by omega
          simp [h1, h2, h3, this]
        · have h3' : ctx.height % U32 ≤ p.expiry := by omega
          by_cases h4 : r ∈ st.approvals id
          · simp [h1, h2, h3, h4]
          · by_cases h5 : (st.approvals id).length + 1 = p.minCount
            · have e1 : (!(council cfg st p.kind).contains r) = false := by simp [h1]
              have e2 : (st.approvals id).contains r = false := by simp [h4]
              simp only [e1, e2, if_neg h2, if_neg h3, Bool.false_eq_true, if_false, if_pos h5, Option.some.injEq]
              change (if check cfg ctx (noted st id r) false p.kind then
                Option.map (fun s : State σ => { s with log := s.log ++ [⟨id, ctx.height, p.kind⟩] })
                  (exec cfg ctx (noted st id r) p.kind) else none) = some st' ↔ _
              by_cases h6 : check cfg ctx (noted st id r) false p.kind = true
              · rw [if_pos h6]
                simp only [Option.map_eq_some_iff]
                constructor
                · rintro ⟨s, hs, e⟩
                  exact ⟨p, rfl, h1, h2', h3', h4, Or.inr ⟨h5, h6, s, hs, e.symm⟩⟩
                · rintro ⟨q, rfl, _, _, _, _, h | ⟨_, _, s, hs, e⟩⟩
                  · exact absurd h5 h.1
                  · exact ⟨s, hs, e.symm⟩
              · rw [if_neg h6]
                constructor
                · intro h; cases h
                · rintro ⟨q, rfl, _, _, _, _, h | ⟨_, h, _⟩⟩
                  · exact absurd h5 h.1
                  · exact absurd h h6
            · have e1 : (!(council cfg st p.kind).contains r) = false := by simp [h1]
              have e2 : (st.approvals id).contains r = false := by simp [h4]
              simp only [e1, e2, if_neg h2, if_neg h3, Bool.false_eq_true, if_false, if_neg h5, Option.some.injEq]
              constructor
              · intro h
                exact ⟨p, rfl, h1, h2', h3', h4, Or.inl ⟨h5, h.symm⟩⟩
              · rintro ⟨q, rfl, _, _, _, _, h | h⟩
                · exact h.2.symm
                · exact absurd h.1 h5
    · simp [h1]

theorem run_snoc (cfg : Cfg) (st : State σ) (evs : List (Ev σ)) (e : Ev σ) :
    run cfg st (evs ++ [e]) = step cfg (run cfg st evs) e := by
  simp [run, List.foldl_append]

/-- Ids of the request transactions. -/
def requestIds : List (Ev σ) → List Nat
  | [] => []
  | .request _ id _ :: r => id :: requestIds r
  | _ :: r => requestIds r

theorem requestIds_append (a b : List (Ev σ)) : requestIds (a ++ b) = requestIds a ++ requestIds b := by
  induction a with
  | nil => rfl
  | cons e r ih => cases e <;> simp [requestIds, ih]

theorem mem_requestIds {pre post : List (Ev σ)} {ctx : Ctx σ} {id : Nat} {k : Kind} :
    id ∈ requestIds (pre ++ .request ctx id k :: post) := by
  simp [requestIds_append, requestIds]

/-! ## The invariant behind the majority rule -/

/-- `k` was requested as proposal `id`, with the life and quorum of that moment. -/
def Requested (cfg : Cfg) (s0 : State σ) (evs : List (Ev σ)) (id : Nat) (p : Proposal) : Prop :=
  ∃ pre ctx post n, evs = pre ++ .request ctx id p.kind :: post ∧ lifeOf (run cfg s0 pre) p.kind = some n ∧
    p.expiry = wadd ctx.height n % U32 ∧ p.minCount = minCount cfg (run cfg s0 pre) p.kind

/-- `r` approved `id` while in the council. -/
def Voted (cfg : Cfg) (s0 : State σ) (evs : List (Ev σ)) (id : Nat) (k : Kind) (r : RegId) (deadline : Nat) : Prop :=
  ∃ pre ctx post, evs = pre ++ .approve ctx id r :: post ∧ r ∈ council cfg (run cfg s0 pre) k ∧
    ctx.height % U32 ≤ deadline

structure Inv (cfg : Cfg) (s0 : State σ) (evs : List (Ev σ)) (st : State σ) : Prop where
  prop : ∀ id p, st.proposals id = some p → Requested cfg s0 evs id p
  nodup : ∀ id, (st.approvals id).Nodup
  voted : ∀ id r, r ∈ st.approvals id → ∃ p, st.proposals id = some p ∧ Voted cfg s0 evs id p.kind r p.expiry
  most : ∀ id p, st.proposals id = some p → (st.approvals id).length ≤ p.minCount
  done : ∀ d ∈ st.log, ∃ p, st.proposals d.id = some p ∧ p.kind = d.kind ∧ (st.approvals d.id).length = p.minCount
  once : (st.log.map (·.id)).Nodup

theorem Requested.more {cfg : Cfg} {s0 : State σ} {evs : List (Ev σ)} {id : Nat} {p : Proposal} (e : Ev σ)
    (h : Requested cfg s0 evs id p) : Requested cfg s0 (evs ++ [e]) id p := by
  obtain ⟨pre, ctx, post, n, he, hr⟩ := h
  exact ⟨pre, ctx, post ++ [e], n, by simp [he], hr⟩

theorem Voted.more {cfg : Cfg} {s0 : State σ} {evs : List (Ev σ)} {id : Nat} {k : Kind} {r : RegId} {d : Nat} (e : Ev σ)
    (h : Voted cfg s0 evs id k r d) : Voted cfg s0 (evs ++ [e]) id k r d := by
  obtain ⟨pre, ctx, post, he, hr⟩ := h
  exact ⟨pre, ctx, post ++ [e], by simp [he], hr⟩

/-- A state that differs in nothing the invariant mentions. -/
theorem Inv.same {cfg : Cfg} {s0 : State σ} {evs : List (Ev σ)} {st st' : State σ} (e : Ev σ) (h : Inv cfg s0 evs st)
    (h1 : st'.proposals = st.proposals) (h2 : st'.approvals = st.approvals) (h3 : st'.log = st.log) :
    Inv cfg s0 (evs ++ [e]) st' where
  prop id p hp := (h.prop id p (h1 ▸ hp)).more e
  nodup id := h2 ▸ h.nodup id
  voted id r hr := by
    obtain ⟨p, hp, hv⟩ := h.voted id r (h2 ▸ hr)
    exact ⟨p, h1 ▸ hp, hv.more e⟩
  most id p hp := by rw [h2]; exact h.most id p (h1 ▸ hp)
  done d hd := by rw [h1, h2]; exact h.done d (h3 ▸ hd)
  once := h3 ▸ h.once

theorem inv_run (cfg : Cfg) (ds : List RegId) (s : σ) (evs : List (Ev σ)) :
    (requestIds evs).Nodup → Inv cfg (genesis ds s) evs (run cfg (genesis ds s) evs) := by
  induction evs using List.reverseRecOn with
  | nil =>
    intro _
    exact ⟨fun id p h => by simp [run, genesis] at h, fun id => by simp [run, genesis],
      fun id r h => by simp [run, genesis] at h, fun id p h => by simp [run, genesis] at h,
      fun d h => by simp [run, genesis] at h, by simp [run, genesis]⟩
  | append_singleton evs e ih =>
    intro hnd
    have hnd0 : (requestIds evs).Nodup := by
      rw [requestIds_append] at hnd
      exact (List.nodup_append.mp hnd).1
    have hi := ih hnd0
    rw [run_snoc]
    generalize hst : run cfg (genesis ds s) evs = st at hi ⊢
    cases e with
    | elect l => exact hi.same _ rfl rfl rfl
    | outside l => exact hi.same _ rfl rfl rfl
    | request ctx id k =>
      cases hr : request cfg ctx st id k with
      | none => simp only [step, hr, Option.getD_none]; exact hi.same _ rfl rfl rfl
      | some st' =>
        simp only [step, hr, Option.getD_some]
        obtain ⟨n, s', hl, _, he⟩ := request_spec hr
        have hfresh : st.proposals id = none := by
          cases hp : st.proposals id with
          | none => rfl
          | some p =>
            obtain ⟨pre, c, post, m, hev, _⟩ := hi.prop id p hp
            rw [requestIds_append] at hnd
            have hin : id ∈ requestIds evs := by rw [hev]; exact mem_requestIds
            have := (List.nodup_append.mp hnd).2.2 id hin id (by simp [requestIds])
            exact absurd rfl this
        have hnoapp : st.approvals id = [] := by
          cases ha : st.approvals id with
          | nil => rfl
          | cons r rs =>
            obtain ⟨p, hp, _⟩ := hi.voted id r (by simp [ha])
            rw [hfresh] at hp; cases hp
        subst he
        refine ⟨?_, hi.nodup, ?_, ?_, ?_, hi.once⟩
        · intro q p hp
          dsimp only at hp
          by_cases hq : q = id
          · rw [if_pos hq] at hp
            cases hp
            subst hq
            exact ⟨evs, ctx, [], n, rfl, by rw [hst]; exact hl, rfl, by rw [hst]⟩
          · rw [if_neg hq] at hp
            exact (hi.prop q p hp).more _
        · intro q r hr'
          dsimp only at hr' ⊢
          obtain ⟨p, hp, hv⟩ := hi.voted q r hr'
          have hq : q ≠ id := by rintro rfl; rw [hfresh] at hp; cases hp
          exact ⟨p, by rw [if_neg hq]; exact hp, hv.more _⟩
        · intro q p hp
          dsimp only at hp ⊢
          by_cases hq : q = id
          · subst hq; rw [hnoapp]; exact Nat.zero_le _
          · rw [if_neg hq] at hp; exact hi.most q p hp
        · intro d hd
          dsimp only at hd ⊢
          obtain ⟨p, hp, hk, hlen⟩ := hi.done d hd
          have hq : d.id ≠ id := by intro hq; rw [hq, hfresh] at hp; cases hp
          exact ⟨p, by rw [if_neg hq]; exact hp, hk, hlen⟩
    | approve ctx id r =>
      cases hr : approve cfg ctx st id r with
      | none => simp only [step, hr, Option.getD_none]; exact hi.same _ rfl rfl rfl
      | some st' =>
        simp only [step, hr, Option.getD_some]
        obtain ⟨p, hp, hgov, hlt, hexp, hnew, hcase⟩ := approve_spec.mp hr
        have hframe : st'.proposals = st.proposals ∧ st'.approvals = (noted st id r).approvals := by
          rcases hcase with ⟨_, rfl⟩ | ⟨_, _, s', hs', rfl⟩
          · exact ⟨rfl, rfl⟩
          · obtain ⟨a, b, _, _⟩ := exec_frame hs'
            exact ⟨a, b⟩
        obtain ⟨hf1, hf2⟩ := hframe
        have happ : ∀ q, st'.approvals q = if q = id then st.approvals id ++ [r] else st.approvals q := by
          intro q; rw [hf2]; rfl
        have hnotdone : ∀ d ∈ st.log, d.id ≠ id := by
          intro d hd hq
          obtain ⟨p', hp', _, hlen⟩ := hi.done d hd
          rw [hq, hp] at hp'
          cases hp'
          rw [hq] at hlen
          omega
        have hlog : st'.log = st.log ∨ (st'.log = st.log ++ [⟨id, ctx.height, p.kind⟩] ∧
            (st.approvals id).length + 1 = p.minCount) := by
          rcases hcase with ⟨_, rfl⟩ | ⟨hm, _, s', hs', rfl⟩
          · exact Or.inl rfl
          · obtain ⟨_, _, _, hl⟩ := exec_frame hs'
            right
            refine ⟨?_, hm⟩
            simp only [hl]
            rfl
        refine ⟨?_, ?_, ?_, ?_, ?_, ?_⟩
        · intro q p' hp'
          exact (hi.prop q p' (hf1 ▸ hp')).more _
        · intro q
          rw [happ]
          by_cases hq : q = id
          · rw [if_pos hq]
            refine List.nodup_append.mpr ⟨hi.nodup id, by simp, ?_⟩
            intro a ha b hb
            simp at hb
            subst hb
            rintro rfl
            exact hnew ha
          · rw [if_neg hq]; exact hi.nodup q
        · intro q r' hr'
          rw [happ] at hr'
          by_cases hq : q = id
          · subst hq
            rw [if_pos rfl] at hr'
            rcases List.mem_append.mp hr' with h' | h'
            · obtain ⟨p', hp', hv⟩ := hi.voted q r' h'
              exact ⟨p', hf1 ▸ hp', hv.more _⟩
            · simp at h'
              subst h'
              exact ⟨p, hf1 ▸ hp, evs, ctx, [], rfl, by rw [hst]; exact hgov, hexp⟩
          · rw [if_neg hq] at hr'
            obtain ⟨p', hp', hv⟩ := hi.voted q r' hr'
            exact ⟨p', hf1 ▸ hp', hv.more _⟩
        · intro q p' hp'
          rw [happ]
          rw [hf1] at hp'
          by_cases hq : q = id
          · subst hq
            rw [if_pos rfl]
            rw [hp] at hp'
            cases hp'
            simp; omega
          · rw [if_neg hq]; exact hi.most q p' hp'
        · intro d hd
          rw [hf1]
          rcases hlog with hl | ⟨hl, hm⟩
          · rw [hl] at hd
            obtain ⟨p', hp', hk, hlen⟩ := hi.done d hd
            refine ⟨p', hp', hk, ?_⟩
            rw [happ, if_neg (hnotdone d hd)]
            exact hlen
          · rw [hl] at hd
            rcases List.mem_append.mp hd with hd | hd
            · obtain ⟨p', hp', hk, hlen⟩ := hi.done d hd
              refine ⟨p', hp', hk, ?_⟩
              rw [happ, if_neg (hnotdone d hd)]
              exact hlen
            · simp at hd
              subst hd
              refine ⟨p, hp, rfl, ?_⟩
              rw [happ, if_pos rfl]
              simp [hm]
        · rcases hlog with hl | ⟨hl, _⟩
          · rw [hl]; exact hi.once
          · rw [hl, List.map_append]
            refine List.nodup_append.mpr ⟨hi.once, by simp, ?_⟩
            intro a ha b hb
            simp at hb
            subst hb
            obtain ⟨d, hd, rfl⟩ := List.mem_map.mp ha
            exact hnotdone d hd

end Verif.Gov
