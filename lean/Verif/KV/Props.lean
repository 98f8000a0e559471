import Verif.KV.Lemmas
/-!
# Properties C05–C08: caches behave as maps, flush is invisible, undo restores

`live c s k` (Lemmas.lean) is the value a reader of the stack `s` gets for key `k`; the theorem
`getData_returns_live` below ties it to the API call.
-/
namespace Verif.KV

set_option linter.unusedSectionVars false
variable {K V : Type} [DecidableEq K] (c : Cfg K V)

/-! ## Specification: one plain map per layer -/

/-- A plain map, as a user of the store thinks of it. -/
abbrev AMap (K V : Type) := K → Option V

/-- Write in a plain map; writing an empty value is the same as erasing. -/
def AMap.write (m : AMap K V) (k : K) (v : V) : AMap K V :=
  fun q => if q = k then (if c.vEmpty v then none else some v) else m q

/-- Erase in a plain map. -/
def AMap.erase (m : AMap K V) (k : K) : AMap K V := fun q => if q = k then none else m q

/-- Reference machine: the map seen at the top and the maps seen at the layers below. -/
def specStep (m : AMap K V) (ms : List (AMap K V)) : Op K V → Out V × AMap K V × List (AMap K V)
  | .get k => (.value (if c.kEmpty k then none else m k), m, ms)
  | .has k => (.bool (if c.kEmpty k then false else (m k).isSome), m, ms)
  | .set k v => if c.kEmpty k then (.bool false, m, ms) else (.bool true, m.write c k v, ms)
  | .erase k => if c.kEmpty k then (.bool false, m, ms) else (.bool true, m.erase k, ms)
  | .push => (.unit, m, m :: ms)
  | .flush => match ms with
    | [] => (.unit, m, [])
    | _ :: r => (.unit, m, m :: r)
  | .drop => match ms with
    | [] => (.unit, m, [])
    | b :: r => (.unit, b, r)

/-- Outputs of the reference machine. -/
def specRun (m : AMap K V) (ms : List (AMap K V)) : List (Op K V) → List (Out V)
  | [] => []
  | o :: os => let r := specStep c m ms o; r.1 :: specRun r.2.1 r.2.2 os

/-! ## C05 -/

/-- `GetData` returns `live`. -/
theorem getData_returns_live (s : Cache K V) (k : K) : (getData c s k).1 = live c s k :=
  (getData_spec c s k).1

/-- Simulation relation: every layer of the stack reads as the corresponding plain map. -/
def Rel : Cache K V → AMap K V → List (AMap K V) → Prop
  | .root m d, f, fs => (∀ k, c.kEmpty k = false → live c (.root m d) k = f k) ∧ fs = []
  | .over m b, f, fs => (∀ k, c.kEmpty k = false → live c (.over m b) k = f k) ∧
      ∃ g gs, fs = g :: gs ∧ Rel b g gs

theorem rel_live {s : Cache K V} {f fs} (h : Rel c s f fs) (k : K) (hk : c.kEmpty k = false) :
    live c s k = f k := by
  cases s <;> exact h.1 k hk

theorem live_same {s s' : Cache K V} (h : Same s s') (k : K) : live c s k = live c s' k := by
  rw [live_eq, live_eq, h.raw_eq]

theorem rel_same : ∀ {s s' : Cache K V} {f fs}, Same s s' → Rel c s' f fs → Rel c s f fs
  | .root _ _, .root _ _, _, _, hs, h =>
    ⟨fun k hk => (live_same c (s := .root _ _) (s' := .root _ _) hs k).trans (h.1 k hk), h.2⟩
  | .over _ _, .over _ _, _, _, hs, h => by
    obtain ⟨h1, g, gs, e, h2⟩ := h
    exact ⟨fun k hk => (live_same c (s := .over _ _) (s' := .over _ _) hs k).trans (h1 k hk),
      g, gs, e, rel_same hs.2 h2⟩

theorem rel_setSelf {s : Cache K V} {f fs} (h : Rel c s f fs) (k : K) (v : V) (f' : AMap K V)
    (hf : ∀ q, c.kEmpty q = false → f' q = if q = k then vis c (some v) else f q) :
    Rel c (setSelf c s k v) f' fs := by
  have hl : ∀ q, c.kEmpty q = false → live c (setSelf c s k v) q = f' q := by
    intro q hq
    rw [hf q hq, live_eq, raw_setSelf]
    simp only [hq, Bool.false_eq_true, if_false]
    by_cases e : q = k
    · simp [e]
    · have := rel_live c h q hq
      rw [live_eq] at this
      simpa [e, hq] using this
  cases s with
  | root m d => exact ⟨hl, h.2⟩
  | over m b => exact ⟨hl, h.2⟩

theorem rel_flushInto (ho : StrictTotal c.lt) {m : List (K × V)} {b : Cache K V} {f g gs}
    (hs : SortedBy c.lt m)
    (hf : ∀ k, c.kEmpty k = false → live c (.over m b) k = f k) (hb : Rel c b g gs) :
    Rel c (flushInto c b m) f gs := by
  have hl : ∀ q, c.kEmpty q = false → live c (flushInto c b m) q = f q := by
    intro q hq
    rw [← hf q hq, live_eq, live_eq, raw_flushInto c ho m b q hs]
    rfl
  have hbelow := below_flushInto c m b
  cases b with
  | root m1 d1 =>
    cases h : flushInto c (.root m1 d1) m with
    | root _ _ => rw [h] at hl; exact ⟨hl, hb.2⟩
    | over _ _ => rw [h] at hbelow; simp [below] at hbelow
  | over m1 b1 =>
    cases h : flushInto c (.over m1 b1) m with
    | root _ _ => rw [h] at hbelow; simp [below] at hbelow
    | over _ b2 =>
      rw [h] at hl hbelow
      simp only [below, List.cons.injEq] at hbelow
      rw [← hbelow.1] at hb
      exact ⟨hl, hb.2⟩

/-- One operation keeps the simulation. -/
theorem step_sim (ho : StrictTotal c.lt) (s : Cache K V) (f : AMap K V) (fs : List (AMap K V))
    (hw : WF c s) (h : Rel c s f fs) (o : Op K V) :
    (step c s o).1 = (specStep c f fs o).1 ∧ WF c (step c s o).2 ∧
      Rel c (step c s o).2 (specStep c f fs o).2.1 (specStep c f fs o).2.2 := by
  cases o with
  | get k =>
    have hg := getData_spec c s k
    refine ⟨?_, ?_, rel_same c hg.2 h⟩
    · simp only [step, specStep, hg.1]
      by_cases hk : c.kEmpty k = true
      · simp [hk, live]
      · have hk' : c.kEmpty k = false := by simpa using hk
        simp [hk', rel_live c h k hk']
    · simp only [step, getData]
      split
      · exact hw
      · have := wf_getIt c ho s k hw
        split <;> (rename_i e; rw [e] at this; exact this)
  | has k =>
    have hg := hasData_spec c s k
    refine ⟨?_, ?_, rel_same c hg.2 h⟩
    · simp only [step, specStep, hg.1]
      by_cases hk : c.kEmpty k = true
      · simp [hk, live]
      · have hk' : c.kEmpty k = false := by simpa using hk
        simp [hk', rel_live c h k hk']
    · simp only [step, hasData]
      split
      · exact hw
      · have := wf_getIt c ho s k hw
        split <;> (rename_i e; rw [e] at this; exact this)
  | set k v =>
    by_cases hk : c.kEmpty k = true
    · simp [step, specStep, setData, hk, hw, h]
    · have hk' : c.kEmpty k = false := by simpa using hk
      obtain ⟨s', hs', he, hset⟩ := setData_spec c s k v hk'
      simp only [step, specStep, hset, hk', Bool.false_eq_true, if_false]
      refine ⟨trivial, wf_setSelf c ho _ _ _ (he ▸ wf_getIt c ho s k hw), ?_⟩
      exact rel_setSelf c (rel_same c hs' h) k v _ (fun q _ => rfl)
  | erase k =>
    by_cases hk : c.kEmpty k = true
    · simp [step, specStep, eraseData, hk, hw, h]
    · have hk' : c.kEmpty k = false := by simpa using hk
      obtain ⟨s', hs', he, hset⟩ := eraseData_spec c s k hk'
      have hw' : WF c s' := he ▸ wf_getIt c ho s k hw
      have hr' := rel_same c hs' h
      rcases hset with ⟨hl, hset⟩ | ⟨v, _, _, hset⟩
      · simp only [step, specStep, hset, hk', Bool.false_eq_true, if_false]
        refine ⟨trivial, hw', ?_⟩
        have hfk : ∀ q, c.kEmpty q = false → AMap.erase f k q = f q := by
          intro q hq
          unfold AMap.erase
          by_cases e : q = k
          · subst e; simp [← rel_live c h q hq, hl]
          · simp [e]
        cases s' with
        | root m d => exact ⟨fun q hq => (hr'.1 q hq).trans (hfk q hq).symm, hr'.2⟩
        | over m b => exact ⟨fun q hq => (hr'.1 q hq).trans (hfk q hq).symm, hr'.2⟩
      · simp only [step, specStep, hset, hk', Bool.false_eq_true, if_false]
        refine ⟨trivial, wf_setSelf c ho _ _ _ hw', ?_⟩
        exact rel_setSelf c hr' k c.empty _ (fun q _ => by simp [AMap.erase, vis, c.empty_ok])
  | push =>
    refine ⟨rfl, ⟨List.Pairwise.nil, hw⟩, ?_⟩
    exact ⟨fun k hk => rel_live c h k hk, f, fs, rfl, h⟩
  | flush =>
    cases s with
    | root m d =>
      have hfs := h.2; subst hfs
      refine ⟨rfl, List.Pairwise.nil, ?_, rfl⟩
      intro k hk
      have := h.1 k hk
      show live c (.root [] (flushDisk c d m)) k = f k
      rw [← this]
      simp only [live, raw, find_nil, find_flushDisk c ho m d k hw, hk]
      cases hf : find m k with
      | none => rfl
      | some v => by_cases hv : c.vEmpty v <;> simp [hv]
    | over m b =>
      obtain ⟨h1, g, gs, e, hb⟩ := h
      subst e
      have hb' := rel_flushInto c ho hw.1 h1 hb
      refine ⟨rfl, ⟨List.Pairwise.nil, wf_flushInto c ho _ _ hw.2⟩, ?_⟩
      exact ⟨fun k hk => rel_live c hb' k hk, f, gs, rfl, hb'⟩
  | drop =>
    cases s with
    | root m d =>
      have hfs := h.2; subst hfs
      exact ⟨rfl, hw, h⟩
    | over m b =>
      obtain ⟨h1, g, gs, e, hb⟩ := h
      subst e
      exact ⟨rfl, hw.2, hb⟩

theorem run_sim (ho : StrictTotal c.lt) : ∀ (os : List (Op K V)) (s : Cache K V) (f : AMap K V)
    (fs : List (AMap K V)), WF c s → Rel c s f fs →
    (run c s os).1 = specRun c f fs os ∧ WF c (run c s os).2
  | [], _, _, _, hw, _ => ⟨rfl, hw⟩
  | o :: os, s, f, fs, hw, h => by
    obtain ⟨h1, h2, h3⟩ := step_sim c ho s f fs hw h o
    obtain ⟨i1, i2⟩ := run_sim ho os _ _ _ h2 h3
    exact ⟨by simp only [run, specRun, h1, i1], i2⟩

theorem rel_self : ∀ s : Cache K V, Rel c s (live c s) ((below s).map (live c))
  | .root _ _ => ⟨fun _ _ => rfl, rfl⟩
  | .over _ b => ⟨fun _ _ => rfl, _, _, rfl, rel_self b⟩

/-- **C05.** Whatever sequence of reads, writes, erases, layer pushes, flushes and drops is applied
to a stack of caches, every call returns exactly what the reference machine returns — one plain
map per layer, in which reads change nothing. -/
theorem stack_behaves_as_map (ho : StrictTotal c.lt) (s : Cache K V) (hw : WF c s)
    (os : List (Op K V)) :
    (run c s os).1 = specRun c (live c s) ((below s).map (live c)) os :=
  (run_sim c ho os s _ _ hw (rel_self c s)).1

/-- **C05**, starting from a freshly opened database with contents `d`: the reference machine
starts with the database contents. -/
theorem fresh_store_behaves_as_map (ho : StrictTotal c.lt) (d : List (K × V))
    (hd : ∀ k v, find d k = some v → c.vEmpty v = false) (os : List (Op K V)) :
    (run c (.root [] d) os).1 = specRun c (find d) [] os := by
  refine (run_sim c ho os (.root [] d) _ _ List.Pairwise.nil ⟨?_, rfl⟩).1
  intro k hk
  simp only [live, hk, raw, find_nil, Bool.false_eq_true, if_false]
  cases h : find d k with
  | none => rfl
  | some v => simp [hd k v h]

/-- Every state reached from a freshly opened database has ordered maps, so the hypothesis `WF` of
the other theorems holds for every reachable stack. -/
theorem reachable_wf (ho : StrictTotal c.lt) (d : List (K × V)) (os : List (Op K V)) :
    WF c (run c (.root [] d) os).2 :=
  (run_sim c ho os (.root [] d) _ _ List.Pairwise.nil (rel_self c _)).2

/-! ## C06 -/

/-- **C06**, flushing a layer into its parent: a reader of the flushed layer and a reader of the
parent both see afterwards, for every key, what the flushed layer showed before. -/
theorem flush_to_parent_invisible (ho : StrictTotal c.lt) (m : List (K × V)) (b : Cache K V)
    (hw : WF c (.over m b)) :
    ∃ b', flush c (.over m b) = .over [] b' ∧ below b' = below b ∧
      ∀ k, live c (.over [] b') k = live c (.over m b) k ∧ live c b' k = live c (.over m b) k := by
  refine ⟨flushInto c b m, rfl, below_flushInto c m b, fun k => ?_⟩
  have : raw (flushInto c b m) k = raw (.over m b) k := by
    rw [raw_flushInto c ho m b k hw.1]; rfl
  constructor
  · rw [live_eq, live_eq]; simp only [raw_over, find_nil, this]
  · rw [live_eq, live_eq, this]

/-- **C06**, flushing into the database: readers see the same values, and so does a process that
reopens the database with empty caches; no tombstone is stored. -/
theorem flush_to_database_invisible (ho : StrictTotal c.lt) (m d : List (K × V))
    (hw : WF c (.root m d)) (hd : ∀ k v, find d k = some v → c.vEmpty v = false) :
    ∃ d', flush c (.root m d) = .root [] d' ∧
      (∀ k, c.kEmpty k = false → find d' k = live c (.root m d) k) ∧
      (∀ k, live c (.root [] d') k = live c (.root m d) k) ∧
      (∀ k v, find d' k = some v → c.vEmpty v = false) := by
  have key : ∀ k, find (flushDisk c d m) k = vis c (raw (.root m d) k) := by
    intro k
    rw [find_flushDisk c ho m d k hw]
    simp only [raw]
    cases hf : find m k with
    | some v => rfl
    | none =>
      cases h : find d k with
      | none => rfl
      | some v => simp [vis, hd k v h]
  refine ⟨flushDisk c d m, rfl, ?_, ?_, ?_⟩
  · intro k hk; rw [key, live_eq]; simp [hk]
  · intro k
    have e : raw (.root [] (flushDisk c d m)) k = vis c (raw (.root m d) k) := by
      simp only [raw, find_nil] at key ⊢; exact key k
    rw [live_eq, live_eq, e]
    cases raw (.root m d) k with
    | none => rfl
    | some v => by_cases hv : c.vEmpty v <;> simp [vis, hv]
  · intro k v h
    rw [key k] at h
    unfold vis at h
    split at h
    · split at h
      · simp at h
      · simp only [Option.some.injEq] at h; subst h; simp_all
    · simp at h

/-! ## C07 -/

/-- A sequence of table operations with its log. -/
def execOps (s : Cache K V) (l : OpLog K V) : List (TOp K V) → Cache K V × OpLog K V
  | [] => (s, l)
  | o :: os => let r := tstep c s o; execOps r.1 (l ++ r.2) os

/-- One operation: undoing its log entries on top of any cache reading like the result gives back
what was read before. -/
theorem tstep_log (s : Cache K V) (o : TOp K V) (q : K) (hq : c.kEmpty q = false) :
    live c s q = match find (tstep c s o).2 q with
      | some v => vis c (some v) | none => live c (tstep c s o).1 q := by
  cases o with
  | get k => simp only [tstep, find_nil]; exact (live_same c (getData_spec c s k).2 q).symm
  | has k => simp only [tstep, find_nil]; exact (live_same c (hasData_spec c s k).2 q).symm
  | set k v =>
    by_cases hk : c.kEmpty k = true
    · simp [tstep, setData, hk]
    · have hk' : c.kEmpty k = false := by simpa using hk
      obtain ⟨s', hs', _, hset⟩ := setData_spec c s k v hk'
      simp only [tstep, hset, find]
      by_cases e : q = k
      · subst e
        simp only [if_true]
        rw [live_eq]; simp only [hq, Bool.false_eq_true, if_false, logged]
        cases raw s q with
        | none => simp [vis, c.empty_ok]
        | some w => rfl
      · simp only [e, if_false]
        rw [live_eq, live_eq, raw_setSelf, hs'.raw_eq]; simp [e]
  | erase k =>
    by_cases hk : c.kEmpty k = true
    · simp [tstep, eraseData, hk]
    · have hk' : c.kEmpty k = false := by simpa using hk
      obtain ⟨s', hs', _, hset⟩ := eraseData_spec c s k hk'
      rcases hset with ⟨_, hset⟩ | ⟨v, hv, _, hset⟩
      · simp only [tstep, hset, find_nil]; exact (live_same c hs' q).symm
      · simp only [tstep, hset, find]
        by_cases e : q = k
        · subst e; rw [live_eq, hv]; simp [hq]
        · simp only [e, if_false]
          rw [live_eq, live_eq, raw_setSelf, hs'.raw_eq]; simp [e]

theorem execOps_log (os : List (TOp K V)) : ∀ (s : Cache K V) (l : OpLog K V),
    ∃ l', (execOps c s l os).2 = l ++ l' ∧
      ∀ q, c.kEmpty q = false →
        live c s q = match find l' q with
          | some v => vis c (some v) | none => live c (execOps c s l os).1 q := by
  induction os with
  | nil => intro s l; exact ⟨[], by simp [execOps], fun q _ => by simp [execOps]⟩
  | cons o os ih =>
    intro s l
    obtain ⟨l', h1, h2⟩ := ih (tstep c s o).1 (l ++ (tstep c s o).2)
    refine ⟨(tstep c s o).2 ++ l', by simp [execOps, h1], fun q hq => ?_⟩
    rw [tstep_log c s o q hq, find_append]
    cases find (tstep c s o).2 q with
    | some v => rfl
    | none => simp only [execOps]; exact h2 q hq

/-- **C07.** Take any table, run any sequence of reads, writes and erases with the logger attached,
then undo the recorded log on any cache that reads like the result (in particular the result
itself, or a fresh cache after flushing): every key reads exactly as before the sequence. -/
theorem undo_restores (s s' : Cache K V) (os : List (TOp K V))
    (hs' : ∀ k, live c s' k = live c (execOps c s [] os).1 k) (k : K) :
    live c (undoList c s' (execOps c s [] os).2) k = live c s k := by
  by_cases hk : c.kEmpty k = true
  · simp [live, hk]
  · have hk' : c.kEmpty k = false := by simpa using hk
    obtain ⟨l', h1, h2⟩ := execOps_log c os s []
    simp only [List.nil_append] at h1
    rw [h1, live_undoList c s' l' k hk', h2 k hk']
    cases find l' k with
    | some v => rfl
    | none => exact hs' k

/-! ## C08 -/

variable {T : Type} [DecidableEq T] (cf : T → Cfg K V)

/-- Every key of every table reads the same. -/
def SameView (w w' : Tables T K V) : Prop := ∀ t k, live (cf t) (w t) k = live (cf t) (w' t) k

/-- Operations of a transaction that touch table `t`. -/
def opsOn (t : T) (os : List (T × TOp K V)) : List (TOp K V) :=
  os.filterMap (fun p => if p.1 = t then some p.2 else none)

theorem execTx_proj (t : T) : ∀ (os : List (T × TOp K V)) (w : Tables T K V) (l : LogMap T K V),
    ((execTx cf w l os).1 t, (execTx cf w l os).2 t) = execOps (cf t) (w t) (l t) (opsOn t os)
  | [], _, _ => rfl
  | (u, o) :: os, w, l => by
    have ih := execTx_proj t os (upd w u (tstep (cf u) (w u) o).1)
      (upd l u (l u ++ (tstep (cf u) (w u) o).2))
    simp only [execTx]
    rw [ih]
    by_cases h : u = t
    · subst h
      simp [opsOn, upd, execOps]
    · have h' : t ≠ u := fun e => h e.symm
      simp [opsOn, upd, h, h']

theorem undoTx_restores (registered : T → Bool) (ts : List T) (hts : ∀ t, t ∈ ts)
    (hreg : ∀ t, registered t = true) (w w' : Tables T K V) (os : List (T × TOp K V))
    (h : SameView cf w' (execTx cf w (fun _ => []) os).1) :
    ∃ w'', undoTx cf registered ts w' (execTx cf w (fun _ => []) os).2 = some w'' ∧
      SameView cf w'' w := by
  refine ⟨fun t => if ts.contains t then undoList (cf t) (w' t) ((execTx cf w (fun _ => []) os).2 t)
    else w' t, by simp [undoTx, hreg], ?_⟩
  intro t k
  have hp := execTx_proj cf t os w (fun _ => [])
  simp only [List.contains_iff_mem, hts, if_true]
  have h1 := congrArg Prod.fst hp
  have h2 := congrArg Prod.snd hp
  simp only at h1 h2
  rw [h2]
  apply undo_restores
  intro q
  rw [h t q, h1]

theorem undoBlock_restores (registered : T → Bool) (ts : List T) (hts : ∀ t, t ∈ ts)
    (hreg : ∀ t, registered t = true) (txs : List (List (T × TOp K V))) :
    ∀ (w w' : Tables T K V), SameView cf w' (execBlock cf w txs).1 →
    ∃ w'', undoBlock cf registered ts w' (execBlock cf w txs).2 = some w'' ∧ SameView cf w'' w := by
  induction txs with
  | nil => intro w w' h; exact ⟨w', rfl, h⟩
  | cons tx txs ih =>
    intro w w' h
    obtain ⟨w1, h1, h2⟩ := ih (execTx cf w (fun _ => []) tx).1 w' h
    obtain ⟨w2, h3, h4⟩ := undoTx_restores cf registered ts hts hreg w w1 tx h2
    exact ⟨w2, by simp [execBlock, undoBlock, h1, h3], h4⟩

/-- A run of blocks from state `w` to state `w'`, collecting each block's undo data.  Between blocks
the caches may be flushed, reopened or copied in any way that keeps every value (`SameView`). -/
inductive Connects : Tables T K V → List (List (LogMap T K V)) → Tables T K V → Prop
  | nil {w w'} : SameView cf w w' → Connects w [] w'
  | cons {w w1 w' us} (txs : List (List (T × TOp K V))) : SameView cf w w1 →
      Connects (execBlock cf w1 txs).1 us w' → Connects w ((execBlock cf w1 txs).2 :: us) w'

/-- Disconnecting the blocks, newest first (loop of `ActivateBestChain`/`DisconnectTip`). -/
def undoBlocks (registered : T → Bool) (ts : List T) (w : Tables T K V) :
    List (List (LogMap T K V)) → Option (Tables T K V)
  | [] => some w
  | u :: us => (undoBlocks registered ts w us).bind (fun w' => undoBlock cf registered ts w' u)

/-- **C08.** After connecting any number of blocks, each with any number of transactions doing any
reads, writes and erases on any tables, undoing the blocks newest first succeeds and every key
of every table reads as before the first block. -/
theorem disconnect_restores (registered : T → Bool) (ts : List T) (hts : ∀ t, t ∈ ts)
    (hreg : ∀ t, registered t = true) {w w' : Tables T K V} {us : List (List (LogMap T K V))}
    (h : Connects cf w us w') :
    ∃ w'', undoBlocks cf registered ts w' us = some w'' ∧ SameView cf w'' w := by
  induction h with
  | @nil w w' h => exact ⟨w', rfl, fun t k => (h t k).symm⟩
  | @cons w w1 w' us txs hv _ ih =>
    obtain ⟨w2, h1, h2⟩ := ih
    obtain ⟨w3, h3, h4⟩ := undoBlock_restores cf registered ts hts hreg txs w1 w2 h2
    exact ⟨w3, by simp [undoBlocks, h1, h3], fun t k => (h4 t k).trans (hv t k).symm⟩

/-- The check of the undo executor matters: a log for a table without undo function makes the
disconnect fail (blockundo.cpp 119-127) rather than skip the table. -/
theorem unregistered_table_fails (registered : T → Bool) (ts : List T) (w : Tables T K V)
    (l : LogMap T K V) (t : T) (ht : t ∈ ts) (hl : l t ≠ []) (hr : registered t = false) :
    undoTx cf registered ts w l = none := by
  have : ¬ (ts.all (fun t => (l t).isEmpty || registered t) = true) := by
    rw [List.all_eq_true]
    intro h
    have := h t ht
    simp [hr, hl] at this
  simp [undoTx, this]

/-! ## CSimpleKVCache -/

/-- Value found by a lookup in a single-value cache. -/
def sraw : SCache V → Option V
  | .root (some v) _ => some v
  | .root none d => d
  | .over (some v) _ => some v
  | .over none b => sraw b

theorem sgetPtr_spec : ∀ s : SCache V, (sgetPtr s).1 = sraw s ∧ sraw (sgetPtr s).2 = sraw s
  | .root (some _) _ => ⟨rfl, rfl⟩
  | .root none d => by cases d <;> exact ⟨rfl, rfl⟩
  | .over (some _) _ => ⟨rfl, rfl⟩
  | .over none b => by
    have ih := sgetPtr_spec b
    simp only [sgetPtr, sraw]
    refine ⟨ih.1, ?_⟩
    rw [ih.1]
    cases h : sraw b with
    | none => simp only [sraw, ih.2, h]
    | some v => simp only [sraw]

theorem sraw_setSelf (s : SCache V) (v : V) : sraw (ssetSelf s v) = some v := by cases s <;> rfl

/-- Building blocks for the theorems below: reading returns the last value written (an empty
value reads as absent), flushing changes neither the layer's nor its parent's reading, and
undoing the log entry of a write or erase restores the value. -/
theorem simple_ops_spec (s : SCache V) (v : V) :
    (sget c s).1 = vis c (sraw s) ∧ sraw (sget c s).2 = sraw s ∧
    vis c (sraw (sset c s v).1) = vis c (some v) ∧
    vis c (sraw (serase c s).1) = none ∧
    vis c (sraw (sflush c s)) = vis c (sraw s) ∧
    (∀ s', sraw s' = sraw (sset c s v).1 → vis c (sraw (sundo s' (sset c s v).2)) = vis c (sraw s)) ∧
    (∀ s', sraw s' = sraw (serase c s).1 → vis c (sraw (sundo s' (serase c s).2)) = vis c (sraw s)) := by
  have hg := sgetPtr_spec s
  have e : sgetPtr s = ((sgetPtr s).1, (sgetPtr s).2) := rfl
  rw [hg.1] at e
  refine ⟨?_, ?_, ?_, ?_, ?_, ?_, ?_⟩
  · unfold sget; rw [e]; cases sraw s <;> rfl
  · unfold sget; rw [e]; cases h : sraw s <;> simp only [hg.2, h]
  · unfold sset; rw [e]; cases sraw s <;> simp [sraw_setSelf]
  · unfold serase; rw [e]
    cases h : sraw s with
    | none => simp only [hg.2, h, vis]
    | some w => by_cases hv : c.vEmpty w <;> simp [hv, hg.2, h, vis, sraw_setSelf, c.empty_ok]
  · match s with
    | .root (some w) d =>
      by_cases hv : c.vEmpty w <;> simp [sflush, sraw, vis, hv]
    | .root none d => rfl
    | .over (some w) b => simp [sflush, sraw, sraw_setSelf]
    | .over none b => rfl
  · intro s' _
    unfold sset; rw [e]
    cases h : sraw s <;> simp [sundo, sraw_setSelf, vis, c.empty_ok]
  · intro s' hs'
    unfold serase at hs' ⊢; rw [e] at hs' ⊢
    cases h : sraw s with
    | none => rw [h] at hs'; simp only [sundo] at *; rw [hs', hg.2, h]
    | some w =>
      rw [h] at hs'
      by_cases hv : c.vEmpty w
      · simp [hv, sundo] at *; rw [hs', hg.2, h]
      · simp [hv, sundo, sraw_setSelf] at *

/-- Reference machine for a single-value table: the value seen at the top and below each layer. -/
def sspecStep (m : Option V) (ms : List (Option V)) : SOp V → Out V × Option V × List (Option V)
  | .get => (.value m, m, ms)
  | .set v => (.bool true, if c.vEmpty v then none else some v, ms)
  | .erase => (.bool true, none, ms)
  | .push => (.unit, m, m :: ms)
  | .flush => match ms with
    | [] => (.unit, m, [])
    | _ :: r => (.unit, m, m :: r)
  | .drop => match ms with
    | [] => (.unit, m, [])
    | b :: r => (.unit, b, r)

/-- Outputs of the reference machine. -/
def sspecRun (m : Option V) (ms : List (Option V)) : List (SOp V) → List (Out V)
  | [] => []
  | o :: os => let r := sspecStep c m ms o; r.1 :: sspecRun r.2.1 r.2.2 os

/-- Simulation relation. -/
def SRel : SCache V → Option V → List (Option V) → Prop
  | .root p d, f, fs => vis c (sraw (.root p d)) = f ∧ fs = []
  | .over p b, f, fs => vis c (sraw (.over p b)) = f ∧ ∃ g gs, fs = g :: gs ∧ SRel b g gs

theorem srel_vis {s : SCache V} {f fs} (h : SRel c s f fs) : vis c (sraw s) = f := by
  cases s <;> exact h.1

theorem srel_getPtr : ∀ {s : SCache V} {f fs}, SRel c s f fs → SRel c (sgetPtr s).2 f fs
  | .root (some _) _, _, _, h => h
  | .root none none, _, _, h => h
  | .root none (some _), _, _, h => h
  | .over (some _) _, _, _, h => h
  | .over none b, f, fs, h => by
    obtain ⟨h1, g, gs, e, hb⟩ := h
    have hspec := sgetPtr_spec (SCache.over none b)
    refine ⟨?_, g, gs, e, srel_getPtr hb⟩
    have := hspec.2
    simp only [sgetPtr] at this ⊢
    rw [this]; exact h1

theorem srel_set {s : SCache V} {f fs} (h : SRel c s f fs) (v : V) :
    SRel c (ssetSelf s v) (vis c (some v)) fs := by
  cases s with
  | root p d => exact ⟨rfl, h.2⟩
  | over p b => exact ⟨rfl, h.2⟩

theorem srel_mono {s : SCache V} {f f' fs} (h : SRel c s f fs) (e : f = f') : SRel c s f' fs := e ▸ h

theorem sstep_sim (s : SCache V) (f : Option V) (fs : List (Option V)) (h : SRel c s f fs) (o : SOp V) :
    (sstep c s o).1 = (sspecStep c f fs o).1 ∧
      SRel c (sstep c s o).2 (sspecStep c f fs o).2.1 (sspecStep c f fs o).2.2 := by
  have hg := sgetPtr_spec s
  have e : sgetPtr s = (sraw s, (sgetPtr s).2) := by rw [← hg.1]
  have hp := srel_getPtr c h
  have hv := srel_vis c h
  cases o with
  | get =>
    refine ⟨?_, ?_⟩
    · simp only [sstep, sspecStep, (simple_ops_spec c s c.empty).1, hv]
    · simp only [sstep, sspecStep, sget]; rw [e]
      cases sraw s <;> exact hp
  | set v =>
    refine ⟨rfl, ?_⟩
    simp only [sstep, sspecStep, sset]; rw [e]
    cases sraw s <;> exact srel_set c hp v
  | erase =>
    refine ⟨rfl, ?_⟩
    simp only [sstep, sspecStep, serase]; rw [e]
    cases hs : sraw s with
    | none => exact srel_mono c hp (by rw [← hv, hs]; rfl)
    | some w =>
      by_cases hw : c.vEmpty w
      · simp only [hw, if_true]; exact srel_mono c hp (by rw [← hv, hs]; simp [vis, hw])
      · simp only [hw, Bool.false_eq_true, if_false]
        exact srel_mono c (srel_set c hp c.empty) (by simp [vis, c.empty_ok])
  | push =>
    refine ⟨rfl, ?_⟩
    exact ⟨hv, f, fs, rfl, h⟩
  | flush =>
    have hf := (simple_ops_spec c s c.empty).2.2.2.2.1
    match s with
    | .root (some w) d => have := h.2; subst this; exact ⟨rfl, hf.trans hv, rfl⟩
    | .root none d => have := h.2; subst this; exact ⟨rfl, h⟩
    | .over (some w) b =>
      obtain ⟨h1, g, gs, e, hb⟩ := h
      subst e
      refine ⟨rfl, hf.trans hv, f, gs, rfl, ?_⟩
      exact srel_mono c (srel_set c hb w) h1
    | .over none b =>
      obtain ⟨h1, g, gs, e, hb⟩ := h
      subst e
      refine ⟨rfl, h1, f, gs, rfl, srel_mono c hb ?_⟩
      rw [← srel_vis c hb]; exact h1
  | drop =>
    match s with
    | .root p d => have := h.2; subst this; exact ⟨rfl, h⟩
    | .over p b =>
      obtain ⟨h1, g, gs, e, hb⟩ := h
      subst e
      exact ⟨rfl, hb⟩

theorem srun_sim : ∀ (os : List (SOp V)) (s : SCache V) (f : Option V) (fs : List (Option V)),
    SRel c s f fs → (srun c s os).1 = sspecRun c f fs os
  | [], _, _, _, _ => rfl
  | o :: os, s, f, fs, h => by
    obtain ⟨h1, h2⟩ := sstep_sim c s f fs h o
    simp only [srun, sspecRun, h1, srun_sim os _ _ _ h2]

/-- **C05/C06** for single-value tables: from a freshly opened table holding `d`, every sequence of
reads, writes, erases, layer pushes, flushes and drops returns what one plain value per layer
would return; in particular flushing is never observable. -/
theorem simple_cache_behaves_as_value (d : Option V) (hd : ∀ v, d = some v → c.vEmpty v = false)
    (os : List (SOp V)) : (srun c (.root none d) os).1 = sspecRun c d [] os := by
  refine srun_sim c os _ _ _ ⟨?_, rfl⟩
  cases d with
  | none => rfl
  | some v => simp [sraw, vis, hd v rfl]

/-- **C07** for single-value tables: undoing the log of any sequence of writes and erases, on any
cache that reads like the result, restores what was read before the sequence. -/
theorem simple_undo_restores : ∀ (ws : List (Option V)) (s s' : SCache V),
    (sget c s').1 = (sget c (swrites c s ws).1).1 →
    (sget c (sundo s' (swrites c s ws).2)).1 = (sget c s).1 := by
  intro ws
  have hget : ∀ t : SCache V, (sget c t).1 = vis c (sraw t) := fun t => (simple_ops_spec c t c.empty).1
  have happ : ∀ (a b : List V) (t : SCache V), sundo t (a ++ b) = sundo (sundo t b) a := by
    intro a b t
    induction a with
    | nil => rfl
    | cons x a ih => simp only [List.cons_append, sundo, ih]
  induction ws with
  | nil => intro s s' h; exact h
  | cons o ws ih =>
    intro s s' h
    simp only [swrites] at h ⊢
    rw [happ]
    have h2 := ih (swrite c s o).1 s' h
    generalize sundo s' (swrites c (swrite c s o).1 ws).2 = t at h2 ⊢
    rw [hget, hget] at h2 ⊢
    have hg := sgetPtr_spec s
    have e : sgetPtr s = (sraw s, (sgetPtr s).2) := by rw [← hg.1]
    cases o with
    | some v =>
      simp only [swrite, sset] at h2 ⊢; rw [e]
      cases sraw s <;> simp [sundo, sraw_setSelf, vis, c.empty_ok]
    | none =>
      simp only [swrite, serase] at h2 ⊢; rw [e] at h2 ⊢
      cases hs : sraw s with
      | none => rw [hs] at h2; simp only [sundo] at h2 ⊢; rw [h2, hg.2, hs]
      | some w =>
        rw [hs] at h2
        by_cases hv : c.vEmpty w
        · simp only [hv, if_true, sundo] at h2 ⊢; rw [h2, hg.2, hs]
        · simp [hv, sundo, sraw_setSelf]

/-! ## Concrete instances of the hypotheses -/

/-- `uint32` keys with 0 as the empty key, `uint64` values with 0 as the empty value. -/
def natCfg : Cfg Nat Nat where
  kEmpty k := k == 0
  vEmpty v := v == 0
  empty := 0
  empty_ok := rfl
  lt a b := decide (a < b)
  dbLt a b := decide (a < b)

theorem natCfg_order : StrictTotal natCfg.lt where
  irrefl a := by simp [natCfg]
  trans a b d h1 h2 := by simp [natCfg] at *; omega
  total a b h1 h2 := by simp [natCfg] at *; omega

/-- A three-layer stack with a tombstone, driven through every kind of operation. -/
example : (run natCfg (.over [(1, 5)] (.over [(2, 0), (3, 9)] (.root [] [(2, 7), (4, 8)])))
    [.get 2, .set 2 6, .erase 4, .get 4, .flush, .drop, .get 2, .has 4, .set 0 1]).1
    = [.value none, .bool true, .bool true, .value none, .unit, .unit, .value (some 6),
       .bool false, .bool false] := by decide

example : WF natCfg (.over [(1, 5)] (.over [(2, 0), (3, 9)] (.root [] [(2, 7), (4, 8)]))) := by
  simp [WF, SortedBy, natCfg]

/-- Two blocks on two tables (indexed by `Bool`), a write, an overwrite and an erase. -/
example : ∃ us w', Connects (fun _ : Bool => natCfg) (fun _ => .root [] [(1, 1)]) us w' ∧
    live natCfg (w' true) 1 = none ∧ live natCfg (w' false) 1 = some 4 ∧ us.length = 2 := by
  refine ⟨_, _, .cons [[(true, .set 1 2), (false, .set 1 3)], [(true, .erase 1)]] (fun _ _ => rfl)
    (.cons [[(false, .set 1 4)]] (fun _ _ => rfl) (.nil (fun _ _ => rfl))), ?_, ?_, rfl⟩ <;> decide

/-- Several writes and an erase on a two-layer single-value table, then undone. -/
example : let s : SCache Nat := .over none (.root none (some 7))
    swrites natCfg s [some 3, none, some 4] =
      (.over (some 4) (.root (some 7) (some 7)), [7, 3, 0]) ∧
    (sget natCfg (sundo (swrites natCfg s [some 3, none, some 4]).1 [7, 3, 0])).1 = some 7 := by
  constructor <;> rfl

end Verif.KV
