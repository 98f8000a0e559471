import Verif.Intake.MixedProcess
import Verif.Intake.OperatorProps

/-!
# Blocks and operator commands in any order: properties
-/
namespace Verif.Intake

/-- What can happen to the node: a block arrives, or the operator gives a command. -/
inductive Action where
  | block (v : Event)
  | invalidate (prot : List Nat) (h : Nat) (flush : Bool)
  | reconsider (prot : List Nat) (h : Nat) (children : Bool)

def act (e : Env) (st : St) : Action → Option St
  | .block v => (process e v.inp v.peer st v.blk).map (·.1)
  | .invalidate prot h flush => invalidateCmd e prot st h flush
  | .reconsider prot h children => reconsiderCmd e prot st h children

/-- A history of blocks and commands. -/
def runAll (e : Env) : List Action → St → Option St
  | [], st => some st
  | a :: as, st => (act e st a).bind (runAll e as)

theorem act_safe {e : Env} {st s : St} {a : Action} (h : Safe e st) (ha : act e st a = some s) : Safe e s := by
  cases a with
  | block v =>
    obtain ⟨⟨t, ok⟩, h1, rfl⟩ := Option.map_eq_some_iff.1 ha
    exact (process_safe h h1).1
  | invalidate prot x flush => exact invalidateCmd_safe h ha
  | reconsider prot x children => exact (reconsiderCmd_safe h ha).1

theorem runAll_safe {e : Env} {as : List Action} {st s : St} (h : Safe e st) (hr : runAll e as st = some s) : Safe e s := by
  induction as generalizing st with
  | nil => cases hr; exact h
  | cons a as ih =>
    obtain ⟨t, h1, h2⟩ := Option.bind_eq_some_iff.1 hr
    exact ih (act_safe h h1) h2

theorem init_safe (e : Env) : Safe e (init e) :=
  have h := (init_inv e).1
  ⟨h.tree, h.act, h.sound, Or.inr h.most, h.forks⟩

/-! ## C167: the active chain under blocks and commands in any order -/

/-- After any mix of blocks and commands the active chain is a linked chain from genesis whose blocks all passed `ConnectBlock` on
exactly the chain below them. -/
theorem mixed_chain_sound {e : Env} {as : List Action} {st : St} (h : runAll e as (init e) = some st) :
    Linked e st.active ∧ Sound e st.active :=
  have s := runAll_safe (init_safe e) h
  ⟨s.tree.linked _ s.act, s.sound⟩

/-- After any mix of blocks and commands, a block of the active chain that may not be disconnected while a block is processed or a
block is reconsidered stays in the active chain. -/
theorem mixed_final_stay {e : Env} {as : List Action} {st s : St} (h : runAll e as (init e) = some st) {x : Blk} (hx : x ∈ st.active) :
    (∀ inp peer b ok, (∀ a, x.hash ∈ inp.prot a) → process e inp peer st b = some (s, ok) → x ∈ s.active) ∧
    (∀ prot k children, x.hash ∈ prot → reconsiderCmd e prot st k children = some s → x ∈ s.active) :=
  have sf := runAll_safe (init_safe e) h
  ⟨fun _ _ _ _ hp hs => (process_safe sf hs).2 x hx hp, fun _ _ _ hp hs => (reconsiderCmd_safe sf hs).2 x hx hp⟩

/-- The genesis block is never left, not even when the operator invalidates it. -/
theorem mixed_genesis {e : Env} {as : List Action} {st : St} (h : runAll e as (init e) = some st) : e.genesis ∈ st.active := by
  have key : ∀ l, Sound e l → e.genesis ∈ l := by
    intro l
    induction l with
    | nil => intro h; exact h.elim
    | cons b r ih =>
      intro h
      cases r with
      | nil => rw [show b = e.genesis from h]; simp
      | cons p r => exact List.mem_cons_of_mem _ (ih h.2)
  exact key _ (mixed_chain_sound h).2

/-- The delivered blocks are tame (C102); commands are arbitrary. -/
def TameAction : Action → Prop
  | .block v => Tame v.blk
  | _ => True

theorem init_marks (e : Env) : Marks e (init e).idx := by
  constructor
  · intro n hn _
    simp only [init, List.mem_singleton] at hn
    rw [hn]
  · intro n hn hc
    simp only [init, List.mem_singleton] at hn
    rw [hn] at hc
    simp at hc

/-- No mix of tame blocks and commands makes the node fail an assertion, dereference null or loop for ever, although after a command
flags no longer tell sound chains from unsound ones. -/
theorem mixed_never_stops (e : Env) (as : List Action) (hv : ∀ a ∈ as, TameAction a) : runAll e as (init e) ≠ none := by
  suffices key : ∀ (as : List Action) (s0 : St), (∀ a ∈ as, TameAction a) → Whole e s0 → Pool [] s0 → (∀ o ∈ s0.orphans, Tame o) →
      runAll e as s0 ≠ none from key as _ hv ⟨init_safe e, init_marks e⟩ (init_inv e).2 (by simp [init])
  intro as
  induction as with
  | nil => intro s0 _ _ _ _; simp [runAll]
  | cons a as ih =>
    intro s0 hv w pl ho
    have next : ∀ t, act e s0 a = some t → Whole e t → Pool [] t → (∀ o ∈ t.orphans, Tame o) → runAll e (a :: as) s0 ≠ none := by
      intro t h1 h2 h3 h4
      unfold runAll
      rw [h1]
      exact ih t (fun b hb => hv b (by simp [hb])) h2 h3 h4
    cases a with
    | invalidate prot h flush =>
      obtain ⟨t, h1, h2, h3, h4⟩ := invalidateCmd_whole (prot := prot) w pl h flush
      exact next t h1 h2 h3 (by rw [h4]; exact ho)
    | reconsider prot h children =>
      obtain ⟨t, h1, h2, h3, h4⟩ := reconsiderCmd_whole (prot := prot) w pl h children
      exact next t h1 h2 h3 (by rw [h4]; exact ho)
    | block v =>
      have hv0 : Tame v.blk := hv (.block v) (by simp)
      rcases process_whole (inp := v.inp) (peer := v.peer) w pl v.blk with ⟨-, h⟩ | ⟨t, ok, p1, p2, p3, p5⟩
      · exfalso
        rcases h with ⟨h1, h2⟩ | ⟨k, hk, h1, h2⟩
        · rcases hv0 with h | ⟨h3, h4⟩
          · exact h1 h
          · rcases h2 with h2 | h2
            · rw [h2] at h3; simp at h3
            · exact h4 h2
        · rcases ho k hk with h | ⟨h3, -⟩
          · exact h1 h
          · rw [h2] at h3; simp at h3
      · refine next t (by simp [act, p1]) p2 p3 ?_
        intro o hoo
        rcases p5 o hoo with h | h
        · exact ho o h
        · rw [h]; exact hv0

/-- Invalidating is not bound by finality: block 2 is protected and disconnected all the same. -/
theorem invalidate_final_violated : ∃ st s, deliver [blk 2 1 1 0, blk 3 2 2 0] = some st ∧ tips (some st) = some [3, 2, 1] ∧
    invalidateCmd demo [2] st 2 false = some s ∧ tips (some s) = some [1] :=
  ⟨_, _, rfl, by decide +kernel, rfl, by decide +kernel⟩

example : ∀ a ∈ ([.block ⟨calm, true, blk 3 2 2 0⟩, .invalidate [] 1 true, .block ⟨calm, true, blk 2 1 1 9⟩,
    .reconsider [2] 7 true] : List Action), TameAction a := by
  intro a ha
  simp [blk] at ha
  rcases ha with rfl | rfl | rfl | rfl <;> simp [TameAction, Tame]

/-- A history with forks, an unsound block, an orphan and commands in between, also on genesis. -/
example : tips (runAll demo [.block ⟨calm, true, blk 2 1 1 0⟩, .block ⟨calm, true, blk 3 2 2 0⟩, .block ⟨calm, true, blk 12 1 1 0⟩,
      .invalidate [] 2 false, .block ⟨calm, true, blk 14 13 3 0⟩, .block ⟨calm, true, blk 13 12 2 0⟩, .invalidate [] 1 true,
      .reconsider [] 3 true] (init demo)) = some [3, 2, 1] := by decide +kernel

end Verif.Intake
