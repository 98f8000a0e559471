import Verif.Wasm.Coins

/-! Where the authority of the actions of a transaction comes from. -/
namespace Verif.Wasm

open Verif.Account Verif.Ledger

/-- A contract running at number `r` for the action `f` may give permission `p` to the action `a` it issues: its own code permission;
or, for an action to itself, its own number or a permission of `f`. -/
def Grant (r : Nat) (f a : Act) (p : Perm) : Prop :=
  p = ⟨r, codePerm⟩ ∨ (a.contract = r ∧ isNative r = false ∧ (p.account = r ∨ p ∈ f.auth))

/-- Why an action runs: it is one of the transaction, or was issued by a contract that ran before. -/
inductive Why (acts : List Act) (pre : List Entry) (d : Nat) (a : Act) : Option Nat → Prop
  | own (h : a ∈ acts) (hd : d = 0) : Why acts pre d a none
  | issued (f : Entry) (hf : f ∈ pre) (hr : f.ran = true) (hd : d = f.depth + 1) (hg : ∀ p ∈ a.auth, Grant f.recv f.act a p) :
      Why acts pre d a (some f.recv)

/-- Every execution in a trace has a reason before it, and the native contracts run only when they are called. -/
def Justified (acts : List Act) (l : List Entry) : Prop :=
  ∀ pre e post, l = pre ++ e :: post →
    Why acts pre e.depth e.act e.issuer ∧ e.depth < maxDepth ∧ (isNative e.recv = true → e.recv = e.act.contract) ∧
      (isNative e.recv = true → e.ran = true)

/-- The native contracts have no accounts. -/
def NoNative (W : World) (σ : State) : Prop := ∀ v, isNative v = true → lookup W σ v = none

theorem Why.mono {acts : List Act} {pre l : List Entry} {d : Nat} {a : Act} {iss : Option Nat} (h : Why acts pre d a iss) :
    Why acts (pre ++ l) d a iss := by
  cases h with
  | own h hd => exact .own h hd
  | issued f hf hr hd hg => exact .issued f (List.mem_append_left _ hf) hr hd hg

theorem justified_append {acts : List Act} {l : List Entry} {e : Entry} (h : Justified acts l)
    (he : Why acts l e.depth e.act e.issuer ∧ e.depth < maxDepth ∧ (isNative e.recv = true → e.recv = e.act.contract) ∧
      (isNative e.recv = true → e.ran = true)) : Justified acts (l ++ [e]) := by
  intro pre x post hx
  rcases List.eq_nil_or_concat post with rfl | ⟨post', y, rfl⟩
  · obtain ⟨h1, h2⟩ := List.append_inj' hx rfl
    cases h2
    rw [← h1]
    exact he
  · have : l ++ [e] = (pre ++ x :: post') ++ [y] := by rw [hx]; simp
    obtain ⟨h1, _⟩ := List.append_inj' this rfl
    exact h pre x post' h1

theorem permOk_grant {recv : Nat} {cur a : Act} {p : Perm} (h : permOk recv cur a p = true) (hn : isNative recv = false) :
    Grant recv cur a p := by
  unfold permOk at h
  obtain ⟨u, w⟩ := p
  split at h; · cases h
  split at h
  · rename_i _ h1; exact .inr ⟨h1.1, hn, .inl h1.2⟩
  split at h; · cases h
  rename_i h2
  split at h; · cases h
  rename_i h3
  by_cases hc : a.contract = recv
  · refine .inr ⟨hc, hn, .inr ?_⟩
    by_contra hm
    exact h2 ⟨hc, hm⟩
  · left
    have : ¬ (u ≠ recv ∨ w ≠ codePerm) := fun e => h3 ⟨hc, e⟩
    simp only [ne_eq, not_or, not_not] at this
    rw [this.1, this.2]

theorem noNative_step {W : World} {a : Act} {recv : Nat} {σ σ' : State} (hC : ∀ v, isNative v = true → RegId.ofInt v ≠ W.cord)
    (h : NoNative W σ) (hs : Step W a recv σ σ') : NoNative W σ' := by
  intro v hv
  have h0 := h v hv
  obtain ⟨_, _, _, hr, _⟩ := hs.frame
  unfold lookup at *
  split
  · rename_i hc; rw [if_pos hc] at h0; cases h0
  rename_i hc
  rw [if_neg hc] at h0
  rcases hr with ⟨h1, _, _⟩ | ⟨x, rfl, _, _⟩
  · rw [h1]; exact h0
  · simp only [Wasm.deploy]
    rw [if_neg (hC v hv)]
    exact h0

/-- The rule for authority. -/
def authPolicy (W : World) (acts : List Act) (hC : ∀ v, isNative v = true → RegId.ofInt v ≠ W.cord) : Policy W where
  P := fun σ => Justified acts σ.log ∧ NoNative W σ
  Ok := fun σ d iss a => Why acts σ.log d a iss
  mono := by
    intro σ σ' d iss a he h
    obtain ⟨l, e⟩ := he
    rw [e]
    exact h.mono
  step := by
    intro σ σ' d iss a recv hP _ _ hs
    refine ⟨?_, noNative_step hC hP.2 hs⟩
    rw [hs.frame.1]
    exact hP.1
  log := by
    intro σ d iss a recv hP hok hd hr
    refine ⟨justified_append hP.1 ⟨hok, hd, fun hn => ?_, fun hn => ?_⟩, hP.2⟩
    · rcases hr with hr | hr
      · exact hr
      · unfold Known at hr
        rw [hP.2 recv hn] at hr
        cases hr
    · show (isNative recv || _) = true
      rw [hn]; rfl
  inl := by
    intro σ d iss a recv x hP hok hat hperm hnat hcode
    obtain ⟨_, f, hf, rfl, rfl, rfl, hran⟩ := hat
    refine .issued f hf hran rfl fun p hp => ?_
    have hpk := List.all_eq_true.1 hperm p hp
    cases hn : isNative f.recv with
    | false => exact permOk_grant hpk hn
    | true =>
      obtain ⟨h1, h2⟩ := hnat hn
      rw [h2] at hp
      rw [List.mem_singleton.1 hp, h1]
      exact .inl rfl

variable {W : World} {σ σ' : State} {tx : Tx} {t : Nat}

theorem trace_justified (hC : ∀ v, isNative v = true → RegId.ofInt v ≠ W.cord) (hN : NoNative W σ) (h : runTx W σ tx t = some σ') :
    Justified tx.acts σ'.log := by
  obtain ⟨s, hs, rfl, _⟩ := runTx_some h
  refine (runActs_policy (authPolicy W tx.acts hC) tx.acts (σ := start σ tx) ⟨?_, hN⟩ (fun a ha => .own ha rfl) hs).1
  intro pre e post hx
  simp [start] at hx

/-- The authority of an action of the trace: given by the transaction, or that of a contract that ran before. -/
theorem origin {acts : List Act} : ∀ (n : Nat) {l pre post : List Entry} {e : Entry}, pre.length ≤ n → Justified acts l →
    l = pre ++ e :: post → ∀ p ∈ e.act.auth,
      (∃ a ∈ acts, p ∈ a.auth) ∨ ∃ f ∈ pre, f.ran = true ∧ f.recv = p.account := by
  intro n
  induction n with
  | zero =>
    intro l pre post e hn hJ hl p hp
    obtain ⟨hw, _⟩ := hJ pre e post hl
    have : pre = [] := List.length_eq_zero_iff.1 (by omega)
    subst this
    cases hi : e.issuer with
    | none => rw [hi] at hw; cases hw with | own h _ => exact .inl ⟨_, h, hp⟩
    | some r => rw [hi] at hw; cases hw with | issued f hf => cases hf
  | succ n ih =>
    intro l pre post e hn hJ hl p hp
    obtain ⟨hw, _⟩ := hJ pre e post hl
    cases hi : e.issuer with
    | none => rw [hi] at hw; cases hw with | own h _ => exact .inl ⟨_, h, hp⟩
    | some r =>
      rw [hi] at hw
      cases hw with
      | issued f hf hr hd hg =>
        rcases hg p hp with h | ⟨_, _, h | h⟩
        · exact .inr ⟨f, hf, hr, by rw [h]⟩
        · exact .inr ⟨f, hf, hr, h.symm⟩
        · obtain ⟨pre', post', rfl⟩ := List.append_of_mem hf
          rcases ih (l := l) (pre := pre') (e := f) (post := post' ++ e :: post) (by simp at hn; omega) hJ (by rw [hl]; simp) p h with
            h' | ⟨g, hg, h1, h2⟩
          · exact .inl h'
          · exact .inr ⟨g, List.mem_append_left _ hg, h1, h2⟩

/-- At the native contracts: the action is one of the transaction, or a contract that ran before issued it with its own code permission
only. -/
theorem native_why {acts : List Act} {l pre post : List Entry} {e : Entry} (hJ : Justified acts l) (hl : l = pre ++ e :: post)
    (hn : isNative e.recv = true) :
    e.act ∈ acts ∨ ∃ f ∈ pre, f.ran = true ∧ e.issuer = some f.recv ∧ ∀ p ∈ e.act.auth, p = ⟨f.recv, codePerm⟩ := by
  obtain ⟨hw, _, hc, _⟩ := hJ pre e post hl
  have hc := hc hn
  cases hi : e.issuer with
  | none => rw [hi] at hw; cases hw with | own h _ => exact .inl h
  | some r =>
    rw [hi] at hw
    cases hw with
    | issued f hf hr hd hg =>
      refine .inr ⟨f, hf, hr, rfl, fun p hp => ?_⟩
      rcases hg p hp with h | ⟨h1, h2, _⟩
      · exact h
      · rw [← hc.trans h1, hn] at h2; cases h2

end Verif.Wasm
