import Verif.Wasm.Model

/-! What an execution consists of: single effects, and a rule to prove what all executions preserve. -/
namespace Verif.Wasm

open Verif.Account Verif.Ledger

/-- What the bank does to the books, and with what authority. -/
inductive BankEv (W : World) (σ : State) (a : Act) : Asset.Ev → Prop
  | transfer {u u' f t s v} (ha : hasAuth a u = true) (hf : lookup W σ u = some f) (ht : lookup W σ u' = some t) (hv : v < 2 ^ 62) :
      BankEv W σ a (.other [⟨f, s, .subFree, v, some t⟩])
  | issue {u r auth s n mi ok} (hu : ∀ k, auth k = hasAuth a u) (hr : lookup W σ u = some r) :
      BankEv W σ a (.bankIssue W.env auth s r n mi ok)
  | mintBurn {u t auth mint s v ok} (hu : ∀ k, auth k = hasAuth a (σ.regOf k).toInt) (ht : lookup W σ u = some t) :
      BankEv W σ a (.bankMintBurn W.env auth mint t s v ok)
  | update {auth s o ok} (hu : ∀ k, auth k = hasAuth a (σ.regOf k).toInt) : BankEv W σ a (.bankUpdate W.env auth s o ok)

/-- One effect of running action `a` at `recv`. -/
inductive Step (W : World) (a : Act) (recv : Nat) : State → State → Prop
  | fuel {σ} (f : Nat) (h : σ.fuel ≤ f) : Step W a recv σ { σ with fuel := f }
  | bank {σ σ' e} (hr : recv = bank) (he : BankEv W σ a e) (h : onBooks σ e = some σ') : Step W a recv σ σ'
  | deploy {σ} (x : CodeArgs) (hr : recv = wasmio) (hn : σ.contracts W.cord = none) : Step W a recv σ (deploy W σ x)
  | code {σ} (r : RegId) (k k' : Contract) (hr : recv = wasmio) (hk : σ.contracts r = some k)
      (ha : hasAuth a k.maintainer.toInt = true) (hu : k'.upgradable = k.upgradable) : Step W a recv σ (setContract σ r k')
  | vote {σ r n} (x : VoteArgs) (hr : recv = voting) (h0 : W.voteContract ≠ 0) (ha : hasAuth a W.voteContract = true)
      (hx : a.action = nm "vote" ∧ W.dec.vote a.data = some x) (hl : lookup W σ x.candidate = some r)
      (hv : addVotes (σ.books.mem r).receivedVotes x.votes = some n) :
      Step W a recv σ (setVotes σ r (RegId.ofInt x.candidate) (σ.books.mem r).receivedVotes n)
  | reward {σ σ' u r} (hr : recv = voting) (h0 : W.voteContract ≠ 0) (ha : hasAuth a W.voteContract = true)
      (hl : lookup W σ u = some r) (h : payReward σ r W.cord.h = some σ') : Step W a recv σ σ'
  | data {σ} (k : List Nat) (v : Option (List Nat)) (n : Nat) (hr : isNative recv = false)
      (hc : (σ.contracts (RegId.ofInt recv)).isSome = true) : Step W a recv σ (setData σ recv k v n)

/-- The trace so far is kept. -/
def Ext (σ σ' : State) : Prop := ∃ l, σ'.log = σ.log ++ l

theorem Ext.refl (σ : State) : Ext σ σ := ⟨[], by simp⟩

theorem Ext.trans {a b c : State} (h : Ext a b) (h' : Ext b c) : Ext a c := by
  obtain ⟨l, e⟩ := h
  obtain ⟨l', e'⟩ := h'
  exact ⟨l ++ l', by rw [e', e, List.append_assoc]⟩

theorem Ext.mem {σ σ' : State} (h : Ext σ σ') {e : Entry} (he : e ∈ σ.log) : e ∈ σ'.log := by
  obtain ⟨l, e'⟩ := h
  rw [e']
  exact List.mem_append_left _ he

theorem onBooks_some {σ σ' : State} {e : Asset.Ev} (h : onBooks σ e = some σ') :
    ∃ b, Asset.apply σ.books e = some b ∧ σ' = { σ with books := b, evs := σ.evs ++ [e] } := by
  unfold onBooks at h
  cases hb : Asset.apply σ.books e with
  | none => rw [hb] at h; cases h
  | some b => rw [hb] at h; cases h; exact ⟨b, rfl, rfl⟩

theorem payReward_some {σ σ' : State} {r : Ref} {h : Nat} (hp : payReward σ r h = some σ') :
    (∃ w, σ' = { σ with reward := w }) ∨
    (∃ w σ1, σ.reward.start ≠ 0 ∧ onBooks σ (.other [⟨r, Asset.WICC, .addFree, σ.reward.fresh, none⟩]) = some σ1 ∧
      σ' = { σ1 with reward := w }) := by
  unfold payReward at hp
  split at hp
  · cases hp; exact .inl ⟨_, rfl⟩
  rename_i h0
  split at hp
  · cases hp
  simp only at hp
  split at hp
  · cases hp; exact .inl ⟨_, rfl⟩
  split at hp
  · cases hp
  rename_i _ σ1 h1
  cases hp
  exact .inr ⟨_, σ1, h0, h1, rfl⟩

/-- The tables an effect leaves alone or only extends. -/
theorem Step.frame {W : World} {a : Act} {recv : Nat} {σ σ' : State} (h : Step W a recv σ σ') :
    σ'.log = σ.log ∧ σ'.recips = σ.recips ∧ σ.fuel ≤ σ'.fuel ∧
    ((σ'.reg = σ.reg ∧ σ'.regOf = σ.regOf ∧ σ'.pub = σ.pub) ∨ ∃ x, σ' = Wasm.deploy W σ x ∧ σ.contracts W.cord = none ∧ recv = wasmio) ∧
    (∀ r, r ≠ RegId.ofInt recv → σ'.data r = σ.data r) := by
  cases h with
  | fuel f h => exact ⟨rfl, rfl, h, .inl ⟨rfl, rfl, rfl⟩, fun _ _ => rfl⟩
  | bank hr he h =>
    obtain ⟨b, _, rfl⟩ := onBooks_some h
    exact ⟨rfl, rfl, le_refl _, .inl ⟨rfl, rfl, rfl⟩, fun _ _ => rfl⟩
  | deploy x hr hn => exact ⟨rfl, rfl, le_refl _, .inr ⟨x, rfl, hn, hr⟩, fun _ _ => rfl⟩
  | code r k k' => exact ⟨rfl, rfl, le_refl _, .inl ⟨rfl, rfl, rfl⟩, fun _ _ => rfl⟩
  | vote => exact ⟨rfl, rfl, le_refl _, .inl ⟨rfl, rfl, rfl⟩, fun _ _ => rfl⟩
  | reward hr h0 ha hl h =>
    rcases payReward_some h with ⟨w, rfl⟩ | ⟨w, σ1, _, h1, rfl⟩
    · exact ⟨rfl, rfl, le_refl _, .inl ⟨rfl, rfl, rfl⟩, fun _ _ => rfl⟩
    · obtain ⟨b, _, rfl⟩ := onBooks_some h1
      exact ⟨rfl, rfl, le_refl _, .inl ⟨rfl, rfl, rfl⟩, fun _ _ => rfl⟩
  | data k v n hr hc =>
    refine ⟨rfl, rfl, Nat.le_add_right _ _, .inl ⟨rfl, rfl, rfl⟩, fun r hn => ?_⟩
    funext q
    simp [setData, hn]

/-- The number is one `GetAccount` finds. -/
def Known (W : World) (σ : State) (v : Nat) : Prop := (lookup W σ v).isSome = true

theorem known_of_reg {W : World} {σ : State} {v : Nat} (h : (σ.reg (RegId.ofInt v)).isSome = true) : Known W σ v := by
  unfold Known lookup
  split <;> simp [h]

theorem known_of_lookup {W : World} {σ : State} {v : Nat} {r : Ref} (h : lookup W σ v = some r) : Known W σ v := by
  unfold Known; rw [h]; rfl

theorem Step.known {W : World} {a : Act} {recv : Nat} {σ σ' : State} (h : Step W a recv σ σ') {v : Nat} (hk : Known W σ v) :
    Known W σ' v := by
  obtain ⟨_, _, _, hr, _⟩ := h.frame
  unfold Known lookup at *
  split
  · rfl
  rename_i hc
  rw [if_neg hc] at hk
  rcases hr with ⟨h1, _, _⟩ | ⟨x, rfl, _, _⟩
  · rw [h1]; exact hk
  · simp only [Wasm.deploy]
    split
    · rfl
    · exact hk

/-! ## The rule -/

/-- The action runs at `recv`: this is the contract called or a notified account, and it is in the trace. -/
def At (W : World) (σ : State) (d : Nat) (a : Act) (recv : Nat) : Prop :=
  (recv = a.contract ∨ Known W σ recv) ∧ ∃ e ∈ σ.log, e.act = a ∧ e.recv = recv ∧ e.depth = d ∧ e.ran = true

/-- A property of states, and when an action may run, such that executions preserve the property. -/
structure Policy (W : World) where
  P : State → Prop
  Ok : State → Nat → Option Nat → Act → Prop
  mono : ∀ {σ σ' d iss a}, Ext σ σ' → Ok σ d iss a → Ok σ' d iss a
  step : ∀ {σ σ' d iss a recv}, P σ → Ok σ d iss a → At W σ d a recv → Step W a recv σ σ' → P σ'
  log : ∀ {σ d iss a recv}, P σ → Ok σ d iss a → d < maxDepth → (recv = a.contract ∨ Known W σ recv) → P (logEntry σ a recv d iss)
  inl : ∀ {σ d iss a recv x}, P σ → Ok σ d iss a → At W σ d a recv → x.auth.all (permOk recv a x) = true →
    (isNative recv = true → recv = voting ∧ x = ⟨W.voteContract, nm "on_mint", [⟨voting, codePerm⟩], x.data⟩) →
    (isNative recv = false → (σ.contracts (RegId.ofInt recv)).isSome = true) → Ok σ (d + 1) (some recv) x

/-- What holds of a context while it runs. -/
structure CI {W : World} (p : Policy W) (d : Nat) (iss : Option Nat) (a : Act) (c : Ctx) : Prop where
  P : p.P c.σ
  ok : p.Ok c.σ d iss a
  inl : ∀ x ∈ c.inl, p.Ok c.σ (d + 1) (some x.1) x.2
  recs : ∀ r ∈ c.notified, r = a.contract ∨ Known W c.σ r
  len : c.notified.length ≤ maxRecipients

variable {W : World} {p : Policy W} {d : Nat} {iss : Option Nat} {a : Act} {c c' : Ctx} {recv : Nat}

theorem At.step {σ σ' : State} (h : At W σ d a recv) (hs : Step W a recv σ σ') : At W σ' d a recv := by
  refine ⟨h.1.imp id hs.known, ?_⟩
  rw [hs.frame.1]
  exact h.2

/-- The context after one effect. -/
theorem ci_step {σ' : State} (hc : CI p d iss a c) (hat : At W c.σ d a recv) (hs : Step W a recv c.σ σ') :
    CI p d iss a { c with σ := σ' } ∧ At W σ' d a recv ∧ Ext c.σ σ' := by
  have he : Ext c.σ σ' := ⟨[], by rw [hs.frame.1, List.append_nil]⟩
  exact ⟨⟨p.step hc.P hc.ok hat hs, p.mono he hc.ok, fun x hx => p.mono he (hc.inl x hx),
    fun r hr => (hc.recs r hr).imp id hs.known, hc.len⟩, hat.step hs, he⟩

theorem ci_notify {r : Nat} (hc : CI p d iss a c) (hr : Known W c.σ r) (h : notifyRec c r = some c') :
    CI p d iss a c' ∧ c'.σ = c.σ := by
  unfold notifyRec at h
  rw [ite_eq_iff] at h
  rcases h with ⟨hl, h⟩ | ⟨_, h⟩
  · cases h
    refine ⟨⟨hc.P, hc.ok, hc.inl, fun q hq => ?_, hl⟩, rfl⟩
    simp only at hq
    split at hq
    · exact hc.recs q hq
    · rcases List.mem_append.1 hq with hq | hq
      · exact hc.recs q hq
      · rw [List.mem_singleton.1 hq]; exact .inr hr
  · cases h

theorem ci_inline {x : Act} (hc : CI p d iss a c) (hat : At W c.σ d a recv)
    (h1 : isNative recv = true → recv = voting ∧ x = ⟨W.voteContract, nm "on_mint", [⟨voting, codePerm⟩], x.data⟩)
    (h2 : isNative recv = false → (c.σ.contracts (RegId.ofInt recv)).isSome = true)
    (h : executeInline recv a c x = some c') : CI p d iss a c' ∧ c'.σ = c.σ := by
  unfold executeInline at h
  split at h
  · rename_i hp
    cases h
    refine ⟨⟨hc.P, hc.ok, fun y hy => ?_, hc.recs, hc.len⟩, rfl⟩
    rcases List.mem_append.1 hy with hy | hy
    · exact hc.inl y hy
    · rw [List.mem_singleton.1 hy]
      exact p.inl hc.P hc.ok hat hp h1 h2
  · cases h

theorem ci_host {x : Host} (hc : CI p d iss a c) (hat : At W c.σ d a recv) (hn : isNative recv = false)
    (hk : (c.σ.contracts (RegId.ofInt recv)).isSome = true) (h : host recv a c x = some c') :
    CI p d iss a c' ∧ At W c'.σ d a recv ∧ Ext c.σ c'.σ ∧ (c'.σ.contracts (RegId.ofInt recv)).isSome = true := by
  cases x with
  | notify r =>
    simp only [host] at h
    split at h
    · rename_i hr
      obtain ⟨h1, h2⟩ := ci_notify hc (known_of_reg hr) h
      rw [h2]
      exact ⟨h1, hat, Ext.refl _, hk⟩
    · cases h
  | inline y =>
    obtain ⟨h1, h2⟩ := ci_inline hc hat (fun e => by rw [hn] at e; cases e) (fun _ => hk) h
    rw [h2]
    exact ⟨h1, hat, Ext.refl _, hk⟩
  | store k v =>
    simp only [host, hk, if_true, Option.some.injEq] at h
    subst h
    obtain ⟨h1, h2, h3⟩ := ci_step hc hat (.data k (some v) (8 + k.length + v.length) hn hk)
    exact ⟨h1, h2, h3, hk⟩
  | remove k =>
    simp only [host, hk, if_true, Option.some.injEq] at h
    subst h
    obtain ⟨h1, h2, h3⟩ := ci_step hc hat (.data k none (8 + k.length) hn hk)
    exact ⟨h1, h2, h3, hk⟩

theorem ci_hosts (hn : isNative recv = false) : ∀ (hs : List Host) {c : Ctx}, CI p d iss a c → At W c.σ d a recv →
    (c.σ.contracts (RegId.ofInt recv)).isSome = true → hosts recv a c hs = some c' → CI p d iss a c' ∧ Ext c.σ c'.σ
  | [], c, hc, _, _, h => by
    simp only [hosts, Option.some.injEq] at h
    subst h
    exact ⟨hc, Ext.refl _⟩
  | x :: xs, c, hc, hat, hk, h => by
    simp only [hosts] at h
    split at h
    · cases h
    · rename_i _ c1 h1
      obtain ⟨i1, i2, i3, i4⟩ := ci_host hc hat hn hk h1
      obtain ⟨j1, j2⟩ := ci_hosts hn xs i1 i2 i4 h
      exact ⟨j1, i3.trans j2⟩

/-! ## Native contracts -/

theorem lookup_fuel (σ : State) (a : Act) (v : Nat) : lookup W (addFuel W σ a) v = lookup W σ v := rfl

/-- Charging an action and then an event on the books. -/
theorem ci_bank {σ' : State} {e : Asset.Ev} (hc : CI p d iss a c) (hat : At W c.σ d a bank) (he : BankEv W (addFuel W c.σ a) a e)
    (h : onBooks (addFuel W c.σ a) e = some σ') : CI p d iss a { c with σ := σ' } ∧ At W σ' d a bank ∧ Ext c.σ σ' := by
  obtain ⟨h1, h2, h3⟩ := ci_step hc hat (.fuel (c.σ.fuel + W.size a * storeFuel) (Nat.le_add_right _ _))
  obtain ⟨j1, j2, j3⟩ := ci_step h1 h2 (.bank rfl he h)
  exact ⟨j1, j2, h3.trans j3⟩

theorem known_onBooks {σ σ' : State} {e : Asset.Ev} {v : Nat} (h : onBooks (addFuel W σ a) e = some σ') (hk : Known W σ v) :
    Known W σ' v := by
  obtain ⟨b, _, rfl⟩ := onBooks_some h
  exact hk

theorem quantity_some {v : Int} {n : Nat} (h : quantity v = some n) : 0 < n ∧ n < 2 ^ 62 ∧ (n : Int) = v := by
  unfold quantity at h
  split at h
  · cases h; omega
  · cases h

theorem ci_transfer (hc : CI p d iss a c) (hat : At W c.σ d a bank) (h : transfer W a c = some c') :
    CI p d iss a c' ∧ Ext c.σ c'.σ := by
  unfold transfer at h
  split at h; · cases h
  rename_i _ x hx
  split at h; · cases h
  rename_i ha
  split at h; · cases h
  split at h; · cases h
  split at h; · cases h
  split at h
  · rename_i _ _ _ _ _ _ v f t hv hf ht
    split at h; · cases h
    split at h; · cases h
    rename_i _ _ σ hσ
    split at h; · cases h
    rename_i _ c1 h1
    obtain ⟨i1, i2, i3⟩ := ci_bank hc hat (.transfer (by simpa using ha) hf ht (quantity_some hv).2.1) hσ
    obtain ⟨j1, j2⟩ := ci_notify i1 (known_onBooks hσ (known_of_lookup hf)) h1
    have hk : Known W c1.σ x.dst := by rw [j2]; exact known_onBooks hσ (known_of_lookup ht)
    obtain ⟨k1, k2⟩ := ci_notify j1 hk h
    refine ⟨k1, ?_⟩
    rw [k2, j2]
    exact i3
  · cases h

theorem ci_issue (hc : CI p d iss a c) (hat : At W c.σ d a bank) (h : issue W a c = some c') : CI p d iss a c' ∧ Ext c.σ c'.σ := by
  unfold issue at h
  split at h; · cases h
  split at h; · cases h
  split at h; · cases h
  rename_i _ r hr
  simp only [Option.map_eq_some_iff] at h
  obtain ⟨σ, hσ, rfl⟩ := h
  obtain ⟨i1, _, i3⟩ := ci_bank hc hat (.issue (fun _ => rfl) hr) hσ
  exact ⟨i1, i3⟩

theorem ci_mintBurn {m : Bool} (hc : CI p d iss a c) (hat : At W c.σ d a bank) (h : mintBurn W m a c = some c') :
    CI p d iss a c' ∧ Ext c.σ c'.σ := by
  unfold mintBurn at h
  split at h; · cases h
  rename_i _ x hx
  split at h; · cases h
  split at h
  · rename_i _ _ _ v t hv ht
    split at h; · cases h
    rename_i _ σ hσ
    obtain ⟨i1, _, i3⟩ := ci_bank hc hat (.mintBurn (fun _ => rfl) ht) hσ
    split at h
    · obtain ⟨j1, j2⟩ := ci_notify i1 (known_onBooks hσ (known_of_lookup ht)) h
      refine ⟨j1, ?_⟩
      rw [j2]; exact i3
    · cases h; exact ⟨i1, i3⟩
  · cases h

theorem ci_update (hc : CI p d iss a c) (hat : At W c.σ d a bank) (h : update W a c = some c') : CI p d iss a c' ∧ Ext c.σ c'.σ := by
  unfold update at h
  split at h; · cases h
  split at h; · cases h
  simp only [Option.map_eq_some_iff] at h
  obtain ⟨σ, hσ, rfl⟩ := h
  obtain ⟨i1, _, i3⟩ := ci_bank hc hat (.update (fun _ => rfl)) hσ
  exact ⟨i1, i3⟩

theorem ci_bankRun (hc : CI p d iss a c) (hat : At W c.σ d a bank) (h : bankRun W a c = some c') : CI p d iss a c' ∧ Ext c.σ c'.σ := by
  unfold bankRun at h
  split at h; · exact ci_transfer hc hat h
  split at h; · exact ci_issue hc hat h
  split at h; · exact ci_mintBurn hc hat h
  split at h; · exact ci_mintBurn hc hat h
  split at h; · exact ci_update hc hat h
  cases h

theorem ci_wasmioRun (hc : CI p d iss a c) (hat : At W c.σ d a wasmio) (h : wasmioRun W a c = some c') :
    CI p d iss a c' ∧ Ext c.σ c'.σ := by
  unfold wasmioRun at h
  split at h
  · unfold setcode at h
    split at h; · cases h
    rename_i _ x hx
    split at h
    · split at h; · cases h
      rename_i hn
      cases h
      obtain ⟨h1, _, h3⟩ := ci_step hc hat (.deploy x rfl (by simpa using hn))
      exact ⟨h1, h3⟩
    · split at h; · cases h
      rename_i _ k hk
      split at h; · cases h
      split at h; · cases h
      rename_i ha
      simp only [Option.some.injEq] at h
      subst h
      obtain ⟨h1, _, h3⟩ := ci_step hc hat (.code (RegId.ofInt x.contract) k
        ⟨RegId.ofInt x.maintainer, k.upgradable, x.code, x.abi⟩ rfl hk (by simpa using ha) rfl)
      exact ⟨h1, h3⟩
  split at h
  · unfold setcoder at h
    split at h; · cases h
    rename_i _ x hx
    split at h; · cases h
    rename_i _ k hk
    split at h; · cases h
    rename_i ha
    simp only [Option.some.injEq] at h
    subst h
    obtain ⟨h1, _, h3⟩ := ci_step hc hat (.code (RegId.ofInt x.contract) k
      ⟨RegId.ofInt x.maintainer, k.upgradable, k.code, k.abi⟩ rfl hk (by simpa using ha) rfl)
    exact ⟨h1, h3⟩
  · cases h

theorem ci_votingRun (hc : CI p d iss a c) (hat : At W c.σ d a voting) (h : votingRun W a c = some c') :
    CI p d iss a c' ∧ Ext c.σ c'.σ := by
  obtain ⟨f1, f2, f3⟩ := ci_step hc hat (.fuel (c.σ.fuel + W.size a * storeFuel) (Nat.le_add_right _ _))
  unfold votingRun at h
  split at h
  · rename_i hact
    unfold vote at h
    split at h; · cases h
    rename_i _ x hx
    split at h; · cases h
    rename_i h0
    split at h; · cases h
    rename_i ha
    split at h; · cases h
    split at h; · cases h
    rename_i _ r hr
    split at h; · cases h
    rename_i _ n hn
    obtain ⟨i1, _, i3⟩ := ci_step f1 f2 (.vote x rfl h0 (by simpa using ha) ⟨hact, hx⟩ hr hn)
    obtain ⟨j1, j2⟩ := ci_notify i1 (known_of_lookup (r := r) hr) h
    refine ⟨j1, ?_⟩
    rw [j2]
    exact f3.trans i3
  split at h
  · unfold mintrewards at h
    split at h; · cases h
    rename_i _ x hx
    split at h; · cases h
    rename_i h0
    split at h; · cases h
    rename_i ha
    split at h; · cases h
    split at h; · cases h
    rename_i _ r hr
    split at h; · cases h
    rename_i _ σ hσ
    obtain ⟨i1, i2, i3⟩ := ci_step f1 f2 (.reward rfl h0 (by simpa using ha) hr hσ)
    obtain ⟨j1, j2⟩ := ci_inline i1 i2 (fun _ => ⟨rfl, rfl⟩) (fun e => absurd e (by decide)) h
    refine ⟨j1, ?_⟩
    rw [j2]
    exact f3.trans i3
  · cases h

/-! ## Execution -/

theorem ci_log (hd : d < maxDepth) (hc : CI p d iss a c) (hr : recv = a.contract ∨ Known W c.σ recv) :
    CI p d iss a { c with σ := logEntry c.σ a recv d iss } ∧ Ext c.σ (logEntry c.σ a recv d iss) := by
  have he : Ext c.σ (logEntry c.σ a recv d iss) := ⟨_, rfl⟩
  exact ⟨⟨p.log hc.P hc.ok hd hr, p.mono he hc.ok, fun x hx => p.mono he (hc.inl x hx), hc.recs, hc.len⟩, he⟩

theorem native_cases (h : isNative recv = true) : recv = wasmio ∨ recv = bank ∨ recv = voting := by
  simpa [isNative] using h

theorem ci_one (hd : d < maxDepth) (hc : CI p d iss a c) (hr : recv = a.contract ∨ Known W c.σ recv)
    (h : executeOne W a d iss c recv = some c') : CI p d iss a c' ∧ Ext c.σ c'.σ := by
  obtain ⟨l1, l2⟩ := ci_log hd hc hr
  unfold executeOne at h
  simp only at h
  have hat : (isNative recv || (program c.σ recv).isSome) = true → At W (logEntry c.σ a recv d iss) d a recv := fun hran =>
    ⟨hr, ⟨a, recv, d, iss, isNative recv || (program c.σ recv).isSome⟩, by simp [logEntry], rfl, rfl, rfl, hran⟩
  split at h
  · rename_i hn
    have hat := hat (by simp [hn])
    unfold nativeRun at h
    split at h
    · rename_i e; subst e
      obtain ⟨i1, i2⟩ := ci_bankRun l1 hat h
      exact ⟨i1, l2.trans i2⟩
    split at h
    · rename_i e; subst e
      obtain ⟨i1, i2⟩ := ci_wasmioRun l1 hat h
      exact ⟨i1, l2.trans i2⟩
    · rename_i e1 e2
      rcases native_cases hn with e | e | e
      · exact absurd e e2
      · exact absurd e e1
      subst e
      obtain ⟨i1, i2⟩ := ci_votingRun l1 hat h
      exact ⟨i1, l2.trans i2⟩
  · rename_i hn
    simp only [Bool.not_eq_true] at hn
    split at h
    · cases h; exact ⟨l1, l2⟩
    · rename_i _ code hcode
      split at h
      · cases h
      · rename_i _ hs _
        have hk : (c.σ.contracts (RegId.ofInt recv)).isSome = true := by
          unfold program at hcode
          split at hcode
          · cases hcode
          · rename_i _ k hk; rw [hk]; rfl
        obtain ⟨i1, i2⟩ := ci_hosts hn hs l1 (hat (by simp [hcode])) hk h
        exact ⟨i1, l2.trans i2⟩

theorem ci_notes (hd : d < maxDepth) : ∀ (n i : Nat) {c : Ctx}, CI p d iss a c → notes W a d iss n i c = some c' →
    CI p d iss a c' ∧ Ext c.σ c'.σ
  | 0, i, c, hc, h => by
    simp only [notes] at h
    split at h
    · cases h
    · cases h; exact ⟨hc, Ext.refl _⟩
  | n + 1, i, c, hc, h => by
    simp only [notes] at h
    split at h
    · cases h; exact ⟨hc, Ext.refl _⟩
    · rename_i _ r hr
      split at h
      · cases h
      · rename_i _ c1 h1
        obtain ⟨i1, i2⟩ := ci_one hd hc (hc.recs r (List.mem_of_getElem? hr)) h1
        obtain ⟨j1, j2⟩ := ci_notes hd n (i + 1) i1 h
        exact ⟨j1, i2.trans j2⟩

/-- Executions preserve the property of a policy. -/
theorem execute_policy (p : Policy W) : ∀ (n : Nat) {σ σ' : State} {iss : Option Nat} {a : Act}, n ≤ maxDepth → p.P σ →
    p.Ok σ (maxDepth - n) iss a → execute W n σ iss a = some σ' → p.P σ' ∧ Ext σ σ'
  | 0, _, _, _, _, _, _, _, h => by cases h
  | n + 1, σ, σ', iss, a, hn, hP, hok, h => by
    have hd : maxDepth - (n + 1) < maxDepth := by unfold maxDepth at *; omega
    have hd1 : maxDepth - (n + 1) + 1 = maxDepth - n := by unfold maxDepth at *; omega
    simp only [execute] at h
    split at h
    · cases h
    rename_i _ c1 h1
    split at h
    · cases h
    rename_i _ c2 h2
    have hc : CI p (maxDepth - (n + 1)) iss a ⟨σ, [a.contract], []⟩ :=
      ⟨hP, hok, fun x hx => absurd hx (List.not_mem_nil), fun r hr => .inl (List.mem_singleton.1 hr), (by simp [maxRecipients])⟩
    obtain ⟨i1, i2⟩ := ci_one hd hc (.inl rfl) h1
    obtain ⟨j1, j2⟩ := ci_notes hd _ _ i1 h2
    have key : ∀ (xs : List (Nat × Act)) {s : State}, p.P s → (∀ x ∈ xs, p.Ok s (maxDepth - n) (some x.1) x.2) →
        inlines (execute W n) s xs = some σ' → p.P σ' ∧ Ext s σ' := by
      intro xs
      induction xs with
      | nil => intro s hs _ h; simp only [inlines, Option.some.injEq] at h; subst h; exact ⟨hs, Ext.refl _⟩
      | cons x xs ih =>
        intro s hs hx h
        obtain ⟨r, y⟩ := x
        simp only [inlines] at h
        split at h
        · cases h
        rename_i _ s1 h3
        obtain ⟨k1, k2⟩ := execute_policy p n (by omega) hs (hx (r, y) (by simp)) h3
        obtain ⟨m1, m2⟩ := ih k1 (fun z hz => p.mono k2 (hx z (by simp [hz]))) h
        exact ⟨m1, k2.trans m2⟩
    obtain ⟨k1, k2⟩ := key _ j1.P (by rw [← hd1]; exact j1.inl) h
    exact ⟨k1, (i2.trans j2).trans k2⟩

/-- No condition. -/
def anyPolicy (W : World) : Policy W where
  P := fun _ => True
  Ok := fun _ _ _ _ => True
  mono := fun _ h => h
  step := fun _ _ _ _ => trivial
  log := fun _ _ _ _ => trivial
  inl := fun _ _ _ _ _ _ => trivial

/-- The bound on the iterations of the loop over recipients does not cut it short: any bound from there on gives the same. -/
theorem notes_enough (hd : d < maxDepth) : ∀ (n m i : Nat) {c : Ctx}, CI (anyPolicy W) d iss a c → maxRecipients ≤ i + n →
    maxRecipients ≤ i + m → notes W a d iss n i c = notes W a d iss m i c
  | n, m, i, c, hc, hn, hm => by
    have hlen := hc.len
    cases hr : c.notified[i]? with
    | none =>
      have : c.notified.length ≤ i := List.getElem?_eq_none_iff.1 hr
      have e : ∀ k, notes W a d iss k i c = some c := by
        intro k
        cases k with
        | zero => simp only [notes]; rw [if_neg (by omega)]
        | succ k => simp only [notes, hr]
      rw [e, e]
    | some r =>
      have hi : i < c.notified.length := (List.getElem?_eq_some_iff.1 hr).1
      match n, m with
      | 0, _ => omega
      | _, 0 => omega
      | n + 1, m + 1 =>
        simp only [notes, hr]
        cases h1 : executeOne W a d iss c r with
        | none => rfl
        | some c1 =>
          exact notes_enough hd n m (i + 1) (ci_one hd hc (hc.recs r (List.mem_of_getElem? hr)) h1).1 (by omega) (by omega)
  termination_by n => n

theorem runActs_policy (p : Policy W) : ∀ (as : List Act) {σ σ' : State}, p.P σ → (∀ a ∈ as, p.Ok σ 0 none a) →
    runActs W σ as = some σ' → p.P σ'
  | [], σ, σ', hP, _, h => by cases h; exact hP
  | a :: as, σ, σ', hP, hok, h => by
    simp only [runActs] at h
    split at h
    · cases h
    rename_i _ s1 h1
    obtain ⟨i1, i2⟩ := execute_policy p _ (le_refl _) hP (hok a (by simp)) h1
    exact runActs_policy p as i1 (fun b hb => p.mono i2 (hok b (by simp [hb]))) h

/-- The state in which the actions of a transaction start. -/
def start (σ : State) (tx : Tx) : State := { σ with fuel := tx.size * storeFuel, recips := 0, log := [], evs := [] }

theorem runTx_some {σ σ' : State} {tx : Tx} {t : Nat} (h : runTx W σ tx t = some σ') :
    ∃ s, runActs W (start σ tx) tx.acts = some s ∧ σ' = { s with fuel := s.fuel + s.recips * noticeFuel } ∧ t < maxTime ∧
      tx.rate ≠ 0 ∧ s.fuel + s.recips * noticeFuel ≤ maxFuel ∧
      max tx.minFee (runFee (s.fuel + s.recips * noticeFuel) tx.rate) ≤ tx.fees := by
  unfold runTx at h
  split at h
  · cases h
  rename_i _ s hs
  simp only at h
  split at h; · cases h
  split at h; · cases h
  split at h; · cases h
  rename_i h1 h2 h3
  cases h
  refine ⟨s, hs, rfl, by omega, ?_, ?_, by omega⟩
  · intro e; exact h2 (.inl e)
  · by_contra hcon; exact h2 (.inr (by omega))

end Verif.Wasm
