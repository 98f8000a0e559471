import Verif.Wasm.Auth

/-! What executions do to contracts, their data, votes, and the cost counters. -/
namespace Verif.Wasm

open Verif.Account Verif.Ledger

/-- Action run at native contract `v`, with the authority of number `u`. -/
def Ran (l : List Entry) (v u : Nat) : Prop := ∃ e ∈ l, e.recv = v ∧ e.ran = true ∧ ∃ p ∈ e.act.auth, p.account = u

theorem Ran.mono {l l' : List Entry} {v u : Nat} (h : Ran l v u) : Ran (l ++ l') v u := by
  obtain ⟨e, he, h⟩ := h
  exact ⟨e, List.mem_append_left _ he, h⟩

/-! ## Contracts and their data -/

structure TabOk (W : World) (σ0 σ : State) : Prop where
  dom : ∀ r, (σ.contracts r).isSome = true → (σ0.contracts r).isSome = true ∨ r = W.cord
  ran : ∀ e ∈ σ.log, e.ran = true → isNative e.recv = true ∨ (σ0.contracts (RegId.ofInt e.recv)).isSome = true ∨
    RegId.ofInt e.recv = W.cord
  flag : ∀ r k, σ0.contracts r = some k → ∃ k', σ.contracts r = some k' ∧ k'.upgradable = k.upgradable
  same : ∀ r k, σ0.contracts r = some k → σ.contracts r = some k ∨ Ran σ.log wasmio k.maintainer.toInt
  data : ∀ r q, σ.data r q ≠ σ0.data r q →
    ∃ e ∈ σ.log, e.ran = true ∧ isNative e.recv = false ∧ r = RegId.ofInt e.recv ∧ q.1 = e.recv

variable {W : World} {σ0 : State}

theorem tab_same {σ σ' : State} (h : TabOk W σ0 σ) (h1 : σ'.contracts = σ.contracts) (h2 : σ'.log = σ.log) (h3 : σ'.data = σ.data) :
    TabOk W σ0 σ' :=
  ⟨by rw [h1]; exact h.dom, by rw [h2]; exact h.ran, by rw [h1]; exact h.flag, by rw [h1, h2]; exact h.same, by rw [h2, h3]; exact h.data⟩

theorem at_ran {σ : State} {d : Nat} {a : Act} {recv u : Nat} (hat : At W σ d a recv) (h : hasAuth a u = true) : Ran σ.log recv u := by
  obtain ⟨_, e, he, rfl, h2, _, h3⟩ := hat
  obtain ⟨p, hp, h4⟩ := hasAuth_mem h
  exact ⟨e, he, h2, h3, p, hp, h4⟩

theorem tab_step {σ σ' : State} {d : Nat} {a : Act} {recv : Nat} (h : TabOk W σ0 σ) (hat : At W σ d a recv) (hs : Step W a recv σ σ') :
    TabOk W σ0 σ' := by
  cases hs with
  | fuel f hf => exact tab_same h rfl rfl rfl
  | bank hr he hb => obtain ⟨b, _, rfl⟩ := onBooks_some hb; exact tab_same h rfl rfl rfl
  | vote => exact tab_same h rfl rfl rfl
  | reward hr h0 ha hl hp =>
    rcases payReward_some hp with ⟨w, rfl⟩ | ⟨w, σ1, _, h1, rfl⟩
    · exact tab_same h rfl rfl rfl
    · obtain ⟨b, _, rfl⟩ := onBooks_some h1; exact tab_same h rfl rfl rfl
  | deploy x hr hn =>
    have hne : ∀ r k, σ0.contracts r = some k → r ≠ W.cord := by
      intro r k hk e
      obtain ⟨k', h1, _⟩ := h.flag r k hk
      rw [e, hn] at h1; cases h1
    refine ⟨fun r hr => ?_, h.ran, fun r k hk => ?_, fun r k hk => ?_, h.data⟩
    · by_cases e : r = W.cord
      · exact .inr e
      · simp only [Wasm.deploy, if_neg e] at hr; exact h.dom r hr
    · simp only [Wasm.deploy, if_neg (hne r k hk)]; exact h.flag r k hk
    · simp only [Wasm.deploy, if_neg (hne r k hk)]; exact h.same r k hk
  | code r k k' hr hk ha hu =>
    refine ⟨fun q hq => ?_, h.ran, fun q x hx => ?_, fun q x hx => ?_, h.data⟩
    · by_cases e : q = r
      · exact h.dom q (by rw [e, hk]; rfl)
      · simp only [setContract, if_neg e] at hq; exact h.dom q hq
    · by_cases e : q = r
      · obtain ⟨y, h1, h2⟩ := h.flag q x hx
        rw [e, hk] at h1; cases h1
        exact ⟨k', by simp [setContract, e], by rw [hu, h2]⟩
      · simp only [setContract, if_neg e]; exact h.flag q x hx
    · by_cases e : q = r
      · rcases h.same q x hx with h1 | h1
        · rw [e, hk] at h1; cases h1
          right
          rw [← hr]
          exact at_ran hat ha
        · exact .inr h1
      · simp only [setContract, if_neg e]; exact h.same q x hx
  | data k v n hr hc =>
    refine ⟨h.dom, h.ran, h.flag, h.same, fun r q hq => ?_⟩
    by_cases e : r = RegId.ofInt recv ∧ q = (recv, k)
    · obtain ⟨_, f, hf, _, h2, _, h3⟩ := hat
      exact ⟨f, hf, h3, by rw [h2]; exact hr, by rw [h2]; exact e.1, by rw [h2, e.2]⟩
    · refine h.data r q ?_
      simpa only [setData, if_neg e] using hq

theorem tab_log {σ : State} {d : Nat} {iss : Option Nat} {a : Act} {recv : Nat} (h : TabOk W σ0 σ) :
    TabOk W σ0 (logEntry σ a recv d iss) := by
  refine ⟨h.dom, fun e he hr => ?_, h.flag, fun r k hk => (h.same r k hk).imp id Ran.mono, fun r q hq => ?_⟩
  · rcases List.mem_append.1 he with he | he
    · exact h.ran e he hr
    · rw [List.mem_singleton.1 he] at hr ⊢
      dsimp only at hr ⊢
      cases hn : isNative recv with
      | true => exact .inl rfl
      | false =>
        rw [hn, Bool.false_or] at hr
        refine .inr (h.dom _ ?_)
        unfold program at hr
        split at hr
        · cases hr
        · rename_i _ k hk; rw [hk]; rfl
  · obtain ⟨e, he, h'⟩ := h.data r q hq
    exact ⟨e, List.mem_append_left _ he, h'⟩

def tabPolicy (W : World) (σ0 : State) : Policy W where
  P := TabOk W σ0
  Ok := fun _ _ _ _ => True
  mono := fun _ h => h
  step := fun hP _ hat hs => tab_step hP hat hs
  log := fun hP _ _ _ => tab_log hP
  inl := fun _ _ _ _ _ _ => trivial

theorem tables {σ σ' : State} {tx : Tx} {t : Nat} (h : runTx W σ tx t = some σ') : TabOk W σ σ' := by
  obtain ⟨s, hs, rfl, _⟩ := runTx_some h
  refine tab_same (runActs_policy (tabPolicy W σ) tx.acts (σ := start σ tx) ?_ (fun a ha => trivial) hs) rfl rfl rfl
  exact ⟨fun r hr => .inl hr, fun e he => by simp [start] at he, fun r k hk => ⟨k, hk, rfl⟩, fun r k hk => .inl hk,
    fun r q hq => absurd rfl hq⟩

/-! ## Votes -/

theorem bank_frame {st st' : Asset.State} {σ : State} {a : Act} {e : Asset.Ev} (he : BankEv W σ a e) (h : Asset.apply st e = some st') :
    ∃ qs, execAll st.mem qs = some st'.mem := by
  cases he with
  | transfer =>
    simp only [Asset.apply, Option.map_eq_some_iff] at h
    obtain ⟨m, hm, rfl⟩ := h
    exact ⟨_, hm⟩
  | issue =>
    simp only [Asset.apply, Asset.bankIssue] at h
    split at h; · cases h
    split at h; · cases h
    split at h; · cases h
    split at h; · cases h
    split at h; · cases h
    split at h; · cases h
    rename_i _ m hm
    split at h; · cases h
    split at h; · cases h
    rename_i _ m' hm'
    cases h
    obtain ⟨_, _, hfee⟩ := Asset.assetFee_some hm
    exact ⟨_, execAll_trans hfee (execAll_one hm')⟩
  | mintBurn =>
    simp only [Asset.apply, Asset.bankMintBurn] at h
    split at h; · cases h
    split at h; · cases h
    split at h; · cases h
    split at h; · cases h
    split at h; · cases h
    split at h; · cases h
    split at h; · cases h
    split at h; · cases h
    split at h
    · split at h; · cases h
      split at h; · cases h
      rename_i _ m hm
      cases h
      exact ⟨_, execAll_one hm⟩
    · split at h; · cases h
      split at h; · cases h
      split at h; · cases h
      rename_i _ m hm
      cases h
      exact ⟨_, execAll_one hm⟩
  | update =>
    refine ⟨[], ?_⟩
    simp only [Asset.apply, Asset.bankUpdate] at h
    split at h; · cases h
    split at h; · cases h
    split at h; · cases h
    split at h; · cases h
    split at h; · cases h
    split at h
    · cases h; rfl
    · split at h
      · cases h; rfl
      · cases h

def votes (σ : State) (r : Ref) : Nat := (σ.books.mem r).receivedVotes

/-- A `vote` action ran at the voting contract, with the authority of the contract set for it and `P` of its arguments. -/
def VoteRan (W : World) (l : List Entry) (P : VoteArgs → Prop) : Prop :=
  W.voteContract ≠ 0 ∧ ∃ e ∈ l, e.recv = voting ∧ e.ran = true ∧ e.act.action = nm "vote" ∧
    (∃ p ∈ e.act.auth, p.account = W.voteContract) ∧ ∃ x, W.dec.vote e.act.data = some x ∧ P x

theorem VoteRan.mono {l l' : List Entry} {P : VoteArgs → Prop} (h : VoteRan W l P) : VoteRan W (l ++ l') P := by
  obtain ⟨h0, e, he, h⟩ := h
  exact ⟨h0, e, List.mem_append_left _ he, h⟩

/-- Votes and ranking agree: an account is ranked at most once, with its votes, and is ranked if it has any. -/
def Ranked (W : World) (σ : State) : Prop :=
  ∀ v r, lookup W σ v = some r →
    (∀ n, σ.index (n, RegId.ofInt v) = true → n = votes σ r) ∧ (votes σ r ≠ 0 → σ.index (votes σ r, RegId.ofInt v) = true)

/-- Different numbers lead to different accounts. -/
def OneNumber (W : World) (σ : State) : Prop :=
  ∀ v w r, lookup W σ v = some r → lookup W σ w = some r → RegId.ofInt v = RegId.ofInt w

structure VotesOk (W : World) (σ0 σ : State) : Prop where
  votes : ∀ r, r ≠ newKey W → votes σ r ≠ votes σ0 r → VoteRan W σ.log (fun x => lookup W σ x.candidate = some r)
  index : ∀ n g, σ.index (n, g) ≠ σ0.index (n, g) → VoteRan W σ.log (fun x => RegId.ofInt x.candidate = g)
  reward : σ.reward ≠ σ0.reward → Ran σ.log voting W.voteContract
  one : OneNumber W σ
  unused : σ.contracts W.cord = none → (∀ v, lookup W σ v ≠ some (newKey W)) ∧ (∀ v, RegId.ofInt v = W.cord → lookup W σ v = none) ∧
    ∀ n, σ.index (n, W.cord) = false
  ranked : Ranked W σ ∨ VoteRan W σ.log (fun x => x.votes = 0)

theorem votes_same {σ σ' : State} (h : VotesOk W σ0 σ) (hv : ∀ r, votes σ' r = votes σ r) (h1 : σ'.index = σ.index)
    (h2 : σ'.log = σ.log) (h3 : σ'.reg = σ.reg) (h4 : σ'.contracts = σ.contracts)
    (h5 : σ'.reward = σ.reward ∨ Ran σ.log voting W.voteContract) : VotesOk W σ0 σ' := by
  have hlook : ∀ v, lookup W σ' v = lookup W σ v := fun v => by unfold lookup; rw [h3]
  refine ⟨fun r hr hne => ?_, ?_, fun hne => ?_, ?_, ?_, ?_⟩
  · simp only [hlook, h2]; exact h.votes r hr (by rw [← hv]; exact hne)
  · rw [h1, h2]; exact h.index
  · rw [h2]
    rcases h5 with h5 | h5
    · exact h.reward (by rw [← h5]; exact hne)
    · exact h5
  · intro v w r; rw [hlook, hlook]; exact h.one v w r
  · rw [h4, h1]; simp only [hlook]; exact h.unused
  · rw [h2]
    refine h.ranked.imp (fun hr => ?_) id
    intro v r hl
    rw [hlook] at hl
    rw [hv, h1]
    exact hr v r hl

theorem addVotes_spec {old n : Nat} {v : Int} (h : addVotes old v = some n) : (n : Int) = old + v ∧ old < 2 ^ 63 ∧ n < 2 ^ 63 := by
  unfold addVotes at h
  split at h; · cases h
  split at h; · cases h
  cases h
  omega

theorem lookup_ofInt {σ : State} {v w : Nat} (h : RegId.ofInt v = RegId.ofInt w) : lookup W σ v = lookup W σ w := by
  unfold lookup; rw [h]

theorem votes_step {σ σ' : State} {d : Nat} {a : Act} {recv : Nat} (h : VotesOk W σ0 σ) (hat : At W σ d a recv)
    (hs : Step W a recv σ σ') : VotesOk W σ0 σ' := by
  cases hs with
  | fuel f hf => exact votes_same h (fun _ => rfl) rfl rfl rfl rfl (.inl rfl)
  | data => exact votes_same h (fun _ => rfl) rfl rfl rfl rfl (.inl rfl)
  | bank hr he hb =>
    obtain ⟨b, hb', rfl⟩ := onBooks_some hb
    obtain ⟨qs, hq⟩ := bank_frame he hb'
    exact votes_same h (fun r => (execAll_frame hq r).2.1) rfl rfl rfl rfl (.inl rfl)
  | code r k k' hr hk ha hu =>
    refine ⟨h.votes, h.index, h.reward, h.one, fun e => h.unused ?_, h.ranked⟩
    simp only [setContract] at e
    split at e
    · cases e
    · exact e
  | reward hr h0 ha hl hp =>
    have hran : Ran σ.log voting W.voteContract := by rw [← hr]; exact at_ran hat ha
    rcases payReward_some hp with ⟨w, rfl⟩ | ⟨w, σ1, _, h1, rfl⟩
    · exact votes_same h (fun _ => rfl) rfl rfl rfl rfl (.inr hran)
    · obtain ⟨b, hb', rfl⟩ := onBooks_some h1
      simp only [Asset.apply, Option.map_eq_some_iff] at hb'
      obtain ⟨m, hm, rfl⟩ := hb'
      exact votes_same h (fun r => (execAll_frame hm r).2.1) rfl rfl rfl rfl (.inr hran)
  | deploy x hr hn =>
    obtain ⟨u1, u3, u2⟩ := h.unused hn
    have hlook : ∀ v r, lookup W (Wasm.deploy W σ x) v = some r →
        (lookup W σ v = some r ∧ r ≠ newKey W) ∨ (RegId.ofInt v = W.cord ∧ r = newKey W) := by
      intro v r hv
      unfold lookup at hv
      split at hv
      · rename_i hp
        have : lookup W σ v = some r := by unfold lookup; rw [if_pos hp]; exact hv
        exact .inl ⟨this, fun e => u1 v (by rw [this, e])⟩
      · rename_i hp
        simp only [Wasm.deploy] at hv
        split at hv
        · rename_i he; cases hv; exact .inr ⟨he, rfl⟩
        · have : lookup W σ v = some r := by unfold lookup; rw [if_neg hp]; exact hv
          exact .inl ⟨this, fun e => u1 v (by rw [this, e])⟩
    have hv : ∀ r, r ≠ newKey W → votes (Wasm.deploy W σ x) r = votes σ r := by
      intro r hr
      have : r ≠ W.keyOf W.cord := hr
      simp only [votes, Wasm.deploy, if_neg this]
    refine ⟨fun r hr hne => ?_, h.index, h.reward, ?_, fun e => ?_, ?_⟩
    · rw [hv r hr] at hne
      obtain ⟨h0, e, he, e1, e2, e3, e4, y, e5, e6⟩ := h.votes r hr hne
      refine ⟨h0, e, he, e1, e2, e3, e4, y, e5, ?_⟩
      have hc : RegId.ofInt y.candidate ≠ W.cord := fun e => by rw [u3 _ e] at e6; cases e6
      show lookup W (Wasm.deploy W σ x) y.candidate = some r
      unfold lookup at e6 ⊢
      split
      · rename_i hp; rw [if_pos hp] at e6; exact e6
      · rename_i hp; rw [if_neg hp] at e6; simp only [Wasm.deploy, if_neg hc]; exact e6
    · intro v w r h1 h2
      rcases hlook v r h1 with ⟨a1, a2⟩ | ⟨a1, a2⟩ <;> rcases hlook w r h2 with ⟨b1, b2⟩ | ⟨b1, b2⟩
      · exact h.one v w r a1 b1
      · exact absurd b2 a2
      · exact absurd a2 b2
      · rw [a1, b1]
    · simp [Wasm.deploy] at e
    · refine h.ranked.imp (fun hr => ?_) id
      intro v r hl
      rcases hlook v r hl with ⟨a1, a2⟩ | ⟨a1, a2⟩
      · rw [hv r a2]; exact hr v r a1
      · have hz : votes (Wasm.deploy W σ x) r = 0 := by
          rw [a2]; simp [votes, Wasm.deploy, newKey, newAccount]
        rw [hz, a1]
        refine ⟨fun n hn' => ?_, fun e => absurd rfl e⟩
        have := u2 n
        simp only [Wasm.deploy] at hn'
        rw [this] at hn'; cases hn'
  | vote x hr h0 ha hx hl hv =>
    rename_i r n
    have hran : ∀ P : VoteArgs → Prop, P x → VoteRan W σ.log P := by
      intro P hP
      obtain ⟨_, e, he, rfl, e2, _, e3⟩ := hat
      exact ⟨h0, e, he, by rw [e2, hr], e3, hx.1, hasAuth_mem ha, x, hx.2, hP⟩
    have hvr : votes (setVotes σ r (RegId.ofInt x.candidate) (σ.books.mem r).receivedVotes n) r = n := by
      simp [votes, setVotes]
    have hvo : ∀ q, q ≠ r → votes (setVotes σ r (RegId.ofInt x.candidate) (σ.books.mem r).receivedVotes n) q = votes σ q := by
      intro q hq
      simp [votes, setVotes, hq]
    refine ⟨fun q hq hne => ?_, fun m g hne => ?_, h.reward, h.one, fun e => ?_, ?_⟩
    · by_cases e : q = r
      · exact hran _ (by rw [e]; exact hl)
      · rw [hvo q e] at hne; exact h.votes q hq hne
    · by_cases e : g = RegId.ofInt x.candidate
      · exact hran _ e.symm
      · refine h.index m g ?_
        simpa [setVotes, e] using hne
    · obtain ⟨u1, u3, u2⟩ := h.unused e
      refine ⟨u1, u3, fun m => ?_⟩
      have : W.cord ≠ RegId.ofInt x.candidate := fun e => by rw [u3 _ e.symm] at hl; cases hl
      simpa [setVotes, this] using u2 m
    · by_cases hz : x.votes = 0
      · exact .inr (hran _ hz)
      refine h.ranked.imp (fun hk => ?_) id
      obtain ⟨hn, _, _⟩ := addVotes_spec hv
      have hne : n ≠ votes σ r := by unfold votes; omega
      intro v q hq
      have hq : lookup W σ v = some q := hq
      by_cases e : q = r
      · have hg := h.one v x.candidate q hq (by rw [e]; exact hl)
        obtain ⟨k1, _⟩ := hk v q hq
        rw [e] at k1
        rw [e, hvr, hg]
        rw [hg] at k1
        refine ⟨fun m hm => ?_, fun _ => ?_⟩
        · simp only [setVotes] at hm
          split at hm
          · cases hm
          rename_i h1
          split at hm
          · rename_i h2; simpa using h2
          · have := k1 m hm
            exact absurd (by rw [this]; rfl) h1
        · simp only [setVotes]
          rw [if_neg (by simpa [votes] using hne)]
          simp
      · have hg : RegId.ofInt v ≠ RegId.ofInt x.candidate := by
          intro he
          rw [lookup_ofInt he, hl] at hq
          exact e (Option.some.inj hq).symm
        rw [hvo q e]
        simp only [setVotes]
        simpa [hg] using hk v q hq

theorem votes_log {σ : State} {d : Nat} {iss : Option Nat} {a : Act} {recv : Nat} (h : VotesOk W σ0 σ) :
    VotesOk W σ0 (logEntry σ a recv d iss) :=
  ⟨fun r hr hne => (h.votes r hr hne).mono, fun n g hne => (h.index n g hne).mono, fun hne => (h.reward hne).mono, h.one, h.unused,
    h.ranked.imp id VoteRan.mono⟩

def votePolicy (W : World) (σ0 : State) : Policy W where
  P := VotesOk W σ0
  Ok := fun _ _ _ _ => True
  mono := fun _ h => h
  step := fun hP _ hat hs => votes_step hP hat hs
  log := fun hP _ _ _ => votes_log hP
  inl := fun _ _ _ _ _ _ => trivial

/-- The number of the transaction and the key id derived from it are unused. -/
def Unused (W : World) (σ : State) : Prop :=
  (∀ v, lookup W σ v ≠ some (newKey W)) ∧ (∀ v, RegId.ofInt v = W.cord → lookup W σ v = none) ∧ ∀ n, σ.index (n, W.cord) = false

theorem vote_tables {σ σ' : State} {tx : Tx} {t : Nat} (h1 : OneNumber W σ) (hu : Unused W σ) (hr : Ranked W σ)
    (h : runTx W σ tx t = some σ') : VotesOk W σ σ' := by
  obtain ⟨s, hs, rfl, _⟩ := runTx_some h
  refine votes_same (runActs_policy (votePolicy W σ) tx.acts (σ := start σ tx) ?_ (fun a ha => trivial) hs) (fun _ => rfl) rfl rfl rfl rfl
    (.inl rfl)
  exact ⟨fun r _ hne => absurd rfl hne, fun n g hne => absurd rfl hne, fun hne => absurd rfl hne, h1, fun _ => hu, .inl hr⟩

/-! ## Costs -/

def costPolicy (W : World) (f : Nat) : Policy W where
  P := fun σ => σ.recips = σ.log.length ∧ f ≤ σ.fuel
  Ok := fun _ _ _ _ => True
  mono := fun _ h => h
  step := by
    intro σ σ' d iss a recv hP _ _ hs
    obtain ⟨h1, h2, h3, _⟩ := hs.frame
    rw [h1, h2]
    exact ⟨hP.1, Nat.le_trans hP.2 h3⟩
  log := by
    intro σ d iss a recv hP _ _ _
    refine ⟨?_, hP.2⟩
    simp [logEntry, hP.1]
  inl := fun _ _ _ _ _ _ => trivial

theorem costs {σ σ' : State} {tx : Tx} {t : Nat} (h : runTx W σ tx t = some σ') :
    σ'.recips = σ'.log.length ∧ tx.size * storeFuel + σ'.log.length * noticeFuel ≤ σ'.fuel ∧ σ'.fuel ≤ maxFuel ∧ tx.rate ≠ 0 ∧
      runFee σ'.fuel tx.rate ≤ tx.fees := by
  obtain ⟨s, hs, rfl, _, h2, h3, h4⟩ := runTx_some h
  obtain ⟨i1, i2⟩ := runActs_policy (costPolicy W (tx.size * storeFuel)) tx.acts (σ := start σ tx) ⟨rfl, le_refl _⟩ (fun a ha => trivial) hs
  refine ⟨i1, ?_, h3, h2, by dsimp only; omega⟩
  dsimp only
  rw [i1]
  omega

end Verif.Wasm
