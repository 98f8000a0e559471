import Verif.Wasm.Demo

/-! Properties of universal transactions and the contracts they run. -/
namespace Verif.Wasm

open Verif.Account Verif.Ledger
open Verif.Asset (natives WICC MAX)

variable {W : World} {S : Finset Ref} {σ σ' : State} {tx : Tx} {t : Nat}

/-! ## C85: authority comes from signatures or from contracts themselves -/

/-- `CheckTx` accepted: the payer, or an account whose signature verified. -/
theorem authorized_signed {reg0 : RegId} (hc : checkTx W reg0 σ tx = true) {v : Nat} (hv : v ∈ authorized reg0 tx) :
    v = reg0.toInt ∨ (v ∈ tx.signers ∧ ∃ r, lookup { W with payerReg := reg0 } σ v = some r ∧ σ.pub r = true ∧ tx.sigOk v r = true) := by
  unfold authorized at hv
  rcases List.mem_append.1 hv with hv | hv
  · right
    simp only [checkTx, Bool.and_eq_true] at hc
    have h := List.all_eq_true.1 hc.1.2 v hv
    unfold signerOk at h
    simp only [Bool.and_eq_true] at h
    refine ⟨hv, ?_⟩
    split at h
    · exact absurd h.2 (by simp)
    · rename_i _ r hr
      have h2 := h.2
      simp only [Bool.and_eq_true] at h2
      exact ⟨r, hr, h2.1, h2.2⟩
  · exact .inl (List.mem_singleton.1 hv)

theorem checkTx_auth {reg0 : RegId} (hc : checkTx W reg0 σ tx = true) {a : Act} (ha : a ∈ tx.acts) {p : Perm} (hp : p ∈ a.auth) :
    p.account ∈ authorized reg0 tx := by
  simp only [checkTx, Bool.and_eq_true] at hc
  simpa using List.all_eq_true.1 (List.all_eq_true.1 hc.2 a ha) p hp

/-- Every action executed is one of the transaction or was issued by a contract that ran just before it in the chain; the issuer gives its own
permission, or, in actions to itself, permissions it was called with. -/
theorem authority_chain (hC : ∀ v, isNative v = true → RegId.ofInt v ≠ W.cord) (hN : NoNative W σ) (h : runTx W σ tx t = some σ')
    (pre : List Entry) (e : Entry) (post : List Entry) (he : σ'.log = pre ++ e :: post) :
    (e.issuer = none ∧ e.act ∈ tx.acts) ∨
      ∃ f ∈ pre, f.ran = true ∧ e.issuer = some f.recv ∧ ∀ p ∈ e.act.auth,
        p = ⟨f.recv, codePerm⟩ ∨ (e.act.contract = f.recv ∧ isNative f.recv = false ∧ (p.account = f.recv ∨ p ∈ f.act.auth)) := by
  obtain ⟨hw, _⟩ := trace_justified hC hN h pre e post he
  cases hi : e.issuer with
  | none => rw [hi] at hw; cases hw with | own h _ => exact .inl ⟨rfl, h⟩
  | some r =>
    rw [hi] at hw
    cases hw with
    | issued f hf hr hd hg => exact .inr ⟨f, hf, hr, rfl, hg⟩

/-- Every permission used was signed for, or is that of a contract that ran before. -/
theorem authority_signed {reg0 : RegId} (hc : checkTx W reg0 σ tx = true) (hC : ∀ v, isNative v = true → RegId.ofInt v ≠ W.cord)
    (hN : NoNative W σ) (h : runTx W σ tx t = some σ') (pre : List Entry) (e : Entry) (post : List Entry)
    (he : σ'.log = pre ++ e :: post) (p : Perm) (hp : p ∈ e.act.auth) :
    p.account = reg0.toInt ∨ (∃ r, lookup { W with payerReg := reg0 } σ p.account = some r ∧ tx.sigOk p.account r = true) ∨
      ∃ f ∈ pre, f.ran = true ∧ f.recv = p.account := by
  rcases origin _ (le_refl _) (trace_justified hC hN h) he p hp with ⟨a, ha, hpa⟩ | hf
  · rcases authorized_signed hc (checkTx_auth hc ha hpa) with h1 | ⟨_, r, h1, _, h2⟩
    · exact .inl h1
    · exact .inr (.inl ⟨r, h1, h2⟩)
  · exact .inr (.inr hf)

example : checkTx w0 ⟨1, 1⟩ s0 tx1 = true ∧ (runTx w0 s0 tx1 5).map trace =
    some [(payOnce, 0), (bank, 1), (payOnce, 1), (bob, 1), (voter, 0), (voting, 1), (bob, 1), (voter, 0), (voting, 1), (voter, 2), (bank, 0),
      (ann, 0), (bob, 0)] := by decide +kernel

/-! ## C86: authority is used where it was given -/

/-- At the native contracts (coins, assets, code, votes), an action with an authority other than that of a contract issuing it is one of the
transaction. -/
theorem native_authority_partial (hC : ∀ v, isNative v = true → RegId.ofInt v ≠ W.cord) (hN : NoNative W σ)
    (h : runTx W σ tx t = some σ') (e : Entry) (he : e ∈ σ'.log) (hn : isNative e.recv = true) :
    e.act ∈ tx.acts ∨ ∃ f ∈ σ'.log, f.ran = true ∧ e.issuer = some f.recv ∧ ∀ p ∈ e.act.auth, p = ⟨f.recv, codePerm⟩ := by
  obtain ⟨pre, post, hl⟩ := List.append_of_mem he
  rcases native_why (trace_justified hC hN h) hl hn with h | ⟨f, hf, h⟩
  · exact .inl h
  · exact .inr ⟨f, by rw [hl]; exact List.mem_append_left _ hf, h⟩

/-- Elsewhere, an authority reaches a contract only if the signer gave it to that contract, or the contract was run for an action with it. -/
theorem authority_scope_partial (hC : ∀ v, isNative v = true → RegId.ofInt v ≠ W.cord) (hN : NoNative W σ)
    (h : runTx W σ tx t = some σ') (e : Entry) (he : e ∈ σ'.log) (p : Perm) (hp : p ∈ e.act.auth) :
    e.act ∈ tx.acts ∨ e.issuer = some p.account ∨ ∃ f ∈ σ'.log, f.ran = true ∧ f.recv = e.act.contract ∧ p ∈ f.act.auth := by
  obtain ⟨pre, post, hl⟩ := List.append_of_mem he
  rcases authority_chain hC hN h pre e post hl with ⟨_, h⟩ | ⟨f, hf, hr, hi, hg⟩
  · exact .inl h
  · rcases hg p hp with h | ⟨h1, _, h | h⟩
    · exact .inr (.inl (by rw [hi, h]))
    · exact .inr (.inl (by rw [hi, h]))
    · exact .inr (.inr ⟨f, by rw [hl]; exact List.mem_append_left _ hf, hr, h1.symm, h⟩)

/-- Ann gives her authority to `relay` only; `relay` notifies `grabber`, which then runs an action of its own choice with Ann's authority. -/
theorem authority_scope_violated :
    checkTx w0 ⟨1, 1⟩ s0 (tx0 [call relay "hello" []]) = true ∧
    (runTx w0 s0 (tx0 [call relay "hello" []]) 5).map (fun σ => σ.log.map (fun e => (e.act, e.recv))) =
      some [(call relay "hello" [], relay), (call relay "hello" [], grabber), (⟨grabber, nm "grab", [⟨ann, 0⟩], []⟩, grabber)] := by
  decide +kernel

/-! ## C87: coins of users are safe from contracts -/

theorem coins_run (hS : Setup W S) (hs : Sound W S σ) (hT : ∀ s ∈ natives, total σ.books.mem s S + pending σ s < U64) (Q : Ref → Prop)
    (hQ : ∀ x, Q x → Plain W σ x) (hA : ∀ a ∈ tx.acts, CoinAct W σ Q a) (h : runTx W σ tx t = some σ') :
    CoinsOk W S (fun s => total σ.books.mem s S + pending σ s) σ Q σ' := by
  obtain ⟨s, hr, rfl, _⟩ := runTx_some h
  refine coins_same (runActs_policy (coinPolicy hS hT hQ) tx.acts (σ := start σ tx) ?_ (fun a ha => hA a ha) hr) rfl rfl rfl rfl rfl
  exact ⟨⟨hs.inv, hs.look, hs.fresh, hs.nat⟩, fun s _ => rfl,
    fun x hx => ⟨fun s b => le_refl _, fun v hv => hv, fun v hv => ((hQ x hx).2 v hv).1⟩⟩

/-- No balance of a user goes down unless an action of the transaction at the bank carries the user's authority. -/
theorem user_coins_safe (hS : Setup W S) (hs : Sound W S σ) (hT : ∀ s ∈ natives, total σ.books.mem s S + pending σ s < U64) (x : Ref)
    (hx : Plain W σ x) (hA : ∀ a ∈ tx.acts, a.contract = bank → ∀ p ∈ a.auth, ¬ Names W σ x p.account)
    (h : runTx W σ tx t = some σ') (s : Sym) (b : Bucket) : bal σ.books.mem x s b ≤ bal σ'.books.mem x s b := by
  refine ((coins_run hS hs hT (fun y => y = x) (fun y hy => hy ▸ hx) (fun a ha hb y hy p hp => ?_) h).kept x rfl).bal s b
  rw [hy]
  exact hA a ha hb p hp

/-- A user who did not sign loses nothing. -/
theorem unsigned_coins_safe {reg0 : RegId} (hS : Setup W S) (hs : Sound W S σ)
    (hT : ∀ s ∈ natives, total σ.books.mem s S + pending σ s < U64) (x : Ref) (hx : Plain W σ x) (hc : checkTx W reg0 σ tx = true)
    (hn : ∀ v ∈ authorized reg0 tx, ¬ Names W σ x v) (h : runTx W σ tx t = some σ') (s : Sym) (b : Bucket) :
    bal σ.books.mem x s b ≤ bal σ'.books.mem x s b :=
  user_coins_safe hS hs hT x hx (fun _ ha _ _ hp => hn _ (checkTx_auth hc ha hp)) h s b

theorem names_bob {v : Nat} (h : Names w0 s0 2 v) : RegId.ofInt v = ⟨1, 2⟩ := by
  rcases h with h | h
  · have h := find_mem (lookup0 h)
    simpa [regs] using h
  · rw [h]; decide +kernel

theorem bob_plain : Plain w0 s0 2 := by
  refine ⟨by decide, fun v hv => ?_⟩
  have e := names_bob hv
  rw [e]
  refine ⟨by decide +kernel, by decide, ?_⟩
  cases hn : isNative v with
  | false => rfl
  | true => rcases native_cases hn with rfl | rfl | rfl <;> exact absurd e (by decide)

/-- The demo transaction meets the hypotheses for Bob, who gains; Ann, who signed, and the contract pay. -/
example : (∀ v ∈ authorized ⟨1, 1⟩ tx1, ¬ Names w0 s0 2 v) ∧ (runTx w0 s0 tx1 5).map (fun σ => (view σ 1, view σ 2, view σ 3)) =
    some ((1000000000000693, 0), (1000000000000107, 30), (999999999999900, 0)) := by
  refine ⟨fun v hv hn => ?_, by decide +kernel⟩
  have e := names_bob hn
  have : v = ann := by simpa [authorized, tx1, tx0, RegId.toInt, ann, num] using hv
  rw [this] at e
  exact absurd e (by decide)

/-! ## C88: contracts neither create nor destroy coins -/

/-- Native coins: the total grows exactly by the rewards due that were minted. Issued assets: the total is the recorded supply. -/
theorem coins_conserved_partial (hS : Setup W S) (hs : Sound W S σ) (hT : ∀ s ∈ natives, total σ.books.mem s S + pending σ s < U64)
    (h : runTx W σ tx t = some σ') :
    (∀ s ∈ natives, total σ'.books.mem s S + pending σ' s = total σ.books.mem s S + pending σ s) ∧
    (∀ s, s ∉ natives → total σ'.books.mem s S = Asset.sup σ'.books s) ∧ Sound W S σ' := by
  have hc := coins_run hS hs hT (fun _ => False) (fun _ h => h.elim) (fun _ _ _ _ h => h.elim) h
  exact ⟨hc.sum, fun s hn => hc.sound.inv.tot s hn, hc.sound⟩

example : Setup w0 acc1 ∧ Sound w0 acc1 s0 ∧ (∀ s ∈ natives, total s0.books.mem s acc1 + pending s0 s < U64) ∧
    (runTx w0 s0 tx1 5).map (fun σ => (total σ.books.mem "WICC" acc1, pending σ "WICC")) =
      some (total s0.books.mem "WICC" acc1 + 700, 0) ∧ pending s0 "WICC" = 700 :=
  ⟨setup0, sound0, coins0_bound, by decide +kernel, by decide +kernel⟩

/-- Account 9 is what a contract deployed by this transaction gets: derived from height and index alone, it can be known and paid before.
Here it holds 10000 WICC. -/
def s1 : State :=
  let t : Sym → Option Token := fun s => if s = "WICC" then some (fun b => if b = .free then 1000000000000 else 0) else none
  { s0 with books := { books0 with mem := fun r => if r = 9 then { books0.mem r with tokens := t } else books0.mem r } }

/-- Deploying a contract destroys them. -/
theorem deploy_destroys_violated :
    checkTx w0 ⟨1, 1⟩ s1 (tx0 [call wasmio "setcode" [0, ann, 3]]) = true ∧
    total s1.books.mem "WICC" acc1 = 6001000000000000 ∧
    (runTx w0 s1 (tx0 [call wasmio "setcode" [0, ann, 3]]) 5).map (fun σ => (total σ.books.mem "WICC" acc1, view σ 9)) =
      some (6000000000000000, (0, 0)) := by decide +kernel

/-! ## C89: a contract is changed by its maintainer only -/

/-- If the code or the maintainer of a contract changed, the authority of its maintainer was used at the system contract. -/
theorem code_by_maintainer (h : runTx W σ tx t = some σ') (r : RegId) (k : Contract) (hk : σ.contracts r = some k)
    (hne : σ'.contracts r ≠ some k) : ∃ e ∈ σ'.log, e.recv = wasmio ∧ ∃ p ∈ e.act.auth, p.account = k.maintainer.toInt := by
  rcases (tables h).same r k hk with h1 | ⟨e, he, h1, _, h2⟩
  · exact absurd h1 hne
  · exact ⟨e, he, h1, h2⟩

/-- If the maintainer is a user, the user signed. -/
theorem code_signed {reg0 : RegId} (hc : checkTx W reg0 σ tx = true) (hC : ∀ v, isNative v = true → RegId.ofInt v ≠ W.cord)
    (hN : NoNative W σ) (h : runTx W σ tx t = some σ') (r : RegId) (k : Contract) (hk : σ.contracts r = some k)
    (hne : σ'.contracts r ≠ some k) (hu : isNative k.maintainer.toInt = false)
    (hu1 : σ.contracts (RegId.ofInt k.maintainer.toInt) = none) (hu2 : RegId.ofInt k.maintainer.toInt ≠ W.cord) :
    k.maintainer.toInt = reg0.toInt ∨
      ∃ a, lookup { W with payerReg := reg0 } σ k.maintainer.toInt = some a ∧ tx.sigOk k.maintainer.toInt a = true := by
  obtain ⟨e, he, h1, p, hp, h2⟩ := code_by_maintainer h r k hk hne
  rcases native_authority_partial hC hN h e he (by rw [h1]; decide) with ha | ⟨f, hf, hr, _, hg⟩
  · rcases authorized_signed hc (checkTx_auth hc ha hp) with h3 | ⟨_, a, h3, _, h4⟩
    · exact .inl (by rw [← h2]; exact h3)
    · exact .inr ⟨a, by rw [← h2]; exact h3, by rw [← h2]; exact h4⟩
  · have : f.recv = k.maintainer.toInt := by rw [← h2, hg p hp]
    rcases (tables h).ran f hf hr with h3 | h3 | h3
    · rw [this, hu] at h3; cases h3
    · rw [this, hu1] at h3; cases h3
    · rw [this] at h3; exact absurd h3 hu2

/-- New contracts get the number of the transaction; none disappears. -/
theorem contracts_kept (h : runTx W σ tx t = some σ') (r : RegId) (hr : r ≠ W.cord) :
    (σ'.contracts r).isSome = (σ.contracts r).isSome := by
  have T := tables h
  cases hk : σ.contracts r with
  | some k => obtain ⟨k', h1, _⟩ := T.flag r k hk; rw [h1]; rfl
  | none =>
    cases hk' : σ'.contracts r with
    | none => rfl
    | some k' =>
      rcases T.dom r (by rw [hk']; rfl) with h1 | h1
      · rw [hk] at h1; cases h1
      · exact absurd h1 hr

def byBob : Tx := { tx0 [⟨wasmio, nm "setcode", [⟨bob, 0⟩], [payOnce, bob, 3]⟩] with signers := [bob], sigOk := fun v r => v = bob && r = 2 }

/-- Bob replaces the code of his contract. -/
example : checkTx w0 ⟨1, 1⟩ s0 byBob = true ∧
    (runTx w0 s0 byBob 5).map (fun σ => ((σ.contracts ⟨2, 1⟩).map (·.code), (s0.contracts ⟨2, 1⟩).map (·.code))) =
      some (some [3], some [1]) := by decide +kernel

/-- The flag that forbids changing the code is kept but not looked at. -/
theorem not_upgradable_violated :
    (s0.contracts ⟨2, 2⟩).map (fun k => (k.upgradable, k.code)) = some (false, [2]) ∧
    checkTx w0 ⟨1, 1⟩ s0 { byBob with acts := [⟨wasmio, nm "setcode", [⟨bob, 0⟩], [relay, bob, 3]⟩] } = true ∧
    (runTx w0 s0 { byBob with acts := [⟨wasmio, nm "setcode", [⟨bob, 0⟩], [relay, bob, 3]⟩] } 5).map
      (fun σ => (σ.contracts ⟨2, 2⟩).map (fun k => (k.upgradable, k.code))) = some (some (false, [3])) := by
  decide +kernel

/-- A payer without a number. -/
def w1 : World := { w0 with payer := 7, payerReg := ⟨50, 5⟩ }

/-- A contract without maintainer (number 0) is taken over by anybody who pays with a key not yet registered: their number is 0 when the
transaction is checked. -/
theorem no_maintainer_violated :
    (s0.contracts ⟨2, 3⟩).map (·.maintainer) = some ⟨0, 0⟩ ∧ lookup w1 s0 0 = none ∧
    checkTx w1 ⟨0, 0⟩ s0 (tx0 [⟨wasmio, nm "setcoder", [⟨0, 0⟩], [grabber, num 50 5]⟩]) = true ∧
    (runTx w1 s0 (tx0 [⟨wasmio, nm "setcoder", [⟨0, 0⟩], [grabber, num 50 5]⟩]) 5).map
      (fun σ => (σ.contracts ⟨2, 3⟩).map (·.maintainer)) = some (some ⟨50, 5⟩) := by
  decide +kernel

/-! ## C90: the data of a contract is written by its own code -/

/-- Changed data of a contract: its program ran, under a number that means this contract, which is the prefix of the key. -/
theorem data_by_own_code (h : runTx W σ tx t = some σ') (r : RegId) (q : Nat × List Nat) (hq : σ'.data r q ≠ σ.data r q) :
    ∃ e ∈ σ'.log, e.ran = true ∧ isNative e.recv = false ∧ r = RegId.ofInt e.recv ∧ q.1 = e.recv ∧
      ((σ.contracts r).isSome = true ∨ r = W.cord) := by
  obtain ⟨e, he, h1, h2, h3, h4⟩ := (tables h).data r q hq
  refine ⟨e, he, h1, h2, h3, h4, ?_⟩
  rcases (tables h).ran e he h1 with h5 | h5 | h5
  · rw [h2] at h5; cases h5
  · exact .inl (by rw [h3]; exact h5)
  · exact .inr (by rw [h3]; exact h5)

example : (runTx w0 s0 tx1 5).map (fun σ => (σ.data ⟨2, 1⟩ (payOnce, [0]), s0.data ⟨2, 1⟩ (payOnce, [0]))) = some (some [1], none) := by
  decide +kernel

/-- `payOnce` refuses to pay again once its mark is set. -/
theorem payOnce_refuses (σ : State) (a : Act) (h : (σ.data (RegId.ofInt payOnce) (payOnce, [0])).isSome = true) (ha : a.contract = payOnce) :
    prog [1] σ payOnce a = none := by
  simp [prog, h, ha]

/-- Different numbers mean the same contract but different data: called under another number, it pays again from the same account. -/
theorem one_data_violated :
    RegId.ofInt payOnce = RegId.ofInt (payOnce + 2 ^ 16) ∧
    checkTx w0 ⟨1, 1⟩ s0 (tx0 [call payOnce "pay" [], call (payOnce + 2 ^ 16) "pay" []]) = true ∧
    (runTx w0 s0 (tx0 [call payOnce "pay" [], call (payOnce + 2 ^ 16) "pay" []]) 5).map (fun σ => (view σ 2, view σ 3)) =
      some ((1000000000000200, 0), (999999999999800, 0)) ∧
    (runTx w0 s0 (tx0 [call payOnce "pay" [], call payOnce "pay" []]) 5).isNone = true := by
  decide +kernel

/-- Under canonical numbers there is only one. -/
theorem one_data_partial {v w : Nat} (hv : v < 2 ^ 52) (hw : w < 2 ^ 52) (hv' : v % 2 ^ 20 < 2 ^ 16) (hw' : w % 2 ^ 20 < 2 ^ 16)
    (h : RegId.ofInt v = RegId.ofInt w) : v = w := by
  simp only [RegId.ofInt, RegId.mk.injEq] at h
  obtain ⟨h1, h2⟩ := h
  omega

/-! ## C91: work is bounded and paid for -/

/-- An accepted transaction executed at most 60056 receivers, at most four levels deep, and paid for each. -/
theorem work_bounded (hC : ∀ v, isNative v = true → RegId.ofInt v ≠ W.cord) (hN : NoNative W σ) (h : runTx W σ tx t = some σ') :
    σ'.log.length ≤ 60056 ∧ (∀ e ∈ σ'.log, e.depth < 4) ∧ 100 * σ'.log.length * tx.rate ≤ tx.fees ∧
      tx.size * 10 + σ'.log.length * 10000 ≤ 600562500 := by
  obtain ⟨_, h2, h3, _, h5⟩ := costs h
  unfold storeFuel noticeFuel at h2
  unfold maxFuel at h3
  refine ⟨by omega, fun e he => ?_, ?_, by omega⟩
  · obtain ⟨pre, post, hl⟩ := List.append_of_mem he
    exact (trace_justified hC hN h pre e post hl).2.1
  · refine Nat.le_trans ?_ h5
    unfold runFee
    refine Nat.mul_le_mul_right _ ?_
    omega

/-- Levels: every issued action is one deeper than its issuer. -/
theorem depth_step (hC : ∀ v, isNative v = true → RegId.ofInt v ≠ W.cord) (hN : NoNative W σ) (h : runTx W σ tx t = some σ')
    (pre : List Entry) (e : Entry) (post : List Entry) (he : σ'.log = pre ++ e :: post) :
    e.depth = 0 ∧ e.issuer = none ∨ ∃ f ∈ pre, f.depth + 1 = e.depth ∧ e.issuer = some f.recv := by
  obtain ⟨hw, _⟩ := trace_justified hC hN h pre e post he
  cases hi : e.issuer with
  | none => rw [hi] at hw; cases hw with | own _ h => exact .inl ⟨h, rfl⟩
  | some r =>
    rw [hi] at hw
    cases hw with
    | issued f hf hr hd hg => exact .inr ⟨f, hf, hd.symm, rfl⟩

/-- A contract that calls itself for ever fails, in any state and with any fees. -/
theorem endless_fails (c : Nat) (code : List Nat) (a : Act) (hn : isNative c = false) (ha : a.contract = c) (hp : a.auth = [⟨c, codePerm⟩])
    (hvm : ∀ σ r x, W.vm code σ r x = some [.inline a]) : ∀ (n : Nat) (σ : State) (iss : Option Nat) (b : Act), b.contract = c →
      program σ c = some code → execute W n σ iss b = none := by
  intro n
  induction n with
  | zero => intros; rfl
  | succ n ih =>
    intro σ iss b hb hc
    have hperm : a.auth.all (permOk c b a) = true := by
      rw [hp]
      simp only [List.all_cons, List.all_nil, Bool.and_true]
      unfold permOk
      rw [if_neg (by simp), if_pos (by simp [ha])]
    have h1 : executeOne W b (maxDepth - (n + 1)) iss ⟨σ, [b.contract], []⟩ b.contract =
        some ⟨logEntry σ b c (maxDepth - (n + 1)) iss, [c], [(c, a)]⟩ := by
      rw [hb]
      unfold executeOne
      simp only [hn, hc, hvm, hosts, host, executeInline, hperm]
      simp
    simp only [execute, h1]
    have h2 : notes W b (maxDepth - (n + 1)) iss maxRecipients 1 ⟨logEntry σ b c (maxDepth - (n + 1)) iss, [c], [(c, a)]⟩ =
        some ⟨logEntry σ b c (maxDepth - (n + 1)) iss, [c], [(c, a)]⟩ := rfl
    have h3 := ih (logEntry σ b c (maxDepth - (n + 1)) iss) (some c) a ha hc
    simp only [h2, inlines, h3]

example : (runTx w0 s0 tx1 5).map (fun σ => (σ.log.length, σ.fuel)) = some (13, 136700) := by decide +kernel

/-! ## C92: votes and rewards are in the hands of the voting contract -/

/-- Permissions of a contract whose account has no key: only its own program can give them. -/
theorem keyless_authority {reg0 : RegId} (hc : checkTx W reg0 σ tx = true) (hC : ∀ v, isNative v = true → RegId.ofInt v ≠ W.cord)
    (hN : NoNative W σ) (h : runTx W σ tx t = some σ') (c : Nat) (hk : ∀ r, lookup { W with payerReg := reg0 } σ c = some r → σ.pub r = false)
    (hp : c ≠ reg0.toInt) (e : Entry) (he : e ∈ σ'.log) (hn : isNative e.recv = true) (ha : ∃ p ∈ e.act.auth, p.account = c) :
    e.issuer = some c ∧ ∃ f ∈ σ'.log, f.ran = true ∧ f.recv = c := by
  obtain ⟨p, hpm, hpc⟩ := ha
  rcases native_authority_partial hC hN h e he hn with ha | ⟨f, hf, hr, hi, hg⟩
  · rcases authorized_signed hc (checkTx_auth hc ha hpm) with h3 | ⟨_, a, h3, h4, _⟩
    · exact absurd (hpc.symm.trans h3) hp
    · rw [hpc] at h3
      rw [hk a h3] at h4; cases h4
  · have : f.recv = c := by rw [← hpc, hg p hpm]
    exact ⟨by rw [hi, this], f, hf, hr, this⟩

/-- The votes of an account change only if the program of the voting contract calls `vote` for it; the rewards record only if it uses its
authority. -/
theorem votes_by_contract {reg0 : RegId} (hc : checkTx W reg0 σ tx = true) (hC : ∀ v, isNative v = true → RegId.ofInt v ≠ W.cord)
    (hN : NoNative W σ) (hk : ∀ r, lookup { W with payerReg := reg0 } σ W.voteContract = some r → σ.pub r = false)
    (hp : W.voteContract ≠ reg0.toInt) (h1 : OneNumber W σ) (hu : Unused W σ) (hr : Ranked W σ) (h : runTx W σ tx t = some σ') :
    (∀ r, r ≠ newKey W → votes σ' r ≠ votes σ r → ∃ e ∈ σ'.log, e.recv = voting ∧ e.issuer = some W.voteContract ∧ e.act.action = nm "vote" ∧
      ∃ x, W.dec.vote e.act.data = some x ∧ lookup W σ' x.candidate = some r) ∧
    (σ'.reward ≠ σ.reward → ∃ e ∈ σ'.log, e.recv = voting ∧ e.issuer = some W.voteContract) := by
  have V := vote_tables h1 hu hr h
  refine ⟨fun r hne hv => ?_, fun hne => ?_⟩
  · obtain ⟨_, e, he, e1, _, e3, e4, e5⟩ := V.votes r hne hv
    exact ⟨e, he, e1, (keyless_authority hc hC hN h _ hk hp e he (by rw [e1]; decide) e4).1, e3, e5⟩
  · obtain ⟨e, he, e1, _, e4⟩ := V.reward hne
    exact ⟨e, he, e1, (keyless_authority hc hC hN h _ hk hp e he (by rw [e1]; decide) e4).1⟩

/-- Votes and ranking stay in agreement if no vote of zero is passed on. -/
theorem ranking_partial (h1 : OneNumber W σ) (hu : Unused W σ) (hr : Ranked W σ) (h : runTx W σ tx t = some σ')
    (hz : ∀ e ∈ σ'.log, e.recv = voting → ∀ x, W.dec.vote e.act.data = some x → x.votes ≠ 0) : Ranked W σ' := by
  rcases (vote_tables h1 hu hr h).ranked with h2 | ⟨_, e, he, e1, _, _, _, x, e5, e6⟩
  · exact h2
  · exact absurd e6 (hz e he e1 x e5)

theorem demo_numbers : OneNumber w0 s0 ∧ Unused w0 s0 ∧ Ranked w0 s0 := by
  refine ⟨fun v w r h1 h2 => ?_, ⟨fun v h => (find_reg (lookup0 h)).2 rfl, fun v h => ?_, fun n => rfl⟩, fun v r h => ⟨fun n hn => ?_, fun h' => ?_⟩⟩
  · have h1 := find_mem (lookup0 h1)
    have h2 := find_mem (lookup0 h2)
    simp only [regs, List.mem_cons, Prod.mk.injEq, List.not_mem_nil, or_false] at h1 h2
    rcases h1 with ⟨e, rfl⟩ | ⟨e, rfl⟩ | ⟨e, rfl⟩ | ⟨e, rfl⟩ | ⟨e, rfl⟩ | ⟨e, rfl⟩ <;> simp at h2 <;> rw [e, h2]
  · cases hl : lookup w0 s0 v with
    | none => rfl
    | some r => have := lookup0 hl; rw [h] at this; exact absurd this (by simp [show find regs w0.cord = none from by decide])
  · cases hn
  · refine absurd ?_ h'
    have hm : r ∈ acc1 := (find_reg (lookup0 h)).1
    clear h h'
    revert r
    decide +kernel

example : (∀ r, lookup { w0 with payerReg := ⟨1, 1⟩ } s0 w0.voteContract = some r → s0.pub r = false) ∧
    (runTx w0 s0 tx1 5).map (fun σ => (votes σ 2, votes s0 2, σ.index (30, ⟨1, 2⟩), decide (σ.reward = s0.reward))) =
      some (30, 0, true, false) := by
  refine ⟨fun r h => ?_, by decide +kernel⟩
  have h := lookup0 h
  have : find regs (RegId.ofInt w0.voteContract) = some 6 := by decide +kernel
  rw [this] at h
  cases h
  decide

/-- A vote of zero, passed on by the voting contract, removes the candidate from the ranking; the votes stay. -/
theorem zero_vote_violated :
    (runTx w0 s0 (tx0 [call voter "vote" [bob, 30]]) 5).map (fun σ => (votes σ 2, σ.index (30, ⟨1, 2⟩))) = some (30, true) ∧
    (runTx w0 s0 (tx0 [call voter "vote" [bob, 30], call voter "vote" [bob, 0]]) 5).map
      (fun σ => (votes σ 2, σ.index (30, ⟨1, 2⟩))) = some (30, false) := by
  decide +kernel

/-! ## C93: the outcome does not depend on the machine -/

/-- Two nodes that both take less than two seconds agree. -/
theorem same_outcome_partial (t t' : Nat) (ht : t < maxTime) (ht' : t' < maxTime) : runTx W σ tx t = runTx W σ tx t' := by
  unfold runTx
  cases runActs W _ tx.acts with
  | none => rfl
  | some s =>
    simp only
    rw [if_neg (Nat.not_le.2 ht), if_neg (Nat.not_le.2 ht')]

/-- A slow node refuses a block that a fast one accepts, whatever the fees. -/
theorem same_outcome_violated :
    checkTx w0 ⟨1, 1⟩ s0 tx1 = true ∧ (runTx w0 s0 tx1 1999999).isSome = true ∧ (runTx w0 s0 tx1 2000000).isNone = true := by
  decide +kernel

/-! ## C94: numbers identify accounts -/

/-- The number of an account leads back to the account. -/
def Numbered (σ : State) : Prop := ∀ k, σ.regOf k ≠ ⟨0, 0⟩ → σ.reg (σ.regOf k) = some k

def numberPolicy (W : World) : Policy W where
  P := fun σ => Numbered σ ∧ (σ.contracts W.cord = none → ∀ k, σ.regOf k ≠ W.cord)
  Ok := fun _ _ _ _ => True
  mono := fun _ h => h
  step := by
    intro σ σ' d iss a recv hP _ _ hs
    obtain ⟨_, _, _, hr, _⟩ := hs.frame
    rcases hr with ⟨h1, h2, _⟩ | ⟨x, rfl, hn, _⟩
    · refine ⟨by unfold Numbered; rw [h1, h2]; exact hP.1, fun hc => ?_⟩
      rw [h2]
      refine hP.2 ?_
      cases hs with
      | fuel => exact hc
      | bank _ _ h => obtain ⟨b, _, rfl⟩ := onBooks_some h; exact hc
      | deploy => simp [Wasm.deploy] at hc
      | code =>
        simp only [setContract] at hc
        split at hc
        · cases hc
        · exact hc
      | vote => exact hc
      | reward _ _ _ _ h =>
        rcases payReward_some h with ⟨w, rfl⟩ | ⟨w, σ1, _, h3, rfl⟩
        · exact hc
        · obtain ⟨b, _, rfl⟩ := onBooks_some h3; exact hc
      | data => exact hc
    · refine ⟨fun k hk => ?_, fun hc => by simp [Wasm.deploy] at hc⟩
      have hno := hP.2 hn
      simp only [Wasm.deploy] at hk ⊢
      by_cases e : k = W.keyOf W.cord
      · simp [e]
      · rw [if_neg e] at hk ⊢
        rw [if_neg (hno k)]
        exact hP.1 k hk
  log := fun hP _ _ _ => hP
  inl := fun _ _ _ _ _ _ => trivial

/-- Kept by every transaction whose own number is not yet in use when its actions start. -/
theorem numbers_partial (hN : Numbered σ) (hu : ∀ k, σ.regOf k ≠ W.cord) (h : runTx W σ tx t = some σ') : Numbered σ' := by
  obtain ⟨s, hr, rfl, _⟩ := runTx_some h
  exact (runActs_policy (numberPolicy W) tx.acts (σ := start σ tx) ⟨hN, fun _ => hu⟩ (fun a ha => trivial) hr).1

/-- The payer is registered by this transaction, and gets its number; then a contract is deployed. -/
def s2 : State :=
  { s0 with reg := fun r => if r = ⟨50, 5⟩ then some 7 else s0.reg r
            regOf := fun k => if k = 7 then ⟨50, 5⟩ else s0.regOf k
            pub := fun k => if k = 7 then true else s0.pub k }

def deployTx : Tx := tx0 [⟨wasmio, nm "setcode", [], [0, bob, 1]⟩]

/-- Payer and contract have the same number, and it leads to the contract. -/
theorem numbers_violated :
    checkTx w1 ⟨0, 0⟩ s2 deployTx = true ∧ s2.reg (s2.regOf 7) = some 7 ∧
    (runTx w1 s2 deployTx 5).map (fun σ => (σ.regOf 7, σ.regOf 9, σ.reg ⟨50, 5⟩)) = some (⟨50, 5⟩, ⟨50, 5⟩, some 9) := by
  decide +kernel

/-- The state some time later: both have money. -/
def s3 : State :=
  let t : Sym → Option Token := fun s => if s = "WICC" then some (fun b => if b = .free then 1000000000000 else 0) else none
  match runTx w1 s2 deployTx 5 with
  | none => s0
  | some σ => { σ with books := { σ.books with mem := fun r => if r = 7 ∨ r = 9 then { σ.books.mem r with tokens := t } else σ.books.mem r } }

/-- What the contract pays out is taken from the former payer when they call it. -/
theorem shared_number_violated :
    checkTx { w1 with cord := ⟨60, 1⟩ } ⟨50, 5⟩ s3 (tx0 [⟨num 50 5, nm "pay", [], []⟩]) = true ∧
    (runTx { w1 with cord := ⟨60, 1⟩ } s3 (tx0 [⟨num 50 5, nm "pay", [], []⟩]) 5).map (fun σ => (view σ 7, view σ 9)) =
      some ((999999999900, 0), (1000000000000, 0)) := by
  decide +kernel

example : Numbered s0 ∧ (∀ k, s0.regOf k ≠ w0.cord) ∧
    (runTx w0 s0 (tx0 [call wasmio "setcode" [0, ann, 3]]) 5).map (fun σ => (σ.reg ⟨50, 5⟩, σ.regOf 9)) = some (some 9, ⟨50, 5⟩) := by
  have key : ∀ k, (∃ p ∈ regs, p.2 = k ∧ s0.regOf k = p.1) ∨ s0.regOf k = ⟨0, 0⟩ := by
    intro k
    cases h : regs.find? (fun p => p.2 = k) with
    | none => right; simp [s0, h]
    | some p => exact .inl ⟨p, List.mem_of_find?_eq_some h, by simpa using List.find?_some h, by simp [s0, h]⟩
  have kp : ∀ p ∈ regs, p.1 ≠ (⟨50, 5⟩ : RegId) ∧ find regs p.1 = some p.2 := by decide
  refine ⟨fun k hk => ?_, fun k => ?_, by decide +kernel⟩
  · rcases key k with ⟨p, hp, h1, h2⟩ | h
    · rw [h2, ← h1]; exact (kp p hp).2
    · exact absurd h hk
  · rcases key k with ⟨p, hp, _, h2⟩ | h
    · rw [h2]; exact (kp p hp).1
    · rw [h]; decide

end Verif.Wasm
