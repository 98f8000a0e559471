import Verif.Wasm.Steps
import Verif.Asset.Inv

/-! Coins while contracts run. -/
namespace Verif.Wasm

open Verif.Account Verif.Ledger
open Verif.Asset (natives WICC MAX)

/-! ## Balance operations -/

theorem opBal_untouched {m m' : Mem} {q : Req} (h : opBal m q = some m') {r : Ref} (h1 : r ≠ q.self) (h2 : q.peer ≠ some r) :
    m' r = m r := by
  have := (operate_frame m q.self q.sym q.op q.amount q.peer).1 r h1 h2
  rw [opBal_some h] at this
  exact this

theorem execAll_untouched {S : Finset Ref} {r : Ref} (hr : r ∉ S) : ∀ {qs : List Req} {m m' : Mem}, (∀ q ∈ qs, q.Within S) →
    execAll m qs = some m' → m' r = m r
  | [], m, m', _, h => by cases h; rfl
  | q :: qs, m, m', hin, h => by
    obtain ⟨m1, h1, h2⟩ := execAll_cons_some h
    obtain ⟨w1, w2, _⟩ := hin q (by simp)
    rw [execAll_untouched hr (fun q' h' => hin q' (by simp [h'])) h2]
    exact opBal_untouched h1 (fun e => hr (e ▸ w1)) (fun e => hr (w2 r e))

/-- The operation creates coins or takes them from an account with `D`. -/
def Debits (D : Ref → Prop) (q : Req) : Prop := (q.op = .addFree ∧ q.peer = none) ∨ (q.op = .subFree ∧ D q.self)

theorem debits_nonneg {D : Ref → Prop} {q : Req} {r : Ref} (s : Sym) (b : Bucket) (h : Debits D q) (hr : ¬ D r) :
    0 ≤ reqDelta r s b q := by
  obtain ⟨self, t, op, v, peer⟩ := q
  unfold reqDelta
  split
  · rcases h with ⟨h1, h2⟩ | ⟨h1, h2⟩
    · simp only at h1 h2
      subst h1; subst h2
      refine Int.mul_nonneg ?_ (Int.natCast_nonneg _)
      unfold netDelta
      cases b <;> simp only [selfDelta] <;> split <;> simp
    · simp only at h1 h2
      subst h1
      have hn : r ≠ self := fun e => hr (e ▸ h2)
      refine Int.mul_nonneg ?_ (Int.natCast_nonneg _)
      unfold netDelta
      rw [if_neg hn]
      cases b <;> simp only [peerDelta] <;> split <;> simp
  · exact le_refl _

theorem debits_sum {D : Ref → Prop} {r : Ref} (s : Sym) (b : Bucket) (hr : ¬ D r) : ∀ {qs : List Req}, (∀ q ∈ qs, Debits D q) →
    0 ≤ sumReq (reqDelta r s b) qs
  | [], _ => le_refl _
  | q :: qs, h => by
    rw [sumReq_cons]
    exact Int.add_nonneg (debits_nonneg s b (h q (by simp)) hr) (debits_sum s b hr (fun q' h' => h q' (by simp [h'])))

/-! ## The bank -/

/-- The action carries the authority of account `r`. -/
def AuthRef (W : World) (σ : State) (a : Act) (r : Ref) : Prop :=
  (∃ u, hasAuth a u = true ∧ lookup W σ u = some r) ∨ hasAuth a (σ.regOf r).toInt = true

theorem assetFeeReqs_debits {D : Ref → Prop} {env : Asset.Env} {src : Ref} {fee : Nat} (h : D src) :
    ∀ q ∈ Asset.assetFeeReqs env src fee, Debits D q := by
  intro q hq
  simp only [Asset.assetFeeReqs, List.mem_cons] at hq
  rcases hq with rfl | hq
  · exact .inr ⟨rfl, h⟩
  · obtain ⟨d, _, j, rfl⟩ := Asset.shareReqs_mem hq
    exact .inr ⟨rfl, h⟩

theorem bank_reqs {S : Finset Ref} {W : World} {σ : State} {a : Act} {e : Asset.Ev} {st' : Asset.State} (hb : BankEv W σ a e)
    (hI : Asset.Inv0 σ.books) (hE : W.env.In S) (hL : ∀ v r, lookup W σ v = some r → r ∈ S) (h : Asset.apply σ.books e = some st') :
    ∃ qs, execAll σ.books.mem qs = some st'.mem ∧ (∀ q ∈ qs, q.Within S) ∧ (∀ q ∈ qs, Debits (AuthRef W σ a) q) ∧
      (∀ s ∈ natives, mintedAll s qs = 0 ∧ burnedAll s qs = 0) ∧ (∀ s, mintedAll s qs ≤ MAX) ∧ e.In S ∧ ∀ s, e.mint s = 0 := by
  cases hb with
  | transfer ha hf ht hv =>
    rename_i u u' f t s v
    simp only [Asset.apply, Option.map_eq_some_iff] at h
    obtain ⟨m, hm, rfl⟩ := h
    have hw : ∀ q ∈ [(⟨f, s, .subFree, v, some t⟩ : Req)], q.Within S := by
      intro q hq
      rw [List.mem_singleton.1 hq]
      refine ⟨hL _ _ hf, fun p hp => by cases hp; exact hL _ _ ht, ?_⟩
      unfold U64; dsimp only; omega
    have hmi : ∀ s', mintedAll s' [(⟨f, s, .subFree, v, some t⟩ : Req)] = 0 := fun s' => by simp [minted]
    have hbu : ∀ s', burnedAll s' [(⟨f, s, .subFree, v, some t⟩ : Req)] = 0 := fun s' => by simp [burned]
    refine ⟨_, hm, hw, ?_, fun s' _ => ⟨hmi s', hbu s'⟩, fun s' => by rw [hmi]; exact Nat.zero_le _,
      ⟨hw, fun s' _ => ⟨hmi s', hbu s'⟩⟩, hmi⟩
    intro q hq
    rw [List.mem_singleton.1 hq]
    exact .inr ⟨rfl, .inl ⟨u, ha, hf⟩⟩
  | issue hu hr =>
    rename_i u r auth s n mi ok
    simp only [Asset.apply, Asset.bankIssue] at h
    split at h; · cases h
    split at h; · cases h
    split at h; · cases h
    rename_i hnone
    split at h; · cases h
    rename_i hau
    split at h; · cases h
    split at h; · cases h
    rename_i _ m hm
    split at h; · cases h
    rename_i hmax
    split at h; · cases h
    rename_i _ m' hm'
    cases h
    have hn : s ∉ natives := by
      intro hs
      obtain ⟨x, hx, _⟩ := hI.nat s hs
      rw [hx] at hnone
      exact hnone rfl
    obtain ⟨_, _, hfee⟩ := Asset.assetFee_some hm
    have hrS := hL _ _ hr
    have hM : MAX < U64 := by decide
    have hauth : AuthRef W σ a r := .inl ⟨u, by rw [← hu r]; simpa using hau, hr⟩
    refine ⟨Asset.assetFeeReqs W.env r W.env.issueFee ++ [⟨r, s, .addFree, n, none⟩], execAll_trans hfee (execAll_one hm'), ?_, ?_, ?_, ?_,
      ⟨hE, hrS, by omega⟩, fun _ => rfl⟩
    · intro q hq
      rcases List.mem_append.1 hq with hq | hq
      · exact Asset.assetFeeReqs_within hE hrS hE.issueFee q hq
      · rw [List.mem_singleton.1 hq]
        exact ⟨hrS, fun p hp => (by cases hp), by dsimp only; omega⟩
    · intro q hq
      rcases List.mem_append.1 hq with hq | hq
      · exact assetFeeReqs_debits hauth q hq
      · rw [List.mem_singleton.1 hq]
        exact .inl ⟨rfl, rfl⟩
    · intro s' hs'
      obtain ⟨q1, q2⟩ := Asset.assetFeeReqs_quiet (env := W.env) (src := r) (fee := W.env.issueFee) s'
      have : s ≠ s' := fun e => hn (e ▸ hs')
      constructor
      · rw [mintedAll_append, q1]; simp [minted, this]
      · rw [burnedAll_append, q2]; simp [burned]
    · intro s'
      obtain ⟨q1, _⟩ := Asset.assetFeeReqs_quiet (env := W.env) (src := r) (fee := W.env.issueFee) s'
      rw [mintedAll_append, q1]
      simp only [mintedAll_cons, mintedAll_nil, minted]
      split <;> omega
  | mintBurn hu ht =>
    rename_i u t auth mint s v ok
    simp only [Asset.apply, Asset.bankMintBurn] at h
    split at h; · cases h
    rename_i hv
    split at h; · cases h
    rename_i _ x hx
    split at h; · cases h
    split at h; · cases h
    rename_i _ o ho
    split at h; · cases h
    split at h; · cases h
    rename_i hau
    split at h; · cases h
    split at h; · cases h
    have hn : s ∉ natives := by
      intro hs
      obtain ⟨y, hy, hy'⟩ := hI.nat s hs
      rw [hx] at hy; cases hy
      rw [ho] at hy'; cases hy'
    have htS := hL _ _ ht
    have hM : (2 : Nat) ^ 62 ≤ MAX := by decide
    have hM' : MAX < U64 := by decide
    split at h
    · split at h; · cases h
      split at h; · cases h
      rename_i _ m hm
      cases h
      refine ⟨_, execAll_one hm, ?_, ?_, ?_, ?_, ⟨hE, htS⟩, fun _ => rfl⟩
      · intro q hq
        rw [List.mem_singleton.1 hq]
        exact ⟨htS, fun p hp => (by cases hp), by dsimp only; omega⟩
      · intro q hq
        rw [List.mem_singleton.1 hq]
        exact .inl ⟨rfl, rfl⟩
      · intro s' hs'
        have : s ≠ s' := fun e => hn (e ▸ hs')
        simp [minted, burned, this]
      · intro s'
        simp only [mintedAll_cons, mintedAll_nil, minted]
        split <;> omega
    · split at h; · cases h
      rename_i hto
      split at h; · cases h
      split at h; · cases h
      rename_i _ m hm
      cases h
      refine ⟨_, execAll_one hm, ?_, ?_, ?_, ?_, ⟨hE, htS⟩, fun _ => rfl⟩
      · intro q hq
        rw [List.mem_singleton.1 hq]
        exact ⟨htS, fun p hp => (by cases hp), by dsimp only; omega⟩
      · intro q hq
        rw [List.mem_singleton.1 hq]
        refine .inr ⟨rfl, .inr ?_⟩
        rw [← hu]
        have : t = o := by by_contra hc; exact hto hc
        dsimp only
        rw [this]
        simpa using hau
      · intro s' hs'
        have : s ≠ s' := fun e => hn (e ▸ hs')
        simp [minted, burned, this]
      · intro s'
        simp [minted]
  | update hu =>
    rename_i auth s o ok
    have hm : st'.mem = σ.books.mem := by
      simp only [Asset.apply, Asset.bankUpdate] at h
      split at h; · cases h
      split at h; · cases h
      split at h; · cases h
      split at h; · cases h
      split at h; · cases h
      split at h
      · cases h; rfl
      · split at h
        · cases h; rfl
        · cases h
    exact ⟨[], by rw [hm]; rfl, fun q hq => (by cases hq), fun q hq => (by cases hq), fun s _ => ⟨rfl, rfl⟩,
      fun s => Nat.zero_le _, trivial, fun _ => rfl⟩

/-! ## What holds throughout -/

/-- The key id a contract deployed by this transaction gets. -/
def newKey (W : World) : Ref := W.keyOf W.cord

/-- A value that names account `x`. -/
def Names (W : World) (σ : State) (x : Ref) (v : Nat) : Prop := lookup W σ v = some x ∨ v = (σ.regOf x).toInt

/-- The world: all accounts are in `S`; the key id of a new contract is not one of those paid fees; the number of the
transaction is not that of a native contract. -/
structure Setup (W : World) (S : Finset Ref) : Prop where
  env : W.env.In (S.erase (newKey W))
  key : newKey W ∈ S
  cord : ∀ v, isNative v = true → RegId.ofInt v ≠ W.cord

/-- The state: assets and balances agree, numbers lead to accounts in `S`, the native contracts have none, and the key id
of a contract to be deployed is unused. -/
structure Sound (W : World) (S : Finset Ref) (σ : State) : Prop where
  inv : Asset.Inv S σ.books
  look : ∀ v r, lookup W σ v = some r → r ∈ S
  fresh : σ.contracts W.cord = none → σ.books.mem (newKey W) = newAccount (newKey W) ∧ ∀ v, lookup W σ v ≠ some (newKey W)
  nat : ∀ v, isNative v = true → lookup W σ v = none

/-- Coins of `s` still to be minted. -/
def pending (σ : State) (s : Sym) : Nat := if s = WICC then σ.reward.fresh else 0

/-- An account of a user: no number of it belongs to a contract, native or not, or to this transaction. -/
def Plain (W : World) (σ : State) (x : Ref) : Prop :=
  x ≠ newKey W ∧ ∀ v, Names W σ x v → σ.contracts (RegId.ofInt v) = none ∧ RegId.ofInt v ≠ W.cord ∧ isNative v = false

structure Kept (W : World) (σ0 σ : State) (x : Ref) : Prop where
  bal : ∀ s b, bal σ0.books.mem x s b ≤ bal σ.books.mem x s b
  names : ∀ v, Names W σ x v → Names W σ0 x v
  plain : ∀ v, Names W σ0 x v → σ.contracts (RegId.ofInt v) = none

structure CoinsOk (W : World) (S : Finset Ref) (T : Sym → Nat) (σ0 : State) (Q : Ref → Prop) (σ : State) : Prop where
  sound : Sound W S σ
  sum : ∀ s ∈ natives, total σ.books.mem s S + pending σ s = T s
  kept : ∀ x, Q x → Kept W σ0 σ x

variable {W : World} {S : Finset Ref} {T : Sym → Nat} {σ0 : State} {Q : Ref → Prop}

theorem bal_tokens {m m' : Mem} (h : ∀ r, (m' r).tokens = (m r).tokens) (r : Ref) (s : Sym) (b : Bucket) : bal m' r s b = bal m r s b := by
  unfold bal Account.token
  rw [h r]

theorem total_tokens {m m' : Mem} (h : ∀ r, (m' r).tokens = (m r).tokens) (s : Sym) (S : Finset Ref) : total m' s S = total m s S := by
  unfold total holding
  refine Finset.sum_congr rfl fun r _ => ?_
  simp only [bal_tokens h]

theorem inv_tokens {st : Asset.State} {m : Mem} (hI : Asset.Inv S st) (h : ∀ r, (m r).tokens = (st.mem r).tokens) :
    Asset.Inv S { st with mem := m } := by
  refine ⟨⟨hI.base.nat, hI.base.mir, hI.base.cap, hI.base.ps, hI.base.sp⟩, fun r s b => ?_, fun s hs => ?_, hI.log, hI.keysN, hI.keysR,
    hI.symsN, hI.symsP, hI.logOk⟩
  · dsimp only; rw [bal_tokens h]; exact hI.wf r s b
  · dsimp only
    rw [total_tokens h]
    exact hI.tot s hs

/-- Everything but the books, and their accounts up to coins, stays. -/
theorem coins_books {σ σ' : State} {qs : List Req} {st' : Asset.State} {D : Ref → Prop} (hT : ∀ s ∈ natives, T s < U64)
    (hc : CoinsOk W S T σ0 Q σ) (h1 : σ'.books = st') (h2 : σ'.reg = σ.reg) (h3 : σ'.regOf = σ.regOf)
    (h4 : σ'.contracts = σ.contracts) (hx : execAll σ.books.mem qs = some st'.mem) (hin : ∀ q ∈ qs, q.Within S)
    (hin' : σ.contracts W.cord = none → ∀ q ∈ qs, q.Within (S.erase (newKey W)))
    (hD : ∀ q ∈ qs, Debits D q) (hQ : ∀ x, Q x → ¬ D x) (hM : ∀ s, s ∉ natives → mintedAll s qs ≤ MAX)
    (hp : ∀ s ∈ natives, pending σ' s + mintedAll s qs = pending σ s + burnedAll s qs ∧ mintedAll s qs ≤ pending σ s)
    (hI : (∀ s ∈ natives, total σ.books.mem s S + mintedAll s qs < U64) → Asset.Inv S st') : CoinsOk W S T σ0 Q σ' := by
  have hb : ∀ s, total σ.books.mem s S + mintedAll s qs < U64 := by
    intro s
    by_cases hs : s ∈ natives
    · have := hT s hs
      have := hc.sum s hs
      have := (hp s hs).2
      omega
    · rw [hc.sound.inv.tot s hs]
      have hcap : Asset.sup σ.books s ≤ MAX := by
        unfold Asset.sup
        split
        · exact Nat.zero_le _
        · rename_i x hx'; exact hc.sound.inv.base.cap s x hs hx'
      have := hM s hs
      have h64 : MAX + MAX < U64 := by decide
      omega
  obtain ⟨_, ex, tot⟩ := execAll_exact S qs _ _ hc.sound.inv.wf hin hb hx
  have hlook : ∀ v, lookup W σ' v = lookup W σ v := fun v => by unfold lookup; rw [h2]
  have hnames : ∀ x v, Names W σ' x v ↔ Names W σ x v := fun x v => by unfold Names; rw [hlook, h3]
  refine ⟨⟨by rw [h1]; exact hI (fun s _ => hb s), fun v r h => hc.sound.look v r (by rw [← hlook]; exact h), fun hn => ?_,
    fun v hv => by rw [hlook]; exact hc.sound.nat v hv⟩, fun s hs => ?_, fun x hx => ?_⟩
  · rw [h4] at hn
    obtain ⟨f1, f2⟩ := hc.sound.fresh hn
    refine ⟨?_, fun v => by rw [hlook]; exact f2 v⟩
    rw [h1, execAll_untouched (Finset.notMem_erase _ _) (hin' hn) hx]
    exact f1
  · have := hc.sum s hs
    have := (hp s hs).1
    have := tot s
    rw [h1]
    omega
  · have k := hc.kept x hx
    refine ⟨fun s b => ?_, fun v hv => k.names v ((hnames x v).1 hv), fun v hv => by rw [h4]; exact k.plain v hv⟩
    have h5 := k.bal s b
    have h6 := ex x s b
    have h7 := debits_sum s b (hQ x hx) hD
    rw [h1]
    omega

/-- Accounts that may not be debited: no action at the bank carries their authority. -/
def CoinAct (W : World) (σ0 : State) (Q : Ref → Prop) (a : Act) : Prop :=
  a.contract = bank → ∀ x, Q x → ∀ p ∈ a.auth, ¬ Names W σ0 x p.account

theorem hasAuth_mem {a : Act} {v : Nat} (h : hasAuth a v = true) : ∃ p ∈ a.auth, p.account = v := by
  unfold hasAuth at h
  rw [List.any_eq_true] at h
  obtain ⟨p, h1, h2⟩ := h
  exact ⟨p, h1, by simpa using h2⟩

theorem auth_names {σ : State} {a : Act} {x : Ref} (hk : Kept W σ0 σ x) (h : AuthRef W σ a x) : ∃ p ∈ a.auth, Names W σ0 x p.account := by
  rcases h with ⟨u, h1, h2⟩ | h1
  · obtain ⟨p, hp, e⟩ := hasAuth_mem h1
    exact ⟨p, hp, hk.names _ (.inl (by rw [e]; exact h2))⟩
  · obtain ⟨p, hp, e⟩ := hasAuth_mem h1
    exact ⟨p, hp, hk.names _ (.inr e)⟩

theorem native_recv {σ : State} {a : Act} {recv : Nat} (hs : Sound W S σ) (hn : isNative recv = true)
    (h : recv = a.contract ∨ Known W σ recv) : recv = a.contract := by
  rcases h with h | h
  · exact h
  · unfold Known at h
    rw [hs.nat recv hn] at h
    cases h

theorem coins_same {σ σ' : State} (hc : CoinsOk W S T σ0 Q σ) (h1 : σ'.books = σ.books) (h2 : σ'.reg = σ.reg) (h3 : σ'.regOf = σ.regOf)
    (h4 : σ'.contracts = σ.contracts) (h5 : σ'.reward.fresh = σ.reward.fresh) : CoinsOk W S T σ0 Q σ' := by
  have hlook : ∀ v, lookup W σ' v = lookup W σ v := fun v => by unfold lookup; rw [h2]
  have hnames : ∀ x v, Names W σ' x v ↔ Names W σ x v := fun x v => by unfold Names; rw [hlook, h3]
  refine ⟨⟨by rw [h1]; exact hc.sound.inv, fun v r h => hc.sound.look v r (by rw [← hlook]; exact h), fun hn => ?_,
    fun v hv => by rw [hlook]; exact hc.sound.nat v hv⟩, fun s hs => ?_, fun x hx => ?_⟩
  · rw [h4] at hn
    rw [h1]
    exact ⟨(hc.sound.fresh hn).1, fun v => by rw [hlook]; exact (hc.sound.fresh hn).2 v⟩
  · rw [h1]
    unfold pending
    rw [h5]
    exact hc.sum s hs
  · have k := hc.kept x hx
    exact ⟨by rw [h1]; exact k.bal, fun v hv => k.names v ((hnames x v).1 hv), by rw [h4]; exact k.plain⟩

theorem coins_step {σ σ' : State} {a : Act} {recv : Nat} (hS : Setup W S) (hT : ∀ s ∈ natives, T s < U64)
    (hQ : ∀ x, Q x → Plain W σ0 x) (hc : CoinsOk W S T σ0 Q σ) (ha : CoinAct W σ0 Q a) (hat : recv = a.contract ∨ Known W σ recv)
    (h : Step W a recv σ σ') : CoinsOk W S T σ0 Q σ' := by
  cases h with
  | fuel f h => exact coins_same hc rfl rfl rfl rfl rfl
  | data k v n hr hk => exact coins_same hc rfl rfl rfl rfl rfl
  | bank hr he h =>
    obtain ⟨st, hst, rfl⟩ := onBooks_some h
    have hcon := native_recv hc.sound (by rw [hr]; decide) hat
    have hE : W.env.In S := by
      have e := hS.env
      have sub : ∀ {x}, x ∈ S.erase (newKey W) → x ∈ S := fun h => Finset.mem_of_mem_erase h
      exact { e with fcoin := sub e.fcoin, gateway := sub e.gateway, delegates := fun d hd => sub (e.delegates d hd),
                     voters := fun d hd => sub (e.voters d hd) }
    have hw : ∃ qs, execAll σ.books.mem qs = some st.mem ∧ (∀ q ∈ qs, q.Within S) ∧
        (σ.contracts W.cord = none → ∀ q ∈ qs, q.Within (S.erase (newKey W))) ∧ (∀ q ∈ qs, Debits (AuthRef W σ a) q) ∧
        (∀ s ∈ natives, mintedAll s qs = 0 ∧ burnedAll s qs = 0) ∧ (∀ s, mintedAll s qs ≤ MAX) ∧ Asset.Ev.In S ‹_› ∧
        ∀ s, Asset.Ev.mint s ‹_› = 0 := by
      by_cases hn : σ.contracts W.cord = none
      · obtain ⟨qs, q1, q2, q3, q4, q5, q6, q7⟩ := bank_reqs he hc.sound.inv.base hS.env (fun v r hv =>
          Finset.mem_erase.2 ⟨fun e => (hc.sound.fresh hn).2 v (by rw [hv, e]), hc.sound.look v r hv⟩) hst
        obtain ⟨_, _, _, _, _, _, p6, _⟩ := bank_reqs he hc.sound.inv.base hE hc.sound.look hst
        refine ⟨qs, q1, fun q hq => ?_, fun _ => q2, q3, q4, q5, p6, q7⟩
        obtain ⟨w1, w2, w3⟩ := q2 q hq
        exact ⟨Finset.mem_of_mem_erase w1, fun p hp => Finset.mem_of_mem_erase (w2 p hp), w3⟩
      · obtain ⟨qs, q1, q2, q3, q4, q5, q6, q7⟩ := bank_reqs he hc.sound.inv.base hE hc.sound.look hst
        exact ⟨qs, q1, q2, fun e => absurd e hn, q3, q4, q5, q6, q7⟩
    obtain ⟨qs, q1, q2, q2', q3, q4, q5, q6, q7⟩ := hw
    refine coins_books hT hc rfl rfl rfl rfl q1 q2 q2' q3 (fun x hx hA => ?_) (fun s _ => q5 s) (fun s hs => ?_) (fun hb => ?_)
    · obtain ⟨p, hp, hn⟩ := auth_names (hc.kept x hx) hA
      exact ha (hcon.symm.trans hr) x hx p hp hn
    · obtain ⟨e1, e2⟩ := q4 s hs
      rw [e1, e2]
      exact ⟨rfl, Nat.zero_le _⟩
    · refine (Asset.apply_inv hc.sound.inv q6 (fun s hs => ?_) hst).1
      have := hb s hs
      rw [q7]
      omega
  | deploy x hr hn =>
    obtain ⟨f1, f2⟩ := hc.sound.fresh hn
    have hmem : (fun r => if r = W.keyOf W.cord then newAccount r else σ.books.mem r) = σ.books.mem := by
      funext r
      split
      · rename_i e; rw [e]; exact f1.symm
      · rfl
    have hbooks : (Wasm.deploy W σ x).books = σ.books := by
      show ({ σ.books with mem := fun r => if r = W.keyOf W.cord then newAccount r else σ.books.mem r } : Asset.State) = σ.books
      rw [hmem]
    have hlook : ∀ v r, lookup W (Wasm.deploy W σ x) v = some r → lookup W σ v = some r ∨ (RegId.ofInt v = W.cord ∧ r = newKey W) := by
      intro v r hv
      unfold lookup at hv ⊢
      split
      · rename_i hp; rw [if_pos hp] at hv; exact .inl hv
      · rename_i hp
        rw [if_neg hp] at hv
        simp only [Wasm.deploy] at hv
        split at hv
        · rename_i he; cases hv; exact .inr ⟨he, rfl⟩
        · exact .inl hv
    refine ⟨⟨by rw [hbooks]; exact hc.sound.inv, fun v r hv => ?_, fun e => ?_, fun v hv => ?_⟩, fun s hs => ?_, fun y hy => ?_⟩
    · rcases hlook v r hv with h | ⟨_, rfl⟩
      · exact hc.sound.look v r h
      · exact hS.key
    · simp [Wasm.deploy] at e
    · cases hl : lookup W (Wasm.deploy W σ x) v with
      | none => rfl
      | some r =>
        rcases hlook v r hl with h | ⟨h, _⟩
        · rw [hc.sound.nat v hv] at h; cases h
        · exact absurd h (hS.cord v hv)
    · rw [hbooks]; exact hc.sum s hs
    · have k := hc.kept y hy
      have hp := hQ y hy
      have hne : y ≠ W.keyOf W.cord := hp.1
      refine ⟨by rw [hbooks]; exact k.bal, fun v hv => ?_, fun v hv => ?_⟩
      · rcases hv with hv | hv
        · rcases hlook v y hv with h | ⟨_, h⟩
          · exact k.names v (.inl h)
          · exact absurd h hne
        · refine k.names v (.inr ?_)
          rw [hv]
          simp only [Wasm.deploy, if_neg hne]
      · have := (hp.2 v hv).2.1
        simp only [Wasm.deploy, if_neg this]
        exact k.plain v hv
  | code r k k' hr hk hau hu =>
    have hcon : ∀ q, σ.contracts q = none → (setContract σ r k').contracts q = none := by
      intro q hq
      have : q ≠ r := fun e => by rw [e, hk] at hq; cases hq
      simp only [setContract, if_neg this, hq]
    refine ⟨⟨hc.sound.inv, hc.sound.look, fun e => ?_, hc.sound.nat⟩, hc.sum, fun y hy => ?_⟩
    · refine hc.sound.fresh ?_
      simp only [setContract] at e
      split at e
      · cases e
      · exact e
    · have k := hc.kept y hy
      exact ⟨k.bal, k.names, fun v hv => hcon _ (k.plain v hv)⟩
  | vote z hr h0 hau hz hl hv =>
    rename_i r n
    have htok : ∀ q, ((fun k => if k = r then { σ.books.mem k with receivedVotes := n } else σ.books.mem k) q : Account).tokens =
        (σ.books.mem q).tokens := by
      intro q; dsimp only; split <;> rfl
    refine ⟨⟨inv_tokens hc.sound.inv htok, hc.sound.look, fun e => ?_, hc.sound.nat⟩, fun s hs => ?_, fun y hy => ?_⟩
    · obtain ⟨f1, f2⟩ := hc.sound.fresh e
      refine ⟨?_, f2⟩
      have : newKey W ≠ r := fun e' => f2 z.candidate (by rw [e']; exact hl)
      simp only [setVotes, if_neg this]
      exact f1
    · have := total_tokens htok s S
      have h2 := hc.sum s hs
      simp only [setVotes]
      rw [this]
      exact h2
    · have k := hc.kept y hy
      refine ⟨fun s b => ?_, k.names, k.plain⟩
      simp only [setVotes]
      rw [bal_tokens htok]
      exact k.bal s b
  | reward hr h0 hau hl h =>
    rename_i u r
    unfold payReward at h
    split at h
    · cases h
      exact coins_same hc rfl rfl rfl rfl rfl
    split at h
    · cases h
    simp only at h
    split at h
    · rename_i hz
      cases h
      exact coins_same hc rfl rfl rfl rfl hz.symm
    split at h
    · cases h
    rename_i _ σ1 h1
    cases h
    obtain ⟨st, hst, rfl⟩ := onBooks_some h1
    have hrS := hc.sound.look u r hl
    have hf : σ.reward.fresh < U64 := by
      have h1 := hT WICC Asset.wicc_native
      have h2 := hc.sum WICC Asset.wicc_native
      unfold pending at h2
      rw [if_pos rfl] at h2
      omega
    have hmi : ∀ s, mintedAll s [(⟨r, WICC, .addFree, σ.reward.fresh, none⟩ : Req)] = if WICC = s then σ.reward.fresh else 0 := by
      intro s; simp [minted]
    have hbu : ∀ s, burnedAll s [(⟨r, WICC, .addFree, σ.reward.fresh, none⟩ : Req)] = 0 := by
      intro s; simp [burned]
    have hwS : ∀ q ∈ [(⟨r, WICC, .addFree, σ.reward.fresh, none⟩ : Req)], q.Within S := by
      intro q hq
      rw [List.mem_singleton.1 hq]
      exact ⟨hrS, fun p hp => (by cases hp), hf⟩
    have hex : execAll σ.books.mem [(⟨r, WICC, .addFree, σ.reward.fresh, none⟩ : Req)] = some st.mem := by
      simp only [Asset.apply, Option.map_eq_some_iff] at hst
      obtain ⟨m, hm, rfl⟩ := hst
      exact hm
    refine coins_books (D := fun _ => False) hT hc rfl rfl rfl rfl hex hwS (fun hn => ?_) (fun q hq => ?_)
      (fun _ _ h => h) (fun s hs => ?_) (fun s hs => ?_) (fun hb => ?_)
    · intro q hq
      obtain ⟨w1, w2, w3⟩ := hwS q hq
      rw [List.mem_singleton.1 hq]
      refine ⟨Finset.mem_erase.2 ⟨fun e => (hc.sound.fresh hn).2 u (by rw [hl]; exact congrArg some e), hrS⟩, fun p hp => (by cases hp), hf⟩
    · rw [List.mem_singleton.1 hq]; exact .inl ⟨rfl, rfl⟩
    · rw [hmi, if_neg (fun e : WICC = s => hs (e ▸ Asset.wicc_native))]; exact Nat.zero_le _
    · rw [hmi, hbu]
      unfold pending
      by_cases e : s = WICC
      · subst e; simp
      · rw [if_neg e, if_neg e, if_neg (fun h => e h.symm)]; simp
    · have hIn : (Asset.Ev.other [⟨r, WICC, .addFree, σ.reward.fresh, none⟩]).In S := by
        refine ⟨hwS, fun s hs => ⟨?_, hbu s⟩⟩
        rw [hmi, if_neg (fun e : WICC = s => hs (e ▸ Asset.wicc_native))]
      exact (Asset.apply_inv hc.sound.inv hIn (fun s hs => hb s hs) hst).1

/-- The rule for coins. -/
def coinPolicy (hS : Setup W S) (hT : ∀ s ∈ natives, T s < U64) (hQ : ∀ x, Q x → Plain W σ0 x) : Policy W where
  P := CoinsOk W S T σ0 Q
  Ok := fun _ _ _ a => CoinAct W σ0 Q a
  mono := fun _ h => h
  step := fun hP hok hat hs => coins_step hS hT hQ hP hok hat.1 hs
  log := fun hP _ _ _ => coins_same hP rfl rfl rfl rfl rfl
  inl := by
    intro σ d iss a recv x hP hok hat hperm hnat hcode hx y hy p hp hname
    have hpa : p.account = recv := by
      have := (List.all_eq_true.1 hperm) p hp
      unfold permOk at this
      by_contra hne
      rw [if_pos ⟨hx, .inl hne⟩] at this
      cases this
    rw [hpa] at hname
    by_cases hn : isNative recv = true
    · have := ((hQ y hy).2 recv hname).2.2
      rw [hn] at this; cases this
    · have := hcode (by simpa using hn)
      rw [(hP.kept y hy).plain recv hname] at this
      cases this

end Verif.Wasm
