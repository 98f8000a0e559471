import Verif.Account.Lemmas
import Mathlib.Algebra.BigOperators.Group.Finset.Basic
import Mathlib.Algebra.Order.BigOperators.Group.Finset
import Mathlib.Algebra.BigOperators.Ring.Finset
import Mathlib.Tactic.Ring
/-!
# Properties of account balances (C01-C04, C17)

Spec vocabulary: two small tables saying, for every operation, by how many multiples of the amount each
bucket of the acting account and of the peer changes; and which bucket an operation draws from.
-/
set_option linter.unusedSimpArgs false
namespace Verif.Account

/-! ## Specification tables -/

/-- Change of the acting account's bucket, in multiples of the amount. -/
def selfDelta : Op → Bucket → Int
  | .addFree, .free => 1
  | .subFree, .free => -1
  | .stake, .free => -1 | .stake, .staked => 1
  | .unstake, .free => 1 | .unstake, .staked => -1
  | .freeze, .free => -1 | .freeze, .frozen => 1
  | .unfreeze, .free => 1 | .unfreeze, .frozen => -1
  | .vote, .free => -1 | .vote, .voted => 1
  | .unvote, .free => 1 | .unvote, .voted => -1
  | .pledge, .free => -1 | .pledge, .pledged => 1
  | .unpledge, .free => 1 | .unpledge, .pledged => -1
  | .dexDeal, .frozen => -1
  | _, _ => 0

/-- Change of the peer account's bucket, in multiples of the amount. -/
def peerDelta : Op → Bucket → Int
  | .addFree, .free => -1
  | .subFree, .free => 1
  | .dexDeal, .free => 1
  | _, _ => 0

/-- The net change at account `r`, bucket `b` (the acting account may be its own peer). -/
def netDelta (op : Op) (self : Ref) (peer : Option Ref) (r : Ref) (b : Bucket) : Int :=
  (if r = self then selfDelta op b else 0) + (if peer = some r then peerDelta op b else 0)

/-- The bucket of the acting account that the operation draws from (none for `addFree`). -/
def source : Op → Option Bucket
  | .subFree | .stake | .freeze | .vote | .pledge => some .free
  | .unstake => some .staked
  | .unfreeze | .dexDeal => some .frozen
  | .unvote => some .voted
  | .unpledge => some .pledged
  | _ => none

/-- Every stored amount is a `uint64_t`. -/
def WF (m : Mem) : Prop := ∀ r s b, bal m r s b < U64

theorem netDelta_some (op : Op) (self p r : Ref) (b : Bucket) :
    netDelta op self (some p) r b =
      (if r = self then selfDelta op b else 0) + (if r = p then peerDelta op b else 0) := by
  simp [netDelta, eq_comm]

theorem move_exact {m m' : Mem} {self : Ref} {s : Sym} {src dst : Bucket} {v : Nat}
    (h : move (touch m self s) self s src dst v = (true, m')) (hne : src ≠ dst)
    (hd : bal m self s dst + v < U64) (hwf : WF m) (r : Ref) (b : Bucket) :
    (bal m' r s b : Int) = bal m r s b +
      (if r = self then (if b = src then -1 else if b = dst then 1 else 0) else 0) * v := by
  obtain ⟨hv, rfl⟩ := move_true h
  simp at hv
  have hne' : ¬ dst = src := fun e => hne e.symm
  by_cases hr : r = self
  · subst hr
    by_cases h1 : b = src
    · subst h1; simp [hne, wsub_eq hv (hwf _ _ _)]; omega
    · by_cases h2 : b = dst
      · subst h2; simp [hne', wadd_eq hd]
      · simp [h1, h2]
  · simp [hr]

/-- **C01.** A successful operation changes every bucket of every token of every account by exactly the
amount the tables say. Hypotheses: amounts are 64-bit, and the bucket that is credited does not overflow
(the code adds without a check). -/
theorem operate_moves_exactly (m m' : Mem) (self : Ref) (s : Sym) (op : Op) (v : Nat)
    (peer : Option Ref) (h : operateBalance m self s op v peer = (true, m'))
    (hwf : WF m)
    (hd : ∀ r b, 0 < netDelta op self peer r b → bal m r s b + v < U64)
    (r : Ref) (s' : Sym) (b : Bucket) :
    (bal m' r s' b : Int) = bal m r s' b + (if s' = s then netDelta op self peer r b * v else 0) := by
  obtain ⟨hg, h⟩ := operate_true h
  by_cases hs : s' = s
  · subst hs
    simp only [if_true]
    have key : ∀ src dst, src ≠ dst → (∀ b, peerDelta op b = 0) →
        (∀ b, selfDelta op b = if b = src then -1 else if b = dst then 1 else 0) →
        move (touch m self s') self s' src dst v = (true, m') →
        (bal m' r s' b : Int) = bal m r s' b + netDelta op self peer r b * v := by
      intro src dst hne hp hsd hm
      have hdd : bal m self s' dst + v < U64 := by
        apply hd
        simp [netDelta, hp, hsd, Ne.symm hne]
      rw [move_exact hm hne hdd hwf]
      simp [netDelta, hp, hsd]
    cases op with
    | stake => exact key _ _ (by decide) (by intro b; cases b <;> rfl) (by intro b; cases b <;> rfl) h
    | unstake => exact key _ _ (by decide) (by intro b; cases b <;> rfl) (by intro b; cases b <;> rfl) h
    | freeze => exact key _ _ (by decide) (by intro b; cases b <;> rfl) (by intro b; cases b <;> rfl) h
    | unfreeze => exact key _ _ (by decide) (by intro b; cases b <;> rfl) (by intro b; cases b <;> rfl) h
    | vote => exact key _ _ (by decide) (by intro b; cases b <;> rfl) (by intro b; cases b <;> rfl) h
    | unvote => exact key _ _ (by decide) (by intro b; cases b <;> rfl) (by intro b; cases b <;> rfl) h
    | pledge => exact key _ _ (by decide) (by intro b; cases b <;> rfl) (by intro b; cases b <;> rfl) h
    | unpledge => exact key _ _ (by decide) (by intro b; cases b <;> rfl) (by intro b; cases b <;> rfl) h
    | nullOp => exact h.elim
    | addFree =>
      cases peer with
      | none =>
        simp only at h
        subst h
        have hdd := hd self .free (by simp [netDelta, selfDelta])
        cases b <;> by_cases hr : r = self <;> simp [netDelta, selfDelta, peerDelta, hr, wadd_eq hdd]
      | some p =>
        simp only at h
        obtain ⟨hv, rfl⟩ := h
        clear key
        by_cases hps : p = self
        · subst hps
          simp at hv
          have h1 := hwf p s' .free
          have hx : wsub (wadd (bal m p s' .free) v) v = bal m p s' .free := by
            unfold wadd wsub U64 at *; omega
          cases b <;> by_cases hr : r = p <;> simp [netDelta_some, selfDelta, peerDelta, hr, hx]
        · have hps' : ¬ self = p := fun e => hps e.symm
          have hdd := hd self .free (by simp [netDelta, selfDelta, hps])
          simp [hps] at hv
          by_cases hr : r = self
          · subst hr
            cases b <;> simp [netDelta_some, selfDelta, peerDelta, hps, hps', wadd_eq hdd]
          · by_cases hr' : r = p
            · subst hr'
              have hx := wsub_eq hv (hwf r s' .free)
              cases b <;> simp [netDelta_some, selfDelta, peerDelta, hps, hps', hr, hx]
              omega
            · cases b <;> simp [netDelta_some, hr, hr']
    | subFree =>
      simp only at h
      clear key
      cases peer with
      | none =>
        simp only at h
        obtain ⟨hv, rfl⟩ := h
        have hx := wsub_eq hv (hwf self s' .free)
        cases b <;> by_cases hr : r = self <;> simp [netDelta, selfDelta, peerDelta, hr, hx] <;> omega
      | some p =>
        simp only at h
        obtain ⟨hv, rfl⟩ := h
        by_cases hps : p = self
        · subst hps
          have h1 := hwf p s' .free
          have hx : wadd (wsub (bal m p s' .free) v) v = bal m p s' .free := by
            unfold wadd wsub U64 at *; omega
          cases b <;> by_cases hr : r = p <;> simp [netDelta_some, selfDelta, peerDelta, hr, hx]
        · have hps' : ¬ self = p := fun e => hps e.symm
          have hdd := hd p .free (by simp [netDelta, selfDelta, peerDelta, hps])
          by_cases hr : r = self
          · subst hr
            have hx := wsub_eq hv (hwf r s' .free)
            cases b <;> simp [netDelta_some, selfDelta, peerDelta, hps, hps', hx]
            omega
          · by_cases hr' : r = p
            · subst hr'
              cases b <;> simp [netDelta_some, selfDelta, peerDelta, hps, hps', hr, wadd_eq hdd]
            · cases b <;> simp [netDelta_some, hr, hr']
    | dexDeal =>
      simp only at h
      clear key
      obtain ⟨p, rfl, hv, rfl⟩ := h
      have hdd := hd p .free (by by_cases h : p = self <;> simp [netDelta, selfDelta, peerDelta, h])
      by_cases hps : p = self
      · subst hps
        by_cases hr : r = p
        · subst hr
          have hx := wsub_eq hv (hwf r s' .frozen)
          cases b <;> simp [netDelta_some, selfDelta, peerDelta, wadd_eq hdd, hx]
          omega
        · cases b <;> simp [netDelta_some, hr]
      · have hps' : ¬ self = p := fun e => hps e.symm
        by_cases hr : r = self
        · subst hr
          have hx := wsub_eq hv (hwf r s' .frozen)
          cases b <;> simp [netDelta_some, selfDelta, peerDelta, hps, hps', hx]
          omega
        · by_cases hr' : r = p
          · subst hr'
            cases b <;> simp [netDelta_some, selfDelta, peerDelta, hps, hps', hr, wadd_eq hdd]
          · cases b <;> simp [netDelta_some, hr, hr']
  · have : bal m' r s' b = bal m r s' b := by
      cases op <;> cases peer <;> simp only at h <;>
        first
        | (obtain ⟨hv, rfl⟩ := move_true h; simp [hs])
        | (subst h; simp [hs])
        | (obtain ⟨hv, rfl⟩ := h; simp [hs])
        | (obtain ⟨p', hp', hv, rfl⟩ := h; simp [hs])
        | simp at h
    simp [this, hs]

/-- **C01 (frame).** Whatever the outcome, nothing but the balances of the acting account and its peer in
the named token is written: other accounts are untouched, other token entries are untouched, and key ids,
permissions and received votes never change. -/
theorem operate_frame (m : Mem) (self : Ref) (s : Sym) (op : Op) (v : Nat) (peer : Option Ref) :
    let m' := (operateBalance m self s op v peer).2
    (∀ r, r ≠ self → peer ≠ some r → m' r = m r) ∧
    (∀ r s', s' ≠ s → (m' r).tokens s' = (m r).tokens s') ∧
    (∀ r, (m' r).keyid = (m r).keyid ∧ (m' r).perms = (m r).perms ∧
          (m' r).receivedVotes = (m r).receivedVotes) := by
  intro m'
  have hset : ∀ (m : Mem) (r r' : Ref) (b : Bucket) (x : Nat) (s' : Sym), s' ≠ s →
      (setBal m r s b x r').tokens s' = (m r').tokens s' := by
    intro m r r' b x s' hs'
    unfold setBal Account.setToken; split <;> simp_all
  have htch : ∀ (m : Mem) (r r' : Ref) (s' : Sym), s' ≠ s →
      (touch m r s r').tokens s' = (m r').tokens s' := by
    intro m r r' s' hs'
    unfold touch Account.setToken; split <;> simp_all
  have hset2 : ∀ (m : Mem) (r r' : Ref) (b : Bucket) (x : Nat), r' ≠ r →
      setBal m r s b x r' = m r' := by
    intro m r r' b x hr; unfold setBal; simp [hr]
  have htch2 : ∀ (m : Mem) (r r' : Ref), r' ≠ r → touch m r s r' = m r' := by
    intro m r r' hr; unfold touch; simp [hr]
  refine ⟨?_, ?_, ?_⟩
  · intro r hr hp
    have hp' : ∀ p, peer = some p → r ≠ p := fun p e h => hp (h ▸ e)
    show (operateBalance m self s op v peer).2 r = m r
    unfold operateBalance move
    cases peer <;> cases op <;> dsimp only <;> (repeat' split) <;>
      simp_all
  · intro r s' hs'
    show ((operateBalance m self s op v peer).2 r).tokens s' = _
    unfold operateBalance move
    cases peer <;> cases op <;> dsimp only <;> (repeat' split) <;>
      simp [hset, htch, hs']
  · intro r
    show ((operateBalance m self s op v peer).2 r).keyid = _ ∧
      ((operateBalance m self s op v peer).2 r).perms = _ ∧
      ((operateBalance m self s op v peer).2 r).receivedVotes = _
    unfold operateBalance move
    cases peer <;> cases op <;> dsimp only <;> (repeat' split) <;> simp

/-- **C02 (decision).** Exactly when an operation succeeds: the peer is not a second object for the same key
id, the operation is a real one, a DEX deal names a peer, the bucket drawn from holds the amount, and for a
credit funded by a peer the peer's free balance holds the amount (when the account is its own peer the code
looks at its balance after the credit). -/
theorem operate_succeeds_iff (m : Mem) (self : Ref) (s : Sym) (op : Op) (v : Nat) (peer : Option Ref) :
    (operateBalance m self s op v peer).1 = true ↔
      (∀ p, peer = some p → p ≠ self → (m p).keyid ≠ (m self).keyid) ∧
      op ≠ .nullOp ∧
      (op = .dexDeal → peer ≠ none) ∧
      (∀ b, source op = some b → v ≤ bal m self s b) ∧
      (op = .addFree → ∀ p, peer = some p →
        v ≤ if p = self then wadd (bal m self s .free) v else bal m p s .free) := by
  cases peer with
  | none => cases op <;> simp [operateBalance, move, source] <;> split <;> simp <;> omega
  | some p =>
    by_cases hk : p ≠ self ∧ (m p).keyid = (m self).keyid
    · have : (operateBalance m self s op v (some p)).1 = false := by simp [operateBalance, hk]
      simp [this, hk]
    · have hk' : ∀ p', some p = some p' → p' ≠ self → (m p').keyid ≠ (m self).keyid := by
        intro p' e h1 h2; cases e; exact hk ⟨h1, h2⟩
      have hguard : decide (p ≠ self ∧ (touch m self s p).keyid = (touch m self s self).keyid) = false := by
        simpa using fun h1 h2 => hk ⟨h1, h2⟩
      cases op <;> simp only [operateBalance, move, source, hguard] <;>
        (repeat' split) <;> simp_all <;> omega

/-- **C02.** A bucket is never overdrawn: an operation that draws on a bucket of the acting account, or on
the free balance of a peer, succeeds only if the amount is there. -/
theorem operate_never_overdraws (m m' : Mem) (self : Ref) (s : Sym) (op : Op) (v : Nat)
    (peer : Option Ref) (h : operateBalance m self s op v peer = (true, m')) :
    (∀ b, source op = some b → v ≤ bal m self s b) ∧
    (∀ p, op = .addFree → peer = some p → p ≠ self → v ≤ bal m p s .free) := by
  have h1 : (operateBalance m self s op v peer).1 = true := by rw [h]
  obtain ⟨_, _, _, h4, h5⟩ := (operate_succeeds_iff m self s op v peer).1 h1
  refine ⟨h4, ?_⟩
  intro p ho hp hne
  have := h5 ho p hp
  simpa [hne] using this

/-- **C02 (checkBalance).** `CheckBalance` answers whether the bucket holds at least the amount. -/
theorem checkBalance_iff (a : Account) (s : Sym) (b : Bucket) (v : Nat) :
    checkBalance a s b v = true ↔ v ≤ a.token s b := by
  unfold checkBalance Account.token
  cases a.tokens s <;> simp [Token.zero]

/-- **C03 (violated).** The property "a rejected operation changes nothing" is false of the code:
crediting an account from an underfunded peer reports failure after the credit has been written
(account.cpp:49 precedes the check at line 53). -/
theorem rejected_operation_changes_balance_violated :
    ∃ (m : Mem) (self peer : Ref) (s : Sym) (v : Nat),
      WF m ∧ (operateBalance m self s .addFree v (some peer)).1 = false ∧
      bal (operateBalance m self s .addFree v (some peer)).2 self s .free ≠ bal m self s .free := by
  refine ⟨fun r => ⟨r, fun _ => none, 0, 0⟩, 0, 1, "WICC", 5, ?_, by decide, by decide⟩
  intro r s b; simp [bal, Account.token, Token.zero, U64]

/-- **C03 (partial).** Every rejected operation other than a peer-funded credit leaves every balance of
every account as it was. (Missing for the full property: `ADD_FREE` with a peer, see above; and a rejected
operation may leave a zero entry for a token the account did not have, account.cpp:36.) -/
theorem rejected_operation_changes_nothing_partial (m m' : Mem) (self : Ref) (s : Sym) (op : Op) (v : Nat)
    (peer : Option Ref) (h : operateBalance m self s op v peer = (false, m'))
    (hop : op = .addFree → peer = none) (r : Ref) (s' : Sym) (b : Bucket) :
    bal m' r s' b = bal m r s' b := by
  have : (operateBalance m self s op v peer).2 = m' := by rw [h]
  rw [← this]
  have h1 : (operateBalance m self s op v peer).1 = false := by rw [h]
  revert h1
  unfold operateBalance move
  cases peer <;> cases op <;> dsimp only <;> (repeat' split) <;> simp_all

/-! ## C04: conservation over histories -/

/-- Everything an account holds of a token. -/
def holding (m : Mem) (r : Ref) (s : Sym) : Nat :=
  bal m r s .free + bal m r s .frozen + bal m r s .staked + bal m r s .voted + bal m r s .pledged

open scoped BigOperators

/-- Total amount of a token over a set of accounts. -/
def total (m : Mem) (s : Sym) (S : Finset Ref) : Nat := ∑ r ∈ S, holding m r s

/-- What a request adds to the ledger from outside (a credit without a peer). -/
def minted (s : Sym) (q : Req) : Nat :=
  if q.sym = s ∧ q.op = .addFree ∧ q.peer = none then q.amount else 0

/-- What a request removes from the ledger (a debit without a peer). -/
def burned (s : Sym) (q : Req) : Nat :=
  if q.sym = s ∧ q.op = .subFree ∧ q.peer = none then q.amount else 0

/-- Whether the request is accepted in the given ledger. -/
def accepted (m : Mem) (q : Req) : Bool := (operateBalance m q.self q.sym q.op q.amount q.peer).1

/-- Sum of `f` over the requests of a history that are accepted. -/
def sumAccepted (f : Req → Nat) : Mem → List Req → Nat
  | _, [] => 0
  | m, q :: qs => (if accepted m q then f q else 0) + sumAccepted f (step m q) qs

/-- The accounts a request touches lie in `S`, and its amount is a `uint64_t`. -/
def Req.Within (q : Req) (S : Finset Ref) : Prop :=
  q.self ∈ S ∧ (∀ p, q.peer = some p → p ∈ S) ∧ q.amount < U64

theorem holding_le_total {m : Mem} {s : Sym} {S : Finset Ref} {r : Ref} (h : r ∈ S) :
    holding m r s ≤ total m s S :=
  Finset.single_le_sum (f := fun r => holding m r s) (fun _ _ => Nat.zero_le _) h

theorem holding_add_le_total {m : Mem} {s : Sym} {S : Finset Ref} {r r' : Ref} (h : r ∈ S)
    (h' : r' ∈ S) (hne : r ≠ r') : holding m r s + holding m r' s ≤ total m s S := by
  have := Finset.sum_le_sum_of_subset (f := fun r => holding m r s) (s := {r, r'}) (t := S)
    (by intro x hx; simp at hx; rcases hx with rfl | rfl <;> assumption)
  rw [Finset.sum_pair hne] at this
  exact this

/-- No credited bucket overflows while the total (plus what is minted) fits in 64 bits. -/
theorem dest_ok {m : Mem} {self : Ref} {s : Sym} {op : Op} {v : Nat} {peer : Option Ref}
    {S : Finset Ref} (hin : Req.Within ⟨self, s, op, v, peer⟩ S)
    (hacc : (operateBalance m self s op v peer).1 = true)
    (ht : total m s S + minted s ⟨self, s, op, v, peer⟩ < U64) :
    ∀ r b, 0 < netDelta op self peer r b → bal m r s b + v < U64 := by
  obtain ⟨_, hop, hdx, hsrc, hadd⟩ := (operate_succeeds_iff m self s op v peer).1 hacc
  obtain ⟨hs, hp, hv⟩ := hin
  simp only at hs hp hv
  intro r b hpos
  have hself := holding_le_total (m := m) (s := s) hs
  unfold holding at hself
  cases peer with
  | none =>
    by_cases hr : r = self
    · subst hr
      cases op <;> cases b <;> simp [netDelta, selfDelta] at hpos <;>
        simp [source, minted] at hsrc ht hop hdx <;> omega
    · simp [netDelta, hr] at hpos
  | some p =>
    have hpS := hp p rfl
    rw [netDelta_some] at hpos
    by_cases hps : p = self
    · subst hps
      by_cases hr : r = p
      · subst hr
        cases op <;> cases b <;> simp [selfDelta, peerDelta] at hpos <;>
          simp [source, minted] at hsrc ht hop <;> omega
      · simp [hr] at hpos
    · have h2 := holding_add_le_total (m := m) (s := s) hs hpS (Ne.symm hps)
      have hps' : ¬ self = p := fun e => hps e.symm
      unfold holding at h2
      by_cases hr : r = self
      · subst hr
        simp [hps, hps'] at hadd
        cases op <;> cases b <;> simp [selfDelta, peerDelta, hps'] at hpos <;>
          simp [source, minted] at hsrc ht hop hadd <;> omega
      · by_cases hr' : r = p
        · subst hr'
          cases op <;> cases b <;> simp [selfDelta, peerDelta, hr] at hpos <;>
            simp [source, minted] at hsrc ht hop <;> omega
        · simp [hr, hr'] at hpos

/-- One step: the total of token `s` changes by exactly what is minted or burned. -/
theorem step_conserves (m : Mem) (q : Req) (s : Sym) (S : Finset Ref) (hwf : WF m)
    (hin : q.Within S) (ht : ∀ s, total m s S + (if accepted m q then minted s q else 0) < U64) :
    total (step m q) s S + (if accepted m q then burned s q else 0)
      = total m s S + (if accepted m q then minted s q else 0) := by
  obtain ⟨self, sym, op, v, peer⟩ := q
  by_cases hacc : accepted m ⟨self, sym, op, v, peer⟩ = true
  · have hacc' : (operateBalance m self sym op v peer).1 = true := hacc
    have hstep : step m ⟨self, sym, op, v, peer⟩ = (operateBalance m self sym op v peer).2 := by
      simp [step, hacc']
    have ht' := ht sym
    simp only [hacc, if_true] at ht' ⊢
    have hd := dest_ok hin hacc' ht'
    have hex := operate_moves_exactly m _ self sym op v peer (Prod.ext hacc' rfl) hwf hd
    rw [hstep]
    by_cases hs : s = sym
    · subst hs
      -- change of one account's holding
      have hhold : ∀ r, ((holding (operateBalance m self s op v peer).2 r s : Nat) : Int)
          = holding m r s +
            ((if r = self then (selfDelta op .free + selfDelta op .frozen + selfDelta op .staked +
                selfDelta op .voted + selfDelta op .pledged) * v else 0)
            + (if peer = some r then (peerDelta op .free + peerDelta op .frozen + peerDelta op .staked +
                peerDelta op .voted + peerDelta op .pledged) * v else 0)) := by
        intro r
        unfold holding
        push_cast
        rw [hex r s .free, hex r s .frozen, hex r s .staked, hex r s .voted, hex r s .pledged]
        simp only [if_true, netDelta]
        split <;> split <;> ring
      have hsum : ((total (operateBalance m self s op v peer).2 s S : Nat) : Int)
          = total m s S + ((selfDelta op .free + selfDelta op .frozen + selfDelta op .staked +
                selfDelta op .voted + selfDelta op .pledged) * v
            + (match peer with
               | none => 0
               | some _ => (peerDelta op .free + peerDelta op .frozen + peerDelta op .staked +
                peerDelta op .voted + peerDelta op .pledged) * v)) := by
        unfold total
        push_cast
        rw [Finset.sum_congr rfl (fun r _ => hhold r), Finset.sum_add_distrib, Finset.sum_add_distrib,
          Finset.sum_ite_eq' S self, if_pos hin.1]
        cases peer with
        | none => simp
        | some p =>
          have : ∀ r, (some p = some r) = (p = r) := fun r => by simp
          simp only [this]
          rw [Finset.sum_ite_eq S p, if_pos (hin.2.1 p rfl)]
      obtain ⟨_, hop, hdx, _, _⟩ := (operate_succeeds_iff m self s op v peer).1 hacc'
      cases peer <;> cases op <;> simp [selfDelta, peerDelta, minted, burned] at hsum hop hdx ⊢ <;> omega
    · have : total (operateBalance m self sym op v peer).2 s S = total m s S := by
        unfold total
        apply Finset.sum_congr rfl
        intro r _
        have : ∀ b, bal (operateBalance m self sym op v peer).2 r s b = bal m r s b := by
          intro b
          have := hex r s b
          simpa [hs] using this
        simp [holding, this]
      have hs' : ¬ sym = s := fun e => hs e.symm
      simp [this, minted, burned, hs']
  · have hfalse : accepted m ⟨self, sym, op, v, peer⟩ = false := by simpa using hacc
    have : step m ⟨self, sym, op, v, peer⟩ = m := by
      unfold step
      have : (operateBalance m self sym op v peer).1 = false := hfalse
      simp [this]
    simp [this, hfalse]

/-- Amounts stay 64-bit. -/
theorem operate_wf (m : Mem) (self : Ref) (s : Sym) (op : Op) (v : Nat) (peer : Option Ref) (h : WF m) :
    WF (operateBalance m self s op v peer).2 := by
  have hset : ∀ (m : Mem) (r : Ref) (b : Bucket) (x : Nat), WF m → x < U64 → WF (setBal m r s b x) := by
    intro m r b x hm hx r' s' b'
    rw [bal_setBal]; split
    · exact hx
    · exact hm _ _ _
  have htch : WF (touch m self s) := by intro r' s' b'; rw [bal_touch]; exact h _ _ _
  unfold operateBalance move
  cases peer <;> cases op <;> dsimp only <;> (repeat' split) <;>
    first
    | exact htch
    | exact hset _ _ _ _ htch (wadd_lt _ _)
    | exact hset _ _ _ _ htch (wsub_lt _ _)
    | exact hset _ _ _ _ (hset _ _ _ _ htch (wadd_lt _ _)) (wsub_lt _ _)
    | exact hset _ _ _ _ (hset _ _ _ _ htch (wsub_lt _ _)) (wadd_lt _ _)

theorem step_wf (m : Mem) (q : Req) (h : WF m) : WF (step m q) := by
  unfold step; dsimp only; split
  · exact operate_wf _ _ _ _ _ _ h
  · exact h

/-- **C04.** Over any history of requests on any finite set of accounts, for every token: final total plus
everything burned equals initial total plus everything minted, provided the initial total plus everything
minted fits in 64 bits (for every token). No bucket addition can wrap along the way: otherwise the equation
would fail. -/
theorem run_conserves (S : Finset Ref) (qs : List Req) (m : Mem) (hwf : WF m)
    (hin : ∀ q ∈ qs, q.Within S)
    (ht : ∀ s, total m s S + sumAccepted (minted s) m qs < U64) (s : Sym) :
    total (run m qs) s S + sumAccepted (burned s) m qs = total m s S + sumAccepted (minted s) m qs := by
  induction qs generalizing m with
  | nil => simp [run, sumAccepted]
  | cons q qs ih =>
    have hq := hin q (by simp)
    have hstep := fun s => step_conserves m q s S hwf hq (by
      intro s'
      have := ht s'
      simp only [sumAccepted] at this
      omega)
    have := ih (step m q) (step_wf m q hwf) (fun q' h' => hin q' (by simp [h'])) (by
      intro s'
      have h1 := ht s'
      have h2 := hstep s'
      simp only [sumAccepted] at h1
      omega)
    have h2 := hstep s
    simp only [run, List.foldl_cons, sumAccepted] at this ⊢
    omega

/-- **C17.** The permission check grants exactly the granted bits: it passes iff every requested bit is set
in the account's mask. (The first comparison in the C++ is redundant.) -/
theorem checkPerms_iff (a : Account) (p : BitVec 64) :
    checkPerms a p = true ↔ ∀ i : Nat, p.getLsbD i = true → a.perms.getLsbD i = true := by
  have hand : (p == (a.perms &&& p)) = true ↔
      ∀ i : Nat, p.getLsbD i = true → a.perms.getLsbD i = true := by
    rw [beq_iff_eq]
    constructor
    · intro h i hi
      rw [h] at hi
      simp at hi
      exact hi.1
    · intro h
      apply BitVec.eq_of_getLsbD_eq
      intro i _
      simp only [BitVec.getLsbD_and]
      cases hp : p.getLsbD i with
      | false => simp
      | true => simp [h i hp]
  unfold checkPerms
  split
  · rename_i hgt
    constructor
    · intro h; simp at h
    · intro h
      have e := hand.2 h
      rw [beq_iff_eq] at e
      have hle : (a.perms &&& p).toNat ≤ a.perms.toNat := by
        rw [BitVec.toNat_and]; exact Nat.and_le_left
      rw [← e] at hle
      have : a.perms.toNat < p.toNat := hgt
      omega
  · exact hand

/-! ## Non-vacuity: concrete cases meeting the hypotheses -/

/-- Three accounts: 0 holds 100 free and 7 frozen WICC, 1 holds 3 free, 2 is empty. -/
def exMem : Mem := fun r =>
  if r = 0 then ⟨10, fun s => if s = "WICC" then
      some (fun | .free => 100 | .frozen => 7 | _ => 0) else none, 0, 0b1011⟩
  else if r = 1 then ⟨11, fun s => if s = "WICC" then some (fun | .free => 3 | _ => 0) else none, 0, 1⟩
  else ⟨12 + r, fun _ => none, 0, 0⟩

theorem exMem_wf : WF exMem := by
  intro r s b
  by_cases h0 : r = 0
  · subst h0
    by_cases hs : s = "WICC"
    · subst hs; cases b <;> simp [bal, exMem, Account.token, U64]
    · cases b <;> simp [bal, exMem, Account.token, hs, Token.zero, U64]
  · by_cases h1 : r = 1
    · subst h1
      by_cases hs : s = "WICC"
      · subst hs; cases b <;> simp [bal, exMem, Account.token, U64]
      · cases b <;> simp [bal, exMem, Account.token, hs, Token.zero, U64]
    · simp [bal, exMem, h0, h1, Account.token, Token.zero, U64]

/-- C01: a two-party debit that succeeds and moves something. -/
example : WF exMem ∧ (operateBalance exMem 0 "WICC" .subFree 40 (some 1)).1 = true ∧
    bal (operateBalance exMem 0 "WICC" .subFree 40 (some 1)).2 1 "WICC" .free = 43 :=
  ⟨exMem_wf, by decide, by decide⟩

/-- C01/C02: a DEX deal to oneself. -/
example : (operateBalance exMem 0 "WICC" .dexDeal 7 (some 0)).1 = true ∧
    bal (operateBalance exMem 0 "WICC" .dexDeal 7 (some 0)).2 0 "WICC" .free = 107 := by decide

/-- C03: a rejected operation covered by the partial theorem. -/
example : (operateBalance exMem 0 "WICC" .subFree 101 (some 1)).1 = false := by decide

/-- C04: a history with an accepted transfer, an accepted mint and a rejected debit. -/
example :
    let qs : List Req := [⟨0, "WICC", .subFree, 40, some 1⟩, ⟨2, "WICC", .addFree, 5, none⟩,
      ⟨2, "WICC", .subFree, 6, none⟩]
    (∀ q ∈ qs, q.Within {0, 1, 2}) ∧ total exMem "WICC" {0, 1, 2} = 110 ∧
    sumAccepted (minted "WICC") exMem qs = 5 ∧ sumAccepted (burned "WICC") exMem qs = 0 := by
  refine ⟨?_, by decide, by decide, by decide⟩
  intro q hq
  simp at hq
  rcases hq with rfl | rfl | rfl <;> simp [Req.Within, U64]

/-- C17: a request that passes and one that fails. -/
example : checkPerms (exMem 0) 0b1010 = true ∧ checkPerms (exMem 0) 0b0100 = false := by decide

end Verif.Account
