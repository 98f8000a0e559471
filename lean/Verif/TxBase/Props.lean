import Verif.TxBase.Lemmas

/-! # Properties of what all transactions share -/
namespace Verif.TxBase
open Spec

/-! ## Example world: accounts 1 (number 10, key 101), 2 (no number, key 102), 3 (number 30, key 103) -/

def env0 : Env := { keyOf := fun p => p - 100, contractKey := fun r => r + 1000, newReg := 50 }
def acc1 : Acc := { key := 1, reg := some 10, owner := some 101, perms := allPerms, coins := 100 }
def acc2 : Acc := { key := 2, reg := none, owner := none, perms := allPerms, coins := 40 }
def acc3 : Acc := { key := 3, reg := some 30, owner := some 103, perms := 0, coins := 70 }
def db0 : Db :=
  { accs := fun k => if k = 1 then some acc1 else if k = 2 then some acc2 else if k = 3 then some acc3 else none
    regs := fun r => if r = 10 then some 1 else if r = 30 then some 3 else none }

theorem db0_ok : Ok env0 db0 := by
  intro k a h
  simp only [db0] at h
  split at h
  · next hk => subst hk; obtain rfl : acc1 = a := by simpa using h
               exact ⟨rfl, by simp [acc1, db0], by simp [acc1, env0]⟩
  · split at h
    · next hk => subst hk; obtain rfl : acc2 = a := by simpa using h
                 exact ⟨rfl, by simp [acc2], by simp [acc2]⟩
    · split at h
      · next hk => subst hk; obtain rfl : acc3 = a := by simpa using h
                   exact ⟨rfl, by simp [acc3, db0], by simp [acc3, env0]⟩
      · cases h

def addCoins (n : Nat) (a : Acc) : Option Acc := some { a with coins := a.coins + n }
def subCoins (n : Nat) (a : Acc) : Option Acc := if n ≤ a.coins then some { a with coins := a.coins - n } else none

theorem keeps_add (n : Nat) : Keeps (addCoins n) := by
  intro a a' h
  simp only [addCoins, Option.some.injEq] at h
  subst h
  exact ⟨rfl, rfl, rfl⟩

theorem keeps_sub (n : Nat) : Keeps (subCoins n) := by
  intro a a' h
  unfold subCoins at h
  split at h
  · simp only [Option.some.injEq] at h
    subst h
    exact ⟨rfl, rfl, rfl⟩
  · cases h

/-! ## C105: a transaction works on one copy of every account -/

/-- Holding accounts in memory and saving them at the end has exactly the effect of writing every change to the database at once,
under whichever ids an account is addressed; the database stays in order. Partial: contracts are put at unused addresses only, and a
transaction registers at most one account (`AllPlain`). -/
theorem one_copy_partial (e : Env) (db : Db) (uid : Uid) (ops : List Op) (hok : Ok e db)
    (hp : ∀ s, row e db uid = some s → AllPlain e s ops db) :
    TxBase.execute e db uid ops = Spec.execute e db uid ops ∧ ∀ d', TxBase.execute e db uid ops = some d' → Ok e d' := by
  have key : (TxBase.execute e db uid ops = none ∧ Spec.execute e db uid ops = none) ∨
      ∃ d', TxBase.execute e db uid ops = some d' ∧ Spec.execute e db uid ops = some d' ∧ Ok e d' := by
    unfold TxBase.execute Spec.execute
    cases hr : row e db uid with
    | none =>
      rcases getAccount_spec (empty_sim 0 hok) uid with ⟨h1, _⟩ | ⟨h, m', k, a, h1, h2, h3, S', h5, h6, h7⟩
      · left; rw [h1]; exact ⟨rfl, rfl⟩
      · rw [hr] at h2; cases h2
    | some s =>
      rcases getAccount_spec (empty_sim s hok) uid with ⟨h1, h2⟩ | ⟨h, m', k, a, h1, h2, h3, S', h5, h6, h7⟩
      · left
        rw [hr] at h2
        simp only [Option.bind_some] at h2
        rw [h1]
        simp [h2]
      · rw [hr] at h2
        obtain rfl : s = k := by simpa using h2
        rw [h1]
        simp only [h3, Option.isSome_some, if_true]
        have S'' : Sim e s db { m' with sp := some h } db :=
          ⟨S'.regs, S'.hit, S'.miss, S'.keys, S'.ok, fun x hx => by
            simp only [Option.some.injEq] at hx
            subst hx
            exact h5⟩
        rcases steps_sim ops S'' rfl (hp s hr) with ⟨q1, q2⟩ | ⟨db', m'', d', q1, q2, q3⟩
        · left; simp [q1, q2]
        · right
          refine ⟨d', ?_, q2, q3.ok⟩
          simp [q1, saveAll_sim q3]
  rcases key with ⟨h1, h2⟩ | ⟨d', h1, h2, h3⟩
  · exact ⟨h1.trans h2.symm, fun d' h => by rw [h1] at h; cases h⟩
  · refine ⟨h1.trans h2.symm, fun x h => ?_⟩
    rw [h1] at h
    obtain rfl : d' = x := by simpa using h
    exact h3

/-- Account 1 pays itself under three names and a new account twice; a second account is registered on the way. -/
def ops0 : List Op :=
  [.sender (subCoins 30), .touch (.key 1) (addCoins 10), .touch (.reg 10) (addCoins 10), .touch (.pub 101) (addCoins 10),
   .touchOrNew (.key 9) (addCoins 5), .touchOrNew (.pub 109) (addCoins 6), .register 102, .touch (.reg 50) (subCoins 40)]

example : Ok env0 db0 ∧ (∀ s, row env0 db0 (.reg 10) = some s → AllPlain env0 s ops0 db0) ∧
    ((TxBase.execute env0 db0 (.reg 10) ops0).map fun d =>
      [(d.accs 1).map (·.coins), (d.accs 9).map (·.coins), (d.accs 2).map (·.coins)]) =
      some [some 100, some 11, some 0] := by
  refine ⟨db0_ok, ?_, by decide⟩
  intro s hs
  obtain rfl : 1 = s := by simpa [row, db0] using hs
  simp only [ops0, AllPlain]
  refine ⟨keeps_sub _, fun d1 h1 => ⟨keeps_add _, fun d2 h2 => ⟨keeps_add _, fun d3 h3 => ⟨keeps_add _, fun d4 h4 =>
    ⟨keeps_add _, fun d5 h5 => ⟨keeps_add _, fun d6 h6 => ⟨?_, fun d7 h7 => ⟨keeps_sub _, fun _ _ => trivial⟩⟩⟩⟩⟩⟩⟩⟩
  obtain rfl := Option.some.inj h1
  obtain rfl := Option.some.inj h2
  obtain rfl := Option.some.inj h3
  obtain rfl := Option.some.inj h4
  obtain rfl := Option.some.inj h5
  obtain rfl := Option.some.inj h6
  intro a _ _
  decide

/-- Coins were sent to the address of a future contract. -/
def db1 : Db := { db0 with accs := fun k => if k = 1050 then some { fresh 1050 with coins := 500 } else db0.accs k }

/-- **Violated**: the account of a new contract replaces the one at its address: 500 coins are gone. -/
theorem deploy_overwrites_violated :
    ((TxBase.execute env0 db1 (.reg 10) [.deploy]).map fun d => (d.accs 1050).map (·.coins)) = some (some 0) ∧
    ((Spec.execute env0 db1 (.reg 10) [.deploy]).map fun d => (d.accs 1050).map (·.coins)) = some (some 500) := by
  decide

/-- **Violated**: if the transaction has already used that address, the new account is lost instead: the number leads to an account
without that number. -/
theorem deploy_detached_violated :
    ((TxBase.execute env0 db1 (.reg 10) [.touch (.key 1050) (addCoins 1), .deploy]).map fun d =>
      (d.regs 50, (d.accs 1050).map (·.reg), (d.accs 1050).map (·.coins))) = some (some 1050, some none, some 501) := by
  decide

/-! ## C106: an account does only what its permissions allow -/

theorem check_account {e : Env} {ver : Nat} {db : Db} {tx : Tx} (h : checkBase e ver db tx = true) (hc : ¬ ByChain tx.ty) :
    ∃ a, account e db tx.uid = some a ∧ signatureOk ver tx a = true ∧ senderOk ver tx.ty tx.uid = true ∧ minVer tx.ty ≤ ver ∧
      ∀ p, permOf tx.ty = some p → a.perms ≠ 0 ∧ (a.perms &&& p) ≠ 0 := by
  unfold checkBase at h
  have he : exempt tx.ty = false := by
    cases ht : tx.ty <;> simp [ht, ByChain] at hc <;> rfl
  rw [he] at h
  cases ha : account e db tx.uid with
  | none => simp [ha] at h
  | some a =>
    simp only [ha, Bool.false_eq_true, if_false, Bool.and_eq_true, decide_eq_true_eq] at h
    refine ⟨a, rfl, h.1.1.1.1, h.1.1.2, h.1.2, ?_⟩
    intro p hp
    have := h.2
    rw [hp] at this
    simpa using this

theorem and_pow_ne_zero {n i : Nat} (h : (n &&& 2 ^ i) ≠ 0) : n.testBit i = true := by
  cases hb : n.testBit i with
  | true => rfl
  | false =>
    exfalso
    apply h
    apply Nat.eq_of_testBit_eq
    intro j
    rw [Nat.testBit_and, Nat.testBit_two_pow, Nat.zero_testBit]
    by_cases hij : i = j
    · subst hij; simp [hb]
    · simp [hij]

/-- The table of the code has the permission each kind needs. -/
theorem permOf_needs {t : Ty} {i : Nat} (hn : Needs t i) : permOf t = some (2 ^ i) := by
  cases hn with
  | coins _ hm => simp only [List.mem_cons, List.not_mem_nil, or_false] at hm; rcases hm with rfl | rfl <;> rfl
  | stake => rfl
  | vote => rfl
  | utxo _ hm => simp only [List.mem_cons, List.not_mem_nil, or_false] at hm; rcases hm with rfl | rfl <;> rfl
  | contract _ hm =>
    simp only [List.mem_cons, List.not_mem_nil, or_false] at hm
    rcases hm with rfl | rfl | rfl | rfl | rfl <;> rfl
  | propose => rfl
  | price => rfl
  | dex _ hm =>
    simp only [List.mem_cons, List.not_mem_nil, or_false] at hm
    rcases hm with rfl | rfl | rfl | rfl | rfl | rfl | rfl | rfl | rfl | rfl <;> rfl
  | cdp _ hm => simp only [List.mem_cons, List.not_mem_nil, or_false] at hm; rcases hm with rfl | rfl | rfl <;> rfl

/-- A transaction that passes the check comes from an account that has the permission for its kind. -/
theorem needs_permission (e : Env) (ver : Nat) (db : Db) (tx : Tx) (i : Nat) (h : checkBase e ver db tx = true)
    (hn : Needs tx.ty i) : ∃ a, account e db tx.uid = some a ∧ a.perms.testBit i = true := by
  have hc : ¬ ByChain tx.ty := by
    intro hc
    cases ht : tx.ty <;> simp [ht, ByChain] at hc <;> rw [ht] at hn <;> cases hn <;> simp_all
  obtain ⟨a, ha, _, _, _, hp⟩ := check_account h hc
  refine ⟨a, ha, and_pow_ne_zero ?_⟩
  exact (hp _ (permOf_needs hn)).2

/-- An account whose permissions are cleared can, from the second version on, send nothing but the registration of its key and
another clearing, and these only under its public key. Partial: as the sender; an update of an asset throws (C107). -/
theorem cleared_account_partial (e : Env) (ver : Nat) (db : Db) (tx : Tx) (a : Acc) (h : checkBase e ver db tx = true)
    (hv : 2 ≤ ver) (hc : ¬ ByChain tx.ty) (ha : account e db tx.uid = some a) (hz : a.perms = 0) (ht : throws tx = false) :
    (tx.ty = .accountRegister ∨ tx.ty = .permsClear) ∧ ∃ p, tx.uid = .pub p ∧ tx.signed p = true := by
  obtain ⟨b, hb, hs, ho, _, hp⟩ := check_account h hc
  rw [ha] at hb
  obtain rfl : a = b := by simpa using hb
  have hpub : ∃ p, tx.uid = .pub p ∧ tx.signed p = true := by
    unfold signatureOk at hs
    rw [if_neg (by omega)] at hs
    cases hu : tx.uid with
    | pub p => rw [hu] at hs; exact ⟨p, rfl, hs⟩
    | null => rw [hu] at hs; simp [hz] at hs
    | reg r => rw [hu] at hs; simp [hz] at hs
    | key k => rw [hu] at hs; simp [hz] at hs
  refine ⟨?_, hpub⟩
  obtain ⟨p, hu, _⟩ := hpub
  have hperm : permOf tx.ty = none := by
    cases hq : permOf tx.ty with
    | none => rfl
    | some q => exact absurd hz (hp q hq).1
  cases hty : tx.ty <;> simp_all [permOf, ByChain, senderOk, throws, readsReg]

def tx0 : Tx := { ty := .bcoinTransfer, uid := .reg 10, signed := fun p => p == 101, feeOk := true, cosigners := [] }
def tx3 : Tx := { ty := .permsClear, uid := .pub 103, signed := fun p => p == 103, feeOk := true, cosigners := [] }

example : checkBase env0 3 db0 tx0 = true ∧ Needs tx0.ty 0 := ⟨by decide, .coins _ (by simp [tx0])⟩

example : checkBase env0 3 db0 tx3 = true ∧ 2 ≤ 3 ∧ ¬ ByChain tx3.ty ∧ account env0 db0 tx3.uid = some acc3 ∧ acc3.perms = 0 ∧
    throws tx3 = false := ⟨by decide, by decide, by simp [ByChain, tx3], by decide, rfl, by decide⟩

/-- **Violated**: a universal transaction paid by account 1 has the authority of account 3, whose permissions are cleared. -/
theorem cleared_cosigner_violated :
    let tx : Tx := { ty := .universal, uid := .reg 10, signed := fun p => p == 101 || p == 103, feeOk := true, cosigners := [30] }
    checkBase env0 3 db0 tx = true ∧ authorities env0 db0 tx 10 = some [30, 10] ∧
      (account env0 db0 (.reg 30)).map (·.perms) = some 0 := by
  decide

/-! ## C107: checking a transaction does not throw -/

/-- Apart from the update of an asset, whatever `CheckBaseTx` lets through can be asked for the kind of id the rest of the code
expects. -/
theorem no_throw_partial (e : Env) (ver : Nat) (db : Db) (tx : Tx) (h : checkBase e ver db tx = true) (hu : tx.ty ≠ .uiaUpdate) :
    throws tx = false := by
  by_cases hc : ByChain tx.ty
  · cases ht : tx.ty <;> simp [ht, ByChain] at hc <;> simp [throws, readsReg, ht]
  · obtain ⟨a, _, _, ho, _, _⟩ := check_account h hc
    unfold throws
    cases ht : tx.ty <;> simp_all [readsReg, senderOk]
    all_goals
      cases hid : tx.uid <;> simp_all

example : checkBase env0 3 db0 { tx0 with ty := .assetIssue } = true := by decide

/-- **Violated**: an update of an asset from a public key passes `CheckBaseTx` and then throws. -/
theorem uia_update_throws_violated :
    let tx : Tx := { ty := .uiaUpdate, uid := .pub 101, signed := fun p => p == 101, feeOk := true, cosigners := [] }
    checkBase env0 3 db0 tx = true ∧ throws tx = true := by
  decide

/-! ## C108: the sender's key signed the transaction -/

/-- From the second version on, the key that belongs to the sending account signed the transaction. Partial: not before that. -/
theorem sender_signed_partial (e : Env) (ver : Nat) (db : Db) (tx : Tx) (h : checkBase e ver db tx = true) (hv : 2 ≤ ver)
    (hc : ¬ ByChain tx.ty) (hok : Ok e db) : ∃ a p, account e db tx.uid = some a ∧ e.keyOf p = a.key ∧ tx.signed p = true := by
  obtain ⟨a, ha, hs, _⟩ := check_account h hc
  obtain ⟨k, hk, hd⟩ : ∃ k, keyId e db tx.uid = some k ∧ db.accs k = some a := by
    unfold account at ha
    cases hk : keyId e db tx.uid with
    | none => rw [hk] at ha; cases ha
    | some k => rw [hk] at ha; exact ⟨k, rfl, ha⟩
  obtain ⟨h1, h2, h3⟩ := hok k a hd
  unfold signatureOk at hs
  rw [if_neg (by omega)] at hs
  have hown : (if a.perms = 0 then false else if a.reg.isNone then false else
      match a.owner with
      | some p => tx.signed p
      | none => false) = true → ∃ p, e.keyOf p = a.key ∧ tx.signed p = true := by
    intro hs
    split at hs
    · cases hs
    · split at hs
      · cases hs
      · cases ho : a.owner with
        | none => rw [ho] at hs; cases hs
        | some p => rw [ho] at hs; exact ⟨p, by rw [h1, h3 p ho], hs⟩
  cases hu : tx.uid with
  | pub p =>
    rw [hu] at hs
    refine ⟨a, p, by rw [← hu]; exact ha, ?_, hs⟩
    rw [hu] at hk
    rw [h1]
    simpa [keyId] using hk
  | null => rw [hu] at hs; obtain ⟨p, q1, q2⟩ := hown hs; exact ⟨a, p, by rw [← hu]; exact ha, q1, q2⟩
  | reg r => rw [hu] at hs; obtain ⟨p, q1, q2⟩ := hown hs; exact ⟨a, p, by rw [← hu]; exact ha, q1, q2⟩
  | key r => rw [hu] at hs; obtain ⟨p, q1, q2⟩ := hown hs; exact ⟨a, p, by rw [← hu]; exact ha, q1, q2⟩

/-- Everybody else whose authority a universal transaction has signed it as well. -/
theorem cosigner_signed (e : Env) (db : Db) (tx : Tx) (payer : Nat) (l : List Nat) (r : Nat) (hok : Ok e db)
    (h : authorities e db tx payer = some l) (hr : r ∈ l) :
    r = payer ∨ ∃ a p, account e db (.reg r) = some a ∧ e.keyOf p = a.key ∧ tx.signed p = true := by
  unfold authorities at h
  rw [ite_eq_iff] at h
  rcases h with ⟨⟨_, _, hall⟩, hl⟩ | ⟨_, hl⟩
  · obtain rfl : tx.cosigners ++ [payer] = l := by simpa using hl
    rcases List.mem_append.1 hr with hm | hm
    · right
      have := List.all_eq_true.1 hall r hm
      cases ha : account e db (.reg r) with
      | none => simp [ha] at this
      | some a =>
        simp only [ha] at this
        cases ho : a.owner with
        | none => simp [ho] at this
        | some p =>
          simp only [ho] at this
          refine ⟨a, p, rfl, ?_, this⟩
          unfold account at ha
          cases hk : keyId e db (.reg r) with
          | none => rw [hk] at ha; cases ha
          | some k =>
            rw [hk] at ha
            obtain ⟨h1, _, h3⟩ := hok k a ha
            rw [h1, h3 p ho]
    · left; simpa using hm
  · cases hl

example : checkBase env0 2 db0 tx0 = true ∧ ¬ ByChain tx0.ty ∧ Ok env0 db0 := ⟨by decide, by simp [ByChain, tx0], db0_ok⟩

example : authorities env0 db0 { tx0 with signed := fun p => p == 103, cosigners := [30] } 10 = some [30, 10] := by decide

/-- **Violated**: before the second version an unsigned transaction passes. -/
theorem unsigned_violated : checkBase env0 1 db0 { tx0 with signed := fun _ => false } = true := by decide

end Verif.TxBase
