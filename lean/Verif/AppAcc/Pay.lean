import Verif.Ledger.Basic
import Verif.AppAcc.Props
import Mathlib.Algebra.Order.BigOperators.Group.Finset

/-!
# What a contract run does to ordinary accounts

Model of `CLuaVMRunEnv::CheckOperate` (`src/vm/luavm/luavmrunenv.cpp` 112-161), `OperateAccount` (249-321) and
`TransferAccountAsset` (323-369). Accounts are already resolved (`GetAccountID` 83-98, `GetAccount` 408-416): an operation names
an account, a new account for an unused address, an unknown registration id, or an address without a key id. Accounts are
addressed by reference; the account of the contract and that of the sender are shared objects, as in the code. Fuel and the
limit on the number of operations are left out: they only make runs fail.
-/
namespace Verif.LuaPay

open Verif.Account Verif.Ledger

/-- The account of an operation. -/
inductive Target
  /-- An existing or newly created account. -/
  | acc (r : Ref)
  /-- A registration id without account. -/
  | unknown
  /-- An address whose key id is empty. -/
  | noKey
  deriving DecidableEq

/-- `CVmOperate`: `opType` 1 add free, 2 subtract free; `known`: the account type is one of the two known ones. -/
structure VmOp where
  known : Bool
  target : Target
  opType : Nat
  money : Nat
  deriving DecidableEq

/-- `CheckOperate`: the loop over the operations, then the comparison of the sums. -/
def checkOps (contract : Ref) : Nat → Nat → List VmOp → Bool
  | ad, mi, [] => ad == mi
  | ad, mi, o :: os =>
    if !o.known then false
    else if o.opType = 1 then
      if ad + o.money < U64 then checkOps contract (ad + o.money) mi os else false
    else if o.opType = 2 then
      if o.target ≠ .acc contract then false
      else if mi + o.money < U64 then checkOps contract ad (mi + o.money) os else false
    else false

/-- `OperateAccount`; `old`: up to the second fork. -/
def payOps (old : Bool) : Mem → List VmOp → Option Mem
  | m, [] => some m
  | m, o :: os =>
    match o.target with
    | .unknown => none
    | .noKey => if old then payOps old m os else none
    | .acc r =>
      match opBal m ⟨r, "WICC", if o.opType = 1 then .addFree else .subFree, o.money, none⟩ with
      | none => none
      | some m' => payOps old m' os

/-- `TransferAccountAsset`, one transfer made by the script, from the account of the contract or of the sender. -/
structure Transfer where
  ofContract : Bool
  dest : Ref
  sym : Sym
  amount : Nat

/-- The transfers a script makes while it runs: a failing one has no effect (the call returns nothing to the script). -/
def transfers (contract sender : Ref) : Mem → List Transfer → Mem
  | m, [] => m
  | m, t :: ts =>
    match opBal m ⟨if t.ofContract then contract else sender, t.sym, .subFree, t.amount, some t.dest⟩ with
    | none => transfers contract sender m ts
    | some m' => transfers contract sender m' ts

/-- The part of `ExecuteContract` that changes ordinary accounts. -/
def payAll (old : Bool) (contract sender : Ref) (m : Mem) (ts : List Transfer) (os : List VmOp) : Option Mem :=
  if checkOps contract 0 0 os then payOps old (transfers contract sender m ts) os else none

/-! ## Lemmas -/

def added (os : List VmOp) : Nat := (os.map (fun o => if o.opType = 1 then o.money else 0)).sum
def taken (os : List VmOp) : Nat := (os.map (fun o => if o.opType = 1 then 0 else o.money)).sum

theorem checkOps_true {c : Ref} : ∀ {os : List VmOp} {ad mi : Nat}, checkOps c ad mi os = true →
    ad + added os = mi + taken os ∧ ∀ o ∈ os, o.opType = 1 ∨ o.opType = 2 ∧ o.target = .acc c
  | [], ad, mi, h => by
    simp only [checkOps, beq_iff_eq] at h
    exact ⟨by simpa [added, taken] using h, by simp⟩
  | o :: os, ad, mi, h => by
    simp only [checkOps] at h
    split at h
    · cases h
    · by_cases k1 : o.opType = 1
      · rw [if_pos k1] at h
        split at h
        · obtain ⟨h1, h2⟩ := checkOps_true h
          refine ⟨?_, fun p hp => ?_⟩
          · simp only [added, taken, List.map_cons, List.sum_cons, k1, if_true] at h1 ⊢; omega
          · rcases List.mem_cons.1 hp with rfl | hp
            · exact Or.inl k1
            · exact h2 p hp
        · cases h
      · rw [if_neg k1] at h
        by_cases k2 : o.opType = 2
        · rw [if_pos k2] at h
          by_cases k3 : o.target = .acc c
          · rw [if_neg (by simp [k3])] at h
            split at h
            · obtain ⟨h1, h2⟩ := checkOps_true h
              refine ⟨?_, fun p hp => ?_⟩
              · simp only [added, taken, List.map_cons, List.sum_cons, if_neg k1] at h1 ⊢; omega
              · rcases List.mem_cons.1 hp with rfl | hp
                · exact Or.inr ⟨k2, k3⟩
                · exact h2 p hp
            · cases h
          · rw [if_pos k3] at h; cases h
        · rw [if_neg k2] at h; cases h

/-- One addition or subtraction, with the wrap of the addition visible. -/
theorem op_exact {m m' : Mem} {r : Ref} {s : Sym} {ad : Bool} {v : Nat} (hwf : WF m) (hv : v < U64)
    (h : opBal m ⟨r, s, if ad then .addFree else .subFree, v, none⟩ = some m') :
    WF m' ∧ ∃ k : Nat, (ad = false → k = 0) ∧ ∀ r' s' b, (bal m' r' s' b : Int) = bal m r' s' b +
      if r' = r ∧ s' = s ∧ b = .free then (if ad then (v : Int) - k * U64 else - v) else 0 := by
  have hb := opBal_some h
  have w : WF m' := by
    have := operate_wf m r s (if ad then .addFree else .subFree) v none hwf
    dsimp only at hb
    rw [hb] at this
    exact this
  refine ⟨w, ?_⟩
  have h0 := hwf r s .free
  cases ad with
  | true =>
    simp only [if_true, operateBalance, Bool.false_eq_true, if_false] at hb
    obtain ⟨-, rfl⟩ := Prod.ext_iff.1 hb
    by_cases ho : bal m r s .free + v < U64
    · refine ⟨0, fun _ => rfl, fun r' s' b => ?_⟩
      by_cases hc : r' = r ∧ s' = s ∧ b = .free
      · obtain ⟨rfl, rfl, rfl⟩ := hc
        simp [bal_setBal, wadd_eq ho]
      · rw [if_neg hc]; simp only [bal_setBal, bal_touch, hc, if_false]; omega
    · refine ⟨1, (fun h => by cases h), fun r' s' b => ?_⟩
      by_cases hc : r' = r ∧ s' = s ∧ b = .free
      · obtain ⟨rfl, rfl, rfl⟩ := hc
        have : wadd (bal m r' s' .free) v = bal m r' s' .free + v - U64 := by
          unfold wadd
          rw [Nat.mod_eq_sub_mod (by omega), Nat.mod_eq_of_lt (by omega)]
        simp [bal_setBal, this]; omega
      · rw [if_neg hc]; simp only [bal_setBal, bal_touch, hc, if_false]; omega
  | false =>
    simp only [Bool.false_eq_true, if_false, operateBalance, bal_touch] at hb
    split at hb
    · cases hb
    · rename_i hlt
      obtain ⟨-, rfl⟩ := Prod.ext_iff.1 hb
      refine ⟨0, fun _ => rfl, fun r' s' b => ?_⟩
      by_cases hc : r' = r ∧ s' = s ∧ b = .free
      · obtain ⟨rfl, rfl, rfl⟩ := hc
        simp [bal_setBal, wsub_eq (by omega : v ≤ bal m r' s' .free) h0]; omega
      · rw [if_neg hc]; simp only [bal_setBal, bal_touch, hc, if_false]; omega

theorem total_shift {m m' : Mem} {r : Ref} {s : Sym} {d : Int} {S : Finset Ref} (hr : r ∈ S)
    (h : ∀ r' s' b, (bal m' r' s' b : Int) = bal m r' s' b + if r' = r ∧ s' = s ∧ b = .free then d else 0) (s' : Sym) :
    (total m' s' S : Int) = total m s' S + if s' = s then d else 0 := by
  have hh : ∀ r', (holding m' r' s' : Int) = holding m r' s' + if r' = r then (if s' = s then d else 0) else 0 := by
    intro r'
    unfold holding
    have := fun b => h r' s' b
    have h1 := this .free
    have h2 := this .frozen
    have h3 := this .staked
    have h4 := this .voted
    have h5 := this .pledged
    simp only [reduceCtorEq, and_false, if_false, and_true] at h1 h2 h3 h4 h5
    push_cast
    by_cases e1 : r' = r <;> by_cases e2 : s' = s <;> simp only [e1, e2, and_self, and_false, false_and, if_true, if_false] at h1 ⊢ h2 h3 h4 h5 <;> omega
  unfold total
  push_cast
  rw [Finset.sum_congr rfl (fun r' _ => hh r'), Finset.sum_add_distrib, Finset.sum_ite_eq' S r, if_pos hr]

/-- Change of one cell by one operation. -/
def opD (r : Ref) (o : VmOp) : Int :=
  if o.target = .acc r then (if o.opType = 1 then (o.money : Int) else - o.money) else 0

def sumD (r : Ref) (os : List VmOp) : Int := (os.map (opD r)).sum

def Target.In (S : Finset Ref) : Target → Prop
  | .acc r => r ∈ S
  | _ => True

theorem payOps_exact {S : Finset Ref} : ∀ {os : List VmOp} {m m' : Mem}, WF m → (∀ o ∈ os, o.money < U64) →
    (∀ o ∈ os, o.target.In S) → payOps false m os = some m' →
    WF m' ∧ ∃ k : Nat, (total m' "WICC" S : Int) = total m "WICC" S + added os - taken os - k * U64 ∧
      (∀ s', s' ≠ "WICC" → total m' s' S = total m s' S) ∧
      (∀ r s b, s ≠ "WICC" ∨ b ≠ .free → bal m' r s b = bal m r s b) ∧
      (k = 0 → ∀ r, (bal m' r "WICC" .free : Int) = bal m r "WICC" .free + sumD r os)
  | [], m, m', hw, _, _, h => by
    cases h
    exact ⟨hw, 0, by simp [added, taken], fun _ _ => rfl, fun _ _ _ _ => rfl, fun _ r => by simp [sumD]⟩
  | o :: os, m, m', hw, hv, hS, h => by
    simp only [payOps] at h
    have hS0 := hS o (List.mem_cons_self ..)
    split at h
    · cases h
    · simp at h
    · rename_i r hr
      rw [hr] at hS0
      split at h
      · cases h
      · rename_i m1 h1
        have h1' : opBal m ⟨r, "WICC", if decide (o.opType = 1) then .addFree else .subFree, o.money, none⟩ = some m1 := by
          simpa using h1
        obtain ⟨w1, k1, kf, e1⟩ := op_exact hw (hv o (List.mem_cons_self ..)) h1'
        have t1 := total_shift hS0 e1
        obtain ⟨w2, k2, f1, f2, f3, f4⟩ := payOps_exact w1 (fun p hp => hv p (List.mem_cons_of_mem _ hp))
          (fun p hp => hS p (List.mem_cons_of_mem _ hp)) h
        refine ⟨w2, k1 + k2, ?_, fun s' hs' => ?_, fun r' s' b hsb => ?_, fun hk r' => ?_⟩
        · have := t1 "WICC"
          simp only [if_true] at this
          rw [f1, this]
          simp only [added, taken, List.map_cons, List.sum_cons]
          by_cases k : o.opType = 1
          · simp only [k, decide_true, if_true]; push_cast; rw [Int.add_mul]; omega
          · simp only [k, decide_false, if_false, Bool.false_eq_true]
            have := kf (by simp [k])
            subst this
            have e0 : ((0 + k2 : Nat) : Int) = k2 := by omega
            rw [e0]; push_cast; omega
        · have := t1 s'
          rw [if_neg hs'] at this
          rw [f2 s' hs']; omega
        · have := e1 r' s' b
          rw [if_neg (by rintro ⟨-, h2, h3⟩; rcases hsb with h | h <;> contradiction)] at this
          rw [f3 r' s' b hsb]; omega
        · have hk1 : k1 = 0 := by omega
          have hk2 : k2 = 0 := by omega
          subst hk1
          have := e1 r' "WICC" .free
          simp only [and_self, and_true] at this
          rw [f4 hk2 r', this]
          have hd : opD r' o = if r' = r then (if o.opType = 1 then (o.money : Int) else - o.money) else 0 := by
            unfold opD
            rw [hr]
            by_cases e : r' = r
            · rw [e]; simp
            · have e' : ¬ r = r' := fun h => e h.symm
              simp [e, e']
          simp only [sumD, List.map_cons, List.sum_cons, hd]
          by_cases e : r' = r <;> by_cases k : o.opType = 1 <;> simp [e, k] <;> omega

/-- What the transfers of a script take from the sender's account, at most. -/
def sent (s : Sym) (ts : List Transfer) : Nat := (ts.map (fun t => if t.ofContract = false ∧ t.sym = s then t.amount else 0)).sum

theorem transfers_exact {S : Finset Ref} {c u : Ref} (hc : c ∈ S) (hu : u ∈ S) : ∀ {ts : List Transfer} {m : Mem}, WF m →
    (∀ s, total m s S < U64) → (∀ t ∈ ts, t.dest ∈ S ∧ t.amount < U64) →
    let m' := transfers c u m ts
    WF m' ∧ (∀ s, total m' s S = total m s S) ∧ (∀ r s b, b ≠ .free → bal m' r s b = bal m r s b) ∧
    (∀ r s, r ≠ c → bal m r s .free ≤ bal m' r s .free + if r = u then sent s ts else 0)
  | [], m, hw, _, _ => ⟨hw, fun _ => rfl, fun _ _ _ _ => rfl, fun _ _ _ => by simp [transfers]⟩
  | t :: ts, m, hw, ht, hd => by
    have hsent : ∀ s, sent s ts ≤ sent s (t :: ts) := by intro s; simp [sent]
    simp only [transfers]
    split
    · obtain ⟨a1, a2, a3, a4⟩ := transfers_exact hc hu hw ht (fun p hp => hd p (List.mem_cons_of_mem _ hp))
      refine ⟨a1, a2, a3, fun r s hr => ?_⟩
      have := a4 r s hr
      have := hsent s
      by_cases q : r = u <;> simp only [q, if_true, if_false] at * <;> omega
    · rename_i m1 h1
      have hin : ∀ q ∈ [(⟨if t.ofContract then c else u, t.sym, .subFree, t.amount, some t.dest⟩ : Req)], q.Within S := by
        intro q hq
        rw [List.mem_singleton] at hq
        subst hq
        refine ⟨by dsimp only; split <;> assumption, fun p hp => ?_, (hd t (List.mem_cons_self ..)).2⟩
        cases hp
        exact (hd t (List.mem_cons_self ..)).1
      obtain ⟨w1, e1, t1⟩ := execAll_exact S [_] m m1 hw hin (fun s => by simpa [minted] using ht s) (execAll_one h1)
      have t1' : ∀ s, total m1 s S = total m s S := fun s => by simpa [minted, burned] using t1 s
      obtain ⟨a1, a2, a3, a4⟩ := transfers_exact hc hu w1 (fun s => by rw [t1']; exact ht s)
        (fun p hp => hd p (List.mem_cons_of_mem _ hp))
      refine ⟨a1, fun s => by rw [a2, t1'], fun r s b hb => ?_, fun r s hr => ?_⟩
      · rw [a3 r s b hb]
        have := e1 r s b
        rw [sumReq_cons, sumReq_nil] at this
        have h0 : reqDelta r s b ⟨if t.ofContract then c else u, t.sym, .subFree, t.amount, some t.dest⟩ = 0 := by
          unfold reqDelta netDelta
          cases b <;> simp [selfDelta, peerDelta] at hb ⊢
        omega
      · have e := e1 r s .free
        rw [sumReq_cons, sumReq_nil] at e
        have h0 : - (if r = u then (if t.ofContract = false ∧ t.sym = s then (t.amount : Int) else 0) else 0) ≤
            reqDelta r s .free ⟨if t.ofContract then c else u, t.sym, .subFree, t.amount, some t.dest⟩ := by
          unfold reqDelta netDelta
          have hv : (0 : Int) ≤ t.amount := Int.natCast_nonneg _
          generalize (t.amount : Int) = v at hv ⊢
          rw [show selfDelta .subFree .free = -1 from rfl, show peerDelta .subFree .free = 1 from rfl]
          dsimp only
          by_cases q1 : s = t.sym
          · rw [if_pos q1]
            cases hoc : t.ofContract
            · simp only [q1, and_self, if_true, Bool.false_eq_true, if_false]
              by_cases q3 : some t.dest = some r <;> simp only [q3, if_true, if_false] <;> split <;> omega
            · simp only [hr, Bool.true_eq_false, false_and, if_true, if_false]
              by_cases q3 : some t.dest = some r <;> simp only [q3, if_true, if_false] <;> split <;> omega
          · rw [if_neg q1]
            have : ¬ t.sym = s := fun h => q1 h.symm
            simp only [this, and_false, if_false]
            split <;> omega
        have := a4 r s hr
        have hs : sent s (t :: ts) = (if t.ofContract = false ∧ t.sym = s then t.amount else 0) + sent s ts := by simp [sent]
        rw [hs]
        by_cases q : r = u <;> by_cases q' : t.ofContract = false ∧ t.sym = s <;>
          simp only [q, q', if_true, if_false, and_self] at * <;> omega

/-! ## C70 -/

/-- C70, partial: a successful contract run creates and destroys no coins of any kind, touches free balances only, and lowers no
free balance other than that of the contract and, by no more than the transfers made in the sender's name, that of the sender.
Missing: up to the second fork, operations on an address without key id (violated). -/
theorem contract_pays_from_own_account_partial {S : Finset Ref} {c u : Ref} {ts : List Transfer} {os : List VmOp} {m m' : Mem}
    (h : payAll false c u m ts os = some m') (hw : WF m) (hc : c ∈ S) (hu : u ∈ S) (ht : ∀ t ∈ ts, t.dest ∈ S ∧ t.amount < U64)
    (ho : ∀ o ∈ os, o.target.In S) (hv : ∀ o ∈ os, o.money < U64) (hT : ∀ s, total m s S < U64) :
    (∀ s, total m' s S = total m s S) ∧
    (∀ r s b, b ≠ .free → bal m' r s b = bal m r s b) ∧
    (∀ r s, r ≠ c → bal m r s .free ≤ bal m' r s .free + if r = u then sent s ts else 0) := by
  unfold payAll at h
  split at h
  · rename_i hck
    obtain ⟨k1, k2⟩ := checkOps_true hck
    obtain ⟨w, a2, a3, a4⟩ := transfers_exact hc hu (ts := ts) hw hT ht
    obtain ⟨w', k, f1, f2, f3, f4⟩ := payOps_exact w hv ho h
    have hk : k = 0 := by
      have := hT "WICC"
      have := a2 "WICC"
      rcases Nat.eq_zero_or_pos k with h0 | h0
      · exact h0
      · exfalso
        have : (U64 : Int) ≤ (k : Int) * U64 := by
          have : (1 : Int) * U64 ≤ (k : Int) * U64 := Int.mul_le_mul_of_nonneg_right (by omega) (by omega)
          omega
        omega
    subst hk
    refine ⟨fun s => ?_, fun r s b hb => by rw [f3 r s b (Or.inr hb), a3 r s b hb], fun r s hr => ?_⟩
    · by_cases hs : s = "WICC"
      · subst hs
        have := a2 "WICC"
        omega
      · rw [f2 s hs, a2 s]
    · have := a4 r s hr
      by_cases hs : s = "WICC"
      · subst hs
        have e := f4 rfl r
        have hp : ∀ l : List VmOp, (∀ o ∈ l, o.opType = 1 ∨ o.opType = 2 ∧ o.target = .acc c) → 0 ≤ sumD r l := by
          intro l
          induction l with
          | nil => intro _; simp [sumD]
          | cons o l ih =>
            intro hl
            have i := ih (fun p hp => hl p (List.mem_cons_of_mem _ hp))
            have : 0 ≤ opD r o := by
              unfold opD
              rcases hl o (List.mem_cons_self ..) with h1 | ⟨h1, h2⟩
              · rw [h1]; split <;> simp
              · rw [h2, if_neg (by intro e; cases e; exact hr rfl)]
            simp only [sumD, List.map_cons, List.sum_cons] at i ⊢
            omega
        have := hp os k2
        omega
      · rw [f3 r s .free (Or.inl hs)]; exact this
  · cases h

/-- Some accounts: the contract 0 with 50 WICC, the sender 1 with 7 WICC, others empty. -/
def exMem : Mem := fun r => ⟨r + 1, fun s => if s = "WICC" then some (fun b => if b = .free then (if r = 0 then 50 else if r = 1 then 7 else 0) else 0)
  else none, 0, 0⟩

/-- A run meeting the hypotheses: the contract pays 30 to account 2, the sender 5. -/
example : ∃ m', payAll false 0 1 exMem [⟨false, 2, "WICC", 5⟩] [⟨true, .acc 2, 1, 30⟩, ⟨true, .acc 0, 2, 30⟩] = some m' ∧
    bal m' 2 "WICC" .free = 35 ∧ bal m' 0 "WICC" .free = 20 ∧ bal m' 1 "WICC" .free = 2 := by
  refine ⟨_, rfl, ?_⟩
  decide

/-- Unbalanced or foreign operations are refused. -/
example : payAll false 0 1 exMem [] [⟨true, .acc 2, 1, 30⟩] = none ∧
    payAll false 0 1 exMem [] [⟨true, .acc 2, 1, 5⟩, ⟨true, .acc 1, 2, 5⟩] = none := ⟨rfl, rfl⟩

/-- C70 violated up to the second fork: the addition to an address without key id is lost, the coins are gone. -/
theorem empty_key_loses_coins_violated :
    ∃ m', payAll true 0 1 exMem [] [⟨true, .noKey, 1, 30⟩, ⟨true, .acc 0, 2, 30⟩] = some m' ∧
      total exMem "WICC" {0, 1} = 57 ∧ total m' "WICC" {0, 1} = 27 := by
  refine ⟨_, rfl, ?_⟩
  decide

/-- C69 violated by a run that is possible: a contract with any balance moves 2^62 to itself and back three times; then the
check reads the sum as negative and users are credited 2^62 coins although none were sent. -/
theorem unbacked_credit_violated :
    let os : List VmOp := [⟨true, .acc 0, 1, 4611686018427387904⟩, ⟨true, .acc 0, 2, 4611686018427387904⟩,
      ⟨true, .acc 0, 1, 4611686018427387904⟩, ⟨true, .acc 0, 2, 4611686018427387904⟩,
      ⟨true, .acc 0, 1, 4611686018427387904⟩, ⟨true, .acc 0, 2, 4611686018427387904⟩]
    let x : AppAcc.Tx := ⟨true, 4, 5, [.write 1 ⟨1, 0, 4611686018427387904, some []⟩], true,
      (os.filter (fun o => o.opType = 2 ∧ o.target = .acc 0)).map (·.money), 0⟩
    (∃ m', payAll false 0 1 exMem [] os = some m' ∧ bal m' 0 "WICC" .free = 50) ∧
    AppAcc.totalOf (AppAcc.after (fun _ => none) x) [1] = 4611686018427387904 := by
  refine ⟨⟨_, rfl, by decide⟩, by decide⟩

end Verif.LuaPay
