import Verif.Account.Props

/-!
# Sequences of balance operations that must all succeed

Every transaction type executes a number of `OperateBalance` calls and fails as a
whole if one of them fails (`return state.DoS(...)`); a failed transaction's cache
layer is dropped.  This file gives the exact effect of such a sequence.
-/
namespace Verif.Ledger

open Verif.Account

/-- `if (!account.OperateBalance(...)) return false;` -/
def opBal (m : Mem) (q : Req) : Option Mem :=
  let r := operateBalance m q.self q.sym q.op q.amount q.peer
  if r.1 then some r.2 else none

/-- All requests in order; the first failing one fails the whole. -/
def execAll : Mem → List Req → Option Mem
  | m, [] => some m
  | m, q :: qs => match opBal m q with
    | none => none
    | some m' => execAll m' qs

/-- Sum of an integer quantity over requests. -/
def sumReq (f : Req → Int) (qs : List Req) : Int := (qs.map f).sum

/-- Change one request makes to bucket `b` of token `s` of account `r`. -/
def reqDelta (r : Ref) (s : Sym) (b : Bucket) (q : Req) : Int :=
  if s = q.sym then netDelta q.op q.self q.peer r b * q.amount else 0

/-- Amount minted / burned by a list of requests. -/
def mintedAll (s : Sym) (qs : List Req) : Nat := (qs.map (minted s)).sum
def burnedAll (s : Sym) (qs : List Req) : Nat := (qs.map (burned s)).sum

@[simp] theorem sumReq_nil (f : Req → Int) : sumReq f [] = 0 := rfl
@[simp] theorem sumReq_cons (f : Req → Int) (q : Req) (qs : List Req) :
    sumReq f (q :: qs) = f q + sumReq f qs := by simp [sumReq]
@[simp] theorem sumReq_append (f : Req → Int) (a b : List Req) :
    sumReq f (a ++ b) = sumReq f a + sumReq f b := by simp [sumReq]
@[simp] theorem mintedAll_nil (s : Sym) : mintedAll s [] = 0 := rfl
@[simp] theorem mintedAll_cons (s : Sym) (q : Req) (qs : List Req) :
    mintedAll s (q :: qs) = minted s q + mintedAll s qs := by simp [mintedAll]
@[simp] theorem mintedAll_append (s : Sym) (a b : List Req) :
    mintedAll s (a ++ b) = mintedAll s a + mintedAll s b := by simp [mintedAll]
@[simp] theorem burnedAll_nil (s : Sym) : burnedAll s [] = 0 := rfl
@[simp] theorem burnedAll_cons (s : Sym) (q : Req) (qs : List Req) :
    burnedAll s (q :: qs) = burned s q + burnedAll s qs := by simp [burnedAll]
@[simp] theorem burnedAll_append (s : Sym) (a b : List Req) :
    burnedAll s (a ++ b) = burnedAll s a + burnedAll s b := by simp [burnedAll]

theorem opBal_some {m m' : Mem} {q : Req} (h : opBal m q = some m') :
    operateBalance m q.self q.sym q.op q.amount q.peer = (true, m') := by
  unfold opBal at h
  simp only at h
  split at h
  · rename_i hr
    simp only [Option.some.injEq] at h
    exact Prod.ext hr h
  · cases h

theorem opBal_step {m m' : Mem} {q : Req} (h : opBal m q = some m') :
    accepted m q = true ∧ step m q = m' := by
  have := opBal_some h
  refine ⟨by simp [accepted, this], by simp [step, this]⟩

theorem execAll_append (m : Mem) (a b : List Req) :
    execAll m (a ++ b) = (execAll m a).bind (fun m' => execAll m' b) := by
  induction a generalizing m with
  | nil => rfl
  | cons q a ih =>
    simp only [List.cons_append, execAll]
    cases opBal m q with
    | none => rfl
    | some m1 => exact ih m1

theorem execAll_cons_some {m m' : Mem} {q : Req} {qs : List Req} (h : execAll m (q :: qs) = some m') :
    ∃ m1, opBal m q = some m1 ∧ execAll m1 qs = some m' := by
  simp only [execAll] at h
  cases ho : opBal m q with
  | none => rw [ho] at h; cases h
  | some m1 => rw [ho] at h; exact ⟨m1, rfl, h⟩

theorem execAll_of_opBal {m m1 m2 : Mem} {q : Req} {qs : List Req} (h1 : opBal m q = some m1)
    (h2 : execAll m1 qs = some m2) : execAll m (q :: qs) = some m2 := by
  simp only [execAll, h1, h2]

theorem execAll_one {m m1 : Mem} {q : Req} (h1 : opBal m q = some m1) : execAll m [q] = some m1 := by
  simp only [execAll, h1]

theorem execAll_trans {m m1 m2 : Mem} {a b : List Req} (h1 : execAll m a = some m1)
    (h2 : execAll m1 b = some m2) : execAll m (a ++ b) = some m2 := by
  rw [execAll_append, h1]; exact h2

/-- The exact effect of a sequence of balance operations that all succeed, on every
bucket of every account, as long as the supply (plus what is minted) of every token
fits in 64 bits. -/
theorem execAll_exact (S : Finset Ref) (qs : List Req) (m m' : Mem) (hwf : WF m)
    (hin : ∀ q ∈ qs, q.Within S) (ht : ∀ s, total m s S + mintedAll s qs < U64)
    (h : execAll m qs = some m') :
    WF m' ∧ (∀ r s b, (bal m' r s b : Int) = bal m r s b + sumReq (reqDelta r s b) qs) ∧
    (∀ s, total m' s S + burnedAll s qs = total m s S + mintedAll s qs) := by
  induction qs generalizing m with
  | nil => simp only [execAll, Option.some.injEq] at h; subst h; simpa using hwf
  | cons q qs ih =>
    obtain ⟨m1, h1, h2⟩ := execAll_cons_some h
    have hq := hin q (by simp)
    obtain ⟨hacc, hst⟩ := opBal_step h1
    have hstep : ∀ s, total m1 s S + burned s q = total m s S + minted s q := by
      intro s
      have := step_conserves m q s S hwf hq (by
        intro s'; have := ht s'; simp only [hacc, if_true, mintedAll_cons] at this ⊢; omega)
      rw [hst] at this
      simpa [hacc] using this
    have hwf1 : WF m1 := by rw [← hst]; exact step_wf m q hwf
    obtain ⟨w, e, t⟩ := ih m1 hwf1 (fun q' h' => hin q' (by simp [h'])) (by
      intro s
      have a := ht s
      have b := hstep s
      simp only [mintedAll_cons] at a
      omega) h2
    refine ⟨w, ?_, ?_⟩
    · intro r s b
      have hd := dest_ok (m := m) (S := S) (self := q.self) (s := q.sym) (op := q.op) (v := q.amount)
        (peer := q.peer) hq (by rw [opBal_some h1]) (by
          have := ht q.sym; simp only [mintedAll_cons] at this; show total m q.sym S + minted q.sym q < U64; omega)
      have := operate_moves_exactly m m1 q.self q.sym q.op q.amount q.peer (opBal_some h1) hwf hd r s b
      rw [e, sumReq_cons, this]
      unfold reqDelta
      omega
    · intro s
      have a := t s
      have b := hstep s
      simp only [mintedAll_cons, burnedAll_cons]
      omega

/-- Account fields other than tokens are untouched. -/
theorem opBal_frame {m m' : Mem} {q : Req} (h : opBal m q = some m') (r : Ref) :
    (m' r).keyid = (m r).keyid ∧ (m' r).receivedVotes = (m r).receivedVotes ∧ (m' r).perms = (m r).perms := by
  have := (operate_frame m q.self q.sym q.op q.amount q.peer).2.2 r
  rw [opBal_some h] at this
  exact ⟨this.1, this.2.2, this.2.1⟩

theorem execAll_frame {m m' : Mem} {qs : List Req} (h : execAll m qs = some m') (r : Ref) :
    (m' r).keyid = (m r).keyid ∧ (m' r).receivedVotes = (m r).receivedVotes ∧ (m' r).perms = (m r).perms := by
  induction qs generalizing m with
  | nil => simp only [execAll, Option.some.injEq] at h; subst h; exact ⟨rfl, rfl, rfl⟩
  | cons q qs ih =>
    obtain ⟨m1, h1, h2⟩ := execAll_cons_some h
    have a := ih h2
    have b := opBal_frame h1 r
    exact ⟨a.1.trans b.1, a.2.1.trans b.2.1, a.2.2.trans b.2.2⟩

/-! ## Deltas in additive form -/

/-- `v` at one position, zero elsewhere. -/
def cell (r : Ref) (s : Sym) (b : Bucket) (r' : Ref) (s' : Sym) (b' : Bucket) (v : Int) : Int :=
  if r = r' ∧ s = s' ∧ b = b' then v else 0

theorem reqDelta_subFree_peer (x : Ref) (s : Sym) (b : Bucket) (a p : Ref) (t : Sym) (v : Nat) :
    reqDelta x s b ⟨a, t, .subFree, v, some p⟩ = cell x s b a t .free (-v) + cell x s b p t .free v := by
  unfold reqDelta cell netDelta
  have e : (some p = some x) ↔ x = p := by simp [eq_comm]
  simp only [e]
  cases b <;> simp only [selfDelta, peerDelta] <;> (repeat' split) <;> simp_all

theorem reqDelta_subFree (x : Ref) (s : Sym) (b : Bucket) (a : Ref) (t : Sym) (v : Nat) :
    reqDelta x s b ⟨a, t, .subFree, v, none⟩ = cell x s b a t .free (-v) := by
  unfold reqDelta cell netDelta
  by_cases h1 : s = t <;> by_cases h2 : x = a <;> cases b <;> simp [h1, h2, selfDelta]

theorem reqDelta_addFree (x : Ref) (s : Sym) (b : Bucket) (a : Ref) (t : Sym) (v : Nat) :
    reqDelta x s b ⟨a, t, .addFree, v, none⟩ = cell x s b a t .free v := by
  unfold reqDelta cell netDelta
  by_cases h1 : s = t <;> by_cases h2 : x = a <;> cases b <;> simp [h1, h2, selfDelta]

theorem reqDelta_addFree_peer (x : Ref) (s : Sym) (b : Bucket) (a p : Ref) (t : Sym) (v : Nat) :
    reqDelta x s b ⟨a, t, .addFree, v, some p⟩ = cell x s b a t .free v + cell x s b p t .free (-v) := by
  unfold reqDelta cell netDelta
  have e : (some p = some x) ↔ x = p := by simp [eq_comm]
  simp only [e]
  cases b <;> simp only [selfDelta, peerDelta] <;> (repeat' split) <;> simp_all

theorem reqDelta_dexDeal (x : Ref) (s : Sym) (b : Bucket) (a p : Ref) (t : Sym) (v : Nat) :
    reqDelta x s b ⟨a, t, .dexDeal, v, some p⟩ = cell x s b a t .frozen (-v) + cell x s b p t .free v := by
  unfold reqDelta cell netDelta
  have e : (some p = some x) ↔ x = p := by simp [eq_comm]
  simp only [e]
  cases b <;> simp only [selfDelta, peerDelta] <;> (repeat' split) <;> simp_all

/-- Source and destination bucket of the in-account moves. -/
def moveOf : Op → Option (Bucket × Bucket)
  | .stake => some (.free, .staked) | .unstake => some (.staked, .free)
  | .freeze => some (.free, .frozen) | .unfreeze => some (.frozen, .free)
  | .vote => some (.free, .voted) | .unvote => some (.voted, .free)
  | .pledge => some (.free, .pledged) | .unpledge => some (.pledged, .free)
  | _ => none

theorem reqDelta_move {op : Op} {src dst : Bucket} (h : moveOf op = some (src, dst))
    (x : Ref) (s : Sym) (b : Bucket) (a : Ref) (t : Sym) (v : Nat) :
    reqDelta x s b ⟨a, t, op, v, none⟩ = cell x s b a t src (-v) + cell x s b a t dst v := by
  unfold reqDelta cell netDelta
  cases op <;> simp [moveOf] at h <;> obtain ⟨rfl, rfl⟩ := h <;>
    by_cases h1 : s = t <;> by_cases h2 : x = a <;> cases b <;> simp [h1, h2, selfDelta]

theorem cell_zero (r : Ref) (s : Sym) (b : Bucket) (r' : Ref) (s' : Sym) (b' : Bucket) :
    cell r s b r' s' b' 0 = 0 := by simp [cell]

theorem cell_add (r : Ref) (s : Sym) (b : Bucket) (r' : Ref) (s' : Sym) (b' : Bucket) (v w : Int) :
    cell r s b r' s' b' (v + w) = cell r s b r' s' b' v + cell r s b r' s' b' w := by
  unfold cell; split <;> simp

theorem cell_neg (r : Ref) (s : Sym) (b : Bucket) (r' : Ref) (s' : Sym) (b' : Bucket) (v : Int) :
    cell r s b r' s' b' (-v) = - cell r s b r' s' b' v := by
  unfold cell; split <;> simp

theorem minted_subFree (s : Sym) (a : Ref) (t : Sym) (v : Nat) (p : Option Ref) :
    minted s ⟨a, t, .subFree, v, p⟩ = 0 := by simp [minted]
theorem burned_addFree (s : Sym) (a : Ref) (t : Sym) (v : Nat) (p : Option Ref) :
    burned s ⟨a, t, .addFree, v, p⟩ = 0 := by simp [burned]
theorem minted_move {op : Op} {sd : Bucket × Bucket} (h : moveOf op = some sd) (s : Sym) (a : Ref) (t : Sym) (v : Nat)
    (p : Option Ref) : minted s ⟨a, t, op, v, p⟩ = 0 := by
  cases op <;> simp [moveOf] at h <;> simp [minted]
theorem burned_move {op : Op} {sd : Bucket × Bucket} (h : moveOf op = some sd) (s : Sym) (a : Ref) (t : Sym) (v : Nat)
    (p : Option Ref) : burned s ⟨a, t, op, v, p⟩ = 0 := by
  cases op <;> simp [moveOf] at h <;> simp [burned]

end Verif.Ledger
