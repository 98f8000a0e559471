import Verif.AppAcc.Lemmas
import Mathlib.Algebra.BigOperators.Group.List.Basic

/-!
# Properties of contract user funds

* C55 "contract account funds are conserved and released once": the observed funds are exactly a sum over the history of
  successful operations, in which a locked amount counts as free from its timeout height on; violated for timeouts from 2^31 on
  and when the free funds would exceed 64 bits.
* C67 "a contract cannot stop the node": violated by operations with timeout 0, amount 0, or timeouts from 2^31 on; holds otherwise.
* C68 "transferring all of a user's funds moves everything": violated when a fund is due at the height of the block.
* C69 "a checked contract run keeps the users' funds backed": holds from the second fork on below 2^63; violated before.
-/
namespace Verif.AppAcc

/-! ## C55 -/

def runs : Store → List Tx → Store
  | s, [] => s
  | s, x :: xs => runs (after s x) xs

/-- The operations of the successful transactions on user `u`, in order. -/
def hist : Store → List Tx → Nat → List Op
  | _, [], _ => []
  | s, x :: xs, u =>
    (match exec s x with
     | .ok _ => ofUser u (emits s x)
     | _ => []) ++ hist (after s x) xs u

/-- Spec: what an operation contributes to the free funds seen at height `H`. -/
def freeAt (H : Int) (o : Op) : Int :=
  match o.kind with
  | 1 => u64 o.money
  | 2 => -(u64 o.money : Int)
  | 3 => if (o.timeout : Int) ≤ H then (u64 o.money : Int) else 0
  | 4 => if (o.timeout : Int) ≤ H then -(u64 o.money : Int) else 0
  | _ => 0

/-- Spec: what an operation contributes to the funds locked under a tag and a timeout. -/
def lockedAt (tg : List Nat) (ht : Nat) (o : Op) : Int :=
  match o.kind with
  | 3 => if o.tag = some tg ∧ o.timeout = ht then (u64 o.money : Int) else 0
  | 4 => if o.tag = some tg ∧ o.timeout = ht then -(u64 o.money : Int) else 0
  | _ => 0

theorem u64_lt (x : Int) : u64 x < U64 := by unfold u64 U64; omega

theorem operateAll_free : ∀ {os : List Op} {a b : Acct}, a.free < U64 → operateAll a os = .ok b → b.free < U64
  | [], a, b, h, hr => by cases hr; exact h
  | o :: os, a, b, h, hr => by
    simp only [operateAll] at hr
    split at hr
    · rename_i a' h1
      refine operateAll_free ?_ hr
      unfold operate at h1
      split at h1
      · split at h1
        · cases h1; assumption
        · cases h1
      · split at h1
        · split at h1
          · cases h1; dsimp only; omega
          · cases h1
        · split at h1
          · split at h1
            · cases h1
            · split at h1
              · cases h1
              · obtain ⟨_, _, rfl⟩ := map_ok h1; exact h
          · split at h1
            · split at h1
              · cases h1
              · split at h1
                · cases h1
                · split at h1
                  · cases h1
                  · obtain ⟨_, _, rfl⟩ := map_ok h1; exact h
            · cases h1
    · cases hr
    · cases hr

/-- Account seen by later heights as a function of the history. -/
structure Follows (H : Int) (a : Acct) (l : List Op) : Prop where
  free : (a.free + due a.funds H : Int) = sumI (dueD H) l
  key : ∀ tg ht, H < ht → (locked a.funds tg ht : Int) = sumI (keyD tg ht) l
  total : (total a : Int) = sumI totD l
  fits : a.free < U64

theorem follows_step {H : Int} {s : Store} {u : Nat} {l : List Op} (hf : Follows H ((s u).getD empty) l) (x : Tx) (hx : x.h ≤ H) :
    Follows H ((after s x u).getD empty) (l ++ (match exec s x with | .ok _ => ofUser u (emits s x) | _ => [])) := by
  unfold after
  cases he : exec s x with
  | fail => simpa using hf
  | crash => simpa using hf
  | ok s' =>
    dsimp only
    rcases exec_user he u with ⟨h1, h2⟩ | ⟨_, b, hb, h2⟩
    · rw [h1, h2, List.append_nil]; exact hf
    · rw [h2, Option.getD_some]
      unfold operateUser at hb
      cases hg : getAcct s x.h u with
      | none => rw [hg] at hb; cases hb
      | some a =>
        rw [hg] at hb
        dsimp only at hb
        have ha : Follows H a l := by
          unfold getAcct at hg
          cases hs : s u with
          | none => rw [hs] at hg hf; cases hg; exact hf
          | some a0 =>
            rw [hs] at hg hf
            rw [Option.getD_some] at hf
            dsimp only at hg
            split at hg
            · rename_i a' hm
              cases hg
              obtain ⟨m1, m2, m3, _⟩ := autoMerge_facts hm
              refine ⟨?_, fun tg ht hh => ?_, ?_, ?_⟩
              · have := m1 H hx
                have := hf.free
                omega
              · rw [m2 tg ht (by omega)]; exact hf.key tg ht hh
              · rw [m3]; exact hf.total
              · have := (autoMerge_iff x.h hf.fits).1 (by rw [hm])
                rw [autoMerge_true hm]; exact this
            · cases hg
        obtain ⟨o1, o2, o3⟩ := operateAll_ok hb
        refine ⟨?_, fun tg ht hh => ?_, ?_, operateAll_free ha.fits hb⟩
        · rw [o1, ha.free, sumI_append]
        · rw [o2, ha.key tg ht hh, sumI_append]
        · rw [o3, ha.total, sumI_append]

theorem follows_runs {H : Int} {u : Nat} : ∀ (xs : List Tx) (s : Store) (l : List Op), (∀ x ∈ xs, x.h ≤ H) →
    Follows H ((s u).getD empty) l → Follows H ((runs s xs u).getD empty) (l ++ hist s xs u)
  | [], s, l, _, h => by simpa [runs, hist] using h
  | x :: xs, s, l, hx, h => by
    have h1 := follows_step h x (hx x (List.mem_cons_self ..))
    have h2 := follows_runs xs (after s x) _ (fun y hy => hx y (List.mem_cons_of_mem _ hy)) h1
    simpa [runs, hist, List.append_assoc] using h2

theorem sumI_congr {f g : Op → Int} : ∀ {l : List Op}, (∀ o ∈ l, f o = g o) → sumI f l = sumI g l
  | [], _ => rfl
  | o :: l, h => by
    simp only [sumI]
    rw [h o (List.mem_cons_self ..), sumI_congr (fun o' ho' => h o' (List.mem_cons_of_mem _ ho'))]

theorem i32_small {n : Nat} (h : n < 2147483648) : i32 n = n := by unfold i32; rw [if_pos h]

theorem dueD_spec (H : Int) (o : Op) (h : (o.kind = 3 ∨ o.kind = 4) → o.timeout < 2147483648) : dueD H o = freeAt H o := by
  unfold dueD freeD lockD freeAt
  by_cases k1 : o.kind = 1
  · simp [k1]
  by_cases k2 : o.kind = 2
  · simp [k2]
  by_cases k3 : o.kind = 3
  · rw [i32_small (h (Or.inl k3))]; simp [k3]
  by_cases k4 : o.kind = 4
  · rw [i32_small (h (Or.inr k4))]; simp [k4]
  · simp [k1, k2, k3, k4]

theorem keyD_spec (tg : List Nat) (ht : Nat) (o : Op) (h : (o.kind = 3 ∨ o.kind = 4) → o.timeout < 2147483648) :
    keyD tg ht o = lockedAt tg ht o := by
  unfold keyD lockD lockedAt
  by_cases k3 : o.kind = 3
  · simp [k3, i32_small (h (Or.inl k3)), Int.ofNat_inj]
  by_cases k4 : o.kind = 4
  · simp [k4, i32_small (h (Or.inr k4)), Int.ofNat_inj]
  · simp [k3, k4]

theorem empty_follows (H : Int) : Follows H empty [] := ⟨rfl, fun _ _ _ => rfl, rfl, by decide⟩

/-- C55, partial: over any history of contract transactions, successful or not, what a user's account shows at a height is a sum
over the operations that succeeded: a locked amount counts as free from its timeout on, exactly once, and is locked under its
tag and timeout before. Missing: timeouts from 2^31 on (violated), and accounts whose free funds exceed 64 bits (cannot be read). -/
theorem funds_follow_history_partial (xs : List Tx) (u : Nat) (H : Int) (b : Acct) (hx : ∀ x ∈ xs, x.h ≤ H)
    (ht : ∀ o ∈ hist (fun _ => none) xs u, (o.kind = 3 ∨ o.kind = 4) → o.timeout < 2147483648)
    (hb : getAcct (runs (fun _ => none) xs) H u = some b) :
    (b.free : Int) = sumI (freeAt H) (hist (fun _ => none) xs u) ∧
    (∀ (tg : List Nat) (t : Nat), H < (t : Int) → (locked b.funds tg t : Int) = sumI (lockedAt tg t) (hist (fun _ => none) xs u)) ∧
    (∀ f ∈ b.funds, H < f.height) := by
  have hf := follows_runs (u := u) xs (fun _ => none) [] hx (empty_follows H)
  rw [List.nil_append] at hf
  generalize runs (fun _ => none) xs = s at *
  generalize hist (fun _ => none) xs u = l at *
  unfold getAcct at hb
  rw [← sumI_congr (fun o ho => dueD_spec H o (ht o ho)), ← hf.free]
  cases hs : s u with
  | none =>
    rw [hs] at hb hf
    cases hb
    refine ⟨rfl, fun tg t h => ?_, fun f hff => by cases hff⟩
    rw [← sumI_congr (fun o ho => keyD_spec tg t o (ht o ho)), ← hf.key tg t h]; rfl
  | some a =>
    rw [hs] at hb hf
    rw [Option.getD_some] at hf
    dsimp only at hb
    split at hb
    · rename_i a' hm
      cases hb
      obtain ⟨m1, m2, _, m4⟩ := autoMerge_facts hm
      refine ⟨?_, fun tg t h => ?_, m4⟩
      · rw [autoMerge_true hm]; simp
      · rw [← sumI_congr (fun o ho => keyD_spec tg t o (ht o ho)), m2 tg t h, ← hf.key tg t h]
    · cases hb

/-- C55: when the account can be read: exactly when the sum fits into 64 bits. -/
theorem account_readable_iff_partial (xs : List Tx) (u : Nat) (H : Int) (hx : ∀ x ∈ xs, x.h ≤ H)
    (ht : ∀ o ∈ hist (fun _ => none) xs u, (o.kind = 3 ∨ o.kind = 4) → o.timeout < 2147483648) :
    (getAcct (runs (fun _ => none) xs) H u).isSome ↔ sumI (freeAt H) (hist (fun _ => none) xs u) < U64 := by
  have hf := follows_runs (u := u) xs (fun _ => none) [] hx (empty_follows H)
  rw [List.nil_append] at hf
  generalize runs (fun _ => none) xs = s at *
  generalize hist (fun _ => none) xs u = l at *
  rw [← sumI_congr (fun o ho => dueD_spec H o (ht o ho)), ← hf.free]
  unfold getAcct
  cases hs : s u with
  | none => simp [empty, due, U64]
  | some a =>
    rw [hs, Option.getD_some] at hf
    have hi := autoMerge_iff H hf.fits
    dsimp only
    rw [Option.getD_some]
    rcases hm : autoMerge a H with ⟨ok, a'⟩
    rw [hm] at hi
    cases ok with
    | true => simp only [Option.isSome_some, true_iff]; simp only [true_iff] at hi; omega
    | false =>
      simp only [Option.isSome_none, Bool.false_eq_true, false_iff]
      simp only [Bool.false_eq_true, false_iff] at hi; omega

/-- C55: one operation changes free plus locked funds by exactly its amount, and releasing changes nothing in total. -/
theorem total_changes_by_amount {a b : Acct} {o : Op} (h : operate a o = .ok b) :
    (o.kind = 1 ∨ o.kind = 3) ∧ total b = total a + u64 o.money ∨ (o.kind = 2 ∨ o.kind = 4) ∧ total a = total b + u64 o.money := by
  have ht := (operate_ok h).2.2
  have hk : o.kind = 1 ∨ o.kind = 2 ∨ o.kind = 3 ∨ o.kind = 4 := by
    by_contra hk
    unfold operate at h
    simp only [not_or] at hk
    simp [hk] at h
  unfold freeD lockD at ht
  rcases hk with k | k | k | k <;> simp [k] at ht ⊢ <;> omega

theorem release_keeps_total {a b : Acct} {h : Int} (hm : autoMerge a h = (true, b)) : total b = total a := (autoMerge_facts hm).2.2.1

/-! ### Examples and violations -/

def noTx (h : Int) (cs : List Call) : Tx := ⟨true, h - 1, h, cs, false, [], 0⟩

/-- Locked at height 5 until 10: not free at 9, free at 10, and only once. -/
example :
    let xs := [noTx 5 [.write 1 ⟨3, 10, 70, some [1]⟩, .write 1 ⟨1, 0, 5, some []⟩], noTx 7 [.write 1 ⟨4, 10, 20, some [1]⟩],
      noTx 12 [.write 1 ⟨1, 0, 1, some []⟩], noTx 13 [.write 1 ⟨2, 0, 1000, some []⟩]]
    getAcct (runs (fun _ => none) (xs.take 2)) 9 1 = some ⟨5, [⟨[1], 50, 10⟩]⟩ ∧
    getAcct (runs (fun _ => none) (xs.take 2)) 10 1 = some ⟨55, []⟩ ∧
    getAcct (runs (fun _ => none) xs) 20 1 = some ⟨56, []⟩ := by decide

/-- C55 violated: funds locked until height 2^31 or later are released at once. -/
theorem late_timeout_violated :
    let xs := [noTx 5 [.write 1 ⟨3, 2147483648, 70, some [1]⟩]]
    getAcct (runs (fun _ => none) xs) 5 1 = some ⟨70, []⟩ := by decide

/-- C55 violated: locked funds that do not fit on top of the free funds are never released and block the whole account. -/
theorem release_overflow_violated :
    let big := 9223372036854775807
    let xs := [noTx 5 [.write 1 ⟨1, 0, big, some []⟩, .write 1 ⟨1, 0, big, some []⟩, .write 1 ⟨3, 10, big, some [1]⟩]]
    (∀ H : Int, 10 ≤ H → getAcct (runs (fun _ => none) xs) H 1 = none) ∧
    (∀ H : Int, 10 ≤ H → ∀ o : Op, 0 ≤ o.money → exec (runs (fun _ => none) xs) (noTx H [.write 1 o]) = .fail) ∧
    ((runs (fun _ => none) xs) 1).isSome := by
  intro big xs
  have h1 : (runs (fun _ => none) xs) 1 = some ⟨18446744073709551614, [⟨[1], 9223372036854775807, 10⟩]⟩ := by decide
  have h2 : ∀ H : Int, 10 ≤ H → getAcct (runs (fun _ => none) xs) H 1 = none := by
    intro H hH
    unfold getAcct
    rw [h1]
    simp [autoMerge, mergeLoop, hH, U64]
  refine ⟨h2, fun H hH o ho => ?_, by rw [h1]; rfl⟩
  have hn : ¬ o.money < 0 := by omega
  simp [exec, noTx, calls, call, hn, insertOp, put, operateMap, h2 H hH]

/-! ## C67 -/

/-- Operations that the checks of the code expect. -/
def SafeOp (o : Op) : Prop :=
  (o.kind = 3 ∨ o.kind = 4) → (∃ tg, o.tag = some tg) ∧ 0 < o.timeout ∧ o.timeout < 2147483648 ∧ u64 o.money ≠ 0

def SafeCall : Call → Prop
  | .write _ o => SafeOp o
  | .some _ _ amount timeout tag => (∃ tg, tag = Option.some tg) ∧ timeout < 4294967296 ∧ amount < U64
  | .all _ _ => True

structure SafeAcct (a : Acct) : Prop where
  free : a.free < U64
  funds : ∀ f ∈ a.funds, 0 < f.value ∧ f.value < U64 ∧ 0 < f.height ∧ f.height < 2147483648

def SafeStore (s : Store) : Prop := ∀ u a, s u = some a → SafeAcct a

theorem addFund_safe {f : Fund} (hv : 0 < f.value ∧ f.value < U64 ∧ 0 < f.height ∧ f.height < 2147483648) : ∀ {fs : List Fund},
    (∀ g ∈ fs, 0 < g.value ∧ g.value < U64 ∧ 0 < g.height ∧ g.height < 2147483648) →
    addFund fs f ≠ .crash ∧
    ∀ gs, addFund fs f = .ok gs → ∀ g ∈ gs, 0 < g.value ∧ g.value < U64 ∧ 0 < g.height ∧ g.height < 2147483648
  | [], _ => by
    refine ⟨by simp [addFund], fun gs h g hg => ?_⟩
    simp only [addFund, Res.ok.injEq] at h
    subst h
    rw [List.mem_singleton.1 hg]; exact hv
  | g0 :: fs, hs => by
    have h0 := hs g0 (List.mem_cons_self ..)
    obtain ⟨ih1, ih2⟩ := addFund_safe hv (fs := fs) (fun g hg => hs g (List.mem_cons_of_mem _ hg))
    simp only [addFund]
    by_cases hk : g0.tag = f.tag ∧ g0.height = f.height
    · rw [if_pos hk, if_neg (by omega)]
      split
      · refine ⟨by simp, fun gs h g hg => ?_⟩
        cases h
        rcases List.mem_cons.1 hg with rfl | hg
        · dsimp only; omega
        · exact hs g (List.mem_cons_of_mem _ hg)
      · exact ⟨by simp, fun gs h => by cases h⟩
    · rw [if_neg hk]
      refine ⟨fun h => ih1 (map_crash.1 h), fun gs h g hg => ?_⟩
      obtain ⟨gs', h1, rfl⟩ := map_ok h
      rcases List.mem_cons.1 hg with rfl | hg
      · exact h0
      · exact ih2 gs' h1 g hg

theorem subFund_safe {f : Fund} (hv : 0 < f.value) : ∀ {fs : List Fund},
    (∀ g ∈ fs, 0 < g.value ∧ g.value < U64 ∧ 0 < g.height ∧ g.height < 2147483648) →
    subFund fs f ≠ .crash ∧
    ∀ gs, subFund fs f = .ok gs → ∀ g ∈ gs, 0 < g.value ∧ g.value < U64 ∧ 0 < g.height ∧ g.height < 2147483648
  | [], _ => by refine ⟨by simp [subFund], fun gs h => by cases h⟩
  | g0 :: fs, hs => by
    have h0 := hs g0 (List.mem_cons_self ..)
    obtain ⟨ih1, ih2⟩ := subFund_safe hv (fs := fs) (fun g hg => hs g (List.mem_cons_of_mem _ hg))
    simp only [subFund]
    by_cases hk : g0.tag = f.tag ∧ g0.height = f.height
    · rw [if_pos hk]
      split
      · split
        · refine ⟨by simp, fun gs h g hg => ?_⟩
          cases h
          exact hs g (List.mem_cons_of_mem _ hg)
        · refine ⟨by simp, fun gs h g hg => ?_⟩
          cases h
          rcases List.mem_cons.1 hg with rfl | hg
          · dsimp only; omega
          · exact hs g (List.mem_cons_of_mem _ hg)
      · exact ⟨by simp, fun gs h => by cases h⟩
    · rw [if_neg hk]
      refine ⟨fun h => ih1 (map_crash.1 h), fun gs h g hg => ?_⟩
      obtain ⟨gs', h1, rfl⟩ := map_ok h
      rcases List.mem_cons.1 hg with rfl | hg
      · exact h0
      · exact ih2 gs' h1 g hg

theorem operate_safe {a : Acct} {o : Op} (ha : SafeAcct a) (ho : SafeOp o) :
    operate a o ≠ .crash ∧ ∀ b, operate a o = .ok b → SafeAcct b := by
  unfold operate
  by_cases k1 : o.kind = 1
  · rw [if_pos k1]
    split
    · exact ⟨by simp, fun b h => by cases h; exact ⟨by assumption, ha.funds⟩⟩
    · exact ⟨by simp, fun b h => by cases h⟩
  rw [if_neg k1]
  by_cases k2 : o.kind = 2
  · rw [if_pos k2]
    have := ha.free
    split
    · exact ⟨by simp, fun b h => by cases h; exact ⟨by dsimp only; omega, ha.funds⟩⟩
    · exact ⟨by simp, fun b h => by cases h⟩
  rw [if_neg k2]
  by_cases k3 : o.kind = 3
  · obtain ⟨⟨tg, htg⟩, t1, t2, hm⟩ := ho (Or.inl k3)
    rw [if_pos k3, htg]
    dsimp only
    rw [if_neg (by omega)]
    have hi := i32_small t2
    obtain ⟨s1, s2⟩ := addFund_safe (f := ⟨tg, u64 o.money, i32 o.timeout⟩)
      ⟨by dsimp only; omega, u64_lt _, by dsimp only; omega, by dsimp only; omega⟩ ha.funds
    refine ⟨fun h => s1 (map_crash.1 h), fun b h => ?_⟩
    obtain ⟨gs, h1, rfl⟩ := map_ok h
    exact ⟨ha.free, s2 gs h1⟩
  rw [if_neg k3]
  by_cases k4 : o.kind = 4
  · obtain ⟨⟨tg, htg⟩, t1, t2, hm⟩ := ho (Or.inr k4)
    have hi := i32_small t2
    rw [if_pos k4, htg]
    dsimp only
    rw [if_neg (by omega), if_neg (by omega)]
    obtain ⟨s1, s2⟩ := subFund_safe (f := ⟨tg, u64 o.money, i32 o.timeout⟩) (by dsimp only; omega) ha.funds
    refine ⟨fun h => s1 (map_crash.1 h), fun b h => ?_⟩
    obtain ⟨gs, h1, rfl⟩ := map_ok h
    exact ⟨ha.free, s2 gs h1⟩
  rw [if_neg k4]
  exact ⟨by simp, fun b h => by cases h⟩

theorem operateAll_safe : ∀ {os : List Op} {a : Acct}, SafeAcct a → (∀ o ∈ os, SafeOp o) →
    operateAll a os ≠ .crash ∧ ∀ b, operateAll a os = .ok b → SafeAcct b
  | [], a, ha, _ => ⟨by simp [operateAll], fun b h => by cases h; exact ha⟩
  | o :: os, a, ha, ho => by
    obtain ⟨h1, h2⟩ := operate_safe ha (ho o (List.mem_cons_self ..))
    simp only [operateAll]
    cases hr : operate a o with
    | ok a' => exact operateAll_safe (h2 a' hr) (fun o' h' => ho o' (List.mem_cons_of_mem _ h'))
    | fail => exact ⟨by simp, fun b h => by cases h⟩
    | crash => exact absurd hr h1

theorem merge_safe {a : Acct} (ha : SafeAcct a) (h : Int) : SafeAcct (autoMerge a h).2 := by
  have key : ∀ (fs : List Fund) (n : Nat), n < U64 → (mergeLoop h n fs).2 < U64 := by
    intro fs
    induction fs with
    | nil => intro n hn; exact hn
    | cons f fs ih =>
      intro n hn
      simp only [mergeLoop]
      split
      · split
        · exact ih _ (by assumption)
        · exact hn
      · exact ih n hn
  have hk := key a.funds a.free ha.free
  unfold autoMerge
  rcases hl : mergeLoop h a.free a.funds with ⟨ok, n⟩
  rw [hl] at hk
  cases ok
  · exact ⟨hk, ha.funds⟩
  · exact ⟨hk, fun f hf => ha.funds f (List.mem_of_mem_filter hf)⟩

theorem getAcct_safe {s : Store} (hs : SafeStore s) {h : Int} {u : Nat} {a : Acct} (hg : getAcct s h u = some a) : SafeAcct a := by
  unfold getAcct at hg
  split at hg
  · cases hg; exact ⟨by decide, fun f hf => by cases hf⟩
  · rename_i a0 ha0
    have := merge_safe (hs u a0 ha0) h
    split at hg
    · rename_i a1 hm
      cases hg; rw [hm] at this; exact this
    · cases hg

theorem operateMap_safe (h : Int) : ∀ {m : OpMap} {s : Store}, SafeStore s → (∀ p ∈ m, ∀ o ∈ p.2, SafeOp o) →
    operateMap h s m ≠ .crash ∧ ∀ s', operateMap h s m = .ok s' → SafeStore s'
  | [], s, hs, _ => ⟨by simp [operateMap], fun s' h => by cases h; exact hs⟩
  | (u, os) :: m, s, hs, hm => by
    rw [operateMap_cons]
    unfold operateUser
    cases hg : getAcct s h u with
    | none => exact ⟨by simp, fun s' h => by cases h⟩
    | some a =>
      obtain ⟨h1, h2⟩ := operateAll_safe (getAcct_safe hs hg) (hm (u, os) (List.mem_cons_self ..))
      dsimp only at h1 h2 ⊢
      cases hr : operateAll a os with
      | fail => exact ⟨by simp, fun s' h => by cases h⟩
      | crash => exact absurd hr h1
      | ok b =>
        refine operateMap_safe h ?_ (fun p hp => hm p (List.mem_cons_of_mem _ hp))
        intro v c hv
        simp only [setAcct] at hv
        split at hv
        · cases hv; exact h2 _ hr
        · exact hs v c hv

theorem insertAll_mem {l : List (Nat × Op)} {P : Op → Prop} : ∀ {m : OpMap}, (∀ p ∈ m, ∀ o ∈ p.2, P o) → (∀ p ∈ l, P p.2) →
    ∀ p ∈ insertAll m l, ∀ o ∈ p.2, P o := by
  induction l with
  | nil => intro m h _; exact h
  | cons q l ih =>
    intro m hm hl
    obtain ⟨u, o⟩ := q
    refine ih ?_ (fun p hp => hl p (List.mem_cons_of_mem _ hp))
    have ho := hl (u, o) (List.mem_cons_self ..)
    intro p hp o' ho'
    unfold insertOp at hp
    split at hp
    · rename_i os hf
      rcases mem_put hp with rfl | hp
      · rcases List.mem_append.1 ho' with h | h
        · exact hm _ (find_mem hf) o' h
        · rw [List.mem_singleton.1 h]; exact ho
      · exact hm p hp o' ho'
    · rcases mem_put hp with rfl | hp
      · rw [List.mem_singleton.1 ho']; exact ho
      · exact hm p hp o' ho'

theorem u64_i64 {n : Nat} (h : n < U64) : u64 (i64 n) = n := by
  unfold u64 i64 U64 at *
  split <;> omega

theorem u32_small {x : Int} (h0 : 0 < x) (h : x < 2147483648) : (u32 x : Int) = x ∧ u32 x < 2147483648 ∧ 0 < u32 x := by
  unfold u32; omega

theorem emit_safe {s : Store} (hs : SafeStore s) {r2 : Bool} {tip : Int} {c : Call} (hc : SafeCall c) :
    ∀ p ∈ emit s r2 tip c, SafeOp p.2 := by
  intro p hp
  cases c with
  | write u o =>
    simp only [emit] at hp
    split at hp
    · cases hp
    · rw [List.mem_singleton.1 hp]; exact hc
  | some send recv amount timeout tag =>
    obtain ⟨htag, ht, ha⟩ := hc
    simp only [emit] at hp
    split at hp
    · cases hp
    · rename_i hn
      split at hp
      · rename_i hpos
        have h2 : 0 < timeout ∧ timeout < 2147483648 := by
          unfold i32 at hpos; split at hpos <;> omega
        have h3 : ∀ k, SafeOp ⟨k, timeout, i64 amount, tag⟩ := fun k _ =>
          ⟨htag, h2.1, h2.2, by show u64 (i64 amount) ≠ 0; rw [u64_i64 ha]; omega⟩
        simp only [pairOps, List.mem_cons, List.not_mem_nil, or_false] at hp
        rcases hp with rfl | rfl <;> exact h3 _
      · simp only [pairOps, List.mem_cons, List.not_mem_nil, or_false] at hp
        rcases hp with rfl | rfl <;> (intro hk; simp at hk)
  | all send recv =>
    simp only [emit] at hp
    split at hp
    · cases hp
    · split at hp
      · cases hp
      · rename_i a ha
        have hsa := merge_safe (hs send a ha) tip
        rcases List.mem_append.1 hp with h | h
        · split at h
          · simp only [pairOps, List.mem_cons, List.not_mem_nil, or_false] at h
            rcases h with rfl | rfl <;> (intro hk; simp at hk)
          · cases h
        · obtain ⟨f, hf, h⟩ := List.mem_flatMap.1 h
          obtain ⟨v1, v2, v3, v4⟩ := hsa.funds f hf
          obtain ⟨w1, w2, w3⟩ := u32_small v3 v4
          have h3 : ∀ k, SafeOp ⟨k, u32 f.height, i64 f.value, Option.some f.tag⟩ := fun k _ =>
            ⟨⟨f.tag, rfl⟩, w3, w2, by show u64 (i64 f.value) ≠ 0; rw [u64_i64 v2]; omega⟩
          simp only [pairOps, List.mem_cons, List.not_mem_nil, or_false] at h
          rcases h with rfl | rfl <;> exact h3 _

theorem calls_no_crash {s : Store} {r2 : Bool} {tip : Int} : ∀ {cs : List Call} (m : OpMap), (∀ c ∈ cs, SafeCall c) →
    calls s r2 tip m cs ≠ .crash
  | [], m, _ => by simp [calls]
  | c :: cs, m, hc => by
    have h1 : call s r2 tip m c ≠ .crash := by
      cases c with
      | write u o => simp only [call]; split <;> simp
      | some send recv amount timeout tag =>
        obtain ⟨⟨tg, rfl⟩, _⟩ := hc _ (List.mem_cons_self ..)
        simp only [call]
        split
        · simp
        · split
          · simp
          · split
            · simp
            · split <;> simp
      | all send recv =>
        simp only [call]
        split
        · simp
        · split <;> simp
    simp only [calls]
    cases hr : call s r2 tip m c with
    | ok m' => exact calls_no_crash m' (fun c' h' => hc c' (List.mem_cons_of_mem _ h'))
    | fail => simp
    | crash => exact absurd hr h1

/-- C67, partial: contract transactions whose tag operations have a tag of at most 40 bytes, a timeout between 1 and 2^31 - 1 and
an amount other than zero never abort the node, over any sequence of them. Missing: all other operations (violated). -/
theorem contract_cannot_stop_node_partial : ∀ (xs : List Tx) (s : Store), SafeStore s → (∀ x ∈ xs, ∀ c ∈ x.calls, SafeCall c) →
    SafeStore (runs s xs) ∧ ∀ ys x zs, xs = ys ++ x :: zs → exec (runs s ys) x ≠ .crash := by
  have one : ∀ (s : Store) (x : Tx), SafeStore s → (∀ c ∈ x.calls, SafeCall c) → exec s x ≠ .crash ∧ SafeStore (after s x) := by
    intro s x hs hx
    have hk : exec s x ≠ .crash ∧ ∀ s', exec s x = .ok s' → SafeStore s' := by
      unfold exec
      have hc := calls_no_crash (s := s) (r2 := x.r2) (tip := x.tip) [] hx
      cases hr : calls s x.r2 x.tip [] x.calls with
      | crash => exact absurd hr hc
      | fail => exact ⟨by simp, fun s' h => by cases h⟩
      | ok m =>
        dsimp only
        split
        · exact ⟨by simp, fun s' h => by cases h⟩
        · refine operateMap_safe x.h hs ?_
          rw [calls_ok hr]
          refine insertAll_mem (fun p hp => by cases hp) (fun p hp => ?_)
          obtain ⟨c, hc, hp⟩ := List.mem_flatMap.1 hp
          exact emit_safe hs (hx c hc) p hp
    refine ⟨hk.1, ?_⟩
    unfold after
    cases hr : exec s x with
    | ok s' => exact hk.2 s' hr
    | fail => exact hs
    | crash => exact absurd hr hk.1
  intro xs
  induction xs with
  | nil => intro s hs _; exact ⟨hs, fun ys x zs h => by simp at h⟩
  | cons x0 xs ih =>
    intro s hs hx
    obtain ⟨h1, h2⟩ := one s x0 hs (hx x0 (List.mem_cons_self ..))
    obtain ⟨i1, i2⟩ := ih _ h2 (fun y hy => hx y (List.mem_cons_of_mem _ hy))
    refine ⟨i1, fun ys x zs h => ?_⟩
    cases ys with
    | nil =>
      simp only [List.nil_append, List.cons.injEq] at h
      rw [← h.1]; exact h1
    | cons y ys =>
      simp only [List.cons_append, List.cons.injEq] at h
      rw [← h.1]
      exact i2 ys x zs h.2

example : SafeStore (runs (fun _ => none) [noTx 5 [.write 1 ⟨3, 10, 70, some [1]⟩, .write 1 ⟨1, 0, 5, some []⟩]]) :=
  (contract_cannot_stop_node_partial _ _ (fun u a h => by cases h) (by
    intro x hx c hc
    simp only [List.mem_singleton] at hx
    subst hx
    simp only [noTx, List.mem_cons, List.not_mem_nil, or_false] at hc
    rcases hc with rfl | rfl
    · intro _; exact ⟨⟨[1], rfl⟩, by decide, by decide, by decide⟩
    · intro h; rcases h with h | h <;> cases h)).1

/-- C67 violated: locking with timeout 0 aborts the node. -/
theorem timeout_zero_stops_node_violated : exec (fun _ => none) (noTx 5 [.write 1 ⟨3, 0, 70, some [1]⟩]) = .crash := by rfl

/-- C67 violated: locking amount 0 twice under one tag and timeout aborts the node. -/
theorem amount_zero_stops_node_violated :
    exec (fun _ => none) (noTx 5 [.write 1 ⟨3, 9, 0, some [1]⟩, .write 1 ⟨3, 9, 0, some [1]⟩]) = .crash := by rfl

/-- C67 violated: unlocking with a timeout from 2^31 on aborts the node. -/
theorem late_timeout_stops_node_violated : exec (fun _ => none) (noTx 5 [.write 1 ⟨4, 2147483648, 1, some [1]⟩]) = .crash := by
  rfl

/-- C67 violated: a tag longer than 40 bytes aborts the node. -/
theorem long_tag_stops_node_violated : exec (fun _ => none) (noTx 5 [.write 1 ⟨3, 9, 1, none⟩]) = .crash := by rfl

/-! ## C68 -/

theorem ofUser_pairs_send {send recv : Nat} (hne : ¬ send = recv) (fs : List Fund) :
    ofUser send (fs.flatMap (fun f => pairOps send recv 4 3 (u32 f.height) (i64 f.value) (some f.tag))) =
      fs.map (fun f => ⟨4, u32 f.height, i64 f.value, some f.tag⟩) := by
  have hn : ¬ recv = send := fun h => hne h.symm
  induction fs with
  | nil => rfl
  | cons f fs ih =>
    unfold ofUser at ih ⊢
    rw [List.flatMap_cons, List.filter_append, List.map_append, ih]
    simp [pairOps, hn]

theorem ofUser_pairs_recv {send recv : Nat} (hne : ¬ send = recv) (fs : List Fund) :
    ofUser recv (fs.flatMap (fun f => pairOps send recv 4 3 (u32 f.height) (i64 f.value) (some f.tag))) =
      fs.map (fun f => ⟨3, u32 f.height, i64 f.value, some f.tag⟩) := by
  induction fs with
  | nil => rfl
  | cons f fs ih =>
    unfold ofUser at ih ⊢
    rw [List.flatMap_cons, List.filter_append, List.map_append, ih]
    simp [pairOps, hne]

theorem take_all_funds (free : Nat) : ∀ (fs : List Fund), (∀ f ∈ fs, 0 < f.value ∧ f.value < U64 ∧ 0 < f.height ∧ f.height < 2147483648) →
    operateAll ⟨free, fs⟩ (fs.map (fun f => ⟨4, u32 f.height, i64 f.value, some f.tag⟩)) = .ok ⟨free, []⟩
  | [], _ => rfl
  | f :: fs, h => by
    obtain ⟨v1, v2, v3, v4⟩ := h f (List.mem_cons_self ..)
    obtain ⟨w1, w2, w3⟩ := u32_small v3 v4
    have hi : i32 (u32 f.height) = f.height := by rw [i32_small w2, w1]
    have hop : operate ⟨free, f :: fs⟩ ⟨4, u32 f.height, i64 f.value, some f.tag⟩ = .ok ⟨free, fs⟩ := by
      have n1 : ¬ u32 f.height = 0 := by omega
      have n2 : ¬ f.height ≤ 0 := by omega
      simp [operate, hi, n1, n2, subFund, u64_i64 v2, Res.map]
    simp only [List.map_cons, operateAll, hop]
    exact take_all_funds free fs (fun g hg => h g (List.mem_cons_of_mem _ hg))

theorem addFund_fits {f : Fund} (hv : f.value ≠ 0) : ∀ {fs : List Fund}, allLocked fs + f.value < U64 → ∃ gs, addFund fs f = .ok gs
  | [], _ => ⟨_, rfl⟩
  | g :: fs, h => by
    simp only [allLocked] at h
    simp only [addFund]
    by_cases hk : g.tag = f.tag ∧ g.height = f.height
    · rw [if_pos hk, if_neg hv, if_pos (by omega)]; exact ⟨_, rfl⟩
    · rw [if_neg hk]
      obtain ⟨gs, hg⟩ := addFund_fits hv (fs := fs) (by omega)
      exact ⟨_, by rw [hg]; rfl⟩

theorem give_all_funds : ∀ (fs : List Fund) (b : Acct),
    (∀ f ∈ fs, 0 < f.value ∧ f.value < U64 ∧ 0 < f.height ∧ f.height < 2147483648) → total b + allLocked fs < U64 →
    ∃ c, operateAll b (fs.map (fun f => ⟨3, u32 f.height, i64 f.value, some f.tag⟩)) = .ok c
  | [], b, _, _ => ⟨b, rfl⟩
  | f :: fs, b, h, hb => by
    obtain ⟨v1, v2, v3, v4⟩ := h f (List.mem_cons_self ..)
    obtain ⟨w1, w2, w3⟩ := u32_small v3 v4
    have hi : i32 (u32 f.height) = f.height := by rw [i32_small w2, w1]
    simp only [allLocked] at hb
    obtain ⟨gs, hg⟩ := addFund_fits (f := ⟨f.tag, f.value, f.height⟩) (fs := b.funds) (by dsimp only; omega)
      (by dsimp only; unfold total at hb; omega)
    have hop : operate b ⟨3, u32 f.height, i64 f.value, some f.tag⟩ = .ok { b with funds := gs } := by
      have n1 : ¬ u32 f.height = 0 := by omega
      simp [operate, hi, n1, u64_i64 v2, hg, Res.map]
    simp only [List.map_cons, operateAll, hop]
    refine give_all_funds fs _ (fun g hg => h g (List.mem_cons_of_mem _ hg)) ?_
    have := (addFund_ok hg).2.2
    unfold total at hb ⊢
    dsimp only at this ⊢
    omega

/-- `getAcct` in a store where another user changed. -/
theorem getAcct_other {s : Store} {h : Int} {u v : Nat} (a : Acct) (hne : ¬ u = v) : getAcct (setAcct s v a) h u = getAcct s h u :=
  getAcct_congr (by simp [setAcct, hne])

theorem operateMap_all_ok (h : Int) : ∀ {m : OpMap} {s : Store}, SortedBy ltU m →
    (∀ p ∈ m, ∃ a, operateUser s h p.1 p.2 = .ok a) → ∃ s', operateMap h s m = .ok s'
  | [], s, _, _ => ⟨s, rfl⟩
  | (u, os) :: m, s, hs, hm => by
    obtain ⟨a, ha⟩ := hm (u, os) (List.mem_cons_self ..)
    rw [operateMap_cons, ha]
    have hs' := List.pairwise_cons.1 hs
    refine operateMap_all_ok h hs'.2 (fun p hp => ?_)
    obtain ⟨b, hb⟩ := hm p (List.mem_cons_of_mem _ hp)
    have hlt := hs'.1 p hp
    simp only [ltU, decide_eq_true_eq] at hlt
    refine ⟨b, ?_⟩
    unfold operateUser at hb ⊢
    rw [getAcct_other a (by omega)]; exact hb

theorem keys_insertAll {l : List (Nat × Op)} : ∀ {m : OpMap} (P : Nat → Prop), (∀ p ∈ m, P p.1) → (∀ q ∈ l, P q.1) →
    ∀ p ∈ insertAll m l, P p.1 := by
  induction l with
  | nil => intro m P h _; exact h
  | cons q l ih =>
    intro m P hm hl
    obtain ⟨u, o⟩ := q
    refine ih P (fun p hp => ?_) (fun q hq => hl q (List.mem_cons_of_mem _ hq))
    unfold insertOp at hp
    split at hp <;> rcases mem_put hp with rfl | hp
    · exact hl (u, o) (List.mem_cons_self ..)
    · exact hm p hp
    · exact hl (u, o) (List.mem_cons_self ..)
    · exact hm p hp

/-- The sender's funds seen with the old height are the ones seen with the new height when nothing is due in between. -/
theorem merge_same_heights {a : Acct} {tip h : Int} (hd : ∀ f ∈ a.funds, f.height ≤ h ↔ f.height ≤ tip) :
    autoMerge a tip = autoMerge a h := by
  have hl : ∀ (fs : List Fund) (n : Nat), (∀ f ∈ fs, f.height ≤ h ↔ f.height ≤ tip) → mergeLoop tip n fs = mergeLoop h n fs := by
    intro fs
    induction fs with
    | nil => intros; rfl
    | cons f fs ih =>
      intro n hh
      simp only [mergeLoop]
      rw [ih _ (fun g hg => hh g (List.mem_cons_of_mem _ hg)), ih _ (fun g hg => hh g (List.mem_cons_of_mem _ hg))]
      by_cases hf : f.height ≤ h
      · rw [if_pos hf, if_pos ((hh f (List.mem_cons_self ..)).1 hf)]
      · rw [if_neg hf, if_neg (fun e => hf ((hh f (List.mem_cons_self ..)).2 e))]
  have hfil : a.funds.filter (fun f => decide (¬ f.height ≤ tip)) = a.funds.filter (fun f => decide (¬ f.height ≤ h)) := by
    apply List.filter_congr
    intro f hf
    simp only [hd f hf]
  unfold autoMerge
  rw [hl _ _ hd, hfil]

theorem operateAll_append : ∀ (a : Acct) (p q : List Op), operateAll a (p ++ q) =
    match operateAll a p with
    | .ok b => operateAll b q
    | .fail => .fail
    | .crash => .crash
  | a, [], q => rfl
  | a, o :: p, q => by
    simp only [List.cons_append, operateAll]
    cases operate a o with
    | ok b => exact operateAll_append b p q
    | fail => rfl
    | crash => rfl

/-- C68, partial: transferring everything succeeds, empties the sender and gives the receiver exactly the sender's funds, when
no fund of the sender is due at just this block, the sender can be read, and the two together fit into 64 bits.
Missing: a fund due at the height of the block (violated). -/
theorem transfer_all_partial {s : Store} (hs : SafeStore s) {send recv : Nat} (hne : ¬ send = recv) {a b r : Acct} {h tip : Int}
    (ha : s send = some a) (hd : ∀ f ∈ a.funds, f.height ≤ h ↔ f.height ≤ tip)
    (hb : getAcct s h send = some b) (hr : getAcct s h recv = some r) (hfit : total r + total b < U64) (r2 : Bool) :
    ∃ s', exec s ⟨r2, tip, h, [.all send recv], false, [], 0⟩ = .ok s' ∧
      (∀ u, ¬ u = send → ¬ u = recv → s' u = s u) ∧
      ((total b = 0 ∧ s' = s) ∨ ∃ r', s' send = some empty ∧ s' recv = some r' ∧ total r' = total r + total b ∧
        (∀ H, r'.free + due r'.funds H = r.free + due r.funds H + b.free + due b.funds H) ∧
        ∀ tg ht, locked r'.funds tg ht = locked r.funds tg ht + locked b.funds tg ht) := by
  have hm : autoMerge a h = (true, b) := by
    unfold getAcct at hb
    rw [ha] at hb
    dsimp only at hb
    split at hb
    · rename_i c hc; cases hb; exact hc
    · cases hb
  have hbs := getAcct_safe hs hb
  have hrs := getAcct_safe hs hr
  have hmt : (autoMerge a tip).2 = b := by rw [merge_same_heights hd, hm]
  generalize hx : (⟨r2, tip, h, [.all send recv], false, [], 0⟩ : Tx) = x
  have hxh : x.h = h := by rw [← hx]
  have hem : emits s x = (if b.free > 0 then pairOps send recv 2 1 0 (i64 b.free) (some []) else []) ++
      b.funds.flatMap (fun f => pairOps send recv 4 3 (u32 f.height) (i64 f.value) (some f.tag)) := by
    rw [← hx]
    simp only [emits, List.flatMap_cons, List.flatMap_nil, List.append_nil, emit, hne, if_false, ha, hmt]
  have hus : ofUser send (emits s x) = (if b.free > 0 then [⟨2, 0, i64 b.free, some []⟩] else []) ++
      b.funds.map (fun f => ⟨4, u32 f.height, i64 f.value, some f.tag⟩) := by
    rw [hem, ← ofUser_pairs_send hne]
    unfold ofUser
    rw [List.filter_append, List.map_append]
    congr 1
    have hn : ¬ recv = send := fun e => hne e.symm
    split <;> simp [pairOps, hn]
  have hur : ofUser recv (emits s x) = (if b.free > 0 then [⟨1, 0, i64 b.free, some []⟩] else []) ++
      b.funds.map (fun f => ⟨3, u32 f.height, i64 f.value, some f.tag⟩) := by
    rw [hem, ← ofUser_pairs_recv hne]
    unfold ofUser
    rw [List.filter_append, List.map_append]
    congr 1
    split <;> simp [pairOps, hne]
  have hos : operateUser s h send (ofUser send (emits s x)) = .ok empty := by
    unfold operateUser
    rw [hb, hus]
    dsimp only
    rw [operateAll_append]
    have h1 : operateAll b (if b.free > 0 then [⟨2, 0, i64 b.free, some []⟩] else []) = .ok ⟨0, b.funds⟩ := by
      split
      · simp [operateAll, operate, u64_i64 hbs.free]
      · have : b.free = 0 := by omega
        obtain ⟨fr, fu⟩ := b
        simp only at this
        rw [this]; rfl
    rw [h1]
    exact take_all_funds 0 b.funds hbs.funds
  have hor : ∃ r', operateUser s h recv (ofUser recv (emits s x)) = .ok r' := by
    unfold operateUser
    rw [hr, hur]
    dsimp only
    rw [operateAll_append]
    have h1 : operateAll r (if b.free > 0 then [⟨1, 0, i64 b.free, some []⟩] else []) = .ok ⟨r.free + b.free, r.funds⟩ := by
      split
      · have : r.free + b.free < U64 := by unfold total at hfit; omega
        simp [operateAll, operate, u64_i64 hbs.free, this]
      · have : b.free = 0 := by omega
        rw [this]; rfl
    rw [h1]
    refine give_all_funds b.funds _ hbs.funds ?_
    unfold total at hfit ⊢
    dsimp only
    omega
  obtain ⟨r', hor⟩ := hor
  have hcall : calls s x.r2 x.tip [] x.calls = .ok (insertAll [] (emits s x)) := by
    have : ∃ m, calls s x.r2 x.tip [] x.calls = .ok m := by
      rw [← hx]
      simp only [calls, call, hne, if_false, ha]
      exact ⟨_, rfl⟩
    obtain ⟨m, hm⟩ := this
    rw [hm, calls_ok hm]; rfl
  have hsort : SortedBy ltU (insertAll [] (emits s x)) := insertAll_sorted (by simp [SortedBy])
  have hok : ∃ s', exec s x = .ok s' := by
    unfold exec
    rw [hcall]
    have hch : x.check = false := by rw [← hx]
    simp only [hch, Bool.false_and, Bool.false_eq_true, if_false]
    refine operateMap_all_ok x.h hsort (fun p hp => ?_)
    have hkey : p.1 = send ∨ p.1 = recv := by
      refine keys_insertAll (fun k => k = send ∨ k = recv) (by simp) ?_ p hp
      intro q hq
      rw [hem] at hq
      rcases List.mem_append.1 hq with h | h
      · split at h
        · simp only [pairOps, List.mem_cons, List.not_mem_nil, or_false] at h
          rcases h with rfl | rfl <;> simp
        · cases h
      · obtain ⟨f, _, h⟩ := List.mem_flatMap.1 h
        simp only [pairOps, List.mem_cons, List.not_mem_nil, or_false] at h
        rcases h with rfl | rfl <;> simp
    have hfind : find (insertAll [] (emits s x)) p.1 = some p.2 := (mem_iff_find ltU_total hsort p.1 p.2).1 hp
    have hops := insertAll_find (l := emits s x) [] p.1
    rw [hfind] at hops
    simp only [Option.getD_some, find_nil, Option.getD_none, List.nil_append] at hops
    rw [hops, hxh]
    rcases hkey with e | e
    · rw [e]; exact ⟨_, hos⟩
    · rw [e]; exact ⟨_, hor⟩
  obtain ⟨s', hs'⟩ := hok
  refine ⟨s', hs', fun u hu1 hu2 => ?_, ?_⟩
  · rcases exec_user hs' u with ⟨_, h2⟩ | ⟨hc, _⟩
    · exact h2
    · exfalso
      apply hc
      rw [hem]
      have n1 : ¬ send = u := fun e => hu1 e.symm
      have n2 : ¬ recv = u := fun e => hu2 e.symm
      unfold ofUser
      rw [List.map_eq_nil_iff, List.filter_eq_nil_iff]
      intro q hq
      rcases List.mem_append.1 hq with h | h
      · split at h
        · simp only [pairOps, List.mem_cons, List.not_mem_nil, or_false] at h
          rcases h with rfl | rfl <;> simp [n1, n2]
        · cases h
      · obtain ⟨f, _, h⟩ := List.mem_flatMap.1 h
        simp only [pairOps, List.mem_cons, List.not_mem_nil, or_false] at h
        rcases h with rfl | rfl <;> simp [n1, n2]
  · rw [← hxh] at hos hor
    rcases exec_user hs' send with ⟨h1, h2⟩ | ⟨h1, c, hc, h2⟩
    · left
      rw [hus] at h1
      obtain ⟨q1, q2⟩ := List.append_eq_nil_iff.1 h1
      have hb0 : ¬ b.free > 0 := by
        intro hp; rw [if_pos hp] at q1; cases q1
      have hf0 : b.funds = [] := List.map_eq_nil_iff.1 q2
      refine ⟨by unfold total; rw [hf0]; simp only [allLocked]; omega, funext fun u => ?_⟩
      rcases exec_user hs' u with ⟨_, h3⟩ | ⟨h3, _⟩
      · exact h3
      · exfalso; apply h3
        rw [hem, hf0, if_neg hb0]; rfl
    · right
      rw [hos] at hc
      cases hc
      have hrne : ofUser recv (emits s x) ≠ [] := by
        rw [hus] at h1
        rw [hur]
        intro e
        obtain ⟨q1, q2⟩ := List.append_eq_nil_iff.1 e
        apply h1
        have hf0 : b.funds = [] := List.map_eq_nil_iff.1 q2
        by_cases hp : b.free > 0
        · rw [if_pos hp] at q1; cases q1
        · rw [if_neg hp, hf0]; rfl
      rcases exec_user hs' recv with ⟨h3, _⟩ | ⟨_, c, hc, h3⟩
      · exact absurd h3 hrne
      · rw [hor] at hc
        cases hc
        refine ⟨r', h2, h3, ?_⟩
        unfold operateUser at hor hos
        rw [hxh, hr] at hor
        rw [hxh, hb] at hos
        dsimp only at hor hos
        obtain ⟨a1, a2, a3⟩ := operateAll_ok hor
        obtain ⟨b1, b2, b3⟩ := operateAll_ok hos
        have opp : ∀ f : Op → Int, (∀ v, f ⟨1, 0, v, some []⟩ = - f ⟨2, 0, v, some []⟩) →
            (∀ t v g, f ⟨3, t, v, g⟩ = - f ⟨4, t, v, g⟩) →
            sumI f (ofUser recv (emits s x)) = - sumI f (ofUser send (emits s x)) := by
          intro f g1 g2
          rw [hur, hus, sumI_append, sumI_append]
          have e2 : ∀ fs : List Fund, sumI f (fs.map (fun f => ⟨3, u32 f.height, i64 f.value, some f.tag⟩)) =
              - sumI f (fs.map (fun f => ⟨4, u32 f.height, i64 f.value, some f.tag⟩)) := by
            intro fs
            induction fs with
            | nil => rfl
            | cons q fs ih => simp only [List.map_cons, sumI, ih, g2]; omega
          rw [e2]
          split
          · simp only [sumI, g1]; omega
          · simp only [sumI]; omega
        have p1 : ∀ H, sumI (dueD H) (ofUser recv (emits s x)) = - sumI (dueD H) (ofUser send (emits s x)) := fun H =>
          opp _ (fun v => by simp [dueD, freeD, lockD]) (fun t v g => by simp [dueD, freeD, lockD]; split <;> omega)
        have p2 : ∀ tg ht, sumI (keyD tg ht) (ofUser recv (emits s x)) = - sumI (keyD tg ht) (ofUser send (emits s x)) := fun tg ht =>
          opp _ (fun v => by simp [keyD, lockD]) (fun t v g => by simp [keyD, lockD]; split <;> omega)
        have p3 := opp totD (fun v => by simp [totD, freeD, lockD]) (fun t v g => by simp [totD, freeD, lockD])
        refine ⟨?_, fun H => ?_, fun tg ht => ?_⟩
        · have : (total empty : Int) = 0 := rfl
          omega
        · have c1 := a1 H
          have c2 := b1 H
          have c3 := p1 H
          have : ((empty.free : Int) + due empty.funds H) = 0 := rfl
          omega
        · have c1 := a2 tg ht
          have c2 := b2 tg ht
          have c3 := p2 tg ht
          have : (locked empty.funds tg ht : Int) = 0 := rfl
          omega

/-- The hypotheses of `transfer_all_partial` are met. -/
example :
    let s := runs (fun _ => none) [noTx 5 [.write 1 ⟨3, 10, 70, some [1]⟩, .write 1 ⟨1, 0, 5, some []⟩]]
    getAcct s 8 1 = some ⟨5, [⟨[1], 70, 10⟩]⟩ ∧ getAcct (after s (noTx 8 [.all 1 2])) 8 2 = some ⟨5, [⟨[1], 70, 10⟩]⟩ ∧
    getAcct (after s (noTx 8 [.all 1 2])) 8 1 = some empty := by decide

/-- C68 violated: when a fund of the sender is due at the height of the block, the transfer fails. -/
theorem transfer_all_violated :
    let s := runs (fun _ => none) [noTx 5 [.write 1 ⟨3, 10, 70, some [1]⟩, .write 1 ⟨1, 0, 5, some []⟩]]
    getAcct s 10 1 = some ⟨75, []⟩ ∧ exec s (noTx 10 [.all 1 2]) = .fail := by
  refine ⟨by decide, by rfl⟩

/-! ## C69 -/

/-- Signed amounts as the check adds them. -/
def signD (o : Op) : Int :=
  if o.kind = 1 ∨ o.kind = 3 then o.money else if o.kind = 2 ∨ o.kind = 4 then - o.money else 0

theorem sumOps_some : ∀ {os : List Op} {p q : Int × Int}, sumOps p os = some q → q.1 - q.2 = p.1 - p.2 + sumI signD os
  | [], p, q, h => by cases h; simp [sumI]
  | o :: os, (ad, mi), q, h => by
    simp only [sumOps] at h
    by_cases k1 : o.kind = 1 ∨ o.kind = 3
    · rw [if_pos k1] at h
      split at h
      · have := sumOps_some h
        simp only [sumI, signD, k1, if_true] at this ⊢; omega
      · cases h
    · rw [if_neg k1] at h
      by_cases k2 : o.kind = 2 ∨ o.kind = 4
      · rw [if_pos k2] at h
        split at h
        · have := sumOps_some h
          simp only [sumI, signD, k1, k2, if_true, if_false] at this ⊢; omega
        · cases h
      · rw [if_neg k2] at h
        have := sumOps_some h
        simp only [sumI, signD, k1, k2, if_false] at this ⊢; omega

theorem sumMap_some : ∀ {m : OpMap} {p q : Int × Int}, sumMap p m = some q → q.1 - q.2 = p.1 - p.2 + mapSum signD m
  | [], p, q, h => by cases h; simp [mapSum]
  | (u, os) :: m, p, q, h => by
    simp only [sumMap] at h
    split at h
    · cases h
    · rename_i r hr
      have h1 := sumOps_some hr
      have h2 := sumMap_some h
      simp only [mapSum]; omega

theorem sumPaid_some : ∀ {vs : List Nat} {acc p : Nat}, sumPaid acc vs = some p → p = acc + vs.sum
  | [], acc, p, h => by cases h; simp
  | v :: vs, acc, p, h => by
    simp only [sumPaid] at h
    split at h
    · cases h
    · split at h
      · have := sumPaid_some h
        rw [List.sum_cons]; omega
      · cases h

/-- Funds of the users in a list. -/
def totalOf (s : Store) (S : List Nat) : Int := (S.map (fun u => (total ((s u).getD empty) : Int))).sum

theorem totalOf_set (s : Store) (u : Nat) (a : Acct) : ∀ {S : List Nat}, S.Nodup →
    totalOf (setAcct s u a) S = totalOf s S + if u ∈ S then (total a : Int) - total ((s u).getD empty) else 0
  | [], _ => by simp [totalOf]
  | v :: S, hn => by
    obtain ⟨hv, hn'⟩ := List.nodup_cons.1 hn
    have ih := totalOf_set s u a hn'
    unfold totalOf at ih ⊢
    simp only [List.map_cons, List.sum_cons, ih]
    by_cases hu : u = v
    · subst hu
      simp [setAcct, hv]; omega
    · have h1 : setAcct s u a v = s v := by simp [setAcct]; intro e; exact absurd e.symm hu
      rw [h1]
      by_cases hm : u ∈ S <;> simp [hm, hu] <;> omega

theorem operateMap_total (h : Int) {S : List Nat} (hn : S.Nodup) : ∀ {m : OpMap} {s s' : Store}, (∀ p ∈ m, p.1 ∈ S) →
    operateMap h s m = .ok s' → totalOf s' S = totalOf s S + mapSum totD m
  | [], s, s', _, hr => by cases hr; simp [mapSum]
  | (u, os) :: m, s, s', hm, hr => by
    rw [operateMap_cons] at hr
    split at hr
    · rename_i a ha
      have ih := operateMap_total h hn (fun p hp => hm p (List.mem_cons_of_mem _ hp)) hr
      rw [ih, totalOf_set s u a hn, if_pos (hm (u, os) (List.mem_cons_self ..))]
      unfold operateUser at ha
      cases hg : getAcct s h u with
      | none => rw [hg] at ha; cases ha
      | some b =>
        rw [hg] at ha
        dsimp only at ha
        have ht := (operateAll_ok ha).2.2
        have hb : total b = total ((s u).getD empty) := by
          unfold getAcct at hg
          cases hs : s u with
          | none => rw [hs] at hg; cases hg; rfl
          | some a0 =>
            rw [hs] at hg
            dsimp only at hg
            split at hg
            · rename_i a1 hm1; cases hg; exact (autoMerge_facts hm1).2.2.1
            · cases hg
        simp only [mapSum]
        omega
    · cases hr
    · cases hr

/-- Calls with amounts in the range of their types. -/
def InRange : Call → Prop
  | .write _ o => -9223372036854775808 ≤ o.money ∧ o.money < 9223372036854775808
  | _ => True

theorem emit_sums {s : Store} {tip : Int} {c : Call} (hc : InRange c) :
    sumI totD ((emit s true tip c).map (·.2)) = sumI signD ((emit s true tip c).map (·.2)) := by
  have pair : ∀ (send recv sub add timeout : Nat) (money : Int) (tag : Option (List Nat)),
      (sub = 4 ∧ add = 3 ∨ sub = 2 ∧ add = 1) →
      sumI totD ((pairOps send recv sub add timeout money tag).map (·.2)) = 0 ∧
      sumI signD ((pairOps send recv sub add timeout money tag).map (·.2)) = 0 := by
    intro send recv sub add timeout money tag hk
    rcases hk with ⟨rfl, rfl⟩ | ⟨rfl, rfl⟩ <;> simp [pairOps, sumI, totD, freeD, lockD, signD]
  cases c with
  | write u o =>
    simp only [emit]
    split
    · rfl
    · rename_i hn
      have h0 : 0 ≤ o.money := by simp only [true_and] at hn; omega
      have hu : (u64 o.money : Int) = o.money := by
        unfold InRange at hc; unfold u64; omega
      simp only [List.map_cons, List.map_nil, sumI, totD, freeD, lockD, signD, hu]
      by_cases k1 : o.kind = 1
      · simp [k1]
      by_cases k2 : o.kind = 2
      · simp [k2]
      by_cases k3 : o.kind = 3
      · simp [k3]
      by_cases k4 : o.kind = 4
      · simp [k4]
      simp [k1, k2, k3, k4]
  | some send recv amount timeout tag =>
    simp only [emit]
    split
    · rfl
    · split
      · rw [(pair _ _ _ _ _ _ _ (Or.inl ⟨rfl, rfl⟩)).1, (pair _ _ _ _ _ _ _ (Or.inl ⟨rfl, rfl⟩)).2]
      · rw [(pair _ _ _ _ _ _ _ (Or.inr ⟨rfl, rfl⟩)).1, (pair _ _ _ _ _ _ _ (Or.inr ⟨rfl, rfl⟩)).2]
  | all send recv =>
    simp only [emit]
    split
    · rfl
    · split
      · rfl
      · rename_i a _
        have fl : ∀ fs : List Fund,
            sumI totD ((fs.flatMap (fun f => pairOps send recv 4 3 (u32 f.height) (i64 f.value) (some f.tag))).map (·.2)) = 0 ∧
            sumI signD ((fs.flatMap (fun f => pairOps send recv 4 3 (u32 f.height) (i64 f.value) (some f.tag))).map (·.2)) = 0 := by
          intro fs
          induction fs with
          | nil => exact ⟨rfl, rfl⟩
          | cons f fs ih =>
            obtain ⟨q1, q2⟩ := pair send recv 4 3 (u32 f.height) (i64 f.value) (some f.tag) (Or.inl ⟨rfl, rfl⟩)
            rw [List.flatMap_cons, List.map_append, sumI_append, sumI_append, q1, q2, ih.1, ih.2]
            exact ⟨rfl, rfl⟩
        obtain ⟨f1, f2⟩ := fl (autoMerge a tip).2.funds
        rw [List.map_append, sumI_append, sumI_append, f1, f2]
        split
        · rw [(pair _ _ _ _ _ _ _ (Or.inr ⟨rfl, rfl⟩)).1, (pair _ _ _ _ _ _ _ (Or.inr ⟨rfl, rfl⟩)).2]
        · rfl

/-- C69, partial: from the second fork on, a successful checked contract run changes the users' funds in total by exactly what
was sent to the contract less what the contract account paid out. Missing: payments of 2^63 or more in total, and the time
before the second fork (both violated). -/
theorem checked_run_is_backed_partial {s s' : Store} {x : Tx} (hx : exec s x = .ok s') (hr : x.r2 = true) (hc : x.check = true)
    (hin : ∀ c ∈ x.calls, InRange c) (ht : x.transfer < 9223372036854775808) (hp : x.paid.sum < 9223372036854775808)
    {S : List Nat} (hn : S.Nodup) (hS : ∀ p ∈ emits s x, p.1 ∈ S) :
    totalOf s' S = totalOf s S + x.transfer - x.paid.sum := by
  unfold exec at hx
  split at hx
  · cases hx
  · cases hx
  · rename_i m hm
    have hm' := calls_ok hm
    rw [hc] at hx
    split at hx
    · cases hx
    · rename_i hck
      have hck' : checkSum m x.paid x.transfer = true := by simpa using hck
      have hsort : SortedBy ltU ([] : OpMap) := by simp [SortedBy]
      have hkeys : ∀ p ∈ m, p.1 ∈ S := by
        rw [hm']
        exact keys_insertAll (fun k => k ∈ S) (by simp) hS
      have hsum : mapSum totD m = mapSum signD m := by
        rw [hm', insertAll_sum totD hsort, insertAll_sum signD hsort]
        simp only [mapSum]
        congr 1
        clear hS hm' hm
        generalize x.calls = cs at *
        rw [hr]
        induction cs with
        | nil => rfl
        | cons c cs ih =>
          rw [List.flatMap_cons, List.map_append, sumI_append, sumI_append, emit_sums (hin c (List.mem_cons_self ..)),
            ih (fun c' h' => hin c' (List.mem_cons_of_mem _ h'))]
      rw [operateMap_total x.h hn hkeys hx, hsum]
      unfold checkSum at hck'
      split at hck'
      · cases hck'
      · rename_i ad mi hs1
        have h1 := sumMap_some hs1
        split at hck'
        · split at hck'
          · cases hck'
          · rename_i p hs2
            have h2 := sumPaid_some hs2
            split at hck'
            · simp only [decide_eq_true_eq] at hck'
              have e1 : i64 x.transfer = x.transfer := by unfold i64; rw [if_pos ht]
              have e2 : i64 p = p := by unfold i64; rw [if_pos (by omega)]
              rw [e1, e2] at hck'
              dsimp only at h1
              omega
            · cases hck'
        · cases hck'

/-- A checked run: 100 sent to the contract, credited to two users. -/
example :
    let x : Tx := ⟨true, 4, 5, [.write 1 ⟨1, 0, 60, some []⟩, .write 2 ⟨3, 9, 40, some []⟩], true, [], 100⟩
    totalOf (after (fun _ => none) x) [1, 2] = 100 ∧
    totalOf (after (fun _ => none) { x with transfer := 99 }) [1, 2] = 0 := by decide

/-- C69 violated before the second fork: a negative amount is credited as a huge one, while the check adds it as negative. -/
theorem negative_amount_violated :
    let x : Tx := ⟨false, 4, 5, [.write 1 ⟨1, 0, -1, some []⟩, .write 2 ⟨1, 0, 1, some []⟩], true, [], 0⟩
    totalOf (after (fun _ => none) x) [1, 2] = 18446744073709551616 := by decide

/-- C69 violated: the contract account pays to itself until the sum of payments passes 2^63; the check then reads the sum as
negative, and credits appear from nothing. -/
theorem large_payments_violated :
    let x : Tx := ⟨true, 4, 5, [.write 1 ⟨1, 0, 4611686018427387904, some []⟩], true,
      [4611686018427387904, 4611686018427387904, 4611686018427387904], 0⟩
    totalOf (after (fun _ => none) x) [1] = 4611686018427387904 := by decide

end Verif.AppAcc
