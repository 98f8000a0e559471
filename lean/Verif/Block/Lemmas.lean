import Verif.Block.Model

/-! # Helper lemmas for block connection -/
namespace Verif.Block

open Verif.Account Verif.Ledger

/-- Sum of `f` over the transactions paying fees in coin `s`. -/
def sumSym (s : Sym) (f : Tx → Nat) : List Tx → Nat
  | [] => 0
  | t :: ts => (if t.feeSym = s then f t else 0) + sumSym s f ts

/-- Sum of `f` over all transactions. -/
def sumAll (f : Tx → Nat) : List Tx → Nat
  | [] => 0
  | t :: ts => f t + sumAll f ts

theorem connectTxs_cons {a a' : Acc} {t : Tx} {ts : List Tx} (h : connectTxs a (t :: ts) = .ok a') :
    ∃ a1, connectTx a t = .ok a1 ∧ connectTxs a1 ts = .ok a' := by
  simp only [connectTxs] at h
  cases h1 : connectTx a t with
  | ok a1 => rw [h1] at h; exact ⟨a1, rfl, h⟩
  | reject => rw [h1] at h; cases h
  | crash => rw [h1] at h; cases h

theorem connectTx_ok {a a' : Acc} {t : Tx} (h : connectTx a t = .ok a') :
    execTx a.mem t = some a'.mem ∧ (t.feeSym = "WICC" ∨ t.feeSym = "WUSD") ∧ t.fuelFee ≤ t.fees ∧
    a'.totalFuelFee = wadd a.totalFuelFee t.fuelFee ∧
    a'.wicc = wadd a.wicc (if t.feeSym = "WICC" then t.fees - t.fuelFee else 0) % U64 ∧
    a'.wusd = wadd a.wusd (if t.feeSym = "WUSD" then t.fees - t.fuelFee else 0) % U64 ∧
    a'.totalFuel ≤ MAX_BLOCK_FUEL ∨ ¬ (a.wicc < U64 ∧ a.wusd < U64) := by
  by_cases hb : a.wicc < U64 ∧ a.wusd < U64
  case neg => exact Or.inr hb
  left
  unfold connectTx at h
  split at h
  · cases h
  rename_i m hm
  simp only at h
  split at h
  · cases h
  rename_i hf
  split at h
  · cases h
  rename_i hs
  split at h
  · cases h
  rename_i hle
  have hfees : t.fees < U64 := by
    unfold Tx.fees wadd; exact Nat.mod_lt _ (by unfold U64; omega)
  have hw : wsub t.fees t.fuelFee = t.fees - t.fuelFee := wsub_eq (by omega) hfees
  have hsym : t.feeSym = "WICC" ∨ t.feeSym = "WUSD" := by
    by_cases h1 : t.feeSym = "WICC"
    · exact Or.inl h1
    · by_cases h2 : t.feeSym = "WUSD"
      · exact Or.inr h2
      · exact absurd ⟨h1, h2⟩ hs
  have hz : ∀ x, x < U64 → wadd x 0 % U64 = x := by
    intro x hx; unfold wadd; simp [Nat.mod_eq_of_lt hx]
  have hmm : ∀ x y, wadd x y % U64 = wadd x y := by
    intro x y; unfold wadd; simp
  rcases hsym with e | e
  · have e2 : t.feeSym ≠ "WUSD" := by rw [e]; decide
    rw [if_pos e] at h
    cases h
    refine ⟨hm, Or.inl e, by omega, rfl, ?_, ?_, by simp only; omega⟩
    · simp only [e, if_true, hw, hmm]
    · simp only [e2, if_false]; rw [hz _ hb.2]
  · have e2 : t.feeSym ≠ "WICC" := by rw [e]; decide
    rw [if_neg e2] at h
    cases h
    refine ⟨hm, Or.inr e, by omega, rfl, ?_, ?_, by simp only; omega⟩
    · simp only [e2, if_false]; rw [hz _ hb.1]
    · simp only [e, if_true, hw, hmm]

/-- Exact modular totals after the transaction loop. -/
theorem connectTxs_totals {a a' : Acc} {ts : List Tx} (h : connectTxs a ts = .ok a')
    (h1 : a.wicc < U64) (h2 : a.wusd < U64) (h3 : a.totalFuelFee < U64) :
    a'.wicc = (a.wicc + sumSym "WICC" (fun t => t.fees - t.fuelFee) ts) % U64 ∧
    a'.wusd = (a.wusd + sumSym "WUSD" (fun t => t.fees - t.fuelFee) ts) % U64 ∧
    a'.totalFuelFee = (a.totalFuelFee + sumAll (fun t => t.fuelFee) ts) % U64 ∧
    (∀ t ∈ ts, t.fuelFee ≤ t.fees ∧ (t.feeSym = "WICC" ∨ t.feeSym = "WUSD")) := by
  induction ts generalizing a with
  | nil =>
    simp only [connectTxs] at h; cases h
    simp [sumSym, sumAll, Nat.mod_eq_of_lt h1, Nat.mod_eq_of_lt h2, Nat.mod_eq_of_lt h3]
  | cons t ts ih =>
    obtain ⟨a1, e1, e2⟩ := connectTxs_cons h
    rcases connectTx_ok e1 with ⟨_, hs, hle, hff, hw, hu, _⟩ | hbad
    swap
    · exact absurd ⟨h1, h2⟩ hbad
    have hpos : 0 < U64 := by unfold U64; omega
    obtain ⟨i1, i2, i3, i4⟩ := ih e2 (by rw [hw]; exact Nat.mod_lt _ hpos) (by rw [hu]; exact Nat.mod_lt _ hpos)
      (by rw [hff]; unfold wadd; exact Nat.mod_lt _ hpos)
    refine ⟨?_, ?_, ?_, ?_⟩
    · rw [i1, hw]; simp only [sumSym, wadd, Nat.mod_mod, Nat.mod_add_mod]; congr 1; omega
    · rw [i2, hu]; simp only [sumSym, wadd, Nat.mod_mod, Nat.mod_add_mod]; congr 1; omega
    · rw [i3, hff]; simp only [sumAll, wadd, Nat.mod_mod, Nat.mod_add_mod]; congr 1; omega
    · intro t' ht'
      rcases List.mem_cons.mp ht' with rfl | ht'
      · exact ⟨hle, hs⟩
      · exact i4 t' ht'

theorem connect_ok {c c' : Chain} {b : Blk} (h : connect c b = .ok c') :
    ∃ a m1 m2, connectTxs ⟨c.mem, 0, 0, 0, 0⟩ b.txs = .ok a ∧ checkReward b a = true ∧ b.extra a.mem = some m1 ∧
      payMature m1 b c.blocks = some m2 ∧ c' = { c with blocks := (b, m2) :: c.blocks } := by
  unfold connect at h
  split at h
  · cases h
  · cases h
  rename_i a ha
  split at h
  · rename_i hc
    split at h
    · cases h
    rename_i m1 hm1
    split at h
    · cases h
    rename_i m2 hm2
    cases h
    exact ⟨a, m1, m2, ha, hc, hm1, hm2, rfl⟩
  · cases h

/-- Run the transactions of a block, nothing else. -/
def execTxs : Mem → List Tx → Option Mem
  | m, [] => some m
  | m, t :: ts => match execTx m t with
    | none => none
    | some m' => execTxs m' ts

theorem connectTxs_mem {a a' : Acc} {ts : List Tx} (h : connectTxs a ts = .ok a') :
    execTxs a.mem ts = some a'.mem := by
  induction ts generalizing a with
  | nil => simp only [connectTxs] at h; cases h; rfl
  | cons t ts ih =>
    obtain ⟨a1, e1, e2⟩ := connectTxs_cons h
    have : execTx a.mem t = some a1.mem := by
      unfold connectTx at e1
      split at e1
      · cases e1
      rename_i m hm
      simp only at e1
      split at e1
      · cases e1
      split at e1
      · cases e1
      split at e1
      · cases e1
      split at e1 <;> (cases e1; exact hm)
    simp only [execTxs, this]
    exact ih e2

/-- Requests of a reward payment. -/
def rewardReqs (b : Blk) : List Req :=
  match b.reward with
  | .legacy v => [⟨b.miner, "WICC", .addFree, v, none⟩]
  | .ucoin fees infl => fees.map (fun p => ⟨b.miner, p.1, .addFree, p.2, none⟩) ++ [⟨b.miner, "WICC", .addFree, infl, none⟩]

theorem payFees_execAll {miner : Ref} {m m' : Mem} {l : List (Sym × Nat)} (h : payFees miner m l = some m') :
    execAll m (l.map (fun p => ⟨miner, p.1, .addFree, p.2, none⟩)) = some m' := by
  induction l generalizing m with
  | nil => simpa [payFees, execAll] using h
  | cons p l ih =>
    obtain ⟨s, v⟩ := p
    simp only [payFees] at h
    split at h
    · split at h
      · cases h
      · rename_i m1 h1
        exact execAll_of_opBal h1 (ih h)
    · cases h

theorem payReward_execAll {m m' : Mem} {b : Blk} (h : payReward m b = some m') :
    execAll m (rewardReqs b) = some m' := by
  unfold payReward at h
  unfold rewardReqs
  cases hb : b.reward with
  | legacy v => rw [hb] at h; exact execAll_one h
  | ucoin fees infl =>
    rw [hb] at h
    simp only at h
    split at h
    · cases h
    · rename_i m1 h1
      exact execAll_trans (payFees_execAll h1) (execAll_one h)

end Verif.Block
