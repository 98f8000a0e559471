import Verif.Wasm.Tables

/-! Transactions for the examples and the witnesses. -/
namespace Verif.Wasm

open Verif.Account Verif.Ledger
open Verif.Asset (natives WICC MAX)

/-- The number with height `h` and index `i`. -/
def num (h i : Nat) : Nat := h * 2 ^ 20 + i

def ann : Nat := num 1 1
def bob : Nat := num 1 2
def payOnce : Nat := num 2 1
def relay : Nat := num 2 2
def grabber : Nat := num 2 3
def voter : Nat := num 2 4

/-- Four programs. 1: pays Bob, once, and leaves a mark. 2: notifies `grabber`. 3: when notified of an action, issues one to itself with the
same permissions. 4: passes votes and rewards on. -/
def prog (code : List Nat) (σ : State) (recv : Nat) (a : Act) : Option (List Host) :=
  match code with
  | [1] =>
    if recv ≠ a.contract then some []
    else if (σ.data (RegId.ofInt recv) (recv, [0])).isSome then none
    else some [.store [0] [1], .inline ⟨bank, nm "transfer", [⟨recv, codePerm⟩], [recv, bob, 100]⟩]
  | [2] => some [.notify grabber]
  | [3] => some (if recv = a.contract then [] else [.inline ⟨recv, nm "grab", a.auth, []⟩])
  | [4] =>
    if a.action = nm "on_mint" then some []
    else some [.inline ⟨voting, a.action, [⟨recv, codePerm⟩], a.data⟩]
  | _ => none

def dec0 : Dec where
  xfer := fun | [a, b, v] => some ⟨a, b, "WICC", v, true, true⟩ | _ => none
  issue := fun _ => none
  mint := fun _ => none
  upd := fun _ => none
  code := fun | [c, m, k] => some ⟨c, m, [k], [1]⟩ | _ => none
  coder := fun | [c, m] => some ⟨c, m⟩ | _ => none
  vote := fun | [c, v] => some ⟨c, v, true⟩ | _ => none
  rew := fun | [d] => some ⟨d, true⟩ | _ => none

/-- The fifth transaction of block 50, paid by Ann. -/
def w0 : World where
  vm := prog
  dec := dec0
  env := Asset.env0
  cord := ⟨50, 5⟩
  keyOf := fun _ => 9
  payer := 1
  payerReg := ⟨1, 1⟩
  voteContract := voter
  size := fun _ => 40
  onMint := fun a b _ => [a, b]

/-- Account 9 is the one a contract deployed now would get. -/
def acc1 : Finset Ref := {1, 2, 3, 4, 5, 6, 9}

def regs : List (RegId × Ref) := [(⟨1, 1⟩, 1), (⟨1, 2⟩, 2), (⟨2, 1⟩, 3), (⟨2, 2⟩, 4), (⟨2, 3⟩, 5), (⟨2, 4⟩, 6)]

def find {α β : Type} [DecidableEq α] : List (α × β) → α → Option β
  | [], _ => none
  | (a, b) :: l, x => if x = a then some b else find l x

theorem find_mem {α β : Type} [DecidableEq α] {l : List (α × β)} {x : α} {y : β} (h : find l x = some y) : (x, y) ∈ l := by
  induction l with
  | nil => cases h
  | cons a l ih =>
    obtain ⟨a, b⟩ := a
    simp only [find] at h
    split at h
    · rename_i e; cases h; rw [e]; exact List.mem_cons_self
    · exact List.mem_cons_of_mem _ (ih h)

/-- An account new to the state is as `CAccount` makes it. -/
def books0 : Asset.State :=
  { Asset.g0 with mem := fun r => if r ≤ 6 then Asset.g0.mem r else newAccount r }

def codes : List (RegId × Contract) :=
  [(⟨2, 1⟩, ⟨⟨1, 2⟩, true, [1], [1]⟩), (⟨2, 2⟩, ⟨⟨1, 2⟩, false, [2], [1]⟩), (⟨2, 3⟩, ⟨⟨0, 0⟩, true, [3], [1]⟩), (⟨2, 4⟩, ⟨⟨2, 4⟩, true, [4], [1]⟩)]

/-- Ann, Bob and four contracts, with ten million WICC each; 700 in rewards to be minted. -/
def s0 : State where
  books := books0
  reg := find regs
  regOf := fun k => (regs.find? (fun p => p.2 = k)).elim ⟨0, 0⟩ (·.1)
  pub := fun k => decide (k ≤ 2)
  contracts := find codes
  data := fun _ _ => none
  index := fun _ => false
  reward := ⟨10, 700, 0, 0, 0⟩
  fuel := 0
  recips := 0
  log := []
  evs := []

def tx0 (acts : List Act) : Tx := ⟨[], fun _ _ => false, acts, 100000000, 1000, 1, 500⟩

/-- Ann calls a contract with her authority. -/
def call (c : Nat) (f : String) (data : List Nat) : Act := ⟨c, nm f, [⟨ann, 0⟩], data⟩

/-- Balances of WICC, votes, and the trace as pairs of receiver and depth. -/
def view (σ : State) (r : Ref) : Nat × Nat := (bal σ.books.mem r "WICC" .free, votes σ r)

def trace (σ : State) : List (Nat × Nat) := σ.log.map (fun e => (e.recv, e.depth))

def tx1 : Tx := tx0 [call payOnce "pay" [], call voter "vote" [bob, 30], call voter "mintrewards" [ann], call bank "transfer" [ann, bob, 7]]

/-! ## The demo state is as the theorems assume -/

theorem find_reg {r : RegId} {k : Ref} (h : find regs r = some k) : k ∈ acc1 ∧ k ≠ 9 := by
  have h := find_mem h
  simp only [regs, List.mem_cons, Prod.mk.injEq, List.not_mem_nil, or_false] at h
  rcases h with ⟨_, rfl⟩ | ⟨_, rfl⟩ | ⟨_, rfl⟩ | ⟨_, rfl⟩ | ⟨_, rfl⟩ | ⟨_, rfl⟩ <;> decide

theorem lookup0 {v : Nat} {r : Ref} (h : lookup w0 s0 v = some r) : find regs (RegId.ofInt v) = some r := by
  unfold lookup at h
  split at h
  · rename_i hc
    cases h
    have : RegId.ofInt v = ⟨1, 1⟩ := by
      have := hc
      simp only [Bool.and_eq_true, decide_eq_true_eq] at this
      exact this.2
    rw [this]
    rfl
  · exact h

theorem bal_books0 (r : Ref) (s : Sym) (b : Bucket) : bal books0.mem r s b = bal Asset.g0.mem r s b := by
  unfold books0
  by_cases h : r ≤ 6
  · unfold bal Account.token
    dsimp only
    rw [if_pos h]
  · rw [Asset.bal_g0, if_neg]
    · unfold bal Account.token
      dsimp only
      rw [if_neg h]
      rfl
    · rintro ⟨_, h2, _⟩
      apply h
      simp only [List.mem_cons, List.not_mem_nil, or_false] at h2
      rcases h2 with rfl | rfl | rfl | rfl | rfl | rfl <;> decide

theorem inv0 : Asset.Inv acc1 books0 := by
  refine Asset.genesis_inv ⟨fun r s b => ?_, Asset.genesis0.assets, fun s hs => ?_, fun _ => rfl, fun _ => rfl, rfl⟩
  · rw [bal_books0]; exact Asset.genesis0.wf r s b
  · have : s ≠ "WICC" := by rintro rfl; exact hs (by decide)
    simp [total, holding, bal_books0, Asset.bal_g0, this]

theorem setup0 : Setup w0 acc1 := by
  refine ⟨⟨by decide, by decide, by decide, by decide, by decide, fun f h => (by cases h), by decide, by decide, by decide⟩, by decide,
    fun v hv => ?_⟩
  rcases native_cases hv with rfl | rfl | rfl <;> decide

theorem native0 : NoNative w0 s0 := by
  intro v hv
  rcases native_cases hv with rfl | rfl | rfl <;> rfl

theorem sound0 : Sound w0 acc1 s0 := by
  refine ⟨inv0, fun v r h => (find_reg (lookup0 h)).1, fun _ => ⟨rfl, fun v h => ?_⟩, native0⟩
  exact (find_reg (lookup0 h)).2 rfl

/-- WICC in the demo state, with what is still to be minted. -/
def coins0 (s : Sym) : Nat := total books0.mem s acc1 + pending s0 s

theorem coins0_bound : ∀ s ∈ natives, coins0 s < U64 := by decide +kernel

end Verif.Wasm
