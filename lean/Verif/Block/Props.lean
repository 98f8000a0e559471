import Verif.Block.Lemmas

/-!
# C52, C53, C61: block rewards

`Verif.Block.Model` is `ConnectBlock` seen from the balances.
-/
namespace Verif.Block

open Verif.Account Verif.Ledger

/-! ## Every reachable chain is built by successful connections -/

inductive Built (g : Mem) : List (Blk × Mem) → Prop where
  | nil : Built g []
  | cons {l : List (Blk × Mem)} {b : Blk} {m : Mem} (h : Built g l)
      (hc : connect ⟨g, l⟩ b = .ok ⟨g, (b, m) :: l⟩) : Built g ((b, m) :: l)

theorem built_tail {g : Mem} {l : List (Blk × Mem)} (h : Built g l) : Built g l.tail := by
  cases h with
  | nil => exact .nil
  | cons h _ => exact h

theorem run_built {c c' : Chain} {cmds : List Cmd} (h : run c cmds = some c') (hb : Built c.genesis c.blocks) :
    c'.genesis = c.genesis ∧ Built c.genesis c'.blocks := by
  induction cmds generalizing c with
  | nil => simp only [run, Option.some.injEq] at h; subst h; exact ⟨rfl, hb⟩
  | cons x xs ih =>
    simp only [run] at h
    split at h
    · cases h
    rename_i c1 h1
    cases x with
    | disconnect =>
      simp only [apply, disconnect, Option.some.injEq] at h1
      subst h1
      have := ih h (built_tail hb)
      exact this
    | connect b =>
      simp only [apply] at h1
      split at h1
      · rename_i c2 h2
        simp only [Option.some.injEq] at h1
        subst h1
        obtain ⟨a, m1, m2, _, _, _, _, rfl⟩ := connect_ok h2
        have := ih h (.cons hb h2)
        exact this
      · simp only [Option.some.injEq] at h1
        subst h1
        exact ih h hb
      · cases h1

/-! ## C53: what an accepted block claims -/

/-- An accepted block with a multi-coin reward transaction claims, for each fee coin, the fees of its
transactions less their fuel fees, no transaction's fuel fee exceeds its fee, and the header's fuel fee
(as the code reads it, 32 bits) is the sum of the fuel fees.  `hW`, `hU`, `hF`: the sums themselves fit in
64 bits. -/
theorem reward_equals_fees_partial {c c' : Chain} {b : Blk} (h : connect c b = .ok c')
    {fees : List (Sym × Nat)} {infl : Nat} (hr : b.reward = .ucoin fees infl) (ht : b.testnetEarly = false)
    (hW : ∀ s, sumSym s Tx.fees b.txs < U64) (hF : sumAll (fun t => t.fuelFee) b.txs < U64) :
    (∀ t ∈ b.txs, t.fuelFee ≤ t.fees) ∧
    (∃ x y, fees = [("WICC", x), ("WUSD", y)] ∧
      x + sumSym "WICC" (fun t => t.fuelFee) b.txs = sumSym "WICC" Tx.fees b.txs ∧
      y + sumSym "WUSD" (fun t => t.fuelFee) b.txs = sumSym "WUSD" Tx.fees b.txs) ∧
    infl = b.profits ∧
    sumAll (fun t => t.fuelFee) b.txs = b.headerFuelFee % 2 ^ 32 ∧
    (b.headerFuelFee < 2 ^ 32 → b.headerFuelFee = sumAll (fun t => t.fuelFee) b.txs) ∧
    sumAll (fun t => t.fuelFee) b.txs =
      sumSym "WICC" (fun t => t.fuelFee) b.txs + sumSym "WUSD" (fun t => t.fuelFee) b.txs := by
  obtain ⟨a, m1, m2, ha, hc, _, _, _⟩ := connect_ok h
  have hpos : 0 < U64 := by unfold U64; omega
  obtain ⟨t1, t2, t3, t4⟩ := connectTxs_totals ha hpos hpos hpos
  simp only [Nat.zero_add] at t1 t2 t3
  unfold checkReward at hc
  rw [hr] at hc
  simp only [ht, Bool.false_or, Bool.and_eq_true, decide_eq_true_eq] at hc
  have hsplit : ∀ s, ∀ ts : List Tx, (∀ t ∈ ts, t.fuelFee ≤ t.fees) →
      sumSym s (fun t => t.fees - t.fuelFee) ts + sumSym s (fun t => t.fuelFee) ts = sumSym s Tx.fees ts := by
    intro s ts
    induction ts with
    | nil => intro; rfl
    | cons t ts ih =>
      intro hh
      have h1 := ih (fun t' h' => hh t' (by simp [h']))
      have h2 := hh t (by simp)
      simp only [sumSym]
      split <;> omega
  have hle : ∀ t ∈ b.txs, t.fuelFee ≤ t.fees := fun t h' => (t4 t h').1
  have hw := hsplit "WICC" b.txs hle
  have hu := hsplit "WUSD" b.txs hle
  have w1 := hW "WICC"
  have w2 := hW "WUSD"
  rw [Nat.mod_eq_of_lt (by omega)] at t1 t2
  rw [Nat.mod_eq_of_lt hF] at t3
  have hh : sumAll (fun t => t.fuelFee) b.txs = b.headerFuelFee % 2 ^ 32 := by
    rw [← t3]; exact hc.1
  have hsum : ∀ ts : List Tx, (∀ t ∈ ts, t.feeSym = "WICC" ∨ t.feeSym = "WUSD") →
      sumAll (fun t => t.fuelFee) ts = sumSym "WICC" (fun t => t.fuelFee) ts + sumSym "WUSD" (fun t => t.fuelFee) ts := by
    intro ts
    induction ts with
    | nil => intro; rfl
    | cons t ts ih =>
      intro hh
      have h1 := ih (fun t' h' => hh t' (by simp [h']))
      have h2 := hh t (by simp)
      have hn : ¬ ("WICC" = "WUSD") := by decide
      simp only [sumSym, sumAll]
      rcases h2 with e | e
      · rw [e]; simp only [if_true, if_neg hn]; omega
      · rw [e]; simp only [if_true, if_neg (fun hh => hn (Eq.symm hh))]; omega
  refine ⟨hle, ⟨a.wicc, a.wusd, hc.2.1, by rw [t1]; exact hw, by rw [t2]; exact hu⟩, hc.2.2, hh, ?_,
    hsum b.txs (fun t h' => (t4 t h').2)⟩
  intro hlt
  rw [hh, Nat.mod_eq_of_lt hlt]

/-! ### Witnesses -/

/-- Every account holds 1000 WICC and 1000 WUSD. -/
def m0 : Mem := fun r =>
  ⟨r, fun s => if s = "WICC" ∨ s = "WUSD" then some (fun b => if b = .free then 1000 else 0) else none, 0, 0⟩

def tx0 (s : Sym) (fee fuelFee : Nat) : Tx :=
  { charged := true, payer := 1, feeSym := s, fee := fee, opFee := 0, opPayer := 1, fuel := 5, fuelFee := fuelFee,
    body := some }

def blk0 (header : Nat) (r : Reward) (txs : List Tx) : Blk :=
  { miner := 2, headerFuelFee := header, reward := r, txs := txs, testnetEarly := false, profits := 7, extra := some }

def accepted (o : Out Chain) : Bool := match o with | .ok _ => true | _ => false

/-- The hypotheses are met by a block with two transactions in different coins. -/
example : accepted (connect ⟨m0, []⟩ (blk0 14 (.ucoin [("WICC", 90), ("WUSD", 46)] 7) [tx0 "WICC" 100 10, tx0 "WUSD" 50 4])) = true := by
  decide

/-- A wrong claim is rejected. -/
example : accepted (connect ⟨m0, []⟩ (blk0 14 (.ucoin [("WICC", 91), ("WUSD", 46)] 7) [tx0 "WICC" 100 10, tx0 "WUSD" 50 4])) = false := by
  decide

/-- The header's fuel fee need not be the sum of the fuel fees: `GetFuelFee` drops the high 32 bits. -/
theorem header_fuel_fee_violated :
    ∃ b : Blk, accepted (connect ⟨m0, []⟩ b) = true ∧ b.headerFuelFee ≠ sumAll (fun t => t.fuelFee) b.txs :=
  ⟨blk0 (2 ^ 32 + 10) (.ucoin [("WICC", 90), ("WUSD", 0)] 7) [tx0 "WICC" 100 10], by decide, by decide⟩

/-- A block with the single-coin reward transaction is accepted although the stablecoin fees paid in it are
claimed by nobody. -/
theorem legacy_reward_violated :
    ∃ b : Blk, accepted (connect ⟨m0, []⟩ b) = true ∧ b.reward = .legacy 90 ∧
      sumSym "WUSD" (fun t => t.fees - t.fuelFee) b.txs = 46 :=
  ⟨blk0 14 (.legacy 90) [tx0 "WICC" 100 10, tx0 "WUSD" 50 4], by decide, rfl, by decide⟩

/-- For the single-coin reward transaction: the WICC part is exact. -/
theorem legacy_reward_partial {c c' : Chain} {b : Blk} (h : connect c b = .ok c') {v : Nat}
    (hr : b.reward = .legacy v) (hW : sumSym "WICC" Tx.fees b.txs < U64) :
    v + sumSym "WICC" (fun t => t.fuelFee) b.txs = sumSym "WICC" Tx.fees b.txs := by
  obtain ⟨a, m1, m2, ha, hc, _, _, _⟩ := connect_ok h
  have hpos : 0 < U64 := by unfold U64; omega
  obtain ⟨t1, t2, t3, t4⟩ := connectTxs_totals ha hpos hpos hpos
  simp only [Nat.zero_add] at t1
  unfold checkReward at hc
  rw [hr] at hc
  simp only [Bool.and_eq_true, decide_eq_true_eq] at hc
  have hsplit : ∀ ts : List Tx, (∀ t ∈ ts, t.fuelFee ≤ t.fees) →
      sumSym "WICC" (fun t => t.fees - t.fuelFee) ts + sumSym "WICC" (fun t => t.fuelFee) ts = sumSym "WICC" Tx.fees ts := by
    intro ts
    induction ts with
    | nil => intro; rfl
    | cons t ts ih =>
      intro hh
      have h1 := ih (fun t' h' => hh t' (by simp [h']))
      have h2 := hh t (by simp)
      simp only [sumSym]
      split <;> omega
  have hw := hsplit b.txs (fun t h' => (t4 t h').1)
  rw [Nat.mod_eq_of_lt (by omega)] at t1
  rw [hc.2, t1]; exact hw

example : accepted (connect ⟨m0, []⟩ (blk0 10 (.legacy 90) [tx0 "WICC" 100 10])) = true := by decide

/-! ## C52: each reward is paid once, when it has the maturity number of successors -/

/-- What happens to the balances, in order, on a chain with tip height `n` (spec). -/
inductive Ev where
  /-- run the transactions of the block at this height -/
  | exec (h : Nat)
  /-- pay the reward of the block at this height -/
  | pay (h : Nat)
  deriving DecidableEq

/-- Heights `1 .. n`: run block `h`; then, if block `h - 100` exists above the genesis block, pay it. -/
def schedule : Nat → List Ev
  | 0 => []
  | n + 1 => schedule n ++ (if n + 1 ≤ 100 then [.exec (n + 1)] else [.exec (n + 1), .pay (n + 1 - 100)])

/-- Effect of an event, given the blocks by height. -/
def evRun (at_ : Nat → Option Blk) (m : Mem) : Ev → Option Mem
  | .exec h => match at_ h with
    | none => none
    | some b => (execTxs m b.txs).bind b.extra
  | .pay h => match at_ h with
    | none => none
    | some b => payReward m b

def evRuns (at_ : Nat → Option Blk) : Mem → List Ev → Option Mem
  | m, [] => some m
  | m, e :: es => (evRun at_ m e).bind (fun m' => evRuns at_ m' es)

/-- Block at height `h` of a chain stored newest first. -/
def blockAt (l : List (Blk × Mem)) (h : Nat) : Option Blk :=
  if h = 0 then none else (l.reverse[h - 1]?).map Prod.fst

theorem evRuns_append (f : Nat → Option Blk) (m : Mem) (a b : List Ev) :
    evRuns f m (a ++ b) = (evRuns f m a).bind (fun m' => evRuns f m' b) := by
  induction a generalizing m with
  | nil => rfl
  | cons e es ih =>
    simp only [List.cons_append, evRuns]
    cases evRun f m e with
    | none => rfl
    | some m' => exact ih m'

theorem schedule_heights {n : Nat} {e : Ev} (h : e ∈ schedule n) :
    (∃ k, e = .exec k ∧ 1 ≤ k ∧ k ≤ n) ∨ (∃ k, e = .pay k ∧ 1 ≤ k ∧ k + 100 ≤ n) := by
  induction n with
  | zero => simp [schedule] at h
  | succ n ih =>
    simp only [schedule, List.mem_append] at h
    rcases h with h | h
    · rcases ih h with ⟨k, r, a, b⟩ | ⟨k, r, a, b⟩
      · exact Or.inl ⟨k, r, a, by omega⟩
      · exact Or.inr ⟨k, r, a, by omega⟩
    · split at h
      · simp at h; exact Or.inl ⟨n + 1, h, by omega, by omega⟩
      · simp at h
        rcases h with h | h
        · exact Or.inl ⟨n + 1, h, by omega, by omega⟩
        · exact Or.inr ⟨n + 1 - 100, h, by omega, by omega⟩

theorem evRuns_congr {f g : Nat → Option Blk} {m : Mem} {es : List Ev}
    (h : ∀ e ∈ es, ∀ k, (e = .exec k ∨ e = .pay k) → f k = g k) : evRuns f m es = evRuns g m es := by
  induction es generalizing m with
  | nil => rfl
  | cons e es ih =>
    simp only [evRuns]
    have he : evRun f m e = evRun g m e := by
      cases e with
      | exec k => simp only [evRun]; rw [h (.exec k) (by simp) k (Or.inl rfl)]
      | pay k => simp only [evRun]; rw [h (.pay k) (by simp) k (Or.inr rfl)]
    rw [he]
    cases evRun g m e with
    | none => rfl
    | some m' => exact ih (fun e he => h e (by simp [he]))

theorem blockAt_cons_lt (x : Blk × Mem) (l : List (Blk × Mem)) {k : Nat} (h : k ≤ l.length) :
    blockAt (x :: l) k = blockAt l k := by
  unfold blockAt
  split
  · rfl
  · rename_i h0
    rw [List.reverse_cons, List.getElem?_append_left (by simp; omega)]

theorem blockAt_cons_tip (x : Blk × Mem) (l : List (Blk × Mem)) : blockAt (x :: l) (l.length + 1) = some x.1 := by
  unfold blockAt
  rw [if_neg (by omega), List.reverse_cons, List.getElem?_append_right (by simp)]
  simp

theorem blockAt_mature (x : Blk × Mem) (l : List (Blk × Mem)) (h : 100 ≤ l.length) :
    blockAt (x :: l) (l.length + 1 - 100) = (x.1 :: l.map Prod.fst)[MATURITY]? := by
  have e : (x.1 :: l.map Prod.fst)[MATURITY]? = (l[99]?).map Prod.fst := by
    simp [MATURITY]
  rw [e]
  unfold blockAt
  rw [if_neg (by omega), List.getElem?_reverse (by simp; omega)]
  have : (x :: l).length - 1 - (l.length + 1 - 100 - 1) = 99 + 1 := by simp; omega
  rw [this, List.getElem?_cons_succ]

/-- In every reachable chain the balances are those obtained from the genesis balances by running the blocks
in order and paying each block's reward right after its hundredth successor - whatever was connected and
disconnected before. -/
theorem balances_follow_schedule {g : Mem} {c : Chain} {cmds : List Cmd} (h : run ⟨g, []⟩ cmds = some c) :
    evRuns (blockAt c.blocks) g (schedule c.height) = some c.mem := by
  obtain ⟨hg, hb⟩ := run_built h Built.nil
  simp only at hg hb
  obtain ⟨g', l⟩ := c
  simp only at hg
  subst hg
  clear h
  show evRuns (blockAt l) g' (schedule l.length) = some (Chain.mem ⟨g', l⟩)
  simp only at hb
  induction hb with
  | nil => rfl
  | @cons l b m hb hc ih =>
    obtain ⟨a, m1, m2, ha, _, hx, hp, heq⟩ := connect_ok hc
    simp only [Chain.mk.injEq, List.cons.injEq, Prod.mk.injEq, true_and, and_true] at heq
    subst heq
    have hpre : evRuns (blockAt ((b, m) :: l)) g' (schedule l.length) = some (Chain.mem ⟨g', l⟩) := by
      rw [← ih]
      apply evRuns_congr
      intro e he k hk
      apply blockAt_cons_lt
      rcases schedule_heights he with ⟨j, r, _, hj⟩ | ⟨j, r, _, hj⟩
      · rcases hk with hk | hk <;> rw [hk] at r <;> cases r; exact hj
      · rcases hk with hk | hk <;> rw [hk] at r <;> cases r; omega
    have hexec : evRun (blockAt ((b, m) :: l)) (Chain.mem ⟨g', l⟩) (.exec (l.length + 1)) = some m1 := by
      simp only [evRun, blockAt_cons_tip, connectTxs_mem ha, Option.bind_some, hx]
    show evRuns _ g' (schedule (l.length + 1)) = some m
    simp only [schedule]
    rw [evRuns_append, hpre]
    simp only [Option.bind_some]
    unfold payMature at hp
    simp only at hp
    split
    · rename_i hle
      rw [if_neg (by simp only [MATURITY]; omega)] at hp
      simp only [Option.some.injEq] at hp
      subst hp
      simp only [evRuns, hexec, Option.bind_some]
    · rename_i hgt
      rw [if_pos (by simp only [MATURITY]; omega)] at hp
      rw [← blockAt_mature (b, m) l (by omega)] at hp
      simp only [evRuns, hexec, Option.bind_some]
      simp only [evRun]
      cases hm : blockAt ((b, m) :: l) (l.length + 1 - 100) with
      | none =>
        exfalso
        rw [blockAt_mature (b, m) l (by omega)] at hm
        simp [MATURITY] at hm
        omega
      | some mb =>
        rw [hm] at hp
        simp only at hp ⊢
        rw [hp]; rfl

/-- In that schedule the reward of the block at height `k` is paid exactly once when `k` is above the genesis
block and has at least 100 successors, and not at all otherwise. -/
theorem reward_paid_once (n k : Nat) :
    (schedule n).count (.pay k) = if 1 ≤ k ∧ k + 100 ≤ n then 1 else 0 := by
  induction n with
  | zero =>
    rw [if_neg (by omega)]; rfl
  | succ n ih =>
    simp only [schedule, List.count_append, ih]
    by_cases h : n + 1 ≤ 100
    · rw [if_pos h, if_neg (by omega), if_neg (by omega)]
      simp [List.count_cons]
    · rw [if_neg h]
      have : List.count (Ev.pay k) [.exec (n + 1), .pay (n + 1 - 100)] = if n + 1 - 100 = k then 1 else 0 := by
        simp [List.count_cons]
      rw [this]
      by_cases e : n + 1 - 100 = k
      · rw [if_neg (by omega), if_pos e, if_pos (by omega)]
      · rw [if_neg e]
        by_cases e2 : 1 ≤ k ∧ k + 100 ≤ n
        · rw [if_pos e2, if_pos (by omega)]
        · rw [if_neg e2, if_neg (by omega)]

/-- And the block's own transactions run exactly once. -/
theorem block_run_once (n k : Nat) : (schedule n).count (.exec k) = if 1 ≤ k ∧ k ≤ n then 1 else 0 := by
  induction n with
  | zero => rw [if_neg (by omega)]; rfl
  | succ n ih =>
    simp only [schedule, List.count_append, ih]
    have : List.count (Ev.exec k) (if n + 1 ≤ 100 then [Ev.exec (n + 1)] else [.exec (n + 1), .pay (n + 1 - 100)])
        = if n + 1 = k then 1 else 0 := by
      split <;> simp [List.count_cons]
    rw [this]
    by_cases e : n + 1 = k
    · rw [if_pos e, if_neg (by omega), if_pos (by omega)]
    · rw [if_neg e]
      by_cases e2 : 1 ≤ k ∧ k ≤ n
      · rw [if_pos e2, if_pos (by omega)]
      · rw [if_neg e2, if_neg (by omega)]

/-- Reconnecting after a disconnection pays again only what was taken back: the schedule is a function of the
height alone, so disconnecting gives the balances of the shorter chain. -/
theorem disconnect_takes_back {g : Mem} {c : Chain} {cmds : List Cmd} (h : run ⟨g, []⟩ cmds = some c) :
    evRuns (blockAt c.blocks.tail) g (schedule (c.height - 1)) = some (disconnect c).mem := by
  have h2 : run ⟨g, []⟩ (cmds ++ [.disconnect]) = some (disconnect c) := by
    have : ∀ (c0 : Chain) (xs : List Cmd), run c0 xs = some c → run c0 (xs ++ [.disconnect]) = some (disconnect c) := by
      intro c0 xs
      induction xs generalizing c0 with
      | nil => intro h; simp only [run, Option.some.injEq] at h; subst h; rfl
      | cons x xs ih =>
        intro h
        simp only [run, List.cons_append] at h ⊢
        split at h
        · cases h
        rename_i c1 h1
        exact ih c1 h
    exact this _ _ h
  have := balances_follow_schedule h2
  simpa [disconnect, Chain.height] using this

/-- Total amount of coin `s` a block's reward transaction pays. -/
def claimed (b : Blk) (s : Sym) : Nat :=
  match b.reward with
  | .legacy v => if s = "WICC" then v else 0
  | .ucoin fees infl => ((fees.filter (fun p => decide (p.1 = s))).map Prod.snd).sum + (if s = "WICC" then infl else 0)

/-- The reward amounts are 64-bit numbers. -/
def Reward.Typed : Reward → Prop
  | .legacy v => v < U64
  | .ucoin fees infl => (∀ p ∈ fees, p.2 < U64) ∧ infl < U64

theorem rewardReqs_facts (b : Blk) (S : Finset Ref) (hm : b.miner ∈ S) (hty : b.reward.Typed) :
    (∀ q ∈ rewardReqs b, q.Within S) ∧ (∀ s, mintedAll s (rewardReqs b) = claimed b s) ∧
    (∀ s, burnedAll s (rewardReqs b) = 0) ∧
    (∀ r s k, sumReq (reqDelta r s k) (rewardReqs b) = if r = b.miner ∧ k = .free then (claimed b s : Int) else 0) := by
  have hlist : ∀ fees : List (Sym × Nat), (∀ p ∈ fees, p.2 < U64) →
      (∀ q ∈ fees.map (fun p => (⟨b.miner, p.1, .addFree, p.2, none⟩ : Req)), q.Within S) ∧
      (∀ s, mintedAll s (fees.map (fun p => (⟨b.miner, p.1, .addFree, p.2, none⟩ : Req)))
        = ((fees.filter (fun p => decide (p.1 = s))).map Prod.snd).sum) ∧
      (∀ s, burnedAll s (fees.map (fun p => (⟨b.miner, p.1, .addFree, p.2, none⟩ : Req))) = 0) ∧
      (∀ r s k, sumReq (reqDelta r s k) (fees.map (fun p => (⟨b.miner, p.1, .addFree, p.2, none⟩ : Req)))
        = if r = b.miner ∧ k = .free then (((fees.filter (fun p => decide (p.1 = s))).map Prod.snd).sum : Int) else 0) := by
    intro fees hlt
    induction fees with
    | nil => simp
    | cons p fees ih =>
      obtain ⟨i1, i2, i3, i4⟩ := ih (fun p hp => hlt p (by simp [hp]))
      refine ⟨?_, ?_, ?_, ?_⟩
      · intro q hq
        simp only [List.map_cons, List.mem_cons] at hq
        rcases hq with rfl | hq
        · exact ⟨hm, by simp, hlt p (by simp)⟩
        · exact i1 q hq
      · intro s
        simp only [List.map_cons, mintedAll_cons, i2]
        by_cases e : p.1 = s
        · subst e; simp [minted]
        · have e' : ¬ s = p.1 := fun h => e h.symm
          simp [minted, e]
      · intro s
        simp only [List.map_cons, burnedAll_cons, i3, burned_addFree]
      · intro r s k
        simp only [List.map_cons, sumReq_cons, i4, reqDelta_addFree, cell]
        by_cases e : p.1 = s
        · subst e
          by_cases h1 : r = b.miner <;> by_cases h2 : k = .free <;> simp [h1, h2]
        · have e' : ¬ s = p.1 := fun h => e h.symm
          by_cases h1 : r = b.miner <;> by_cases h2 : k = .free <;> simp [h1, h2, e, e']
  unfold rewardReqs claimed
  cases hrw : b.reward with
  | legacy v =>
    rw [hrw] at hty
    obtain ⟨i1, i2, i3, i4⟩ := hlist [("WICC", v)] (by simpa [Reward.Typed] using hty)
    simp only [List.map_cons, List.map_nil] at i1 i2 i3 i4
    refine ⟨i1, ?_, i3, ?_⟩
    · intro s
      simp only [i2]
      by_cases e : s = "WICC"
      · subst e; simp
      · have : ¬ ("WICC" = s) := fun h => e h.symm
        simp [e, this]
    · intro r s k
      simp only [i4]
      by_cases e : s = "WICC"
      · subst e; simp
      · have : ¬ ("WICC" = s) := fun h => e h.symm
        simp [e, this]
  | ucoin fees infl =>
    rw [hrw] at hty
    obtain ⟨i1, i2, i3, i4⟩ := hlist fees hty.1
    obtain ⟨j1, j2, j3, j4⟩ := hlist [("WICC", infl)] (by simpa using hty.2)
    simp only [List.map_cons, List.map_nil] at j1 j2 j3 j4
    refine ⟨?_, ?_, ?_, ?_⟩
    · intro q hq
      rcases List.mem_append.mp hq with hq | hq
      · exact i1 q hq
      · exact j1 q hq
    · intro s
      simp only [mintedAll_append, i2, j2]
      by_cases e : s = "WICC"
      · subst e; simp
      · have : ¬ ("WICC" = s) := fun h => e h.symm
        simp [e, this]
    · intro s; simp only [burnedAll_append, i3, j3]
    · intro r s k
      simp only [sumReq_append, i4, j4]
      by_cases e : s = "WICC"
      · subst e
        by_cases h1 : r = b.miner <;> by_cases h2 : k = .free <;> simp [h1, h2]
      · have e' : ¬ ("WICC" = s) := fun h => e h.symm
        by_cases h1 : r = b.miner <;> by_cases h2 : k = .free <;> simp [h1, h2, e, e']

/-- A payment adds exactly the claimed amounts to the producer's free balance and changes nothing else. -/
theorem reward_payment_exact {m m' : Mem} {b : Blk} (h : payReward m b = some m') (S : Finset Ref) (hwf : WF m)
    (hm : b.miner ∈ S) (hty : b.reward.Typed) (ht : ∀ s, total m s S + claimed b s < U64) (r : Ref) (s : Sym) (k : Bucket) :
    bal m' r s k = bal m r s k + (if r = b.miner ∧ k = .free then claimed b s else 0) := by
  obtain ⟨f1, f2, f3, f4⟩ := rewardReqs_facts b S hm hty
  have := (execAll_exact S (rewardReqs b) m m' hwf f1 (by intro s; rw [f2]; exact ht s) (payReward_execAll h)).2.1 r s k
  rw [f4] at this
  split at this <;> rename_i hc
  · rw [if_pos hc]; omega
  · rw [if_neg hc]; omega

/-- A payment that succeeds. -/
example : (payReward m0 (blk0 14 (.ucoin [("WICC", 90), ("WUSD", 46)] 7) [])).isSome = true := by decide

/-! ## C61: rewards are paid out of fees that were charged -/

/-- `f` changes the supply of every token by `mint - burn` and keeps accounts well-formed. -/
def Changes (S : Finset Ref) (f : Mem → Option Mem) (mint burn : Sym → Nat) : Prop :=
  ∀ m m', f m = some m' → WF m → (∀ s, total m s S + mint s < U64) →
    WF m' ∧ ∀ s, total m' s S + burn s = total m s S + mint s

/-- What a transaction is charged. -/
def Tx.paid (t : Tx) : Nat := (if t.charged = true then t.fee else 0) + t.opFee

/-- A block whose transactions change the supply by `mint - burn` apart from fees, whose uncharged
transactions carry no fee, on the main network, and with a reward transaction that covers its fee coins. -/
structure Regular (S : Finset Ref) (mint burn : Tx → Sym → Nat) (xmint xburn : Blk → Sym → Nat) (b : Blk) : Prop where
  miner : b.miner ∈ S
  rewardTyped : b.reward.Typed
  payer : ∀ t ∈ b.txs, (t.payer ∈ S ∧ t.opPayer ∈ S) ∧ t.fee < U64 ∧ t.opFee < U64
  body : ∀ t ∈ b.txs, Changes S t.body (mint t) (burn t)
  extra : Changes S b.extra (xmint b) (xburn b)
  uncharged : ∀ t ∈ b.txs, t.charged = false → t.fee = 0
  mainnet : b.testnetEarly = false
  legacy : ∀ v, b.reward = .legacy v → ∀ t ∈ b.txs, t.feeSym = "WICC"

/-- Requests of the fee payment of a transaction. -/
def feeReqs (t : Tx) : List Req :=
  (if t.charged = true ∧ 0 < t.fee then [⟨t.payer, t.feeSym, .subFree, t.fee, none⟩] else []) ++
  (if 0 < t.opFee then [⟨t.opPayer, t.feeSym, .subFree, t.opFee, none⟩] else [])

theorem execTx_reqs {m m' : Mem} {t : Tx} (h : execTx m t = some m') :
    ∃ m1, execAll m (feeReqs t) = some m1 ∧ t.body m1 = some m' := by
  unfold execTx at h
  split at h
  · cases h
  rename_i m1 h1
  split at h
  · cases h
  rename_i m2 h2
  refine ⟨m2, ?_, h⟩
  unfold feeReqs
  apply execAll_trans (m1 := m1)
  · split at h1
    · rename_i hc; rw [if_pos hc]; exact execAll_one h1
    · rename_i hc; rw [if_neg hc]; simpa [execAll] using h1
  · split at h2
    · rename_i hc; rw [if_pos hc]; exact execAll_one h2
    · rename_i hc; rw [if_neg hc]; simpa [execAll] using h2

theorem feeReqs_facts (t : Tx) (S : Finset Ref) (h : (t.payer ∈ S ∧ t.opPayer ∈ S) ∧ t.fee < U64 ∧ t.opFee < U64) :
    (∀ q ∈ feeReqs t, q.Within S) ∧ (∀ s, mintedAll s (feeReqs t) = 0) ∧
    (∀ s, burnedAll s (feeReqs t) = if t.feeSym = s then t.paid else 0) := by
  refine ⟨?_, ?_, ?_⟩
  · intro q hq
    unfold feeReqs at hq
    rcases List.mem_append.mp hq with hq | hq
    · split at hq
      · simp at hq; subst hq; exact ⟨h.1.1, by simp, h.2.1⟩
      · simp at hq
    · split at hq
      · simp at hq; subst hq; exact ⟨h.1.2, by simp, h.2.2⟩
      · simp at hq
  · intro s
    unfold feeReqs
    rw [mintedAll_append]
    split <;> split <;> simp [minted_subFree]
  · intro s
    unfold feeReqs Tx.paid
    rw [burnedAll_append]
    by_cases e : t.feeSym = s
    · subst e
      by_cases h1 : t.charged = true <;> by_cases h2 : 0 < t.fee <;> by_cases h3 : 0 < t.opFee <;>
        simp [h1, h2, h3, burned] <;> omega
    · have e' : ¬ s = t.feeSym := fun h => e h.symm
      split <;> split <;> simp [burned, e]

theorem execTx_total {S : Finset Ref} {m m' : Mem} {t : Tx} {mint burn : Sym → Nat} (h : execTx m t = some m')
    (hp : (t.payer ∈ S ∧ t.opPayer ∈ S) ∧ t.fee < U64 ∧ t.opFee < U64) (hb : Changes S t.body mint burn) (hwf : WF m)
    (ht : ∀ s, total m s S + mint s < U64) :
    WF m' ∧ (∀ s, total m' s S + burn s + (if t.feeSym = s then t.paid else 0) = total m s S + mint s) ∧
      t.paid < U64 := by
  obtain ⟨m1, h1, h2⟩ := execTx_reqs h
  obtain ⟨f1, f2, f3⟩ := feeReqs_facts t S hp
  obtain ⟨w1, _, t1⟩ := execAll_exact S _ m m1 hwf f1 (by intro s; rw [f2]; have := ht s; omega) h1
  simp only [f2, f3, Nat.add_zero] at t1
  obtain ⟨w2, t2⟩ := hb m1 m' h2 w1 (by
    intro s
    have a := t1 s
    have b := ht s
    omega)
  refine ⟨w2, ?_, ?_⟩
  · intro s
    have a := t1 s
    have b := t2 s
    omega
  · have a := t1 t.feeSym
    rw [if_pos rfl] at a
    have b := ht t.feeSym
    omega

theorem fees_eq_paid {t : Tx} (hu : t.charged = false → t.fee = 0) (h : t.paid < U64) : t.fees = t.paid := by
  unfold Tx.fees Tx.paid at *
  cases hc : t.charged with
  | true => rw [hc] at h; simp only [if_true] at h ⊢; exact wadd_eq h
  | false =>
    rw [hc] at h
    have := hu hc
    simp only [Bool.false_eq_true, if_false, Nat.zero_add, this] at h ⊢
    rw [wadd_eq (by omega)]; omega

theorem execTxs_total {S : Finset Ref} {mint burn : Tx → Sym → Nat} {ts : List Tx} {m m' : Mem}
    (h : execTxs m ts = some m') (hp : ∀ t ∈ ts, (t.payer ∈ S ∧ t.opPayer ∈ S) ∧ t.fee < U64 ∧ t.opFee < U64)
    (hb : ∀ t ∈ ts, Changes S t.body (mint t) (burn t)) (hu : ∀ t ∈ ts, t.charged = false → t.fee = 0) (hwf : WF m)
    (ht : ∀ s, total m s S + sumAll (fun t => mint t s) ts < U64) :
    WF m' ∧ (∀ s, total m' s S + sumAll (fun t => burn t s) ts + sumSym s Tx.fees ts
      = total m s S + sumAll (fun t => mint t s) ts) := by
  induction ts generalizing m with
  | nil => simp only [execTxs, Option.some.injEq] at h; subst h; exact ⟨hwf, fun s => by simp [sumAll, sumSym]⟩
  | cons t ts ih =>
    simp only [execTxs] at h
    split at h
    · cases h
    rename_i m1 h1
    simp only [sumAll] at ht
    obtain ⟨w1, t1, hlt⟩ := execTx_total h1 (hp t (by simp)) (hb t (by simp)) hwf (fun s => by
      have := ht s; omega)
    have hf := fees_eq_paid (hu t (by simp)) hlt
    obtain ⟨w2, t2⟩ := ih h (fun t' h' => hp t' (by simp [h'])) (fun t' h' => hb t' (by simp [h']))
      (fun t' h' => hu t' (by simp [h'])) w1 (fun s => by
        have a := t1 s
        have b := ht s
        omega)
    refine ⟨w2, ?_⟩
    intro s
    have a := t1 s
    have b := t2 s
    simp only [sumAll, sumSym]
    rw [hf]
    omega

/-- Sum over blocks. -/
def sumB (f : Blk → Nat) : List (Blk × Mem) → Nat
  | [] => 0
  | x :: l => f x.1 + sumB f l

theorem sumB_append (f : Blk → Nat) (a b : List (Blk × Mem)) : sumB f (a ++ b) = sumB f a + sumB f b := by
  induction a with
  | nil => simp [sumB]
  | cons x a ih => simp only [List.cons_append, sumB, ih]; omega

/-- Fees part and inflation part of a reward. -/
def feePart (b : Blk) (s : Sym) : Nat :=
  match b.reward with
  | .legacy v => if s = "WICC" then v else 0
  | .ucoin fees _ => ((fees.filter (fun p => decide (p.1 = s))).map Prod.snd).sum
def inflPart (b : Blk) (s : Sym) : Nat :=
  match b.reward with
  | .legacy _ => 0
  | .ucoin _ infl => if s = "WICC" then infl else 0

theorem claimed_split (b : Blk) (s : Sym) : claimed b s = feePart b s + inflPart b s := by
  unfold claimed feePart inflPart
  cases b.reward <;> simp

/-- The fees part is exactly the fees less the fuel fees. -/
theorem feePart_eq {S : Finset Ref} {mint burn : Tx → Sym → Nat} {xmint xburn : Blk → Sym → Nat} {c c' : Chain} {b : Blk}
    (h : connect c b = .ok c') (hreg : Regular S mint burn xmint xburn b) (hW : ∀ s, sumSym s Tx.fees b.txs < U64) (s : Sym) :
    feePart b s + sumSym s (fun t => t.fuelFee) b.txs = sumSym s Tx.fees b.txs := by
  have hpos : 0 < U64 := by unfold U64; omega
  have hn : ¬ ("WICC" = "WUSD") := by decide
  obtain ⟨a, m1, m2, ha, hc, _, _, _⟩ := connect_ok h
  obtain ⟨t1, t2, _, t4⟩ := connectTxs_totals ha hpos hpos hpos
  have hother : ∀ f : Tx → Nat, s ≠ "WICC" → s ≠ "WUSD" → sumSym s f b.txs = 0 := by
    intro f h1 h2
    have : ∀ ts : List Tx, (∀ t ∈ ts, t.feeSym = "WICC" ∨ t.feeSym = "WUSD") → sumSym s f ts = 0 := by
      intro ts
      induction ts with
      | nil => intro; rfl
      | cons t ts ih =>
        intro hh
        simp only [sumSym, ih (fun t' h' => hh t' (by simp [h']))]
        rcases hh t (by simp) with e | e
        · rw [if_neg (by rw [e]; exact fun h => h1 h.symm)]
        · rw [if_neg (by rw [e]; exact fun h => h2 h.symm)]
    exact this b.txs (fun t h' => (t4 t h').2)
  cases hr : b.reward with
  | legacy v =>
    have hl := legacy_reward_partial h hr (hW "WICC")
    unfold feePart; rw [hr]; simp only
    by_cases e : s = "WICC"
    · subst e; simpa using hl
    · rw [if_neg e]
      have : ∀ f : Tx → Nat, sumSym s f b.txs = 0 := by
        intro f
        have hall := hreg.legacy v hr
        have : ∀ ts : List Tx, (∀ t ∈ ts, t.feeSym = "WICC") → sumSym s f ts = 0 := by
          intro ts
          induction ts with
          | nil => intro; rfl
          | cons t ts ih =>
            intro hh
            simp only [sumSym, ih (fun t' h' => hh t' (by simp [h'])), hh t (by simp)]
            rw [if_neg (fun h => e h.symm)]
        exact this b.txs hall
      rw [this, this]
  | ucoin fees infl =>
    unfold checkReward at hc
    rw [hr] at hc
    simp only [hreg.mainnet, Bool.false_or, Bool.and_eq_true, decide_eq_true_eq] at hc
    have hsplit : ∀ s, ∀ ts : List Tx, (∀ t ∈ ts, t.fuelFee ≤ t.fees) →
        sumSym s (fun t => t.fees - t.fuelFee) ts + sumSym s (fun t => t.fuelFee) ts = sumSym s Tx.fees ts := by
      intro s ts
      induction ts with
      | nil => intro; rfl
      | cons t ts ih =>
        intro hh
        have h1 := ih (fun t' h' => hh t' (by simp [h']))
        have h2 := hh t (by simp)
        simp only [sumSym]
        split <;> omega
    have hle : ∀ t ∈ b.txs, t.fuelFee ≤ t.fees := fun t h' => (t4 t h').1
    have hs := hsplit s b.txs hle
    have w := hW s
    simp only [Nat.zero_add] at t1 t2
    unfold feePart
    rw [hr, hc.2.1]
    simp only
    by_cases e : s = "WICC"
    · subst e
      rw [Nat.mod_eq_of_lt (by omega)] at t1
      simp [t1]
      exact hs
    · by_cases e2 : s = "WUSD"
      · subst e2
        rw [Nat.mod_eq_of_lt (by omega)] at t2
        simp [hn, t2]
        exact hs
      · rw [hother _ e e2, hother _ e e2]
        have a1 : ¬ ("WICC" = s) := fun h => e h.symm
        have a2 : ¬ ("WUSD" = s) := fun h => e2 h.symm
        simp [a1, a2]

/-- Supply equation for every reachable chain of regular blocks: coins in accounts, plus the rewards of the
(at most 100) blocks that are not mature yet, plus all fuel fees, plus what transactions burned, equal the genesis
supply, plus what transactions minted, plus the inflation part of the matured rewards.  Fees neither
vanish nor appear. -/
theorem fees_conserved_partial {g : Mem} {c : Chain} {cmds : List Cmd} (h : run ⟨g, []⟩ cmds = some c)
    (S : Finset Ref) (mint burn : Tx → Sym → Nat) (xmint xburn : Blk → Sym → Nat)
    (hreg : ∀ x ∈ c.blocks, Regular S mint burn xmint xburn x.1) (hwf : WF g)
    (hbound : ∀ s, total g s S + sumB (fun b => inflPart b s + xmint b s + sumAll (fun t => mint t s) b.txs) c.blocks < U64)
    (s : Sym) :
    total c.mem s S + sumB (fun b => feePart b s) (c.blocks.take 100)
      + sumB (fun b => sumSym s (fun t => t.fuelFee) b.txs) c.blocks
      + sumB (fun b => xburn b s + sumAll (fun t => burn t s) b.txs) c.blocks
    = total g s S + sumB (fun b => xmint b s + sumAll (fun t => mint t s) b.txs) c.blocks
      + sumB (fun b => inflPart b s) (c.blocks.drop 100) := by
  obtain ⟨hg, hb⟩ := run_built h Built.nil
  simp only at hg hb
  obtain ⟨g', l⟩ := c
  simp only at hg hb hreg hbound ⊢
  subst hg
  clear h
  suffices hs : WF (Chain.mem ⟨g', l⟩) ∧ ∀ s, total (Chain.mem ⟨g', l⟩) s S + sumB (fun b => feePart b s) (l.take 100)
      + sumB (fun b => sumSym s (fun t => t.fuelFee) b.txs) l
      + sumB (fun b => xburn b s + sumAll (fun t => burn t s) b.txs) l
    = total g' s S + sumB (fun b => xmint b s + sumAll (fun t => mint t s) b.txs) l
      + sumB (fun b => inflPart b s) (l.drop 100) from hs.2 s
  clear s
  induction hb with
  | nil => exact ⟨hwf, fun s => by simp [sumB, Chain.mem]⟩
  | @cons l b m hb hc ih =>
    have hr : Regular S mint burn xmint xburn b := hreg (b, m) (by simp)
    simp only [sumB] at hbound
    obtain ⟨w0, e0⟩ := ih (fun x hx => hreg x (by simp [hx])) (fun s => by have := hbound s; omega)
    obtain ⟨a, m1, m2, ha, _, hx, hp, heq⟩ := connect_ok hc
    simp only [Chain.mk.injEq, List.cons.injEq, Prod.mk.injEq, true_and, and_true] at heq
    subst heq
    have hmono : ∀ (f1 f2 : Blk → Nat) (l : List (Blk × Mem)), (∀ b, f1 b ≤ f2 b) → sumB f1 l ≤ sumB f2 l := by
      intro f1 f2 l hle
      induction l with
      | nil => simp [sumB]
      | cons x l ih => simp only [sumB]; have := hle x.1; omega
    have hdrop : ∀ (f1 : Blk → Nat) (n : Nat), sumB f1 (l.drop n) ≤ sumB f1 l := by
      intro f1 n
      have := sumB_append f1 (l.take n) (l.drop n)
      rw [List.take_append_drop] at this
      omega
    have hsplitB : ∀ s, sumB (fun b => inflPart b s + xmint b s + sumAll (fun t => mint t s) b.txs) l
        = sumB (fun b => inflPart b s) l + sumB (fun b => xmint b s + sumAll (fun t => mint t s) b.txs) l := by
      intro s
      clear * -
      induction l with
      | nil => rfl
      | cons x l ih => simp only [sumB]; omega
    have bnd : ∀ s, total (Chain.mem ⟨g', l⟩) s S + xmint b s + sumAll (fun t => mint t s) b.txs
        + sumB (fun b => feePart b s) (l.take 100) + inflPart b s
        + (sumB (fun b => inflPart b s) l - sumB (fun b => inflPart b s) (l.drop 100)) < U64 := by
      intro s
      have a1 := hbound s
      have a2 := e0 s
      have a3 := hdrop (fun b => inflPart b s) 100
      have a4 := hsplitB s
      omega
    -- transactions
    obtain ⟨w1, t1⟩ := execTxs_total (connectTxs_mem ha) hr.payer hr.body hr.uncharged w0 (fun s => by
      have := bnd s; simp only; omega)
    have hW : ∀ s, sumSym s Tx.fees b.txs < U64 := by
      intro s
      have a1 := t1 s
      have a2 := bnd s
      simp only at a1
      omega
    have hfp := feePart_eq hc hr hW
    -- the rest of the block
    obtain ⟨w2, t2⟩ := hr.extra a.mem m1 hx w1 (fun s => by
      have a1 := t1 s
      have a2 := bnd s
      simp only at a1
      omega)
    -- the mature reward
    have htake : ∀ f : Blk → Nat, sumB f (((b, m) :: l).take 100) + (match l[99]? with | none => 0 | some x => f x.1)
        = f b + sumB f (l.take 100) := by
      intro f
      have e1 : ((b, m) :: l).take 100 = (b, m) :: l.take 99 := rfl
      have e2 : l.take 100 = l.take 99 ++ l[99]?.toList := List.take_add_one
      rw [e1, e2, sumB_append]
      cases l[99]? with
      | none => simp [sumB]
      | some x => simp [sumB]; omega
    have hdr : ∀ f : Blk → Nat, sumB f (((b, m) :: l).drop 100)
        = (match l[99]? with | none => 0 | some x => f x.1) + sumB f (l.drop 100) := by
      intro f
      have e1 : ((b, m) :: l).drop 100 = l.drop 99 := rfl
      rw [e1]
      cases hx : l[99]? with
      | none =>
        have hlen : l.length ≤ 99 := by simpa using hx
        rw [List.drop_eq_nil_of_le hlen, List.drop_eq_nil_of_le (by omega)]; rfl
      | some x =>
        obtain ⟨hlt, rfl⟩ := List.getElem?_eq_some_iff.mp hx
        rw [List.drop_eq_getElem_cons hlt]
        rfl
    have hmature : WF m ∧ ∀ s, total m s S = total m1 s S
        + (match l[99]? with | none => 0 | some x => claimed x.1 s) := by
      unfold payMature at hp
      simp only at hp
      cases hx99 : l[99]? with
      | none =>
        have hlen : l.length ≤ 99 := by simpa using hx99
        rw [if_neg (by simp only [MATURITY]; omega)] at hp
        simp only [Option.some.injEq] at hp
        subst hp
        exact ⟨w2, fun s => by simp⟩
      | some x =>
        have hlt : 99 < l.length := (List.getElem?_eq_some_iff.mp hx99).1
        rw [if_pos (by simp only [MATURITY]; omega)] at hp
        have e : (b :: l.map Prod.fst)[MATURITY]? = some x.1 := by simp [MATURITY, hx99]
        rw [e] at hp
        simp only at hp
        have hxin : x ∈ l := List.mem_of_getElem? hx99
        have hxr := hreg x (by simp [hxin])
        obtain ⟨f1, f2, f3, _⟩ := rewardReqs_facts x.1 S hxr.miner hxr.rewardTyped
        have := execAll_exact S (rewardReqs x.1) m1 m w2 f1 (fun s => by
          rw [f2, claimed_split]
          have a1 := t1 s
          have a2 := bnd s
          have a3 := t2 s
          have a4 := hdr (fun b => inflPart b s)
          have a5 := htake (fun b => feePart b s)
          rw [hx99] at a4 a5
          simp only at a1 a4 a5
          have a6 : inflPart x.1 s + sumB (fun b => inflPart b s) (l.drop 100) ≤ sumB (fun b => inflPart b s) l := by
            have := hdrop (fun b => inflPart b s) 99
            have e1 : ((b, m) :: l).drop 100 = l.drop 99 := rfl
            rw [← e1, a4] at this
            exact this
          have a7 : feePart x.1 s ≤ sumB (fun b => feePart b s) (l.take 100) := by
            have e2 : l.take 100 = l.take 99 ++ l[99]?.toList := List.take_add_one
            rw [e2, sumB_append, hx99]
            simp [sumB]
          omega) (payReward_execAll hp)
        refine ⟨this.1, fun s => ?_⟩
        have t := this.2.2 s
        rw [f2, f3] at t
        simpa using t
    refine ⟨hmature.1, fun s => ?_⟩
    show total m s S + _ + _ + _ = _
    have a1 := t1 s
    have a2 := t2 s
    have a3 := hmature.2 s
    have a4 := htake (fun b => feePart b s)
    have a5 := hdr (fun b => inflPart b s)
    have a6 := hfp s
    have a7 := e0 s
    simp only [sumB] at *
    cases hx99 : l[99]? with
    | none => rw [hx99] at a3 a4 a5; simp only at a3 a4 a5; omega
    | some x =>
      rw [hx99] at a3 a4 a5
      simp only [claimed_split] at a3 a4 a5
      omega

/-- A CDP force-settle transaction is not charged but its (unsigned, unhashed) `llFees` counts: a block
paying its producer 1000000 WICC that nobody paid is accepted. -/
def forceSettleTx (fee : Nat) : Tx :=
  { charged := false, payer := 0, feeSym := "WICC", fee := fee, opFee := 0, opPayer := 0, fuel := 0, fuelFee := 0,
    body := some }

theorem fees_conserved_violated :
    ∃ b : Blk, accepted (connect ⟨m0, []⟩ b) = true ∧ feePart b "WICC" = 1000000 ∧
      execTxs m0 b.txs = some m0 ∧ b.extra m0 = some m0 ∧
      (payReward m0 b).map (fun m => bal m b.miner "WICC" .free) = some (1000 + 1000000 + 7) :=
  ⟨blk0 0 (.ucoin [("WICC", 1000000), ("WUSD", 0)] 7) [forceSettleTx 1000000], by decide, by decide, rfl, rfl, by decide⟩

/-- The hypotheses of the supply equation are met by a chain of one block with fees in both coins. -/
example : Regular {1, 2} (fun _ _ => 0) (fun _ _ => 0) (fun _ _ => 0) (fun _ _ => 0)
    (blk0 14 (.ucoin [("WICC", 90), ("WUSD", 46)] 7) [tx0 "WICC" 100 10, tx0 "WUSD" 50 4]) := by
  refine ⟨by decide, ?_, ?_, ?_, ?_, ?_, rfl, ?_⟩
  · show (∀ p ∈ _, _) ∧ _; simp [U64]
  · intro t ht; simp [blk0] at ht; rcases ht with rfl | rfl <;> simp [tx0, U64]
  · intro t ht m m' h hw _
    simp [blk0] at ht
    rcases ht with rfl | rfl <;> (simp [tx0] at h; subst h; exact ⟨hw, fun _ => rfl⟩)
  · intro m m' h hw _; simp [blk0] at h; subst h; exact ⟨hw, fun _ => rfl⟩
  · intro t ht; simp [blk0] at ht; rcases ht with rfl | rfl <;> simp [tx0]
  · intro v h; simp [blk0] at h

end Verif.Block
