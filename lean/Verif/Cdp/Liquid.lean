import Verif.Cdp.Props
import Verif.Cdp.Liq
/-!
# Properties of liquidations, aborts, settlement lists and forced liquidation

C37, C79-C83.
-/
namespace Verif.Cdp

open Verif.Account Verif.Ledger Verif.Dbl

/-! ## Outcomes other than an abort -/

theorem bind_nc {α β : Type} {r : Res α} {f : α → Res β} : (r >>= f) ≠ .crash ↔ r ≠ .crash ∧ ∀ x, r = .ok x → f x ≠ .crash := by
  cases r with
  | ok a => exact ⟨fun h => ⟨by simp, fun x hx => by cases hx; exact h⟩, fun h => h.2 a rfl⟩
  | fail => exact ⟨fun _ => ⟨by simp, fun x hx => by cases hx⟩, fun _ h => by cases h⟩
  | crash => exact ⟨fun h => absurd rfl h, fun h => absurd rfl h.1⟩

theorem chk_nc (b : Bool) : chk b ≠ .crash := by cases b <;> simp [chk]
theorem asrt_nc {b : Bool} : asrt b ≠ .crash ↔ b = true := by cases b <;> simp [asrt]
theorem ops_nc (m : Mem) (qs : List Req) : ops m qs ≠ .crash := by unfold ops; cases execAll m qs <;> simp
theorem pure_nc {α : Type} (a : α) : (pure a : Res α) ≠ .crash := by intro h; cases h

theorem penalty_nc (e : Env) (m : Mem) (c : Cdp) (f : Nat) : penalty e m c f ≠ .crash := by
  unfold penalty
  simp only [bind_nc]
  exact ⟨ops_nc _ _, fun _ _ => ⟨chk_nc _, fun _ _ => pure_nc _⟩⟩

theorem sellInterest_nc (e : Env) (m : Mem) (c : Cdp) (r : Ref) (i : Nat) : sellInterest e m c r i ≠ .crash := by
  unfold sellInterest
  simp only [bind_nc]
  exact ⟨ops_nc _ _, fun _ _ => ⟨chk_nc _, fun _ _ => pure_nc _⟩⟩

theorem getInterest_nc (e : Env) (c : Cdp) : getInterest e c ≠ .crash := by
  unfold getInterest; split
  · simp
  · split <;> simp

/-! ## C37 -/

/-- The change of every balance in a liquidation: the liquidator pays stable coins and gets collateral, the owner's pledge
shrinks by what the liquidator gets and what returns to the owner, the fund gets the penalty, partly frozen in an order. -/
def liqDelta (who owner fund : Ref) (bcoin : Sym) (paid toLiq toOwner fee frozen : Nat) (r : Ref) (s : Sym) (b : Bucket) : Int :=
  (if r = who ∧ s = WUSD ∧ b = .free then -(paid : Int) else 0) +
  (if r = who ∧ s = bcoin ∧ b = .free then (toLiq : Int) else 0) +
  (if r = owner ∧ s = bcoin ∧ b = .pledged then -((toLiq : Int) + toOwner) else 0) +
  (if r = owner ∧ s = bcoin ∧ b = .free then (toOwner : Int) else 0) +
  (if r = fund ∧ s = WUSD ∧ b = .free then (fee : Int) - frozen else 0) +
  (if r = fund ∧ s = WUSD ∧ b = .frozen then (frozen : Int) else 0)

/-- The part of a penalty that buys WGRT: the larger half, nothing of small penalties before the third release. -/
def frozenPart (r3 : Bool) (fee : Nat) : Nat := if r3 = false ∧ fee ≤ 10 then 0 else fee - fee / 2

theorem liq_delta (e : Env) (w o : Ref) (bc : Sym) (pay x y fee : Nat) (r : Ref) (s : Sym) (b : Bucket) :
    sumReq (reqDelta r s b) (liqReqs w o bc WUSD pay x y ++ penaltyReqs e WUSD fee) =
    liqDelta w o e.fcoin bc pay x y fee (frozenPart e.r3 fee) r s b := by
  have h1 : sumReq (reqDelta r s b) (liqReqs w o bc WUSD pay x y) =
      (if r = w ∧ s = WUSD ∧ b = .free then -(pay : Int) else 0) +
      (if r = w ∧ s = bc ∧ b = .free then (x : Int) else 0) +
      (if r = o ∧ s = bc ∧ b = .pledged then -((x : Int) + y) else 0) +
      (if r = o ∧ s = bc ∧ b = .free then (y : Int) else 0) := by
    unfold liqReqs
    simp only [sumReq_cons, sumReq_nil, reqDelta_subFree, reqDelta_addFree, reqDelta_move (op := .unpledge) (src := .pledged) (dst := .free) rfl]
    unfold cell
    split_ifs <;> omega
  have h2 : sumReq (reqDelta r s b) (penaltyReqs e WUSD fee) =
      (if r = e.fcoin ∧ s = WUSD ∧ b = .free then (fee : Int) - frozenPart e.r3 fee else 0) +
      (if r = e.fcoin ∧ s = WUSD ∧ b = .frozen then (frozenPart e.r3 fee : Int) else 0) := by
    unfold penaltyReqs
    by_cases h0 : fee = 0
    · have hz : frozenPart e.r3 fee = 0 := by unfold frozenPart; subst h0; simp
      rw [hz, if_pos h0]; subst h0; simp
    · rw [if_neg h0]
      by_cases h3 : (!e.r3) = true ∧ fee ≤ 10
      · have hz : frozenPart e.r3 fee = 0 := by unfold frozenPart; rw [if_pos (by simpa using h3)]
        rw [if_pos h3, hz]
        simp only [sumReq_cons, sumReq_nil, reqDelta_addFree]
        unfold cell
        split_ifs <;> omega
      · have hz : frozenPart e.r3 fee = fee - fee / 2 := by unfold frozenPart; rw [if_neg (by simpa using h3)]
        rw [if_neg h3, hz]
        simp only [sumReq_cons, sumReq_nil, reqDelta_addFree, reqDelta_move (op := .freeze) (src := .free) (dst := .frozen) rfl]
        unfold cell
        split_ifs <;> omega
  rw [sumReq_append, h1, h2]
  unfold liqDelta
  omega

theorem liq_minted (e : Env) (w o : Ref) (bc : Sym) (pay x y fee : Nat) (s : Sym) :
    mintedAll s (liqReqs w o bc WUSD pay x y ++ penaltyReqs e WUSD fee) ≤
    (if s = bc then x else 0) + (if s = WUSD then fee else 0) := by
  have h1 : mintedAll s (liqReqs w o bc WUSD pay x y) = if s = bc then x else 0 := by
    unfold liqReqs
    simp only [mintedAll_cons, mintedAll_nil, minted_move (op := .unpledge) rfl]
    unfold minted
    by_cases h : s = bc
    · simp [h]
    · simp only [if_neg h, if_neg (fun e : bc = s ∧ _ => h e.1.symm), Nat.add_zero]
      rw [if_neg (by simp)]
  have h2 : mintedAll s (penaltyReqs e WUSD fee) ≤ if s = WUSD then fee else 0 := by
    unfold penaltyReqs
    split
    · simp
    · split
      · simp only [mintedAll_cons, mintedAll_nil]
        unfold minted; by_cases h : s = WUSD <;> simp [h, eq_comm]
      · simp only [mintedAll_cons, mintedAll_nil, minted_move (op := .freeze) rfl]
        unfold minted; by_cases h : s = WUSD <;> simp [h, eq_comm]
  rw [mintedAll_append, h1]
  omega

theorem liq_within {e : Env} {w o : Ref} {bc : Sym} {pay x y fee : Nat} {S : Finset Ref} (hw : w ∈ S) (ho : o ∈ S) (hf : e.fcoin ∈ S)
    (h1 : pay < U64) (h2 : x < U64) (h3 : y < U64) (h4 : fee < U64) :
    ∀ q ∈ liqReqs w o bc WUSD pay x y ++ penaltyReqs e WUSD fee, q.Within S := by
  intro q hq
  rw [List.mem_append] at hq
  rcases hq with hq | hq
  · simp only [liqReqs, List.mem_cons, List.not_mem_nil, or_false] at hq
    rcases hq with rfl | rfl | rfl | rfl | rfl
    · exact ⟨hw, by simp, h1⟩
    · exact ⟨hw, by simp, h2⟩
    · exact ⟨ho, by simp, h2⟩
    · exact ⟨ho, by simp, h2⟩
    · exact ⟨ho, by simp, h3⟩
  · unfold penaltyReqs at hq
    split at hq
    · simp at hq
    · split at hq
      · simp only [List.mem_cons, List.not_mem_nil, or_false] at hq
        subst hq; exact ⟨hf, by simp, h4⟩
      · simp only [List.mem_cons, List.not_mem_nil, or_false] at hq
        rcases hq with rfl | rfl
        · exact ⟨hf, by simp, h4⟩
        · exact ⟨hf, by simp, by show fee - fee / 2 < U64; omega⟩

theorem bal_le_holding (m : Mem) (r : Ref) (s : Sym) (b : Bucket) : bal m r s b ≤ holding m r s := by
  unfold holding; cases b <;> omega

theorem liq_exact {e : Env} {m m1 m2 : Mem} {w o : Ref} {bc : Sym} {pay x y fee : Nat} {S : Finset Ref} (hwf : WF m)
    (hw : w ∈ S) (ho : o ∈ S) (hf : e.fcoin ∈ S) (ht : ∀ s, total m s S < 2 ^ 63)
    (hp : pay ≤ bal m w WUSD .free) (hx : x + y ≤ bal m o bc .pledged) (hbc : bc ≠ WUSD) (hfee : fee ≤ pay)
    (h1 : execAll m (liqReqs w o bc WUSD pay x y) = some m1) (h2 : execAll m1 (penaltyReqs e WUSD fee) = some m2) :
    ∀ r s b, (bal m2 r s b : Int) = bal m r s b + liqDelta w o e.fcoin bc pay x y fee (frozenPart e.r3 fee) r s b := by
  have b1 : pay ≤ total m WUSD S := le_trans hp (le_trans (bal_le_holding _ _ _ _) (holding_le_total hw))
  have b2 : x + y ≤ total m bc S := le_trans hx (le_trans (bal_le_holding _ _ _ _) (holding_le_total ho))
  have t1 := ht WUSD
  have t2 := ht bc
  have := (execAll_exact S _ m m2 hwf (liq_within (e := e) (bc := bc) (pay := pay) (x := x) (y := y) (fee := fee) hw ho hf
    (by unfold U64; omega) (by unfold U64; omega) (by unfold U64; omega) (by unfold U64; omega)) (by
      intro s
      have := liq_minted e w o bc pay x y fee s
      have := ht s
      by_cases e1 : s = bc
      · subst e1
        simp only [if_true, if_neg hbc] at *
        unfold U64; omega
      · by_cases e2 : s = WUSD
        · subst e2
          simp only [if_true, if_neg e1] at *
          unfold U64; omega
        · simp only [if_neg e1, if_neg e2] at *
          unfold U64; omega) (execAll_trans h1 h2)).2.1
  intro r s b
  rw [this, liq_delta]

/-- The partial amounts are smaller than the whole ones. -/
theorem part_lt (k : Conv) {a b x y : Nat} (h : a < b) (hb : b ≤ 2 ^ 52) (hxy : 0 < x + y) (hs : x + y ≤ 2 ^ 52) :
    k.cv (mul (ofU x) (div (ofU a) (ofU b))) + k.cv (mul (ofU y) (div (ofU a) (ofU b))) < x + y := by
  have hr := rate_le h hb
  rcases Nat.eq_zero_or_pos x with rfl | hx
  · rw [scaled_zero]
    have := scaled_lt k (n := y) (by omega) (by omega) hr
    omega
  · have h1 := scaled_lt k (n := x) hx (by omega) hr
    rcases Nat.eq_zero_or_pos y with rfl | hy
    · rw [scaled_zero]; omega
    · have := scaled_lt k (n := y) hy (by omega) hr
      omega

/-- C37, C79: a liquidation never aborts a node, for sane parameters and amounts the doubles can represent. -/
theorem liquidate_no_abort {e : Env} {σ : St} {t : Liq}
    (hc : ∀ c, find σ.cdps t.cdp = some c → Sane (e.par c.pair) ∧ Sized c (e.price c.pair) ∧ c.owed ≤ 2 ^ 48) :
    liquidate e σ t ≠ .crash := by
  unfold liquidate
  simp only [bind_nc]
  refine ⟨chk_nc _, fun _ _ => ?_⟩
  cases hf : find σ.cdps t.cdp with
  | none => simp
  | some c =>
    obtain ⟨hp, hz, ho⟩ := hc c hf
    have ht := terms_sane e.k hp hz
    simp only [bind_nc]
    refine ⟨chk_nc _, fun _ _ => ⟨chk_nc _, fun _ _ => ⟨chk_nc _, fun _ _ => ⟨chk_nc _, fun _ _ => ⟨ht.1, fun x hx => ?_⟩⟩⟩⟩⟩
    obtain ⟨h1, h2, h3⟩ := ht.2 x hx
    obtain ⟨hsp, -⟩ := terms_split hx
    have s0 := hz.s0
    have s1 := hz.s1
    split
    · unfold liqFull
      simp only [bind_nc]
      exact ⟨ops_nc _ _, fun _ _ => ⟨penalty_nc _ _ _ _, fun _ _ => pure_nc _⟩⟩
    · rename_i hlt
      have hlt : t.amount < x.pay := Nat.lt_of_not_le hlt
      have hpay : x.pay ≤ 2 ^ 52 := by omega
      have hg := part_lt e.k hlt hpay (x := x.toLiq) (y := x.toOwner) (by omega) (by omega)
      have hcl := scaled_lt e.k (n := c.owed) h2 (by omega) (rate_le hlt hpay)
      have hw : wadd (e.k.cv (mul (ofU x.toLiq) (div (ofU t.amount) (ofU x.pay)))) (e.k.cv (mul (ofU x.toOwner) (div (ofU t.amount) (ofU x.pay)))) =
        e.k.cv (mul (ofU x.toLiq) (div (ofU t.amount) (ofU x.pay))) + e.k.cv (mul (ofU x.toOwner) (div (ofU t.amount) (ofU x.pay))) :=
        wadd_eq (by unfold U64; omega)
      unfold liqPart Cdp.partialLiq
      simp only [bind_nc, asrt_nc, decide_eq_true_eq]
      rw [hw]
      refine ⟨rate_lt_one hlt hpay, fun _ _ => ⟨ops_nc _ _, fun _ _ => ⟨hcl, fun _ _ => ⟨by omega, fun _ _ =>
        ⟨⟨by omega, fun _ _ => ⟨by omega, fun _ _ => pure_nc _⟩⟩, fun _ _ => ⟨chk_nc _, fun _ _ => ⟨penalty_nc _ _ _ _, fun _ _ => pure_nc _⟩⟩⟩⟩⟩⟩⟩

/-- C37 in part: a liquidation charges at most what was declared; what is paid is the debt removed plus the penalty; the
collateral removed from the position is what the liquidator gets plus what the owner gets back; and no other balance changes.
Missing: parameters for which the discounted payment is less than the debt (`penalty_wraps_violated`), and positions of
more than `2^48` units of debt or `2^52` of collateral. -/
theorem liquidate_fair_partial {e : Env} {σ σ' : St} {t : Liq} {c : Cdp} {S : Finset Ref} (I : Inv e.k σ)
    (hf : find σ.cdps t.cdp = some c) (hp : Sane (e.par c.pair)) (hz : Sized c (e.price c.pair)) (ho : c.owed ≤ 2 ^ 48)
    (hwf : WF σ.mem) (hw : t.who ∈ S) (hown : c.owner ∈ S) (hfc : e.fcoin ∈ S) (ht : ∀ s, total σ.mem s S < 2 ^ 63)
    (h : liquidate e σ t = .ok σ') :
    ∃ paid toLiq toOwner close fee, paid ≤ t.amount ∧ paid = close + fee ∧
      ((find σ'.cdps t.cdp = none ∧ close = c.owed ∧ toLiq + toOwner = c.staked) ∨
       (find σ'.cdps t.cdp = some { c with staked := c.staked - (toLiq + toOwner), owed := c.owed - close } ∧
        paid = t.amount ∧ toLiq + toOwner < c.staked ∧ close < c.owed)) ∧
      (∀ id, id ≠ t.cdp → find σ'.cdps id = find σ.cdps id) ∧
      ∀ r s b, (bal σ'.mem r s b : Int) =
        bal σ.mem r s b + liqDelta t.who c.owner e.fcoin c.bcoin paid toLiq toOwner fee (frozenPart e.r3 fee) r s b := by
  unfold liquidate at h
  simp only [bind_ok, chk_ok, ex_unit] at h
  obtain ⟨ham, h⟩ := h
  rw [hf] at h
  simp only [bind_ok, chk_ok, ex_unit, decide_eq_true_eq] at h
  obtain ⟨-, hbal, -, -, x, hx, h⟩ := h
  have hci : c.id = t.cdp := I.good.ids _ _ hf
  have hfi : find σ.cdps c.id = some c := by rw [hci]; exact hf
  have hok := I.ok _ _ hf
  have hpl := I.pledged_eq hfi
  obtain ⟨h1, h2, h3⟩ := (terms_sane e.k hp hz).2 x hx
  obtain ⟨hsp, d, hd, hdd⟩ := terms_split hx
  have s0 := hz.s0
  have s1 := hz.s1
  have hsc := hok.scoin
  rw [hsc] at hbal
  have hfund : x.fund = x.pay - c.owed := by
    rcases hdd with rfl | ⟨e1, rfl⟩
    · rw [hd, wsub_eq h1 (by unfold U64; omega)]
    · rw [hd, e1, wsub_eq (le_refl _) (by unfold U64; omega)]
  rw [ite_eq_iff] at h
  rcases h with ⟨hle, h⟩ | ⟨hle, h⟩
  · simp only [liqFull, bind_ok, ops_ok, pure_ok] at h
    obtain ⟨m1, e1, m2, e2, rfl⟩ := h
    have e2 := penalty_ok e2
    rw [hsc] at e1 e2
    refine ⟨x.pay, x.toLiq, x.toOwner, c.owed, x.fund, hle, by omega, Or.inl ⟨?_, rfl, hsp⟩, ?_, ?_⟩
    · simp only [eraseCDP, eraseIdx]; rw [find_del, if_pos hci.symm]
    · intro id hid; simp only [eraseCDP, eraseIdx]; rw [find_del, if_neg (by rw [hci]; exact hid)]
    · exact liq_exact hwf hw hown hfc ht (by omega) (by omega) hok.bcoin (by omega) e1 e2
  · have hlt : t.amount < x.pay := Nat.lt_of_not_le hle
    have hpay : x.pay ≤ 2 ^ 52 := by omega
    have hg := part_lt e.k hlt hpay (x := x.toLiq) (y := x.toOwner) (by omega) (by omega)
    have hcl := scaled_lt e.k (n := c.owed) h2 (by omega) (rate_le hlt hpay)
    have ham' : t.amount ≠ 0 := by simpa using ham
    have hca := close_le e.k (a := t.amount) (o := c.owed) (b := x.pay) (by omega) hlt hpay h1
    simp only [liqPart, bind_ok, ops_ok, pure_ok, asrt_ok, chk_ok, ex_unit, decide_eq_true_eq] at h
    obtain ⟨-, m1, e1, -, -, c', hc', -, m2, e2, rfl⟩ := h
    have e2 := penalty_ok e2
    obtain ⟨-, -, rfl⟩ := partialLiq_ok hc'
    rw [hsc] at e1 e2
    generalize hA : e.k.cv (mul (ofU x.toLiq) (div (ofU t.amount) (ofU x.pay))) = A at *
    generalize hB : e.k.cv (mul (ofU x.toOwner) (div (ofU t.amount) (ofU x.pay))) = B at *
    generalize hC : e.k.cv (mul (ofU c.owed) (div (ofU t.amount) (ofU x.pay))) = C at *
    have hwd : wadd A B = A + B := wadd_eq (by unfold U64; omega)
    have hws : wsub t.amount C = t.amount - C := wsub_eq hca (by unfold U64; omega)
    rw [hwd] at hc' ⊢
    rw [hws] at e2
    refine ⟨t.amount, A, B, C, t.amount - C, le_refl _, by omega, Or.inr ⟨?_, rfl, by omega, hcl⟩, ?_, ?_⟩
    · simp only [updateCDP, eraseIdx, saveIdx]; rw [find_put, if_pos hci.symm]
    · intro id hid; simp only [updateCDP, eraseIdx, saveIdx]; rw [find_put, if_neg (by rw [hci]; exact hid)]
    · exact liq_exact hwf hw hown hfc ht hbal (by omega) hok.bcoin (by omega) e1 e2

/-- A state with one position: account 5 has 1.9 WICC pledged for 1 WUSD, account 6 holds the WUSD. -/
def memL : Mem := fun r =>
  ⟨r, fun s => if r = 5 ∧ s = "WICC" then some (fun b => if b = .pledged then 190000000 else 0)
    else if r = 6 ∧ s = WUSD then some (fun b => if b = .free then 100000000 else 0) else none, 0, 0⟩

def cdpL : Cdp := ⟨7, 5, 10, "WICC", WUSD, 190000000, 100000000⟩

def stL : St := { newCDP x86 (empty (fun r => ⟨r, fun _ => none, 0, 0⟩)) cdpL with mem := memL }

theorem memL_bal (r : Ref) (s : Sym) (b : Bucket) : bal memL r s b =
    if r = 5 ∧ s = "WICC" ∧ b = .pledged then 190000000 else if r = 6 ∧ s = WUSD ∧ b = .free then 100000000 else 0 := by
  unfold bal memL Account.token
  by_cases h1 : r = 5 ∧ s = "WICC"
  · obtain ⟨rfl, rfl⟩ := h1
    simp
  · by_cases h2 : r = 6 ∧ s = WUSD
    · obtain ⟨rfl, rfl⟩ := h2; simp
    · simp only [h1, h2, if_false, Option.getD_none, Token.zero]
      rw [if_neg (fun h => h1 ⟨h.1, h.2.1⟩), if_neg (fun h => h2 ⟨h.1, h.2.1⟩)]

theorem stL_inv : Inv x86 stL := by
  refine inv_new (empty_inv x86 _ (fun _ _ => rfl)) rfl rfl ⟨rfl, by decide, by decide, by decide, by decide⟩ ?_
  intro r s
  rw [memL_bal]
  simp only [and_true, reduceCtorEq, and_false, if_false]
  show _ = (0 : Int) + if 5 = r ∧ "WICC" = s then (190000000 : Int) else 0
  by_cases h : r = 5 ∧ s = "WICC"
  · obtain ⟨rfl, rfl⟩ := h; simp
  · rw [if_neg h, if_neg (fun e => h ⟨e.1.symm, e.2.symm⟩)]; rfl

/-- Example for C37: all hypotheses of `liquidate_fair_partial` hold of a liquidation that succeeds, at the price 0.6 with
default parameters, for a tenth of a WUSD. -/
example : ∃ σ', Inv x86 stL ∧ find stL.cdps 7 = some cdpL ∧ Sane defaults ∧ Sized cdpL 60000000 ∧ WF stL.mem ∧
    (∀ s, total stL.mem s {1, 5, 6} < 2 ^ 63) ∧ liquidate (envW 60000000 20) stL ⟨6, 7, none, 10000000⟩ = .ok σ' := by
  have hb : (match liquidate (envW 60000000 20) stL ⟨6, 7, none, 10000000⟩ with | .ok _ => true | _ => false) = true := by decide +kernel
  cases hx : liquidate (envW 60000000 20) stL ⟨6, 7, none, 10000000⟩ with
  | ok σ' =>
    refine ⟨σ', stL_inv, rfl, ⟨by decide, by decide, by decide, by decide, by decide⟩, ⟨by decide, by decide, by decide, by decide, by decide, ?_⟩, ?_, ?_, rfl⟩
    · unfold ratioQ cdpL
      rw [PBq, RBq]; unfold δ; norm_num
    · intro r s b
      show bal memL r s b < U64
      rw [memL_bal]; split
      · decide
      · split <;> decide
    · intro s
      show total memL s {1, 5, 6} < 2 ^ 63
      have : ∀ r, holding memL r s ≤ 290000000 := by
        intro r
        unfold holding
        simp only [memL_bal]
        by_cases h1 : r = 5 ∧ s = "WICC"
        · obtain ⟨rfl, rfl⟩ := h1; simp
        · by_cases h2 : r = 6 ∧ s = WUSD
          · obtain ⟨rfl, rfl⟩ := h2; simp
          · simp
            have : ¬ (r = 5 ∧ s = "WICC") := h1
            rw [if_neg h1, if_neg h2]; omega
      have h := Finset.sum_le_sum (s := ({1, 5, 6} : Finset Ref)) (fun r _ => this r)
      unfold total
      refine lt_of_le_of_lt h ?_
      rw [Finset.sum_const]
      decide
  | fail => rw [hx] at hb; cases hb
  | crash => rw [hx] at hb; cases hb

/-- The default parameters with `CDP_NONRETURN_LIQUIDATE_RATIO` at 1.0, the lower end of its range. -/
def envN (price height : Nat) : Env := { envW price height with par := fun _ => { defaults with nonReturn := 10000 } }

theorem envN_ok (p h : Nat) : (envN p h).Ok := fun _ _ _ _ i hi => by cases hi; decide

/-- C37 is violated: with the non-return ratio at 1.0 a liquidator pays 0.97 WUSD for a debt of 1 WUSD, and the penalty, the
difference, wraps around: the fund is credited with 184 billion WUSD that nobody paid. -/
theorem penalty_wraps_violated :
    ∃ es σ, Run x86 acct0 es σ ∧ es.getLast? = some (.liquidate (envN 60000000 20) ⟨6, 7, none, 100000000⟩) ∧
      find σ.cdps 7 = none ∧ bal σ.mem 6 WUSD .free = 100000000 - 97000000 ∧
      bal σ.mem 1 WUSD .free + bal σ.mem 1 WUSD .frozen = 18446744073706551616 := by
  obtain ⟨σ, h1, h2⟩ := hist_run (es := [.liquidate (envN 60000000 20) ⟨6, 7, none, 100000000⟩])
    (f := fun σ => (find σ.cdps 7, bal σ.mem 6 WUSD .free, bal σ.mem 1 WUSD .free, bal σ.mem 1 WUSD .frozen))
    (a := (none, 3000000, 9223372036853275808, 9223372036853275808))
    (by
      intro ev hev
      simp only [List.mem_cons, List.not_mem_nil, or_false] at hev
      subst hev
      exact ⟨⟨rfl, envN_ok _ _, by decide⟩, rfl⟩)
    (by decide +kernel)
  simp only [Prod.mk.injEq] at h2
  exact ⟨_, σ, h1, rfl, h2.1, h2.2.1, by rw [h2.2.2.1, h2.2.2.2]⟩

/-! ## C79 -/

/-- C79 is violated: the owner of a position asks for `2^64 - 100000000` units. The new total wraps around to 5, which the
collateral covers, and the assertion in `AddStake` aborts every node that executes the transaction. -/
theorem stake_aborts_violated :
    ∃ (es : List Ev) (σ : St) (t : Stake), Run x86 acct0 es σ ∧ (Ev.stake (envW PB 11) t).Ok x86 ∧ stake (envW PB 11) σ t = .crash := by
  obtain ⟨σ, h1, h2⟩ := hist_run (es := [])
    (f := fun σ => match stake (envW PB 11) σ ⟨8, 5, some 7, [("WICC", 0)], WUSD, 18446744073609551616⟩ with | .crash => true | _ => false)
    (a := true) (by simp) (by decide +kernel)
  refine ⟨_, σ, ⟨8, 5, some 7, [("WICC", 0)], WUSD, 18446744073609551616⟩, h1,
    ⟨rfl, envW_ok _ _, by decide, by intro x hx; simp at hx; subst hx; decide⟩, ?_⟩
  cases hx : stake (envW PB 11) σ ⟨8, 5, some 7, [("WICC", 0)], WUSD, 18446744073609551616⟩ with
  | crash => rfl
  | fail => rw [hx] at h2; cases h2
  | ok _ => rw [hx] at h2; cases h2

/-- C79 in part: staking aborts no node if the collateral and the debt of the position afterwards fit in 64 bits.
Missing: sums that do not fit, see `stake_aborts_violated`. -/
theorem stake_no_abort_partial {e : Env} {σ : St} {t : Stake}
    (h : ∀ cid c, t.cdp = some cid → find σ.cdps cid = some c → c.owed + t.mint < U64 ∧ ∀ x ∈ t.assets, c.staked + x.2 < U64) :
    stake e σ t ≠ .crash := by
  unfold stake
  simp only [bind_nc]
  refine ⟨?_, fun ⟨a, v⟩ hav => ⟨chk_nc _, fun _ _ => ⟨chk_nc _, fun _ _ => ⟨chk_nc _, fun _ _ => ⟨?_, fun _ _ => ⟨ops_nc _ _, fun _ _ => pure_nc _⟩⟩⟩⟩⟩⟩
  · unfold checkStake
    split
    · simp only [bind_nc]; exact ⟨chk_nc _, fun _ _ => ⟨chk_nc _, fun _ _ => pure_nc _⟩⟩
    · simp
  · obtain ⟨has, -⟩ := checkStake_ok hav
    unfold position
    cases hcd : t.cdp with
    | none =>
      simp only [openCdp, bind_nc]
      exact ⟨chk_nc _, fun _ _ => ⟨chk_nc _, fun _ _ => ⟨chk_nc _, fun _ _ => ⟨chk_nc _, fun _ _ => pure_nc _⟩⟩⟩⟩
    | some cid =>
      unfold growCdp
      cases hf : find σ.cdps cid with
      | none => simp [hf]
      | some c =>
        obtain ⟨k1, k2⟩ := h cid c hcd hf
        have k2 := k2 (a, v) (by rw [has]; simp)
        simp only [hf, bind_nc]
        refine ⟨chk_nc _, fun _ _ => ⟨chk_nc _, fun _ _ => ⟨chk_nc _, fun _ _ => ⟨getInterest_nc _ _, fun _ _ => ⟨ops_nc _ _, fun _ _ =>
          ⟨chk_nc _, fun _ _ => ⟨sellInterest_nc _ _ _ _ _, fun _ _ => ⟨?_, fun _ _ => pure_nc _⟩⟩⟩⟩⟩⟩⟩⟩
        unfold Cdp.addStake
        simp only [bind_nc, asrt_nc, decide_eq_true_eq]
        rw [wadd_eq k1, wadd_eq k2]
        exact ⟨by omega, fun _ _ => ⟨by omega, fun _ _ => pure_nc _⟩⟩

/-- C79: redeeming aborts no node. -/
theorem redeem_no_abort (e : Env) (σ : St) (t : Redeem) : Verif.Cdp.redeem e σ t ≠ .crash := by
  unfold Verif.Cdp.redeem
  cases hf : find σ.cdps t.cdp with
  | none => simp
  | some c =>
    dsimp only
    split
    · simp only [bind_nc]
      refine ⟨chk_nc _, fun _ _ => ⟨chk_nc _, fun _ _ => ⟨chk_nc _, fun _ _ => ⟨chk_nc _, fun _ _ => ⟨chk_nc _, fun _ _ => ⟨getInterest_nc _ _,
        fun _ _ => ⟨sellInterest_nc _ _ _ _ _, fun _ _ => ⟨chk_nc _, fun _ _ => ⟨?_, fun _ _ => ⟨?_, fun _ _ => ⟨ops_nc _ _, fun _ _ => pure_nc _⟩⟩⟩⟩⟩⟩⟩⟩⟩⟩⟩
      · unfold Cdp.redeem
        simp only [bind_nc, asrt_nc, decide_eq_true_eq]
        exact ⟨by omega, fun _ _ => ⟨by omega, fun _ _ => pure_nc _⟩⟩
      · unfold storeRedeemed
        split
        · exact pure_nc _
        · split
          · simp only [bind_nc]; exact ⟨chk_nc _, fun _ _ => ⟨chk_nc _, fun _ _ => pure_nc _⟩⟩
          · exact pure_nc _
    · simp

theorem settleOne_frame {e : Env} {σ σ' : St} {cid : Nat} (I : Inv e.k σ) (h : settleOne e σ cid = .ok σ') (id : Nat) (hid : id ≠ cid) :
    find σ'.cdps id = find σ.cdps id := by
  unfold settleOne at h
  cases hf : find σ.cdps cid with
  | none => rw [hf] at h; cases h
  | some c =>
    rw [hf] at h
    simp only [bind_ok, chk_ok, ex_unit, ops_ok, pure_ok] at h
    obtain ⟨-, -, -, i, -, m1, -, m2, -, c', hc', rfl⟩ := h
    have hci := I.good.ids _ _ hf
    have : c'.id = cid := by
      unfold Cdp.addStake at hc'
      simp only [bind_ok, asrt_ok, ex_unit, pure_ok] at hc'
      obtain ⟨-, -, rfl⟩ := hc'
      exact hci
    simp only [updateCDP, eraseIdx, saveIdx]
    rw [find_put, if_neg (by rw [this]; exact hid)]

/-- C79: settling interest aborts no node if debt and interest of each position together fit in 64 bits. -/
theorem settle_no_abort_partial {e : Env} (he : e.Ok) {σ : St} (I : Inv e.k σ) {ids : List Nat}
    (h : ∀ id ∈ ids, ∀ c i, find σ.cdps id = some c → getInterest e c = .ok i → c.owed + i < U64) : settle e σ ids ≠ .crash := by
  have key : ∀ (is : List Nat) (seen : List Nat) (σ : St), Inv e.k σ →
      (∀ id ∈ is, id ∉ seen → ∀ c i, find σ.cdps id = some c → getInterest e c = .ok i → c.owed + i < U64) →
      settleLoop e σ seen is ≠ .crash := by
    intro is
    induction is with
    | nil => intro _ _ _ _; unfold settleLoop; simp
    | cons j is ih =>
      intro seen σ I h
      unfold settleLoop
      by_cases hj : j ∈ seen
      · rw [if_pos hj]; simp
      · rw [if_neg hj]
        cases hs : settleOne e σ j with
        | fail => simp
        | ok σ' =>
          dsimp only
          refine ih _ σ' (settleOne_step rfl he I hs).inv (fun id hid hn c i hf hg => ?_)
          have hne : id ≠ j := fun e => hn (by simp [e])
          rw [settleOne_frame I hs id hne] at hf
          exact h id (by simp [hid]) (fun hm => hn (by simp [hm])) c i hf hg
        | crash =>
          exfalso
          refine absurd hs ?_
          unfold settleOne
          cases hf : find σ.cdps j with
          | none => simp
          | some c =>
            simp only [bind_nc]
            refine ⟨chk_nc _, fun _ _ => ⟨chk_nc _, fun _ _ => ⟨chk_nc _, fun _ _ => ⟨getInterest_nc _ _, fun i hi => ⟨ops_nc _ _, fun _ _ =>
              ⟨sellInterest_nc _ _ _ _ _, fun _ _ => ⟨?_, fun _ _ => pure_nc _⟩⟩⟩⟩⟩⟩⟩
            have hb := h j (by simp) hj c i hf hi
            have hst := (I.ok _ _ hf).staked
            unfold Cdp.addStake
            simp only [bind_nc, asrt_nc, decide_eq_true_eq]
            rw [wadd_eq hb, wadd_eq (by omega)]
            exact ⟨by omega, fun _ _ => ⟨by omega, fun _ _ => pure_nc _⟩⟩
  unfold settle
  simp only [bind_nc]
  exact ⟨chk_nc _, fun _ _ => key ids [] σ I (fun id hid _ => h id hid)⟩

/-- The bound of the forced liquidation, exactly. -/
def boundQ (forced price : Nat) : ℚ := (forced : ℚ) / RB / (price / PB) * PB

theorem bound_near {f p : Nat} (hf : 0 < f) (hp : 0 < p) (hp' : p < 2 ^ 64) :
    Near 8 (mul (div (div (ofU f) (ofU RB)) (div (ofU p) (ofU PB))) (ofU PB)) (boundQ f p) := by
  have f1 := qpos hf
  have p1 := qpos hp
  have p2 : (p : ℚ) < 2 ^ 64 := by exact_mod_cast hp'
  have pp0 : (0 : ℚ) < p / PB := by rw [PBq]; positivity
  have pp1 : (p : ℚ) / PB ≤ 2 ^ 64 := by
    rw [PBq]
    calc (p : ℚ) / 100000000 ≤ 2 ^ 64 / 1 := by gcongr; norm_num
      _ = 2 ^ 64 := by norm_num
  have q1 : (1 : ℚ) / 10000 ≤ f / RB := by rw [RBq]; gcongr
  have x1 := near_div (near_ofU f) RB_exact (by linarith) (by rw [RBq]; norm_num) (by decide) (by
    calc (1 : ℚ) / 2 ^ 200 ≤ 1 / 10000 := by norm_num
      _ ≤ _ := q1)
  have q2 : (1 : ℚ) / 10000 / 2 ^ 64 ≤ f / RB / (p / PB) := by gcongr
  have x2 := near_div x1 (price_near hp) (by rw [RBq]; positivity) pp0 (by decide) (by
    calc (1 : ℚ) / 2 ^ 200 ≤ 1 / 10000 / 2 ^ 64 := by norm_num
      _ ≤ _ := q2)
  have q3 : (1 : ℚ) / 10000 / 2 ^ 64 * 100000000 ≤ f / RB / (p / PB) * PB := by rw [PBq] at q2 ⊢; gcongr
  have x3 := near_mul x2 PB_exact (by rw [RBq]; positivity) (by rw [PBq]; norm_num) (by decide) (by
    calc (1 : ℚ) / 2 ^ 200 ≤ 1 / 10000 / 2 ^ 64 * 100000000 := by norm_num
      _ ≤ _ := q3)
  exact x3

theorem bound_val {f p : Nat} (hp : 0 < p) (hp' : p < 2 ^ 64) :
    boundQ f p * (1 - δ) ≤ val (mul (div (div (ofU f) (ofU RB)) (div (ofU p) (ofU PB))) (ofU PB)) ∧
    val (mul (div (div (ofU f) (ofU RB)) (div (ofU p) (ofU PB))) (ofU PB)) ≤ boundQ f p * (1 + δ) := by
  rcases Nat.eq_zero_or_pos f with rfl | hf
  · have hq : 0 < div (ofU p) (ofU PB) := by
      have h1 := (near_le (price_near hp) (by decide) (by positivity)).1
      have p1 := qpos hp
      have : (0 : ℚ) < p / PB := by rw [PBq]; positivity
      have hd : (0 : ℚ) < 1 - δ := by unfold δ; norm_num
      have h2 : 0 < val (div (ofU p) (ofU PB)) := lt_of_lt_of_le (by positivity) h1
      rcases Nat.eq_zero_or_pos (div (ofU p) (ofU PB)) with h | h
      · rw [h] at h2; simp [val] at h2
      · exact h
    rw [ofU_zero, div_zero_left (ofU_pos (by decide)), div_zero_left hq, mul_zero_left]
    simp [boundQ, val]
  · have h0 : 0 ≤ boundQ f p := by unfold boundQ; positivity
    exact near_le (bound_near hf hp hp') (by decide) h0

theorem bound_lt (k : Conv) {f p : Nat} (hf : f ≤ 20000) (hp : 0 < p) (hp' : p < 2 ^ 64) :
    boundKey k f p < MAXU ∧ val (mul (div (div (ofU f) (ofU RB)) (div (ofU p) (ofU PB))) (ofU PB)) < 2 ^ 64 := by
  have h1 := (bound_val (f := f) hp hp').2
  have p1 := qpos hp
  have f1 : (f : ℚ) ≤ 20000 := by exact_mod_cast hf
  have hb : boundQ f p ≤ 20000 / 10000 / (1 / 100000000) * 100000000 := by
    unfold boundQ; rw [RBq, PBq]; gcongr
  have hv : val (mul (div (div (ofU f) (ofU RB)) (div (ofU p) (ofU PB))) (ofU PB)) ≤ 40000000000000000 := by
    refine le_trans h1 ?_
    calc boundQ f p * (1 + δ) ≤ (20000 / 10000 / (1 / 100000000) * 100000000) * 2 := by
          have : (1 : ℚ) + δ ≤ 2 := by unfold δ; norm_num
          have : (0 : ℚ) ≤ 1 + δ := by unfold δ; norm_num
          gcongr
      _ = 40000000000000000 := by norm_num
  have hlt : val (mul (div (div (ofU f) (ofU RB)) (div (ofU p) (ofU PB))) (ofU PB)) < 2 ^ 64 := lt_of_le_of_lt hv (by norm_num)
  refine ⟨?_, hlt⟩
  have := le_trans (cv_eq k hlt).1 hv
  have h2 : boundKey k f p ≤ 40000000000000000 := by unfold boundKey; exact_mod_cast this
  unfold MAXU; omega

/-- C79: forced liquidation aborts no node: for the parameter's range and any price. -/
theorem force_no_abort {e : Env} {σ : St} {fp : Nat} {ps : List Pair}
    (h : ∀ p ∈ ps, (e.par p).forced ≤ 20000 ∧ 0 < e.price p ∧ e.price p < 2 ^ 64) : force e σ fp ps ≠ .crash := by
  have h1 : ∀ (σ : St) (c : Cdp), forceOne e σ fp c ≠ .crash := by
    intro σ c
    unfold forceOne
    simp only [bind_nc]
    exact ⟨ops_nc _ _, fun _ _ => ⟨chk_nc _, fun _ _ => pure_nc _⟩⟩
  have h2 : ∀ (cs : List Cdp) (lim : Nat) (σ : St) (n : Nat), forceLoop e fp lim σ n cs ≠ .crash := by
    intro cs lim
    induction cs with
    | nil => intro σ n; unfold forceLoop; simp
    | cons c cs ih =>
      intro σ n
      unfold forceLoop
      split
      · simp
      · split
        · simp
        · cases hx : forceOne e σ fp c with
          | ok σ' => exact ih σ' _
          | fail => simp
          | crash => exact absurd hx (h1 σ c)
  have h3 : ∀ p ∈ ps, ∀ (σ : St) (lim : Nat), forcePair e σ fp lim p ≠ .crash := by
    intro p hp σ lim
    unfold forcePair
    split
    · simp
    · dsimp only
      obtain ⟨a, b, c⟩ := h p hp
      rw [if_pos (bound_lt e.k a b c).1]
      exact h2 _ _ _ _
  have h4 : ∀ (qs : List Pair) (lim : Nat) (σ : St), (∀ p ∈ qs, p ∈ ps) → forceAll e fp σ lim qs ≠ .crash := by
    intro qs
    induction qs with
    | nil => intro _ _ _; unfold forceAll; simp
    | cons q qs ih =>
      intro lim σ hq
      unfold forceAll
      cases hx : forcePair e σ fp lim q with
      | ok x =>
        obtain ⟨σ', n⟩ := x
        dsimp only
        split
        · simp
        · exact ih _ _ (fun p hp => hq p (by simp [hp]))
      | fail => simp
      | crash => exact absurd hx (h3 q (hq q (by simp)) σ lim)
  unfold force
  split
  · simp
  · exact h4 ps 1000 σ (fun _ h => h)

end Verif.Cdp
