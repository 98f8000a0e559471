import Verif.Utxo.Lemmas

/-!
# C20, C21: outputs are spent once; UTXO transactions create no value

A history is any sequence of UTXO transactions (each with its own height, parameters and account table), block ends,
password proof transactions and other activity that changes account balances.  The specification only looks at
the list of accepted transactions: an outpoint `(id, k)` was created if some accepted transaction with that id
has more than `k` outputs, and is consumed by an accepted transaction listing it as an input.

Transaction ids of accepted transactions are assumed distinct (hash without collisions; C11 shows the same
transaction is not confirmed twice).
-/
namespace Verif.Utxo

open Verif.Account Verif.Ledger

inductive Ev where
  | tx (e : Env) (t : Tx)
  | endBlock
  | proof (txid : TxId) (idx regid proof : Nat)
  | other (m : Mem)

/-- One event; the second component lists the accepted transactions, oldest first. -/
def apply (x : St × List Tx) : Ev → St × List Tx
  | .tx e t => match step e x.1 t with
    | .ok s' => (s', x.2 ++ [t])
    | _ => x
  | .endBlock => (endBlock x.1, x.2)
  | .proof a b c d => (setProof x.1 a b c d, x.2)
  | .other m => ({ x.1 with mem := m }, x.2)

def run (x : St × List Tx) (evs : List Ev) : St × List Tx := evs.foldl apply x

/-- The state before any UTXO transaction. -/
def init (m : Mem) : St := ⟨m, fun _ => none, [], [], fun _ => none⟩

/-- The outpoints consumed by a list of transactions. -/
def consumed (acc : List Tx) : List (TxId × Nat) := acc.flatMap fun t => t.vins.map fun i => (i.prev, i.idx)

/-- An outpoint created by one of the transactions. -/
def Created (acc : List Tx) (p : TxId × Nat) : Prop := ∃ t ∈ acc, t.id = p.1 ∧ p.2 < t.vouts.length

structure Inv (x : St × List Tx) : Prop where
  unspent : ∀ p, p ∈ x.1.utxos ↔ Created x.2 p ∧ p ∉ consumed x.2
  once : (consumed x.2).Nodup
  nodup : x.1.utxos.Nodup
  chain : ∀ i p, x.1.chain i = some p → p ∈ x.2 ∧ p.id = i
  pending : ∀ p ∈ x.1.pending, p ∈ x.2
  earlier : ∀ n t, x.2[n]? = some t → ∀ i ∈ t.vins, Created (x.2.take n) (i.prev, i.idx)

theorem consumed_append (a : List Tx) (t : Tx) :
    consumed (a ++ [t]) = consumed a ++ t.vins.map pt := by
  simp [consumed, pt]

theorem created_append (a : List Tx) (t : Tx) (p : TxId × Nat) :
    Created (a ++ [t]) p ↔ Created a p ∨ (t.id = p.1 ∧ p.2 < t.vouts.length) := by
  unfold Created
  constructor
  · rintro ⟨u, hu, h⟩
    rcases List.mem_append.1 hu with h' | h'
    · exact .inl ⟨u, h', h⟩
    · rw [List.mem_singleton] at h'; subst h'; exact .inr h
  · rintro (⟨u, hu, h⟩ | h)
    · exact ⟨u, by simp [hu], h⟩
    · exact ⟨t, by simp, h⟩

theorem inv_init (m : Mem) : Inv (init m, []) := by
  constructor <;> simp [init, consumed, Created]

theorem step_ok {e : Env} {s s' : St} {t : Tx} (h : step e s t = .ok s') :
    checkTx e s t = .ok () ∧ execTx e s t = some s' := by
  unfold step at h
  obtain ⟨⟨⟩, h1, h2⟩ := Out.bind_ok h
  split at h2
  · cases h2
  · rename_i s2 hs2
    simp only [Out.ok.injEq] at h2
    subst h2
    exact ⟨h1, hs2⟩

theorem inv_apply {x : St × List Tx} (hi : Inv x) (ev : Ev) (hf : ((apply x ev).2.map Tx.id).Nodup) :
    Inv (apply x ev) := by
  cases ev with
  | endBlock =>
    refine ⟨hi.unspent, hi.once, hi.nodup, ?_, by simp [apply, endBlock], hi.earlier⟩
    intro i p hp
    simp only [apply, endBlock] at hp
    split at hp
    · rename_i q hq
      simp only [Option.some.injEq] at hp
      subst hp
      exact ⟨hi.pending _ (List.mem_of_find?_eq_some hq), by simpa using List.find?_some hq⟩
    · exact hi.chain i p hp
  | proof a b c d => exact ⟨hi.unspent, hi.once, hi.nodup, hi.chain, hi.pending, hi.earlier⟩
  | other m => exact ⟨hi.unspent, hi.once, hi.nodup, hi.chain, hi.pending, hi.earlier⟩
  | tx e t =>
    simp only [apply] at hf ⊢
    split
    case h_2 => exact hi
    rename_i s' hs
    rw [hs] at hf
    simp only [List.map_append, List.map_cons, List.map_nil, List.nodup_append] at hf
    have hfresh : ∀ u ∈ x.2, u.id ≠ t.id := by
      intro u hu h
      exact hf.2.2 _ (List.mem_map_of_mem hu) _ (by simp) h
    obtain ⟨-, hx⟩ := step_ok hs
    obtain ⟨m1, sp, tin, tout, -, -, hnd, hin, -, -, hut, hch, hpe, -⟩ := execTx_spec hx
    obtain ⟨b1, b2, -⟩ := makeOuts_spec t.id (x.1.utxos.filter (fun x => decide (x ∉ t.vins.map pt))) 0 t.vouts 0
      (hi.nodup.filter _)
    rw [← hut] at b1 b2
    have hcr : ∀ p ∈ consumed x.2, Created x.2 p := by
      intro p hp
      simp only [consumed, List.mem_flatMap, List.mem_map] at hp
      obtain ⟨u, hu, i, hii, rfl⟩ := hp
      obtain ⟨n, hn⟩ := List.mem_iff_getElem?.1 hu
      obtain ⟨v, hv, h⟩ := hi.earlier n u hn i hii
      exact ⟨v, List.mem_of_mem_take hv, h⟩
    have hnew : ∀ k, (t.id, k) ∉ consumed x.2 ∧ (t.id, k) ∉ t.vins.map pt := by
      intro k
      constructor
      · intro h
        obtain ⟨v, hv, h1, -⟩ := hcr _ h
        exact hfresh v hv h1
      · intro h
        obtain ⟨i, hi1, hi2⟩ := List.mem_map.1 h
        have := ((hi.unspent _).1 (hin i hi1).1).1
        rw [hi2] at this
        obtain ⟨v, hv, h1, -⟩ := this
        exact hfresh v hv h1
    constructor
    · intro p
      show p ∈ s'.utxos ↔ Created (x.2 ++ [t]) p ∧ p ∉ consumed (x.2 ++ [t])
      rw [b2, List.mem_filter, hi.unspent, created_append, consumed_append, List.mem_append]
      simp only [decide_eq_true_eq]
      constructor
      · rintro (⟨⟨h1, h2⟩, h3⟩ | ⟨h1, -, h3⟩)
        · exact ⟨.inl h1, by tauto⟩
        · obtain ⟨a, b⟩ := p
          simp only at h1 h3
          subst h1
          have := hnew b
          exact ⟨.inr ⟨rfl, by simpa using h3⟩, by tauto⟩
      · rintro ⟨h1 | ⟨h1, h2⟩, h3⟩
        · exact .inl ⟨⟨h1, by tauto⟩, by tauto⟩
        · exact .inr ⟨h1.symm, Nat.zero_le _, by simpa using h2⟩
    · show (consumed (x.2 ++ [t])).Nodup
      rw [consumed_append, List.nodup_append]
      refine ⟨hi.once, hnd, ?_⟩
      rintro a ha b hb rfl
      obtain ⟨i, hi1, rfl⟩ := List.mem_map.1 hb
      exact ((hi.unspent _).1 (hin i hi1).1).2 ha
    · exact b1
    · intro i p hp
      simp only [hch] at hp
      have := hi.chain i p hp
      exact ⟨by simp [this.1], this.2⟩
    · intro p hp
      simp only [hpe, List.mem_cons] at hp
      rcases hp with rfl | hp
      · simp
      · simp [hi.pending p hp]
    · intro n u hu i hii
      simp only at hu ⊢
      by_cases hn : n < x.2.length
      · rw [List.getElem?_append_left hn] at hu
        rw [List.take_append_of_le_length (by omega)]
        exact hi.earlier n u hu i hii
      · have hl := (List.getElem?_eq_some_iff.1 hu).1
        simp only [List.length_append, List.length_cons, List.length_nil] at hl
        have hne : n = x.2.length := by omega
        subst hne
        simp only [List.getElem?_append_right (Nat.le_refl _), Nat.sub_self, List.getElem?_cons_zero,
          Option.some.injEq] at hu
        subst hu
        rw [List.take_left' rfl]
        exact ((hi.unspent _).1 (hin i hii).1).1

theorem apply_extends (x : St × List Tx) (ev : Ev) : ∃ l, (apply x ev).2 = x.2 ++ l := by
  cases ev with
  | tx e t =>
    simp only [apply]
    split
    · exact ⟨[t], rfl⟩
    · exact ⟨[], by simp⟩
  | endBlock => exact ⟨[], by simp [apply]⟩
  | proof a b c d => exact ⟨[], by simp [apply]⟩
  | other m => exact ⟨[], by simp [apply]⟩

theorem run_extends (x : St × List Tx) (evs : List Ev) : ∃ l, (run x evs).2 = x.2 ++ l := by
  induction evs generalizing x with
  | nil => exact ⟨[], by simp [run]⟩
  | cons ev evs ih =>
    obtain ⟨l1, h1⟩ := apply_extends x ev
    obtain ⟨l2, h2⟩ := ih (apply x ev)
    exact ⟨l1 ++ l2, by show (run (apply x ev) evs).2 = _; rw [h2, h1, List.append_assoc]⟩

theorem nodup_prefix {x y : St × List Tx} {l : List Tx} (h : y.2 = x.2 ++ l) (hn : (y.2.map Tx.id).Nodup) :
    (x.2.map Tx.id).Nodup := by
  rw [h, List.map_append, List.nodup_append] at hn
  exact hn.1

theorem inv_run {x : St × List Tx} (hi : Inv x) (evs : List Ev) (hf : ((run x evs).2.map Tx.id).Nodup) :
    Inv (run x evs) := by
  induction evs generalizing x with
  | nil => exact hi
  | cons ev evs ih =>
    obtain ⟨l, hl⟩ := run_extends (apply x ev) evs
    exact ih (inv_apply hi ev (nodup_prefix hl hf)) hf

/-- **C20.** In every history, no outpoint is consumed twice (by different transactions or by two inputs of the
same transaction); every consumed outpoint is an output of a transaction accepted earlier; and the outpoints still
recorded as unspent are exactly those created and not consumed. -/
theorem outputs_spent_once (m : Mem) (evs : List Ev)
    (hf : ((run (init m, []) evs).2.map Tx.id).Nodup) :
    (consumed (run (init m, []) evs).2).Nodup ∧
    (∀ n t, (run (init m, []) evs).2[n]? = some t → ∀ i ∈ t.vins,
      ∃ u ∈ (run (init m, []) evs).2.take n, u.id = i.prev ∧ i.idx < u.vouts.length) ∧
    (∀ p, p ∈ (run (init m, []) evs).1.utxos ↔
      Created (run (init m, []) evs).2 p ∧ p ∉ consumed (run (init m, []) evs).2) := by
  have h := inv_run (inv_init m) evs hf
  exact ⟨h.once, fun n t hn i hi => h.earlier n t hn i hi, h.unspent⟩

/-! ### A history that spends an output -/

def exEnv : Env where
  height := 10
  txIndex := true
  vinSize := 100
  voutSize := 100
  minFee := 1
  acct := fun u => if u = 1 then some ⟨1, 1, some 1⟩ else if u = 2 then some ⟨2, 2, some 2⟩ else none
  senderKey := fun u => some u
  verify := fun h sig pk => sig == h * 100 + pk
  msKey := fun m n as => 1000 + m * 100 + n * 10 + as.sum
  msHash := fun a b c m n as => a + b + c + m + n + as.sum
  pwHash := fun k p => k * 1000 + p
  proofHash := fun p a b c d => p * 10000 + a * 1000 + b * 100 + c * 10 + d

def exMem : Mem := fun r => ⟨r, fun s => if s = "A" ∨ s = "B" then some (fun b => if b = .free then 1000 else 0) else none, 0, 0⟩

/-- user 1 locks 300 for user 2 -/
def exT1 : Tx := ⟨50, 1, 1, "A", 10, "A", [], [⟨300, [.op2sa 2]⟩, ⟨20, [.op2sa 1]⟩]⟩
/-- user 2 spends it -/
def exT2 : Tx := ⟨51, 2, 2, "A", 10, "A", [⟨50, 0, []⟩], [⟨100, [.op2sa 1]⟩]⟩
/-- a second attempt -/
def exT3 : Tx := ⟨52, 2, 2, "A", 10, "A", [⟨50, 0, []⟩], [⟨100, [.op2sa 1]⟩]⟩

def exHist : List Ev := [.tx exEnv exT1, .endBlock, .tx exEnv exT2, .endBlock, .tx exEnv exT3]

example : (run (init exMem, []) exHist).2 = [exT1, exT2] := by decide
example : (run (init exMem, []) exHist).1.utxos = [(51, 0), (50, 1)] := by decide
example : ((run (init exMem, []) exHist).2.map Tx.id).Nodup := by decide

/-! ## C21: no value is created -/

/-- Value of an outpoint in coin `sym`, according to the accepted transactions. -/
def value (acc : List Tx) (sym : Sym) (p : TxId × Nat) : Nat :=
  match acc.find? (fun t => decide (t.id = p.1)) with
  | none => 0
  | some t => if t.coin = sym then (match t.vouts[p.2]? with | some o => o.amount | none => 0) else 0

/-- Value of all unspent outputs in coin `sym`. -/
def unspentValue (x : St × List Tx) (sym : Sym) : Nat := (x.1.utxos.map (value x.2 sym)).sum

/-- Fees paid in coin `sym`. -/
def feesPaid (acc : List Tx) (sym : Sym) : Nat := (acc.map fun t => if t.feeSym = sym then t.fee else 0).sum

/-- What the code does not check: the output amounts add up without exceeding 64 bits, and every consumed output is
in the coin of the consuming transaction. Other activity must conserve the balances (C04). -/
def Good (S : Finset Ref) (x : St × List Tx) : Ev → Prop
  | .tx _ t => t.payer ∈ S ∧ t.fee < U64 ∧ (t.vouts.map Outp.amount).sum < U64 ∧
      ∀ i ∈ t.vins, ∀ u ∈ x.2, u.id = i.prev → u.coin = t.coin
  | .other m => WF m ∧ ∀ s, total m s S = total x.1.mem s S
  | _ => True

def GoodRun (S : Finset Ref) : St × List Tx → List Ev → Prop
  | _, [] => True
  | x, ev :: evs => Good S x ev ∧ GoodRun S (apply x ev) evs

theorem sum_remove (f : TxId × Nat → Nat) (l r : List (TxId × Nat)) (hl : l.Nodup) (hr : r.Nodup)
    (hs : ∀ x ∈ r, x ∈ l) :
    (l.map f).sum = ((l.filter (fun x => decide (x ∉ r))).map f).sum + (r.map f).sum := by
  have hp : l.Perm (l.filter (fun x => decide (x ∉ r)) ++ r) := by
    rw [List.perm_ext_iff_of_nodup hl]
    · intro a
      simp only [List.mem_append, List.mem_filter, decide_eq_true_eq]
      constructor
      · intro h; by_cases h' : a ∈ r
        · exact .inr h'
        · exact .inl ⟨h, h'⟩
      · rintro (h | h)
        · exact h.1
        · exact hs a h
    · rw [List.nodup_append]
      refine ⟨hl.filter _, hr, ?_⟩
      rintro a ha b hb rfl
      simp only [List.mem_filter, decide_eq_true_eq] at ha
      exact ha.2 hb
  rw [(hp.map f).sum_eq, List.map_append, List.sum_append]

theorem sum_range (l : List Outp) :
    ((List.range l.length).map (fun k => match l[k]? with | some o => o.amount | none => 0)).sum = (l.map Outp.amount).sum := by
  congr 1
  apply List.ext_getElem
  · simp
  · intro i h1 h2
    simp only [List.length_map, List.length_range] at h1
    simp [List.getElem?_eq_getElem h1]

theorem find_append_old {acc : List Tx} {t : Tx} {x : TxId} (h : ∃ u ∈ acc, u.id = x) :
    (acc ++ [t]).find? (fun t => decide (t.id = x)) = acc.find? (fun t => decide (t.id = x)) := by
  rw [List.find?_append]
  cases hf : acc.find? (fun t => decide (t.id = x)) with
  | some u => rfl
  | none =>
    obtain ⟨u, hu, hx⟩ := h
    have := List.find?_eq_none.1 hf u hu
    simp [hx] at this

theorem find_append_new {acc : List Tx} {t : Tx} (h : ∀ u ∈ acc, u.id ≠ t.id) :
    (acc ++ [t]).find? (fun u => decide (u.id = t.id)) = some t := by
  rw [List.find?_append]
  have : acc.find? (fun u => decide (u.id = t.id)) = none := by
    rw [List.find?_eq_none]; intro u hu; simpa using h u hu
  simp [this]

/-- With distinct ids, the accepted transaction with a given id is found. -/
theorem find_unique {acc : List Tx} (hn : (acc.map Tx.id).Nodup) {u : Tx} (hu : u ∈ acc) :
    acc.find? (fun t => decide (t.id = u.id)) = some u := by
  induction acc with
  | nil => cases hu
  | cons a l ih =>
    simp only [List.map_cons, List.nodup_cons] at hn
    rcases List.mem_cons.1 hu with rfl | hu
    · simp
    · rw [List.find?_cons_of_neg, ih hn.2 hu]
      simp only [decide_eq_true_eq]
      intro h
      exact hn.1 (h ▸ List.mem_map_of_mem hu)

theorem value_conserved_step (S : Finset Ref) {x : St × List Tx} (hi : Inv x) (ev : Ev)
    (hf : ((apply x ev).2.map Tx.id).Nodup) (hg : Good S x ev) (hwf : WF x.1.mem)
    (hb : ∀ s, total x.1.mem s S + unspentValue x s < U64) :
    WF (apply x ev).1.mem ∧ ∀ s,
      total (apply x ev).1.mem s S + unspentValue (apply x ev) s + feesPaid (apply x ev).2 s =
        total x.1.mem s S + unspentValue x s + feesPaid x.2 s := by
  cases ev with
  | endBlock => exact ⟨hwf, fun s => rfl⟩
  | proof a b c d => exact ⟨hwf, fun s => rfl⟩
  | other m =>
    refine ⟨hg.1, fun s => ?_⟩
    have := hg.2 s
    show total m s S + _ + _ = _
    rw [this]; rfl
  | tx e t =>
    simp only [apply] at hf ⊢
    split
    case h_2 => exact ⟨hwf, fun s => rfl⟩
    rename_i s' hs
    rw [hs] at hf
    have hf0 : (x.2.map Tx.id).Nodup := by
      simp only [List.map_append, List.nodup_append] at hf; exact hf.1
    have hfresh : ∀ u ∈ x.2, u.id ≠ t.id := by
      simp only [List.map_append, List.map_cons, List.map_nil, List.nodup_append] at hf
      intro u hu h
      exact hf.2.2 _ (List.mem_map_of_mem hu) _ (by simp) h
    obtain ⟨-, hx⟩ := step_ok hs
    obtain ⟨m1, sp, tin, tout, hfee, -, hnd, hin, htin, htout, hut, hch, hpe, hmv⟩ := execTx_spec hx
    obtain ⟨hpay, hfe, hso, hcoin⟩ := hg
    obtain ⟨b1, b2, -⟩ := makeOuts_spec t.id (x.1.utxos.filter (fun x => decide (x ∉ t.vins.map pt))) 0 t.vouts 0
      (hi.nodup.filter _)
    rw [← hut] at b1 b2
    -- value of the inputs
    have hval : ∀ i ∈ t.vins, ∀ s, value x.2 s (pt i) = if t.coin = s then prevAmt x.1.chain i else 0 := by
      intro i hii s
      obtain ⟨-, p, o, hp, ho⟩ := hin i hii
      obtain ⟨hpm, hpi⟩ := hi.chain _ _ hp
      have hc := hcoin i hii p hpm hpi
      have hfd := find_unique hf0 hpm
      rw [hpi] at hfd
      unfold value pt prevAmt
      simp only [hp, ho]
      rw [hfd]
      simp only [ho, hc]
    have hvsum : ∀ s, ((t.vins.map pt).map (value x.2 s)).sum =
        if t.coin = s then (t.vins.map (prevAmt x.1.chain)).sum else 0 := by
      intro s
      have hv : ∀ i ∈ t.vins, value x.2 s (pt i) = if t.coin = s then prevAmt x.1.chain i else 0 :=
        fun i hii => hval i hii s
      rw [List.map_map]
      clear hval
      generalize t.vins = vs at hv
      induction vs with
      | nil => simp
      | cons i is ih =>
        simp only [List.map_cons, List.sum_cons, Function.comp]
        rw [hv i (by simp)]
        have := ih (fun j hj => hv j (by simp [hj]))
        rw [this]
        split <;> rfl
    have hrem : ∀ s, unspentValue x s =
        ((x.1.utxos.filter (fun x => decide (x ∉ t.vins.map pt))).map (value x.2 s)).sum +
        (if t.coin = s then (t.vins.map (prevAmt x.1.chain)).sum else 0) := by
      intro s
      rw [← hvsum]
      exact sum_remove _ _ _ hi.nodup hnd (by
        intro p hp; obtain ⟨i, h1, rfl⟩ := List.mem_map.1 hp; exact (hin i h1).1)
    -- the unspent outputs afterwards
    have hperm : s'.utxos.Perm (x.1.utxos.filter (fun x => decide (x ∉ t.vins.map pt)) ++
        (List.range t.vouts.length).map (fun k => (t.id, k))) := by
      rw [List.perm_ext_iff_of_nodup b1]
      · intro p
        rw [b2, List.mem_append]
        apply or_congr Iff.rfl
        obtain ⟨a, b⟩ := p
        simp only [List.mem_map, List.mem_range, Prod.mk.injEq, Nat.zero_le, true_and, Nat.zero_add]
        constructor
        · rintro ⟨rfl, h⟩; exact ⟨b, h, rfl, rfl⟩
        · rintro ⟨k, h, rfl, rfl⟩; exact ⟨rfl, h⟩
      · rw [List.nodup_append]
        refine ⟨hi.nodup.filter _, ?_, ?_⟩
        · apply List.Pairwise.map _ _ List.nodup_range
          intro a b hab h
          simp only [Prod.mk.injEq, true_and] at h
          exact hab h
        · rintro a ha b hb rfl
          obtain ⟨k, -, rfl⟩ := List.mem_map.1 hb
          obtain ⟨u, hu, h1, -⟩ := ((hi.unspent _).1 (List.mem_filter.1 ha).1).1
          exact hfresh u hu h1
    have hafter : ∀ s, unspentValue (s', x.2 ++ [t]) s =
        ((x.1.utxos.filter (fun x => decide (x ∉ t.vins.map pt))).map (value x.2 s)).sum +
        (if t.coin = s then (t.vouts.map Outp.amount).sum else 0) := by
      intro s
      show (s'.utxos.map (value (x.2 ++ [t]) s)).sum = _
      rw [(hperm.map _).sum_eq, List.map_append, List.sum_append]
      congr 1
      · congr 1
        apply List.map_congr_left
        intro p hp
        obtain ⟨u, hu, h1, -⟩ := ((hi.unspent _).1 (List.mem_filter.1 hp).1).1
        simp only [value]
        rw [find_append_old ⟨u, hu, h1⟩]
      · rw [List.map_map]
        have : (value (x.2 ++ [t]) s ∘ fun k => (t.id, k)) =
            fun k => if t.coin = s then (match t.vouts[k]? with | some o => o.amount | none => 0) else 0 := by
          funext k
          simp only [Function.comp, value, find_append_new hfresh]
        rw [this]
        by_cases hc : t.coin = s
        · simp only [hc, if_true]
          exact sum_range t.vouts
        · simp [hc]
    -- no wrapping
    have htin' : tin = (t.vins.map (prevAmt x.1.chain)).sum := by
      rw [htin, wfold_eq _ _ 0]
      · simp
      · have h1 := hb t.coin
        have h2 := hrem t.coin
        simp only [if_true] at h2
        omega
    have htout' : tout = (t.vouts.map Outp.amount).sum := by
      rw [htout, wfold_eq (fun o => Outp.amount o) _ 0]
      · simp
      · simpa using hso
    -- the balance operations
    obtain ⟨qs, hq, hw, hmt, hbt⟩ : ∃ qs, execAll x.1.mem qs = some s'.mem ∧ (∀ q ∈ qs, q.Within S) ∧
        (∀ s, mintedAll s qs = if t.coin = s then tin - tout else 0) ∧
        (∀ s, burnedAll s qs = (if t.feeSym = s then t.fee else 0) + if t.coin = s then tout - tin else 0) := by
      obtain ⟨q1, e1, w1, n1, n2⟩ : ∃ qs, execAll x.1.mem qs = some m1 ∧ (∀ q ∈ qs, q.Within S) ∧
          (∀ s, mintedAll s qs = 0) ∧ (∀ s, burnedAll s qs = if t.feeSym = s then t.fee else 0) := by
        split at hfee
        · refine ⟨_, execAll_one hfee, ?_, ?_, ?_⟩
          · simp [Req.Within, hpay, hfe]
          · intro s; simp [minted]
          · intro s; simp [burned, eq_comm]
        · simp only [Option.some.injEq] at hfee
          refine ⟨[], by simp [execAll, hfee], by simp, by simp, ?_⟩
          intro s
          have : t.fee = 0 := by omega
          simp [this]
      have ht1 : tin < U64 := by
        have h1 := hb t.coin
        have h2 := hrem t.coin
        simp only [if_true] at h2
        omega
      have ht2 : tout < U64 := by omega
      obtain ⟨q2, e2, w2, n3, n4⟩ : ∃ qs, execAll m1 qs = some s'.mem ∧ (∀ q ∈ qs, q.Within S) ∧
          (∀ s, mintedAll s qs = if t.coin = s then tin - tout else 0) ∧
          (∀ s, burnedAll s qs = if t.coin = s then tout - tin else 0) := by
        split at hmv
        · refine ⟨_, execAll_one hmv, ?_, ?_, ?_⟩
          · simp only [List.mem_singleton, forall_eq, Req.Within]
            exact ⟨hpay, by simp, by omega⟩
          · intro s
            have : tin - tout = 0 := by omega
            simp [minted, this]
          · intro s; simp [burned, eq_comm]
        · split at hmv
          · refine ⟨_, execAll_one hmv, ?_, ?_, ?_⟩
            · simp only [List.mem_singleton, forall_eq, Req.Within]
              exact ⟨hpay, by simp, by omega⟩
            · intro s; simp [minted, eq_comm]
            · intro s
              have : tout - tin = 0 := by omega
              simp [burned, this]
          · simp only [Option.some.injEq] at hmv
            have h1 : tout - tin = 0 := by omega
            have h2 : tin - tout = 0 := by omega
            exact ⟨[], by simp [execAll, hmv], by simp, by simp [h2], by simp [h1]⟩
      refine ⟨q1 ++ q2, execAll_trans e1 e2, ?_, ?_, ?_⟩
      · intro q hq
        rcases List.mem_append.1 hq with h | h
        · exact w1 q h
        · exact w2 q h
      · intro s; simp [n1, n3]
      · intro s; simp [n2, n4]
    obtain ⟨w, -, tt⟩ := execAll_exact S qs _ _ hwf hw (by
      intro s
      rw [hmt]
      have h1 := hb s
      have h2 := hrem s
      split
      · rename_i hc
        simp only [hc, if_true] at h2
        omega
      · omega) hq
    refine ⟨w, fun s => ?_⟩
    have h1 := tt s
    rw [hmt, hbt] at h1
    have h2 := hrem s
    have h3 := hafter s
    show total s'.mem s S + unspentValue (s', x.2 ++ [t]) s + feesPaid (x.2 ++ [t]) s = _
    have h4 : feesPaid (x.2 ++ [t]) s = feesPaid x.2 s + if t.feeSym = s then t.fee else 0 := by
      simp [feesPaid]
    rw [h3, h4, h2]
    split_ifs at h1 ⊢ <;> omega

theorem value_conserved_run (S : Finset Ref) {x : St × List Tx} (hi : Inv x) (evs : List Ev)
    (hf : ((run x evs).2.map Tx.id).Nodup) (hg : GoodRun S x evs) (hwf : WF x.1.mem)
    (hb : ∀ s, total x.1.mem s S + unspentValue x s < U64) :
    WF (run x evs).1.mem ∧ ∀ s,
      total (run x evs).1.mem s S + unspentValue (run x evs) s + feesPaid (run x evs).2 s =
        total x.1.mem s S + unspentValue x s + feesPaid x.2 s := by
  induction evs generalizing x with
  | nil => exact ⟨hwf, fun s => rfl⟩
  | cons ev evs ih =>
    obtain ⟨l, hl⟩ := run_extends (apply x ev) evs
    have hf1 := nodup_prefix hl hf
    obtain ⟨w, c⟩ := value_conserved_step S hi ev hf1 hg.1 hwf hb
    have hmono : ∀ s, feesPaid x.2 s ≤ feesPaid (apply x ev).2 s := by
      intro s
      obtain ⟨l2, h2⟩ := apply_extends x ev
      rw [h2]; simp [feesPaid]
    obtain ⟨w2, c2⟩ := ih (inv_apply hi ev hf1) hf hg.2 w (by
      intro s; have a := c s; have b := hb s; have d := hmono s; omega)
    exact ⟨w2, fun s => (c2 s).trans (c s)⟩

/-- **C21 (partial).** From a state without UTXO outputs: for every coin, balances plus the value of the unspent
outputs plus the fees paid stay equal to the initial balances, for every history in which output amounts of one
transaction sum to less than 2^64 and consumed outputs are in the coin of the consuming transaction.
Missing: these two conditions, which the code does not check (see the violations below). -/
theorem no_value_created_partial (S : Finset Ref) (m : Mem) (evs : List Ev)
    (hf : ((run (init m, []) evs).2.map Tx.id).Nodup) (hg : GoodRun S (init m, []) evs) (hwf : WF m)
    (hb : ∀ s, total m s S < U64) (s : Sym) :
    total (run (init m, []) evs).1.mem s S + unspentValue (run (init m, []) evs) s +
      feesPaid (run (init m, []) evs).2 s = total m s S := by
  have h := (value_conserved_run S (inv_init m) evs hf hg hwf (by
    intro s; simpa [unspentValue, init] using hb s)).2 s
  simpa [unspentValue, feesPaid, init] using h

example : GoodRun {1, 2} (init exMem, []) exHist := by
  refine ⟨?_, ?_, ?_, ?_, ?_, ?_⟩
  · refine ⟨by decide, by simp [exT1, U64], by simp [exT1, U64], by simp [exT1]⟩
  · trivial
  · refine ⟨by decide, by simp [exT2, U64], by simp [exT2, U64], by decide⟩
  · trivial
  · refine ⟨by decide, by simp [exT3, U64], by simp [exT3, U64], by decide⟩
  · trivial
example : total exMem "A" {1, 2} = 2000 ∧
    total (run (init exMem, []) exHist).1.mem "A" {1, 2} = 1860 ∧
    unspentValue (run (init exMem, []) exHist) "A" = 120 ∧
    feesPaid (run (init exMem, []) exHist).2 "A" = 20 := by decide

/-- Two outputs of 2^63 each cost nothing: their sum wraps to 0. -/
def wrapTx : Tx := ⟨60, 1, 1, "A", 10, "A", [], [⟨2^63, [.op2sa 1]⟩, ⟨2^63, [.op2sa 1]⟩]⟩
/-- One of them is then spent, giving the spender 2^63 units out of nothing. -/
def wrapSpend : Tx := ⟨61, 1, 1, "A", 10, "A", [⟨60, 0, []⟩], []⟩
def wrapHist : List Ev := [.tx exEnv wrapTx, .endBlock, .tx exEnv wrapSpend]

/-- **C21 violated.** A user with 1000 units ends up with more than 2^63. -/
theorem no_value_created_violated :
    total exMem "A" {1, 2} = 2000 ∧
    (run (init exMem, []) wrapHist).2 = [wrapTx, wrapSpend] ∧
    bal (run (init exMem, []) wrapHist).1.mem 1 "A" .free = 2^63 + 980 := by decide

/-- An output of coin "A" is consumed by a transaction in coin "B". -/
def mixTx : Tx := ⟨60, 1, 1, "A", 10, "A", [], [⟨500, [.op2sa 1]⟩]⟩
def mixSpend : Tx := ⟨61, 1, 1, "A", 10, "B", [⟨60, 0, []⟩], []⟩
def mixHist : List Ev := [.tx exEnv mixTx, .endBlock, .tx exEnv mixSpend]

/-- **C21 violated.** 500 units of coin A become 500 units of coin B. -/
theorem coin_identity_violated :
    (run (init exMem, []) mixHist).2 = [mixTx, mixSpend] ∧
    (run (init exMem, []) mixHist).1.utxos = [] ∧
    bal exMem 1 "B" .free = 1000 ∧
    bal (run (init exMem, []) mixHist).1.mem 1 "B" .free = 1500 ∧
    bal (run (init exMem, []) mixHist).1.mem 1 "A" .free = 480 := by decide

end Verif.Utxo
