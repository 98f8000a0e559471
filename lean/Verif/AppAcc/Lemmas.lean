import Verif.AppAcc.Model

/-! Lemmas about contract user accounts. -/
namespace Verif.AppAcc

/-! ## Sums over an account -/

/-- Locked value with timeout at most `H`. -/
def due : List Fund → Int → Nat
  | [], _ => 0
  | f :: fs, H => (if f.height ≤ H then f.value else 0) + due fs H

/-- Locked value under a tag and timeout. -/
def locked : List Fund → List Nat → Int → Nat
  | [], _, _ => 0
  | f :: fs, tg, ht => (if f.tag = tg ∧ f.height = ht then f.value else 0) + locked fs tg ht

/-- Everything locked. -/
def allLocked : List Fund → Nat
  | [] => 0
  | f :: fs => f.value + allLocked fs

def total (a : Acct) : Nat := a.free + allLocked a.funds

theorem map_ok {α β : Type} {f : α → β} {r : Res α} {b : β} (h : r.map f = .ok b) : ∃ a, r = .ok a ∧ f a = b := by
  cases r with
  | ok a => exact ⟨a, rfl, by simpa [Res.map] using h⟩
  | fail => cases h
  | crash => cases h

theorem map_crash {α β : Type} {f : α → β} {r : Res α} : r.map f = .crash ↔ r = .crash := by
  cases r <;> simp [Res.map]

theorem addFund_ok {fs gs : List Fund} {f : Fund} (h : addFund fs f = .ok gs) :
    (∀ H, due gs H = due fs H + if f.height ≤ H then f.value else 0) ∧
    (∀ tg ht, locked gs tg ht = locked fs tg ht + if f.tag = tg ∧ f.height = ht then f.value else 0) ∧
    allLocked gs = allLocked fs + f.value := by
  induction fs generalizing gs with
  | nil =>
    simp only [addFund, Res.ok.injEq] at h
    subst h
    refine ⟨fun H => ?_, fun tg ht => ?_, ?_⟩ <;> simp [due, locked, allLocked]
  | cons g fs ih =>
    simp only [addFund] at h
    split at h
    · rename_i hk
      split at h
      · cases h
      · split at h
        · cases h
          refine ⟨fun H => ?_, fun tg ht => ?_, ?_⟩
          · simp only [due, hk.2]; split <;> omega
          · simp only [locked, hk.1, hk.2]; split <;> omega
          · simp only [allLocked]; omega
        · cases h
    · obtain ⟨gs', h1, rfl⟩ := map_ok h
      obtain ⟨i1, i2, i3⟩ := ih h1
      refine ⟨fun H => ?_, fun tg ht => ?_, ?_⟩
      · simp only [due, i1]; omega
      · simp only [locked, i2]; omega
      · simp only [allLocked, i3]; omega

theorem subFund_ok {fs gs : List Fund} {f : Fund} (h : subFund fs f = .ok gs) :
    (∀ H, due fs H = due gs H + if f.height ≤ H then f.value else 0) ∧
    (∀ tg ht, locked fs tg ht = locked gs tg ht + if f.tag = tg ∧ f.height = ht then f.value else 0) ∧
    allLocked fs = allLocked gs + f.value := by
  induction fs generalizing gs with
  | nil => cases h
  | cons g fs ih =>
    simp only [subFund] at h
    split at h
    · rename_i hk
      split at h
      · rename_i hv
        split at h
        · rename_i he
          cases h
          refine ⟨fun H => ?_, fun tg ht => ?_, ?_⟩
          · simp only [due, hk.2, he]; omega
          · simp only [locked, hk.1, hk.2, he]; omega
          · simp only [allLocked, he]; omega
        · cases h
          refine ⟨fun H => ?_, fun tg ht => ?_, ?_⟩
          · simp only [due, hk.2]; split <;> omega
          · simp only [locked, hk.1, hk.2]; split <;> omega
          · simp only [allLocked]; omega
      · cases h
    · obtain ⟨gs', h1, rfl⟩ := map_ok h
      obtain ⟨i1, i2, i3⟩ := ih h1
      refine ⟨fun H => ?_, fun tg ht => ?_, ?_⟩
      · simp only [due, i1]; omega
      · simp only [locked, i2]; omega
      · simp only [allLocked, i3]; omega

/-! ## What an operation means -/

/-- Change of the free funds. -/
def freeD (o : Op) : Int := if o.kind = 1 then u64 o.money else if o.kind = 2 then -(u64 o.money : Int) else 0

/-- Change of the locked funds. -/
def lockD (o : Op) : Int := if o.kind = 3 then u64 o.money else if o.kind = 4 then -(u64 o.money : Int) else 0

theorem operate_ok {a b : Acct} {o : Op} (h : operate a o = .ok b) :
    (∀ H, (b.free + due b.funds H : Int) = a.free + due a.funds H + freeD o + if i32 o.timeout ≤ H then lockD o else 0) ∧
    (∀ tg ht, (locked b.funds tg ht : Int) = locked a.funds tg ht + if o.tag = some tg ∧ i32 o.timeout = ht then lockD o else 0) ∧
    ((total b : Int) = total a + freeD o + lockD o) := by
  unfold operate at h
  unfold freeD lockD total
  by_cases k1 : o.kind = 1
  · have k3 : ¬ o.kind = 3 := by omega
    have k4 : ¬ o.kind = 4 := by omega
    simp only [k1, if_true] at h
    split at h
    · cases h
      refine ⟨fun H => ?_, fun tg ht => ?_, ?_⟩
      · simp [k1]; omega
      · simp [k1]
      · simp [k1]; omega
    · cases h
  · by_cases k2 : o.kind = 2
    · simp only [k2] at h
      simp only [show ¬ (2 : Nat) = 1 by decide, if_false, if_true] at h
      split at h
      · rename_i hge
        cases h
        refine ⟨fun H => ?_, fun tg ht => ?_, ?_⟩
        · simp [k2]; omega
        · simp [k2]
        · simp [k2]; omega
      · cases h
    · by_cases k3 : o.kind = 3
      · simp only [k3] at h
        simp only [show ¬ (3 : Nat) = 1 by decide, show ¬ (3 : Nat) = 2 by decide, if_false, if_true] at h
        split at h
        · cases h
        · rename_i tg htg
          split at h
          · cases h
          · obtain ⟨gs, h1, rfl⟩ := map_ok h
            obtain ⟨i1, i2, i3⟩ := addFund_ok h1
            refine ⟨fun H => ?_, fun tg' ht => ?_, ?_⟩
            · have := i1 H
              dsimp only at this ⊢
              simp only [k3, this]
              split <;> simp <;> omega
            · have := i2 tg' ht
              dsimp only at this ⊢
              simp only [k3, this, htg, Option.some.injEq]
              split <;> simp
            · dsimp only at i3 ⊢
              simp only [k3]; simp; omega
      · by_cases k4 : o.kind = 4
        · simp only [k4] at h
          simp only [show ¬ (4 : Nat) = 1 by decide, show ¬ (4 : Nat) = 2 by decide, show ¬ (4 : Nat) = 3 by decide, if_false,
            if_true] at h
          split at h
          · cases h
          · rename_i tg htg
            split at h
            · cases h
            · split at h
              · cases h
              · obtain ⟨gs, h1, rfl⟩ := map_ok h
                obtain ⟨i1, i2, i3⟩ := subFund_ok h1
                refine ⟨fun H => ?_, fun tg' ht => ?_, ?_⟩
                · have := i1 H
                  dsimp only at this ⊢
                  simp only [k4, this]
                  split <;> simp <;> omega
                · have := i2 tg' ht
                  dsimp only at this ⊢
                  simp only [k4, this, htg, Option.some.injEq]
                  split <;> simp <;> omega
                · dsimp only at i3 ⊢
                  simp only [k4]; simp; omega
        · simp [k1, k2, k3, k4] at h

/-- Sums over a list of operations. -/
def sumI (f : Op → Int) : List Op → Int
  | [] => 0
  | o :: os => f o + sumI f os

theorem sumI_append (f : Op → Int) : ∀ a b : List Op, sumI f (a ++ b) = sumI f a + sumI f b
  | [], b => by simp [sumI]
  | o :: a, b => by simp only [List.cons_append, sumI, sumI_append f a b]; omega

def dueD (H : Int) (o : Op) : Int := freeD o + if i32 o.timeout ≤ H then lockD o else 0
def keyD (tg : List Nat) (ht : Int) (o : Op) : Int := if o.tag = some tg ∧ i32 o.timeout = ht then lockD o else 0
def totD (o : Op) : Int := freeD o + lockD o

theorem operateAll_ok : ∀ {os : List Op} {a b : Acct}, operateAll a os = .ok b →
    (∀ H, (b.free + due b.funds H : Int) = a.free + due a.funds H + sumI (dueD H) os) ∧
    (∀ tg ht, (locked b.funds tg ht : Int) = locked a.funds tg ht + sumI (keyD tg ht) os) ∧
    ((total b : Int) = total a + sumI totD os)
  | [], a, b, h => by cases h; simp [sumI]
  | o :: os, a, b, h => by
    simp only [operateAll] at h
    split at h
    · rename_i a' h1
      obtain ⟨p1, p2, p3⟩ := operate_ok h1
      obtain ⟨q1, q2, q3⟩ := operateAll_ok h
      refine ⟨fun H => ?_, fun tg ht => ?_, ?_⟩
      · rw [q1, p1]; simp only [sumI, dueD]; omega
      · rw [q2, p2]; simp only [sumI, keyD]; omega
      · rw [q3, p3]; simp only [sumI, totD]; omega
    · cases h
    · cases h

/-! ## Releasing -/

theorem mergeLoop_spec (h : Int) : ∀ (fs : List Fund) (free : Nat),
    (free < U64 → ((mergeLoop h free fs).1 = true ↔ free + due fs h < U64)) ∧
    ((mergeLoop h free fs).1 = true → (mergeLoop h free fs).2 = free + due fs h)
  | [], free => by simp [mergeLoop, due]
  | f :: fs, free => by
    simp only [mergeLoop, due]
    by_cases hf : f.height ≤ h
    · simp only [hf, if_true]
      by_cases hv : free + f.value < U64
      · simp only [hv, if_true]
        obtain ⟨i1, i2⟩ := mergeLoop_spec h fs (free + f.value)
        refine ⟨fun _ => ?_, fun ht => ?_⟩
        · rw [i1 hv]; omega
        · rw [i2 ht]; omega
      · simp only [hv, if_false]
        refine ⟨fun _ => ⟨fun h => (by cases h), fun h => (by omega)⟩, fun h => (by cases h)⟩
    · simp only [hf, if_false]
      obtain ⟨i1, i2⟩ := mergeLoop_spec h fs free
      refine ⟨fun hl => ?_, fun ht => ?_⟩
      · rw [i1 hl]; omega
      · rw [i2 ht]; omega

theorem due_filter (h : Int) : ∀ (fs : List Fund) (H : Int), h ≤ H →
    due fs H = due fs h + due (fs.filter (fun f => ¬ f.height ≤ h)) H
  | [], _, _ => rfl
  | f :: fs, H, hh => by
    have ih := due_filter h fs H hh
    by_cases hf : f.height ≤ h
    · have : f.height ≤ H := by omega
      simp only [due, hf, this, if_true, List.filter_cons, not_true, decide_false, Bool.false_eq_true, if_false, ih]; omega
    · simp only [due, hf, if_false, List.filter_cons, not_false_iff, decide_true, if_true, ih]; omega

theorem locked_filter (h : Int) (tg : List Nat) (ht : Int) (hh : h < ht) : ∀ (fs : List Fund),
    locked (fs.filter (fun f => ¬ f.height ≤ h)) tg ht = locked fs tg ht
  | [] => rfl
  | f :: fs => by
    have ih := locked_filter h tg ht hh fs
    by_cases hf : f.height ≤ h
    · have : ¬ (f.tag = tg ∧ f.height = ht) := by rintro ⟨_, e⟩; omega
      simp only [List.filter_cons, hf, not_true, decide_false, Bool.false_eq_true, if_false, ih, locked, this]; omega
    · simp only [List.filter_cons, hf, not_false_iff, decide_true, if_true, locked, ih]

theorem all_filter (h : Int) : ∀ (fs : List Fund),
    allLocked fs = due fs h + allLocked (fs.filter (fun f => ¬ f.height ≤ h))
  | [] => rfl
  | f :: fs => by
    have ih := all_filter h fs
    by_cases hf : f.height ≤ h
    · simp only [allLocked, due, hf, if_true, List.filter_cons, not_true, decide_false, Bool.false_eq_true, if_false, ih]; omega
    · simp only [allLocked, due, hf, if_false, List.filter_cons, not_false_iff, decide_true, if_true, ih]; omega

/-- `AutoMergeFreezeToFree` in closed form. -/
theorem autoMerge_true {a b : Acct} {h : Int} (hm : autoMerge a h = (true, b)) :
    b = ⟨a.free + due a.funds h, a.funds.filter (fun f => ¬ f.height ≤ h)⟩ := by
  unfold autoMerge at hm
  rcases hl : mergeLoop h a.free a.funds with ⟨ok, free⟩
  rw [hl] at hm
  cases ok with
  | false => cases hm
  | true =>
    simp only [Prod.mk.injEq, true_and] at hm
    have := (mergeLoop_spec h a.funds a.free).2 (by rw [hl])
    rw [hl] at this
    rw [← hm]; simp only [Acct.mk.injEq, and_true]; exact this

theorem autoMerge_iff {a : Acct} (h : Int) (hf : a.free < U64) : (autoMerge a h).1 = true ↔ a.free + due a.funds h < U64 := by
  rw [← (mergeLoop_spec h a.funds a.free).1 hf]
  unfold autoMerge
  rcases mergeLoop h a.free a.funds with ⟨ok, free⟩
  cases ok <;> simp

theorem autoMerge_facts {a b : Acct} {h : Int} (hm : autoMerge a h = (true, b)) :
    (∀ H, h ≤ H → b.free + due b.funds H = a.free + due a.funds H) ∧
    (∀ tg ht, h < ht → locked b.funds tg ht = locked a.funds tg ht) ∧ total b = total a ∧ (∀ f ∈ b.funds, h < f.height) := by
  rw [autoMerge_true hm]
  refine ⟨fun H hH => ?_, fun tg ht hh => locked_filter h tg ht hh _, ?_, fun f hf => ?_⟩
  · rw [due_filter h a.funds H hH]; dsimp only; omega
  · unfold total; rw [all_filter h a.funds]; dsimp only; omega
  · have := (List.mem_filter.1 hf).2
    simp at this; exact this

/-! ## The map of operations -/

theorem ltU_total : StrictTotal ltU := by
  refine ⟨fun a => by simp [ltU], fun a b c => ?_, fun a b => ?_⟩
  · simp only [ltU, decide_eq_true_eq]; omega
  · simp only [ltU, decide_eq_false_iff_not]; omega

theorem insertOp_find (m : OpMap) (u : Nat) (o : Op) (q : Nat) :
    (find (insertOp m u o) q).getD [] = (find m q).getD [] ++ if q = u then [o] else [] := by
  unfold insertOp
  split
  · rename_i os h
    rw [find_put]
    by_cases hq : q = u
    · subst hq; simp [h]
    · simp [hq]
  · rename_i h
    rw [find_put]
    by_cases hq : q = u
    · subst hq; simp [h]
    · simp [hq]

theorem insertOp_sorted {m : OpMap} (h : SortedBy ltU m) (u : Nat) (o : Op) : SortedBy ltU (insertOp m u o) := by
  unfold insertOp
  split <;> exact sorted_put ltU_total h _ _

/-- Sum over all operations of the map. -/
def mapSum (f : Op → Int) : OpMap → Int
  | [] => 0
  | (_, os) :: m => sumI f os + mapSum f m

theorem mapSum_put (f : Op → Int) {m : OpMap} (hs : SortedBy ltU m) (u : Nat) (os : List Op) :
    mapSum f (put ltU m u os) = mapSum f m - sumI f ((find m u).getD []) + sumI f os := by
  induction m with
  | nil => simp [put, mapSum, sumI]
  | cons p m ih =>
    obtain ⟨k, v⟩ := p
    have hs' := List.pairwise_cons.1 hs
    by_cases h1 : u = k
    · subst h1; simp [put, mapSum, find]; omega
    · by_cases h2 : ltU u k = true
      · have hn : find m u = none := by
          cases hf : find m u with
          | none => rfl
          | some w =>
            have := hs'.1 _ (find_mem hf)
            simp only [ltU, decide_eq_true_eq] at this h2
            omega
        simp [put, h1, h2, mapSum, find, hn, sumI]; omega
      · have hp : put ltU ((k, v) :: m) u os = (k, v) :: put ltU m u os := by simp [put, h1, h2]
        rw [hp]
        simp only [mapSum, ih hs'.2, find, h1, if_false]; omega

theorem mapSum_insert (f : Op → Int) {m : OpMap} (hs : SortedBy ltU m) (u : Nat) (o : Op) :
    mapSum f (insertOp m u o) = mapSum f m + f o := by
  unfold insertOp
  split
  · rename_i os h
    rw [mapSum_put f hs, h]
    simp only [Option.getD_some, sumI_append, sumI]; omega
  · rename_i h
    rw [mapSum_put f hs, h]
    simp [sumI]

/-! ## What a script emits -/

def pairOps (send recv : Nat) (sub add timeout : Nat) (money : Int) (tag : Option (List Nat)) : List (Nat × Op) :=
  [(send, ⟨sub, timeout, money, tag⟩), (recv, ⟨add, timeout, money, tag⟩)]

/-- The operations a call asks for, with their users. -/
def emit (s : Store) (r2 : Bool) (tip : Int) : Call → List (Nat × Op)
  | .write u o => if r2 ∧ o.money < 0 then [] else [(u, o)]
  | .some send recv amount timeout tag =>
    if send = recv ∨ amount = 0 ∨ i32 timeout < 0 then []
    else if i32 timeout > 0 then pairOps send recv 4 3 timeout (i64 amount) tag
    else pairOps send recv 2 1 timeout (i64 amount) tag
  | .all send recv =>
    if send = recv then []
    else
      match s send with
      | none => []
      | Option.some a =>
        let a1 := (autoMerge a tip).2
        (if a1.free > 0 then pairOps send recv 2 1 0 (i64 a1.free) (Option.some []) else []) ++
          a1.funds.flatMap (fun f => pairOps send recv 4 3 (u32 f.height) (i64 f.value) (Option.some f.tag))

def emits (s : Store) (x : Tx) : List (Nat × Op) := x.calls.flatMap (emit s x.r2 x.tip)

/-- The operations of one user. -/
def ofUser (u : Nat) (l : List (Nat × Op)) : List Op := (l.filter (fun p => p.1 == u)).map (·.2)

def insertAll : OpMap → List (Nat × Op) → OpMap
  | m, [] => m
  | m, (u, o) :: l => insertAll (insertOp m u o) l

theorem insertAll_append (m : OpMap) (a b : List (Nat × Op)) : insertAll m (a ++ b) = insertAll (insertAll m a) b := by
  induction a generalizing m with
  | nil => rfl
  | cons p a ih => exact ih _

theorem insertFunds_eq (send recv : Nat) (fs : List Fund) (m : OpMap) :
    insertFunds send recv m fs =
      insertAll m (fs.flatMap (fun f => pairOps send recv 4 3 (u32 f.height) (i64 f.value) (some f.tag))) := by
  induction fs generalizing m with
  | nil => rfl
  | cons f fs ih =>
    rw [List.flatMap_cons, insertAll_append]
    exact ih _

theorem call_ok {s : Store} {r2 : Bool} {tip : Int} {m m' : OpMap} {c : Call} (h : call s r2 tip m c = .ok m') :
    m' = insertAll m (emit s r2 tip c) := by
  cases c with
  | write u o =>
    simp only [call, emit] at *
    split at h <;> rename_i hc
    · rw [if_pos hc]; cases h; rfl
    · rw [if_neg hc]; cases h; rfl
  | some send recv amount timeout tag =>
    simp only [call] at h
    by_cases h1 : send = recv
    · rw [if_pos h1] at h; cases h; simp [emit, h1, insertAll]
    · rw [if_neg h1] at h
      by_cases h2 : amount = 0
      · rw [if_pos h2] at h; cases h; simp [emit, h2, insertAll]
      · rw [if_neg h2] at h
        by_cases h3 : i32 timeout < 0
        · rw [if_pos h3] at h; cases h; simp [emit, h3, insertAll]
        · rw [if_neg h3] at h
          cases tag with
          | none => cases h
          | some tg =>
            dsimp only at h
            by_cases h4 : i32 timeout > 0
            · rw [if_pos h4] at h; cases h; simp [emit, h1, h2, h3, h4, insertAll, insertPair, pairOps]
            · rw [if_neg h4] at h; cases h; simp [emit, h1, h2, h3, h4, insertAll, insertPair, pairOps]
  | all send recv =>
    simp only [call] at h
    by_cases h1 : send = recv
    · rw [if_pos h1] at h; cases h; simp [emit, h1, insertAll]
    · rw [if_neg h1] at h
      cases hs : s send with
      | none => rw [hs] at h; cases h; simp [emit, h1, hs, insertAll]
      | some a =>
        rw [hs] at h
        dsimp only at h
        cases h
        simp only [emit, h1, hs, if_false]
        rw [insertAll_append, insertFunds_eq]
        congr 1
        split <;> rfl

theorem calls_ok {s : Store} {r2 : Bool} {tip : Int} : ∀ {cs : List Call} {m m' : OpMap}, calls s r2 tip m cs = .ok m' →
    m' = insertAll m (cs.flatMap (emit s r2 tip))
  | [], m, m', h => by cases h; rfl
  | c :: cs, m, m', h => by
    simp only [calls] at h
    split at h
    · rename_i m1 h1
      rw [List.flatMap_cons, insertAll_append, ← call_ok h1]
      exact calls_ok h
    · cases h
    · cases h

theorem insertAll_sorted {l : List (Nat × Op)} : ∀ {m : OpMap}, SortedBy ltU m → SortedBy ltU (insertAll m l) := by
  induction l with
  | nil => intro m h; exact h
  | cons p l ih => intro m h; exact ih (insertOp_sorted h _ _)

theorem insertAll_find {l : List (Nat × Op)} : ∀ (m : OpMap) (q : Nat),
    (find (insertAll m l) q).getD [] = (find m q).getD [] ++ ofUser q l := by
  induction l with
  | nil => intro m q; simp [insertAll, ofUser]
  | cons p l ih =>
    intro m q
    obtain ⟨u, o⟩ := p
    simp only [insertAll]
    rw [ih, insertOp_find]
    unfold ofUser
    by_cases hq : q = u
    · subst hq; simp
    · have : ¬ (u == q) = true := by simp; exact fun e => hq e.symm
      simp [hq, this]

theorem insertAll_sum (f : Op → Int) {l : List (Nat × Op)} : ∀ {m : OpMap}, SortedBy ltU m →
    mapSum f (insertAll m l) = mapSum f m + sumI f (l.map (·.2)) := by
  induction l with
  | nil => intro m _; simp [insertAll, sumI]
  | cons p l ih =>
    intro m h
    obtain ⟨u, o⟩ := p
    simp only [insertAll]
    rw [ih (insertOp_sorted h _ _), mapSum_insert f h]
    simp only [List.map_cons, sumI]; omega

/-! ## Running the map -/

theorem find_none_of_lt {m : OpMap} {k : Nat} {v : List Op} (hs : SortedBy ltU ((k, v) :: m)) : find m k = none := by
  cases hf : find m k with
  | none => rfl
  | some w =>
    have := (List.pairwise_cons.1 hs).1 _ (find_mem hf)
    simp only [ltU, decide_eq_true_eq] at this
    omega

/-- One user's part of `OperateAppAccount`. -/
def operateUser (s : Store) (h : Int) (u : Nat) (os : List Op) : Res Acct :=
  match getAcct s h u with
  | none => .fail
  | some a => operateAll a os

theorem autoMerge_again {a b : Acct} {h : Int} (hm : autoMerge a h = (true, b)) : autoMerge b h = (true, b) := by
  have hf := (autoMerge_facts hm).2.2.2
  obtain ⟨free, funds⟩ := b
  have hl : ∀ (fs : List Fund) (n : Nat), (∀ f ∈ fs, h < f.height) → mergeLoop h n fs = (true, n) := by
    intro fs
    induction fs with
    | nil => intros; rfl
    | cons f fs ih =>
      intro n hh
      have : ¬ f.height ≤ h := by have := hh f (List.mem_cons_self ..); omega
      simp only [mergeLoop, this, if_false]
      exact ih n (fun g hg => hh g (List.mem_cons_of_mem _ hg))
  unfold autoMerge
  rw [hl funds free hf]
  simp only [Prod.mk.injEq, Acct.mk.injEq, true_and]
  rw [List.filter_eq_self]
  intro f hff
  have := hf f hff
  simp; exact this

theorem getAcct_merged {s : Store} {h : Int} {u : Nat} {a : Acct} (hg : getAcct s h u = some a) : autoMerge a h = (true, a) := by
  unfold getAcct at hg
  split at hg
  · cases hg; rfl
  · split at hg
    · rename_i a0 a1 hm
      cases hg; exact autoMerge_again hm
    · cases hg

theorem operateMap_cons (h : Int) (s : Store) (u : Nat) (os : List Op) (m : OpMap) :
    operateMap h s ((u, os) :: m) =
      match operateUser s h u os with
      | .ok a => operateMap h (setAcct s u a) m
      | .fail => .fail
      | .crash => .crash := by
  simp only [operateMap, operateUser]
  cases hg : getAcct s h u with
  | none => rfl
  | some a =>
    dsimp only
    rw [getAcct_merged hg]
    dsimp only
    cases operateAll a os <;> rfl

theorem getAcct_congr {s s' : Store} {h : Int} {u : Nat} (hh : s u = s' u) : getAcct s h u = getAcct s' h u := by
  unfold getAcct; rw [hh]

theorem operateMap_user (h : Int) : ∀ {m : OpMap} {s s' : Store}, SortedBy ltU m → operateMap h s m = .ok s' → ∀ u,
    match find m u with
    | none => s' u = s u
    | some os => ∃ a, operateUser s h u os = .ok a ∧ s' u = some a
  | [], s, s', _, hr, u => by cases hr; rfl
  | (k, v) :: m, s, s', hs, hr, u => by
    rw [operateMap_cons] at hr
    have hs' := (List.pairwise_cons.1 hs).2
    split at hr
    · rename_i a ha
      have ih := operateMap_user h hs' hr u
      by_cases hu : u = k
      · subst hu
        simp only [find, if_true]
        rw [find_none_of_lt hs] at ih
        exact ⟨a, ha, by rw [ih]; simp [setAcct]⟩
      · simp only [find, hu, if_false]
        have hsk : setAcct s k a u = s u := by simp [setAcct, hu]
        cases hf : find m u with
        | none => rw [hf] at ih; dsimp only at ih ⊢; rw [ih, hsk]
        | some os =>
          rw [hf] at ih
          dsimp only at ih ⊢
          obtain ⟨b, hb, hb'⟩ := ih
          refine ⟨b, ?_, hb'⟩
          unfold operateUser at hb ⊢
          rw [← getAcct_congr hsk]; exact hb
    · cases hr
    · cases hr

theorem insertAll_nonempty {l : List (Nat × Op)} : ∀ {m : OpMap}, (∀ p ∈ m, p.2 ≠ []) → ∀ p ∈ insertAll m l, p.2 ≠ [] := by
  induction l with
  | nil => intro m h; exact h
  | cons q l ih =>
    intro m hm
    refine ih (fun p hp => ?_)
    unfold insertOp at hp
    split at hp <;> rcases mem_put hp with rfl | hp
    · simp
    · exact hm p hp
    · simp
    · exact hm p hp

/-- A successful transaction, user by user. -/
theorem exec_user {s s' : Store} {x : Tx} (h : exec s x = .ok s') (u : Nat) :
    (ofUser u (emits s x) = [] ∧ s' u = s u) ∨
    (ofUser u (emits s x) ≠ [] ∧ ∃ a, operateUser s x.h u (ofUser u (emits s x)) = .ok a ∧ s' u = some a) := by
  unfold exec at h
  split at h
  · cases h
  · cases h
  · rename_i m hm
    have hm' := calls_ok hm
    split at h
    · cases h
    · have hs : SortedBy ltU m := by rw [hm']; exact insertAll_sorted (by simp [SortedBy])
      have hf := insertAll_find (l := x.calls.flatMap (emit s x.r2 x.tip)) [] u
      have hne := insertAll_nonempty (l := x.calls.flatMap (emit s x.r2 x.tip)) (m := []) (by simp)
      rw [← hm'] at hf hne
      have hu := operateMap_user x.h hs h u
      cases hfu : find m u with
      | none =>
        rw [hfu] at hf hu
        exact Or.inl ⟨by simpa [emits] using hf.symm, hu⟩
      | some os =>
        have hne' := hne _ (find_mem hfu)
        rw [hfu] at hf hu
        dsimp only at hu hne'
        have : os = ofUser u (emits s x) := by simpa [emits] using hf
        rw [this] at hu hne'
        exact Or.inr ⟨hne', hu⟩

end Verif.AppAcc
