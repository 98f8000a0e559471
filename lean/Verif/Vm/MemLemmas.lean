import Verif.Vm.Mem

/-! Proofs about the linear memory of contracts. -/

namespace Verif.Vm

/-- the accessible pages are the pages the machine counts -/
structure Alloc.Inv (a : Alloc) : Prop where
  lo : -1 ≤ a.page
  hi : a.page ≤ maxPages
  prot : ∀ i : Nat, a.prot i = true ↔ (i : Int) < a.page

theorem fresh_inv : Alloc.fresh.Inv := ⟨by decide, by decide, fun i => by simp [Alloc.fresh]⟩

theorem accessible_iff (p : Nat → Bool) (n : Nat) : accessible p n = true ↔ ∀ i < n, p i = true := by
  simp [accessible]

theorem inv_accessible {a : Alloc} (h : a.Inv) : accessible a.prot a.page.toNat = true := by
  rw [accessible_iff]
  intro i hi
  rw [h.prot]; omega

theorem alloc_ok {a : Alloc} (n : Nat)
    (h : ∀ i : Nat, ((i : Int) < a.page → a.prot i = true) ∧ (a.prot i = true → (i : Int) < a.page + n))
    (h0 : 0 ≤ a.page) (hn : a.page + n ≤ maxPages) :
    ∃ a', a.alloc n = .ok a' ∧ a'.Inv ∧ a'.page = a.page + n ∧
      ∀ x, a'.mem x = if pageSize * a.page.toNat ≤ x ∧ x < pageSize * (a.page.toNat + n) then 0 else a.mem x := by
  unfold Alloc.alloc
  by_cases hz : n = 0
  · subst hz
    refine ⟨a, by simp, ⟨by omega, by simpa using hn, fun i => ?_⟩, by simp, fun x => ?_⟩
    · have := h i; exact ⟨fun e => by simpa using this.2 e, this.1⟩
    · rw [if_neg]; simp
  · rw [if_neg hz, if_neg (by omega), if_neg (by omega)]
    refine ⟨_, rfl, ⟨by simp; omega, by simpa using hn, fun i => ?_⟩, rfl, fun x => ?_⟩
    · have := h i
      simp only [protect]
      split
      · simp; omega
      · constructor
        · intro e; exact this.2 e
        · intro e; exact this.1 (by omega)
    · simp only [zero, Nat.mul_add]

theorem free_ok {a : Alloc} (h : a.Inv) (n : Nat) (hn : (n : Int) ≤ a.page) (h0 : 0 ≤ a.page) :
    ∃ a', a.free n = .ok a' ∧ a'.Inv ∧ a'.page = a.page - n ∧ a'.mem = a.mem := by
  have hhi := h.hi
  unfold Alloc.free
  by_cases hz : n = 0
  · subst hz
    exact ⟨a, by simp, h, by simp, rfl⟩
  · rw [if_neg hz, if_neg (by omega), if_neg (by omega)]
    refine ⟨_, rfl, ⟨by simp; omega, by simp only; omega, fun i => ?_⟩, rfl, rfl⟩
    have := h.prot i
    simp only [protect]
    split
    · simp; omega
    · rw [this]; omega

/-- the number of pages a contract may have -/
def limit (max : Option Nat) : Nat :=
  match max with
  | some m => min m maxPages
  | none => maxPages

theorem grow_ok {a : Alloc} (max : Option Nat) (n : Nat)
    (h : ∀ i : Nat, ((i : Int) < a.page → a.prot i = true) ∧ (a.prot i = true → (i : Int) < a.page + n))
    (h0 : 0 ≤ a.page) (hl : a.page + n ≤ limit max) :
    ∃ a', a.grow max n = .ok (a.page, a') ∧ a'.Inv ∧ a'.page = a.page + n ∧
      ∀ x, a'.mem x = if pageSize * a.page.toNat ≤ x ∧ x < pageSize * (a.page.toNat + n) then 0 else a.mem x := by
  have hm : a.page + n ≤ maxPages := by
    unfold limit at hl
    split at hl <;> omega
  obtain ⟨a', e, i, p, m⟩ := alloc_ok n h h0 hm
  refine ⟨a', ?_, i, p, m⟩
  unfold Alloc.grow
  simp only
  rw [if_neg (by omega), if_neg (by omega), if_neg]
  · rw [show ((n : Int)).toNat = n by omega, e]
  · cases max with
    | none => simp [overMax]
    | some k => simp only [overMax, limit, decide_eq_true_eq] at hl ⊢; omega

theorem grow_pos {a : Alloc} (h : a.Inv) (h0 : 0 ≤ a.page) (max : Option Nat) (n : Nat) :
    (a.page + n ≤ limit max → ∃ a', a.grow max n = .ok (a.page, a') ∧ a'.Inv ∧ a'.page = a.page + n ∧
      ∀ x, a'.mem x = if pageSize * a.page.toNat ≤ x ∧ x < pageSize * (a.page.toNat + n) then 0 else a.mem x) ∧
    (¬a.page + n ≤ limit max → a.grow max n = .ok (-1, a)) := by
  refine ⟨grow_ok max n (fun i => ⟨(h.prot i).2, fun e => by have := (h.prot i).1 e; omega⟩) h0, fun hl => ?_⟩
  unfold Alloc.grow
  simp only
  rw [if_neg (by omega)]
  by_cases hm : (maxPages : Int) - a.page < n
  · rw [if_pos hm]
  · rw [if_neg hm, if_pos]
    cases max with
    | none => simp only [limit] at hl; omega
    | some k => simp only [overMax, limit, decide_eq_true_eq] at hl ⊢; omega

theorem grow_neg {a : Alloc} (h : a.Inv) (max : Option Nat) (n : Int) (hn : n < 0) :
    (0 ≤ a.page + n → ∃ a', a.grow max n = .ok (a.page, a') ∧ a'.Inv ∧ a'.page = a.page + n ∧ a'.mem = a.mem) ∧
    (a.page + n < 0 → a.grow max n = .ok (-1, a)) := by
  unfold Alloc.grow
  simp only
  rw [if_pos hn]
  constructor
  · intro h0
    obtain ⟨a', e, i, p, m⟩ := free_ok h (-n).toNat (by omega) (by omega)
    exact ⟨a', by rw [if_neg (by omega), e], i, by omega, m⟩
  · intro h0
    rw [if_pos h0]

theorem touched_iff {a : Alloc} (h : a.Inv) (lo n : Nat) (hn : 0 < n) :
    touched a.prot lo n = true ↔ ((lo + n : Nat) : Int) ≤ a.page * 65536 := by
  simp only [touched, List.all_eq_true, List.mem_range, h.prot]
  unfold pageSize
  constructor
  · intro hk
    have := hk (n - 1) (by omega)
    omega
  · intro hk k hkn
    omega

theorem touched_zero (p : Nat → Bool) (lo : Nat) : touched p lo 0 = true := by simp [touched]

/-- the byte the data segments put at an address: the last one that covers it -/
def lastByte : List Seg → Nat → Option Nat
  | [], _ => none
  | s :: ss, x =>
      match lastByte ss x with
      | some b => some b
      | none => if s.off ≤ x ∧ x < s.off + s.data.length then s.data[x - s.off]? else none

theorem load_inv {a a' : Alloc} (h : a.Inv) (initial : Nat) (segs : List Seg)
    (hr : a.load initial segs = .ok a' ∨ a.load initial segs = .fail a') : a'.Inv ∧ a'.page = a.page := by
  induction segs generalizing a with
  | nil =>
    rcases hr with hr | hr
    · cases hr; exact ⟨h, rfl⟩
    · cases hr
  | cons s ss ih =>
    rw [Alloc.load] at hr
    split at hr
    · split at hr
      · exact ih (a := { a with mem := copy a.mem s.off s.data }) ⟨h.lo, h.hi, h.prot⟩ hr
      · simp at hr
    · rcases hr with hr | hr
      · cases hr
      · cases hr; exact ⟨h, rfl⟩

theorem load_ok {a : Alloc} (h : a.Inv) (initial : Nat) (hp : a.page = initial) (segs : List Seg)
    (hs : ∀ s ∈ segs, s.off + s.data.length ≤ initial * pageSize) :
    ∃ a', a.load initial segs = .ok a' ∧ a'.Inv ∧ a'.page = initial ∧
      ∀ x, a'.mem x = (lastByte segs x).getD (a.mem x) := by
  induction segs generalizing a with
  | nil => exact ⟨a, rfl, h, hp, fun x => rfl⟩
  | cons s ss ih =>
    have hs0 := hs s (by simp)
    rw [Alloc.load, if_pos hs0]
    have ht : touched a.prot s.off s.data.length = true := by
      by_cases h0 : s.data.length = 0
      · rw [h0]; exact touched_zero _ _
      · rw [touched_iff h _ _ (by omega), hp]
        have : initial * pageSize = initial * 65536 := rfl
        omega
    rw [if_pos ht]
    obtain ⟨a', e, i, p, m⟩ := ih (a := { a with mem := copy a.mem s.off s.data }) ⟨h.lo, h.hi, h.prot⟩ hp
      (fun t ht => hs t (by simp [ht]))
    refine ⟨a', e, i, p, fun x => ?_⟩
    rw [m, lastByte]
    cases lastByte ss x with
    | some b => rfl
    | none =>
      simp only [copy, Option.getD_none]
      by_cases h1 : s.off ≤ x
      · by_cases h2 : x < s.off + s.data.length
        · rw [if_pos h1, if_pos ⟨h1, h2⟩, List.getElem?_eq_getElem (by omega)]
          rfl
        · rw [if_pos h1, if_neg (by omega), List.getElem?_eq_none (by omega)]
          rfl
      · rw [if_neg h1, if_neg (by omega)]
        rfl

/-- after `reset(new_pages)` and the growth to `initial` pages -/
theorem start_pages {a : Alloc} (h : a.Inv) (m : Mod) (hm : ∀ x, m.max = some x → m.initial ≤ x) :
    ∃ a2 r, (∃ a1, a.resetTo m.initial = .ok a1 ∧ a1.grow m.max ((m.initial : Int) - a1.page) = .ok (r, a2)) ∧
      a2.Inv ∧ a2.page = (if m.initial ≤ maxPages then m.initial else 0 : Nat) ∧
      (m.initial ≤ maxPages → ∀ x, x < pageSize * m.initial → a2.mem x = 0) := by
  have hreset : ∃ a1, a.resetTo m.initial = .ok a1 ∧ a1.page = 0 ∧
      (∀ i, a1.prot i = true ↔ ((m.initial : Int) = a.page ∧ (i : Int) < a.page)) := by
    unfold Alloc.resetTo
    by_cases h1 : a.page = -1
    · rw [if_pos h1]
      exact ⟨_, rfl, rfl, fun i => by simp only [h.prot]; omega⟩
    · rw [if_neg h1, if_pos (inv_accessible h)]
      refine ⟨_, rfl, rfl, fun i => ?_⟩
      have hp := h.prot i
      have := h.lo
      split
      · simp only [protect]
        split
        · simp; omega
        · rw [hp]; omega
      · rw [hp]; omega
  obtain ⟨a1, e1, p1, q1⟩ := hreset
  by_cases hmax : m.initial ≤ maxPages
  · have hl : (m.initial : Int) ≤ limit m.max := by
      unfold limit
      split
      · rename_i x hx; have := hm x hx; omega
      · omega
    obtain ⟨a2, e2, i2, p2, m2⟩ := grow_ok (a := a1) m.max m.initial
      (fun i => ⟨fun e => by omega, fun e => by have := (q1 i).1 e; omega⟩) (by omega) (by omega)
    refine ⟨a2, 0, ⟨a1, e1, by rw [p1] at e2 ⊢; simpa using e2⟩, i2, ?_, fun _ x hx => ?_⟩
    · rw [p2, p1, if_pos hmax]; omega
    · rw [m2, p1, if_pos]
      simpa using hx
  · have hi : a1.Inv := ⟨by omega, by omega, fun i => by rw [q1]; have := h.hi; omega⟩
    have hg := (grow_pos hi (by omega) m.max m.initial).2 (by
      unfold limit
      split <;> omega)
    refine ⟨a1, -1, ⟨a1, e1, ?_⟩, hi, ?_, fun hx => absurd hx hmax⟩
    · rw [p1]; simpa using hg
    · rw [if_neg hmax, p1]; rfl

/-- a contract whose declared memory fits -/
theorem start_ok {a : Alloc} (h : a.Inv) (m : Mod) (hm : ∀ x, m.max = some x → m.initial ≤ x)
    (hi : m.initial ≤ maxPages) (hs : ∀ s ∈ m.segs, s.off + s.data.length ≤ m.initial * pageSize) :
    ∃ a', a.start m = .ok a' ∧ a'.Inv ∧ a'.page = m.initial ∧
      ∀ x, x < pageSize * m.initial → a'.mem x = (lastByte m.segs x).getD 0 := by
  obtain ⟨a2, r, ⟨a1, e1, e2⟩, i2, p2, m2⟩ := start_pages h m hm
  rw [if_pos hi] at p2
  obtain ⟨a', e, i, p, mm⟩ := load_ok i2 m.initial p2 m.segs hs
  refine ⟨a', ?_, i, p, fun x hx => by rw [mm, m2 hi x hx]⟩
  rw [Alloc.start, e1]
  simp only
  rw [e2]
  exact e

theorem start_inv {a : Alloc} (h : a.Inv) (m : Mod) (hm : ∀ x, m.max = some x → m.initial ≤ x) {a' : Alloc}
    (hr : a.start m = .ok a' ∨ a.start m = .fail a') : a'.Inv := by
  obtain ⟨a2, r, ⟨a1, e1, e2⟩, i2, p2, m2⟩ := start_pages h m hm
  have e : a.start m = a2.load m.initial m.segs := by
    rw [Alloc.start, e1]
    simp only
    rw [e2]
  rw [e] at hr
  exact (load_inv i2 _ _ hr).1

theorem none_inv {a : Alloc} (h : a.Inv) : ∃ a', a.resetNone = .ok a' ∧ a'.Inv ∧ a'.page = -1 := by
  unfold Alloc.resetNone
  by_cases h1 : a.page = -1
  · exact ⟨a, by rw [if_pos h1], h, h1⟩
  · rw [if_neg h1, if_pos (inv_accessible h)]
    refine ⟨_, rfl, ⟨by simp, by simp, fun i => ?_⟩, rfl⟩
    have hp := h.prot i
    simp only [protect]
    split
    · simp
    · rw [hp]; omega

/-- an operation on an allocator keeps it in order; a failed one too -/
theorem op_inv {a a' : Alloc} (h : a.Inv) (o : MemOp) (hm : ∀ m, o = .start m → m.Parsed)
    (hr : a.op o = .ok a' ∨ a.op o = .fail a') : a'.Inv := by
  cases o with
  | start m => exact start_inv h m (fun x hx => ((hm m rfl).2 x hx).1) hr
  | none =>
    obtain ⟨b, e, i, _⟩ := none_inv h
    simp only [Alloc.op, e] at hr
    rcases hr with hr | hr <;> cases hr
    exact i
  | grow max n =>
    simp only [Alloc.op] at hr
    have key : ∃ r b, (a.grow max n.toInt = .ok (r, b) ∨ a.grow max n.toInt = .fail (r, b)) ∧ b.Inv := by
      by_cases hn : n.toInt < 0
      · by_cases hp : 0 ≤ a.page + n.toInt
        · obtain ⟨b, e, i, _⟩ := (grow_neg h max _ hn).1 hp
          exact ⟨_, b, .inl e, i⟩
        · exact ⟨_, a, .inl ((grow_neg h max _ hn).2 (by omega)), h⟩
      · obtain ⟨k, hk⟩ : ∃ k : Nat, n.toInt = k := ⟨n.toInt.toNat, by omega⟩
        rw [hk]
        by_cases h0 : 0 ≤ a.page
        swap
        · have hlo := h.lo
          have ha : a.alloc (k : Int).toNat = .ok a ∨ a.alloc (k : Int).toNat = .fail a := by
            unfold Alloc.alloc
            split
            · exact .inl rfl
            · rw [if_pos (by omega)]; exact .inr rfl
          unfold Alloc.grow
          simp only
          rw [if_neg (by omega)]
          by_cases c1 : (maxPages : Int) - a.page < k
          · rw [if_pos c1]; exact ⟨_, a, .inl rfl, h⟩
          · rw [if_neg c1]
            by_cases c2 : overMax max a.page k = true
            · rw [if_pos c2]; exact ⟨_, a, .inl rfl, h⟩
            · rw [if_neg c2]
              rcases ha with ha | ha <;> rw [ha]
              · exact ⟨_, a, .inl rfl, h⟩
              · exact ⟨_, a, .inr rfl, h⟩
        by_cases hl : a.page + k ≤ limit max
        · obtain ⟨b, e, i, _⟩ := (grow_pos h h0 max k).1 hl
          exact ⟨_, b, .inl e, i⟩
        · exact ⟨_, a, .inl ((grow_pos h h0 max k).2 hl), h⟩
    obtain ⟨r, b, e, i⟩ := key
    rcases e with e | e <;> rw [e] at hr <;> rcases hr with hr | hr <;> cases hr <;> exact i
  | store base off data =>
    simp only [Alloc.op] at hr
    split at hr
    · rcases hr with hr | hr <;> cases hr
      exact ⟨h.lo, h.hi, h.prot⟩
    · rcases hr with hr | hr <;> cases hr
      exact h

theorem run_inv {a a' : Alloc} (h : a.Inv) (os : List MemOp) (hm : ∀ m, MemOp.start m ∈ os → m.Parsed)
    (hr : a.run os = .ok a') : a'.Inv := by
  induction os generalizing a with
  | nil => cases hr; exact h
  | cons o os ih =>
    rw [Alloc.run] at hr
    have ho : ∀ b, a.op o = .ok b ∨ a.op o = .fail b → b.Inv := fun b =>
      op_inv h o (fun m e => hm m (by simp [e]))
    split at hr
    · rename_i b e; exact ih (ho b (.inl e)) (fun m hx => hm m (by simp [hx])) hr
    · rename_i b e; exact ih (ho b (.inr e)) (fun m hx => hm m (by simp [hx])) hr
    · cases hr

end Verif.Vm
