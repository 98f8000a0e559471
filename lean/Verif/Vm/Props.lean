import Verif.Vm.Jit
import Verif.Vm.LebLemmas
import Verif.Vm.MemLemmas
import Verif.Vm.TableLemmas

/-! Properties of the contract machine: C161-C164. -/

namespace Verif.Vm

/-! ### C161 numbers in contract code -/

/-- unsigned numbers of 1, 7 and 32 bits are accepted exactly when the standard accepts them, with the
standard's value and the standard's length -/
theorem vm_unsigned_numbers (N : Nat) (hN : N = 1 ∨ N = 7 ∨ N = 32) (code : List Nat) (hb : ∀ b ∈ code, b < 256) :
    readU N code = uSpec N code := by
  rcases hN with h | h | rfl
  · exact readU_small N (.inl h) code hb
  · exact readU_small N (.inr h) code hb
  · exact readU32 code hb

/-- signed numbers of 7, 32 and 64 bits likewise -/
theorem vm_signed_numbers (N : Nat) (hN : N = 7 ∨ N = 32 ∨ N = 64) (code : List Nat) (hb : ∀ b ∈ code, b < 256) :
    readS N code = sSpec N code := by
  rcases hN with rfl | h | h
  · exact readS7 code hb
  · exact readS_big N (.inl h) code hb
  · exact readS_big N (.inr h) code hb

/-- every value read fits its type -/
theorem vm_numbers_fit (N : Nat) (code r : List Nat) (hb : ∀ b ∈ code, b < 256) :
    (N = 1 ∨ N = 7 ∨ N = 32 → ∀ v, readU N code = some (v, r) → v < 2 ^ N) ∧
    (N = 7 ∨ N = 32 ∨ N = 64 → ∀ v, readS N code = some (v, r) → -2 ^ (N - 1) ≤ v ∧ v < 2 ^ (N - 1)) := by
  constructor
  · intro hN v h
    rw [vm_unsigned_numbers N hN code hb] at h
    exact uSpec_lt N code r v hb h
  · intro hN v h
    rw [vm_signed_numbers N hN code hb] at h
    exact sSpec_range N (by omega) code r v hb h

example : readU 32 [0xe5, 0x8e, 0x26, 7] = some (624485, [7]) := by decide +kernel
example : readS 32 [0xff, 0xff, 0xff, 0xff, 0x7f, 9] = some (-1, [9]) := by decide +kernel
example : readS 32 [0x9b, 0xf1, 0x59] = some (-624485, []) := by decide +kernel
example : readU 32 [0xff, 0xff, 0xff, 0xff, 0x1f] = none := by decide +kernel
example : readS 64 [0x80, 0x80, 0x80, 0x80, 0x80, 0x80, 0x80, 0x80, 0x80, 0x7f] = some (-2 ^ 63, []) := by
  decide +kernel

/-! ### C162 integer instructions -/

/-- the interpreter does what the standard says, for every program and every stack -/
theorem vm_interpreter_standard (p : List Ins) (s : List Val) : runWith interpStep p s = runWith specStep p s := by
  have : interpStep = specStep := funext fun i => funext fun s => interpStep_spec i s
  rw [this]

/-- The compiled code does what the standard says: from any state of the processor that has the encoded
operands on its stack, with or without the bit-count instructions, it ends with the encoded result
exactly when the standard has a result, and with a processor exception exactly when the standard traps. -/
theorem vm_compiler_standard (tz : Bool) (p : List Ins) (s : List Val) (c : Cpu) (hc : c.stack = s.map enc) :
    (∀ s', runWith specStep p s = .ok s' → ∃ c', Runs (jitAll tz p) c (.ok c') ∧ c'.stack = s'.map enc) ∧
    (runWith specStep p s = .trap → Runs (jitAll tz p) c .trap) := by
  rw [← vm_interpreter_standard]
  have h := jit_all tz p s c hc
  constructor
  · intro s' e
    rw [e] at h
    obtain ⟨c', h1, h2⟩ := h
    have := h2 [] _ (.done c')
    rw [List.append_nil] at this
    exact ⟨c', this, h1⟩
  · intro e
    rw [e] at h
    have := h []
    rwa [List.append_nil] at this

/-- the code has one outcome -/
theorem vm_compiler_deterministic (code : List Nat) (c : Cpu) (o o' : Out Cpu) (h : Runs code c o)
    (h' : Runs code c o') : o = o' := runs_det h h'

theorem enc_inj (x y : Val) (h : enc x = enc y) (ht : (∃ a b, x = .i32 a ∧ y = .i32 b) ∨ ∃ a b, x = .i64 a ∧ y = .i64 b) :
    x = y := by
  rcases ht with ⟨a, b, rfl, rfl⟩ | ⟨a, b, rfl, rfl⟩
  · have : a = b := by
      have := congrArg (BitVec.setWidth 32) h
      simpa only [enc, low] using this
    rw [this]
  · exact congrArg Val.i64 h

/-- Two nodes that run a validated piece of code, one with the interpreter and one with the compiler,
on whatever processors, see the same thing: the same stack, or both a failure. -/
theorem vm_engines_agree (tz tz' : Bool) (p : List Ins) (s : List Val) (c c' : Cpu) (hc : c.stack = s.map enc)
    (hc' : c'.stack = s.map enc) (hs : runWith interpStep p s ≠ .stuck) :
    (∃ s' d d', runWith interpStep p s = .ok s' ∧ Runs (jitAll tz p) c (.ok d) ∧ Runs (jitAll tz' p) c' (.ok d') ∧
      d.stack = s'.map enc ∧ d'.stack = s'.map enc) ∨
    (runWith interpStep p s = .trap ∧ Runs (jitAll tz p) c .trap ∧ Runs (jitAll tz' p) c' .trap) := by
  obtain ⟨a1, a2⟩ := vm_compiler_standard tz p s c hc
  obtain ⟨b1, b2⟩ := vm_compiler_standard tz' p s c' hc'
  rw [← vm_interpreter_standard] at a1 a2 b1 b2
  rcases hr : runWith interpStep p s with s' | _ | _
  · obtain ⟨d, e1, e2⟩ := a1 s' hr
    obtain ⟨d', f1, f2⟩ := b1 s' hr
    exact .inl ⟨s', d, d', rfl, e1, f1, e2, f2⟩
  · exact .inr ⟨rfl, a2 hr, b2 hr⟩
  · exact absurd hr hs

-- the smallest number divided by -1 traps, its remainder is 0, and counts of zero are the width
example : runWith specStep [.const (.i32 0x80000000#32), .const (.i32 0xffffffff#32), .bin .w32 .divS] [] = .trap := by
  decide +kernel
example : runWith specStep [.const (.i32 0x80000000#32), .const (.i32 0xffffffff#32), .bin .w32 .remS, .extS] [] =
    .ok [.i64 0#64] := by decide +kernel
example : runWith specStep [.const (.i64 0#64), .un .w64 .clz, .wrap, .const (.i32 1#32), .bin .w32 .rotr] [] =
    .ok [.i32 32#32] := by decide +kernel
example (c : Cpu) (hc : c.stack = []) :
    ∃ c', Runs (jitAll false [.const (.i64 0#64), .un .w64 .clz, .wrap]) c (.ok c') ∧ c'.stack = [64#64] :=
  (vm_compiler_standard false [.const (.i64 0#64), .un .w64 .clz, .wrap] [] c hc).1 [.i32 64#32] (by decide +kernel)

/-! ### C163 the memory a contract starts with -/

/-- Whatever contracts ran before in the same context, a contract whose declared memory fits into 33
MiB starts with exactly its declared pages accessible; they hold its data segments, the later ones
winning, and zeros elsewhere. -/
theorem vm_start_partial (os : List MemOp) (hp : ∀ m, MemOp.start m ∈ os → m.Parsed) (a : Alloc)
    (hr : Alloc.fresh.run os = .ok a) (m : Mod) (hm : m.Parsed) (hi : m.initial ≤ 528)
    (hs : ∀ s ∈ m.segs, s.off + s.data.length ≤ m.initial * 65536) :
    ∃ a', a.start m = .ok a' ∧ (∀ i, a'.prot i = true ↔ i < m.initial) ∧
      ∀ x, x < m.initial * 65536 → a'.mem x = (lastByte m.segs x).getD 0 := by
  obtain ⟨a', e, i, p, mm⟩ := start_ok (run_inv fresh_inv os hp hr) m (fun x hx => (hm.2 x hx).1) hi hs
  refine ⟨a', e, fun j => ?_, fun x hx => mm x (by unfold pageSize; omega)⟩
  rw [i.prot, p]
  exact Int.ofNat_lt

/-- a data segment that does not fit into the declared memory makes the call fail, the node goes on -/
theorem vm_start_bad_segment (a : Alloc) (os : List MemOp) (hp : ∀ m, MemOp.start m ∈ os → m.Parsed)
    (hr : Alloc.fresh.run os = .ok a) (m : Mod) (hm : m.Parsed) (hi : m.initial ≤ 528) (s : Seg) (ss ss' : List Seg)
    (hseg : m.segs = ss ++ s :: ss') (hok : ∀ t ∈ ss, t.off + t.data.length ≤ m.initial * 65536)
    (hbad : m.initial * 65536 < s.off + s.data.length) : ∃ a', a.start m = .fail a' := by
  obtain ⟨a2, r, ⟨a1, e1, e2⟩, i2, p2, m2⟩ :=
    start_pages (run_inv fresh_inv os hp hr) m (fun x hx => (hm.2 x hx).1)
  rw [if_pos hi] at p2
  have key : ∀ (ts : List Seg) (b : Alloc), b.Inv → b.page = m.initial →
      (∀ t ∈ ts, t.off + t.data.length ≤ m.initial * 65536) → ∃ a', b.load m.initial (ts ++ s :: ss') = .fail a' := by
    intro ts
    induction ts with
    | nil =>
      intro b _ _ _
      exact ⟨b, by rw [List.nil_append, Alloc.load, if_neg (by unfold pageSize; omega)]⟩
    | cons t ts ih =>
      intro b hb hbp ht
      have ht0 := ht t (by simp)
      rw [List.cons_append, Alloc.load, if_pos ht0, if_pos]
      · exact ih _ ⟨hb.lo, hb.hi, hb.prot⟩ hbp (fun x hx => ht x (by simp [hx]))
      · by_cases h0 : t.data.length = 0
        · rw [h0]; exact touched_zero _ _
        · rw [touched_iff hb _ _ (by omega), hbp]
          omega
  obtain ⟨a', e⟩ := key ss a2 i2 p2 hok
  refine ⟨a', ?_⟩
  rw [Alloc.start, e1]
  simp only
  rw [e2, hseg]
  exact e

/-- The bound matters: the parser accepts declared sizes up to 65536 pages, memory stays empty above 528
because the failed growth is not looked at, and copying the first data byte then takes the node down. -/
theorem vm_start_violated : ∃ m : Mod, m.Parsed ∧ (∀ s ∈ m.segs, s.off + s.data.length ≤ m.initial * 65536) ∧
    (match Alloc.fresh.start m with | .crash => True | _ => False) := by
  refine ⟨⟨529, none, [⟨0, [1]⟩]⟩, ⟨by decide, by simp⟩, by simp, ?_⟩
  have h : (match Alloc.fresh.start ⟨529, none, [⟨0, [1]⟩]⟩ with | .crash => true | _ => false) = true := by
    decide +kernel
  revert h
  split <;> simp

/-- every contract with too large a memory and a non-empty data segment first does it, from every state -/
theorem vm_start_crash (os : List MemOp) (hp : ∀ m, MemOp.start m ∈ os → m.Parsed) (a : Alloc)
    (hr : Alloc.fresh.run os = .ok a) (m : Mod) (hm : m.Parsed) (hi : 528 < m.initial) (s : Seg) (ss : List Seg)
    (hseg : m.segs = s :: ss) (h0 : s.data ≠ []) (hs : s.off + s.data.length ≤ m.initial * 65536) :
    a.start m = .crash := by
  obtain ⟨a2, r, ⟨a1, e1, e2⟩, i2, p2, m2⟩ :=
    start_pages (run_inv fresh_inv os hp hr) m (fun x hx => (hm.2 x hx).1)
  rw [if_neg (by unfold maxPages; omega)] at p2
  rw [Alloc.start, e1]
  simp only
  rw [e2, hseg]
  simp only
  rw [Alloc.load, if_pos hs, if_neg]
  have hl : 0 < s.data.length := List.length_pos_of_ne_nil h0
  rw [touched_iff i2 _ _ hl, p2]
  simp
  omega

/-- no byte of an earlier contract is ever seen: two different histories lead to the same memory -/
theorem vm_start_independent_partial (os os' : List MemOp) (hp : ∀ m, MemOp.start m ∈ os → m.Parsed)
    (hp' : ∀ m, MemOp.start m ∈ os' → m.Parsed) (a b : Alloc)
    (hr : Alloc.fresh.run os = .ok a) (hr' : Alloc.fresh.run os' = .ok b) (m : Mod) (hm : m.Parsed)
    (hi : m.initial ≤ 528) (hs : ∀ s ∈ m.segs, s.off + s.data.length ≤ m.initial * 65536) :
    ∃ a' b', a.start m = .ok a' ∧ b.start m = .ok b' ∧ (∀ i, a'.prot i = b'.prot i) ∧
      ∀ x, a'.prot (x / 65536) = true → a'.mem x = b'.mem x := by
  obtain ⟨a', e1, p1, m1⟩ := vm_start_partial os hp a hr m hm hi hs
  obtain ⟨b', e2, p2, m2⟩ := vm_start_partial os' hp' b hr' m hm hi hs
  refine ⟨a', b', e1, e2, fun i => ?_, fun x hx => ?_⟩
  · rw [Bool.eq_iff_iff, p1, p2]
  · rw [p1] at hx
    rw [m1 x (by omega), m2 x (by omega)]

/-- a history with two contracts, stores and growth -/
def exampleHistory : List MemOp :=
  [.start ⟨2, some 4, [⟨10, [1, 2, 3]⟩, ⟨11, [9]⟩]⟩, .store 100#32 4#32 [7, 7], .grow (some 4) 1#32, .none,
   .start ⟨1, none, []⟩, .store 0#32 0#32 [5]]

example : ∃ a, Alloc.fresh.run exampleHistory = .ok a := by
  have h : (match Alloc.fresh.run exampleHistory with | .ok _ => true | _ => false) = true := by decide +kernel
  revert h
  split
  · rename_i a e; exact fun _ => ⟨a, e⟩
  · simp
example : ∀ m, MemOp.start m ∈ exampleHistory → m.Parsed := by
  intro m hm
  simp [exampleHistory] at hm
  rcases hm with rfl | rfl <;> simp [Mod.Parsed]
example : (lastByte [⟨10, [1, 2, 3]⟩, ⟨11, [9]⟩] 11, lastByte [⟨10, [1, 2, 3]⟩, ⟨11, [9]⟩] 12) = (some 9, some 3) := by
  decide +kernel

/-! ### C164 growing and accessing memory -/

/-- `memory.grow` of the standard: the old size and the new size, or -1 and no change -/
def growSpec (limit size : Nat) (n : Nat) : Int × Nat :=
  if size + n ≤ limit then (size, size + n) else (-1, size)

/-- For requests below 2^31 pages `memory.grow` does what the standard says with the limit "declared
maximum or 528 pages, whichever is less"; new pages are zero and nothing else changes. -/
theorem vm_grow_partial (os : List MemOp) (hp : ∀ m, MemOp.start m ∈ os → m.Parsed) (a : Alloc)
    (hr : Alloc.fresh.run os = .ok a) (size : Nat) (hz : a.page = size) (max : Option Nat) (n : BitVec 32)
    (hn : n.toNat < 2 ^ 31) :
    ∃ a', a.grow max n.toInt = .ok ((growSpec (min (max.getD 528) 528) size n.toNat).1, a') ∧
      a'.page = (growSpec (min (max.getD 528) 528) size n.toNat).2 ∧
      (∀ i : Nat, a'.prot i = true ↔ (i : Int) < a'.page) ∧
      (∀ x, x < size * 65536 → a'.mem x = a.mem x) ∧
      (∀ x, size * 65536 ≤ x → a'.prot (x / 65536) = true → a'.mem x = 0) := by
  have h := run_inv fresh_inv os hp hr
  have hN : n.toInt = n.toNat := by rw [BitVec.toInt_eq_toNat_cond, if_pos (by omega)]
  have hlim : limit max = min (max.getD 528) 528 := by cases max <;> rfl
  obtain ⟨g1, g2⟩ := grow_pos h (by omega) max n.toNat
  rw [hN, ← hlim]
  unfold growSpec
  by_cases hl : size + n.toNat ≤ limit max
  · obtain ⟨a', e, i, p, mm⟩ := g1 (by omega)
    have hsz : a.page.toNat = size := by omega
    rw [if_pos hl]
    refine ⟨a', by rw [e, hz], by rw [p, hz]; simp, i.prot, fun x hx => ?_, fun x hx hx' => ?_⟩
    · rw [mm, if_neg]; rw [hsz]; unfold pageSize; omega
    · rw [i.prot, p, hz] at hx'
      rw [mm, if_pos]; rw [hsz]; unfold pageSize; omega
  · rw [if_neg hl]
    refine ⟨a, g2 (by omega), hz, h.prot, fun x _ => rfl, fun x hx hx' => ?_⟩
    rw [h.prot, hz] at hx'
    omega

/-- a request of 2^31 pages or more, which the standard refuses, takes pages away instead -/
theorem vm_grow_violated : ∃ (a a' : Alloc) (m : Mod), m.Parsed ∧ Alloc.fresh.start m = .ok a ∧
    a.grow m.max (0xffffffff#32).toInt = .ok (1, a') ∧ a'.page = 0 ∧
    growSpec 528 1 (0xffffffff#32).toNat = (-1, 1) := by
  obtain ⟨a, e, i, p, _⟩ := start_ok fresh_inv ⟨1, none, []⟩ (by simp) (by decide) (by simp)
  obtain ⟨a', e', _, p', _⟩ := (grow_neg i none (-1) (by decide)).1 (by rw [p]; decide)
  refine ⟨a, a', ⟨1, none, []⟩, by simp [Mod.Parsed], e, ?_, by rw [p', p]; rfl, by decide +kernel⟩
  rw [show (0xffffffff#32).toInt = -1 by decide, e', p]
  rfl

/-- An access of `w` bytes goes through exactly when base and offset, added without wrapping, and the
width end inside the memory; it then touches exactly that address. -/
theorem vm_access (os : List MemOp) (hp : ∀ m, MemOp.start m ∈ os → m.Parsed) (a : Alloc)
    (hr : Alloc.fresh.run os = .ok a) (base off : BitVec 32) (w : Nat) (hw : 0 < w) (x : Nat) :
    a.access base off w = some x ↔
      x = base.toNat + off.toNat ∧ ((base.toNat + off.toNat + w : Nat) : Int) ≤ a.page * 65536 := by
  have h := run_inv fresh_inv os hp hr
  unfold Alloc.access
  have ht := touched_iff h (effAddr base off) w hw
  by_cases hc : touched a.prot (effAddr base off) w = true
  · rw [if_pos hc]
    have := ht.1 hc
    simp only [Option.some.injEq]
    constructor
    · rintro rfl; exact ⟨rfl, this⟩
    · rintro ⟨rfl, _⟩; rfl
  · rw [if_neg hc]
    constructor
    · intro h; cases h
    · rintro ⟨_, h2⟩; exact absurd (ht.2 h2) hc

example : growSpec 528 1 3 = (1, 4) ∧ growSpec 4 2 3 = (-1, 2) := by decide

/-! ### C165 multi-way branches -/

/-- The interpreter takes the branch of the standard. -/
theorem vm_table_interpreter {α : Type} (cases : List Br) (dflt : Br) (i : Nat) (st : List α)
    (hv : ∀ b ∈ cases ++ [dflt], b.Valid st) :
    brTable cases.length ((cases ++ [dflt]).map Br.code) i st = some (tableSpec cases dflt i st) := by
  obtain ⟨b, hb, hs⟩ := tableSpec_at cases dflt i st
  obtain ⟨v1, v2, v3⟩ := hv b (List.mem_of_getElem? hb)
  rw [brTable, List.getElem?_map, hb, hs]
  simp only [Option.map_some, Br.code, jump_eq b.result b.depth st v1 v3 v2]
  rfl

/-- The comparisons of the compiled code end, for every index, at the branch of the standard and nowhere
else, with the stack of the standard.  For a table of fewer than 2^32 - 1 cases. -/
theorem vm_table_compiler_partial (cases : List Br) (dflt : Br) (hn : cases.length + 1 < 2 ^ 32) :
    ∃ code, compileTable cases.length ((cases ++ [dflt]).map Br.code) = .ok code ∧
      ∀ (α : Type) (st : List α), (∀ b ∈ cases ++ [dflt], b.Valid st) → ∀ (i k : Nat) (st' : List α),
        (∃ ps, Lands code i 0 k ps ∧ popAll ps st = some st') ↔ (k, st') = tableSpec cases dflt i st := by
  obtain ⟨code, e, hl⟩ := compileTable_ok cases.length ((cases ++ [dflt]).map Br.code) hn (by simp)
  refine ⟨code, e, fun α st hv i k st' => ?_⟩
  obtain ⟨b, hb, hs⟩ := tableSpec_at cases dflt i st
  obtain ⟨v1, v2, v3⟩ := hv b (List.mem_of_getElem? hb)
  have hd : ((cases ++ [dflt]).map Br.code).getD (min i cases.length) 0 = b.depth + if b.result then 2 ^ 31 else 0 := by
    simp only [List.getD, List.getElem?_map, hb, Option.map_some, Option.getD_some, Br.code]
  have hp := popAll_pops _ _ b.result b.depth st v1 v3 v2 hd
  rw [hs]
  constructor
  · rintro ⟨ps, h1, h2⟩
    obtain ⟨rfl, rfl⟩ := lands_det h1 (hl i)
    rw [hp] at h2
    cases h2
    rfl
  · intro h
    obtain ⟨rfl, rfl⟩ := Prod.mk.inj h
    exact ⟨_, hl i, hp⟩

/-- Whatever labels follow the declared size, also too few, compiling ends, and refuses a contract in which labels are missing.
For declared sizes below 2^32 - 1. -/
theorem vm_table_compile_partial (size : Nat) (ds : List Nat) (hn : size + 1 < 2 ^ 32) :
    compileTable size ds ≠ .crash ∧ (compileTable size ds = .reject ↔ ds.length < size + 1) := by
  by_cases h : ds.length < size + 1
  · rw [compileTable_short size ds hn h]
    exact ⟨by simp, by simp [h]⟩
  · obtain ⟨code, e, _⟩ := compileTable_ok size ds hn (by omega)
    rw [e]
    exact ⟨by simp, by simp [h]⟩

/-- A declared size of 2^32 - 1, its successor being 0 in 32 bits, with just two labels: the second label
is compiled with no range left and ends the node, instead of the contract being refused. -/
theorem vm_table_violated : ∃ (size : BitVec 32) (ds : List Nat), ds.length = 2 ∧
    compileTable size.toNat ds = .crash :=
  ⟨0xffffffff#32, [0, 0], rfl, compileTable_crash 0 0 []⟩

example : tableSpec [⟨false, 2⟩, ⟨false, 0⟩, ⟨false, 1⟩] ⟨false, 3⟩ 2 [7, 8, 9] = (2, [8, 9]) ∧
    tableSpec [⟨true, 2⟩] ⟨true, 3⟩ 4000000000 [7, 8, 9] = (1, [7]) ∧
    (∀ b ∈ [(⟨true, 2⟩ : Br)] ++ [⟨true, 3⟩], b.Valid [7, 8, 9]) := by
  refine ⟨by decide, by decide, ?_⟩
  intro b hb
  simp only [List.cons_append, List.nil_append, List.mem_cons, List.not_mem_nil, or_false] at hb
  rcases hb with rfl | rfl <;> exact ⟨by decide, by decide, by decide⟩

end Verif.Vm
