import Verif.Merkle.Props
import Mathlib.Tactic.Ring

/-!
# Partial Merkle trees (C50)
-/
namespace Verif.Merkle

variable {α : Type}

/-- The chosen transactions among positions `a, a+1, …, a+k-1`. -/
def chosenIn (txids : List α) (mtch : List Bool) (a k : Nat) : List α :=
  (List.range' a k).filterMap fun p => if decide (p < txids.length) && mtch.getD p false then txids[p]? else none

/-- The chosen transactions, in order. -/
def chosen (txids : List α) (mtch : List Bool) : List α := ((txids.zip mtch).filter (·.2)).map (·.1)

theorem chosenIn_append (txids : List α) (mtch : List Bool) (a j k : Nat) :
    chosenIn txids mtch a (j + k) = chosenIn txids mtch a j ++ chosenIn txids mtch (a + j) k := by
  unfold chosenIn
  rw [← List.filterMap_append]
  congr 1
  have := (List.range'_append (s := a) (m := j) (n := k) (step := 1))
  rw [Nat.one_mul] at this
  exact this.symm

theorem chosenIn_beyond (txids : List α) (mtch : List Bool) {a : Nat} (k : Nat) (ha : txids.length ≤ a) :
    chosenIn txids mtch a k = [] := by
  unfold chosenIn
  rw [List.filterMap_eq_nil_iff]
  intro p hp
  rw [List.mem_range'_1] at hp
  simp; omega

theorem chosenIn_none {txids : List α} {mtch : List Bool} {d pos : Nat}
    (h : parentOfMatch mtch txids.length d pos = false) : chosenIn txids mtch (pos * 2 ^ d) (2 ^ d) = [] := by
  unfold parentOfMatch at h
  rw [List.any_eq_false] at h
  unfold chosenIn
  rw [List.filterMap_eq_nil_iff]
  intro p hp
  have := h p hp
  simp only [Bool.not_eq_true] at this
  rw [this]
  simp

theorem chosenIn_cons (x : α) (txids : List α) (b : Bool) (mtch : List Bool) (a k : Nat) :
    chosenIn (x :: txids) (b :: mtch) (a + 1) k = chosenIn txids mtch a k := by
  unfold chosenIn
  rw [List.range'_succ_left, List.filterMap_map]
  congr 1
  funext p
  simp

theorem chosenIn_all : ∀ {txids : List α} {mtch : List Bool}, mtch.length = txids.length →
    chosenIn txids mtch 0 txids.length = chosen txids mtch
  | [], [], _ => rfl
  | x :: txids, b :: mtch, hl => by
    have ih := chosenIn_all (txids := txids) (mtch := mtch) (by simpa using hl)
    rw [List.length_cons, Nat.add_comm txids.length 1, chosenIn_append, chosenIn_cons, ih]
    cases b <;> simp [chosenIn, chosen]
  | [], _ :: _, hl => by simp at hl
  | _ :: _, [], hl => by simp at hl

/-! ## What building writes, extracting reads -/

/-- Number of transactions below a node. -/
def below (n d pos : Nat) : Nat := min n ((pos + 1) * 2 ^ d) - pos * 2 ^ d

theorem lt_width {n d pos : Nat} : pos < width n d ↔ pos * 2 ^ d < n := by
  have hp : 0 < 2 ^ d := Nat.pow_pos (by omega)
  unfold width
  rw [Nat.lt_iff_add_one_le, Nat.le_div_iff_mul_le hp, Nat.add_mul, Nat.one_mul]
  omega

theorem below_succ (n d pos : Nat) : below n (d + 1) pos = below n d (pos * 2) + below n d (pos * 2 + 1) := by
  unfold below
  have hp : 0 < 2 ^ d := Nat.pow_pos (by omega)
  have e1 : (pos + 1) * 2 ^ (d + 1) = pos * 2 * 2 ^ d + 2 ^ d + 2 ^ d := by ring
  have e2 : pos * 2 ^ (d + 1) = pos * 2 * 2 ^ d := by ring
  have e3 : (pos * 2 + 1) * 2 ^ d = pos * 2 * 2 ^ d + 2 ^ d := by ring
  have e4 : (pos * 2 + 1 + 1) * 2 ^ d = pos * 2 * 2 ^ d + 2 ^ d + 2 ^ d := by ring
  rw [e1, e2, e3, e4]
  generalize pos * 2 * 2 ^ d = a
  generalize 2 ^ d = b at *
  omega

theorem below_pos {n d pos : Nat} (hp : pos < width n d) : 1 ≤ below n d pos := by
  have := lt_width.1 hp
  have h2 : 0 < 2 ^ d := Nat.pow_pos (by omega)
  unfold below
  rw [Nat.add_mul, Nat.one_mul]
  omega

theorem drop_get {β : Type} {l : List β} {i : Nat} {x : β} {r : List β} (h : l.drop i = x :: r) : l[i]? = some x ∧ l.drop (i + 1) = r := by
  constructor
  · have := List.getElem?_drop (xs := l) (i := i) (j := 0)
    rw [h] at this
    simpa using this.symm
  · rw [← List.drop_drop, h]; rfl

structure Built (h : α → α → α) (zero : α) (txids : List α) (mtch : List Bool) (d pos : Nat) (b : List Bool) (hs : List α) (x : α) : Prop where
  built : build h txids mtch d pos = some (b, hs)
  node : calcHash h txids d pos = some x
  lenBits : hs.length ≤ b.length
  lenBelow : hs.length ≤ below txids.length d pos
  read : ∀ (t : Partial α) (e : Ext α) (rb : List Bool) (rh : List α), t.n = txids.length → t.bits.drop e.bitsUsed = b ++ rb →
    t.hashes.drop e.hashUsed = hs ++ rh →
    extract h zero t d pos e =
      (x, ⟨e.bitsUsed + b.length, e.hashUsed + hs.length, e.matched ++ chosenIn txids mtch (pos * 2 ^ d) (2 ^ d), e.bad⟩)

theorem build_spec (h : α → α → α) (zero : α) (txids : List α) (mtch : List Bool) (d : Nat) :
    ∀ pos, pos < width txids.length d → ∃ b hs x, Built h zero txids mtch d pos b hs x := by
  induction d with
  | zero =>
    intro pos hp
    have hb := below_pos hp
    have hp' : pos < txids.length := by simpa using lt_width.1 hp
    refine ⟨[parentOfMatch mtch txids.length 0 pos], [txids[pos]], txids[pos], ?_, ?_, by simp, by simpa using hb, ?_⟩
    · simp only [build, calcHash, List.getElem?_eq_getElem hp']
    · simp only [calcHash, List.getElem?_eq_getElem hp']
    · intro t e rb rh hn hbits hhs
      obtain ⟨b1, -⟩ := drop_get hbits
      obtain ⟨h1, -⟩ := drop_get hhs
      simp only [extract, b1, h1, List.length_singleton, Nat.pow_zero, Nat.mul_one]
      cases hm : parentOfMatch mtch txids.length 0 pos
      · have := chosenIn_none hm
        simp only [Nat.pow_zero, Nat.mul_one] at this
        rw [this]; simp
      · have : chosenIn txids mtch pos 1 = [txids[pos]] := by
          simp only [parentOfMatch, Nat.pow_zero, Nat.mul_one, List.range'_one, List.any_cons, List.any_nil, Bool.or_false] at hm
          simp only [chosenIn, List.range'_one, List.filterMap_cons, hm, if_true, List.getElem?_eq_getElem hp', List.filterMap_nil]
        rw [this]; simp
  | succ d ih =>
    intro pos hp
    have hw := width_succ txids.length d
    have hp1 : pos * 2 < width txids.length d := by omega
    have hbp := below_pos hp
    obtain ⟨b1, h1, x1, B1⟩ := ih (pos * 2) hp1
    have hbs := below_succ txids.length d pos
    have e2 : pos * 2 ^ (d + 1) = pos * 2 * 2 ^ d := by ring
    have e3 : 2 ^ (d + 1) = 2 ^ d + 2 ^ d := by ring
    have hch : chosenIn txids mtch (pos * 2 ^ (d + 1)) (2 ^ (d + 1)) = chosenIn txids mtch (pos * 2 * 2 ^ d) (2 ^ d) ++
        chosenIn txids mtch ((pos * 2 + 1) * 2 ^ d) (2 ^ d) := by
      rw [e2, e3, chosenIn_append, Nat.add_mul, Nat.one_mul]
    by_cases hr : pos * 2 + 1 < width txids.length d
    · obtain ⟨b2, h2, x2, B2⟩ := ih (pos * 2 + 1) hr
      have hnode : calcHash h txids (d + 1) pos = some (h x1 x2) := by simp only [calcHash, B1.node, B2.node, hr, if_true]
      cases hm : parentOfMatch mtch txids.length (d + 1) pos
      · refine ⟨[false], [h x1 x2], h x1 x2, ?_, hnode, by simp, by simpa using hbp, ?_⟩
        · simp only [build, hm, hnode]; simp
        · intro t e rb rh hn hbits hhs
          obtain ⟨c1, -⟩ := drop_get hbits
          obtain ⟨c2, -⟩ := drop_get hhs
          simp only [extract, c1, c2, chosenIn_none hm]
          simp
      · refine ⟨true :: b1 ++ b2, h1 ++ h2, h x1 x2, ?_, hnode, ?_, ?_, ?_⟩
        · simp only [build, hm, hr, B1.built, B2.built, if_true]
        · simp only [List.length_append, List.length_cons]; have := B1.lenBits; have := B2.lenBits; omega
        · simp only [List.length_append]; have := B1.lenBelow; have := B2.lenBelow; omega
        · intro t e rb rh hn hbits hhs
          rw [List.cons_append, List.cons_append, List.append_assoc] at hbits
          rw [List.append_assoc] at hhs
          obtain ⟨c1, c2⟩ := drop_get hbits
          have r1 := B1.read t { e with bitsUsed := e.bitsUsed + 1 } (b2 ++ rb) (h2 ++ rh) hn c2 hhs
          have r2 := B2.read t ⟨e.bitsUsed + 1 + b1.length, e.hashUsed + h1.length,
            e.matched ++ chosenIn txids mtch (pos * 2 * 2 ^ d) (2 ^ d), e.bad⟩ rb rh hn
            (by rw [← List.drop_drop, c2, List.drop_append_of_le_length (by omega)]; simp)
            (by rw [← List.drop_drop, hhs, List.drop_append_of_le_length (by omega)]; simp)
          simp only [extract, c1, if_true, r1, hn, hr, r2, hch]
          simp only [List.length_append, List.length_cons, List.append_assoc]
          congr 2 <;> omega
    · have hnode : calcHash h txids (d + 1) pos = some (h x1 x1) := by simp only [calcHash, B1.node, hr, if_false]
      have hempty : chosenIn txids mtch ((pos * 2 + 1) * 2 ^ d) (2 ^ d) = [] := by
        apply chosenIn_beyond
        rw [lt_width] at hr; omega
      rw [hempty, List.append_nil] at hch
      cases hm : parentOfMatch mtch txids.length (d + 1) pos
      · refine ⟨[false], [h x1 x1], h x1 x1, ?_, hnode, by simp, by simpa using hbp, ?_⟩
        · simp only [build, hm, hnode]; simp
        · intro t e rb rh hn hbits hhs
          obtain ⟨c1, -⟩ := drop_get hbits
          obtain ⟨c2, -⟩ := drop_get hhs
          simp only [extract, c1, c2, chosenIn_none hm]
          simp
      · refine ⟨true :: b1, h1, h x1 x1, ?_, hnode, ?_, ?_, ?_⟩
        · simp only [build, hm, hr, B1.built, if_true, if_false]
        · simp only [List.length_cons]; have := B1.lenBits; omega
        · have := B1.lenBelow; omega
        · intro t e rb rh hn hbits hhs
          rw [List.cons_append] at hbits
          obtain ⟨c1, c2⟩ := drop_get hbits
          have r1 := B1.read t { e with bitsUsed := e.bitsUsed + 1 } rb rh hn c2 hhs
          simp only [extract, c1, if_true, r1, hn, hr, if_false, hch]
          simp only [List.length_cons]
          congr 2; omega

theorem treeHeight_width {n : Nat} (hn : 1 ≤ n) : width n (treeHeight n n 0) = 1 := by
  have h1 := reduce_upN (fun a _ => a) (List.replicate n ()) n 0
  have h2 := reduce_length (fun (a : Unit) _ => a) (f := n) (l := List.replicate n ()) (by simp)
    (by intro hc; simp at hc; omega)
  simp only [upN, List.length_replicate] at h1
  rw [h1, upN_length, List.length_replicate] at h2
  exact h2

/-- Extraction of anything whose bits start with the built ones and then hold fewer than eight more in the last byte. -/
theorem extract_of_build (h : α → α → α) (zero : α) (maxTx : Nat) {txids : List α} {mtch : List Bool} (hne : txids ≠ [])
    (hmax : txids.length ≤ maxTx) (hl : mtch.length = txids.length) {p : Partial α} (hp : mkPartial h txids mtch = some p)
    {t : Partial α} (hn : t.n = p.n) (hh : t.hashes = p.hashes) (hb : t.bad = false) {pad : List Bool} (hbits : t.bits = p.bits ++ pad)
    (hpad : (t.bits.length + 7) / 8 = (p.bits.length + 7) / 8) :
    extractMatches h zero maxTx t = (merkleRoot h zero txids, chosen txids mtch) := by
  have hpos : 1 ≤ txids.length := List.length_pos_iff.2 hne
  have hw := treeHeight_width hpos
  obtain ⟨b, hs, x, B⟩ := build_spec h zero txids mtch (treeHeight txids.length txids.length 0) 0 (by omega)
  have hpe : p = ⟨txids.length, b, hs, false⟩ := by
    unfold mkPartial at hp; rw [B.built] at hp; simpa using hp.symm
  subst hpe
  simp only at hn hh hbits hpad
  have hread := B.read t ⟨0, 0, [], t.bad⟩ pad [] hn (by simp [hbits]) (by simp [hh])
  have hbelow : below txids.length (treeHeight txids.length txids.length 0) 0 ≤ txids.length := by unfold below; omega
  have hlb := B.lenBelow
  have hlbits := B.lenBits
  have hroot : merkleRoot h zero txids = some x := by
    obtain ⟨r, e1, e2⟩ := merkleRoot_eq h zero hne
    have e3 := reduce_upN h txids txids.length 0
    simp only [upN] at e3
    have e4 := B.node
    rw [calcHash_eq, ← e3, e2] at e4
    simp only [List.getElem?_cons_zero] at e4
    rw [e1, e4]
  have hchosen : chosenIn txids mtch (0 * 2 ^ treeHeight txids.length txids.length 0) (2 ^ treeHeight txids.length txids.length 0) =
      chosen txids mtch := by
    have hge : txids.length ≤ 2 ^ treeHeight txids.length txids.length 0 := by
      have : ¬ 1 < width txids.length (treeHeight txids.length txids.length 0) := by omega
      rw [lt_width] at this; omega
    obtain ⟨k, hk⟩ := Nat.exists_eq_add_of_le hge
    rw [hk, chosenIn_append, chosenIn_beyond txids mtch k (by omega), List.append_nil, Nat.zero_mul, chosenIn_all hl]

  unfold extractMatches
  rw [if_neg (by rw [hn, hh, hbits, List.length_append]; omega), hn, hread, hroot, hchosen]
  simp [hb, hh, hpad]

theorem bits_ofByte : ∀ bs : List Bool, bs.length ≤ 8 → bitsOf (byteOf bs) = bs ++ List.replicate (8 - bs.length) false := by
  have key : ∀ n ≤ 8, ∀ bs ∈ (List.range (2 ^ n)).map (fun k => (List.range n).map fun p => k / 2 ^ p % 2 == 1),
    bitsOf (byteOf bs) = bs ++ List.replicate (8 - bs.length) false := by decide +kernel
  have bit : ∀ bs : List Bool, byteOf bs < 2 ^ bs.length ∧ (List.range bs.length).map (fun p => byteOf bs / 2 ^ p % 2 == 1) = bs := by
    intro bs
    induction bs with
    | nil => simp [byteOf]
    | cons b bs ih =>
      constructor
      · simp only [byteOf, List.length_cons, Nat.pow_succ]
        cases b <;> simp <;> omega
      · rw [List.length_cons, List.range_succ_eq_map, List.map_cons, List.map_map]
        congr 1
        · cases b <;> simp [byteOf] <;> omega
        · rw [← ih.2]
          rw [ih.2]
          conv_rhs => rw [← ih.2]
          apply List.map_congr_left
          intro p _
          simp only [Function.comp, byteOf, Nat.pow_succ]
          rw [Nat.mul_comm (2 ^ p) 2, ← Nat.div_div_eq_div_mul]
          congr 2
          have : (b.toNat + 2 * byteOf bs) / 2 = byteOf bs := by cases b <;> simp <;> omega
          rw [this]
  intro bs hl
  refine key bs.length hl bs ?_
  rw [List.mem_map]
  exact ⟨byteOf bs, List.mem_range.2 (bit bs).1, (bit bs).2⟩

theorem unpack_pack (f : Nat) (bs : List Bool) (hf : bs.length ≤ f) :
    ∃ k < 8, unpackBits (packBits f bs) = bs ++ List.replicate k false ∧ (bs.length + k) % 8 = 0 := by
  induction f generalizing bs with
  | zero =>
    have : bs = [] := List.length_eq_zero_iff.1 (by omega)
    subst this
    exact ⟨0, by omega, rfl, rfl⟩
  | succ f ih =>
    by_cases hb : bs = []
    · subst hb
      exact ⟨0, by omega, by simp [packBits, unpackBits], rfl⟩
    · have hlen : 1 ≤ bs.length := List.length_pos_iff.2 hb
      obtain ⟨k, hk, e, hm⟩ := ih (bs.drop 8) (by simp; omega)
      have h0 : unpackBits (packBits (f + 1) bs) = bitsOf (byteOf (bs.take 8)) ++ unpackBits (packBits f (bs.drop 8)) := by
        simp [packBits, hb, unpackBits]
      rw [h0, bits_ofByte _ (by simp), e]
      by_cases h8 : 8 ≤ bs.length
      · refine ⟨k, hk, ?_, ?_⟩
        · rw [List.length_take, Nat.min_eq_left h8]
          simp only [Nat.sub_self, List.replicate_zero, List.append_nil]
          rw [← List.append_assoc, List.take_append_drop]
        · rw [List.length_drop] at hm; omega
      · have hd : bs.drop 8 = [] := List.drop_eq_nil_of_le (by omega)
        have ht : bs.take 8 = bs := List.take_of_length_le (by omega)
        rw [hd] at hm ⊢
        have hk0 : k = 0 := by simp at hm; omega
        subst hk0
        rw [ht]
        exact ⟨8 - bs.length, by omega, by simp, by omega⟩

/-- C50: building from a transaction list and a choice, then extracting, returns the Merkle root and exactly the chosen
transactions in order. -/
theorem partial_tree_round_trip (h : α → α → α) (zero : α) (maxTx : Nat) {txids : List α} {mtch : List Bool} (hne : txids ≠ [])
    (hmax : txids.length ≤ maxTx) (hl : mtch.length = txids.length) :
    ∃ p, mkPartial h txids mtch = some p ∧ extractMatches h zero maxTx p = (merkleRoot h zero txids, chosen txids mtch) := by
  have hpos : 1 ≤ txids.length := List.length_pos_iff.2 hne
  have hw := treeHeight_width hpos
  obtain ⟨b, hs, x, B⟩ := build_spec h zero txids mtch (treeHeight txids.length txids.length 0) 0 (by omega)
  have hp : mkPartial h txids mtch = some ⟨txids.length, b, hs, false⟩ := by unfold mkPartial; rw [B.built]
  exact ⟨_, hp, extract_of_build h zero maxTx hne hmax hl hp rfl rfl rfl (pad := []) (by simp) rfl⟩

/-- The same after the tree was serialized and read back, padding bits included. -/
theorem partial_tree_round_trip_serialized (h : α → α → α) (zero : α) (maxTx : Nat) {txids : List α} {mtch : List Bool} (hne : txids ≠ [])
    (hmax : txids.length ≤ maxTx) (hl : mtch.length = txids.length) {p : Partial α} (hp : mkPartial h txids mtch = some p) :
    extractMatches h zero maxTx (roundTrip p) = (merkleRoot h zero txids, chosen txids mtch) := by
  obtain ⟨k, hk, e, hm⟩ := unpack_pack p.bits.length p.bits (Nat.le_refl _)
  refine extract_of_build h zero maxTx hne hmax hl hp rfl rfl rfl (pad := List.replicate k false) ?_ ?_
  · simpa [roundTrip] using e
  · simp only [roundTrip, e, List.length_append, List.length_replicate]; omega

/-! ## Soundness against any sender -/

theorem sublist_leaves {txids : List α} {a j k : Nat} {s1 s2 : List α} (h1 : s1.Sublist ((txids.drop a).take j))
    (h2 : s2.Sublist ((txids.drop (a + j)).take k)) : (s1 ++ s2).Sublist ((txids.drop a).take (j + k)) := by
  rw [List.take_add, List.drop_drop]
  exact h1.append h2

theorem extract_bad (h : α → α → α) (zero : α) (t : Partial α) (d pos : Nat) (e : Ext α) (hb : e.bad = true) :
    (extract h zero t d pos e).2.bad = true := by
  induction d generalizing pos e with
  | zero =>
    simp only [extract]
    split
    · rfl
    · split
      · rfl
      · exact hb
  | succ d ih =>
    simp only [extract]
    split
    · rfl
    · split
      · split
        · exact ih _ _ (ih _ _ hb)
        · exact ih _ _ hb
      · split
        · rfl
        · exact hb

/-- Reading that ends at the block's own node hash yields transactions of the block, in block order. -/
theorem extract_sound {h : α → α → α} (hi : Inj2 h) (zero : α) {txids : List α} {t : Partial α} (hn : t.n = txids.length) (d : Nat) :
    ∀ pos (e : Ext α), pos < width txids.length d → (extract h zero t d pos e).2.bad = false →
      calcHash h txids d pos = some (extract h zero t d pos e).1 →
      ∃ s, (extract h zero t d pos e).2.matched = e.matched ++ s ∧ s.Sublist ((txids.drop (pos * 2 ^ d)).take (2 ^ d)) := by
  induction d with
  | zero =>
    intro pos e hp hbad hnode
    have hp' : pos < txids.length := by simpa using lt_width.1 hp
    simp only [extract] at hbad hnode ⊢
    split at hbad
    · simp at hbad
    · rename_i b hb
      rw [hb] at hnode
      simp only at hbad hnode ⊢
      split at hbad
      · simp at hbad
      · rename_i x hx
        rw [hx] at hnode
        simp only [calcHash] at hnode ⊢
        rw [List.getElem?_eq_getElem hp'] at hnode
        simp only [Option.some.injEq] at hnode
        cases b
        · exact ⟨[], by simp, by simp⟩
        · refine ⟨[x], by simp, ?_⟩
          rw [List.singleton_sublist, ← hnode]
          simp only [Nat.pow_zero, Nat.mul_one]
          rw [List.drop_eq_getElem_cons hp', List.take_succ_cons]
          exact List.mem_cons_self
  | succ d ih =>
    intro pos e hp hbad hnode
    have hw := width_succ txids.length d
    have hp1 : pos * 2 < width txids.length d := by omega
    have e2 : pos * 2 ^ (d + 1) = pos * 2 * 2 ^ d := by ring
    have e3 : 2 ^ (d + 1) = 2 ^ d + 2 ^ d := by ring
    simp only [extract] at hbad hnode ⊢
    split at hbad
    · simp at hbad
    · rename_i b hb
      rw [hb] at hnode
      simp only at hbad hnode ⊢
      cases b
      · simp only [Bool.false_eq_true, if_false] at hbad hnode ⊢
        split at hbad
        · simp at hbad
        · rename_i x hx
          exact ⟨[], by simp, by simp⟩
      · simp only [if_true] at hbad hnode ⊢
        rw [hn] at hbad hnode ⊢
        by_cases hr : pos * 2 + 1 < width txids.length d
        · simp only [hr, if_true] at hbad hnode ⊢
          simp only [calcHash, hr, if_true] at hnode
          split at hnode
          · simp at hnode
          · rename_i l hl
            split at hnode
            · simp at hnode
            · rename_i r hrr
              simp only [Option.some.injEq] at hnode
              obtain ⟨g1, g2⟩ := hi _ _ _ _ hnode
              have hb1 : (extract h zero t d (pos * 2) { e with bitsUsed := e.bitsUsed + 1 }).2.bad = false := by
                cases hx : (extract h zero t d (pos * 2) { e with bitsUsed := e.bitsUsed + 1 }).2.bad
                · rfl
                · rw [extract_bad h zero t d (pos * 2 + 1) _ hx] at hbad; simp at hbad
              obtain ⟨s1, m1, l1⟩ := ih _ _ hp1 hb1 (by rw [hl, g1])
              obtain ⟨s2, m2, l2⟩ := ih _ _ hr hbad (by rw [hrr, g2])
              refine ⟨s1 ++ s2, by rw [m2, m1]; simp, ?_⟩
              rw [e2, e3]
              exact sublist_leaves l1 (by rw [Nat.add_mul, Nat.one_mul] at l2; exact l2)
        · simp only [hr, if_false] at hbad hnode ⊢
          simp only [calcHash, hr, if_false] at hnode
          split at hnode
          · simp at hnode
          · rename_i l hl
            simp only [Option.some.injEq] at hnode
            obtain ⟨g1, -⟩ := hi _ _ _ _ hnode
            obtain ⟨s1, m1, l1⟩ := ih _ _ hp1 hbad (by rw [hl, g1])
            refine ⟨s1, by rw [m1], ?_⟩
            rw [e2, e3]
            have := sublist_leaves (k := 2 ^ d) (s2 := []) l1 (by simp)
            simpa using this

/-- Whatever partial tree is received, with the block's transaction count: if extraction yields the block's Merkle root, the
extracted ids are transactions of the block in block order. -/
theorem extracted_are_in_block {h : α → α → α} (hi : Inj2 h) (zero : α) (maxTx : Nat) {txids : List α} (hne : txids ≠ []) {t : Partial α}
    (hn : t.n = txids.length) {root : α} {ms : List α} (hx : extractMatches h zero maxTx t = (some root, ms))
    (hr : merkleRoot h zero txids = some root) : ms.Sublist txids := by
  have hpos : 1 ≤ txids.length := List.length_pos_iff.2 hne
  have hw := treeHeight_width hpos
  unfold extractMatches at hx
  split at hx
  · simp at hx
  · simp only at hx
    split at hx
    · simp at hx
    · rename_i hc
      simp only [not_or] at hc
      simp only [Prod.mk.injEq, Option.some.injEq] at hx
      obtain ⟨h1, h2⟩ := hx
      rw [hn] at h1 h2 hc
      have hnode : calcHash h txids (treeHeight txids.length txids.length 0) 0 = some root := by
        obtain ⟨r, e1, e2⟩ := merkleRoot_eq h zero hne
        have e3 := reduce_upN h txids txids.length 0
        simp only [upN] at e3
        rw [calcHash_eq, ← e3, e2]
        rw [e1] at hr
        simpa using hr
      obtain ⟨s, m, l⟩ := extract_sound hi zero hn _ 0 ⟨0, 0, [], t.bad⟩ (hw ▸ Nat.one_pos) (by simpa using hc.1) (by rw [h1]; exact hnode)
      rw [h2, List.nil_append] at m
      rw [m]
      exact l.trans ((List.take_sublist _ _).trans (List.drop_sublist _ _))

example : (mkPartial Tree.node (exLeaves 5) [false, true, false, false, true]).map (extractMatches Tree.node (.leaf 0) 100 ∘ roundTrip)
    = some (merkleRoot Tree.node (.leaf 0) (exLeaves 5), [.leaf 1, .leaf 4]) := by decide

end Verif.Merkle
