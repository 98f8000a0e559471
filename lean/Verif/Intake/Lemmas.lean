import Verif.Intake.Spec
import Mathlib.Tactic.Common

/-!
# Intake of blocks: facts about the index
-/
namespace Verif.Intake

/-! ## Chains -/

theorem Sound.ne {e : Env} {p : List Blk} (h : Sound e p) : p ≠ [] := by rintro rfl; exact h
theorem Linked.ne {e : Env} {p : List Blk} (h : Linked e p) : p ≠ [] := by rintro rfl; exact h

theorem Sound.tail {e : Env} {b : Blk} {p : List Blk} (h : Sound e (b :: p)) (hp : p ≠ []) : Sound e p := by
  cases p with
  | nil => exact absurd rfl hp
  | cons q r => exact h.2

theorem Linked.tail {e : Env} {b : Blk} {p : List Blk} (h : Linked e (b :: p)) (hp : p ≠ []) : Linked e p := by
  cases p with
  | nil => exact absurd rfl hp
  | cons q r => exact h.2

theorem Sound.suffix {e : Env} {p s : List Blk} (h : Sound e p) (hs : s <:+ p) (hn : s ≠ []) : Sound e s := by
  induction p with
  | nil => exact absurd h.ne (by simp)
  | cons b p ih =>
    rcases List.suffix_cons_iff.1 hs with rfl | hs
    · exact h
    · exact ih (h.tail (by rintro rfl; exact hn (List.suffix_nil.1 hs))) hs

theorem Linked.suffix {e : Env} {p s : List Blk} (h : Linked e p) (hs : s <:+ p) (hn : s ≠ []) : Linked e s := by
  induction p with
  | nil => exact absurd h.ne (by simp)
  | cons b p ih =>
    rcases List.suffix_cons_iff.1 hs with rfl | hs
    · exact h
    · exact ih (h.tail (by rintro rfl; exact hn (List.suffix_nil.1 hs))) hs

theorem Linked.genesis {e : Env} {p : List Blk} (h : Linked e p) : [e.genesis] <:+ p := by
  induction p with
  | nil => exact absurd h.ne (by simp)
  | cons b p ih =>
    cases p with
    | nil => rw [show b = e.genesis from h]; exact List.suffix_refl _
    | cons q r => exact (ih h.2).trans (List.suffix_cons _ _)

theorem sound_cons {e : Env} {b : Blk} {p : List Blk} (hp : Sound e p) : Sound e (b :: p) ↔ connect e p b = true := by
  cases p with
  | nil => exact absurd hp.ne (by simp)
  | cons q r =>
    simp only [connect, Bool.and_eq_true]
    exact ⟨fun h => ⟨⟨h.1.1, h.1.2.1⟩, h.1.2.2⟩, fun h => ⟨⟨h.1.1, h.1.2, h.2⟩, hp⟩⟩

/-! ## The tree of entries -/

/-- The chains of the entries. -/
def skel (idx : List Node) : List (List Blk) := idx.map Node.path

/-- What the chains of the entries satisfy. -/
structure Tree (e : Env) (sk : List (List Blk)) : Prop where
  nodup : (sk.map tipHash).Nodup
  closed : ∀ b p, b :: p ∈ sk → p = [] ∨ p ∈ sk
  linked : ∀ p ∈ sk, Linked e p

theorem tipHash_cons (b : Blk) (p : List Blk) : tipHash (b :: p) = some b.hash := rfl

theorem inj_of_nodup_map {α β : Type} {f : α → β} {l : List α} (h : (l.map f).Nodup) {x y : α} (hx : x ∈ l) (hy : y ∈ l)
    (hf : f x = f y) : x = y := by
  induction l with
  | nil => simp at hx
  | cons a l ih =>
    rw [List.map_cons, List.nodup_cons] at h
    rcases List.mem_cons.1 hx with hxa | hxl <;> rcases List.mem_cons.1 hy with hya | hyl
    · rw [hxa, hya]
    · exact absurd (List.mem_map.2 ⟨y, hyl, hf.symm.trans (by rw [hxa])⟩) h.1
    · exact absurd (List.mem_map.2 ⟨x, hxl, hf.trans (by rw [hya])⟩) h.1
    · exact ih h.2 hxl hyl

theorem Tree.eq {e : Env} {sk : List (List Blk)} (t : Tree e sk) {p q : List Blk} (hp : p ∈ sk) (hq : q ∈ sk)
    (h : tipHash p = tipHash q) : p = q := inj_of_nodup_map t.nodup hp hq h

theorem Tree.suffix {e : Env} {sk : List (List Blk)} (t : Tree e sk) {p s : List Blk} (hp : p ∈ sk) (hs : s <:+ p)
    (hn : s ≠ []) : s ∈ sk := by
  induction p with
  | nil => exact absurd (List.suffix_nil.1 hs) hn
  | cons b p ih =>
    rcases List.suffix_cons_iff.1 hs with rfl | hs
    · exact hp
    · rcases t.closed b p hp with rfl | h
      · exact absurd (List.suffix_nil.1 hs) hn
      · exact ih h hs

theorem Tree.genesis {e : Env} {sk : List (List Blk)} (t : Tree e sk) {p : List Blk} (hp : p ∈ sk) : [e.genesis] ∈ sk :=
  t.suffix hp (t.linked p hp).genesis (by simp)

theorem inChain_split {c : List Blk} {h : Nat} (hc : inChain c h = true) : ∃ l b r, c = l ++ b :: r ∧ b.hash = h := by
  unfold inChain at hc
  rw [List.any_eq_true] at hc
  obtain ⟨b, hb, e⟩ := hc
  obtain ⟨l, r, rfl⟩ := List.append_of_mem hb
  exact ⟨l, b, r, rfl, by simpa using e⟩

/-- `CChain::Contains` for known chains. -/
theorem Tree.contains {e : Env} {sk : List (List Blk)} (t : Tree e sk) {c p : List Blk} {b : Blk} (hc : c ∈ sk) (hp : b :: p ∈ sk) :
    inChain c b.hash = true ↔ b :: p <:+ c := by
  constructor
  · intro h
    obtain ⟨l, x, r, rfl, hx⟩ := inChain_split h
    have hs : x :: r <:+ l ++ x :: r := List.suffix_append _ _
    have := t.eq (t.suffix hc hs (by simp)) hp (by rw [tipHash_cons, tipHash_cons, hx])
    rw [← this]; exact hs
  · rintro ⟨l, rfl⟩
    simp [inChain]

theorem skel_upd (idx : List Node) (h : Nat) (f : Node → Node) (hf : ∀ n, (f n).path = n.path) : skel (upd idx h f) = skel idx := by
  unfold skel upd
  rw [List.map_map]
  apply List.map_congr_left
  intro n _
  simp only [Function.comp]
  split
  · exact hf n
  · rfl

theorem skel_mark (idx : List Node) (h : Nat) : skel (mark idx h) = skel idx := skel_upd _ _ _ fun _ => rfl
theorem skel_uncand (idx : List Node) (h : Nat) : skel (uncand idx h) = skel idx := skel_upd _ _ _ fun _ => rfl

/-- Setting the flag for all blocks whose hash satisfies `P`. -/
def markIf (idx : List Node) (P : Nat → Bool) : List Node :=
  idx.map fun n => if P n.blk.hash then { n with failed := true, cand := false } else n

theorem skel_markIf (idx : List Node) (P : Nat → Bool) : skel (markIf idx P) = skel idx := by
  unfold skel markIf
  rw [List.map_map]
  apply List.map_congr_left
  intro n _
  simp only [Function.comp]
  split <;> rfl

theorem mark_eq (idx : List Node) (h : Nat) : mark idx h = markIf idx (fun x => x == h) := by
  unfold mark upd markIf
  apply List.map_congr_left
  intro n _
  simp

theorem markIf_markIf (idx : List Node) (P Q : Nat → Bool) : markIf (markIf idx P) Q = markIf idx (fun x => P x || Q x) := by
  unfold markIf
  rw [List.map_map]
  apply List.map_congr_left
  intro n _
  simp only [Function.comp]
  by_cases hp : P n.blk.hash = true
  · rw [if_pos hp]
    by_cases hq : Q n.blk.hash = true
    · rw [if_pos (show Q _ = true from hq), if_pos (by simp [hp])]
    · rw [if_neg (show ¬ Q _ = true from hq), if_pos (by simp [hp])]
  · rw [if_neg hp]
    by_cases hq : Q n.blk.hash = true
    · rw [if_pos hq, if_pos (by simp [hq])]
    · rw [if_neg hq, if_neg (by simp [hp, hq])]

theorem markIf_false (idx : List Node) : markIf idx (fun _ => false) = idx := by
  unfold markIf
  simp

theorem markAll_eq (idx : List Node) (bs : List Blk) : markAll idx bs = markIf idx (fun h => inChain bs h) := by
  induction bs generalizing idx with
  | nil => exact (markIf_false idx).symm
  | cons b bs ih =>
    show markAll (mark idx b.hash) bs = _
    rw [ih, mark_eq, markIf_markIf]
    congr 1
    funext h
    simp only [inChain, List.any_cons]
    rw [Bool.beq_comm]

theorem mem_markIf {idx : List Node} {P : Nat → Bool} {n : Node} :
    n ∈ markIf idx P ↔ ∃ m ∈ idx, (if P m.blk.hash then { m with failed := true, cand := false } else m) = n := by
  unfold markIf
  rw [List.mem_map]

theorem isFailed_iff {idx : List Node} {h : Nat} : isFailed idx h = true ↔ ∃ n ∈ idx, n.blk.hash = h ∧ n.failed = true := by
  unfold isFailed
  rw [List.any_eq_true]
  simp

theorem mem_skel {idx : List Node} {p : List Blk} : p ∈ skel idx ↔ ∃ n ∈ idx, n.path = p := List.mem_map

theorem mem_path {idx : List Node} {n : Node} (h : n ∈ idx) : n.path ∈ skel idx := List.mem_map.2 ⟨n, h, rfl⟩

theorem node_eq {e : Env} {idx : List Node} (t : Tree e (skel idx)) {m n : Node} (hm : m ∈ idx) (hn : n ∈ idx)
    (h : m.blk.hash = n.blk.hash) : m = n := by
  have hd : (idx.map fun n => tipHash n.path).Nodup := by
    have := t.nodup
    unfold skel at this
    rwa [List.map_map] at this
  exact inj_of_nodup_map hd hm hn (by simp [Node.path, tipHash_cons, h])

theorem find_some {idx : List Node} {h : Nat} {n : Node} (hf : find idx h = some n) : n ∈ idx ∧ n.blk.hash = h := by
  unfold find at hf
  have h1 := List.find?_some hf
  exact ⟨List.mem_of_find?_eq_some hf, by simpa using h1⟩

theorem has_iff {idx : List Node} {h : Nat} : has idx h = true ↔ ∃ p ∈ skel idx, tipHash p = some h := by
  unfold has find
  rw [List.find?_isSome]
  constructor
  · rintro ⟨n, hn, hb⟩
    exact ⟨n.path, mem_path hn, by simp only [beq_iff_eq] at hb; simp [Node.path, tipHash_cons, hb]⟩
  · rintro ⟨p, hp, hb⟩
    obtain ⟨n, hn, rfl⟩ := mem_skel.1 hp
    exact ⟨n, hn, by simpa [Node.path, tipHash_cons] using hb⟩

/-! ## The best candidate -/

theorem seqOf_lt {idx : List Node} {h : Nat} (hm : ∃ n ∈ idx, n.blk.hash = h) : seqOf idx h < idx.length := by
  induction idx with
  | nil => simp at hm
  | cons a r ih =>
    unfold seqOf
    split
    · simp
    · rename_i hne
      have := ih (by
        obtain ⟨n, hn, e⟩ := hm
        rcases List.mem_cons.1 hn with rfl | hn
        · exact absurd e hne
        · exact ⟨n, hn, e⟩)
      simp only [List.length_cons]; omega

theorem seqOf_inj {idx : List Node} {x y : Nat} (hx : ∃ n ∈ idx, n.blk.hash = x) (hy : ∃ n ∈ idx, n.blk.hash = y)
    (h : seqOf idx x = seqOf idx y) : x = y := by
  induction idx with
  | nil => simp at hx
  | cons a r ih =>
    have sub : ∀ z, (∃ n ∈ a :: r, n.blk.hash = z) → a.blk.hash ≠ z → ∃ n ∈ r, n.blk.hash = z := by
      rintro z ⟨n, hn, e⟩ hne
      rcases List.mem_cons.1 hn with rfl | hn
      · exact absurd e hne
      · exact ⟨n, hn, e⟩
    unfold seqOf at h
    by_cases h1 : a.blk.hash = x <;> by_cases h2 : a.blk.hash = y
    · exact h1.symm.trans h2
    · rw [if_pos h1, if_neg h2] at h
      have := seqOf_lt (sub y hy h2); omega
    · rw [if_neg h1, if_pos h2] at h
      have := seqOf_lt (sub x hx h1); omega
    · rw [if_neg h1, if_neg h2] at h
      exact ih (sub x hx h1) (sub y hy h2) h

theorem seqOf_skel {idx idx' : List Node} (h : skel idx = skel idx') (x : Nat) : seqOf idx x = seqOf idx' x := by
  induction idx generalizing idx' with
  | nil =>
    cases idx' with
    | nil => rfl
    | cons a r => simp [skel] at h
  | cons a r ih =>
    cases idx' with
    | nil => simp [skel] at h
    | cons a' r' =>
      simp only [skel, List.map_cons, List.cons.injEq] at h
      obtain ⟨h1, h2⟩ := h
      have hl : r.length = r'.length := by simpa using congrArg List.length h2
      have hb : a.blk = a'.blk := by
        simp only [Node.path, List.cons.injEq] at h1; exact h1.1
      unfold seqOf
      rw [hb, hl, ih h2]

theorem seqOf_cons_ne {a : Node} {r : List Node} {h : Nat} (hne : a.blk.hash ≠ h) : seqOf (a :: r) h = seqOf r h := by
  rw [seqOf, if_neg hne]

theorem best_none {idx : List Node} (h : best idx = none) : ∀ n ∈ idx, n.cand = false := by
  induction idx with
  | nil => simp
  | cons a r ih =>
    unfold best at h
    cases hb : best r with
    | none =>
      rw [hb] at h
      intro n hn
      rcases List.mem_cons.1 hn with rfl | hn
      · by_contra hc
        simp [hc] at h
      · exact ih hb n hn
    | some m =>
      rw [hb] at h
      simp only at h
      split at h <;> simp at h

theorem best_mem {idx : List Node} {n : Node} (h : best idx = some n) : n ∈ idx ∧ n.cand = true := by
  induction idx generalizing n with
  | nil => simp [best] at h
  | cons a r ih =>
    unfold best at h
    cases hb : best r with
    | none =>
      rw [hb] at h
      simp only at h
      split at h
      · rename_i hc
        simp only [Option.some.injEq] at h
        subst h
        exact ⟨by simp, hc⟩
      · simp at h
    | some m =>
      rw [hb] at h
      simp only at h
      split at h
      · rename_i hc
        simp only [Option.some.injEq] at h
        subst h
        simp only [Bool.and_eq_true] at hc
        exact ⟨by simp, hc.1⟩
      · simp only [Option.some.injEq] at h
        subst h
        exact ⟨List.mem_cons_of_mem _ (ih hb).1, (ih hb).2⟩

/-- Nothing in `setBlockIndexValid` comes after its last element. -/
theorem best_max {idx : List Node} (hd : (idx.map fun n => n.blk.hash).Nodup) {n : Node} (h : best idx = some n) {m : Node}
    (hm : m ∈ idx) (hc : m.cand = true) : less idx n.anc.length n.blk.hash m.anc.length m.blk.hash = false := by
  induction idx generalizing n m with
  | nil => simp at hm
  | cons a r ih =>
    rw [List.map_cons, List.nodup_cons] at hd
    have hne : ∀ x ∈ r, a.blk.hash ≠ x.blk.hash := by
      intro x hx he
      exact hd.1 (List.mem_map.2 ⟨x, hx, he.symm⟩)
    have hself : seqOf (a :: r) a.blk.hash = r.length := by rw [seqOf, if_pos rfl]
    unfold best at h
    cases hb : best r with
    | none =>
      rw [hb] at h
      simp only at h
      split at h
      · simp only [Option.some.injEq] at h
        subst h
        rcases List.mem_cons.1 hm with rfl | hm
        · simp [less]
        · have := best_none hb m hm; rw [this] at hc; simp at hc
      · simp at h
    | some k =>
      rw [hb] at h
      obtain ⟨hk, hkc⟩ := best_mem hb
      simp only at h
      split at h
      · rename_i hcond
        simp only [Option.some.injEq] at h
        subst h
        simp only [Bool.and_eq_true, decide_eq_true_eq] at hcond
        rcases List.mem_cons.1 hm with rfl | hm
        · simp [less]
        · have := ih hd.2 hb hm hc
          unfold less at this ⊢
          simp only [Bool.or_eq_false_iff, decide_eq_false_iff_not, Bool.and_eq_false_iff, beq_eq_false_iff_ne] at this ⊢
          obtain ⟨h1, h2⟩ := this
          exact ⟨by omega, Or.inl (by omega)⟩
      · rename_i hcond
        simp only [Option.some.injEq] at h
        subst h
        rcases List.mem_cons.1 hm with rfl | hm
        · simp only [Bool.and_eq_true, decide_eq_true_eq, not_and] at hcond
          have h1 := hcond hc
          have h2 := seqOf_lt ⟨k, hk, rfl⟩
          unfold less
          rw [hself, seqOf_cons_ne (hne k hk)]
          simp only [Bool.or_eq_false_iff, decide_eq_false_iff_not, Bool.and_eq_false_iff]
          exact ⟨by omega, Or.inr (by omega)⟩
        · have := ih hd.2 hb hm hc
          unfold less at this ⊢
          rwa [seqOf_cons_ne (hne m hm), seqOf_cons_ne (hne k hk)]

theorem less_skel {idx idx' : List Node} (h : skel idx = skel idx') (a b c d : Nat) : less idx a b c d = less idx' a b c d := by
  unfold less
  rw [seqOf_skel h b, seqOf_skel h d]

theorem less_antisymm {idx : List Node} {m n : Node} (hm : m ∈ idx) (hn : n ∈ idx)
    (h1 : less idx m.anc.length m.blk.hash n.anc.length n.blk.hash = false)
    (h2 : less idx n.anc.length n.blk.hash m.anc.length m.blk.hash = false) : m.blk.hash = n.blk.hash := by
  unfold less at h1 h2
  simp only [Bool.or_eq_false_iff, decide_eq_false_iff_not, Bool.and_eq_false_iff, beq_eq_false_iff_ne] at h1 h2
  obtain ⟨a1, a2⟩ := h1
  obtain ⟨b1, b2⟩ := h2
  have he : m.anc.length = n.anc.length := by omega
  have c1 : ¬ seqOf idx n.blk.hash < seqOf idx m.blk.hash := by
    rcases a2 with h | h
    · exact absurd he h
    · exact h
  have c2 : ¬ seqOf idx m.blk.hash < seqOf idx n.blk.hash := by
    rcases b2 with h | h
    · exact absurd he.symm h
    · exact h
  exact seqOf_inj ⟨m, hm, rfl⟩ ⟨n, hn, rfl⟩ (by omega)

/-! ## Counting -/

/-- Entries without the flag. -/
def open_ (idx : List Node) : Nat := idx.countP fun n => !n.failed

theorem open_markIf_le (idx : List Node) (P : Nat → Bool) : open_ (markIf idx P) ≤ open_ idx := by
  unfold open_ markIf
  rw [List.countP_map]
  apply List.countP_mono_left
  intro n _ h
  simp only [Function.comp] at h
  split at h
  · simp at h
  · exact h

theorem open_cons (a : Node) (r : List Node) : open_ (a :: r) = open_ r + if a.failed then 0 else 1 := by
  unfold open_
  rw [List.countP_cons]
  cases a.failed <;> simp

theorem open_markIf_lt {idx : List Node} {P : Nat → Bool} {n : Node} (hn : n ∈ idx) (hf : n.failed = false) (hp : P n.blk.hash = true) :
    open_ (markIf idx P) < open_ idx := by
  induction idx with
  | nil => simp at hn
  | cons a r ih =>
    have hle := open_markIf_le r P
    rw [show markIf (a :: r) P = (if P a.blk.hash then { a with failed := true, cand := false } else a) :: markIf r P from rfl,
      open_cons, open_cons]
    rcases List.mem_cons.1 hn with rfl | hn
    · rw [if_pos hp, hf]
      simp only [if_true, Bool.false_eq_true, if_false]
      omega
    · have := ih hn
      by_cases hpa : P a.blk.hash = true
      · rw [if_pos hpa]
        simp only [if_true]
        omega
      · rw [if_neg hpa]
        omega

theorem open_le_length (idx : List Node) : open_ idx ≤ idx.length := List.countP_le_length

end Verif.Intake
