import Verif.Files.Model

namespace Verif.Files

/-- `bs` stands in `l` from byte `off` on. -/
def At (l : List Nat) (off : Nat) (bs : List Nat) : Prop := ∃ a c, l = a ++ bs ++ c ∧ a.length = off

theorem at_read {l off bs} (h : At l off bs) : read l off bs.length = bs := by
  obtain ⟨a, c, rfl, rfl⟩ := h
  simp [read]

theorem at_pad {l off bs} (h : At l off bs) (n : Nat) : At (pad l n) off bs := by
  obtain ⟨a, c, rfl, rfl⟩ := h
  exact ⟨a, c ++ zeros (n - (a ++ bs ++ c).length), by simp [pad], rfl⟩

theorem at_take {l off bs} (h : At l off bs) {n : Nat} (hn : off + bs.length ≤ n) (x : List Nat) : At (l.take n ++ x) off bs := by
  obtain ⟨a, c, rfl, rfl⟩ := h
  refine ⟨a, c.take (n - (a.length + bs.length)) ++ x, ?_, rfl⟩
  rw [List.take_append, List.take_of_length_le (by simp; omega)]
  simp

theorem at_trunc {l off bs} (h : At l off bs) {n : Nat} (hn : off + bs.length ≤ n) : At (trunc l n) off bs := at_take h hn _

theorem at_put_below {l off bs} (h : At l off bs) {p : Nat} (hn : off + bs.length ≤ p) (x : List Nat) : At (put l p x) off bs := by
  unfold put
  rw [List.append_assoc, List.append_assoc]
  exact at_take h hn _

theorem at_put (l : List Nat) (p : Nat) (x : List Nat) : At (put l p x) p x := by
  refine ⟨l.take p ++ zeros (p - l.length), l.drop (p + x.length), rfl, ?_⟩
  simp [zeros]; omega

theorem at_sub {l off a b c} (h : At l off (a ++ b ++ c)) : At l (off + a.length) b := by
  obtain ⟨x, y, rfl, rfl⟩ := h
  exact ⟨x ++ a, c ++ y, by simp, by simp⟩

theorem upd_same {α} (f : Nat → α) (i a) : upd f i a i = a := by simp [upd]
theorem upd_other {α} (f : Nat → α) {i j} (h : j ≠ i) (a) : upd f i a j = f j := by simp [upd, h]

theorem dbInfo_cons (f g : Nat) (i : Info) (db) : dbInfo ((f, i) :: db) g = if g = f then i else dbInfo db g := by
  unfold dbInfo
  rw [List.lookup_cons]
  by_cases h : g = f
  · simp [h]
  · simp [h, beq_eq_false_iff_ne.mpr h]

/-- Everything in the index is where it says, within the sizes in the database; the sizes in memory are not smaller. -/
structure Inv (ck : List Nat → List Nat) (s : St) : Prop where
  known : ∀ e ∈ s.index, (s.db.lookup e.file).isSome = true
  inSize : ∀ e ∈ s.index, e.pos + e.blk.length ≤ (dbInfo s.db e.file).size
  inFile : ∀ e ∈ s.index, At (s.blkF e.file) e.pos e.blk
  inUndo : ∀ e ∈ s.index, ∀ p u, e.undo = some (p, u) → p + (u.length + (ck u).length) ≤ (dbInfo s.db e.file).undo
  inRev : ∀ e ∈ s.index, ∀ p u, e.undo = some (p, u) → At (s.revF e.file) p (u ++ ck u)
  size : (dbInfo s.db s.last).size ≤ s.info.size
  undo : (dbInfo s.db s.last).undo ≤ s.info.undo

variable {P : Params} {ck : List Nat → List Nat}

theorem inv_leave {s : St} (h : Inv ck s) : Inv ck (leave s) := by
  refine ⟨h.known, h.inSize, ?_, h.inUndo, ?_, Nat.le_refl _, Nat.le_refl _⟩
  · intro e he
    show At (upd s.blkF s.last _ e.file) _ _
    by_cases hf : e.file = s.last
    · rw [hf, upd_same]
      refine at_trunc (hf ▸ h.inFile e he) ?_
      have := h.inSize e he
      rw [hf] at this
      exact Nat.le_trans this h.size
    · rw [upd_other _ hf]; exact h.inFile e he
  · intro e he p u hu
    show At (upd s.revF s.last _ e.file) _ _
    by_cases hf : e.file = s.last
    · rw [hf, upd_same]
      refine at_trunc (hf ▸ h.inRev e he p u hu) ?_
      have := h.inUndo e he p u hu
      rw [hf] at this
      simp only [List.length_append]
      exact Nat.le_trans this h.undo
    · rw [upd_other _ hf]; exact h.inRev e he p u hu

theorem inv_seek (add : Nat) : ∀ (k : Nat) {s : St}, Inv ck s → Inv ck (seek P add k s)
  | 0, _, h => h
  | k + 1, s, h => by
    rw [seek]
    split
    · exact inv_seek add k (inv_leave h)
    · exact h

theorem leave_db (s : St) : (leave s).db = s.db ∧ (leave s).index = s.index ∧ (leave s).flushed = s.flushed ∧ (leave s).cached = s.cached :=
  ⟨rfl, rfl, rfl, rfl⟩

theorem seek_db (add : Nat) : ∀ (k : Nat) (s : St), (seek P add k s).db = s.db ∧ (seek P add k s).index = s.index
  | 0, _ => ⟨rfl, rfl⟩
  | k + 1, s => by
    rw [seek]
    split
    · have := seek_db add k (leave s); exact this
    · exact ⟨rfl, rfl⟩

theorem lookup_none_of_gt {db : List (Nat × Info)} {f : Nat} (h : (db.map Prod.fst).foldr max 0 < f) : db.lookup f = none := by
  induction db with
  | nil => rfl
  | cons x db ih =>
    simp only [List.map_cons, List.foldr_cons] at h
    rw [List.lookup_cons, beq_eq_false_iff_ne.mpr (by omega)]
    exact ih (by omega)

/-- The loop ends with room in the file. -/
theorem seek_ends {add : Nat} (ha : add < P.maxFile) : ∀ (k : Nat) (s : St), (s.db.map Prod.fst).foldr max 0 + 2 ≤ k + s.last ∨
    (s.info = .null ∧ 0 < k) ∨ (seek P add k s).info.size + add < P.maxFile →
    (s.info.size + add < P.maxFile ∨ 0 < k) →
    ((s.db.map Prod.fst).foldr max 0 < s.last → s.info = .null ∨ s.info.size + add < P.maxFile ∨ 1 < k) →
    (seek P add k s).info.size + add < P.maxFile
  | 0, s, h, h2, _ => by
    rcases h2 with h2 | h2
    · exact h2
    · omega
  | k + 1, s, h, _, h3 => by
    rw [seek]
    by_cases hc : s.info.size + add ≥ P.maxFile
    · rw [if_pos hc]
      have hnull : s.info ≠ .null := by
        intro hn; rw [hn] at hc
        simp only [Info.null] at hc; omega
      rcases h with h | h | h
      · by_cases hl : (s.db.map Prod.fst).foldr max 0 < (leave s).last
        · have hn : (leave s).info = .null := by
            show dbInfo s.db (s.last + 1) = _
            unfold dbInfo
            rw [show List.lookup (s.last + 1) s.db = none from lookup_none_of_gt hl]; rfl
          cases k with
          | zero =>
            rw [seek]
            show (leave s).info.size + add < _
            rw [hn]; simpa [Info.null] using ha
          | succ k =>
            rw [seek, if_neg (by rw [hn]; simp only [Info.null]; omega)]
            rw [hn]; simpa [Info.null] using ha
        · have hl' : s.last + 1 ≤ (s.db.map Prod.fst).foldr max 0 := Nat.not_lt.mp hl
          refine seek_ends ha k (leave s) (Or.inl ?_) (Or.inr (by omega)) (fun h => absurd h hl)
          show (s.db.map Prod.fst).foldr max 0 + 2 ≤ k + (s.last + 1)
          omega
      · exact absurd h.1 hnull
      · rw [seek, if_pos hc] at h; exact h
    · rw [if_neg hc]; omega

theorem seek_room {add : Nat} (ha : add < P.maxFile) (s : St) : (seek P add (fuel s) s).info.size + add < P.maxFile := by
  refine seek_ends ha (fuel s) s (Or.inl ?_) (Or.inr ?_) (fun _ => Or.inr (Or.inr ?_)) <;> unfold fuel <;> omega

/-- What `FindBlockPos` does: -/
structure Found (s s' : St) (f pos add : Nat) : Prop where
  file : s'.last = f
  index : s'.index = s.index
  lo : ∀ e ∈ s.index, e.file = f → e.pos + e.blk.length ≤ pos
  db : ∃ i : Info, i.size = pos + add ∧ s'.db = (f, i) :: s.db

theorem findBlockPos_inv {s : St} (h : Inv ck s) (add : Nat) (space : Bool) : Inv ck (findBlockPos P s add space).1 ∧
    ∀ f pos, (findBlockPos P s add space).2 = some (f, pos) → Found s (findBlockPos P s add space).1 f pos add := by
  have h1 := inv_seek (P := P) (ck := ck) add (fuel s) h
  obtain ⟨hd, hi⟩ := seek_db (P := P) add (fuel s) s
  unfold findBlockPos
  simp only
  generalize seek P add (fuel s) s = s1 at h1 hd hi ⊢
  generalize grows s1.info.size (s1.info.size + add) P.chunk = grow
  by_cases hg : (grow && !space) = true
  · rw [if_pos hg]
    exact ⟨⟨h1.known, h1.inSize, h1.inFile, h1.inUndo, h1.inRev, Nat.le_trans h1.size (Nat.le_add_right _ _), h1.undo⟩, by simp⟩
  · rw [if_neg hg]
    generalize chunkEnd (s1.info.size + add) P.chunk = en
    have hfile : ∀ e ∈ s1.index, At ((if grow = true then upd s1.blkF s1.last (pad (s1.blkF s1.last) en) else s1.blkF) e.file) e.pos e.blk := by
      intro e he
      split
      · by_cases hf : e.file = s1.last
        · rw [hf, upd_same]; exact at_pad (hf ▸ h1.inFile e he) _
        · rw [upd_other _ hf]; exact h1.inFile e he
      · exact h1.inFile e he
    generalize (if grow = true then upd s1.blkF s1.last (pad (s1.blkF s1.last) en) else s1.blkF) = bf at hfile ⊢
    generalize (if s1.last ≠ s.last then s1.last else s1.cached) = c
    refine ⟨⟨?_, ?_, hfile, ?_, h1.inRev, ?_, ?_⟩, ?_⟩
    · intro e he
      show (List.lookup e.file ((s1.last, _) :: s1.db)).isSome = true
      rw [List.lookup_cons]
      split
      · rfl
      · exact h1.known e he
    · intro e he
      show _ ≤ (dbInfo ((s1.last, _) :: s1.db) e.file).size
      have := h1.inSize e he
      rw [dbInfo_cons]
      split
      · rename_i hf
        rw [hf] at this
        exact Nat.le_trans this (Nat.le_trans h1.size (Nat.le_add_right _ _))
      · exact this
    · intro e he p u hu
      show _ ≤ (dbInfo ((s1.last, _) :: s1.db) e.file).undo
      have := h1.inUndo e he p u hu
      rw [dbInfo_cons]
      split
      · rename_i hf
        rw [hf] at this
        exact Nat.le_trans this h1.undo
      · exact this
    · show (dbInfo ((s1.last, _) :: s1.db) s1.last).size ≤ _
      rw [dbInfo_cons, if_pos rfl]; try exact Nat.le_refl _
    · show (dbInfo ((s1.last, _) :: s1.db) s1.last).undo ≤ _
      rw [dbInfo_cons, if_pos rfl]; try exact Nat.le_refl _
    · intro f pos e
      simp only [Option.some.injEq, Prod.mk.injEq] at e
      obtain ⟨e1, e2⟩ := e
      subst e1; subst e2
      refine ⟨rfl, hi, ?_, ⟨s1.info.size + add, s1.info.undo⟩, rfl, by rw [← hd]⟩
      intro e he hf
      have := h1.inSize e (hi ▸ he)
      rw [hf] at this
      exact Nat.le_trans this h1.size

theorem le4_length (n : Nat) : (le4 n).length = 4 := rfl

theorem inv_store (hm : P.magic.length = 4) {s : St} (h : Inv ck s) (b : List Nat) (space lost : Bool) :
    Inv ck (store P s b space lost) := by
  unfold store
  obtain ⟨h1, hfound⟩ := findBlockPos_inv (P := P) h (b.length + 8) space
  generalize findBlockPos P s (b.length + 8) space = r at h1 hfound
  obtain ⟨s1, o⟩ := r
  cases o with
  | none => exact h1
  | some fp =>
    obtain ⟨f, pos⟩ := fp
    obtain ⟨hf, hi, hlo, i, hsz, hdb⟩ := hfound f pos rfl
    simp only at h1 hf hi hdb ⊢
    have old : ∀ e ∈ s1.index, At (upd s1.blkF f (put (s1.blkF f) pos (record P.magic b)) e.file) e.pos e.blk := by
      intro e he
      by_cases hfe : e.file = f
      · rw [hfe, upd_same]
        exact at_put_below (hfe ▸ h1.inFile e he) (hlo e (hi ▸ he) hfe) _
      · rw [upd_other _ hfe]; exact h1.inFile e he
    have h2 : Inv ck { s1 with blkF := upd s1.blkF f (put (s1.blkF f) pos (record P.magic b)) } :=
      ⟨h1.known, h1.inSize, old, h1.inUndo, h1.inRev, h1.size, h1.undo⟩
    cases lost
    · have ndb : dbInfo s1.db f = i := by rw [hdb, dbInfo_cons, if_pos rfl]
      rw [if_neg (by decide)]
      refine ⟨?_, ?_, ?_, ?_, ?_, h2.size, h2.undo⟩
      · intro e he
        rcases List.mem_append.mp he with he | he
        · exact h2.known e he
        · rw [List.mem_singleton.mp he]
          show (List.lookup f s1.db).isSome = true
          rw [hdb, List.lookup_cons, beq_self_eq_true]; rfl
      · intro e he
        rcases List.mem_append.mp he with he | he
        · exact h2.inSize e he
        · rw [List.mem_singleton.mp he]
          show pos + 8 + b.length ≤ (dbInfo s1.db f).size
          rw [ndb, hsz]; omega
      · intro e he
        rcases List.mem_append.mp he with he | he
        · exact h2.inFile e he
        · rw [List.mem_singleton.mp he]
          show At (upd s1.blkF f _ f) (pos + 8) b
          rw [upd_same]
          have := at_put (s1.blkF f) pos (record P.magic b)
          have e : record P.magic b = (P.magic ++ le4 b.length) ++ b ++ [] := by simp [record]
          rw [e] at this ⊢
          have := at_sub this
          rw [List.length_append, hm, le4_length] at this
          exact this
      · intro e he
        rcases List.mem_append.mp he with he | he
        · exact h2.inUndo e he
        · rw [List.mem_singleton.mp he]; intro p u hu; cases hu
      · intro e he
        rcases List.mem_append.mp he with he | he
        · exact h2.inRev e he
        · rw [List.mem_singleton.mp he]; intro p u hu; cases hu
    · exact h2

/-- What `FindUndoPos` does, if the size does not wrap -/
theorem findUndoPos_inv {s : St} (h : Inv ck s) (f add : Nat) (space : Bool) (hk : (s.db.lookup f).isSome = true)
    (hw : (if f = s.last then s.info.undo else (dbInfo s.db f).undo) + add < 2 ^ 32) :
    Inv ck (findUndoPos P s f add space).1 ∧ (findUndoPos P s f add space).1.index = s.index ∧ (findUndoPos P s f add space).2.1 ≠ 2 ∧
    (space = true → (findUndoPos P s f add space).2.1 = 0) ∧
    ((findUndoPos P s f add space).2.1 = 0 →
      (∀ e ∈ s.index, e.file = f → ∀ p u, e.undo = some (p, u) → p + (u.length + (ck u).length) ≤ (findUndoPos P s f add space).2.2) ∧
      (findUndoPos P s f add space).2.2 + add ≤ (dbInfo (findUndoPos P s f add space).1.db f).undo) := by
  -- the first part: position, new size, infos
  have core : ∃ s1 : St, ∃ pos : Nat, Inv ck s1 ∧ s1.index = s.index ∧ (∀ e ∈ s.index, e.file = f → ∀ p u, e.undo = some (p, u) →
      p + (u.length + (ck u).length) ≤ pos) ∧ pos + add ≤ (dbInfo s1.db f).undo ∧
      findUndoPos P s f add space = if grows pos (pos + add) P.undoChunk then
        if space then ({ s1 with revF := upd s1.revF f (pad (s1.revF f) (chunkEnd (pos + add) P.undoChunk)) }, 0, pos)
        else (s1, 1, 0)
      else (s1, 0, pos) := by
    by_cases hf : f = s.last
    · rw [if_pos hf] at hw
      refine ⟨{ s with info := ⟨s.info.size, s.info.undo + add⟩, db := (f, ⟨s.info.size, s.info.undo + add⟩) :: s.db }, s.info.undo, ?_, rfl, ?_, ?_, ?_⟩
      · refine ⟨?_, ?_, h.inFile, ?_, h.inRev, ?_, ?_⟩
        · intro e he
          show (List.lookup e.file (_ :: s.db)).isSome = true
          rw [List.lookup_cons]
          split
          · rfl
          · exact h.known e he
        · intro e he
          show _ ≤ (dbInfo (_ :: s.db) e.file).size
          have := h.inSize e he
          rw [dbInfo_cons]
          split
          · rename_i hfe
            rw [hfe, hf] at this
            exact Nat.le_trans this h.size
          · exact this
        · intro e he p u hu
          show _ ≤ (dbInfo (_ :: s.db) e.file).undo
          have := h.inUndo e he p u hu
          rw [dbInfo_cons]
          split
          · rename_i hfe
            rw [hfe, hf] at this
            exact Nat.le_trans this (Nat.le_trans h.undo (Nat.le_add_right _ _))
          · exact this
        · show (dbInfo (_ :: s.db) s.last).size ≤ _
          rw [dbInfo_cons, if_pos hf.symm]; try exact Nat.le_refl _
        · show (dbInfo (_ :: s.db) s.last).undo ≤ _
          rw [dbInfo_cons, if_pos hf.symm]; try exact Nat.le_refl _
      · intro e he hfe p u hu
        have := h.inUndo e he p u hu
        rw [hfe, hf] at this
        exact Nat.le_trans this h.undo
      · show _ ≤ (dbInfo (_ :: s.db) f).undo
        rw [dbInfo_cons, if_pos rfl]; try exact Nat.le_refl _
      · unfold findUndoPos
        simp only [if_pos hf, Nat.mod_eq_of_lt hw]
    · rw [if_neg hf] at hw
      obtain ⟨i0, hi0⟩ := Option.isSome_iff_exists.mp hk
      have hd : dbInfo s.db f = i0 := by rw [dbInfo, hi0]; rfl
      rw [hd] at hw
      refine ⟨{ s with db := (f, ⟨i0.size, i0.undo + add⟩) :: s.db }, i0.undo, ?_, rfl, ?_, ?_, ?_⟩
      · refine ⟨?_, ?_, h.inFile, ?_, h.inRev, ?_, ?_⟩
        · intro e he
          show (List.lookup e.file (_ :: s.db)).isSome = true
          rw [List.lookup_cons]
          split
          · rfl
          · exact h.known e he
        · intro e he
          show _ ≤ (dbInfo (_ :: s.db) e.file).size
          have := h.inSize e he
          rw [dbInfo_cons]
          split
          · rename_i hfe
            rw [hfe, hd] at this
            exact this
          · exact this
        · intro e he p u hu
          show _ ≤ (dbInfo (_ :: s.db) e.file).undo
          have := h.inUndo e he p u hu
          rw [dbInfo_cons]
          split
          · rename_i hfe
            rw [hfe, hd] at this
            exact Nat.le_trans this (Nat.le_add_right _ _)
          · exact this
        · show (dbInfo (_ :: s.db) s.last).size ≤ _
          rw [dbInfo_cons, if_neg (Ne.symm hf)]; exact h.size
        · show (dbInfo (_ :: s.db) s.last).undo ≤ _
          rw [dbInfo_cons, if_neg (Ne.symm hf)]; exact h.undo
      · intro e he hfe p u hu
        have := h.inUndo e he p u hu
        rw [hfe, hd] at this
        exact this
      · show _ ≤ (dbInfo (_ :: s.db) f).undo
        rw [dbInfo_cons, if_pos rfl]; try exact Nat.le_refl _
      · unfold findUndoPos
        simp only [if_neg hf, hi0, Nat.mod_eq_of_lt hw]
  obtain ⟨s1, pos, i1, i2, i3, i4, e⟩ := core
  rw [e]
  generalize chunkEnd (pos + add) P.undoChunk = en
  split
  · cases space
    · exact ⟨i1, i2, by simp, by simp, by simp⟩
    · refine ⟨?_, i2, by simp, by simp, fun _ => ⟨i3, i4⟩⟩
      refine ⟨i1.known, i1.inSize, i1.inFile, i1.inUndo, ?_, i1.size, i1.undo⟩
      intro e' he p u hu
      show At (upd s1.revF f _ e'.file) _ _
      by_cases hfe : e'.file = f
      · rw [hfe, upd_same]; exact at_pad (hfe ▸ i1.inRev e' he p u hu) _
      · rw [upd_other _ hfe]; exact i1.inRev e' he p u hu
  · exact ⟨i1, i2, by simp, by simp, fun _ => ⟨i3, i4⟩⟩

/-- The undo file has room for 32-bit positions. -/
def Fits (s : St) (i n : Nat) : Prop :=
  ∀ e, s.index[i]? = some e → (if e.file = s.last then s.info.undo else (dbInfo s.db e.file).undo) + (n + 40) < 2 ^ 32

theorem inv_undo (hm : P.magic.length = 4) (hck : ∀ u, (ck u).length = 32) {s : St} (h : Inv ck s) (i : Nat) (u : List Nat) (space : Bool)
    (hw : Fits s i u.length) : Inv ck (writeUndo P ck s i u space) := by
  unfold writeUndo
  cases he : s.index[i]? with
  | none => exact h
  | some e =>
    simp only
    split
    · exact h
    · rename_i hn
      have hmem : e ∈ s.index := List.mem_of_getElem? he
      obtain ⟨i1, i2, _, _, i4⟩ := findUndoPos_inv (P := P) h e.file (u.length + 40) space (h.known e hmem) (hw e he)
      generalize findUndoPos P s e.file (u.length + 40) space = r at i1 i2 i4
      obtain ⟨s1, o, pos⟩ := r
      simp only at i1 i2 i4 ⊢
      split
      · exact i1
      · rename_i ho
        obtain ⟨lo, hi⟩ := i4 (by omega)
        have memset : ∀ x ∈ s1.index.set i { e with undo := some (pos + 8, u) }, x = { e with undo := some (pos + 8, u) } ∨ x ∈ s1.index := by
          intro x hx
          rcases List.mem_or_eq_of_mem_set hx with h | h
          · exact Or.inr h
          · exact Or.inl h
        have hmem1 : e ∈ s1.index := i2 ▸ hmem
        refine ⟨?_, ?_, ?_, ?_, ?_, i1.size, i1.undo⟩
        · intro x hx
          rcases memset x hx with rfl | hx
          · exact i1.known e hmem1
          · exact i1.known x hx
        · intro x hx
          rcases memset x hx with rfl | hx
          · exact i1.inSize e hmem1
          · exact i1.inSize x hx
        · intro x hx
          rcases memset x hx with rfl | hx
          · exact i1.inFile e hmem1
          · exact i1.inFile x hx
        · intro x hx p v hv
          rcases memset x hx with rfl | hx
          · injection hv with hv; injection hv with h1 h2; subst h1; subst h2
            show _ ≤ (dbInfo s1.db e.file).undo
            rw [hck]; omega
          · exact i1.inUndo x hx p v hv
        · intro x hx p v hv
          show At (upd s1.revF e.file _ x.file) _ _
          rcases memset x hx with rfl | hx
          · injection hv with hv; injection hv with h1 h2; subst h1; subst h2
            rw [upd_same]
            have := at_put (s1.revF e.file) pos (P.magic ++ le4 u.length ++ u ++ ck u)
            have e1 : P.magic ++ le4 u.length ++ u ++ ck u = (P.magic ++ le4 u.length) ++ (u ++ ck u) ++ [] := by simp
            rw [e1] at this ⊢
            have := at_sub this
            rw [List.length_append, hm, le4_length] at this
            exact this
          · by_cases hfe : x.file = e.file
            · rw [hfe, upd_same]
              have l := lo x (i2 ▸ hx) hfe p v hv
              exact at_put_below (hfe ▸ i1.inRev x hx p v hv) (by simpa using l) _
            · rw [upd_other _ hfe]; exact i1.inRev x hx p v hv

theorem inv_restart {s : St} (h : Inv ck s) : Inv ck (restart s) :=
  ⟨h.known, h.inSize, h.inFile, h.inUndo, h.inRev, Nat.le_refl _, Nat.le_refl _⟩

theorem inv_init : Inv ck init := by
  refine ⟨?_, ?_, ?_, ?_, ?_, Nat.le_refl _, Nat.le_refl _⟩ <;> intro e he <;> cases he

end Verif.Files
