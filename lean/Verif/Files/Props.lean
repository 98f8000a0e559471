import Verif.Files.Lemmas

/-! # Properties C134 and C135: blocks on disk -/
namespace Verif.Files

variable {P : Params} {ck : List Nat → List Nat}

/-! ## C134 -/

/-- No undo file passes 4 GiB. -/
def Fine (P : Params) (ck : List Nat → List Nat) : St → List Op → Prop
  | _, [] => True
  | s, .undo i u space :: ops => Fits s i u.length ∧ Fine P ck (step P ck s (.undo i u space)) ops
  | s, op :: ops => Fine P ck (step P ck s op) ops

theorem fine_append : ∀ {ops ops' : List Op} {s : St}, Fine P ck s (ops ++ ops') → Fine P ck s ops ∧ Fine P ck (run P ck s ops) ops'
  | [], _, _, h => ⟨trivial, h⟩
  | .undo i u space :: ops, _, _, h => ⟨⟨h.1, (fine_append h.2).1⟩, (fine_append h.2).2⟩
  | .store b space lost :: ops, _, _, h => ⟨(fine_append (ops := ops) h).1, (fine_append (ops := ops) h).2⟩
  | .flush :: ops, _, _, h => ⟨(fine_append (ops := ops) h).1, (fine_append (ops := ops) h).2⟩
  | .restart :: ops, _, _, h => ⟨(fine_append (ops := ops) h).1, (fine_append (ops := ops) h).2⟩

theorem run_inv (hm : P.magic.length = 4) (hck : ∀ u, (ck u).length = 32) : ∀ {ops : List Op} {s : St}, Inv ck s → Fine P ck s ops →
    Inv ck (run P ck s ops)
  | [], _, h, _ => h
  | .undo i u space :: ops, s, h, hf => run_inv hm hck (ops := ops) (inv_undo hm hck h i u space hf.1) hf.2
  | .store b space lost :: ops, s, h, hf => run_inv hm hck (ops := ops) (inv_store hm h b space lost) hf
  | .flush :: ops, s, h, hf =>
    run_inv hm hck (ops := ops) (s := flush s) ⟨h.known, h.inSize, h.inFile, h.inUndo, h.inRev, h.size, h.undo⟩ hf
  | .restart :: ops, s, h, hf => run_inv hm hck (ops := ops) (inv_restart h) hf

/-- Where a block is, as the index says, is fixed for ever, and so are its undo data once there are some. -/
structure Grows (s s' : St) : Prop where
  block : ∀ (i : Nat) (e : Entry), s.index[i]? = some e → ∃ e' : Entry, s'.index[i]? = some e' ∧ e'.file = e.file ∧ e'.pos = e.pos ∧ e'.blk = e.blk ∧
    (e.undo.isSome = true → e'.undo = e.undo)

theorem grows_refl (s : St) : Grows s s := ⟨fun _ e h => ⟨e, h, rfl, rfl, rfl, fun _ => rfl⟩⟩

theorem grows_of_index {s s' : St} (h : s'.index = s.index) : Grows s s' := ⟨fun _ e he => ⟨e, h ▸ he, rfl, rfl, rfl, fun _ => rfl⟩⟩

theorem grows_trans {s s' s'' : St} (h : Grows s s') (h' : Grows s' s'') : Grows s s'' := by
  refine ⟨fun i e he => ?_⟩
  obtain ⟨e1, a1, a2, a3, a4, a5⟩ := h.block i e he
  obtain ⟨e2, b1, b2, b3, b4, b5⟩ := h'.block i e1 a1
  exact ⟨e2, b1, b2.trans a2, b3.trans a3, b4.trans a4, fun hu => by rw [b5 (by rw [a5 hu]; exact hu), a5 hu]⟩

theorem findBlockPos_index (s : St) (add : Nat) (space : Bool) : (findBlockPos P s add space).1.index = s.index := by
  have := (seek_db (P := P) add (fuel s) s).2
  unfold findBlockPos
  simp only
  split <;> exact this

theorem grows_store (s : St) (b : List Nat) (space lost : Bool) : Grows s (store P s b space lost) := by
  have hi := findBlockPos_index (P := P) s (b.length + 8) space
  unfold store
  generalize findBlockPos P s (b.length + 8) space = r at hi
  obtain ⟨s1, o⟩ := r
  cases o with
  | none => exact grows_of_index hi
  | some fp =>
    simp only at hi ⊢
    cases lost
    · refine ⟨fun i e he => ⟨e, ?_, rfl, rfl, rfl, fun _ => rfl⟩⟩
      show (s1.index ++ [_])[i]? = some e
      rw [hi, List.getElem?_append_left (List.getElem?_eq_some_iff.mp he).1]
      exact he
    · exact grows_of_index hi

theorem findUndoPos_index (s : St) (f add : Nat) (space : Bool) : (findUndoPos P s f add space).1.index = s.index := by
  unfold findUndoPos
  simp only
  by_cases hf : f = s.last
  · simp only [if_pos hf]
    split
    · split <;> rfl
    · rfl
  · simp only [if_neg hf]
    cases s.db.lookup f with
    | none => rfl
    | some i =>
      simp only
      split
      · split <;> rfl
      · rfl

theorem grows_undo (s : St) (i : Nat) (u : List Nat) (space : Bool) : Grows s (writeUndo P ck s i u space) := by
  unfold writeUndo
  cases he : s.index[i]? with
  | none => exact grows_refl s
  | some e =>
    simp only
    split
    · exact grows_refl s
    · rename_i hn
      have hi := findUndoPos_index (P := P) s e.file (u.length + 40) space
      split
      · exact grows_of_index hi
      · refine ⟨fun j x hx => ?_⟩
        show ∃ e', ((findUndoPos P s e.file (u.length + 40) space).1.index.set i _)[j]? = some e' ∧ _
        rw [hi]
        by_cases hj : j = i
        · subst hj
          rw [he] at hx; injection hx with hx; subst hx
          refine ⟨_, List.getElem?_set_self (List.getElem?_eq_some_iff.mp he).1, rfl, rfl, rfl, fun h => absurd h hn⟩
        · rw [List.getElem?_set_ne (Ne.symm hj)]
          exact ⟨x, hx, rfl, rfl, rfl, fun _ => rfl⟩

theorem grows_run : ∀ (ops : List Op) (s : St), Grows s (run P ck s ops)
  | [], s => grows_refl s
  | .store b space lost :: ops, s => grows_trans (grows_store s b space lost) (grows_run ops _)
  | .undo i u space :: ops, s => grows_trans (grows_undo s i u space) (grows_run ops _)
  | .flush :: ops, s => grows_trans (s' := flush s) (grows_of_index rfl) (grows_run ops _)
  | .restart :: ops, s => grows_trans (s' := restart s) (grows_of_index rfl) (grows_run ops _)

theorem run_append (s : St) (a b : List Op) : run P ck s (a ++ b) = run P ck (run P ck s a) b := by
  unfold run; exact List.foldl_append

/-- Whatever else is stored, and however often the node stops: every block in the index is found where the index says, and so are its
undo data with their checksum. -/
theorem found_again_partial (hm : P.magic.length = 4) (hck : ∀ u, (ck u).length = 32) {ops : List Op} (hf : Fine P ck init ops) :
    ∀ e ∈ (run P ck init ops).index, readBlock (run P ck init ops) e = e.blk ∧
      ∀ p u, e.undo = some (p, u) → readUndo (run P ck init ops) e = some (u ++ ck u) := by
  intro e he
  have h := run_inv hm hck inv_init hf
  refine ⟨at_read (h.inFile e he), fun p u hu => ?_⟩
  unfold readUndo
  rw [hu]
  have := at_read (h.inRev e he p u hu)
  rw [List.length_append, hck] at this
  exact congrArg some this

theorem store_succeeds {s : St} {b : List Nat} : ∃ e, (store P s b true false).index = s.index ++ [e] ∧ e.blk = b := by
  have hi := findBlockPos_index (P := P) s (b.length + 8) true
  have hs : ∃ fp, (findBlockPos P s (b.length + 8) true).2 = some fp := by
    unfold findBlockPos
    simp only [Bool.not_true, Bool.and_false, Bool.false_eq_true, if_false]
    exact ⟨_, rfl⟩
  unfold store
  generalize findBlockPos P s (b.length + 8) true = r at hi hs
  obtain ⟨s1, o⟩ := r
  obtain ⟨fp, hs⟩ := hs
  simp only at hs hi
  subst hs
  refine ⟨⟨fp.1, fp.2 + 8, b, none⟩, ?_, rfl⟩
  simp only [Bool.false_eq_true, if_false, hi]

/-- A block stored while there is disk space is in the index ever after and is read back. -/
theorem stored_is_found_partial (hm : P.magic.length = 4) (hck : ∀ u, (ck u).length = 32) {ops ops' : List Op} {b : List Nat}
    (hf : Fine P ck init (ops ++ .store b true false :: ops')) :
    ∃ e ∈ (run P ck init (ops ++ .store b true false :: ops')).index, e.blk = b ∧
      readBlock (run P ck init (ops ++ .store b true false :: ops')) e = b := by
  obtain ⟨e, h1, h2⟩ := store_succeeds (P := P) (s := run P ck init ops) (b := b)
  have hg := grows_run (P := P) (ck := ck) ops' (store P (run P ck init ops) b true false)
  have hrun : run P ck init (ops ++ .store b true false :: ops') = run P ck (store P (run P ck init ops) b true false) ops' := by
    rw [run_append]; rfl
  obtain ⟨e', g1, _, _, g4, _⟩ := hg.block (run P ck init ops).index.length e (by rw [h1]; simp)
  have hmem : e' ∈ (run P ck init (ops ++ .store b true false :: ops')).index := by rw [hrun]; exact List.mem_of_getElem? g1
  refine ⟨e', hmem, g4.trans h2, ?_⟩
  rw [(found_again_partial hm hck hf e' hmem).1, g4, h2]

/-- Undo data of a block, written while there is disk space, are read back ever after. -/
theorem undo_is_found_partial (hm : P.magic.length = 4) (hck : ∀ u, (ck u).length = 32) {ops ops' : List Op} {i : Nat} {u : List Nat} {e : Entry}
    (he : (run P ck init ops).index[i]? = some e) (hn : e.undo = none) (hf : Fine P ck init (ops ++ .undo i u true :: ops')) :
    ∃ e', (run P ck init (ops ++ .undo i u true :: ops')).index[i]? = some e' ∧ e'.blk = e.blk ∧
      readUndo (run P ck init (ops ++ .undo i u true :: ops')) e' = some (u ++ ck u) := by
  obtain ⟨f1, f2⟩ := fine_append hf
  have h := run_inv hm hck inv_init f1
  have hmem : e ∈ (run P ck init ops).index := List.mem_of_getElem? he
  obtain ⟨_, i2, _, i4, _⟩ := findUndoPos_inv (P := P) h e.file (u.length + 40) true (h.known e hmem) (f2.1 e he)
  have hw : ∃ p, (writeUndo P ck (run P ck init ops) i u true).index[i]? = some { e with undo := some (p, u) } := by
    unfold writeUndo
    rw [he]
    simp only [hn, Option.isSome_none, Bool.false_eq_true, if_false]
    rw [if_neg (by rw [i4 rfl]; simp)]
    refine ⟨(findUndoPos P (run P ck init ops) e.file (u.length + 40) true).2.2 + 8, ?_⟩
    show (List.set _ i _)[i]? = _
    rw [i2]
    exact List.getElem?_set_self (List.getElem?_eq_some_iff.mp he).1
  obtain ⟨p, hw⟩ := hw
  have hg := grows_run (P := P) (ck := ck) ops' (writeUndo P ck (run P ck init ops) i u true)
  have hrun : run P ck init (ops ++ .undo i u true :: ops') = run P ck (writeUndo P ck (run P ck init ops) i u true) ops' := by
    rw [run_append]; rfl
  obtain ⟨e', g1, _, _, g4, g5⟩ := hg.block i _ hw
  have hmem' : e' ∈ (run P ck init (ops ++ .undo i u true :: ops')).index := by rw [hrun]; exact List.mem_of_getElem? g1
  refine ⟨e', by rw [hrun]; exact g1, g4, ?_⟩
  exact (found_again_partial hm hck hf e' hmem').2 p u (g5 rfl)

/-- Block files stay below the limit. -/
theorem files_bounded {ops : List Op} (hb : ∀ b space lost, Op.store b space lost ∈ ops → b.length + 8 < P.maxFile) (h0 : 0 < P.maxFile) (f : Nat) :
    (dbInfo (run P ck init ops).db f).size < P.maxFile := by
  have key : ∀ (ops : List Op) (s : St), (∀ b space lost, Op.store b space lost ∈ ops → b.length + 8 < P.maxFile) →
      ((∀ f, (dbInfo s.db f).size < P.maxFile) ∧ s.info.size < P.maxFile) →
      ((∀ f, (dbInfo (run P ck s ops).db f).size < P.maxFile) ∧ (run P ck s ops).info.size < P.maxFile) := by
    intro ops
    induction ops with
    | nil => intro s _ h; exact h
    | cons op ops ih =>
      intro s hb h
      refine ih (step P ck s op) (fun b space lost hm => hb b space lost (List.mem_cons_of_mem _ hm)) ?_
      cases op with
      | store b space lost =>
        have hadd := hb b space lost (List.mem_cons_self ..)
        have hroom := seek_room (P := P) hadd s
        have hfb : (∀ f, (dbInfo (findBlockPos P s (b.length + 8) space).1.db f).size < P.maxFile) ∧
            (findBlockPos P s (b.length + 8) space).1.info.size < P.maxFile := by
          have hdb := (seek_db (P := P) (b.length + 8) (fuel s) s).1
          unfold findBlockPos
          simp only
          generalize seek P (b.length + 8) (fuel s) s = s1 at hroom hdb
          split
          · exact ⟨fun f => by show (dbInfo s1.db f).size < _; rw [hdb]; exact h.1 f, hroom⟩
          · refine ⟨fun f => ?_, hroom⟩
            show (dbInfo (_ :: s1.db) f).size < _
            rw [dbInfo_cons]
            split
            · exact hroom
            · rw [hdb]; exact h.1 f
        show (∀ f, (dbInfo (store P s b space lost).db f).size < P.maxFile) ∧ (store P s b space lost).info.size < P.maxFile
        unfold store
        generalize findBlockPos P s (b.length + 8) space = r at hfb
        obtain ⟨s1, o⟩ := r
        cases o with
        | none => exact hfb
        | some fp => cases lost <;> exact hfb
      | undo i u space =>
        have hfu : ∀ f, (∀ g, (dbInfo (findUndoPos P s f (u.length + 40) space).1.db g).size < P.maxFile) ∧
            (findUndoPos P s f (u.length + 40) space).1.info.size < P.maxFile := by
          intro f
          unfold findUndoPos
          simp only
          by_cases hf : f = s.last
          · simp only [if_pos hf]
            have : ∀ g n, (dbInfo ((f, (⟨s.info.size, n⟩ : Info)) :: s.db) g).size < P.maxFile := by
              intro g n; rw [dbInfo_cons]; split
              · exact h.2
              · exact h.1 g
            split
            · split <;> exact ⟨fun g => this g _, h.2⟩
            · exact ⟨fun g => this g _, h.2⟩
          · simp only [if_neg hf]
            cases hl : s.db.lookup f with
            | none => exact h
            | some i0 =>
              have hi0 : i0.size < P.maxFile := by
                have := h.1 f
                rw [dbInfo, hl] at this
                exact this
              have : ∀ g n, (dbInfo ((f, (⟨i0.size, n⟩ : Info)) :: s.db) g).size < P.maxFile := by
                intro g n; rw [dbInfo_cons]; split
                · exact hi0
                · exact h.1 g
              simp only
              split
              · split <;> exact ⟨fun g => this g _, h.2⟩
              · exact ⟨fun g => this g _, h.2⟩
        show (∀ f, (dbInfo (writeUndo P ck s i u space).db f).size < P.maxFile) ∧ (writeUndo P ck s i u space).info.size < P.maxFile
        unfold writeUndo
        split
        · exact h
        · split
          · exact h
          · simp only
            split
            · exact hfu _
            · exact hfu _
      | flush => exact h
      | restart => exact ⟨h.1, h.1 _⟩
  exact (key ops init hb ⟨fun f => h0, h0⟩).1 f

def ck0 : List Nat → List Nat := fun _ => List.replicate 32 7

example : Fine mainnet ck0 init [.store [1, 2] true false, .restart, .undo 0 [3] true, .flush] ∧
    (run mainnet ck0 init [.store [1, 2] true false]).index.length = 1 := by
  have h : ∀ s : St, s.info.undo = 0 → (∀ f, (dbInfo s.db f).undo = 0) → Fits s 0 1 := by
    intro s h1 h2 e _
    split
    · rw [h1]; decide
    · rw [h2]; decide
  have hu : ∀ f, (dbInfo (store mainnet init [1, 2] true false).db f).undo = 0 := by
    intro f
    have hdb : ∃ i, (store mainnet init [1, 2] true false).db = [(0, ⟨i, 0⟩)] := by
      unfold store findBlockPos
      simp only [Bool.not_true, Bool.and_false, Bool.false_eq_true, if_false]
      refine ⟨10, ?_⟩
      have : seek mainnet (List.length [1, 2] + 8) (fuel init) init = init := by
        show seek mainnet 10 2 init = init
        rw [seek, if_neg (by decide)]
      rw [this]; rfl
    obtain ⟨i, hdb⟩ := hdb
    rw [hdb, dbInfo_cons]
    split <;> rfl
  refine ⟨⟨h _ ?_ ?_, trivial⟩, ?_⟩
  · exact hu _
  · exact hu
  · obtain ⟨e, h1, _⟩ := store_succeeds (P := mainnet) (s := init) (b := [1, 2])
    show (store mainnet init [1, 2] true false).index.length = 1
    rw [h1]; rfl

/-! ## C135: reindexing -/

/-- The bytes of blocks stored one after the other -/
def recs (magic : List Nat) (bs : List (List Nat)) : List Nat := bs.flatMap (record magic)

/-- Where they are -/
def place : Nat → List (List Nat) → List (Nat × List Nat)
  | _, [] => []
  | pos, b :: bs => (pos + 8, b) :: place (pos + 8 + b.length) bs

/-- Sizes of blocks `LoadExternalBlockFile` takes -/
def Sized (b : List Nat) : Prop := 80 ≤ b.length ∧ b.length ≤ MAX_BLOCK_SIZE

/-- Four start bytes, the first not zero -/
def Magic (m : List Nat) : Prop := m.length = 4 ∧ m.head? ≠ some 0

theorem ofLe4_le4 {n : Nat} (h : n ≤ MAX_BLOCK_SIZE) : ofLe4 (le4 n) = n := by
  unfold MAX_BLOCK_SIZE at h
  simp only [le4, ofLe4]; omega

theorem recs_cons (m b bs) : recs m (b :: bs) = record m b ++ recs m bs := rfl

theorem record_length {m : List Nat} (hm : m.length = 4) (b : List Nat) : (record m b).length = b.length + 8 := by
  simp [record, hm, le4]; omega

theorem scan_zeros {m : List Nat} (hm : Magic m) : ∀ (k pos n : Nat), scan m k pos (zeros n) = []
  | 0, _, _ => rfl
  | k + 1, pos, 0 => rfl
  | k + 1, pos, n + 1 => by
    show scan m (k + 1) pos (0 :: zeros n) = []
    rw [scan]
    have : ¬ (0 :: zeros n).take 4 = m := by
      intro h
      refine hm.2 ?_
      rw [← h]; rfl
    simp only [this, false_and, if_false]
    exact scan_zeros hm k _ n

theorem scan_recs {m : List Nat} (hm : Magic m) : ∀ (bs : List (List Nat)) (k pos n : Nat), (∀ b ∈ bs, Sized b) → bs.length ≤ k →
    scan m k pos (recs m bs ++ zeros n) = place pos bs
  | [], k, pos, n, _, _ => scan_zeros hm k pos n
  | b :: bs, 0, _, _, _, hk => by simp at hk
  | b :: bs, k + 1, pos, n, hs, hk => by
    obtain ⟨h80, hmax⟩ := hs b (by simp)
    have ih := scan_recs hm bs k (pos + 8 + b.length) n (fun x hx => hs x (List.mem_cons_of_mem _ hx)) (by simpa using hk)
    have h4 := hm.1
    match m, h4 with
    | [m0, m1, m2, m3], _ =>
      have e : recs [m0, m1, m2, m3] (b :: bs) ++ zeros n = [m0, m1, m2, m3] ++ (le4 b.length ++ (b ++ (recs [m0, m1, m2, m3] bs ++ zeros n))) := by
        simp [recs_cons, record]
      generalize recs [m0, m1, m2, m3] bs ++ zeros n = tail at e ih
      rw [e]
      show scan _ (k + 1) pos (m0 :: ([m1, m2, m3] ++ (le4 b.length ++ (b ++ tail)))) = _
      rw [scan]
      have d4 : (m0 :: ([m1, m2, m3] ++ (le4 b.length ++ (b ++ tail)))).drop 4 = le4 b.length ++ (b ++ tail) := rfl
      have d8 : (m0 :: ([m1, m2, m3] ++ (le4 b.length ++ (b ++ tail)))).drop 8 = b ++ tail := rfl
      have dn : (m0 :: ([m1, m2, m3] ++ (le4 b.length ++ (b ++ tail)))).drop (8 + b.length) = tail := by
        rw [← List.drop_drop, d8]; simp
      have t4 : (m0 :: ([m1, m2, m3] ++ (le4 b.length ++ (b ++ tail)))).take 4 = [m0, m1, m2, m3] := rfl
      have tl : (le4 b.length ++ (b ++ tail)).take 4 = le4 b.length := rfl
      have len : 8 + b.length ≤ (m0 :: ([m1, m2, m3] ++ (le4 b.length ++ (b ++ tail)))).length := by simp [le4]; omega
      simp only [d4, tl, ofLe4_le4 hmax, d8, dn, t4]
      rw [if_pos ⟨trivial, h80, hmax, len⟩, ih]
      simp [place]

/-- The size of a file as `FindBlockPos` sees it -/
def base (s : St) (f : Nat) : Nat := (if s.last = f then s.info else dbInfo s.db f).size

theorem base_known (s : St) (f pos : Nat) (b : List Nat) : base (known s f pos b) f = base s f + (b.length + 8) := by
  unfold base known
  by_cases h : s.last = f <;> simp [h]

theorem known_facts (s : St) (f pos : Nat) (b : List Nat) : (known s f pos b).blkF = s.blkF ∧ (known s f pos b).last = f ∧
    (known s f pos b).index = s.index ++ [⟨f, pos, b, none⟩] ∧ (∀ g, g ≠ f → dbInfo (known s f pos b).db g = dbInfo s.db g) := by
  unfold known
  by_cases h : s.last = f
  · simp only [ne_eq, h, not_true_eq_false, if_false]
    exact ⟨trivial, trivial, trivial, fun g hg => by rw [dbInfo_cons, if_neg hg]⟩
  · simp only [ne_eq, h, not_false_eq_true, if_true]
    exact ⟨trivial, trivial, trivial, fun g hg => by rw [dbInfo_cons, if_neg hg]⟩

theorem inv_known {s : St} (h : Inv ck s) {f pos : Nat} {b : List Nat} (hp : pos = base s f + 8) (ha : At (s.blkF f) pos b) :
    Inv ck (known s f pos b) := by
  have h1 : ∃ s1 : St, Inv ck s1 ∧ s1.last = f ∧ s1.blkF = s.blkF ∧ s1.info.size = base s f ∧
      known s f pos b = { s1 with info := ⟨s1.info.size + (b.length + 8), s1.info.undo⟩, db := (f, ⟨s1.info.size + (b.length + 8), s1.info.undo⟩) :: s1.db,
                                  index := s1.index ++ [⟨f, pos, b, none⟩] } := by
    by_cases hl : s.last = f
    · refine ⟨s, h, hl, rfl, by simp [base, hl], ?_⟩
      unfold known; simp only [ne_eq, hl, not_true_eq_false, if_false]
    · refine ⟨{ s with last := f, info := dbInfo s.db f, cached := f }, ?_, rfl, rfl, by simp [base, hl], ?_⟩
      · exact ⟨h.known, h.inSize, h.inFile, h.inUndo, h.inRev, Nat.le_refl _, Nat.le_refl _⟩
      · unfold known; simp only [ne_eq, hl, not_false_eq_true, if_true]
  obtain ⟨s1, i1, i2, i3, i4, e⟩ := h1
  rw [e]
  refine ⟨?_, ?_, ?_, ?_, ?_, ?_, ?_⟩
  · intro x hx
    show (List.lookup x.file (_ :: s1.db)).isSome = true
    rw [List.lookup_cons]
    split
    · rfl
    · rename_i hne
      rcases List.mem_append.mp hx with hx | hx
      · exact i1.known x hx
      · rw [List.mem_singleton.mp hx] at hne; simp at hne
  · intro x hx
    show _ ≤ (dbInfo (_ :: s1.db) x.file).size
    rw [dbInfo_cons]
    rcases List.mem_append.mp hx with hx | hx
    · have := i1.inSize x hx
      split
      · rename_i hf
        rw [hf, ← i2] at this
        exact Nat.le_trans this (Nat.le_trans i1.size (Nat.le_add_right _ _))
      · exact this
    · rw [List.mem_singleton.mp hx, if_pos rfl]
      show pos + b.length ≤ s1.info.size + (b.length + 8)
      rw [i4, hp]; omega
  · intro x hx
    show At (s1.blkF x.file) _ _
    rcases List.mem_append.mp hx with hx | hx
    · exact i1.inFile x hx
    · rw [List.mem_singleton.mp hx, i3]; exact ha
  · intro x hx p u hu
    show _ ≤ (dbInfo (_ :: s1.db) x.file).undo
    rw [dbInfo_cons]
    rcases List.mem_append.mp hx with hx | hx
    · have := i1.inUndo x hx p u hu
      split
      · rename_i hf
        rw [hf, ← i2] at this
        exact Nat.le_trans this i1.undo
      · exact this
    · rw [List.mem_singleton.mp hx] at hu; cases hu
  · intro x hx p u hu
    rcases List.mem_append.mp hx with hx | hx
    · exact i1.inRev x hx p u hu
    · rw [List.mem_singleton.mp hx] at hu; cases hu
  · show (dbInfo (_ :: s1.db) s1.last).size ≤ _
    rw [dbInfo_cons, if_pos i2]; exact Nat.le_refl _
  · show (dbInfo (_ :: s1.db) s1.last).undo ≤ _
    rw [dbInfo_cons, if_pos i2]; exact Nat.le_refl _

def entries (f pos : Nat) (bs : List (List Nat)) : List Entry := (place pos bs).map fun p => ⟨f, p.1, p.2, none⟩

/-- One file whose blocks stand one after the other, all new and good -/
theorem loadFile_all {m : List Nat} (hm : m.length = 4) {good : List Nat → Bool} {f : Nat} : ∀ (bs : List (List Nat)) (pos : Nat) (s : St) (tail : List Nat),
    Inv ck s → base s f = pos → At (s.blkF f) pos (recs m bs ++ tail) → (∀ b ∈ bs, good b = true) → bs.Nodup →
    (∀ e ∈ s.index, ∀ b ∈ bs, e.blk ≠ b) → s.last ≤ f → (∀ g, f < g → dbInfo s.db g = .null) →
    Inv ck (loadFile good f s (place pos bs)) ∧ (loadFile good f s (place pos bs)).index = s.index ++ entries f pos bs ∧
    (loadFile good f s (place pos bs)).blkF = s.blkF ∧ (loadFile good f s (place pos bs)).last ≤ f ∧
    (∀ g, f < g → dbInfo (loadFile good f s (place pos bs)).db g = .null)
  | [], pos, s, _, h, _, _, _, _, _, hl, hd => ⟨h, by simp [place, entries, loadFile], rfl, hl, hd⟩
  | b :: bs, pos, s, tail, h, hb, ha, hg, hn, hne, hl, hd => by
    obtain ⟨k1, k2, k3, k4⟩ := known_facts s f (pos + 8) b
    have hnew : (s.index.any (fun e => e.blk == b) || !good b) = false := by
      rw [hg b (by simp)]
      simp only [Bool.not_true, Bool.or_false, List.any_eq_false, beq_iff_eq]
      intro e he; exact hne e he b (by simp)
    have hat : At (s.blkF f) (pos + 8) b := by
      have e : recs m (b :: bs) ++ tail = (m ++ le4 b.length) ++ b ++ (recs m bs ++ tail) := by simp [recs_cons, record]
      rw [e] at ha
      have := at_sub ha
      rw [List.length_append, hm, le4_length] at this
      exact this
    have hrest : At ((known s f (pos + 8) b).blkF f) (pos + 8 + b.length) (recs m bs ++ tail) := by
      rw [k1]
      have e : recs m (b :: bs) ++ tail = record m b ++ (recs m bs ++ tail) ++ [] := by simp [recs_cons]
      rw [e] at ha
      have := at_sub ha
      rw [record_length hm] at this
      rw [show pos + 8 + b.length = pos + (b.length + 8) by omega]
      exact this
    have hinv := inv_known h (f := f) (pos := pos + 8) (b := b) (by rw [hb]) hat
    obtain ⟨hnb, hn'⟩ := List.nodup_cons.mp hn
    obtain ⟨r1, r2, r3, r4, r5⟩ := loadFile_all hm (good := good) bs (pos + 8 + b.length) (known s f (pos + 8) b) tail hinv
      (by rw [base_known, hb]; omega) hrest (fun x hx => hg x (List.mem_cons_of_mem _ hx)) hn'
      (by
        intro e he x hx
        rw [k3] at he
        rcases List.mem_append.mp he with he | he
        · exact hne e he x (List.mem_cons_of_mem _ hx)
        · rw [List.mem_singleton.mp he]; intro heq; exact hnb (by rw [show b = x from heq]; exact hx))
      (by rw [k2]; exact Nat.le_refl _) (fun g hg => by rw [k4 g (by omega)]; exact hd g hg)
    rw [place, loadFile, hnew]
    simp only [Bool.false_eq_true, if_false]
    refine ⟨r1, ?_, r3.trans k1, r4, r5⟩
    rw [r2, k3]
    simp [entries, place]

/-- The index of all files from `f` on -/
def allEntries (bl : Nat → List (List Nat)) : Nat → Nat → List Entry
  | 0, _ => []
  | n + 1, f => entries f 0 (bl f) ++ allEntries bl n (f + 1)

def allBlocks (bl : Nat → List (List Nat)) : Nat → Nat → List (List Nat)
  | 0, _ => []
  | n + 1, f => bl f ++ allBlocks bl n (f + 1)

theorem entries_blk (f : Nat) : ∀ (bs : List (List Nat)) (pos : Nat) (e : Entry), e ∈ entries f pos bs → e.blk ∈ bs
  | [], _, e, h => by simp [entries, place] at h
  | b :: bs, pos, e, h => by
    have h : e ∈ (⟨f, pos + 8, b, none⟩ : Entry) :: entries f (pos + 8 + b.length) bs := h
    rcases List.mem_cons.mp h with h | h
    · rw [h]; simp
    · exact List.mem_cons_of_mem _ (entries_blk f bs _ e h)

theorem recs_len (m : List Nat) (hm : m.length = 4) : ∀ bs : List (List Nat), bs.length ≤ (recs m bs).length
  | [] => Nat.zero_le _
  | b :: bs => by
    have := recs_len m hm bs
    rw [recs_cons, List.length_append, record_length hm, List.length_cons]; omega

theorem loadFiles_all {m : List Nat} (hm : Magic m) {good : List Nat → Bool} (bl : Nat → List (List Nat)) (pd : Nat → Nat) :
    ∀ (n k f : Nat) (s : St), n ≤ k → Inv ck s → (∀ g, f ≤ g → g < f + n → bl g ≠ [] ∧ s.blkF g = recs m (bl g) ++ zeros (pd g)) → s.blkF (f + n) = [] →
    (∀ b ∈ allBlocks bl n f, good b = true ∧ Sized b) → (allBlocks bl n f).Nodup → (∀ e ∈ s.index, ∀ b ∈ allBlocks bl n f, e.blk ≠ b) →
    base s f = 0 → s.last ≤ f → (∀ g, f < g → dbInfo s.db g = .null) →
    Inv ck (loadFiles m good k f s) ∧ (loadFiles m good k f s).index = s.index ++ allEntries bl n f ∧ (loadFiles m good k f s).blkF = s.blkF
  | 0, k, f, s, _, h, _, hend, _, _, _, _, _, _ => by
    cases k with
    | zero => exact ⟨h, by simp [loadFiles, allEntries], rfl⟩
    | succ k =>
      rw [loadFiles, if_pos (show s.blkF f = [] from hend)]
      exact ⟨h, by simp [allEntries], rfl⟩
  | n + 1, 0, f, s, hk, _, _, _, _, _, _, _, _, _ => by omega
  | n + 1, k + 1, f, s, hk, h, hfiles, hend, hgood, hnd, hnew, hb, hl, hd => by
    obtain ⟨hne, hfile⟩ := hfiles f (Nat.le_refl _) (by omega)
    have hmem : ∀ b ∈ bl f, b ∈ allBlocks bl (n + 1) f := fun b hb => List.mem_append_left _ hb
    have hnonempty : s.blkF f ≠ [] := by
      intro he
      rw [hfile] at he
      have := recs_len m hm.1 (bl f)
      have h0 : recs m (bl f) = [] := (List.append_eq_nil_iff.mp he).1
      rw [h0] at this
      exact hne (List.length_eq_zero_iff.mp (by simpa using this))
    have hscan : scan m (s.blkF f).length 0 (s.blkF f) = place 0 (bl f) := by
      rw [hfile]
      refine scan_recs hm (bl f) _ 0 _ (fun b hb => (hgood b (hmem b hb)).2) ?_
      have := recs_len m hm.1 (bl f)
      simp only [List.length_append]; omega
    obtain ⟨nd1, nd2, nd3⟩ := List.nodup_append.mp hnd
    obtain ⟨r1, r2, r3, r4, r5⟩ := loadFile_all (ck := ck) hm.1 (good := good) (f := f) (bl f) 0 s (zeros (pd f)) h hb
      ⟨[], [], by rw [hfile]; simp, rfl⟩ (fun b hb => (hgood b (hmem b hb)).1) nd1 (fun e he b hb => hnew e he b (hmem b hb)) hl hd
    rw [loadFiles, if_neg hnonempty, hscan]
    generalize loadFile good f s (place 0 (bl f)) = s1 at r1 r2 r3 r4 r5
    obtain ⟨q1, q2, q3⟩ := loadFiles_all hm (good := good) bl pd n k (f + 1) s1 (by omega) r1
      (fun g hg1 hg2 => by rw [r3]; exact hfiles g (by omega) (by omega)) (by rw [r3, show f + 1 + n = f + (n + 1) by omega]; exact hend)
      (fun b hb => hgood b (List.mem_append_right _ hb)) nd2
      (by
        intro e he b hb
        rw [r2] at he
        rcases List.mem_append.mp he with he | he
        · exact hnew e he b (List.mem_append_right _ hb)
        · intro heq
          exact nd3 e.blk (entries_blk f _ _ e he) b hb heq)
      (by
        unfold base
        rw [if_neg (by omega), r5 (f + 1) (by omega)]; rfl)
      (by omega) (fun g hg => r5 g (by omega))
    refine ⟨q1, ?_, q3.trans r3⟩
    rw [q2, r2]
    simp [allEntries]

theorem inv_wipe (s : St) : Inv ck (wipe s) := by
  refine ⟨?_, ?_, ?_, ?_, ?_, Nat.le_refl _, Nat.le_refl _⟩ <;> intro e he <;> cases he

/-- If the files hold good blocks one after the other, each once, reindexing finds them all, in order and where they are, and whatever is
stored afterwards they are read back. -/
theorem reindex_recovers_partial (hm : Magic P.magic) (hck : ∀ u, (ck u).length = 32) {good : List Nat → Bool} {bl : Nat → List (List Nat)}
    {pd : Nat → Nat} {n k : Nat} (hk : n ≤ k) {s : St} (hfiles : ∀ g, g < n → bl g ≠ [] ∧ s.blkF g = recs P.magic (bl g) ++ zeros (pd g)) (hend : s.blkF n = [])
    (hgood : ∀ b ∈ allBlocks bl n 0, good b = true ∧ Sized b) (hnd : (allBlocks bl n 0).Nodup) :
    (reindex P.magic good k s).index = allEntries bl n 0 ∧
    ∀ ops, Fine P ck (reindex P.magic good k s) ops → ∀ e ∈ (run P ck (reindex P.magic good k s) ops).index,
      readBlock (run P ck (reindex P.magic good k s) ops) e = e.blk := by
  obtain ⟨h1, h2, _⟩ := loadFiles_all (ck := ck) hm (good := good) bl pd n k 0 (wipe s) hk (inv_wipe s)
    (fun g _ hg => hfiles g (by omega)) (by rw [Nat.zero_add]; exact hend) hgood hnd (by intro e he; cases he) rfl (Nat.le_refl _) (fun _ _ => rfl)
  exact ⟨h2, fun ops hf e he => at_read ((run_inv hm.1 hck h1 hf).inFile e he)⟩

/-! ### Files of a node that stored blocks only, with disk space and without crash, are of this form. -/

structure Clean (P : Params) (s : St) (bl : Nat → List (List Nat)) : Prop where
  files : ∀ f, ∃ k, s.blkF f = recs P.magic (bl f) ++ zeros k
  size : s.info.size = (recs P.magic (bl s.last)).length
  full : ∀ f, f < s.last → bl f ≠ []
  beyond : ∀ f, s.last < f → s.blkF f = [] ∧ dbInfo s.db f = .null ∧ bl f = []
  index : s.index = allEntries bl (s.last + 1) 0

theorem recs_snoc (m : List Nat) (bs : List (List Nat)) (b : List Nat) : recs m (bs ++ [b]) = recs m bs ++ record m b := by
  simp [recs]

theorem put_end (l : List Nat) (k : Nat) (x : List Nat) : ∃ k', put (l ++ zeros k) l.length x = l ++ x ++ zeros k' := by
  refine ⟨k - x.length, ?_⟩
  unfold put
  rw [List.take_left, show l.length - (l ++ zeros k).length = 0 by simp]
  simp [zeros, List.drop_append]

theorem pad_zeros (l : List Nat) (k n : Nat) : ∃ k', pad (l ++ zeros k) n = l ++ zeros k' := by
  refine ⟨k + (n - (l ++ zeros k).length), ?_⟩
  simp [pad, zeros, ← List.replicate_add]

theorem place_snoc (m : List Nat) (hm : m.length = 4) : ∀ (bs : List (List Nat)) (pos : Nat) (b : List Nat),
    place pos (bs ++ [b]) = place pos bs ++ [(pos + (recs m bs).length + 8, b)]
  | [], pos, b => by simp [place, recs]
  | c :: bs, pos, b => by
    rw [List.cons_append, place, place_snoc m hm bs, place, recs_cons, List.length_append, record_length hm, List.cons_append]
    simp; omega

theorem allEntries_snoc (bl : Nat → List (List Nat)) : ∀ (n f : Nat), allEntries bl (n + 1) f = allEntries bl n f ++ entries (f + n) 0 (bl (f + n))
  | 0, f => by simp [allEntries]
  | n + 1, f => by
    rw [allEntries, allEntries_snoc bl n (f + 1), allEntries, List.append_assoc, show f + 1 + n = f + (n + 1) by omega]

theorem allEntries_congr {bl bl' : Nat → List (List Nat)} : ∀ (n f : Nat), (∀ g, f ≤ g → g < f + n → bl g = bl' g) → allEntries bl n f = allEntries bl' n f
  | 0, _, _ => rfl
  | n + 1, f, h => by
    rw [allEntries, allEntries, h f (Nat.le_refl _) (by omega), allEntries_congr n (f + 1) fun g h1 h2 => h g (by omega) (by omega)]

theorem clean_leave {s : St} {bl} (h : Clean P s bl) (hne : bl s.last ≠ []) : Clean P (leave s) bl := by
  refine ⟨?_, ?_, ?_, ?_, ?_⟩
  · intro f
    show ∃ k, upd s.blkF s.last _ f = _
    by_cases hf : f = s.last
    · rw [hf, upd_same]
      obtain ⟨k, hk⟩ := h.files s.last
      refine ⟨0, ?_⟩
      rw [hk, h.size, trunc]
      simp [zeros]
    · rw [upd_other _ hf]; exact h.files f
  · show (dbInfo s.db (s.last + 1)).size = (recs P.magic (bl (s.last + 1))).length
    obtain ⟨_, h2, h3⟩ := h.beyond (s.last + 1) (by omega)
    rw [h2, h3]; rfl
  · intro f hf
    by_cases hl : f = s.last
    · rw [hl]; exact hne
    · exact h.full f (by have : f < s.last + 1 := hf; omega)
  · intro f hf
    have hf : s.last + 1 < f := hf
    obtain ⟨h1, h2, h3⟩ := h.beyond f (by omega)
    refine ⟨?_, h2, h3⟩
    show upd s.blkF s.last _ f = []
    rw [upd_other _ (by omega)]; exact h1
  · show s.index = allEntries bl (s.last + 1 + 1) 0
    obtain ⟨_, _, h3⟩ := h.beyond (s.last + 1) (by omega)
    rw [allEntries_snoc, Nat.zero_add, h3, h.index]
    simp [entries, place]

theorem clean_seek {add : Nat} (ha : add < P.maxFile) {bl} : ∀ (k : Nat) {s : St}, Clean P s bl → Clean P (seek P add k s) bl
  | 0, _, h => h
  | k + 1, s, h => by
    rw [seek]
    split
    · rename_i hc
      refine clean_seek ha k (clean_leave h ?_)
      intro hn
      rw [h.size, hn] at hc
      simp [recs] at hc; omega
    · exact h

theorem clean_store (hm : P.magic.length = 4) {s : St} {bl} (h : Clean P s bl) {b : List Nat} (hb : b.length + 8 < P.maxFile) :
    ∃ f, Clean P (store P s b true false) (upd bl f (bl f ++ [b])) := by
  have h1 := clean_seek hb (fuel s) h
  unfold store findBlockPos
  simp only [Bool.not_true, Bool.and_false, Bool.false_eq_true, if_false]
  generalize seek P (b.length + 8) (fuel s) s = s1 at h1
  generalize chunkEnd (s1.info.size + (b.length + 8)) P.chunk = en
  generalize grows s1.info.size (s1.info.size + (b.length + 8)) P.chunk = grow
  generalize (if s1.last ≠ s.last then s1.last else s1.cached) = c
  refine ⟨s1.last, ?_⟩
  have hf1 : ∃ k, (if grow = true then upd s1.blkF s1.last (pad (s1.blkF s1.last) en) else s1.blkF) s1.last = recs P.magic (bl s1.last) ++ zeros k := by
    obtain ⟨k, hk⟩ := h1.files s1.last
    split
    · rw [upd_same, hk]; exact pad_zeros _ _ _
    · exact ⟨k, hk⟩
  have hf2 : ∀ f, f ≠ s1.last → (if grow = true then upd s1.blkF s1.last (pad (s1.blkF s1.last) en) else s1.blkF) f = s1.blkF f := by
    intro f hf
    split
    · rw [upd_other _ hf]
    · rfl
  generalize (if grow = true then upd s1.blkF s1.last (pad (s1.blkF s1.last) en) else s1.blkF) = bf at hf1 hf2
  refine ⟨?_, ?_, ?_, ?_, ?_⟩
  · intro f
    show ∃ k, upd bf s1.last (put (bf s1.last) s1.info.size (record P.magic b)) f = recs P.magic (upd bl s1.last (bl s1.last ++ [b]) f) ++ zeros k
    by_cases hf : f = s1.last
    · rw [hf, upd_same, upd_same]
      obtain ⟨k, hk⟩ := hf1
      rw [hk, h1.size, recs_snoc]
      exact put_end _ _ _
    · rw [upd_other _ hf, upd_other _ hf, hf2 f hf]; exact h1.files f
  · show s1.info.size + (b.length + 8) = (recs P.magic (upd bl s1.last (bl s1.last ++ [b]) s1.last)).length
    rw [upd_same, recs_snoc, List.length_append, record_length hm, h1.size]
  · intro f hf
    show upd bl s1.last _ f ≠ []
    rw [upd_other _ (Nat.ne_of_lt hf)]; exact h1.full f hf
  · intro f hf
    have hf : s1.last < f := hf
    obtain ⟨a1, a2, a3⟩ := h1.beyond f hf
    refine ⟨?_, ?_, ?_⟩
    · show upd bf s1.last _ f = []
      rw [upd_other _ (by omega), hf2 f (by omega)]; exact a1
    · show dbInfo (_ :: s1.db) f = _
      rw [dbInfo_cons, if_neg (by omega)]; exact a2
    · rw [upd_other _ (by omega)]; exact a3
  · show s1.index ++ [_] = allEntries _ (s1.last + 1) 0
    rw [h1.index, allEntries_snoc, allEntries_snoc, Nat.zero_add, upd_same,
      allEntries_congr (bl := upd bl s1.last (bl s1.last ++ [b])) (bl' := bl) s1.last 0 (fun g _ hg => upd_other _ (by omega) _),
      entries, entries, place_snoc P.magic hm, List.map_append, List.append_assoc, h1.size]
    simp

def stores (bs : List (List Nat)) : List Op := bs.map fun b => .store b true false

theorem clean_stores (hm : P.magic.length = 4) : ∀ (bs : List (List Nat)) (s : St) (bl), Clean P s bl → (∀ b ∈ bs, b.length + 8 < P.maxFile) →
    ∃ bl', Clean P (run P ck s (stores bs)) bl'
  | [], _, bl, h, _ => ⟨bl, h⟩
  | b :: bs, s, bl, h, hb => by
    obtain ⟨f, h1⟩ := clean_store hm h (hb b (by simp))
    exact clean_stores hm bs (store P s b true false) _ h1 (fun x hx => hb x (List.mem_cons_of_mem _ hx))

theorem clean_init : Clean P init fun _ => [] :=
  ⟨fun _ => ⟨0, rfl⟩, rfl, fun _ h => absurd h (Nat.not_lt_zero _), fun _ _ => ⟨rfl, rfl, rfl⟩, rfl⟩

theorem index_blocks (bl : Nat → List (List Nat)) : ∀ (n f : Nat), (allEntries bl n f).map Entry.blk = allBlocks bl n f := by
  have he : ∀ (bs : List (List Nat)) (f pos : Nat), (entries f pos bs).map Entry.blk = bs := by
    intro bs
    induction bs with
    | nil => intro f pos; rfl
    | cons b bs ih => intro f pos; simpa [entries, place] using ih f (pos + 8 + b.length)
  intro n
  induction n with
  | zero => intro f; rfl
  | succ n ih => intro f; rw [allEntries, List.map_append, he, ih]; rfl

theorem stores_index (bs : List (List Nat)) : ∀ s : St, (run P ck s (stores bs)).index.map Entry.blk = s.index.map Entry.blk ++ bs := by
  induction bs with
  | nil => intro s; simp [stores, run]
  | cons b bs ih =>
    intro s
    obtain ⟨e, h1, h2⟩ := store_succeeds (P := P) (s := s) (b := b)
    have := ih (store P s b true false)
    show (run P ck (store P s b true false) (stores bs)).index.map Entry.blk = _
    rw [this, h1]; simp [h2]

/-- A node that stored different good blocks, any number over any number of files, finds exactly its index again by reindexing. -/
theorem reindex_same_index_partial (hm : Magic P.magic) {good : List Nat → Bool} {bs : List (List Nat)} (hne : bs ≠ []) (hb : ∀ b ∈ bs, b.length + 8 < P.maxFile)
    (hgood : ∀ b ∈ bs, good b = true ∧ Sized b) (hnd : bs.Nodup) :
    ∃ n, ∀ k, n ≤ k → (reindex P.magic good k (run P ck init (stores bs))).index = (run P ck init (stores bs)).index := by
  obtain ⟨bl, hc⟩ := clean_stores (ck := ck) hm.1 bs init _ clean_init hb
  have hidx := stores_index (P := P) (ck := ck) bs init
  have hblocks : allBlocks bl ((run P ck init (stores bs)).last + 1) 0 = bs := by
    rw [← index_blocks, ← hc.index, hidx]; rfl
  -- the last file is not empty
  have hlast : bl (run P ck init (stores bs)).last ≠ [] := by
    obtain ⟨bs', b, rfl⟩ : ∃ bs' b, bs = bs' ++ [b] := ⟨bs.dropLast, bs.getLast hne, (List.dropLast_append_getLast hne).symm⟩
    have hrun : run P ck init (stores (bs' ++ [b])) = store P (run P ck init (stores bs')) b true false := by
      unfold stores; rw [List.map_append, run_append]; rfl
    have hsz : b.length + 8 ≤ (run P ck init (stores (bs' ++ [b]))).info.size := by
      rw [hrun]
      unfold store findBlockPos
      simp only [Bool.not_true, Bool.and_false, Bool.false_eq_true, if_false]
      exact Nat.le_add_left _ _
    intro hn
    rw [hc.size, hn] at hsz
    simp [recs] at hsz
  choose pd hpd using hc.files
  refine ⟨(run P ck init (stores bs)).last + 1, fun k hk => ?_⟩
  have := (loadFiles_all (ck := fun _ => []) hm (good := good) bl pd _ k 0 (wipe (run P ck init (stores bs))) hk (inv_wipe _)
    (fun g _ hg => ⟨by
      by_cases hl : g = (run P ck init (stores bs)).last
      · rw [hl]; exact hlast
      · exact hc.full g (by omega), hpd g⟩)
    (by rw [Nat.zero_add]; exact (hc.beyond _ (Nat.lt_succ_self _)).1)
    (by rw [hblocks]; exact hgood) (by rw [hblocks]; exact hnd) (by intro e he; cases he) rfl (Nat.le_refl _) (fun _ _ => rfl)).2.1
  rw [reindex, this, hc.index]; rfl

/-- Three blocks of 80 bytes -/
def blkA : List Nat := List.replicate 80 1
def blkB : List Nat := List.replicate 80 2
def blkC : List Nat := List.replicate 80 3

example : Magic mainnet.magic ∧ [blkA, blkB, blkC].Nodup ∧ (∀ b ∈ [blkA, blkB, blkC], b.length + 8 < mainnet.maxFile ∧ Sized b) := by
  refine ⟨⟨rfl, by decide⟩, by decide, ?_⟩
  intro b hb
  simp only [List.mem_cons, List.not_mem_nil, or_false] at hb
  rcases hb with rfl | rfl | rfl <;> exact ⟨by decide, by decide, by decide⟩

/-- A crash after writing a block to the file and before writing its index record leaves the block in the file twice. Reindexing then counts
too little for the file, and the next block is written over the last one. -/
theorem reindex_keeps_blocks_violated (hm : Magic P.magic) (hmax : 1000 < P.maxFile) (good : List Nat → Bool) (hgood : ∀ b, good b = true) :
    ∃ s, s = store P (reindex P.magic good 1 (run P ck init [.store blkA true true, .restart, .store blkA true false, .store blkB true false])) blkC true false ∧
      ∃ e ∈ s.index, e.blk = blkB ∧ readBlock s e = blkC := by
  refine ⟨_, rfl, ?_⟩
  -- the file
  have step1 : ∀ (s : St) (bs : List (List Nat)) (b : List Nat) (lost : Bool), (∃ k, s.blkF 0 = recs P.magic bs ++ zeros k) → s.last = 0 →
      s.info.size = (recs P.magic bs).length → (recs P.magic bs).length + (b.length + 8) < P.maxFile →
      (∃ k, (store P s b true lost).blkF 0 = recs P.magic (bs ++ [b]) ++ zeros k) ∧ (store P s b true lost).last = 0 ∧
      (store P s b true lost).info.size = (recs P.magic (bs ++ [b])).length ∧
      dbInfo (store P s b true lost).db 0 = (store P s b true lost).info ∧ (store P s b true lost).flushed = s.flushed := by
    intro s bs b lost hf hl hs hroom
    have hseek : seek P (b.length + 8) (fuel s) s = s := by
      show seek P (b.length + 8) (_ + 1 + 1) s = s
      rw [seek, if_neg (by rw [hs]; omega)]
    have hfile : ∃ k, (if grows s.info.size (s.info.size + (b.length + 8)) P.chunk = true then
          upd s.blkF s.last (pad (s.blkF s.last) (chunkEnd (s.info.size + (b.length + 8)) P.chunk)) else s.blkF) 0 = recs P.magic bs ++ zeros k := by
      obtain ⟨k, hk⟩ := hf
      split
      · rw [hl, upd_same, hk]; exact pad_zeros _ _ _
      · exact ⟨k, hk⟩
    unfold store findBlockPos
    simp only [Bool.not_true, Bool.and_false, Bool.false_eq_true, if_false, hseek]
    generalize (if grows s.info.size (s.info.size + (b.length + 8)) P.chunk = true then
          upd s.blkF s.last (pad (s.blkF s.last) (chunkEnd (s.info.size + (b.length + 8)) P.chunk)) else s.blkF) = bf at hfile
    have hput : ∃ k, upd bf s.last (put (bf s.last) s.info.size (record P.magic b)) 0 = recs P.magic (bs ++ [b]) ++ zeros k := by
      obtain ⟨k, hk⟩ := hfile
      rw [hl, upd_same, hk, hs, recs_snoc]; exact put_end _ _ _
    have hsz : s.info.size + (b.length + 8) = (recs P.magic (bs ++ [b])).length := by
      rw [recs_snoc, List.length_append, record_length hm.1, hs]
    have hdb : dbInfo ((s.last, (⟨s.info.size + (b.length + 8), s.info.undo⟩ : Info)) :: s.db) 0 = ⟨s.info.size + (b.length + 8), s.info.undo⟩ := by
      rw [dbInfo_cons, if_pos hl.symm]
    cases lost <;> exact ⟨hput, hl, hsz, hdb, rfl⟩
  have len : (record P.magic blkA).length = 88 ∧ (record P.magic blkB).length = 88 := by
    rw [record_length hm.1, record_length hm.1]; exact ⟨by decide, by decide⟩
  obtain ⟨a1, a2, a3, a4, a5⟩ := step1 init [] blkA true ⟨0, rfl⟩ rfl rfl (by simp [recs, blkA]; omega)
  generalize hs1 : store P init blkA true true = s1 at a1 a2 a3 a4 a5
  have la : (recs P.magic ([] ++ [blkA])).length = 88 := by simp [recs, len.1]
  obtain ⟨b1, b2, b3, b4, b5⟩ := step1 (restart s1) [blkA] blkA false a1 a5
    (by show (dbInfo s1.db s1.flushed).size = _; rw [a5]; show (dbInfo s1.db 0).size = _; rw [a4, a3]; rfl)
    (by rw [show [blkA] = [] ++ [blkA] from rfl, la]; simp [blkA]; omega)
  generalize hs2 : store P (restart s1) blkA true false = s2 at b1 b2 b3 b4 b5
  have lb : (recs P.magic ([blkA] ++ [blkA])).length = 176 := by simp [recs, len.1]
  obtain ⟨c1, c2, c3, c4, c5⟩ := step1 s2 ([blkA] ++ [blkA]) blkB false b1 b2 b3 (by rw [lb]; simp [blkB]; omega)
  have hrun : run P ck init [.store blkA true true, .restart, .store blkA true false, .store blkB true false] = store P s2 blkB true false := by
    rw [← hs2, ← hs1]; rfl
  rw [hrun]
  generalize store P s2 blkB true false = s3 at c1 c2 c3 c4 c5
  -- reindexing
  obtain ⟨k, hk⟩ := c1
  have hsz : ∀ b ∈ [blkA] ++ [blkA] ++ [blkB], Sized b := by
    intro b hb
    simp only [List.cons_append, List.nil_append, List.mem_cons, List.not_mem_nil, or_false] at hb
    rcases hb with rfl | rfl | rfl <;> exact ⟨by decide, by decide⟩
  have hlen3 : (recs P.magic ([blkA] ++ [blkA] ++ [blkB])).length = 264 := by simp [recs, len.1, len.2]
  have hscan : scan P.magic (s3.blkF 0).length 0 (s3.blkF 0) = [(8, blkA), (96, blkA), (184, blkB)] := by
    rw [hk, scan_recs hm _ _ 0 _ hsz (by rw [List.length_append (as := recs P.magic _), hlen3]; simp; omega)]
    rfl
  have hne : (wipe s3).blkF 0 ≠ [] := by
    show s3.blkF 0 ≠ []
    intro h0
    have := congrArg List.length (hk.symm.trans h0)
    rw [List.length_append, hlen3] at this
    simp at this
  have hre : ∃ s4 : St, reindex P.magic good 1 s3 = s4 ∧ s4.last = 0 ∧ s4.info.size = 176 ∧ s4.blkF = s3.blkF ∧
      (⟨0, 184, blkB, none⟩ : Entry) ∈ s4.index := by
    refine ⟨_, rfl, ?_⟩
    unfold reindex
    rw [loadFiles, if_neg hne]
    rw [show (wipe s3).blkF 0 = s3.blkF 0 from rfl, hscan, loadFiles]
    have hd2 : blkA ≠ blkB := by decide
    have l1 : blkA.length = 80 := by decide
    have l2 : blkB.length = 80 := by decide
    generalize blkA = A at hd2 l1
    generalize blkB = B at hd2 l2
    simp [loadFile, known, wipe, hgood, hd2, Info.null, l1, l2]
  obtain ⟨s4, e4, d1, d2, d3, d4⟩ := hre
  rw [e4]
  -- the next block
  have hseek : seek P (blkC.length + 8) (fuel s4) s4 = s4 := by
    show seek P (blkC.length + 8) (_ + 1 + 1) s4 = s4
    rw [seek, if_neg (by rw [d2, show blkC.length = 80 from by decide]; omega)]
  have hfin : (⟨0, 184, blkB, none⟩ : Entry) ∈ (store P s4 blkC true false).index ∧ At ((store P s4 blkC true false).blkF 0) 176 (record P.magic blkC) := by
    unfold store findBlockPos
    simp only [Bool.not_true, Bool.and_false, Bool.false_eq_true, if_false, hseek]
    generalize (if grows s4.info.size (s4.info.size + (blkC.length + 8)) P.chunk = true then
          upd s4.blkF s4.last (pad (s4.blkF s4.last) (chunkEnd (s4.info.size + (blkC.length + 8)) P.chunk)) else s4.blkF) = bf
    refine ⟨List.mem_append_left _ d4, ?_⟩
    rw [d1, upd_same, d2]
    exact at_put _ _ _
  refine ⟨⟨0, 184, blkB, none⟩, hfin.1, rfl, ?_⟩
  have e : record P.magic blkC = (P.magic ++ le4 blkC.length) ++ blkC ++ [] := by simp [record]
  have h2 := hfin.2
  rw [e] at h2
  have h3 := at_sub h2
  rw [List.length_append, hm.1, le4_length] at h3
  exact at_read h3

end Verif.Files
