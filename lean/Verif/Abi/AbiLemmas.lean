import Verif.Abi.AbiModel
import Verif.Abi.Streams
/-! # Lemmas about interfaces -/
namespace Verif.Abi
open Verif

/-! ## Specification -/

/-- Reading type `t` may call the reader on type `u`. -/
inductive Sub (s : Ser) (t : Name) : Name → Prop where
  | elem : isBuiltin (fundamental (s.resolve t)) = false →
      isArray (s.resolve t) = true ∨ isOpt (s.resolve t) = true → Sub s t (fundamental (s.resolve t))
  | base : isArray (s.resolve t) = false → isOpt (s.resolve t) = false →
      s.findS (s.resolve t) = some st → st.base ≠ [] → Sub s t (s.resolve st.base)
  | field : isArray (s.resolve t) = false → isOpt (s.resolve t) = false →
      s.findS (s.resolve t) = some st → f ∈ st.fields → Sub s t (removeExt f.type)

/-- Following the bases from a struct ends after the given number of steps. -/
inductive Ends (s : Ser) : Nat → Struct → Prop where
  | stop : st.base = [] → Ends s 0 st
  | next : st.base ≠ [] → s.findS (s.resolve st.base) = some b → Ends s n b → Ends s (n + 1) st

/-- The conversions of the built-in types undo each other, up to `norm`. -/
def Codec.Lawful (C : Codec β) (norm : Name → Bool → Bool → J β → J β) : Prop :=
  ∀ f a o j bytes rest, C.put f a o j = some bytes → C.get f a o (bytes ++ rest) = some (norm f a o j, rest)

/-- All or nothing. -/
def collect : List (Option α) → Option (List α)
  | [] => some []
  | none :: _ => none
  | some x :: xs => (collect xs).map (x :: ·)

/-- The declared fields with their values, in declaration order, nulls left out. -/
def named : List (Field × J β) → List (Name × J β)
  | [] => []
  | (f, v) :: xs => if v.isNull then named xs else (f.name, v) :: named xs

/-- The value of a declared field: the first entry of that name, null for optional fields without one. -/
def pick (o : List (Name × J β)) (f : Field) : Option (J β) :=
  match o with
  | [] => if isOpt f.type then some .null else none
  | (n, v) :: o => if n = f.name then some v else pick o f

/-- The canonical form of a JSON value at a type: arrays elementwise, objects with the base's
fields first and then exactly the declared fields. `none` for arrays of 8192 elements or more, arrays
with null elements, and optional structs. -/
def canon (norm : Name → Bool → Bool → J β → J β) (s : Ser) : Nat → Name → J β → Option (J β)
  | 0, _, _ => none
  | k + 1, ty, j =>
    let r := s.resolve ty
    let f := fundamental r
    if isBuiltin f then some (norm f (isArray r) (isOpt r) j)
    else if isArray r then
      match j with
      | .arr l =>
        if l.length < 8192 then
          match collect (l.map (canon norm s k f)) with
          | some vs => if vs.any J.isNull then none else some (.arr vs)
          | none => none
        else none
      | _ => none
    else if isOpt r then none
    else
      match s.findS r with
      | none => none
      | some st =>
        match j with
        | .obj o =>
          match (if st.base = [] then some (.obj []) else canon norm s k (s.resolve st.base) (.obj o)),
            collect (st.fields.map fun f => (pick o f).bind (canon norm s k (removeExt f.type))) with
          | some b, some vs => some (.obj (baseObj st.base b ++ named (st.fields.zip vs)))
          | _, _ => none
        | .arr l =>
          match collect ((st.fields.zip l).map fun p => canon norm s k (removeExt p.1.type) p.2) with
          | some vs => some (.obj (named (st.fields.zip vs)))
          | none => none
        | _ => none

/-! ## The recursion check looks at nothing -/

theorem addParent_names (p : Node) (n : Name) (l : List (Name × List Node)) :
    (addParent p n l).map (·.1) = l.map (·.1) := by
  induction l with
  | nil => rfl
  | cons x xs ih => rw [addParent]; split <;> simp [ih]

theorem checkRec_first (s : Ser) (k : Nat) (d : Dag) (st : Struct)
    (hn : st.name ∉ d.nodes.map (·.1)) (hc : (none, st.name) ∉ d.children) :
    (st.name = "root".toList → s.checkRec (k + 1) none d st = none) ∧
      (st.name ≠ "root".toList → ∃ d', s.checkRec (k + 1) none d st = some d' ∧
        d'.nodes.map (·.1) = d.nodes.map (·.1) ++ [st.name] ∧
        d'.children = d.children ++ [(none, st.name)]) := by
  have hcirc : d.hasCircle (d.nodes.length + 1) none st.name = (['r', 'o', 'o', 't'] == st.name) := by
    rw [Dag.hasCircle]; simp [Dag.parents, nodeName]
  constructor
  · intro h
    have h' : st.name = ['r', 'o', 'o', 't'] := h
    rw [Ser.checkRec, Dag.add, hcirc, h']
    simp
  · intro h
    have hf : (['r', 'o', 'o', 't'] == st.name) = false := by
      rw [beq_eq_false_iff_ne]; exact fun e => h (by rw [← e]; rfl)
    have hany : (d.nodes.any fun x => x.1 == st.name) = false := by
      rw [List.any_eq_false]; intro x hx; rw [beq_iff_eq]
      exact fun e => hn (List.mem_map.mpr ⟨x, hx, e⟩)
    refine ⟨{ nodes := addParent none st.name (d.nodes ++ [(st.name, [])])
              children := d.children ++ [(none, st.name)] }, ?_, ?_, ?_⟩
    · rw [Ser.checkRec, Dag.add, hcirc, hf, hany, if_neg (by simp), if_neg hc, if_neg (by simp)]
      rfl
    · rw [addParent_names]; simp
    · rfl

theorem dagLoop_all (s : Ser) (l : List Struct) : ∀ (d : Dag) (done : List Name),
    d.nodes.map (·.1) = done → d.children = done.map (fun n => (none, n)) →
    (done ++ l.map (·.name)).Nodup →
    (s.dagLoop d l = true ↔ "root".toList ∉ l.map (·.name)) := by
  induction l with
  | nil => intro d done _ _ _; simp [Ser.dagLoop]
  | cons st l ih =>
    intro d done h1 h2 hnd
    have hst : st.name ∉ done := by
      intro h
      rw [List.nodup_append] at hnd
      exact hnd.2.2 _ h _ (by simp) rfl
    have hc : (none, st.name) ∉ d.children := by rw [h2]; simpa using hst
    obtain ⟨ha, hb⟩ := checkRec_first s s.structs.length d st (h1 ▸ hst) hc
    by_cases hr : st.name = "root".toList
    · rw [Ser.dagLoop, ha hr]; simp [hr]
    · obtain ⟨d', e1, e2, e3⟩ := hb hr
      rw [Ser.dagLoop, e1]
      have := ih d' (done ++ [st.name]) (by rw [e2, h1]) (by rw [e3, h2]; simp) (by simpa using hnd)
      simp only [this, List.map_cons, List.mem_cons, not_or]
      exact ⟨fun h => ⟨fun e => hr e.symm, h⟩, fun h => h.2⟩

theorem baseLoop_ends (s : Ser) : ∀ (k : Nat) (seen : List Name) (st : Struct),
    s.baseLoop k seen st = true → ∃ n < k, Ends s n st := by
  intro k
  induction k with
  | zero => intro _ _ h; simp [Ser.baseLoop] at h
  | succ k ih =>
    intro seen st h
    rw [Ser.baseLoop] at h
    split at h
    · next hb => exact ⟨0, by omega, .stop hb⟩
    · next hb =>
      split at h
      · simp at h
      · next b hf =>
        split at h
        · simp at h
        · obtain ⟨n, hn, he⟩ := ih _ _ h
          exact ⟨n + 1, by omega, .next hb hf he⟩

/-! ## Depth of reading -/

theorem Rd.bind_deep {r : Rd α} {f : α → List Nat → Rd β} (hr : r ≠ .deep)
    (hf : ∀ v rest, r = .ok v rest → f v rest ≠ .deep) : r.bind f ≠ .deep := by
  cases r with
  | ok v rest => exact hf v rest rfl
  | fail => simp [Rd.bind]
  | undef => simp [Rd.bind]
  | deep => exact absurd rfl hr

theorem readElems_deep (rd : List Nat → Rd (J β)) (h : ∀ bs, rd bs ≠ .deep) :
    ∀ n bs, readElems rd n bs ≠ .deep := by
  intro n
  induction n with
  | zero => intro bs; simp [readElems]
  | succ n ih =>
    intro bs
    rw [readElems]
    refine Rd.bind_deep (h bs) fun v rest _ => ?_
    split
    · simp
    · exact Rd.bind_deep (ih _) fun _ _ _ => by simp

theorem readFields_deep (rd : Name → List Nat → Rd (J β)) (fs : List Field)
    (h : ∀ f ∈ fs, ∀ bs, rd (removeExt f.type) bs ≠ .deep) : ∀ bs, readFields rd fs bs ≠ .deep := by
  induction fs with
  | nil => intro bs; simp [readFields]
  | cons f fs ih =>
    intro bs
    rw [readFields]
    refine Rd.bind_deep (h f (by simp) bs) fun v rest _ => ?_
    exact Rd.bind_deep (ih (fun g hg => h g (by simp [hg])) _) fun _ _ _ => by simp

/-- A level bound for finitely many fields. -/
theorem fields_bound (P : Nat → Name → Prop) (mono : ∀ k k' u, k ≤ k' → P k u → P k' u) (fs : List Field)
    (h : ∀ f ∈ fs, ∃ k, P k (removeExt f.type)) : ∃ k, ∀ f ∈ fs, P k (removeExt f.type) := by
  induction fs with
  | nil => exact ⟨0, by simp⟩
  | cons f fs ih =>
    obtain ⟨k1, h1⟩ := h f (by simp)
    obtain ⟨k2, h2⟩ := ih fun g hg => h g (by simp [hg])
    refine ⟨max k1 k2, fun g hg => ?_⟩
    rcases List.mem_cons.mp hg with rfl | hg
    · exact mono _ _ _ (by omega) h1
    · exact mono _ _ _ (by omega) (h2 g hg)

theorem reader_acc (s : Ser) (t : Name) (h : Acc (fun u t => Sub s t u) t) :
    ∃ k0, ∀ k ≥ k0, ∀ (β : Type) (C : Codec β) (bs : List Nat), binToVar C s k t bs ≠ .deep := by
  induction h with
  | intro t _ ih =>
    let P : Nat → Name → Prop := fun k0 u =>
      ∀ k ≥ k0, ∀ (β : Type) (C : Codec β) (bs : List Nat), binToVar C s k u bs ≠ .deep
    have mono : ∀ k k' u, k ≤ k' → P k u → P k' u := fun k k' u hk h j hj => h j (by omega)
    -- one bound for everything called from here
    have hfin : ∃ k0, ∀ u, Sub s t u → P k0 u := by
      by_cases hae : isArray (s.resolve t) = true ∨ isOpt (s.resolve t) = true
      · by_cases hb : isBuiltin (fundamental (s.resolve t)) = false
        · obtain ⟨k0, h0⟩ := ih _ (.elem hb hae)
          refine ⟨k0, fun u hu => ?_⟩
          cases hu with
          | elem _ _ => exact h0
          | base h1 h2 _ _ => rcases hae with h | h <;> simp_all
          | field h1 h2 _ _ => rcases hae with h | h <;> simp_all
        · refine ⟨0, fun u hu => ?_⟩
          cases hu with
          | elem h _ => exact absurd h hb
          | base h1 h2 _ _ => rcases hae with h | h <;> simp_all
          | field h1 h2 _ _ => rcases hae with h | h <;> simp_all
      · have h1 : isArray (s.resolve t) = false := by
          cases e : isArray (s.resolve t) <;> simp_all
        have h2 : isOpt (s.resolve t) = false := by
          cases e : isOpt (s.resolve t) <;> simp_all
        cases hS : s.findS (s.resolve t) with
        | none =>
          refine ⟨0, fun u hu => ?_⟩
          cases hu with
          | elem _ h => exact absurd h hae
          | base _ _ h _ => rw [hS] at h; cases h
          | field _ _ h _ => rw [hS] at h; cases h
        | some st =>
          obtain ⟨kf, hf⟩ := fields_bound P mono st.fields fun f hf => ih _ (.field h1 h2 hS hf)
          by_cases hb : st.base = []
          · refine ⟨kf, fun u hu => ?_⟩
            cases hu with
            | elem _ h => exact absurd h hae
            | base _ _ h h' => rw [hS] at h; cases h; exact absurd hb h'
            | field _ _ h h' => rw [hS] at h; cases h; exact hf _ h'
          · obtain ⟨kb, hbb⟩ := ih _ (.base h1 h2 hS hb)
            refine ⟨max kf kb, fun u hu => ?_⟩
            cases hu with
            | elem _ h => exact absurd h hae
            | base _ _ h h' => rw [hS] at h; cases h; exact mono _ _ _ (by omega) hbb
            | field _ _ h h' => rw [hS] at h; cases h; exact mono _ _ _ (by omega) (hf _ h')
    obtain ⟨k0, h0⟩ := hfin
    refine ⟨k0 + 1, fun k hk β C bs => ?_⟩
    obtain ⟨k, rfl⟩ : ∃ n, k = n + 1 := ⟨k - 1, by omega⟩
    have hsub : ∀ u, Sub s t u → ∀ bs, binToVar C s k u bs ≠ .deep := fun u hu => h0 u hu k (by omega) β C
    rw [binToVar]
    split
    · split <;> simp
    · next hb =>
      have hb' : isBuiltin (fundamental (s.resolve t)) = false := by simpa using hb
      split
      · next ha =>
        split
        · split
          · exact Rd.bind_deep (readElems_deep _ (hsub _ (.elem hb' (.inl ha))) _ _) fun _ _ _ => by simp
          · simp
        · simp
        · simp
      · next ha =>
        have ha' : isArray (s.resolve t) = false := by simpa using ha
        split
        · next ho =>
          cases bs with
          | nil => simp [readOpt]
          | cons b rest =>
            rw [readOpt]
            split
            · simp
            · exact hsub _ (.elem hb' (.inr ho)) _
        · next ho =>
          have ho' : isOpt (s.resolve t) = false := by simpa using ho
          split
          · simp
          · next st hst =>
            refine Rd.bind_deep ?_ fun o r' _ => ?_
            · split
              · simp
              · next hbase =>
                exact Rd.bind_deep (hsub _ (.base ha' ho' hst hbase) _) fun _ _ _ => by simp
            · exact Rd.bind_deep (readFields_deep _ _ (fun f hf => hsub _ (.field ha' ho' hst hf)) _)
                fun _ _ _ => by simp

/-- A struct whose first field is the struct itself is read without end, whatever the data. -/
theorem reader_loops (C : Codec β) (s : Ser) (t : Name) (st : Struct) (f : Field) (fs : List Field)
    (hr : s.resolve t = t) (hb : isBuiltin (fundamental t) = false) (ha : isArray t = false)
    (ho : isOpt t = false) (hS : s.findS t = some st) (hbase : st.base = [])
    (hf : st.fields = f :: fs) (hft : removeExt f.type = t) :
    ∀ k bs, binToVar C s k t bs = .deep := by
  intro k
  induction k with
  | zero => intro bs; rfl
  | succ k ih =>
    intro bs
    rw [binToVar]
    rw [hr, if_neg (by simp [hb]), if_neg (by simp [ha]), if_neg (by simp [ho]), hS]
    dsimp only
    rw [if_pos hbase, hf]
    simp only [Rd.bind, readFields, hft, ih bs]

/-! ## Round trip -/

theorem Pk.append_ok {a b : Pk} {bs : List Nat} (h : a.append b = .ok bs) :
    ∃ x y, a = .ok x ∧ b = .ok y ∧ bs = x ++ y := by
  cases a <;> cases b <;> simp [Pk.append] at h
  exact ⟨_, _, rfl, rfl, h.symm⟩

theorem collect_cons {x : Option α} {xs : List (Option α)} {vs : List α} (h : collect (x :: xs) = some vs) :
    ∃ v vs', x = some v ∧ collect xs = some vs' ∧ vs = v :: vs' := by
  cases x with
  | none => simp [collect] at h
  | some v =>
    rw [collect, Option.map_eq_some_iff] at h
    obtain ⟨vs', h1, h2⟩ := h
    exact ⟨v, vs', rfl, h1, h2.symm⟩

section
variable {C : Codec β} {norm : Name → Bool → Bool → J β → J β} {s : Ser} {k : Nat}

theorem getField_pick (o : List (Name × J β)) (f : Field) : getField o f = pick o f := by
  induction o with
  | nil => rfl
  | cons x o ih =>
    obtain ⟨n, v⟩ := x
    rw [pick, ← ih]
    unfold getField
    by_cases h : n = f.name
    · simp [List.find?, h]
    · have : (n == f.name) = false := by simpa using h
      simp [List.find?, this, h]

theorem packFields_missing (pk : Name → J β → Pk) (o : List (Name × J β)) (f : Field) (h : pick o f = none) :
    ∀ (fs : List Field), f ∈ fs → ∀ bytes, packFields pk o fs ≠ .ok bytes := by
  intro fs
  induction fs with
  | nil => intro hf; cases hf
  | cons g fs ih =>
    intro hf bytes hp
    rw [packFields, getField_pick] at hp
    rcases List.mem_cons.mp hf with rfl | hf
    · rw [h] at hp; cases hp
    · split at hp
      · cases hp
      · obtain ⟨x, y, _, hy, _⟩ := Pk.append_ok hp
        exact ih hf _ hy

theorem elems_round (ih : ∀ t j bytes rest j', varToBin C s k t j = .ok bytes → canon norm s k t j = some j' →
      binToVar C s k t (bytes ++ rest) = .ok j' rest) (f : Name) (l : List (J β)) :
    ∀ bytes rest vs, packElems (varToBin C s k f) l = .ok bytes →
      collect (l.map (canon norm s k f)) = some vs → vs.any J.isNull = false →
      readElems (binToVar C s k f) l.length (bytes ++ rest) = .ok vs rest := by
  induction l with
  | nil =>
    intro bytes rest vs hp hc _
    simp [packElems] at hp; simp [collect] at hc
    subst hp hc; rfl
  | cons j js ihl =>
    intro bytes rest vs hp hc hn
    obtain ⟨x, y, hx, hy, rfl⟩ := Pk.append_ok hp
    obtain ⟨v, vs', hv, hvs, rfl⟩ := collect_cons hc
    simp only [List.any_cons, Bool.or_eq_false_iff] at hn
    rw [List.length_cons, readElems, List.append_assoc, ih _ _ _ _ _ hx hv]
    simp only [Rd.bind, hn.1, ihl y rest vs' hy hvs hn.2]
    rfl

theorem fields_round (ih : ∀ t j bytes rest j', varToBin C s k t j = .ok bytes → canon norm s k t j = some j' →
      binToVar C s k t (bytes ++ rest) = .ok j' rest) (o : List (Name × J β)) (fs : List Field) :
    ∀ bytes rest vs, packFields (varToBin C s k) o fs = .ok bytes →
      collect (fs.map fun f => (pick o f).bind (canon norm s k (removeExt f.type))) = some vs →
      readFields (binToVar C s k) fs (bytes ++ rest) = .ok (named (fs.zip vs)) rest := by
  induction fs with
  | nil =>
    intro bytes rest vs hp hc
    simp [packFields] at hp; simp [collect] at hc
    subst hp hc; rfl
  | cons f fs ihl =>
    intro bytes rest vs hp hc
    obtain ⟨v, vs', hv, hvs, rfl⟩ := collect_cons hc
    rw [packFields, getField_pick] at hp
    cases hg : pick o f with
    | none => rw [hg] at hp; cases hp
    | some j =>
      rw [hg] at hp
      replace hv : (pick o f).bind (canon norm s k (removeExt f.type)) = some v := hv
      rw [hg] at hv
      obtain ⟨x, y, hx, hy, rfl⟩ := Pk.append_ok hp
      rw [readFields, List.append_assoc, ih _ _ _ _ _ hx hv]
      simp only [Rd.bind, ihl y rest vs' hy hvs, List.zip_cons_cons, named]

theorem arr_round (ih : ∀ t j bytes rest j', varToBin C s k t j = .ok bytes → canon norm s k t j = some j' →
      binToVar C s k t (bytes ++ rest) = .ok j' rest) (fs : List Field) :
    ∀ (l : List (J β)) bytes rest vs, l.length = fs.length → packArr (varToBin C s k) fs l = .ok bytes →
      collect ((fs.zip l).map fun p => canon norm s k (removeExt p.1.type) p.2) = some vs →
      readFields (binToVar C s k) fs (bytes ++ rest) = .ok (named (fs.zip vs)) rest := by
  induction fs with
  | nil =>
    intro l bytes rest vs hl hp hc
    cases l with
    | cons _ _ => simp at hl
    | nil =>
      simp [packArr] at hp; simp [collect] at hc
      subst hp hc; rfl
  | cons f fs ihl =>
    intro l bytes rest vs hl hp hc
    cases l with
    | nil => simp at hl
    | cons j js =>
      obtain ⟨v, vs', hv, hvs, rfl⟩ := collect_cons hc
      obtain ⟨x, y, hx, hy, rfl⟩ := Pk.append_ok hp
      rw [readFields, List.append_assoc, ih _ _ _ _ _ hx hv]
      simp only [Rd.bind, ihl js y rest vs' (by simpa using hl) hy hvs, List.zip_cons_cons, named]
end

theorem json_round (C : Codec β) (norm : Name → Bool → Bool → J β → J β) (hC : C.Lawful norm) (s : Ser) :
    ∀ k t j bytes rest j', varToBin C s k t j = .ok bytes → canon norm s k t j = some j' →
      binToVar C s k t (bytes ++ rest) = .ok j' rest := by
  intro k
  induction k with
  | zero => intro t j bytes rest j' h; simp [varToBin] at h
  | succ k ih =>
    intro t j bytes rest j' hp hc
    rw [varToBin.eq_def] at hp
    rw [canon.eq_def] at hc
    rw [binToVar]
    dsimp only at hp hc
    by_cases hb : isBuiltin (fundamental (s.resolve t)) = true
    · rw [if_pos hb] at hp hc ⊢
      split at hp
      · cases hp
      · next bs hbs =>
        cases hp; cases hc
        rw [hC _ _ _ _ _ _ hbs]
    · rw [if_neg hb] at hp hc ⊢
      by_cases ha : isArray (s.resolve t) = true
      · rw [if_pos ha] at hp hc ⊢
        cases j with
        | arr l =>
          dsimp only at hp hc
          split at hc
          · next hl =>
            split at hc
            · next vs hvs =>
              split at hc
              · cases hc
              · next hn =>
                cases hc
                obtain ⟨x, y, hx, hy, rfl⟩ := Pk.append_ok hp
                cases hx
                rw [List.append_assoc, getVar_put (by omega)]
                dsimp only
                rw [if_pos hl, elems_round ih _ _ _ _ _ hy hvs (by simpa using hn)]
                rfl
            · cases hc
          · cases hc
        | _ => cases hp
      · rw [if_neg ha] at hp hc ⊢
        by_cases ho : isOpt (s.resolve t) = true
        · rw [if_pos ho] at hc; cases hc
        · rw [if_neg ho] at hc ⊢
          cases hS : s.findS (s.resolve t) with
          | none => rw [hS] at hp; cases hp
          | some st =>
            rw [hS] at hp hc
            cases j with
            | obj o =>
              dsimp only at hp hc ⊢
              obtain ⟨x, y, hx, hy, rfl⟩ := Pk.append_ok hp
              split at hc
              · next b vs hbv hvs =>
                cases hc
                have key : (if st.base = [] then Rd.ok [] (x ++ (y ++ rest))
                    else (binToVar C s k (s.resolve st.base) (x ++ (y ++ rest))).bind fun j r' =>
                      .ok (baseObj st.base j) r') = .ok (baseObj st.base b) (y ++ rest) := by
                  by_cases hbase : st.base = []
                  · rw [if_pos hbase] at hx hbv ⊢
                    cases hx; cases hbv; rfl
                  · rw [if_neg hbase] at hx hbv ⊢
                    rw [ih _ _ _ _ _ hx hbv]; rfl
                rw [List.append_assoc, key]
                simp only [Rd.bind, fields_round ih _ _ _ _ _ hy hvs]
              · cases hc
            | arr l =>
              dsimp only at hp hc ⊢
              split at hp
              · next hl =>
                split at hc
                · next vs hvs =>
                  cases hc
                  rw [if_pos hl.1]
                  simp only [Rd.bind, arr_round ih _ _ _ _ _ hl.2 hp hvs, List.nil_append]
                · cases hc
              · cases hp
            | null => cases hp
            | prim v => cases hp

end Verif.Abi
