import Verif.Gov.Model

/-!
# Lemmas about search trees
-/
namespace Verif.Gov

variable {K V : Type}

/-- Every key satisfies `P`. -/
def Tree.All (P : K → Prop) : Tree K V → Prop
  | .leaf => True
  | .node l k _ r => l.All P ∧ P k ∧ r.All P

/-- A search tree. -/
def Tree.Ordered (lt : K → K → Bool) : Tree K V → Prop
  | .leaf => True
  | .node l k _ r => l.All (fun x => lt x k = true) ∧ r.All (fun x => lt k x = true) ∧ l.Ordered lt ∧ r.Ordered lt

/-- The value under a key, by a plain search. -/
def Tree.get (lt : K → K → Bool) : Tree K V → K → Option V
  | .leaf, _ => none
  | .node l k v r, q => if lt k q then r.get lt q else if lt q k then l.get lt q else some v

variable {lt : K → K → Bool}

theorem Tree.get_none (h : StrictTotal lt) {q : K} : ∀ {t : Tree K V}, t.Ordered lt →
    (t.All (fun x => lt x q = true) ∨ t.All (fun x => lt q x = true)) → t.get lt q = none := by
  intro t
  induction t with
  | leaf => intro _ _; rfl
  | node l k v r ihl ihr =>
    rintro ⟨_, _, ol, or⟩ ha
    simp only [Tree.get]
    rcases ha with ⟨_, a2, a3⟩ | ⟨a1, a2, _⟩
    · rw [if_pos a2]; exact ihr or (Or.inl a3)
    · have : ¬ lt k q = true := by
        intro hk
        have := h.trans _ _ _ hk a2
        rw [h.irrefl] at this; cases this
      rw [if_neg this, if_pos a2]
      exact ihl ol (Or.inr a1)

theorem Tree.lower_spec (h : StrictTotal lt) {q : K} : ∀ {t : Tree K V} (best : Option (K × V)), t.Ordered lt →
    (∀ v, t.get lt q = some v → t.lower lt q best = some (q, v)) ∧
    (t.get lt q = none → t.lower lt q best = best ∨
      ∃ k v, t.lower lt q best = some (k, v) ∧ lt q k = true ∧ ∀ P : K → Prop, t.All P → P k) := by
  intro t
  induction t with
  | leaf => intro best _; exact ⟨fun v hv => (by cases hv), fun _ => Or.inl rfl⟩
  | node l k v r ihl ihr =>
    rintro best ⟨al, ar, ol, or⟩
    simp only [Tree.get, Tree.lower]
    by_cases h1 : lt k q = true
    · rw [if_pos h1, if_pos h1]
      obtain ⟨a, b⟩ := ihr best or
      refine ⟨a, fun hn => ?_⟩
      rcases b hn with hb | ⟨k', v', e1, e2, e3⟩
      · exact Or.inl hb
      · exact Or.inr ⟨k', v', e1, e2, fun P hP => e3 P hP.2.2⟩
    · rw [if_neg h1, if_neg h1]
      obtain ⟨a, b⟩ := ihl (some (k, v)) ol
      by_cases h2 : lt q k = true
      · rw [if_pos h2]
        refine ⟨a, fun hn => Or.inr ?_⟩
        rcases b hn with hb | ⟨k', v', e1, e2, e3⟩
        · exact ⟨k, v, hb, h2, fun P hP => hP.2.1⟩
        · exact ⟨k', v', e1, e2, fun P hP => e3 P hP.1⟩
      · rw [if_neg h2]
        have hkq : k = q := h.total k q (by simpa using h1) (by simpa using h2)
        subst hkq
        refine ⟨fun w hw => ?_, fun hn => (by cases hn)⟩
        cases hw
        have hn := Tree.get_none h ol (q := k) (Or.inl al)
        rcases b hn with hb | ⟨k', v', e1, e2, e3⟩
        · exact hb
        · have := e3 _ al
          have := h.trans _ _ _ e2 this
          rw [h.irrefl] at this; cases this

theorem Tree.find_eq_get (h : StrictTotal lt) {t : Tree K V} (ho : t.Ordered lt) (q : K) :
    t.find lt q = t.get lt q := by
  obtain ⟨a, b⟩ := Tree.lower_spec h (q := q) none ho
  unfold Tree.find
  cases hg : t.get lt q with
  | some v =>
    rw [a v hg]
    simp [h.irrefl]
  | none =>
    rcases b hg with hb | ⟨k, v, e1, e2, _⟩
    · rw [hb]
    · rw [e1]; simp [e2]

theorem Tree.emplace_spec (h : StrictTotal lt) {q : K} {v : V} : ∀ {t : Tree K V} (pred : Option K), t.Ordered lt →
    (∀ j, pred = some j → lt j q = true) → t.get lt q = none →
    ∃ t', t.emplace lt q v pred = some t' ∧ t'.Ordered lt ∧ (∀ P : K → Prop, t.All P → P q → t'.All P) ∧
      t'.get lt q = some v ∧ ∀ x, x ≠ q → t'.get lt x = t.get lt x := by
  intro t
  induction t with
  | leaf =>
    intro pred _ hp _
    have hget : ∀ x, x ≠ q → (Tree.node .leaf q v .leaf : Tree K V).get lt x = none := by
      intro x hx
      simp only [Tree.get]
      by_cases h1 : lt q x = true
      · rw [if_pos h1]
      · rw [if_neg h1]
        by_cases h2 : lt x q = true
        · rw [if_pos h2]
        · exact absurd (h.total x q (by simpa using h2) (by simpa using h1)) hx
    have hself : (Tree.node .leaf q v .leaf : Tree K V).get lt q = some v := by
      simp [Tree.get, h.irrefl]
    refine ⟨.node .leaf q v .leaf, ?_, ⟨trivial, trivial, trivial, trivial⟩, fun P _ hq => ⟨trivial, hq, trivial⟩, hself,
      hget⟩
    cases pred with
    | none => rfl
    | some j => simp [Tree.emplace, hp j rfl]
  | node l k w r ihl ihr =>
    rintro pred ⟨al, ar, ol, or⟩ hp hg
    simp only [Tree.get] at hg
    by_cases h2 : lt q k = true
    · have h1 : ¬ lt k q = true := by
        intro hk
        have := h.trans _ _ _ hk h2
        rw [h.irrefl] at this; cases this
      rw [if_neg h1, if_pos h2] at hg
      obtain ⟨l', e1, e2, e3, e4, e5⟩ := ihl pred ol hp hg
      refine ⟨.node l' k w r, by simp [Tree.emplace, h2, e1], ⟨e3 _ al h2, ar, e2, or⟩,
        fun P hP hq => ⟨e3 P hP.1 hq, hP.2.1, hP.2.2⟩, ?_, ?_⟩
      · simp only [Tree.get]; rw [if_neg h1, if_pos h2]; exact e4
      · intro x hx
        simp only [Tree.get]
        rw [e5 x hx]
    · have h1 : lt k q = true := by
        by_cases hk : lt k q = true
        · exact hk
        · rw [if_neg hk, if_neg h2] at hg
          cases hg
      rw [if_pos h1] at hg
      obtain ⟨r', e1, e2, e3, e4, e5⟩ := ihr (some k) or (fun j hj => by cases hj; exact h1) hg
      refine ⟨.node l k w r', by simp [Tree.emplace, h2, e1], ⟨al, e3 _ ar h1, ol, e2⟩,
        fun P hP hq => ⟨hP.1, hP.2.1, e3 P hP.2.2 hq⟩, ?_, ?_⟩
      · simp only [Tree.get]; rw [if_pos h1]; exact e4
      · intro x hx
        simp only [Tree.get]
        rw [e5 x hx]

theorem Tree.assign_all {q : K} {v : V} {P : K → Prop} : ∀ {t : Tree K V}, t.All P → (t.assign lt q v).All P := by
  intro t
  induction t with
  | leaf => intro h; exact h
  | node l k w r ihl ihr =>
    rintro ⟨a, b, c⟩
    simp only [Tree.assign]
    split
    · exact ⟨a, b, ihr c⟩
    · split
      · exact ⟨ihl a, b, c⟩
      · exact ⟨a, b, c⟩

theorem Tree.assign_spec (h : StrictTotal lt) {q : K} {v : V} : ∀ {t : Tree K V}, t.Ordered lt →
    (t.get lt q).isSome = true →
    (t.assign lt q v).Ordered lt ∧ (t.assign lt q v).get lt q = some v ∧
      ∀ x, x ≠ q → (t.assign lt q v).get lt x = t.get lt x := by
  intro t
  induction t with
  | leaf => intro _ hs; cases hs
  | node l k w r ihl ihr =>
    rintro ⟨al, ar, ol, or⟩ hs
    simp only [Tree.get] at hs
    simp only [Tree.assign]
    by_cases h1 : lt k q = true
    · rw [if_pos h1] at hs
      obtain ⟨e1, e2, e3⟩ := ihr or hs
      rw [if_pos h1]
      refine ⟨⟨al, Tree.assign_all ar, ol, e1⟩, ?_, fun x hx => ?_⟩
      · simp only [Tree.get]; rw [if_pos h1]; exact e2
      · simp only [Tree.get]; rw [e3 x hx]
    · rw [if_neg h1] at hs ⊢
      by_cases h2 : lt q k = true
      · rw [if_pos h2] at hs
        obtain ⟨e1, e2, e3⟩ := ihl ol hs
        rw [if_pos h2]
        refine ⟨⟨Tree.assign_all al, ar, e1, or⟩, ?_, fun x hx => ?_⟩
        · simp only [Tree.get]; rw [if_neg h1, if_pos h2]; exact e2
        · simp only [Tree.get]; rw [e3 x hx]
      · rw [if_neg h2]
        have hkq : k = q := h.total k q (by simpa using h1) (by simpa using h2)
        subst hkq
        refine ⟨⟨al, ar, ol, or⟩, ?_, fun x hx => ?_⟩
        · simp only [Tree.get]; rw [if_neg h1, if_neg h1]
        · simp only [Tree.get]
          by_cases h3 : lt k x = true
          · rw [if_pos h3, if_pos h3]
          · rw [if_neg h3, if_neg h3]
            by_cases h4 : lt x k = true
            · rw [if_pos h4, if_pos h4]
            · exact absurd (h.total x k (by simpa using h4) (by simpa using h3)) hx

end Verif.Gov
