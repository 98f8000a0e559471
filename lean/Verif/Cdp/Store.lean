import Verif.Cdp.Model
import Verif.Util.SSum
/-! The store of positions: totals and indexes agree with the positions. -/
namespace Verif.Cdp

open Verif.Account Verif.Ledger Verif.Dbl

theorem ltN_total : StrictTotal ltN := by
  refine ⟨?_, ?_, ?_⟩ <;> intros <;> simp_all [ltN] <;> omega

theorem ltH_total : StrictTotal ltH := by
  refine ⟨?_, ?_, ?_⟩
  · intro a; simp [ltH]
  · intro a b c; simp only [ltH, decide_eq_true_eq]; omega
  · intro a b; simp only [ltH, decide_eq_false_iff_not]; intro h1 h2
    exact Prod.ext (by omega) (by omega)

theorem ltR_total : StrictTotal ltR := by
  refine ⟨?_, ?_, ?_⟩
  · intro a; simp [ltR]
  · intro a b c; simp only [ltR, decide_eq_true_eq]; omega
  · intro a b; simp only [ltR, decide_eq_false_iff_not]; intro h1 h2
    exact Prod.ext (by omega) (Prod.ext (by omega) (by omega))

/-- Collateral and debt of the open positions of a pair. -/
def stakedOf (l : List (Nat × Cdp)) (p : Pair) : Int := ssum (fun _ c => if c.pair = p then (c.staked : Int) else 0) l
def owedOf (l : List (Nat × Cdp)) (p : Pair) : Int := ssum (fun _ c => if c.pair = p then (c.owed : Int) else 0) l
/-- Collateral in coin `s` of the open positions of account `r`. -/
def lockedOf (l : List (Nat × Cdp)) (r : Ref) (s : Sym) : Int :=
  ssum (fun _ c => if c.owner = r ∧ c.bcoin = s then (c.staked : Int) else 0) l
/-- All debt in stable coin `s`. -/
def debtOf (l : List (Nat × Cdp)) (s : Sym) : Int := ssum (fun _ c => if c.scoin = s then (c.owed : Int) else 0) l

/-- An index of one pair contains exactly the open positions of the pair, each under its own key. -/
def IdxOk {K : Type} [DecidableEq K] (key : Cdp → K) (cdps : List (Nat × Cdp)) (p : Pair) (idx : List (K × Cdp)) : Prop :=
  ∀ q c, find idx q = some c ↔ find cdps c.id = some c ∧ c.pair = p ∧ key c = q

/-- Totals and indexes agree with the positions. -/
structure Good (k : Conv) (σ : St) : Prop where
  sorted : SortedBy ltN σ.cdps
  ids : ∀ id c, find σ.cdps id = some c → c.id = id
  rs : ∀ p, SortedBy ltR (σ.ridx p)
  hs : ∀ p, SortedBy ltH (σ.hidx p)
  ridx : ∀ p, IdxOk (rkey k) σ.cdps p (σ.ridx p)
  hidx : ∀ p, IdxOk hkey σ.cdps p (σ.hidx p)
  user : ∀ o p id, σ.user (o, p) = some id ↔ ∃ c, find σ.cdps id = some c ∧ c.owner = o ∧ c.pair = p
  g1 : ∀ p, ((σ.glob p).1 : Int) = stakedOf σ.cdps p % U64
  g2 : ∀ p, ((σ.glob p).2 : Int) = owedOf σ.cdps p % U64

section idx
variable {K : Type} [DecidableEq K] {key : Cdp → K} {lt : K → K → Bool} {cdps : List (Nat × Cdp)} {p : Pair} {idx : List (K × Cdp)}

theorem idx_new (hk : ∀ a b, key a = key b → a.id = b.id) (H : IdxOk key cdps p idx) {n : Cdp} (hn : find cdps n.id = none)
    (hp : n.pair = p) : IdxOk key (put ltN cdps n.id n) p (put lt idx (key n) n) := by
  intro q c
  rw [find_put, find_put]
  by_cases h1 : q = key n
  · rw [if_pos h1]
    by_cases h2 : c.id = n.id
    · rw [if_pos h2]
      constructor
      · intro h; cases h; exact ⟨rfl, hp, h1.symm⟩
      · intro h; exact h.1
    · rw [if_neg h2]
      constructor
      · intro h; cases h; exact absurd rfl h2
      · intro h; exact absurd (hk _ _ (h.2.2.trans h1)) h2
  · rw [if_neg h1, H q c]
    by_cases h2 : c.id = n.id
    · rw [if_pos h2]
      constructor
      · intro h; rw [h2, hn] at h; cases h.1
      · intro h; obtain ⟨e, -, e3⟩ := h; cases e; exact absurd e3.symm h1
    · rw [if_neg h2]

theorem idx_other_put (H : IdxOk key cdps p idx) {n : Cdp} (hn : ∀ c, find cdps n.id = some c → c.pair ≠ p)
    (hp : n.pair ≠ p) : IdxOk key (put ltN cdps n.id n) p idx := by
  intro q c
  rw [H q c, find_put]
  by_cases h2 : c.id = n.id
  · rw [if_pos h2]
    constructor
    · intro h; rw [h2] at h; exact absurd h.2.1 (hn c h.1)
    · intro h; obtain ⟨e, e2, -⟩ := h; cases e; exact absurd e2 hp
  · rw [if_neg h2]

theorem idx_other_del (H : IdxOk key cdps p idx) {n : Cdp} (hn : ∀ c, find cdps n.id = some c → c.pair ≠ p) :
    IdxOk key (del cdps n.id) p idx := by
  intro q c
  rw [H q c, find_del]
  by_cases h2 : c.id = n.id
  · rw [if_pos h2]
    constructor
    · intro h; rw [h2] at h; exact absurd h.2.1 (hn c h.1)
    · intro h; cases h.1
  · rw [if_neg h2]

theorem idx_del (hk : ∀ a b, key a = key b → a.id = b.id) (H : IdxOk key cdps p idx) {o : Cdp} (ho : find cdps o.id = some o) :
    IdxOk key (del cdps o.id) p (del idx (key o)) := by
  intro q c
  rw [find_del, find_del]
  by_cases h1 : q = key o
  · rw [if_pos h1]
    by_cases h2 : c.id = o.id
    · rw [if_pos h2]; simp
    · rw [if_neg h2]
      constructor
      · intro h; cases h
      · intro h; exact absurd (hk _ _ (h.2.2.trans h1)) h2
  · rw [if_neg h1, H q c]
    by_cases h2 : c.id = o.id
    · rw [if_pos h2]
      constructor
      · intro h; rw [h2, ho] at h; cases h.1; exact absurd h.2.2.symm h1
      · intro h; cases h.1
    · rw [if_neg h2]

/-- Replacing a position: drop the old key, add the new one. -/
theorem idx_update (hk : ∀ a b, key a = key b → a.id = b.id) (H : IdxOk key cdps p idx) {o n : Cdp} (ho : find cdps o.id = some o)
    (hid : n.id = o.id) (hp : n.pair = p) :
    IdxOk key (put ltN cdps n.id n) p (put lt (del idx (key o)) (key n) n) := by
  intro q c
  rw [find_put, find_del, find_put]
  by_cases h1 : q = key n
  · rw [if_pos h1]
    by_cases h2 : c.id = n.id
    · rw [if_pos h2]
      constructor
      · intro h; cases h; exact ⟨rfl, hp, h1.symm⟩
      · intro h; exact h.1
    · rw [if_neg h2]
      constructor
      · intro h; cases h; exact absurd rfl h2
      · intro h; exact absurd (hk _ _ (h.2.2.trans h1)) h2
  · rw [if_neg h1]
    by_cases h3 : q = key o
    · rw [if_pos h3]
      by_cases h2 : c.id = n.id
      · rw [if_pos h2]
        constructor
        · intro h; cases h
        · intro h; obtain ⟨e, -, e3⟩ := h; cases e; exact absurd e3.symm h1
      · rw [if_neg h2]
        constructor
        · intro h; cases h
        · intro h; exact absurd ((hk _ _ (h.2.2.trans h3)).trans hid.symm) h2
    · rw [if_neg h3, H q c]
      by_cases h2 : c.id = n.id
      · rw [if_pos h2]
        constructor
        · intro h; rw [h2, hid, ho] at h; cases h.1; exact absurd h.2.2.symm h3
        · intro h; obtain ⟨e, -, e3⟩ := h; cases e; exact absurd e3.symm h1
      · rw [if_neg h2]

end idx

theorem rkey_id (k : Conv) (a b : Cdp) (h : rkey k a = rkey k b) : a.id = b.id := by
  have := congrArg (fun x => x.2.2) h
  exact this

theorem hkey_id (a b : Cdp) (h : hkey a = hkey b) : a.id = b.id := congrArg (fun x => x.2) h

theorem wadd_emod {a b : Nat} {X : Int} (h : (a : Int) = X % U64) : (wadd a b : Int) = (X + b) % U64 := by
  unfold wadd U64 at *; omega

theorem wsub_emod {a b : Nat} {X : Int} (h : (a : Int) = X % U64) : (wsub a b : Int) = (X - b) % U64 := by
  unfold wsub U64 at *; omega

theorem newCDP_good {k : Conv} {σ : St} {c : Cdp} (G : Good k σ) (hn : find σ.cdps c.id = none)
    (hu : σ.user (c.owner, c.pair) = none) : Good k (newCDP k σ c) := by
  refine ⟨sorted_put ltN_total G.sorted _ _, ?_, ?_, ?_, ?_, ?_, ?_, ?_, ?_⟩
  · intro id x hx
    simp only [newCDP, saveIdx] at hx
    rw [find_put] at hx
    split at hx
    · rename_i h; cases hx; exact h.symm
    · exact G.ids _ _ hx
  · intro p; simp only [newCDP, saveIdx]; split
    · exact sorted_put ltR_total (G.rs p) _ _
    · exact G.rs p
  · intro p; simp only [newCDP, saveIdx]; split
    · exact sorted_put ltH_total (G.hs p) _ _
    · exact G.hs p
  · intro p; simp only [newCDP, saveIdx]; split
    · rename_i h; exact idx_new (rkey_id k) (G.ridx p) hn h.symm
    · rename_i h; exact idx_other_put (G.ridx p) (fun x hx => by rw [hn] at hx; cases hx) (fun e => h e.symm)
  · intro p; simp only [newCDP, saveIdx]; split
    · rename_i h; exact idx_new hkey_id (G.hidx p) hn h.symm
    · rename_i h; exact idx_other_put (G.hidx p) (fun x hx => by rw [hn] at hx; cases hx) (fun e => h e.symm)
  · intro o p id
    simp only [newCDP, saveIdx]
    split
    · rename_i h
      obtain ⟨rfl, rfl⟩ := Prod.mk.inj h
      constructor
      · intro e; cases e; exact ⟨c, by rw [find_put, if_pos rfl], rfl, rfl⟩
      · rintro ⟨x, hx, ho, hp⟩
        rw [find_put] at hx
        split at hx
        · rename_i e; rw [e]
        · have := (G.user c.owner c.pair id).2 ⟨x, hx, ho, hp⟩
          rw [hu] at this; cases this
    · rename_i h
      rw [G.user]
      constructor
      · rintro ⟨x, hx, ho, hp⟩
        refine ⟨x, ?_, ho, hp⟩
        rw [find_put, if_neg]
        · exact hx
        · rintro rfl; rw [hn] at hx; cases hx
      · rintro ⟨x, hx, ho, hp⟩
        rw [find_put] at hx
        split at hx
        · cases hx; exact absurd (by rw [← ho, ← hp]) h
        · exact ⟨x, hx, ho, hp⟩
  · intro p
    simp only [newCDP, saveIdx, stakedOf]
    rw [ssum_put ltN_total _ G.sorted, at0_none hn]
    have := G.g1 p
    unfold stakedOf at this
    split
    · rename_i h; rw [if_pos h.symm]; simp only [Int.sub_zero]; exact wadd_emod this
    · rename_i h; rw [if_neg (fun e => h e.symm)]; simpa using this
  · intro p
    simp only [newCDP, saveIdx, owedOf]
    rw [ssum_put ltN_total _ G.sorted, at0_none hn]
    have := G.g2 p
    unfold owedOf at this
    split
    · rename_i h; rw [if_pos h.symm]; simp only [Int.sub_zero]; exact wadd_emod this
    · rename_i h; rw [if_neg (fun e => h e.symm)]; simpa using this

theorem eraseCDP_good {k : Conv} {σ : St} {c : Cdp} (G : Good k σ) (hc : find σ.cdps c.id = some c) : Good k (eraseCDP k σ c) := by
  refine ⟨sorted_del G.sorted _, ?_, ?_, ?_, ?_, ?_, ?_, ?_, ?_⟩
  · intro id x hx
    simp only [eraseCDP, eraseIdx] at hx
    rw [find_del] at hx
    split at hx
    · cases hx
    · exact G.ids _ _ hx
  · intro p; simp only [eraseCDP, eraseIdx]; split
    · exact sorted_del (G.rs p) _
    · exact G.rs p
  · intro p; simp only [eraseCDP, eraseIdx]; split
    · exact sorted_del (G.hs p) _
    · exact G.hs p
  · intro p; simp only [eraseCDP, eraseIdx]; split
    · exact idx_del (rkey_id k) (G.ridx p) hc
    · rename_i h; exact idx_other_del (G.ridx p) (fun x hx => by rw [hc] at hx; cases hx; exact fun e => h e.symm)
  · intro p; simp only [eraseCDP, eraseIdx]; split
    · exact idx_del hkey_id (G.hidx p) hc
    · rename_i h; exact idx_other_del (G.hidx p) (fun x hx => by rw [hc] at hx; cases hx; exact fun e => h e.symm)
  · intro o p id
    simp only [eraseCDP, eraseIdx]
    have huc : σ.user (c.owner, c.pair) = some c.id := (G.user _ _ _).2 ⟨c, hc, rfl, rfl⟩
    split
    · rename_i h
      obtain ⟨rfl, rfl⟩ := Prod.mk.inj h
      constructor
      · intro e; cases e
      · rintro ⟨x, hx, ho, hp⟩
        rw [find_del] at hx
        split at hx
        · cases hx
        · rename_i e
          have := (G.user c.owner c.pair id).2 ⟨x, hx, ho, hp⟩
          rw [huc] at this; cases this; exact absurd rfl e
    · rename_i h
      rw [G.user]
      constructor
      · rintro ⟨x, hx, ho, hp⟩
        refine ⟨x, ?_, ho, hp⟩
        rw [find_del, if_neg]
        · exact hx
        · rintro rfl; rw [hc] at hx; cases hx; exact h (by rw [ho, hp])
      · rintro ⟨x, hx, ho, hp⟩
        rw [find_del] at hx
        split at hx
        · cases hx
        · exact ⟨x, hx, ho, hp⟩
  · intro p
    simp only [eraseCDP, eraseIdx, stakedOf]
    rw [ssum_del ltN_total _ G.sorted, at0_some hc]
    have := G.g1 p
    unfold stakedOf at this
    split
    · rename_i h; rw [if_pos h.symm]; exact wsub_emod this
    · rename_i h; rw [if_neg (fun e => h e.symm)]; simpa using this
  · intro p
    simp only [eraseCDP, eraseIdx, owedOf]
    rw [ssum_del ltN_total _ G.sorted, at0_some hc]
    have := G.g2 p
    unfold owedOf at this
    split
    · rename_i h; rw [if_pos h.symm]; exact wsub_emod this
    · rename_i h; rw [if_neg (fun e => h e.symm)]; simpa using this

theorem updateCDP_good {k : Conv} {σ : St} {o n : Cdp} (G : Good k σ) (ho : find σ.cdps o.id = some o)
    (hid : n.id = o.id) (how : n.owner = o.owner) (hpr : n.pair = o.pair) : Good k (updateCDP k σ o n) := by
  refine ⟨sorted_put ltN_total G.sorted _ _, ?_, ?_, ?_, ?_, ?_, ?_, ?_, ?_⟩
  · intro id x hx
    simp only [updateCDP, eraseIdx, saveIdx] at hx
    rw [find_put] at hx
    split at hx
    · rename_i h; cases hx; exact h.symm
    · exact G.ids _ _ hx
  · intro p; simp only [updateCDP, eraseIdx, saveIdx, hpr]; split
    · exact sorted_put ltR_total (sorted_del (G.rs p) _) _ _
    · exact G.rs p
  · intro p; simp only [updateCDP, eraseIdx, saveIdx, hpr]; split
    · exact sorted_put ltH_total (sorted_del (G.hs p) _) _ _
    · exact G.hs p
  · intro p; simp only [updateCDP, eraseIdx, saveIdx]
    by_cases h : p = o.pair
    · rw [if_pos (h.trans hpr.symm), if_pos h]; exact idx_update (rkey_id k) (G.ridx p) ho hid (hpr.trans h.symm)
    · rw [if_neg (fun e => h (e.trans hpr)), if_neg h]
      exact idx_other_put (G.ridx p) (fun x hx => by rw [hid, ho] at hx; cases hx; exact fun e => h e.symm) (fun e => h (e.symm.trans hpr))
  · intro p; simp only [updateCDP, eraseIdx, saveIdx]
    by_cases h : p = o.pair
    · rw [if_pos (h.trans hpr.symm), if_pos h]; exact idx_update hkey_id (G.hidx p) ho hid (hpr.trans h.symm)
    · rw [if_neg (fun e => h (e.trans hpr)), if_neg h]
      exact idx_other_put (G.hidx p) (fun x hx => by rw [hid, ho] at hx; cases hx; exact fun e => h e.symm) (fun e => h (e.symm.trans hpr))
  · intro w p id
    simp only [updateCDP, eraseIdx, saveIdx]
    rw [G.user]
    constructor
    · rintro ⟨x, hx, hw, hp⟩
      by_cases h : id = n.id
      · subst h
        rw [hid, ho] at hx; cases hx
        exact ⟨n, by rw [find_put, if_pos rfl], how.trans hw, hpr.trans hp⟩
      · exact ⟨x, by rw [find_put, if_neg h]; exact hx, hw, hp⟩
    · rintro ⟨x, hx, hw, hp⟩
      rw [find_put] at hx
      split at hx
      · rename_i h
        cases hx
        exact ⟨o, by rw [h, hid]; exact ho, how.symm.trans hw, hpr.symm.trans hp⟩
      · exact ⟨x, hx, hw, hp⟩
  · intro p
    simp only [updateCDP, eraseIdx, saveIdx, stakedOf]
    rw [ssum_put ltN_total _ G.sorted, hid, at0_some ho, hpr]
    have := G.g1 p
    unfold stakedOf at this
    by_cases h : p = o.pair
    · rw [if_pos h, if_pos h.symm, if_pos h, if_pos h.symm]; exact wadd_emod (wsub_emod this)
    · have h' : ¬ o.pair = p := fun e => h e.symm
      simp only [if_neg h, if_neg h']; simpa using this
  · intro p
    simp only [updateCDP, eraseIdx, saveIdx, owedOf]
    rw [ssum_put ltN_total _ G.sorted, hid, at0_some ho, hpr]
    have := G.g2 p
    unfold owedOf at this
    by_cases h : p = o.pair
    · rw [if_pos h, if_pos h.symm, if_pos h, if_pos h.symm]; exact wadd_emod (wsub_emod this)
    · have h' : ¬ o.pair = p := fun e => h e.symm
      simp only [if_neg h, if_neg h']; simpa using this

/-- Accounts play no role in `Good`. -/
theorem good_mem {k : Conv} {σ : St} (G : Good k σ) (m : Mem) : Good k { σ with mem := m } :=
  ⟨G.sorted, G.ids, G.rs, G.hs, G.ridx, G.hidx, G.user, G.g1, G.g2⟩

/-! Sums after changes. -/

theorem locked_new {σ : St} {k : Conv} {c : Cdp} (hs : SortedBy ltN σ.cdps) (hn : find σ.cdps c.id = none) (r : Ref) (s : Sym) :
    lockedOf (newCDP k σ c).cdps r s = lockedOf σ.cdps r s + if c.owner = r ∧ c.bcoin = s then (c.staked : Int) else 0 := by
  simp only [lockedOf, newCDP, saveIdx]
  rw [ssum_put ltN_total _ hs, at0_none hn]; omega

theorem locked_erase {σ : St} {k : Conv} {c : Cdp} (hs : SortedBy ltN σ.cdps) (hc : find σ.cdps c.id = some c) (r : Ref) (s : Sym) :
    lockedOf (eraseCDP k σ c).cdps r s = lockedOf σ.cdps r s - if c.owner = r ∧ c.bcoin = s then (c.staked : Int) else 0 := by
  simp only [lockedOf, eraseCDP, eraseIdx]
  rw [ssum_del ltN_total _ hs, at0_some hc]

theorem locked_update {σ : St} {k : Conv} {o n : Cdp} (hs : SortedBy ltN σ.cdps) (ho : find σ.cdps o.id = some o)
    (hid : n.id = o.id) (how : n.owner = o.owner) (hb : n.bcoin = o.bcoin) (r : Ref) (s : Sym) :
    lockedOf (updateCDP k σ o n).cdps r s =
      lockedOf σ.cdps r s + if o.owner = r ∧ o.bcoin = s then (n.staked : Int) - o.staked else 0 := by
  simp only [lockedOf, updateCDP, eraseIdx, saveIdx]
  rw [ssum_put ltN_total _ hs, hid, at0_some ho, how, hb]
  split <;> omega

theorem debt_new {σ : St} {k : Conv} {c : Cdp} (hs : SortedBy ltN σ.cdps) (hn : find σ.cdps c.id = none) (s : Sym) :
    debtOf (newCDP k σ c).cdps s = debtOf σ.cdps s + if c.scoin = s then (c.owed : Int) else 0 := by
  simp only [debtOf, newCDP, saveIdx]
  rw [ssum_put ltN_total _ hs, at0_none hn]; omega

theorem debt_erase {σ : St} {k : Conv} {c : Cdp} (hs : SortedBy ltN σ.cdps) (hc : find σ.cdps c.id = some c) (s : Sym) :
    debtOf (eraseCDP k σ c).cdps s = debtOf σ.cdps s - if c.scoin = s then (c.owed : Int) else 0 := by
  simp only [debtOf, eraseCDP, eraseIdx]
  rw [ssum_del ltN_total _ hs, at0_some hc]

theorem debt_update {σ : St} {k : Conv} {o n : Cdp} (hs : SortedBy ltN σ.cdps) (ho : find σ.cdps o.id = some o)
    (hid : n.id = o.id) (hb : n.scoin = o.scoin) (s : Sym) :
    debtOf (updateCDP k σ o n).cdps s = debtOf σ.cdps s + if o.scoin = s then (n.owed : Int) - o.owed else 0 := by
  simp only [debtOf, updateCDP, eraseIdx, saveIdx]
  rw [ssum_put ltN_total _ hs, hid, at0_some ho, hb]
  split <;> omega

theorem ssum_zero (l : List (Nat × Cdp)) : ssum (fun _ _ => (0 : Int)) l = 0 := by
  induction l with
  | nil => rfl
  | cons a r ih => obtain ⟨i, x⟩ := a; simp only [ssum, ih]; rfl

/-- When an account has one position per coin, what it has locked is that position's collateral. -/
theorem locked_single {l : List (Nat × Cdp)} (hs : SortedBy ltN l) {c : Cdp} (hc : find l c.id = some c)
    (hu : ∀ id x, find l id = some x → x.owner = c.owner → x.bcoin = c.bcoin → id = c.id) :
    lockedOf l c.owner c.bcoin = c.staked := by
  have h := ssum_del ltN_total (fun _ x => if x.owner = c.owner ∧ x.bcoin = c.bcoin then (x.staked : Int) else 0) hs c.id
  rw [at0_some hc, if_pos ⟨rfl, rfl⟩] at h
  have h0 : ssum (fun _ x => if x.owner = c.owner ∧ x.bcoin = c.bcoin then (x.staked : Int) else 0) (del l c.id) =
      ssum (fun _ _ => (0 : Int)) (del l c.id) := by
    apply ssum_congr
    rintro ⟨id, x⟩ hx
    have hf := (mem_iff_find ltN_total (sorted_del hs _) id x).1 hx
    rw [find_del] at hf
    split at hf
    · cases hf
    · rename_i hne
      exact if_neg (fun e => hne (hu id x hf e.1 e.2))
  rw [ssum_zero] at h0
  unfold lockedOf
  omega

theorem locked_none {l : List (Nat × Cdp)} (hs : SortedBy ltN l) {r : Ref} {s : Sym}
    (hu : ∀ id x, find l id = some x → ¬ (x.owner = r ∧ x.bcoin = s)) : lockedOf l r s = 0 := by
  unfold lockedOf
  have : ssum (fun _ x => if x.owner = r ∧ x.bcoin = s then (x.staked : Int) else 0) l = ssum (fun _ _ => (0 : Int)) l := by
    apply ssum_congr
    rintro ⟨id, x⟩ hx
    exact if_neg (hu id x ((mem_iff_find ltN_total hs id x).1 hx))
  rw [this, ssum_zero]

end Verif.Cdp
