import Verif.DexOp.Lemmas

/-!
# Properties of the register of exchange operators (C120-C124)

`o` is the account the configuration names as owner of operator 0. All statements are about `run o (genesis m) es`: any sequence of
registrations, changes and governance switches, successful or not, from an empty register.
-/
namespace Verif.DexOp

open Verif.Account Verif.Ledger

/-- Number of registrations tried. -/
def regs (es : List Ev) : Nat := (es.filter (fun e => match e with | .register .. => true | _ => false)).length

theorem regs_append (a b : List Ev) : regs (a ++ b) = regs a + regs b := by simp [regs]

/-! ## C120: the index by owner is exact -/

/-- Looking an operator up by its owner finds exactly the operators of that owner. -/
theorem owner_lookup_exact (o : Ref) (m : Mem) (es : List Ev) (r : Ref) (id : Nat) :
    byOwner o (run o (genesis m) es) r = some id ↔ ∃ d, getOper o (run o (genesis m) es) id = some d ∧ d.owner = r := by
  have hI := run_inv es (genesis_inv o m)
  constructor
  · exact byOwner_sound hI
  · rintro ⟨d, hd, rfl⟩
    exact hI.found id d hd

/-- No account owns two operators. -/
theorem one_operator_per_account (o : Ref) (m : Mem) (es : List Ev) (i j : Nat) (a b : Oper)
    (ha : getOper o (run o (genesis m) es) i = some a) (hb : getOper o (run o (genesis m) es) j = some b)
    (hab : a.owner = b.owner) : i = j := by
  have hI := run_inv es (genesis_inv o m)
  have h1 := hI.found i a ha
  have h2 := hI.found j b hb
  rw [hab, h2] at h1
  injection h1 with h1
  exact h1.symm

/-- The test for an existing operator is right in both directions. -/
theorem owner_test_exact (o : Ref) (m : Mem) (es : List Ev) (r : Ref) :
    hasByOwner o (run o (genesis m) es) r = true ↔ ∃ id d, getOper o (run o (genesis m) es) id = some d ∧ d.owner = r := by
  have hI := run_inv es (genesis_inv o m)
  rw [hasByOwner_iff hI, Option.isSome_iff_exists]
  constructor
  · rintro ⟨id, h⟩; exact ⟨id, byOwner_sound hI h⟩
  · rintro ⟨id, d, hd, rfl⟩; exact ⟨id, hI.found id d hd⟩

/-! ## C121: who changes an operator -/

/-- A field of the record differs only if it is the one the update names, and then it is what the update says. -/
structure OnlyBy (u : Upd) (d d' : Oper) : Prop where
  owner : d'.owner = d.owner ∨ u = .owner (.reg d'.owner)
  fee : d'.fee = d.fee ∨ u = .fee (.reg d'.fee)
  name : d'.name = d.name ∨ u = .name d'.name
  url : d'.url = d.url ∨ u = .url d'.url
  mode : d'.mode = d.mode ∨ u = .mode d'.mode
  maker : d'.maker = d.maker ∨ u = .maker d'.maker
  taker : d'.taker = d.taker ∨ u = .taker d'.taker
  openSet : d'.openSet = d.openSet ∨ ∃ is, u = .openList is ∧ d'.openSet.Nodup ∧ ∀ i, i ∈ d'.openSet ↔ i ∈ is
  memo : d'.memo = d.memo ∨ u = .memo d'.memo
  activated : d'.activated = d.activated

/-- The field the update names has the value it says. -/
def Done (u : Upd) (d : Oper) : Prop :=
  match u with
  | .owner v => v = .reg d.owner
  | .fee v => v = .reg d.fee
  | .name s => d.name = s
  | .url s => d.url = s
  | .mode b => d.mode = b
  | .maker v => d.maker = v
  | .taker v => d.taker = v
  | .openList is => ∀ i, i ∈ d.openSet ↔ i ∈ is
  | .memo s => d.memo = s

theorem updTo_only {d d' : Oper} {u : Upd} (h : updTo d u = some d') : OnlyBy u d d' ∧ Done u d' := by
  cases u with
  | owner u =>
    cases u with
    | reg r => simp only [updTo, Option.some.injEq] at h; subst h; exact ⟨by constructor <;> simp, rfl⟩
    | other r => simp [updTo] at h
  | fee u =>
    cases u with
    | reg r => simp only [updTo, Option.some.injEq] at h; subst h; exact ⟨by constructor <;> simp, rfl⟩
    | other r => simp [updTo] at h
  | openList is =>
    simp only [updTo, Option.some.injEq] at h
    subst h
    refine ⟨?_, fun i => by simp⟩
    constructor <;> simp [List.nodup_dedup]
  | _ => simp only [updTo, Option.some.injEq] at h; subst h; exact ⟨by constructor <;> simp, rfl⟩

/-- The register never runs past its last number. -/
structure Low (st : State) : Prop where
  dets : ∀ id d, st.dets id = some d → id ≤ st.last
  last : st.last < U32

theorem step_low {o : Ref} {st : State} (e : Ev) (hL : Low st) (hn : st.last + regs [e] < U32) :
    Low (step o st e) ∧ (step o st e).last ≤ st.last + regs [e] ∧ st.last ≤ (step o st e).last := by
  rcases step_cases o st e with ⟨_, h⟩ | h
  · rw [h]; exact ⟨hL, by omega, le_refl _⟩
  · revert h
    generalize step o st e = st'
    intro h
    have upd : ∀ id d d' m, getOper o st id = some d → (∀ i x, (update { st with mem := m } id d d').dets i = some x → i ≤ st.last) := by
      intro id d d' m hd i x hx
      unfold update setDet at hx
      simp only at hx
      split at hx
      · rename_i hid
        subst hid
        by_cases h0 : i = 0
        · omega
        · rw [getOper_ne h0] at hd
          exact hL.dets i d hd
      · apply hL.dets i x
        rw [← hx]
        split <;> rfl
    cases e with
    | register env who d =>
      obtain ⟨⟨set, hr⟩, _⟩ := register_some h
      have hone : regs [Ev.register env who d] = 1 := rfl
      rw [hone] at hn
      have hmod : (st.last + 1) % U32 = st.last + 1 := Nat.mod_eq_of_lt hn
      refine ⟨⟨?_, ?_⟩, ?_, ?_⟩
      · intro id x hx
        rw [hr.dets, hmod] at hx
        rw [hr.last, hmod]
        simp only at hx
        split at hx
        · omega
        · have := hL.dets id x hx; omega
      · rw [hr.last, hmod]; exact hn
      · rw [hr.last, hmod, hone]
      · rw [hr.last, hmod]; omega
    | change env who id u =>
      obtain ⟨d, d', hd, hc, _, hu, _, hl, he⟩ := change_some h
      have h0 : regs [Ev.change env who id u] = 0 := rfl
      refine ⟨⟨?_, by rw [hl]; exact hL.last⟩, by omega, by omega⟩
      intro i x hx
      rw [hl]
      exact upd id d d' st'.mem hd i x (he ▸ hx)
    | govern id on =>
      obtain ⟨_, d, hd, _, he, hl⟩ := govern_some h
      have h0 : regs [Ev.govern id on] = 0 := rfl
      refine ⟨⟨?_, by rw [hl]; exact hL.last⟩, by omega, by omega⟩
      intro i x hx
      rw [hl]
      exact upd id d { d with activated := on } st.mem hd i x (he ▸ hx)

theorem run_low {o : Ref} (m : Mem) (es : List Ev) (hn : regs es < U32) :
    Low (run o (genesis m) es) ∧ (run o (genesis m) es).last ≤ regs es := by
  induction es using List.reverseRecOn with
  | nil => exact ⟨⟨fun _ _ h => (by cases h), (by decide : 0 < U32)⟩, Nat.le_refl _⟩
  | append_singleton es e ih =>
    rw [regs_append] at hn ⊢
    obtain ⟨hL, hl⟩ := ih (by omega)
    rw [run_snoc]
    obtain ⟨h1, h2, _⟩ := step_low (o := o) e hL (by omega)
    exact ⟨h1, by omega⟩

/-- The three ways a step can go for one operator. -/
theorem step_oper {o : Ref} {st : State} (e : Ev) {id : Nat} {d : Oper} (hd : getOper o st id = some d) :
    ∃ d', getOper o (step o st e) id = some d' ∧ (d' = d ∨
      (∃ env u, e = .change env d.owner id u ∧ apply o st e = some (step o st e) ∧ OnlyBy u d d' ∧ Done u d') ∨
      (∃ on, e = .govern id on ∧ id ≠ 0 ∧ d.activated = !on ∧ d' = { d with activated := on }) ∨
      ((st.last + 1) % U32 = 0 ∧ id = 0 ∧ ∃ env who x, e = .register env who x)) := by
  rcases step_cases o st e with ⟨_, h⟩ | h
  · rw [h]; exact ⟨d, hd, .inl rfl⟩
  · have h' := h
    revert h
    generalize hs : step o st e = st' at h'
    intro h
    cases e with
    | register env who x =>
      obtain ⟨⟨set, hr⟩, _⟩ := register_some h
      by_cases hid : id = (st.last + 1) % U32
      · refine ⟨newOper x set, getOper_of_dets (by rw [hr.dets]; simp only; rw [if_pos hid]), ?_⟩
        right; right; right
        have h0 : id = 0 := by
          by_contra h0
          rw [getOper_ne h0, hid, hr.fresh] at hd
          cases hd
        exact ⟨by omega, h0, env, who, x, rfl⟩
      · refine ⟨d, ?_, .inl rfl⟩
        unfold getOper at hd ⊢
        rw [hr.dets]
        simp only [if_neg hid]
        exact hd
    | change env who i u =>
      obtain ⟨x, x', hx, hc, hw, hu, _, hl, he⟩ := change_some h
      have hg : ∀ j, getOper o st' j = if j = i then some x' else getOper o st j := fun j => by
        rw [he, getOper_update]; rfl
      by_cases hid : id = i
      · subst hid
        rw [hd] at hx
        cases hx
        refine ⟨x', by rw [hg, if_pos rfl], .inr (.inl ⟨env, u, by rw [hw], h', ?_⟩)⟩
        exact updTo_only hu
      · exact ⟨d, by rw [hg, if_neg hid]; exact hd, .inl rfl⟩
    | govern i on =>
      obtain ⟨h0, x, hx, ha, he, hl⟩ := govern_some h
      have hg : ∀ j, getOper o st' j = if j = i then some { x with activated := on } else getOper o st j := fun j => by
        rw [he, getOper_update]
      by_cases hid : id = i
      · subst hid
        rw [hd] at hx
        cases hx
        exact ⟨{ d with activated := on }, by rw [hg, if_pos rfl], .inr (.inr (.inl ⟨on, rfl, h0, ha, rfl⟩))⟩
      · exact ⟨d, by rw [hg, if_neg hid]; exact hd, .inl rfl⟩

/-- An operator never disappears, its terms are changed only by its owner and only in the one field named, and it is switched only by
governance. Missing for the full claim: fewer than 2^32 registrations. -/
theorem changed_only_by_owner_or_governance_partial (o : Ref) (m : Mem) (es : List Ev) (e : Ev) (hn : regs (es ++ [e]) < U32) (id : Nat)
    (d : Oper) (hd : getOper o (run o (genesis m) es) id = some d) :
    ∃ d', getOper o (run o (genesis m) (es ++ [e])) id = some d' ∧ (d' = d ∨
      (∃ env u, e = .change env d.owner id u ∧ OnlyBy u d d' ∧ Done u d') ∨
      (∃ on, e = .govern id on ∧ id ≠ 0 ∧ d' = { d with activated := on })) := by
  rw [run_snoc]
  rw [regs_append] at hn
  obtain ⟨d', h1, h2⟩ := step_oper e hd
  refine ⟨d', h1, ?_⟩
  rcases h2 with h2 | ⟨env, u, h2, _, h3⟩ | ⟨on, h2, h3, _, h4⟩ | ⟨h2, _, env, who, x, h3⟩
  · exact .inl h2
  · exact .inr (.inl ⟨env, u, h2, h3⟩)
  · exact .inr (.inr ⟨on, h2, h3, h4⟩)
  · exfalso
    have h1 := (run_low (o := o) m es (by omega)).2
    have hone : regs [e] = 1 := by rw [h3]; rfl
    rw [hone] at hn
    rw [Nat.mod_eq_of_lt (by omega)] at h2
    omega

/-- An account loses its operator only by giving it away itself. Same restriction. -/
theorem ownership_lost_only_by_transfer_partial (o : Ref) (m : Mem) (es : List Ev) (e : Ev) (hn : regs (es ++ [e]) < U32) (r : Ref)
    (id : Nat) (h : byOwner o (run o (genesis m) es) r = some id) (h' : byOwner o (run o (genesis m) (es ++ [e])) r ≠ some id) :
    ∃ env to_, e = .change env r id (.owner (.reg to_)) ∧ to_ ≠ r ∧ byOwner o (run o (genesis m) (es ++ [e])) to_ = some id ∧
      byOwner o (run o (genesis m) (es ++ [e])) r = none := by
  obtain ⟨d, hd, hr⟩ := (owner_lookup_exact o m es r id).1 h
  obtain ⟨d', hd', hc⟩ := changed_only_by_owner_or_governance_partial o m es e hn id d hd
  have hne : d'.owner ≠ r := fun hx => h' ((owner_lookup_exact o m _ r id).2 ⟨d', hd', hx⟩)
  rcases hc with hc | ⟨env, u, he, ho, _⟩ | ⟨on, he, _, hx⟩
  · rw [hc] at hne; exact absurd hr hne
  · rcases ho.owner with hx | hx
    · rw [hx] at hne; exact absurd hr hne
    · subst hx
      refine ⟨env, d'.owner, by rw [he, hr], hne, (owner_lookup_exact o m _ _ id).2 ⟨d', hd', rfl⟩, ?_⟩
      cases hb : byOwner o (run o (genesis m) (es ++ [e])) r with
      | none => rfl
      | some j =>
        exfalso
        obtain ⟨x, hx, hxr⟩ := (owner_lookup_exact o m _ r j).1 hb
        by_cases hj : j = id
        · subst hj; rw [hd'] at hx; cases hx; exact hne hxr
        · have hg : getOper o (run o (genesis m) es) j = some x := by
            rw [run_snoc] at hx
            rw [he] at hx
            rcases step_cases o (run o (genesis m) es) (.change env d.owner id (.owner (.reg d'.owner))) with ⟨_, hh⟩ | hh
            · rw [hh] at hx; exact hx
            · obtain ⟨y, y', _, _, _, _, _, _, he2⟩ := change_some hh
              rw [he2, getOper_update, if_neg hj] at hx
              exact hx
          exact hj (one_operator_per_account o m es j id x d hg hd (by rw [hxr, hr]))
  · rw [hx] at hne; exact absurd hr hne

/-! ## C122: new operators -/

/-- A registration takes the next number, which nobody had, and stores what was asked for. -/
theorem registered_as_asked (o : Ref) (m : Mem) (es : List Ev) (env : Env) (who : Ref) (x : Data) (st' : State)
    (hn : regs es + 1 < U32) (h : apply o (run o (genesis m) es) (.register env who x) = some st') :
    st'.last = (run o (genesis m) es).last + 1 ∧ getOper o (run o (genesis m) es) st'.last = none ∧
    ∃ d, getOper o st' st'.last = some d ∧ x.owner = .reg d.owner ∧ x.fee = .reg d.fee ∧ d.name = x.name ∧ d.url = x.url ∧ d.mode = x.mode ∧
      d.maker = x.maker ∧ d.taker = x.taker ∧ d.openSet = x.openList ∧ d.memo = x.memo ∧ d.activated = false ∧
      orderOper o st' st'.last = none := by
  obtain ⟨hL, hl⟩ := run_low (o := o) m es (by omega)
  obtain ⟨⟨set, hr⟩, _⟩ := register_some h
  have hmod : ((run o (genesis m) es).last + 1) % U32 = (run o (genesis m) es).last + 1 := Nat.mod_eq_of_lt (by omega)
  have hlast := hr.last
  rw [hmod] at hlast
  have hset : ∀ (is acc set : List Nat), openSet (run o (genesis m) es) acc is = some set → set = acc ++ is := by
    intro is
    induction is with
    | nil => intro acc set h; simp only [openSet, Option.some.injEq] at h; simp [h]
    | cons i is ih =>
      intro acc set h
      simp only [openSet] at h
      split at h
      · cases h
      · split at h
        · cases h
        · rw [ih _ _ h]; simp
  have hg : getOper o st' st'.last = some (newOper x set) := by
    apply getOper_of_dets
    rw [hr.dets, hlast, hmod]
    simp
  refine ⟨hlast, ?_, newOper x set, hg, ?_, ?_, rfl, rfl, rfl, rfl, rfl, ?_, rfl, rfl, ?_⟩
  · rw [hlast, getOper_ne (by omega), ← hmod]; exact hr.fresh
  · have := hr.check
    unfold regCheck at this
    cases hx : x.owner with
    | reg r => simp [newOper, hx, Uid.ref]
    | other r => rw [hx] at this; simp at this
  · have := hr.check
    unfold regCheck at this
    cases hx : x.fee with
    | reg r => simp [newOper, hx, Uid.ref]
    | other r => rw [hx] at this; cases hy : x.owner <;> rw [hy] at this <;> simp at this
  · have := hset _ _ _ hr.opens
    simpa [newOper] using this
  · unfold orderOper; rw [hg]; rfl

/-- An operator other than 0 takes orders only if governance enabled it and has not disabled it since. -/
theorem active_only_by_governance (o : Ref) (m : Mem) (es : List Ev) (id : Nat) (h0 : id ≠ 0) (d : Oper)
    (h : orderOper o (run o (genesis m) es) id = some d) :
    ∃ a b, es = a ++ .govern id true :: b ∧ (apply o (run o (genesis m) a) (.govern id true)).isSome ∧
      ∀ b1 b2, b = b1 ++ .govern id false :: b2 → apply o (run o (genesis m) (a ++ .govern id true :: b1)) (.govern id false) = none := by
  have key : ∀ es d, getOper o (run o (genesis m) es) id = some d → d.activated = true →
      ∃ a b, es = a ++ .govern id true :: b ∧ (apply o (run o (genesis m) a) (.govern id true)).isSome ∧
      ∀ b1 b2, b = b1 ++ .govern id false :: b2 →
        apply o (run o (genesis m) (a ++ .govern id true :: b1)) (.govern id false) = none := by
    intro es
    induction es using List.reverseRecOn with
    | nil => intro d hd _; rw [getOper_ne h0] at hd; cases hd
    | append_singleton es e ih =>
      intro d hd ha
      have keep : (∃ x, getOper o (run o (genesis m) es) id = some x ∧ x.activated = true) →
          (e = .govern id false → apply o (run o (genesis m) es) e = none) → ∃ a b, es ++ [e] = a ++ .govern id true :: b ∧
          (apply o (run o (genesis m) a) (.govern id true)).isSome ∧
          ∀ b1 b2, b = b1 ++ .govern id false :: b2 →
            apply o (run o (genesis m) (a ++ .govern id true :: b1)) (.govern id false) = none := by
        rintro ⟨x, hx, hxa⟩ hfail
        obtain ⟨a, b, h1, h2, h3⟩ := ih x hx hxa
        refine ⟨a, b ++ [e], by rw [h1]; simp, h2, ?_⟩
        intro b1 b2 hb
        rcases List.eq_nil_or_concat b2 with hb2 | ⟨b2', y, hb2⟩
        · subst hb2
          have := List.append_inj' hb rfl
          obtain ⟨hb1, hy⟩ := this
          simp only [List.cons.injEq, and_true] at hy
          subst hb1
          rw [← h1]
          rw [hy] at hfail
          exact hfail rfl
        · subst hb2
          rw [List.concat_eq_append, ← List.cons_append, ← List.append_assoc] at hb
          have := List.append_inj' hb rfl
          exact h3 b1 b2' this.1
      rw [run_snoc] at hd
      cases hold : getOper o (run o (genesis m) es) id with
      | none =>
        -- a fresh record is inactive
        exfalso
        rcases step_cases o (run o (genesis m) es) e with ⟨_, h⟩ | h
        · rw [h, hold] at hd; cases hd
        · cases e with
          | register env who x =>
            obtain ⟨⟨set, hr⟩, _⟩ := register_some h
            rw [getOper_ne h0] at hd hold
            rw [hr.dets] at hd
            simp only at hd
            split at hd
            · simp only [Option.some.injEq] at hd; subst hd; cases ha
            · rw [hold] at hd; cases hd
          | change env who i u =>
            obtain ⟨x, x', hx, _, _, _, _, _, he⟩ := change_some h
            rw [he, getOper_update] at hd
            split at hd
            · rename_i hi; subst hi; rw [hold] at hx; cases hx
            · have hold' : getOper o { (run o (genesis m) es) with mem := (step o (run o (genesis m) es) (.change env who i u)).mem } id = none := hold
              rw [hold'] at hd; cases hd
          | govern i on =>
            obtain ⟨_, x, hx, _, he, _⟩ := govern_some h
            rw [he, getOper_update] at hd
            split at hd
            · rename_i hi; subst hi; rw [hold] at hx; cases hx
            · rw [hold] at hd; cases hd
      | some y =>
        obtain ⟨d', hd', hc⟩ := step_oper e hold
        rw [hd] at hd'
        cases hd'
        by_cases hg : ∃ on, e = .govern id on ∧ apply o (run o (genesis m) es) e ≠ none
        · obtain ⟨on, hg, hap⟩ := hg
          subst hg
          have hsome : apply o (run o (genesis m) es) (.govern id on) = some (step o (run o (genesis m) es) (.govern id on)) := by
            rcases step_cases o (run o (genesis m) es) (.govern id on) with ⟨h, _⟩ | h
            · exact absurd h hap
            · exact h
          obtain ⟨_, x, hx, _, he, _⟩ := govern_some hsome
          rw [he, getOper_update, if_pos rfl] at hd
          simp only [Option.some.injEq] at hd
          have : on = true := by rw [← hd] at ha; exact ha
          subst this
          exact ⟨es, [], rfl, by rw [hsome]; rfl, fun b1 b2 hb => by simp at hb⟩
        · have hya : y.activated = true := by
            rcases hc with hc | ⟨env, u, _, _, hc, _⟩ | ⟨on, he, _, hy, hc⟩ | ⟨_, hc, _⟩
            · rw [← hc]; exact ha
            · rw [← hc.activated]; exact ha
            · exfalso
              apply hg
              refine ⟨on, he, ?_⟩
              rcases step_cases o (run o (genesis m) es) e with ⟨_, h⟩ | h
              · rw [h, hold] at hd
                cases hd
                rw [hc] at hy
                cases on <;> simp at hy
              · rw [h]; simp
            · exact absurd hc h0
          refine keep ⟨y, hold, hya⟩ ?_
          intro he
          by_contra hx
          exact hg ⟨false, he, hx⟩
  unfold orderOper at h
  split at h
  · cases h
  · rename_i x hx
    split at h
    · rename_i hxa
      exact key es x hx hxa
    · cases h

/-! ## C123: the terms -/

/-- What every record must satisfy, as far as the code sees to it without condition. -/
structure Terms (d : Oper) : Prop where
  maker : d.maker ≤ 50000000
  taker : d.taker ≤ 50000000
  name : d.name.utf8ByteSize ≤ 32
  memo : d.memo.utf8ByteSize ≤ 100
  opens : d.openSet.length ≤ 500
  once : d.openSet.Nodup

theorem openSet_spec {st : State} : ∀ (is acc set : List Nat), openSet st acc is = some set → acc.Nodup →
    set = acc ++ is ∧ set.Nodup ∧ ∀ i ∈ is, haveOper st i = true := by
  intro is
  induction is with
  | nil => intro acc set h ha; simp only [openSet, Option.some.injEq] at h; subst h; exact ⟨by simp, ha, by simp⟩
  | cons i is ih =>
    intro acc set h ha
    simp only [openSet] at h
    split at h
    · cases h
    · rename_i h1
      split at h
      · cases h
      · rename_i h2
        have h2 : i ∉ acc := by simpa using h2
        obtain ⟨e1, e2, e3⟩ := ih _ _ h (List.nodup_append.2 ⟨ha, by simp, by
          intro a ha' b hb
          simp only [List.mem_singleton] at hb
          subst hb
          exact fun hc => h2 (hc ▸ ha')⟩)
        refine ⟨by rw [e1]; simp, e2, ?_⟩
        intro j hj
        rcases List.mem_cons.1 hj with rfl | hj
        · exact bool_of_not h1
        · exact e3 j hj

theorem Reg.parts {o : Ref} {st st' : State} {x : Data} {set : List Nat} (hr : Reg o st x st' set) :
    x.name.utf8ByteSize ≤ 32 ∧ x.memo.utf8ByteSize ≤ 100 ∧ x.maker ≤ 50000000 ∧ x.taker ≤ 50000000 ∧ x.openList.length ≤ 500 ∧
      set = x.openList ∧ set.Nodup ∧ ∀ i ∈ x.openList, haveOper st i = true := by
  have h := hr.check
  unfold regCheck at h
  have hs := openSet_spec _ _ _ hr.opens List.nodup_nil
  split at h
  · simp only [Bool.and_eq_true, decide_eq_true_eq] at h
    exact ⟨h.1.1.1.1, h.1.1.1.2, h.1.1.2, h.1.2, h.2, hs.1, hs.2.1, hs.2.2⟩
  · cases h

/-- Some property of every record is kept if registrations and updates establish it. -/
theorem all_records {o : Ref} (m : Mem) (P : Oper → Prop) (hP0 : P (dex0 o)) (es : List Ev)
    (hreg : ∀ env who x, .register env who x ∈ es → ∀ st st' set, Reg o st x st' set → P (newOper x set))
    (hupd : ∀ env st id d d' u, P d → updCheck o env st id d u = true → updTo d u = some d' → P d')
    (hact : ∀ d on, P d → P { d with activated := on }) :
    ∀ id d, getOper o (run o (genesis m) es) id = some d → P d := by
  induction es using List.reverseRecOn with
  | nil =>
    intro id d hd
    change getOper o (genesis m) id = some d at hd
    unfold getOper genesis at hd
    simp only at hd
    split at hd
    · simp only [Option.some.injEq] at hd; subst hd; exact hP0
    · cases hd
  | append_singleton es e ih =>
    intro id d hd
    have ih := ih (fun env who x hx => hreg env who x (List.mem_append_left _ hx))
    rw [run_snoc] at hd
    rcases step_cases o (run o (genesis m) es) e with ⟨_, h⟩ | h
    · rw [h] at hd; exact ih id d hd
    · revert hd h
      generalize step o (run o (genesis m) es) e = st'
      intro hd h
      cases e with
      | register env who x =>
        obtain ⟨⟨set, hr⟩, _⟩ := register_some h
        by_cases hid : id = ((run o (genesis m) es).last + 1) % U32
        · have hg : getOper o st' id = some (newOper x set) := getOper_of_dets (by rw [hr.dets]; simp only; rw [if_pos hid])
          rw [hg] at hd
          cases hd
          exact hreg env who x (by simp) _ _ _ hr
        · apply ih id d
          unfold getOper at hd ⊢
          rw [hr.dets] at hd
          simp only [if_neg hid] at hd
          exact hd
      | change env who i u =>
        obtain ⟨x, x', hx, hc, hw, hu, _, hl, he⟩ := change_some h
        rw [he, getOper_update] at hd
        split at hd
        · cases hd
          exact hupd env _ i x d u (ih i x hx) hc hu
        · exact ih id d hd
      | govern i on =>
        obtain ⟨_, x, hx, _, he, _⟩ := govern_some h
        rw [he, getOper_update] at hd
        split at hd
        · cases hd
          exact hact x on (ih i x hx)
        · exact ih id d hd

/-- Fee ratios are at most one half, texts and lists at most of the allowed length. -/
theorem terms_in_bounds (o : Ref) (m : Mem) (es : List Ev) (id : Nat) (d : Oper) (hd : getOper o (run o (genesis m) es) id = some d) :
    Terms d := by
  refine all_records m Terms ⟨by simp [dex0], by simp [dex0], (by decide +kernel : "wayki-dex".utf8ByteSize ≤ 32), (by decide +kernel : "".utf8ByteSize ≤ 100), by simp [dex0],
    by simp [dex0]⟩ es ?_ ?_ ?_ id d hd
  · intro env who x _ st st' set hr
    obtain ⟨h1, h2, h3, h4, h5, h6, h7, _⟩ := hr.parts
    exact ⟨h3, h4, h1, h2, by show set.length ≤ _; rw [h6]; exact h5, h7⟩
  · intro env st id d d' u hd hc hu
    cases u with
    | owner v =>
      cases v with
      | reg r => simp only [updTo, Option.some.injEq] at hu; subst hu; exact ⟨hd.1, hd.2, hd.3, hd.4, hd.5, hd.6⟩
      | other r => simp [updTo] at hu
    | fee v =>
      cases v with
      | reg r => simp only [updTo, Option.some.injEq] at hu; subst hu; exact ⟨hd.1, hd.2, hd.3, hd.4, hd.5, hd.6⟩
      | other r => simp [updTo] at hu
    | name s =>
      simp only [updTo, Option.some.injEq] at hu; subst hu
      simp only [updCheck, decide_eq_true_eq] at hc
      exact ⟨hd.1, hd.2, hc, hd.4, hd.5, hd.6⟩
    | url s => simp only [updTo, Option.some.injEq] at hu; subst hu; exact ⟨hd.1, hd.2, hd.3, hd.4, hd.5, hd.6⟩
    | mode b => simp only [updTo, Option.some.injEq] at hu; subst hu; exact ⟨hd.1, hd.2, hd.3, hd.4, hd.5, hd.6⟩
    | maker v =>
      simp only [updTo, Option.some.injEq] at hu; subst hu
      simp only [updCheck, decide_eq_true_eq] at hc
      exact ⟨hc, hd.2, hd.3, hd.4, hd.5, hd.6⟩
    | taker v =>
      simp only [updTo, Option.some.injEq] at hu; subst hu
      simp only [updCheck, decide_eq_true_eq] at hc
      exact ⟨hd.1, hc, hd.3, hd.4, hd.5, hd.6⟩
    | openList is =>
      simp only [updTo, Option.some.injEq] at hu; subst hu
      simp only [updCheck, Bool.and_eq_true, decide_eq_true_eq] at hc
      exact ⟨hd.1, hd.2, hd.3, hd.4, ((List.dedup_sublist is).length_le).trans hc.1, List.nodup_dedup is⟩
    | memo s =>
      simp only [updTo, Option.some.injEq] at hu; subst hu
      simp only [updCheck, decide_eq_true_eq] at hc
      exact ⟨hd.1, hd.2, hd.3, hc, hd.5, hd.6⟩
  · intro d on hd
    exact ⟨hd.1, hd.2, hd.3, hd.4, hd.5, hd.6⟩

/-- The open mode is public or private. Missing for the full claim: that registrations ask for one of the two. -/
theorem open_mode_valid_partial (o : Ref) (m : Mem) (es : List Ev)
    (hm : ∀ env who x, .register env who x ∈ es → x.mode = 1 ∨ x.mode = 2) (id : Nat) (d : Oper)
    (hd : getOper o (run o (genesis m) es) id = some d) : d.mode = 1 ∨ d.mode = 2 := by
  refine all_records m (fun d => d.mode = 1 ∨ d.mode = 2) (.inl rfl) es ?_ ?_ (fun d on h => h) id d hd
  · intro env who x hx st st' set hr
    exact hm env who x hx
  · intro env st id d d' u hd hc hu
    rcases (updTo_only hu).1.mode with h | h
    · rw [h]; exact hd
    · subst h
      simp only [updCheck, Bool.and_eq_true, Bool.or_eq_true, beq_iff_eq] at hc
      exact hc.1

theorem haveOper_iff {o : Ref} {st : State} {i : Nat} (hi : i < U32) : haveOper st i = true ↔ ∃ d, getOper o st i = some d := by
  unfold haveOper
  rw [Nat.mod_eq_of_lt hi]
  by_cases h0 : i = 0
  · subst h0; simp [getOper_main]
  · rw [if_neg h0, getOper_ne h0, Option.isSome_iff_exists]

/-- Every entry of a list of operators to open orders to is another operator of the register. Missing for the full claim: entries of
2^32 or more, and fewer than 2^32 registrations. -/
theorem open_list_names_operators_partial (o : Ref) (m : Mem) (es : List Ev) (hn : regs es < U32) (id : Nat) (d : Oper)
    (hd : getOper o (run o (genesis m) es) id = some d) (i : Nat) (hi : i ∈ d.openSet) (hlt : i < U32) :
    i ≠ id ∧ ∃ x, getOper o (run o (genesis m) es) i = some x := by
  induction es using List.reverseRecOn generalizing id d with
  | nil =>
    change getOper o (genesis m) id = some d at hd
    unfold getOper genesis at hd
    simp only at hd
    split at hd
    · simp only [Option.some.injEq] at hd; subst hd; cases hi
    · cases hd
  | append_singleton es e ih =>
    rw [regs_append] at hn
    have ih := ih (by omega)
    have hlast := (run_low (o := o) m es (by omega)).2
    rw [run_snoc] at hd ⊢
    have keep : ∀ j, (∃ x, getOper o (run o (genesis m) es) j = some x) → ∃ x, getOper o (step o (run o (genesis m) es) e) j = some x := by
      rintro j ⟨x, hx⟩
      obtain ⟨x', hx', _⟩ := step_oper e hx
      exact ⟨x', hx'⟩
    rcases step_cases o (run o (genesis m) es) e with ⟨_, h⟩ | h
    · rw [h] at hd ⊢; exact ih id d hd hi
    · revert hd h keep
      generalize step o (run o (genesis m) es) e = st'
      intro hd keep h
      cases e with
      | register env who x =>
        obtain ⟨⟨set, hr⟩, _⟩ := register_some h
        obtain ⟨_, _, _, _, _, h6, _, h8⟩ := hr.parts
        have hone : regs [Ev.register env who x] = 1 := rfl
        have hmod : ((run o (genesis m) es).last + 1) % U32 = (run o (genesis m) es).last + 1 := Nat.mod_eq_of_lt (by omega)
        by_cases hid : id = ((run o (genesis m) es).last + 1) % U32
        · have hg : getOper o st' id = some (newOper x set) := getOper_of_dets (by rw [hr.dets]; simp only; rw [if_pos hid])
          rw [hg] at hd
          cases hd
          have hi' : i ∈ x.openList := h6 ▸ hi
          have hx := (haveOper_iff (o := o) hlt).1 (h8 i hi')
          refine ⟨?_, keep i hx⟩
          rintro rfl
          obtain ⟨y, hy⟩ := hx
          rw [getOper_ne (by omega), hid, hr.fresh] at hy
          cases hy
        · have hd' : getOper o (run o (genesis m) es) id = some d := by
            unfold getOper at hd ⊢
            rw [hr.dets] at hd
            simp only [if_neg hid] at hd
            exact hd
          have := ih id d hd' hi
          exact ⟨this.1, keep i this.2⟩
      | change env who k u =>
        obtain ⟨x, x', hx, hc, hw, hu, _, hl, he⟩ := change_some h
        rw [he, getOper_update] at hd
        split at hd
        · rename_i hk
          subst hk
          cases hd
          rcases (updTo_only hu).1.openSet with h1 | ⟨is, h1, _, h2⟩
          · have := ih id x hx (h1 ▸ hi)
            exact ⟨this.1, keep i this.2⟩
          · subst h1
            simp only [updCheck, Bool.and_eq_true, List.all_eq_true, bne_iff_ne, ne_eq] at hc
            have := hc.2 i ((h2 i).1 hi)
            exact ⟨this.1, keep i ((haveOper_iff hlt).1 this.2)⟩
        · have := ih id d hd hi
          exact ⟨this.1, keep i this.2⟩
      | govern k on =>
        obtain ⟨_, x, hx, _, he, _⟩ := govern_some h
        rw [he, getOper_update] at hd
        split at hd
        · rename_i hk
          subst hk
          cases hd
          have := ih id x hx hi
          exact ⟨this.1, keep i this.2⟩
        · have := ih id d hd hi
          exact ⟨this.1, keep i this.2⟩

/-! ## C124: who can register -/

/-- An account that owns no operator can register one, for terms within the bounds and if it can pay. -/
theorem free_account_can_register (o : Ref) (m : Mem) (es : List Ev) (hn : regs es + 1 < U32) (env : Env) (who fee : Ref) (x : Data)
    (hfree : ∀ id d, getOper o (run o (genesis m) es) id = some d → d.owner ≠ who)
    (hw : x.owner = .reg who) (hf : x.fee = .reg fee) (hfee : fee = who ∨ env.base.acct fee = true)
    (h1 : x.name.utf8ByteSize ≤ 32) (h2 : x.memo.utf8ByteSize ≤ 100) (h3 : x.maker ≤ 50000000) (h4 : x.taker ≤ 50000000)
    (h5 : x.openList.length ≤ 500) (h6 : x.openList.Nodup)
    (h7 : ∀ i ∈ x.openList, i < U32 ∧ ∃ d, getOper o (run o (genesis m) es) i = some d)
    (hpay : (Asset.operFee env.base (run o (genesis m) es).mem who env.regFee).isSome) :
    ∃ st', apply o (run o (genesis m) es) (.register env who x) = some st' ∧ byOwner o st' who = some st'.last := by
  have hI := run_inv es (genesis_inv o m)
  obtain ⟨hL, hl⟩ := run_low (o := o) m es (by omega)
  revert hI hL hl h7 hpay hfree
  generalize run o (genesis m) es = st
  intro hfree h7 hpay hI hL hl
  obtain ⟨m', hm'⟩ := Option.isSome_iff_exists.1 hpay
  have hhas : hasByOwner o st who = false := by
    rw [hasByOwner_iff hI]
    cases hb : byOwner o st who with
    | none => rfl
    | some id =>
      obtain ⟨d, hd, hr⟩ := byOwner_sound hI hb
      exact absurd hr (hfree id d hd)
  have hset : ∀ (is acc : List Nat), (acc ++ is).Nodup → (∀ i ∈ is, haveOper st i = true) → openSet st acc is = some (acc ++ is) := by
    intro is
    induction is with
    | nil => intro acc _ _; simp [openSet]
    | cons i is ih =>
      intro acc hnd hh
      have h1 : i ∉ acc := by
        intro hc
        exact (List.nodup_append.1 hnd).2.2 i hc i (by simp) rfl
      simp only [openSet]
      rw [if_neg (by rw [hh i (by simp)]; decide), if_neg (by simpa using h1), ih _ (by simpa using hnd) (fun j hj => hh j (by simp [hj]))]
      simp
  have hmod : (st.last + 1) % U32 = st.last + 1 := Nat.mod_eq_of_lt (by omega)
  have hfresh : st.dets (st.last + 1) = none := by
    cases hd : st.dets (st.last + 1) with
    | none => rfl
    | some d => have := hL.dets _ d hd; omega
  have hsx : openSet st [] x.openList = some x.openList := by
    have := hset x.openList [] (by simpa using h6) (fun i hi => (haveOper_iff (o := o) (h7 i hi).1).2 (h7 i hi).2)
    simpa using this
  have hchk : regCheck x = true := by
    unfold regCheck
    rw [hw, hf]
    simp [NAME_MAX, MEMO_MAX, RATIO_MAX, LIST_MAX, h1, h2, h3, h4, h5]
  have hcr : register o env st who x = some (setOwner (setDet { st with mem := m', last := st.last + 1 } (st.last + 1) (newOper x x.openList))
      who (some (st.last + 1))) := by
    unfold register
    rw [if_neg (by rw [hchk]; decide), hsx]
    have hr1 : x.owner.ref = who := by rw [hw]; rfl
    have hr2 : x.fee.ref = fee := by rw [hf]; rfl
    simp only [hr1, hr2]
    rw [if_neg (by simp), if_neg (by rcases hfee with h | h <;> simp [h]), if_neg (by rw [hhas]; decide), hm']
    simp only [incId, hmod]
    unfold create
    rw [if_neg (by simp [hfresh])]
    have : hasByOwner o { st with mem := m', last := st.last + 1 } (newOper x x.openList).owner = false := by
      have e : (newOper x x.openList).owner = who := hr1
      rw [e, ← hhas]
      exact hasByOwner_congr rfl rfl who
    rw [if_neg (by rw [this]; decide)]
    have e : (newOper x x.openList).owner = who := hr1
    rw [e]
  refine ⟨_, hcr, ?_⟩
  refine byOwner_some (d := newOper x x.openList) ?_ ?_
  · rw [owners_setOwner, if_pos rfl]; rfl
  · rw [getOper_setOwner, getOper_setDet]
    exact if_pos rfl

/-- An account that becomes the owner of an operator was named in a registration or a transfer. Missing for the full claim: that it
agreed. -/
theorem owner_was_named_partial (o : Ref) (m : Mem) (es : List Ev) (e : Ev) (r : Ref) (id : Nat)
    (h : byOwner o (run o (genesis m) es) r ≠ some id) (h' : byOwner o (run o (genesis m) (es ++ [e])) r = some id) :
    (∃ env who x, e = .register env who x ∧ x.owner = .reg r) ∨
      (∃ env from_, e = .change env from_ id (.owner (.reg r)) ∧ byOwner o (run o (genesis m) es) from_ = some id) := by
  obtain ⟨d', hd', hr'⟩ := (owner_lookup_exact o m _ r id).1 h'
  have hno : ∀ d, getOper o (run o (genesis m) es) id = some d → d.owner ≠ r := fun d hd hx =>
    h ((owner_lookup_exact o m es r id).2 ⟨d, hd, hx⟩)
  rw [run_snoc] at hd'
  rcases step_cases o (run o (genesis m) es) e with ⟨_, hs⟩ | hs
  · rw [hs] at hd'; exact absurd hr' (hno d' hd')
  · cases e with
    | register env who x =>
      obtain ⟨⟨set, hr⟩, _⟩ := register_some hs
      by_cases hid : id = ((run o (genesis m) es).last + 1) % U32
      · have hg : getOper o (step o (run o (genesis m) es) (.register env who x)) id = some (newOper x set) :=
          getOper_of_dets (by rw [hr.dets]; simp only; rw [if_pos hid])
        rw [hg] at hd'
        cases hd'
        left
        refine ⟨env, who, x, rfl, ?_⟩
        have hc := hr.check
        unfold regCheck at hc
        cases hx : x.owner with
        | reg q => rw [← hr']; simp [newOper, hx, Uid.ref]
        | other q => rw [hx] at hc; simp at hc
      · exfalso
        refine hno d' ?_ hr'
        unfold getOper at hd' ⊢
        rw [hr.dets] at hd'
        simp only [if_neg hid] at hd'
        exact hd'
    | change env who k u =>
      obtain ⟨x, x', hx, hc, hw, hu, _, hl, he⟩ := change_some hs
      rw [he, getOper_update] at hd'
      split at hd'
      · rename_i hk
        subst hk
        cases hd'
        right
        rcases (updTo_only hu).1.owner with h1 | h1
        · exact absurd hr' (by rw [h1]; exact hno x hx)
        · exact ⟨env, who, by rw [h1, hr'], (owner_lookup_exact o m es who id).2 ⟨x, hx, hw.symm⟩⟩
      · exact absurd hr' (hno d' hd')
    | govern k on =>
      obtain ⟨_, x, hx, _, he, _⟩ := govern_some hs
      rw [he, getOper_update] at hd'
      split at hd'
      · rename_i hk
        subst hk
        cases hd'
        exact absurd hr' (hno x hx)
      · exact absurd hr' (hno d' hd')

/-! ## Witnesses -/

/-- Fees are free, the miners are account 7 alone, the reserve is account 8. -/
def env0 : Env :=
  ⟨{ acct := fun _ => true, mature := fun _ => true, fcoin := 8, gateway := 8, delegates := [7], voters := [], issueFee := 0,
     assetRatio := 4000, operRatio := 4000, axcRatio := 0, r35 := true, updateFee := none }, 0, 0⟩

/-- Fees as in the default parameters, in units of 10^8. -/
def env1 : Env := { env0 with regFee := 110000000000, updFee := 11000000000 }

def plain (r : Ref) : Data := ⟨.reg r, .reg r, "a", "b", 1, 5, 6, [], ""⟩

/-- Everybody has 10000 coins. -/
def rich : Mem := fun r => ⟨r, fun s => if s = "WICC" then some (fun b => if b = .free then 1000000000000 else 0) else none, 0, 0⟩

def hist : List Ev :=
  [.register env1 1 (plain 1), .register env1 2 { plain 2 with openList := [0, 1], mode := 2 }, .register env1 2 (plain 2),
   .govern 1 true, .change env1 1 1 (.owner (.reg 3)), .change env1 1 1 (.name "x"), .change env1 3 1 (.openList [2, 0, 2]),
   .govern 2 true, .govern 2 false, .change env1 9 0 (.owner (.reg 1)), .register env1 9 (plain 9)]

example : (run 9 (genesis rich) hist).last = 3 ∧ byOwner 9 (run 9 (genesis rich) hist) 3 = some 1 ∧
    byOwner 9 (run 9 (genesis rich) hist) 1 = some 0 ∧ byOwner 9 (run 9 (genesis rich) hist) 2 = some 2 ∧
    byOwner 9 (run 9 (genesis rich) hist) 9 = some 3 ∧ byOwner 9 (run 9 (genesis rich) hist) 4 = none ∧
    orderOper 9 (run 9 (genesis rich) hist) 1 = some ⟨3, 1, "a", "b", 1, 5, 6, [0, 2], "", true⟩ ∧
    orderOper 9 (run 9 (genesis rich) hist) 2 = none ∧ (orderOper 9 (run 9 (genesis rich) hist) 0).isSome ∧
    getOper 9 (run 9 (genesis rich) hist) 2 = some ⟨2, 2, "a", "b", 2, 5, 6, [0, 1], "", false⟩ ∧ regs hist + 1 < U32 := by decide +kernel

/-- The hypotheses of `free_account_can_register` hold for account 4. -/
example : (Asset.operFee env1.base (run 9 (genesis rich) hist).mem 4 env1.regFee).isSome ∧
    (apply 9 (run 9 (genesis rich) hist) (.register env1 4 { plain 4 with openList := [3, 1] })).isSome := by decide +kernel

/-- Account 9 gives operator 0 away and gets an own one later; account 1 loses operator 1 by its transfer to 3. -/
example : byOwner 9 (run 9 (genesis rich) (hist.take 4)) 1 = some 1 ∧ byOwner 9 (run 9 (genesis rich) (hist.take 5)) 1 = none ∧
    byOwner 9 (run 9 (genesis rich) (hist.take 5)) 3 = some 1 ∧ byOwner 9 (run 9 (genesis rich) (hist.take 9)) 9 = some 0 ∧
    byOwner 9 (run 9 (genesis rich) (hist.take 10)) 9 = none := by decide +kernel

/-- A registration with an open mode that is neither is accepted. -/
theorem open_mode_valid_violated : ∃ o m es id d, getOper o (run o (genesis m) es) id = some d ∧ d.mode ≠ 1 ∧ d.mode ≠ 2 :=
  ⟨9, rich, [.register env1 1 { plain 1 with mode := 7 }], 1, ⟨1, 1, "a", "b", 7, 5, 6, [], "", false⟩, by decide +kernel⟩

/-- A list of operators may hold numbers that no operator has or can have, and twice the same operator but for a multiple of 2^32. -/
theorem open_list_names_operators_violated : ∃ o m es id d i, regs es < U32 ∧ getOper o (run o (genesis m) es) id = some d ∧
    i ∈ d.openSet ∧ getOper o (run o (genesis m) es) i = none ∧ U32 ≤ i :=
  ⟨9, rich, [.register env1 1 { plain 1 with openList := [0, 4294967296] }], 1, ⟨1, 1, "a", "b", 1, 5, 6, [0, 4294967296], "", false⟩,
    4294967296, by decide +kernel⟩

/-- Account 1 registers an operator in the name of account 2, which took no part; account 2, which could register before, cannot any more. -/
theorem owner_agreed_violated : ∃ o m env x y, let st := genesis m
    (apply o st (.register env 2 y)).isSome ∧ byOwner o st 2 = none ∧
    byOwner o (run o st [.register env 1 x]) 2 = some 1 ∧ apply o (run o st [.register env 1 x]) (.register env 2 y) = none :=
  ⟨9, rich, env1, plain 2, plain 2, by decide +kernel⟩

/-! ### The last number -/

theorem opBal_zero (m : Mem) (q : Req) (hp : q.peer = none) (hq : q.op = .addFree ∨ (q.op = .subFree ∧ q.amount = 0)) :
    ∃ m', opBal m q = some m' := by
  obtain ⟨self, s, op, v, peer⟩ := q
  simp only at hp hq
  subst hp
  rcases hq with rfl | ⟨rfl, rfl⟩
  · exact ⟨_, rfl⟩
  · unfold opBal operateBalance
    simp

theorem operFee_zero (m : Mem) (who : Ref) : ∃ m', Asset.operFee env0.base m who 0 = some m' := by
  unfold Asset.operFee
  rw [if_neg (by decide), if_neg (by decide), if_neg (by decide)]
  unfold Asset.operFeeReqs
  simp only [env0, Asset.shareReqs, execAll]
  obtain ⟨m1, h1⟩ := opBal_zero m ⟨who, Asset.WICC, .subFree, 0, none⟩ rfl (.inr ⟨rfl, rfl⟩)
  simp only [h1]
  obtain ⟨m2, h2⟩ := opBal_zero m1 ⟨8, Asset.WICC, .addFree, Asset.riskFee 0 4000, none⟩ rfl (.inl rfl)
  simp only [h2]
  obtain ⟨m3, h3⟩ := opBal_zero m2 ⟨7, Asset.WICC, .addFree, Asset.share (wsub 0 (Asset.riskFee 0 4000)) [7].length 0, none⟩ rfl (.inl rfl)
  exact ⟨m3, by simp only [h3]⟩

def fill (n : Nat) : List Ev := (List.range n).map (fun i => .register env0 1 (plain (i + 1)))

theorem fill_succ (n : Nat) : fill (n + 1) = fill n ++ [.register env0 1 (plain (n + 1))] := by
  simp [fill, List.range_succ]

/-- One more registration by account `r`, when the table allows it. -/
theorem plain_registers {st : State} {r : Ref} (hr0 : r ≠ 0) (hr : st.owners r = none) (hd : st.dets ((st.last + 1) % U32) = none) :
    ∃ m', apply 0 st (.register env0 1 (plain r)) =
      some (setOwner (setDet { st with mem := m', last := (st.last + 1) % U32 } ((st.last + 1) % U32) (newOper (plain r) [])) r
        (some ((st.last + 1) % U32))) := by
  obtain ⟨m', hm'⟩ := operFee_zero st.mem 1
  refine ⟨m', ?_⟩
  have hh : hasByOwner 0 st r = false := by unfold hasByOwner; rw [hr]; simp [hr0]
  have hh' : hasByOwner 0 { st with mem := m', last := (st.last + 1) % U32 } r = false := by rw [← hh]; exact hasByOwner_congr rfl rfl r
  show register 0 env0 st 1 (plain r) = _
  unfold register
  have hc : regCheck (plain r) = true := by
    have h1 : ("a" : String).utf8ByteSize ≤ 32 := by decide +kernel
    simp [regCheck, plain, NAME_MAX, MEMO_MAX, RATIO_MAX, LIST_MAX, h1]
  rw [if_neg (by rw [hc]; decide)]
  have e1 : (plain r).openList = [] := rfl
  have e2 : (plain r).owner.ref = r := rfl
  have e3 : (plain r).fee.ref = r := rfl
  have e4 : env0.regFee = 0 := rfl
  simp only [e1, openSet, e2, e3, e4]
  rw [if_neg (by simp [env0]), if_neg (by simp [env0]), if_neg (by rw [hh]; decide), hm']
  simp only [incId]
  unfold create
  rw [if_neg (by simp [hd])]
  have e5 : (newOper (plain r) []).owner = r := rfl
  rw [e5, if_neg (by rw [hh']; decide)]

theorem fill_state (m : Mem) : ∀ n, n < U32 → (run 0 (genesis m) (fill n)).last = n ∧ (run 0 (genesis m) (fill n)).dets 0 = none ∧
    (∀ r, n < r → (run 0 (genesis m) (fill n)).owners r = none) ∧ (∀ i, n < i → (run 0 (genesis m) (fill n)).dets i = none) := by
  intro n
  induction n with
  | zero => intro _; exact ⟨rfl, rfl, fun _ _ => rfl, fun _ _ => rfl⟩
  | succ n ih =>
    intro hn
    obtain ⟨h1, h2, h3, h4⟩ := ih (Nat.lt_of_succ_lt hn)
    rw [fill_succ, run_snoc]
    revert h1 h2 h3 h4
    generalize run 0 (genesis m) (fill n) = st
    intro h1 h2 h3 h4
    have hmod : (st.last + 1) % U32 = n + 1 := by rw [h1]; exact Nat.mod_eq_of_lt hn
    obtain ⟨m', hm⟩ := plain_registers (st := st) (r := n + 1) (Nat.succ_ne_zero n) (h3 _ (Nat.lt_succ_self n))
      (by rw [hmod]; exact h4 _ (Nat.lt_succ_self n))
    unfold step
    rw [hm, hmod]
    refine ⟨rfl, ?_, ?_, ?_⟩
    · show (if 0 = n + 1 then some (newOper (plain (n + 1)) []) else st.dets 0) = none
      rw [if_neg (by omega)]; exact h2
    · intro r hr
      show (if r = n + 1 then some (n + 1) else st.owners r) = none
      rw [if_neg (by omega)]; exact h3 r (by omega)
    · intro i hi
      show (if i = n + 1 then some (newOper (plain (n + 1)) []) else st.dets i) = none
      rw [if_neg (by omega)]; exact h4 i (by omega)

theorem wrap {st : State} (h1 : st.last + 1 = U32) (h2 : st.dets 0 = none) (h3 : st.owners U32 = none) :
    getOper 0 (step 0 st (.register env0 1 (plain U32))) 0 = some (newOper (plain U32) []) ∧ getOper 0 st 0 = some (dex0 0) := by
  have hmod : (st.last + 1) % U32 = 0 := by rw [h1]; exact Nat.mod_self _
  obtain ⟨m', hm⟩ := plain_registers (st := st) (r := U32) (by decide) h3 (by rw [hmod]; exact h2)
  constructor
  · unfold step
    rw [hm, hmod]
    refine getOper_of_dets ?_
    show (if 0 = 0 then some (newOper (plain U32) []) else st.dets 0) = _
    exact if_pos rfl
  · unfold getOper; rw [h2]; rfl

theorem wrap_after (n : Nat) (hn : n + 1 = U32) : getOper 0 (run 0 (genesis rich) (fill n)) 0 = some (dex0 0) ∧
    getOper 0 (run 0 (genesis rich) (fill n ++ [.register env0 1 (plain U32)])) 0 = some (newOper (plain U32) []) := by
  obtain ⟨h1, h2, h3, _⟩ := fill_state rich n (by omega)
  rw [run_snoc]
  have := wrap (by rw [h1]; exact hn) h2 (h3 U32 (by omega))
  exact ⟨this.2, this.1⟩

/-- After 2^32 - 1 registrations the next one takes number 0: whoever it names becomes the owner of the main operator, while the owner
and governance do nothing. -/
theorem changed_only_by_owner_or_governance_violated : ∃ o m es env who x d, getOper o (run o (genesis m) es) 0 = some d ∧ d.owner ≠ who ∧
    ∃ d', getOper o (run o (genesis m) (es ++ [.register env who x])) 0 = some d' ∧ d'.owner ≠ d.owner ∧ d'.activated ≠ d.activated := by
  obtain ⟨n, hn⟩ : ∃ n, n + 1 = U32 := ⟨4294967295, rfl⟩
  obtain ⟨h1, h2⟩ := wrap_after n hn
  exact ⟨0, rich, fill n, env0, 1, plain U32, dex0 0, h1, by decide, newOper (plain U32) [], h2, by decide, by decide⟩

end Verif.DexOp
