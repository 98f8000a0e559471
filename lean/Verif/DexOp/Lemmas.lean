import Verif.DexOp.Model

/-! The index by owner agrees with the records; every event as a change of the register. -/
namespace Verif.DexOp

open Verif.Account Verif.Ledger

/-- The two tables agree. -/
structure Inv (o : Ref) (st : State) : Prop where
  found : ∀ id d, getOper o st id = some d → byOwner o st d.owner = some id
  back : ∀ r id, st.owners r = some id → ∃ d, st.dets id = some d ∧ d.owner = r

theorem getOper_of_dets {o : Ref} {st : State} {id : Nat} {d : Oper} (h : st.dets id = some d) : getOper o st id = some d := by
  unfold getOper; rw [h]

theorem getOper_ne {o : Ref} {st : State} {id : Nat} (h : id ≠ 0) : getOper o st id = st.dets id := by
  unfold getOper
  cases st.dets id with
  | none => rw [if_neg h]
  | some d => rfl

theorem getOper_main (o : Ref) (st : State) : ∃ d, getOper o st 0 = some d := by
  unfold getOper
  cases st.dets 0 with
  | none => exact ⟨_, if_pos rfl⟩
  | some d => exact ⟨d, rfl⟩

theorem byOwner_sound {o : Ref} {st : State} (hI : Inv o st) {r : Ref} {id : Nat} (h : byOwner o st r = some id) :
    ∃ d, getOper o st id = some d ∧ d.owner = r := by
  unfold byOwner at h
  cases hr : st.owners r with
  | some i =>
    rw [hr] at h
    simp only at h
    split at h
    · simp only [Option.some.injEq] at h
      subst h
      obtain ⟨d, h1, h2⟩ := hI.back r i hr
      exact ⟨d, getOper_of_dets h1, h2⟩
    · cases h
  | none =>
    rw [hr] at h
    simp only at h
    split at h
    · obtain ⟨d, hd⟩ := getOper_main o st
      rw [hd] at h
      simp only at h
      split at h
      · simp only [Option.some.injEq] at h
        subst h
        exact ⟨d, hd, by assumption⟩
      · cases h
    · cases h

/-- `HasDexOperatorByOwner` says whether `GetDexOperatorByOwner` finds one. -/
theorem hasByOwner_iff {o : Ref} {st : State} (hI : Inv o st) (r : Ref) : hasByOwner o st r = (byOwner o st r).isSome := by
  unfold hasByOwner byOwner
  cases hr : st.owners r with
  | some i =>
    obtain ⟨d, h1, h2⟩ := hI.back r i hr
    simp [getOper_of_dets (o := o) h1]
  | none =>
    simp only [Option.isSome_none, Bool.false_eq_true, ↓reduceIte]
    obtain ⟨d, hd⟩ := getOper_main o st
    rw [hd]
    by_cases h1 : r = o <;> by_cases h2 : d.owner = r <;> simp [h1, h2]
    have h3 : d.owner ≠ o := h1 ▸ h2
    simp [h3]

theorem no_oper_of_has {o : Ref} {st : State} (hI : Inv o st) {r : Ref} (h : hasByOwner o st r = false) {id : Nat} {d : Oper}
    (hd : getOper o st id = some d) : d.owner ≠ r := by
  intro hr
  have := hI.found id d hd
  rw [hasByOwner_iff hI, ← hr, this] at h
  simp at h

/-! ## Writing a record -/

theorem getOper_setDet (o : Ref) (st : State) (id i : Nat) (d : Oper) :
    getOper o (setDet st id d) i = if i = id then some d else getOper o st i := by
  unfold getOper setDet
  simp only
  by_cases h : i = id <;> simp [h]

theorem getOper_setOwner (o : Ref) (st : State) (r : Ref) (v : Option Nat) (i : Nat) :
    getOper o (setOwner st r v) i = getOper o st i := rfl

theorem getOper_update (o : Ref) (st : State) (id i : Nat) (old d : Oper) :
    getOper o (update st id old d) i = if i = id then some d else getOper o st i := by
  unfold update
  rw [getOper_setDet]
  split
  · rfl
  · split <;> rfl

theorem owners_setDet (st : State) (id : Nat) (d : Oper) : (setDet st id d).owners = st.owners := rfl

theorem owners_setOwner (st : State) (r q : Ref) (v : Option Nat) :
    (setOwner st r v).owners q = if q = r then v else st.owners q := rfl

/-- What `byOwner` finds given the entry of the index. -/
theorem byOwner_some {o : Ref} {st : State} {r : Ref} {id : Nat} {d : Oper} (h : st.owners r = some id) (hd : getOper o st id = some d) :
    byOwner o st r = some id := by
  unfold byOwner; rw [h]; simp [hd]

theorem byOwner_none {o : Ref} {st : State} {r : Ref} {id : Nat} (h : st.owners r = none) (hb : byOwner o st r = some id) :
    id = 0 ∧ r = o := by
  unfold byOwner at hb; rw [h] at hb
  simp only at hb
  split at hb
  · split at hb
    · split at hb
      · simp only [Option.some.injEq] at hb
        exact ⟨hb.symm, by assumption⟩
      · cases hb
    · cases hb
  · cases hb

theorem byOwner_main {o : Ref} {st : State} {d : Oper} (h : st.owners o = none) (hd : getOper o st 0 = some d) (ho : d.owner = o) :
    byOwner o st o = some 0 := by
  unfold byOwner; rw [h]; simp [hd, ho]

theorem byOwner_cases {o : Ref} {st : State} {r : Ref} {id : Nat} (hb : byOwner o st r = some id) :
    st.owners r = some id ∨ (st.owners r = none ∧ id = 0 ∧ r = o) := by
  cases hr : st.owners r with
  | none => exact .inr ⟨rfl, byOwner_none hr hb⟩
  | some i =>
    left
    unfold byOwner at hb
    rw [hr] at hb
    simp only at hb
    split at hb
    · exact hb
    · cases hb

theorem create_inv {o : Ref} {st st' : State} {n : Nat} {d : Oper} (hI : Inv o st) (h : create o st n d = some st') :
    Inv o st' ∧ st.dets n = none ∧ hasByOwner o st d.owner = false ∧ st' = setOwner (setDet st n d) d.owner (some n) := by
  unfold create at h
  split at h
  · cases h
  · rename_i h1
    split at h
    · cases h
    · rename_i h2
      simp only [Option.some.injEq] at h
      have h1 : st.dets n = none := by simpa using h1
      have h2 : hasByOwner o st d.owner = false := by simpa using h2
      refine ⟨?_, h1, h2, h.symm⟩
      subst h
      constructor
      · intro id x hx
        rw [getOper_setOwner, getOper_setDet] at hx
        split at hx
        · rename_i hid
          simp only [Option.some.injEq] at hx
          subst hx hid
          refine byOwner_some (d := d) ?_ ?_
          · rw [owners_setOwner, if_pos rfl]
          · rw [getOper_setOwner, getOper_setDet, if_pos rfl]
        · rename_i hid
          have hne := no_oper_of_has hI h2 hx
          rcases byOwner_cases (hI.found id x hx) with hb | ⟨hb, h0, hr⟩
          · refine byOwner_some (d := x) ?_ ?_
            · rw [owners_setOwner, if_neg hne, owners_setDet]; exact hb
            · rw [getOper_setOwner, getOper_setDet, if_neg hid]; exact hx
          · subst h0
            rw [hr]
            refine byOwner_main (d := x) ?_ ?_ hr
            · rw [owners_setOwner, if_neg (hr ▸ hne), owners_setDet]; exact hr ▸ hb
            · rw [getOper_setOwner, getOper_setDet, if_neg hid]; exact hx
      · intro r id hr
        rw [owners_setOwner] at hr
        show ∃ x, (if id = n then some d else st.dets id) = some x ∧ x.owner = r
        split at hr
        · simp only [Option.some.injEq] at hr
          rename_i hrd
          exact ⟨d, by rw [if_pos hr.symm], hrd.symm⟩
        · rw [owners_setDet] at hr
          obtain ⟨x, hx, hxo⟩ := hI.back r id hr
          have : id ≠ n := by rintro rfl; rw [h1] at hx; cases hx
          exact ⟨x, by rw [if_neg this]; exact hx, hxo⟩

theorem update_inv {o : Ref} {st : State} {id : Nat} {d d' : Oper} (hI : Inv o st) (hd : getOper o st id = some d)
    (ho : d'.owner = d.owner ∨ hasByOwner o st d'.owner = false) : Inv o (update st id d d') := by
  have hb0 := hI.found id d hd
  have hgo := getOper_update o st id
  by_cases he : d.owner = d'.owner
  · have hu : update st id d d' = setDet st id d' := by unfold update; rw [if_neg (by simpa using he)]
    rw [hu]
    constructor
    · intro i x hx
      rw [getOper_setDet] at hx
      have key : ∀ r j y, byOwner o st r = some j → getOper o (setDet st id d') j = some y → y.owner = r →
          byOwner o (setDet st id d') r = some j := by
        intro r j y hb hy hyr
        rcases byOwner_cases hb with hq | ⟨hq, h0, hr⟩
        · exact byOwner_some hq hy
        · subst h0; subst hr
          exact byOwner_main hq hy hyr
      split at hx
      · rename_i hid
        simp only [Option.some.injEq] at hx
        subst hx hid
        exact key _ i d' (he ▸ hb0) (by rw [getOper_setDet, if_pos rfl]) rfl
      · rename_i hid
        exact key _ i x (hI.found i x hx) (by rw [getOper_setDet, if_neg hid]; exact hx) rfl
    · intro r i hr
      obtain ⟨x, hx, hxo⟩ := hI.back r i hr
      show ∃ x, (if i = id then some d' else st.dets i) = some x ∧ x.owner = r
      by_cases hid : i = id
      · subst hid
        rw [getOper_of_dets hx] at hd
        cases hd
        exact ⟨d', by rw [if_pos rfl], by rw [← he]; exact hxo⟩
      · exact ⟨x, by rw [if_neg hid]; exact hx, hxo⟩
  · have hh : hasByOwner o st d'.owner = false := ho.resolve_left (fun h => he h.symm)
    have hu : update st id d d' = setDet (setOwner (setOwner st d.owner none) d'.owner (some id)) id d' := by
      unfold update; rw [if_pos he]
    rw [hu]
    have hgd : ∀ i, getOper o (setDet (setOwner (setOwner st d.owner none) d'.owner (some id)) id d') i =
        if i = id then some d' else getOper o st i := fun i => by rw [getOper_setDet]; rfl
    have hOw : ∀ q, (setDet (setOwner (setOwner st d.owner none) d'.owner (some id)) id d').owners q =
        if q = d'.owner then some id else if q = d.owner then none else st.owners q := fun q => rfl
    constructor
    · intro i x hx
      rw [hgd] at hx
      split at hx
      · rename_i hid
        simp only [Option.some.injEq] at hx
        subst hx hid
        exact byOwner_some (d := d') (by rw [hOw, if_pos rfl]) (by rw [hgd, if_pos rfl])
      · rename_i hid
        have hne := no_oper_of_has hI hh hx
        have hbx := hI.found i x hx
        have hne2 : x.owner ≠ d.owner := by
          intro hc; rw [hc, hb0] at hbx; exact hid (by injection hbx with hbx; exact hbx.symm)
        rcases byOwner_cases hbx with hb | ⟨hb, h0, hr⟩
        · exact byOwner_some (d := x) (by rw [hOw, if_neg hne, if_neg hne2]; exact hb) (by rw [hgd, if_neg hid]; exact hx)
        · subst h0
          rw [hr]
          exact byOwner_main (d := x) (by rw [hOw, if_neg (hr ▸ hne), if_neg (hr ▸ hne2)]; exact hr ▸ hb)
            (by rw [hgd, if_neg hid]; exact hx) hr
    · intro r i hr
      rw [hOw] at hr
      show ∃ x, (if i = id then some d' else st.dets i) = some x ∧ x.owner = r
      split at hr
      · simp only [Option.some.injEq] at hr
        rename_i hrd
        exact ⟨d', by rw [if_pos hr.symm], hrd.symm⟩
      · split at hr
        · cases hr
        · rename_i h1 h2
          obtain ⟨x, hx, hxo⟩ := hI.back r i hr
          have : i ≠ id := by
            rintro rfl
            rw [getOper_of_dets hx] at hd
            cases hd
            exact h2 hxo.symm
          exact ⟨x, by rw [if_neg this]; exact hx, hxo⟩

/-! ## Events -/

theorem Inv.congr {o : Ref} {st st' : State} (hI : Inv o st) (h1 : st'.dets = st.dets) (h2 : st'.owners = st.owners) : Inv o st' := by
  have hg : ∀ i, getOper o st' i = getOper o st i := fun i => by unfold getOper; rw [h1]
  have hb : ∀ r, byOwner o st' r = byOwner o st r := fun r => by unfold byOwner; rw [h2]; simp only [hg]
  exact ⟨fun id d h => by rw [hb]; exact hI.found id d (by rw [← hg]; exact h), fun r id h => by rw [h1]; exact hI.back r id (by rw [← h2]; exact h)⟩

theorem hasByOwner_congr {o : Ref} {st st' : State} (h1 : st'.dets = st.dets) (h2 : st'.owners = st.owners) (r : Ref) :
    hasByOwner o st' r = hasByOwner o st r := by
  unfold hasByOwner getOper; rw [h1, h2]

theorem bool_of_not {b : Bool} (h : ¬ (!b) = true) : b = true := by cases b <;> simp_all

/-- A registration that succeeds. -/
structure Reg (o : Ref) (st : State) (d : Data) (st' : State) (set : List Nat) : Prop where
  check : regCheck d = true
  opens : openSet st [] d.openList = some set
  free : hasByOwner o st d.owner.ref = false
  fresh : st.dets ((st.last + 1) % U32) = none
  dets : st'.dets = fun i => if i = (st.last + 1) % U32 then some (newOper d set) else st.dets i
  owners : st'.owners = fun q => if q = d.owner.ref then some ((st.last + 1) % U32) else st.owners q
  last : st'.last = (st.last + 1) % U32

theorem register_some {o : Ref} {env : Env} {st st' : State} {who : Ref} {d : Data} (h : register o env st who d = some st') :
    (∃ set, Reg o st d st' set) ∧ (d.owner.ref = who ∨ env.base.acct d.owner.ref = true) ∧
      (d.fee.ref = who ∨ env.base.acct d.fee.ref = true) ∧ Asset.operFee env.base st.mem who env.regFee = some st'.mem := by
  unfold register at h
  split at h
  · cases h
  · rename_i h0
    split at h
    · cases h
    · rename_i set hset
      split at h
      · cases h
      · rename_i h1
        split at h
        · cases h
        · rename_i h2
          split at h
          · cases h
          · rename_i h3
            split at h
            · cases h
            · rename_i m hm
              simp only [incId] at h
              unfold create at h
              split at h
              · cases h
              · rename_i h4
                split at h
                · cases h
                · simp only [Option.some.injEq] at h
                  refine ⟨⟨set, ⟨by simpa using h0, hset, by simpa using h3, by simpa using h4, ?_, ?_, ?_⟩⟩, ?_, ?_, ?_⟩
                  · rw [← h]; rfl
                  · rw [← h]; rfl
                  · rw [← h]; rfl
                  · have h1 : (d.owner.ref == who || env.base.acct d.owner.ref) = true := by
                      exact bool_of_not h1
                    rcases Bool.or_eq_true_iff.1 h1 with h | h
                    · exact .inl (by simpa using h)
                    · exact .inr h
                  · have h2 : (d.fee.ref == who || env.base.acct d.fee.ref) = true := by
                      exact bool_of_not h2
                    rcases Bool.or_eq_true_iff.1 h2 with h | h
                    · exact .inl (by simpa using h)
                    · exact .inr h
                  · rw [hm, ← h]; rfl

theorem Reg.inv {o : Ref} {st st' : State} {d : Data} {set : List Nat} (hI : Inv o st) (h : Reg o st d st' set) : Inv o st' := by
  have hc : create o st ((st.last + 1) % U32) (newOper d set) =
      some (setOwner (setDet st ((st.last + 1) % U32) (newOper d set)) d.owner.ref (some ((st.last + 1) % U32))) := by
    unfold create
    rw [if_neg (by simp [h.fresh]), if_neg (by
      have : (newOper d set).owner = d.owner.ref := rfl
      rw [this, h.free]; decide)]
    rfl
  exact (create_inv hI hc).1.congr h.dets h.owners

theorem change_some {o : Ref} {env : Env} {st st' : State} {who : Ref} {id : Nat} {u : Upd} (h : change o env st who id u = some st') :
    ∃ d d', getOper o st id = some d ∧ updCheck o env st id d u = true ∧ who = d.owner ∧ updTo d u = some d' ∧
      Asset.operFee env.base st.mem who env.updFee = some st'.mem ∧ st'.last = st.last ∧
      st' = update { st with mem := st'.mem } id d d' := by
  unfold change at h
  split at h
  · cases h
  · rename_i d hd
    split at h
    · cases h
    · rename_i h1
      split at h
      · cases h
      · rename_i h2
        split at h
        · cases h
        · rename_i m hm
          split at h
          · cases h
          · rename_i d' hd'
            simp only [Option.some.injEq] at h
            have hmem : st'.mem = m := by rw [← h]; unfold update setDet setOwner; split <;> rfl
            refine ⟨d, d', hd, by simpa using h1, by simpa using h2, hd', by rw [hm, hmem], ?_, by rw [hmem]; exact h.symm⟩
            rw [← h]; unfold update setDet setOwner; split <;> rfl

theorem govern_some {o : Ref} {st st' : State} {id : Nat} {on : Bool} (h : govern o st id on = some st') :
    id ≠ 0 ∧ ∃ d, getOper o st id = some d ∧ d.activated = !on ∧ st' = update st id d { d with activated := on } ∧ st'.last = st.last := by
  unfold govern at h
  split at h
  · cases h
  · rename_i h0
    split at h
    · cases h
    · rename_i d hd
      split at h
      · cases h
      · rename_i h1
        simp only [Option.some.injEq] at h
        refine ⟨h0, d, hd, ?_, h.symm, ?_⟩
        · cases hx : d.activated <;> cases on <;> simp_all
        · rw [← h]; unfold update setDet setOwner; split <;> rfl

/-- The owner stays, or the new one had no operator. -/
theorem updTo_owner {o : Ref} {env : Env} {st : State} {id : Nat} {d d' : Oper} {u : Upd} (hc : updCheck o env st id d u = true)
    (h : updTo d u = some d') : d'.owner = d.owner ∨ hasByOwner o st d'.owner = false := by
  cases u with
  | owner u =>
    cases u with
    | reg r =>
      simp only [updTo, Option.some.injEq] at h
      subst h
      simp only [updCheck, Bool.and_eq_true, Bool.not_eq_eq_eq_not, Bool.not_true] at hc
      exact .inr hc.2
    | other r => simp [updTo] at h
  | fee u =>
    cases u with
    | reg r => simp only [updTo, Option.some.injEq] at h; subst h; exact .inl rfl
    | other r => simp [updTo] at h
  | _ => simp only [updTo, Option.some.injEq] at h; subst h; exact .inl rfl

theorem apply_inv {o : Ref} {st st' : State} {e : Ev} (hI : Inv o st) (h : apply o st e = some st') : Inv o st' := by
  cases e with
  | register env who d =>
    obtain ⟨⟨set, hr⟩, _⟩ := register_some h
    exact hr.inv hI
  | change env who id u =>
    obtain ⟨d, d', hd, hc, _, hu, _, _, he⟩ := change_some h
    rw [he]
    have hI' : Inv o { st with mem := st'.mem } := hI.congr rfl rfl
    refine update_inv hI' hd ?_
    rcases updTo_owner hc hu with h1 | h1
    · exact .inl h1
    · exact .inr h1
  | govern id on =>
    obtain ⟨_, d, hd, _, he, _⟩ := govern_some h
    rw [he]
    exact update_inv hI hd (.inl rfl)

theorem step_cases (o : Ref) (st : State) (e : Ev) : (apply o st e = none ∧ step o st e = st) ∨ apply o st e = some (step o st e) := by
  unfold step
  cases apply o st e with
  | none => exact .inl ⟨rfl, rfl⟩
  | some s => exact .inr rfl

theorem step_inv {o : Ref} {st : State} (e : Ev) (hI : Inv o st) : Inv o (step o st e) := by
  rcases step_cases o st e with ⟨_, h⟩ | h
  · rw [h]; exact hI
  · exact apply_inv hI h

theorem genesis_inv (o : Ref) (m : Mem) : Inv o (genesis m) := by
  constructor
  · intro id d h
    unfold getOper genesis at h
    simp only at h
    split at h
    · rename_i h0
      subst h0
      simp only [Option.some.injEq] at h
      subst h
      exact byOwner_main (st := genesis m) rfl rfl rfl
    · cases h
  · intro r id h
    cases h

theorem run_inv {o : Ref} : ∀ (es : List Ev) {st : State}, Inv o st → Inv o (run o st es)
  | [], _, h => h
  | e :: es, st, h => run_inv es (st := step o st e) (step_inv e h)

theorem run_append (o : Ref) (st : State) (a b : List Ev) : run o st (a ++ b) = run o (run o st a) b := by
  simp [run, List.foldl_append]

theorem run_snoc (o : Ref) (st : State) (a : List Ev) (e : Ev) : run o st (a ++ [e]) = step o (run o st a) e := by
  simp [run, List.foldl_append]

end Verif.DexOp
