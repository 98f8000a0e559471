import Verif.TxBase.Spec

/-! # Lemmas about accounts in memory -/
namespace Verif.TxBase
open Spec

theorem keyId_eq_row (e : Env) (d : Db) (uid : Uid) : keyId e d uid = row e d uid := by
  cases uid <;> rfl

theorem fresh_blank (k : Nat) : fresh k = blank k := rfl

/-- The memory machine at `(db, m)` stands for the database `d`, with the sender at row `s`. -/
structure Sim (e : Env) (s : Nat) (db : Db) (m : Mem) (d : Db) : Prop where
  regs : d.regs = db.regs
  hit : ∀ k h, lookup m k = some h → ∃ a, m.heap[h]? = some a ∧ d.accs k = some a
  miss : ∀ k, lookup m k = none → d.accs k = db.accs k
  keys : (m.amap.map (·.1)).Nodup
  ok : Ok e d
  sp : ∀ h, m.sp = some h → lookup m s = some h

theorem lookup_cons (m : Mem) (k h x : Nat) (hp : List Acc) (sp : Option Nat) :
    lookup { heap := hp, amap := (k, h) :: m.amap, sp := sp } x = if k = x then some h else lookup m x := by
  unfold lookup
  simp only [List.find?_cons]
  by_cases hk : k = x
  · simp [hk]
  · have : (k == x) = false := by simpa using hk
    simp only [this, if_neg hk]

theorem lookup_same (m : Mem) (x : Nat) (hp : List Acc) (sp : Option Nat) :
    lookup { heap := hp, amap := m.amap, sp := sp } x = lookup m x := rfl

theorem lookup_none_notMem {m : Mem} {k : Nat} (h : lookup m k = none) : k ∉ m.amap.map (·.1) := by
  unfold lookup at h
  rw [Option.map_eq_none_iff, List.find?_eq_none] at h
  intro hm
  rw [List.mem_map] at hm
  obtain ⟨p, hp, rfl⟩ := hm
  exact h p hp (by simp)

theorem hit_lt {e : Env} {s : Nat} {db : Db} {m : Mem} {d : Db} (S : Sim e s db m d) {k h : Nat} (hl : lookup m k = some h) :
    h < m.heap.length := by
  obtain ⟨a, ha, _⟩ := S.hit k h hl
  rw [List.getElem?_eq_some_iff] at ha
  exact ha.1

/-- Two rows never share an object. -/
theorem hit_inj {e : Env} {s : Nat} {db : Db} {m : Mem} {d : Db} (S : Sim e s db m d) {k k' h : Nat}
    (h1 : lookup m k = some h) (h2 : lookup m k' = some h) : k = k' := by
  obtain ⟨a, ha, hd⟩ := S.hit k h h1
  obtain ⟨a', ha', hd'⟩ := S.hit k' h h2
  rw [ha] at ha'
  obtain rfl : a = a' := by simpa using ha'
  rw [← (S.ok k a hd).1, ← (S.ok k' a hd').1]

/-- Loading finds the row, and nothing else changes. -/
theorem load_spec {e : Env} {s : Nat} {db : Db} {m : Mem} {d : Db} (S : Sim e s db m d) (uid : Uid) :
    (load e db m uid = none ∧ (row e d uid).bind d.accs = none) ∨
    (∃ h m' k a, load e db m uid = some (h, m') ∧ row e d uid = some k ∧ d.accs k = some a ∧ Sim e s db m' d ∧
      lookup m' k = some h ∧ m'.heap[h]? = some a ∧ m'.sp = m.sp) := by
  have hrow : keyId e db uid = row e d uid := by
    rw [← keyId_eq_row]
    cases uid <;> simp [keyId, S.regs]
  unfold load
  rw [hrow]
  cases hk : row e d uid with
  | none => left; simp
  | some k =>
    simp only [Option.bind_some]
    cases hl : lookup m k with
    | some h =>
      obtain ⟨a, ha, hd⟩ := S.hit k h hl
      right
      exact ⟨h, m, k, a, rfl, rfl, hd, S, hl, ha, rfl⟩
    | none =>
      have hm := S.miss k hl
      cases ha : db.accs k with
      | none => left; simp [hm, ha]
      | some a =>
        right
        refine ⟨_, _, k, a, rfl, rfl, by rw [hm, ha], ?_, ?_, ?_, rfl⟩
        · refine ⟨S.regs, ?_, ?_, ?_, S.ok, ?_⟩
          · intro k' h' hl'
            rw [lookup_cons] at hl'
            by_cases hkk : k = k'
            · rw [if_pos hkk] at hl'
              obtain rfl : m.heap.length = h' := by simpa using hl'
              subst hkk
              exact ⟨a, by simp, by rw [hm, ha]⟩
            · rw [if_neg hkk] at hl'
              obtain ⟨a', ha', hd'⟩ := S.hit k' h' hl'
              refine ⟨a', ?_, hd'⟩
              rw [List.getElem?_append_left (hit_lt S hl')]
              exact ha'
          · intro k' hl'
            rw [lookup_cons] at hl'
            by_cases hkk : k = k'
            · rw [if_pos hkk] at hl'; cases hl'
            · rw [if_neg hkk] at hl'
              exact S.miss k' hl'
          · simp only [List.map_cons, List.nodup_cons]
            exact ⟨lookup_none_notMem hl, S.keys⟩
          · intro h' hs
            have := S.sp h' hs
            rw [lookup_cons]
            by_cases hks : k = s
            · subst hks; rw [hl] at this; cases this
            · rw [if_neg hks]; exact this
        · rw [lookup_cons, if_pos rfl]
        · simp

/-- `GetAccount` finds the row the id names, whichever way it goes. -/
theorem getAccount_spec {e : Env} {s : Nat} {db : Db} {m : Mem} {d : Db} (S : Sim e s db m d) (uid : Uid) :
    (getAccount e db m uid = none ∧ (row e d uid).bind d.accs = none) ∨
    (∃ h m' k a, getAccount e db m uid = some (h, m') ∧ row e d uid = some k ∧ d.accs k = some a ∧ Sim e s db m' d ∧
      lookup m' k = some h ∧ m'.heap[h]? = some a ∧ m'.sp = m.sp) := by
  unfold getAccount
  cases hs : m.sp with
  | none => simpa [hs] using load_spec S uid
  | some h =>
    have hl := S.sp h hs
    obtain ⟨a, ha, hd⟩ := S.hit s h hl
    simp only [ha]
    by_cases hself : isSelf a uid
    · rw [if_pos hself]
      right
      obtain ⟨hk, hr, hp⟩ := S.ok s a hd
      refine ⟨h, m, s, a, rfl, ?_, hd, S, hl, ha, hs⟩
      cases uid with
      | null => simp [isSelf] at hself
      | reg r => exact hr r (by simpa [isSelf] using hself)
      | key k =>
        have : a.key = k := by simpa [isSelf] using hself
        simp [row, ← this, hk]
      | pub p =>
        have := hp p (by simpa [isSelf] using hself)
        simp [row, this]
    · rw [if_neg hself]
      simpa [hs] using load_spec S uid

/-- Changing an object changes its row. -/
theorem modify_sim {e : Env} {s : Nat} {db : Db} {m : Mem} {d : Db} (S : Sim e s db m d) {k h : Nat} {a : Acc} (a' : Acc)
    (g : Acc → Acc) (hl : lookup m k = some h) (ha : m.heap[h]? = some a) (hg : g a = a') (regs' : Nat → Option Nat)
    (hok : Ok e { accs := (put d k a').accs, regs := regs' }) :
    Sim e s { db with regs := regs' } (modify m h g) { accs := (put d k a').accs, regs := regs' } := by
  refine ⟨rfl, ?_, ?_, S.keys, hok, ?_⟩
  · intro k' h' hl'
    have hl'' : lookup m k' = some h' := hl'
    simp only [modify, List.getElem?_modify, put]
    by_cases hh : h = h'
    · subst hh
      have hkk : k' = k := hit_inj S hl'' hl
      subst hkk
      refine ⟨a', ?_, by simp⟩
      rw [ha]
      simp [hg]
    · have hkk : k' ≠ k := by
        rintro rfl
        rw [hl] at hl''
        exact hh (by simpa using hl'')
      obtain ⟨b, hb, hd⟩ := S.hit k' h' hl''
      refine ⟨b, ?_, by simp [hkk, hd]⟩
      rw [hb]
      simp [hh]
  · intro k' hl'
    have hl'' : lookup m k' = none := hl'
    have hkk : k' ≠ k := by
      rintro rfl
      rw [hl] at hl''
      cases hl''
    simp only [put, hkk, if_false]
    exact S.miss k' hl''
  · intro h' hs
    exact S.sp h' hs

theorem ok_put {e : Env} {d : Db} (hok : Ok e d) {k : Nat} {a a' : Acc} (hd : d.accs k = some a) (hkey : a'.key = a.key)
    (hreg : a'.reg = a.reg) (hown : a'.owner = a.owner) : Ok e (put d k a') := by
  intro x b hb
  by_cases hx : x = k
  · subst hx
    simp only [put, if_true, Option.some.injEq] at hb
    subst hb
    obtain ⟨h1, h2, h3⟩ := hok x a hd
    exact ⟨hkey.trans h1, fun r hr => h2 r (hreg ▸ hr), fun p hp => h3 p (hown ▸ hp)⟩
  · simp only [put, hx, if_false] at hb
    exact hok x b hb

/-- `change` after a lookup. -/
theorem change_spec {e : Env} {s : Nat} {db : Db} {m : Mem} {d : Db} (S : Sim e s db m d) {k h : Nat} {a : Acc}
    (f : Acc → Option Acc) (hf : Keeps f) (hl : lookup m k = some h) (ha : m.heap[h]? = some a) (hd : d.accs k = some a) :
    (change m h f = none ∧ f a = none) ∨
    (∃ m' a', change m h f = some m' ∧ f a = some a' ∧ Sim e s db m' (put d k a') ∧ m'.sp = m.sp) := by
  unfold change
  simp only [ha]
  cases hfa : f a with
  | none => left; simp
  | some a' =>
    right
    obtain ⟨q1, q2, q3⟩ := hf a a' hfa
    refine ⟨modify m h fun _ => a', a', by simp only [Option.map_some], rfl, ?_, rfl⟩
    have hok := ok_put S.ok hd q1 q2 q3
    have hr : (put d k a') = { accs := (put d k a').accs, regs := db.regs } := by
      simp [put, S.regs]
    rw [hr] at hok ⊢
    exact modify_sim S a' (fun _ => a') hl ha rfl db.regs hok

/-- A new account where there was none. -/
theorem newAccount_spec {e : Env} {s : Nat} {db : Db} {m : Mem} {d : Db} (S : Sim e s db m d) {k : Nat} (hn : d.accs k = none) :
    Sim e s db (newAccount m k).2 (put d k (fresh k)) ∧ lookup (newAccount m k).2 k = some (newAccount m k).1 ∧
      (newAccount m k).2.heap[(newAccount m k).1]? = some (fresh k) ∧ (newAccount m k).2.sp = m.sp := by
  have hl : lookup m k = none := by
    cases hl : lookup m k with
    | none => rfl
    | some h =>
      obtain ⟨a, _, hd⟩ := S.hit k h hl
      rw [hn] at hd; cases hd
  simp only [newAccount, hl]
  refine ⟨⟨S.regs, ?_, ?_, ?_, ?_, ?_⟩, ?_, ?_, trivial⟩
  · intro k' h' hl'
    rw [lookup_cons] at hl'
    by_cases hkk : k = k'
    · rw [if_pos hkk] at hl'
      obtain rfl : m.heap.length = h' := by simpa using hl'
      subst hkk
      exact ⟨fresh k, by simp, by simp [put]⟩
    · rw [if_neg hkk] at hl'
      obtain ⟨a', ha', hd'⟩ := S.hit k' h' hl'
      refine ⟨a', ?_, by simp [put, Ne.symm hkk, hd']⟩
      rw [List.getElem?_append_left (hit_lt S hl')]
      exact ha'
  · intro k' hl'
    rw [lookup_cons] at hl'
    by_cases hkk : k = k'
    · rw [if_pos hkk] at hl'; cases hl'
    · rw [if_neg hkk] at hl'
      simp only [put, Ne.symm hkk, if_false]
      exact S.miss k' hl'
  · simp only [List.map_cons, List.nodup_cons]
    exact ⟨lookup_none_notMem hl, S.keys⟩
  · intro x b hb
    by_cases hx : x = k
    · subst hx
      simp only [put, if_true, Option.some.injEq] at hb
      subst hb
      exact ⟨rfl, by simp [fresh], by simp [fresh]⟩
    · simp only [put, hx, if_false] at hb
      exact S.ok x b hb
  · intro h' hs
    have := S.sp h' hs
    rw [lookup_cons]
    by_cases hks : k = s
    · subst hks; rw [hl] at this; cases this
    · rw [if_neg hks]; exact this
  · rw [lookup_cons, if_pos rfl]
  · simp

/-- Registering an account that has no number yet. -/
theorem ok_register {e : Env} {d : Db} (hok : Ok e d) {k : Nat} {a : Acc} (hd : d.accs k = some a)
    (hfree : d.regs e.newReg = none) (owner : Option Nat) (hown : ∀ p, owner = some p → e.keyOf p = k) :
    Ok e (number (put d k { a with reg := some e.newReg, owner := pick owner a.owner }) e.newReg k) := by
  intro x b hb
  by_cases hx : x = k
  · subst hx
    simp only [number, put, if_true, Option.some.injEq] at hb
    subst hb
    obtain ⟨h1, h2, h3⟩ := hok x a hd
    refine ⟨h1, ?_, ?_⟩
    · intro r hr
      simp only [Option.some.injEq] at hr
      simp [number, hr]
    · intro p hp
      cases owner with
      | none => exact h3 p hp
      | some q => exact hown p hp
  · simp only [number, put, hx, if_false] at hb
    obtain ⟨h1, h2, h3⟩ := hok x b hb
    refine ⟨h1, ?_, h3⟩
    intro r hr
    have := h2 r hr
    by_cases hrr : r = e.newReg
    · subst hrr; rw [hfree] at this; cases this
    · simp [number, put, hrr, this]

theorem registerAt_spec {e : Env} {s : Nat} {db : Db} {m : Mem} {d : Db} (S : Sim e s db m d) {k h : Nat} {a : Acc}
    (hl : lookup m k = some h) (ha : m.heap[h]? = some a) (hd : d.accs k = some a) (hfree : d.regs e.newReg = none)
    (owner : Option Nat) (hown : ∀ p, owner = some p → e.keyOf p = k) :
    ∃ db' m', registerAt e db m h owner = some (db', m') ∧
      Sim e s db' m' (number (put d k { a with reg := some e.newReg, owner := pick owner a.owner }) e.newReg k) ∧ m'.sp = m.sp := by
  unfold registerAt
  simp only [ha]
  refine ⟨_, _, rfl, ?_, rfl⟩
  have hok := ok_register S.ok hd hfree owner hown
  have hk : a.key = k := (S.ok k a hd).1
  have hr : number (put d k { a with reg := some e.newReg, owner := pick owner a.owner }) e.newReg k =
      { accs := (put d k { a with reg := some e.newReg, owner := pick owner a.owner }).accs, regs := setReg db.regs e.newReg a.key } := by
    simp only [number, put, S.regs, hk]
    rfl
  rw [hr] at hok ⊢
  exact modify_sim S _ _ hl ha rfl _ hok

/-- One operation, both ways. -/
theorem step_sim {e : Env} {s : Nat} {db : Db} {m : Mem} {d : Db} (S : Sim e s db m d) (hsp : m.sp.isSome) (o : Op)
    (hp : Plain e d o) :
    (TxBase.step e (db, m) o = none ∧ Spec.step e s d o = none) ∨
    (∃ db' m' d', TxBase.step e (db, m) o = some (db', m') ∧ Spec.step e s d o = some d' ∧ Sim e s db' m' d' ∧ m'.sp = m.sp) := by
  cases o with
  | touch uid f =>
    simp only [TxBase.step, Spec.step, ← fresh_blank]
    rcases getAccount_spec S uid with ⟨h1, h2⟩ | ⟨h, m', k, a, h1, h2, h3, S', h5, h6, h7⟩
    · left
      rw [h1]
      refine ⟨rfl, ?_⟩
      cases hr : row e d uid with
      | none => rfl
      | some k =>
        rw [hr] at h2
        simp only [Option.bind_some] at h2 ⊢
        simp [update, h2]
    · rw [h1, h2]
      simp only [Option.bind_some, update, h3]
      rcases change_spec S' f hp h5 h6 h3 with ⟨q1, q2⟩ | ⟨m'', a', q1, q2, q3, q4⟩
      · left; simp [q1, q2]
      · right; exact ⟨db, m'', put d k a', by simp [q1], by simp [q2], q3, q4.trans h7⟩
  | touchOrNew uid f =>
    simp only [TxBase.step, Spec.step, ← fresh_blank]
    rcases getAccount_spec S uid with ⟨h1, h2⟩ | ⟨h, m', k, a, h1, h2, h3, S', h5, h6, h7⟩
    · rw [h1, h2]
      have key : ∀ k, d.accs k = none →
          (((change (newAccount m k).2 (newAccount m k).1 f).map fun m => (db, m)) = none ∧ (f (fresh k)).map (put d k) = none) ∨
          (∃ db' m' d', ((change (newAccount m k).2 (newAccount m k).1 f).map fun m => (db, m)) = some (db', m') ∧
            (f (fresh k)).map (put d k) = some d' ∧ Sim e s db' m' d' ∧ m'.sp = m.sp) := by
        intro k hk
        obtain ⟨n1, n2, n3, n4⟩ := newAccount_spec S hk
        rcases change_spec n1 f hp n2 n3 (by simp [put]) with ⟨q1, q2⟩ | ⟨m'', a', q1, q2, q3, q4⟩
        · left; simp [q1, q2]
        · right
          refine ⟨db, m'', put d k a', by simp [q1], by simp [q2], ?_, q4.trans n4⟩
          have : put (put d k (fresh k)) k a' = put d k a' := by
            simp only [put]
            congr 1
            funext x
            by_cases hx : x = k <;> simp [hx]
          rw [this] at q3
          exact q3
      cases uid with
      | null => left; simp [newKey]
      | reg r => left; simp [newKey]
      | key k => exact key k h2
      | pub p => exact key _ h2
    · rw [h1, h2]
      simp only [Option.bind_some, h3]
      have hk : a.key = k := (S.ok k a h3).1
      rw [hk]
      rcases change_spec S' f hp h5 h6 h3 with ⟨q1, q2⟩ | ⟨m'', a', q1, q2, q3, q4⟩
      · left; simp [q1, q2]
      · right; exact ⟨db, m'', put d k a', by simp [q1], by simp [q2], q3, q4.trans h7⟩
  | sender f =>
    simp only [TxBase.step, Spec.step, ← fresh_blank]
    cases hs : m.sp with
    | none => simp [hs] at hsp
    | some h =>
      have hl := S.sp h hs
      obtain ⟨a, ha, hd⟩ := S.hit s h hl
      simp only [update, hd]
      rcases change_spec S f hp hl ha hd with ⟨q1, q2⟩ | ⟨m'', a', q1, q2, q3, q4⟩
      · left; simp [q1, q2]
      · right; exact ⟨db, m'', put d s a', by simp [q1], by simp [q2], q3, q4.trans hs⟩
  | register p =>
    simp only [TxBase.step, Spec.step, ← fresh_blank]
    rcases getAccount_spec S (.pub p) with ⟨h1, h2⟩ | ⟨h, m', k, a, h1, h2, h3, S', h5, h6, h7⟩
    · left
      rw [h1]
      simp only [row, Option.bind_some] at h2
      simp [h2]
    · rw [h1]
      have hk : e.keyOf p = k := by simpa [row] using h2
      subst hk
      simp only [h3, h6]
      by_cases hreg : a.reg.isSome
      · right
        exact ⟨db, m', d, by rw [if_pos hreg], by rw [if_pos hreg], S', h7⟩
      · right
        rw [if_neg hreg, if_neg hreg]
        have hfree : d.regs e.newReg = none := hp a h3 (by simpa using hreg)
        obtain ⟨db', m'', r1, r2, r3⟩ := registerAt_spec S' h5 h6 h3 hfree (some p) (by simp)
        exact ⟨db', m'', _, r1, rfl, r2, r3.trans h7⟩
  | deploy =>
    simp only [TxBase.step, Spec.step, ← fresh_blank]
    obtain ⟨hn, hfree⟩ := hp
    obtain ⟨n1, n2, n3, n4⟩ := newAccount_spec S hn
    right
    obtain ⟨db', m'', r1, r2, r3⟩ := registerAt_spec n1 n2 n3 (by simp [put]) (by simpa [put] using hfree) none (by simp)
    refine ⟨db', m'', _, r1, rfl, ?_, r3.trans n4⟩
    have : ∀ b : Acc, put (put d (e.contractKey e.newReg) (fresh (e.contractKey e.newReg))) (e.contractKey e.newReg) b =
        put d (e.contractKey e.newReg) b := by
      intro b
      simp only [put]
      congr 1
      funext x
      by_cases hx : x = e.contractKey e.newReg <;> simp [hx]
    rw [this] at r2
    simpa [hn, pick] using r2

theorem steps_sim {e : Env} {s : Nat} (os : List Op) : ∀ {db : Db} {m : Mem} {d : Db}, Sim e s db m d → m.sp.isSome →
    AllPlain e s os d →
    (TxBase.steps e os (db, m) = none ∧ Spec.steps e s os d = none) ∨
    (∃ db' m' d', TxBase.steps e os (db, m) = some (db', m') ∧ Spec.steps e s os d = some d' ∧ Sim e s db' m' d') := by
  induction os with
  | nil =>
    intro db m d S _ _
    right
    exact ⟨db, m, d, rfl, rfl, S⟩
  | cons o os ih =>
    intro db m d S hsp hp
    simp only [TxBase.steps, Spec.steps]
    rcases step_sim S hsp o hp.1 with ⟨h1, h2⟩ | ⟨db', m', d', h1, h2, h3, h4⟩
    · left; simp [h1, h2]
    · rw [h1, h2]
      exact ih h3 (by rw [h4]; exact hsp) (hp.2 d' h2)

/-- What saving does. -/
theorem foldl_save (heap : List Acc) (l : List (Nat × Nat)) : ∀ db : Db, (l.map (·.1)).Nodup →
    (∀ p ∈ l, ∃ a, heap[p.2]? = some a ∧ a.key = p.1 ∧ ∀ r, a.reg = some r → db.regs r = some p.1) →
    (l.foldl (saveEntry heap) db).regs = db.regs ∧
    ∀ k, (l.foldl (saveEntry heap) db).accs k =
      match (l.find? fun p => p.1 == k).map (·.2) with
      | some h => heap[h]?
      | none => db.accs k := by
  induction l with
  | nil => intro db _ _; simp
  | cons p l ih =>
    intro db hn hl
    simp only [List.map_cons, List.nodup_cons] at hn
    obtain ⟨a, ha, hk, hr⟩ := hl p (by simp)
    have hregs : (save db a).regs = db.regs := by
      unfold save
      cases har : a.reg with
      | none => rfl
      | some r =>
        have hx := hr r har
        funext x
        simp only [setReg, hk]
        by_cases hxr : x = r
        · rw [if_pos hxr, hxr, hx]
        · rw [if_neg hxr]
    have := ih (save db a) hn.2 (by
      intro q hq
      obtain ⟨b, hb, hkb, hrb⟩ := hl q (by simp [hq])
      exact ⟨b, hb, hkb, fun r h => by rw [hregs]; exact hrb r h⟩)
    have he : saveEntry heap db p = save db a := by simp [saveEntry, ha]
    simp only [List.foldl_cons, he]
    refine ⟨this.1.trans hregs, ?_⟩
    intro k
    rw [this.2 k]
    simp only [List.find?_cons]
    by_cases hpk : p.1 = k
    · have hnone : (l.find? fun q => q.1 == k) = none := by
        rw [List.find?_eq_none]
        intro q hq hqk
        apply hn.1
        rw [List.mem_map]
        exact ⟨q, hq, by rw [hpk]; simpa using hqk⟩
      simp [hnone, hpk, ha, save, setAcc, hk]
    · have : ((p.1 == k) = false) := by simpa using hpk
      simp only [this]
      cases hf : (l.find? fun q => q.1 == k) with
      | some q => simp
      | none => simp [save, setAcc, hk, Ne.symm hpk]

/-- Saving at the end gives the database the machine stands for. -/
theorem saveAll_sim {e : Env} {s : Nat} {db : Db} {m : Mem} {d : Db} (S : Sim e s db m d) : saveAll db m = d := by
  have hl : ∀ p ∈ m.amap, lookup m p.1 = some p.2 := by
    intro p hp
    unfold lookup
    have key : ∀ l : List (Nat × Nat), (l.map (·.1)).Nodup → p ∈ l → (l.find? fun q => q.1 == p.1) = some p := by
      intro l
      induction l with
      | nil => intro _ h; cases h
      | cons q l ih =>
        intro hn hm
        simp only [List.map_cons, List.nodup_cons] at hn
        simp only [List.find?_cons]
        rcases List.mem_cons.1 hm with h | h
        · simp [h]
        · have : (q.1 == p.1) = false := by
            simp only [beq_eq_false_iff_ne]
            intro hqp
            apply hn.1
            rw [hqp]
            exact List.mem_map.2 ⟨p, h, rfl⟩
          simp only [this]
          exact ih hn.2 h
    rw [key m.amap S.keys hp]
    rfl
  have := foldl_save m.heap m.amap db S.keys (by
    intro p hp
    obtain ⟨a, ha, hd⟩ := S.hit p.1 p.2 (hl p hp)
    obtain ⟨h1, h2, _⟩ := S.ok p.1 a hd
    exact ⟨a, ha, h1, fun r hr => by rw [← S.regs]; exact h2 r hr⟩)
  have hacc : (saveAll db m).accs = d.accs := by
    funext k
    unfold saveAll
    rw [this.2 k]
    change (match lookup m k with
      | some h => m.heap[h]?
      | none => db.accs k) = _
    cases hk : lookup m k with
    | some h =>
      obtain ⟨a, ha, hd⟩ := S.hit k h hk
      simp [ha, hd]
    | none => exact (S.miss k hk).symm
  have hreg : (saveAll db m).regs = d.regs := by
    unfold saveAll
    rw [this.1, S.regs]
  cases hA : saveAll db m
  cases d
  rw [hA] at hacc hreg
  simp_all

theorem empty_sim {e : Env} (s : Nat) {db : Db} (h : Ok e db) : Sim e s db Mem.empty db :=
  ⟨rfl, fun _ _ hl => by simp [lookup, Mem.empty] at hl, fun _ _ => rfl, List.nodup_nil, h, fun _ hs => by simp [Mem.empty] at hs⟩

end Verif.TxBase
