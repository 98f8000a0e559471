import Verif.Addr.Model

/-!
# The tables of the address manager stay consistent
-/
namespace Verif.Addr

theorem upd_same {α : Type} (f : Nat → α) (k : Nat) (v : α) : upd f k v k = v := if_pos rfl
theorem upd_ne {α : Type} (f : Nat → α) {k x : Nat} (v : α) (h : x ≠ k) : upd f k v x = f x := if_neg h

theorem countP_drop {P Q : Nat → Bool} {k : Nat} (h : ∀ n, n ≠ k → P n = Q n) (hP : P k = true) (hQ : Q k = false) :
    ∀ N, k < N → (List.range N).countP P = (List.range N).countP Q + 1
  | 0, hk => absurd hk (Nat.not_lt_zero _)
  | N + 1, hk => by
    rw [List.range_succ, List.countP_append, List.countP_append, List.countP_singleton, List.countP_singleton]
    by_cases hn : k = N
    · subst hn
      have : (List.range k).countP P = (List.range k).countP Q := by
        apply List.countP_congr
        intro x hx
        rw [h x (Nat.ne_of_lt (List.mem_range.1 hx))]
      rw [this, hP, hQ]; simp
    · rw [countP_drop h hP hQ N (by omega), h N (fun hc => hn hc.symm)]; omega

theorem countP_same {P Q : Nat → Bool} (h : ∀ n, P n = Q n) (N : Nat) : (List.range N).countP P = (List.range N).countP Q := by
  rw [show P = Q from funext h]

theorem countP_two {P : Nat → Bool} {j k : Nat} (hj : P j = true) (hk : P k = true) (hjk : j ≠ k) {N : Nat} (h1 : j < N) (h2 : k < N) :
    2 ≤ (List.range N).countP P := by
  have e1 := countP_drop (P := P) (Q := upd P j false) (k := j) (fun n hn => (upd_ne _ _ hn).symm) hj (upd_same _ _ _) N h1
  have e2 := countP_drop (P := upd P j false) (Q := upd (upd P j false) k false) (k := k) (fun n hn => (upd_ne _ _ hn).symm)
    (by rw [upd_ne _ _ (fun h => hjk h.symm)]; exact hk) (upd_same _ _ _) N h2
  omega

/-- Index by address, order of all entries. -/
structure Core (s : St) : Prop where
  a1 : ∀ a n, s.addr a = some n → ∃ i, s.info n = some i ∧ i.ip = a
  a2 : ∀ n i, s.info n = some i → s.addr i.ip = some n
  p1 : ∀ n i, s.info n = some i → s.random[i.pos]? = some n
  p2 : ∀ k n, s.random[k]? = some n → ∃ i, s.info n = some i ∧ i.pos = k
  lt : ∀ n i, s.info n = some i → n < s.next

/-- The buckets; `x` is an entry with one more in its counter. -/
structure Bk (H : Hashes) (s : St) (x : Option Nat) : Prop where
  t1 : ∀ n i, s.info n = some i → i.tried = true → i.ref = 0 ∧ n ∈ s.tried (triedBucket H i.ip i.port)
  t2 : ∀ k n, n ∈ s.tried k → ∃ i, s.info n = some i ∧ i.tried = true ∧ triedBucket H i.ip i.port = k
  t3 : ∀ k, (s.tried k).Nodup
  t4 : ∀ k, (s.tried k).length ≤ 64
  n1 : ∀ n i, s.info n = some i → i.tried = false → 1 ≤ i.ref ∧ i.ref ≤ 4 ∧ i.ref = refs s.new n + (if x = some n then 1 else 0)
  n2 : ∀ b n, n ∈ s.new b → b < 256 ∧ ∃ i, s.info n = some i ∧ i.tried = false
  n3 : ∀ b, (s.new b).Pairwise (· < ·)
  n4 : ∀ b, (s.new b).length ≤ 64

theorem nodup_of_lt {l : List Nat} (h : l.Pairwise (· < ·)) : l.Nodup := h.imp (fun h => Nat.ne_of_lt h)

/-- Whether an entry exists and is among the tried (`true`) or new ones. -/
def isKind (info : Nat → Option Info) (t : Bool) (n : Nat) : Bool :=
  match info n with
  | none => false
  | some i => i.tried == t

structure Ct (s : St) : Prop where
  c1 : s.nTried = ((List.range s.next).countP (isKind s.info true) : Nat)
  c2 : s.nNew = ((List.range s.next).countP (isKind s.info false) : Nat)

structure Inv (H : Hashes) (s : St) (x : Option Nat) : Prop where
  core : Core s
  bk : Bk H s x
  ct : Ct s

/-- An entry without its position. -/
def strip (i : Info) : Info := { i with pos := 0 }

/-- What a peer would call the entry: its address, who told us, and its table. -/
def akey (i : Info) : Ip × Nat × Ip × Bool := (i.ip, i.port, i.src, i.tried)

def bkey (i : Info) : Ip × Nat × Int × Bool := (i.ip, i.port, i.ref, i.tried)

def ckey (i : Info) : Ip × Nat := (i.ip, i.pos)

theorem map_some_inv {α β : Type} {f : α → β} {o p : Option α} (h : o.map f = p.map f) {a : α} (ho : o = some a) :
    ∃ b, p = some b ∧ f b = f a := by
  subst ho
  cases p with
  | none => cases h
  | some b => exact ⟨b, rfl, (Option.some.inj h).symm⟩

theorem strip_bkey {o p : Option Info} (h : o.map strip = p.map strip) : o.map bkey = p.map bkey := by
  have e : ∀ q : Option Info, q.map bkey = (q.map strip).map bkey := by intro q; cases q <;> rfl
  rw [e o, e p, h]

theorem Bk.congr {H : Hashes} {s s' : St} {x : Option Nat} (hb : Bk H s x) (hi : ∀ n, (s'.info n).map bkey = (s.info n).map bkey)
    (ht : s'.tried = s.tried) (hn : s'.new = s.new) : Bk H s' x := by
  have back : ∀ n i, s'.info n = some i → ∃ j, s.info n = some j ∧ j.ip = i.ip ∧ j.port = i.port ∧ j.ref = i.ref ∧ j.tried = i.tried := by
    intro n i h
    obtain ⟨j, h1, h2⟩ := map_some_inv (hi n) h
    simp only [bkey, Prod.mk.injEq] at h2
    exact ⟨j, h1, h2⟩
  have forth : ∀ n i, s.info n = some i → ∃ j, s'.info n = some j ∧ j.ip = i.ip ∧ j.port = i.port ∧ j.ref = i.ref ∧ j.tried = i.tried := by
    intro n i h
    obtain ⟨j, h1, h2⟩ := map_some_inv (hi n).symm h
    simp only [bkey, Prod.mk.injEq] at h2
    exact ⟨j, h1, h2⟩
  refine ⟨?_, ?_, ?_, ?_, ?_, ?_, ?_, ?_⟩
  · intro n i h h'
    obtain ⟨j, e, e1, e2, e3, e4⟩ := back n i h
    have := hb.t1 n j e (by rw [e4]; exact h')
    rw [ht, ← e3, ← e1, ← e2]; exact this
  · intro k n h
    rw [ht] at h
    obtain ⟨i, h1, h2, h3⟩ := hb.t2 k n h
    obtain ⟨j, e, e1, e2, e3, e4⟩ := forth n i h1
    exact ⟨j, e, e4.trans h2, by rw [e1, e2]; exact h3⟩
  · rw [ht]; exact hb.t3
  · rw [ht]; exact hb.t4
  · intro n i h h'
    obtain ⟨j, e, e1, e2, e3, e4⟩ := back n i h
    have := hb.n1 n j e (by rw [e4]; exact h')
    rw [hn, ← e3]; exact this
  · intro b n h
    rw [hn] at h
    obtain ⟨h0, i, h1, h2⟩ := hb.n2 b n h
    obtain ⟨j, e, _, _, _, e4⟩ := forth n i h1
    exact ⟨h0, j, e, e4.trans h2⟩
  · rw [hn]; exact hb.n3
  · rw [hn]; exact hb.n4

theorem isKind_congr {s s' : St} (hi : ∀ n, (s'.info n).map bkey = (s.info n).map bkey) (t : Bool) (n : Nat) : isKind s'.info t n = isKind s.info t n := by
  have h := hi n
  unfold isKind
  cases h1 : s'.info n with
  | none =>
    rw [h1] at h
    cases h2 : s.info n with
    | none => rfl
    | some j => rw [h2] at h; cases h
  | some i =>
    rw [h1] at h
    cases h2 : s.info n with
    | none => rw [h2] at h; cases h
    | some j =>
      rw [h2] at h
      have h := Option.some.inj h
      simp only [bkey, Prod.mk.injEq] at h
      dsimp only
      rw [h.2.2.2]

theorem Ct.congr {s s' : St} (hc : Ct s) (hi : ∀ n, (s'.info n).map bkey = (s.info n).map bkey) (hx : s'.next = s.next)
    (ht : s'.nTried = s.nTried) (hn : s'.nNew = s.nNew) : Ct s' := by
  refine ⟨?_, ?_⟩
  · rw [ht, hx, countP_same (isKind_congr hi true)]; exact hc.c1
  · rw [hn, hx, countP_same (isKind_congr hi false)]; exact hc.c2

theorem Core.congr {s s' : St} (hc : Core s) (hi : ∀ n, (s'.info n).map ckey = (s.info n).map ckey) (ha : s'.addr = s.addr)
    (hr : s'.random = s.random) (hx : s'.next = s.next) : Core s' := by
  have back : ∀ n i, s'.info n = some i → ∃ j, s.info n = some j ∧ j.ip = i.ip ∧ j.pos = i.pos := by
    intro n i h
    obtain ⟨j, h1, h2⟩ := map_some_inv (hi n) h
    simp only [ckey, Prod.mk.injEq] at h2
    exact ⟨j, h1, h2⟩
  have forth : ∀ n i, s.info n = some i → ∃ j, s'.info n = some j ∧ j.ip = i.ip ∧ j.pos = i.pos := by
    intro n i h
    obtain ⟨j, h1, h2⟩ := map_some_inv (hi n).symm h
    simp only [ckey, Prod.mk.injEq] at h2
    exact ⟨j, h1, h2⟩
  refine ⟨?_, ?_, ?_, ?_, ?_⟩
  · intro a n h
    rw [ha] at h
    obtain ⟨i, h1, h2⟩ := hc.a1 a n h
    obtain ⟨j, e, e1, _⟩ := forth n i h1
    exact ⟨j, e, e1.trans h2⟩
  · intro n i h
    obtain ⟨j, e, e1, _⟩ := back n i h
    rw [ha, ← e1]; exact hc.a2 n j e
  · intro n i h
    obtain ⟨j, e, _, e2⟩ := back n i h
    rw [hr, ← e2]; exact hc.p1 n j e
  · intro k n h
    rw [hr] at h
    obtain ⟨i, h1, h2⟩ := hc.p2 k n h
    obtain ⟨j, e, _, e2⟩ := forth n i h1
    exact ⟨j, e, e2.trans h2⟩
  · intro n i h
    obtain ⟨j, e, _⟩ := back n i h
    rw [hx]; exact hc.lt n j e

/-- Changing one entry. -/
theorem map_upd {β : Type} {f : Info → β} {g : Nat → Option Info} {id : Nat} {i j : Info} (hg : g id = some i) (h : f j = f i) :
    ∀ n, (upd g id (some j) n).map f = (g n).map f := by
  intro n
  by_cases hn : n = id
  · subst hn; rw [upd_same, hg, Option.map_some, Option.map_some, h]
  · rw [upd_ne _ _ hn]

/-- A change of an entry that is neither in its address, position, counter nor kind. -/
theorem Inv.touch {H : Hashes} {s : St} {x : Option Nat} (hs : Inv H s x) {id : Nat} {i j : Info} (hi : s.info id = some i)
    (hb : bkey j = bkey i) (hc : ckey j = ckey i) : Inv H { s with info := upd s.info id (some j) } x :=
  ⟨hs.core.congr (map_upd hi hc) rfl rfl rfl, hs.bk.congr (map_upd hi hb) rfl rfl, hs.ct.congr (map_upd hi hb) rfl rfl rfl⟩

theorem swap_ok {s : St} (hc : Core s) {p q : Nat} (hp : p < s.random.length) (hq : q < s.random.length) :
    ∃ s', swapRandom s p q = some s' ∧ Core s' ∧ (∀ n, (s'.info n).map strip = (s.info n).map strip) ∧
      s'.random[p]? = s.random[q]? ∧ s'.random[q]? = s.random[p]? ∧ (∀ k, k ≠ p → k ≠ q → s'.random[k]? = s.random[k]?) ∧
      s'.random.length = s.random.length ∧ s'.addr = s.addr ∧ s'.next = s.next ∧ s'.tried = s.tried ∧ s'.new = s.new ∧
      s'.nTried = s.nTried ∧ s'.nNew = s.nNew := by
  unfold swapRandom
  by_cases hpq : p = q
  · subst hpq
    rw [if_pos rfl]
    exact ⟨s, rfl, hc, fun _ => rfl, rfl, rfl, fun _ _ _ => rfl, rfl, rfl, rfl, rfl, rfl, rfl, rfl⟩
  · rw [if_neg hpq]
    obtain ⟨a, ha⟩ : ∃ a, s.random[p]? = some a := ⟨_, List.getElem?_eq_getElem hp⟩
    obtain ⟨b, hb⟩ : ∃ b, s.random[q]? = some b := ⟨_, List.getElem?_eq_getElem hq⟩
    obtain ⟨ia, hia, hpa⟩ := hc.p2 p a ha
    obtain ⟨ib, hib, hpb⟩ := hc.p2 q b hb
    have hab : a ≠ b := by
      intro h
      subst h
      rw [hia] at hib
      injection hib with hib
      rw [hib] at hpa
      exact hpq (hpa.symm.trans hpb)
    rw [ha, hb]
    dsimp only
    rw [hia, hib]
    dsimp only
    have rp : ((s.random.set p b).set q a)[p]? = some b := by
      rw [List.getElem?_set_ne (fun h => hpq h.symm), List.getElem?_set_self hp]
    have rq : ((s.random.set p b).set q a)[q]? = some a := by
      rw [List.getElem?_set_self (by rw [List.length_set]; exact hq)]
    have rk : ∀ k, k ≠ p → k ≠ q → ((s.random.set p b).set q a)[k]? = s.random[k]? := by
      intro k h1 h2
      rw [List.getElem?_set_ne (fun h => h2 h.symm), List.getElem?_set_ne (fun h => h1 h.symm)]
    have hget : ∀ n i, upd (upd s.info a (some { ia with pos := q })) b (some { ib with pos := p }) n = some i →
        (n = b ∧ i = { ib with pos := p }) ∨ (n = a ∧ i = { ia with pos := q }) ∨ (n ≠ a ∧ n ≠ b ∧ s.info n = some i) := by
      intro n i h
      by_cases h1 : n = b
      · subst h1; rw [upd_same] at h; exact Or.inl ⟨rfl, (Option.some.inj h).symm⟩
      · rw [upd_ne _ _ h1] at h
        by_cases h2 : n = a
        · subst h2; rw [upd_same] at h; exact Or.inr (Or.inl ⟨rfl, (Option.some.inj h).symm⟩)
        · rw [upd_ne _ _ h2] at h; exact Or.inr (Or.inr ⟨h2, h1, h⟩)
    have hstrip : ∀ n, (upd (upd s.info a (some { ia with pos := q })) b (some { ib with pos := p }) n).map strip = (s.info n).map strip := by
      intro n
      have h1 : upd s.info a (some { ia with pos := q }) b = some ib := by rw [upd_ne _ _ (fun h => hab h.symm)]; exact hib
      exact (map_upd (f := strip) (j := { ib with pos := p }) h1 rfl n).trans (map_upd (f := strip) (j := { ia with pos := q }) hia rfl n)
    refine ⟨_, rfl, ?_, hstrip, ?_, ?_, ?_, ?_, rfl, rfl, rfl, rfl, rfl, rfl⟩
    · refine ⟨?_, ?_, ?_, ?_, ?_⟩
      · intro x n h
        obtain ⟨i, h1, h2⟩ := hc.a1 x n h
        obtain ⟨j, e1, e2⟩ := map_some_inv (hstrip n).symm h1
        refine ⟨j, e1, ?_⟩
        have h3 : (strip j).ip = (strip i).ip := congrArg Info.ip e2
        exact Eq.trans h3 h2
      · intro n i h
        obtain ⟨j, e1, e2⟩ := map_some_inv (hstrip n) h
        have h1 := hc.a2 n j e1
        have h2 : (strip j).ip = (strip i).ip := congrArg Info.ip e2
        have h2 : j.ip = i.ip := h2
        rw [h2] at h1; exact h1
      · intro n i h
        dsimp only
        rcases hget n i h with ⟨h1, h2⟩ | ⟨h1, h2⟩ | ⟨h1, h2, h3⟩
        · subst h1; subst h2; exact rp
        · subst h1; subst h2; exact rq
        · have h4 := hc.p1 n i h3
          rw [rk]
          · exact h4
          · intro h5; rw [h5, ha] at h4; exact h1 (Option.some.inj h4).symm
          · intro h5; rw [h5, hb] at h4; exact h2 (Option.some.inj h4).symm
      · intro k n h
        dsimp only at h ⊢
        by_cases h1 : k = p
        · subst h1
          rw [rp] at h
          have := Option.some.inj h
          subst this
          exact ⟨_, upd_same _ _ _, rfl⟩
        · by_cases h2 : k = q
          · subst h2
            rw [rq] at h
            have := Option.some.inj h
            subst this
            exact ⟨_, by rw [upd_ne _ _ hab, upd_same], rfl⟩
          · rw [rk k h1 h2] at h
            obtain ⟨i, e1, e2⟩ := hc.p2 k n h
            have na : n ≠ a := by intro hn; subst hn; rw [hia] at e1; injection e1 with e1; rw [← e1] at e2; exact h1 (e2.symm.trans hpa)
            have nb : n ≠ b := by intro hn; subst hn; rw [hib] at e1; injection e1 with e1; rw [← e1] at e2; exact h2 (e2.symm.trans hpb)
            exact ⟨i, by rw [upd_ne _ _ nb, upd_ne _ _ na]; exact e1, e2⟩
      · intro n i h
        obtain ⟨j, e1, _⟩ := map_some_inv (hstrip n) h
        exact hc.lt n j e1
    · dsimp only; rw [rp]
    · dsimp only; rw [rq]
    · exact rk
    · dsimp only; rw [List.length_set, List.length_set]

theorem refs_erase_ne {new : Nat → List Nat} {id n : Nat} (b : Nat) (h : n ≠ id) : refs (upd new b ((new b).erase id)) n = refs new n := by
  unfold refs
  apply countP_same
  intro c
  by_cases hc : c = b
  · subst hc; rw [upd_same]
    have : n ∈ (new c).erase id ↔ n ∈ new c := List.mem_erase_of_ne h
    simp [this]
  · rw [upd_ne _ _ hc]

theorem refs_erase_self {new : Nat → List Nat} {id : Nat} {b : Nat} (hb : b < 256) (hn : (new b).Nodup) (h : id ∈ new b) :
    refs new id = refs (upd new b ((new b).erase id)) id + 1 := by
  unfold refs
  refine countP_drop ?_ ?_ ?_ 256 hb
  · intro c hc; rw [upd_ne _ _ hc]
  · exact decide_eq_true h
  · rw [upd_same]; exact decide_eq_false (fun hc => (List.Nodup.mem_erase_iff hn).1 hc |>.1 rfl)

theorem refs_two {new : Nat → List Nat} {id : Nat} {b c : Nat} (hb : b < 256) (hc : c < 256) (h1 : id ∈ new b) (h2 : id ∈ new c) (h : b ≠ c) :
    2 ≤ refs new id := countP_two (decide_eq_true h1) (decide_eq_true h2) h hb hc

/-- Taking an entry out of a new bucket. -/
theorem unref_ok {H : Hashes} {s : St} {x : Option Nat} (hs : Inv H s x) {b : Nat} {id : Nat} (hid : id ∈ s.new b) (hx : x ≠ some id) :
    ∃ s', deref s id = some s' ∧ s'.new = s.new ∧ Inv H { s' with new := upd s'.new b ((s'.new b).erase id) } x ∧
      (∀ n, n ≠ id → (s'.info n).map strip = (s.info n).map strip) ∧ s'.next = s.next ∧ s'.tried = s.tried ∧
      ((∀ c, c ≠ b → id ∈ s.new c → s'.info id ≠ none) ∧ ∀ j, s'.info id = some j → (s.info id).map akey = some (akey j)) := by
  obtain ⟨hb, i, hi, hti⟩ := hs.bk.n2 b id hid
  obtain ⟨hr1, hr2, hr3⟩ := hs.bk.n1 id i hi hti
  rw [if_neg hx] at hr3
  have hself := refs_erase_self hb (nodup_of_lt (hs.bk.n3 b)) hid
  unfold deref
  rw [hi]
  dsimp only
  have hlen : i.pos < s.random.length := by
    have := hs.core.p1 id i hi
    exact (List.getElem?_eq_some_iff.1 this).1
  by_cases h0 : i.ref - 1 = 0
  · rw [if_pos h0]
    have hc0 : Core { s with info := upd s.info id (some { i with ref := i.ref - 1 }) } :=
      hs.core.congr (map_upd hi rfl) rfl rfl rfl
    obtain ⟨s2, e0, e1, e2, e3, e4, e5, e6, e7, e8, e9, e10, e11, e12⟩ :=
      swap_ok hc0 (p := i.pos) (q := s.random.length - 1) hlen (by show s.random.length - 1 < s.random.length; omega)
    rw [e0]
    dsimp only at e2 e3 e4 e5 e6 e7 e8 e9 e10 e11 e12 ⊢
    have hlast : s2.random[s.random.length - 1]? = some id := e4.trans (hs.core.p1 id i hi)
    obtain ⟨i2, hi2, hp2⟩ := e1.p2 _ _ hlast
    have hstrip : ∀ n, n ≠ id → (s2.info n).map strip = (s.info n).map strip := by
      intro n hn; rw [e2 n, upd_ne _ _ hn]
    have hbk : ∀ n, n ≠ id → (s2.info n).map bkey = (s.info n).map bkey := fun n hn => strip_bkey (hstrip n hn)
    have hother : ∀ c, c ≠ b → id ∉ s.new c := by
      intro c hcb hic
      have := refs_two hb (hs.bk.n2 c id hic).1 hid hic (fun h => hcb h.symm)
      omega
    have hdrop : ∀ k n, s2.random.dropLast[k]? = some n ↔ s2.random[k]? = some n ∧ k ≠ s.random.length - 1 := by
      intro k n
      rw [List.getElem?_dropLast]
      constructor
      · intro h
        split at h
        · rename_i hk
          exact ⟨h, by rw [e6] at hk; omega⟩
        · cases h
      · rintro ⟨h1, h2⟩
        have := (List.getElem?_eq_some_iff.1 h1).1
        rw [if_pos (by rw [e6] at *; omega)]
        exact h1
    refine ⟨_, rfl, e10, ⟨?_, ?_, ?_⟩, ?_, e8, e9, ?_⟩
    · refine ⟨?_, ?_, ?_, ?_, ?_⟩
      · intro a n h
        dsimp only at h ⊢
        by_cases ha : a = i.ip
        · subst ha; rw [upd_same] at h; cases h
        · rw [upd_ne _ _ ha] at h
          obtain ⟨j, h1, h2⟩ := e1.a1 a n h
          have hn : n ≠ id := by
            intro hn
            rw [e7] at h
            obtain ⟨j', h3, h4⟩ := hs.core.a1 a n h
            rw [hn, hi] at h3
            injection h3 with h3
            rw [← h3] at h4
            exact ha h4.symm
          exact ⟨j, by rw [upd_ne _ _ hn]; exact h1, h2⟩
      · intro n j h
        dsimp only at h ⊢
        have hn : n ≠ id := by intro hn; subst hn; rw [upd_same] at h; cases h
        rw [upd_ne _ _ hn] at h
        have h1 := e1.a2 n j h
        have ha : j.ip ≠ i.ip := by
          intro ha
          rw [ha, e7, hs.core.a2 id i hi] at h1
          exact hn (Option.some.inj h1).symm
        rw [upd_ne _ _ ha]; exact h1
      · intro n j h
        dsimp only at h ⊢
        have hn : n ≠ id := by intro hn; subst hn; rw [upd_same] at h; cases h
        rw [upd_ne _ _ hn] at h
        have h1 := e1.p1 n j h
        rw [hdrop]
        refine ⟨h1, ?_⟩
        intro hk
        rw [hk, hlast] at h1
        exact hn (Option.some.inj h1).symm
      · intro k n h
        dsimp only at h ⊢
        rw [hdrop] at h
        obtain ⟨j, h1, h2⟩ := e1.p2 k n h.1
        have hn : n ≠ id := by
          intro hn
          rw [hn, hi2] at h1
          injection h1 with h1
          rw [← h1, hp2] at h2
          exact h.2 h2.symm
        exact ⟨j, by rw [upd_ne _ _ hn]; exact h1, h2⟩
      · intro n j h
        dsimp only at h ⊢
        have hn : n ≠ id := by intro hn; subst hn; rw [upd_same] at h; cases h
        rw [upd_ne _ _ hn] at h
        exact e1.lt n j h
    · have back : ∀ n j, upd s2.info id none n = some j → n ≠ id ∧ ∃ j', s.info n = some j' ∧ bkey j' = bkey j := by
        intro n j h
        have hn : n ≠ id := by intro hn; subst hn; rw [upd_same] at h; cases h
        rw [upd_ne _ _ hn] at h
        exact ⟨hn, map_some_inv (hbk n hn) h⟩
      have forth : ∀ n j, n ≠ id → s.info n = some j → ∃ j', upd s2.info id none n = some j' ∧ bkey j' = bkey j := by
        intro n j hn h
        rw [upd_ne _ _ hn]
        exact map_some_inv (hbk n hn).symm h
      refine ⟨?_, ?_, ?_, ?_, ?_, ?_, ?_, ?_⟩ <;> dsimp only
      · intro n j h h'
        obtain ⟨hn, j', e, ek⟩ := back n j h
        simp only [bkey, Prod.mk.injEq] at ek
        have := hs.bk.t1 n j' e (ek.2.2.2.trans h')
        rw [e9, ← ek.1, ← ek.2.1, ← ek.2.2.1]; exact this
      · intro k n h
        rw [e9] at h
        obtain ⟨j, h1, h2, h3⟩ := hs.bk.t2 k n h
        have hn : n ≠ id := by intro hn; subst hn; rw [hi] at h1; injection h1 with h1; rw [← h1, hti] at h2; cases h2
        obtain ⟨j', g1, g2⟩ := forth n j hn h1
        simp only [bkey, Prod.mk.injEq] at g2
        exact ⟨j', g1, g2.2.2.2.trans h2, by rw [g2.1, g2.2.1]; exact h3⟩
      · rw [e9]; exact hs.bk.t3
      · rw [e9]; exact hs.bk.t4
      · intro n j h h'
        obtain ⟨hn, j', e, ek⟩ := back n j h
        simp only [bkey, Prod.mk.injEq] at ek
        have := hs.bk.n1 n j' e (ek.2.2.2.trans h')
        rw [e10, refs_erase_ne b hn, ← ek.2.2.1]; exact this
      · intro c n h
        rw [e10] at h
        have hn : n ≠ id ∧ n ∈ s.new c := by
          by_cases hcb : c = b
          · subst hcb
            rw [upd_same] at h
            exact (List.Nodup.mem_erase_iff (nodup_of_lt (hs.bk.n3 c))).1 h
          · rw [upd_ne _ _ hcb] at h
            exact ⟨fun hn => hother c hcb (hn ▸ h), h⟩
        obtain ⟨h0, j, h1, h2⟩ := hs.bk.n2 c n hn.2
        obtain ⟨j', g1, g2⟩ := forth n j hn.1 h1
        simp only [bkey, Prod.mk.injEq] at g2
        exact ⟨h0, j', g1, g2.2.2.2.trans h2⟩
      · intro c
        rw [e10]
        by_cases hcb : c = b
        · subst hcb; rw [upd_same]; exact (hs.bk.n3 c).sublist List.erase_sublist
        · rw [upd_ne _ _ hcb]; exact hs.bk.n3 c
      · intro c
        rw [e10]
        by_cases hcb : c = b
        · subst hcb; rw [upd_same]
          have := hs.bk.n4 c
          have h2 := List.length_erase_le (a := id) (l := s.new c)
          omega
        · rw [upd_ne _ _ hcb]; exact hs.bk.n4 c
    · have hk : ∀ t n, n ≠ id → isKind (upd s2.info id none) t n = isKind s.info t n := by
        intro t n hn
        have h := hbk n hn
        unfold isKind
        rw [upd_ne _ _ hn]
        cases h1 : s2.info n with
        | none =>
          rw [h1] at h
          cases h2 : s.info n with
          | none => rfl
          | some j => rw [h2] at h; cases h
        | some j =>
          rw [h1] at h
          cases h2 : s.info n with
          | none => rw [h2] at h; cases h
          | some j' =>
            rw [h2] at h
            have h := Option.some.inj h
            simp only [bkey, Prod.mk.injEq] at h
            dsimp only
            rw [h.2.2.2]
      have k0 : ∀ t, isKind (upd s2.info id none) t id = false := by
        intro t; unfold isKind; rw [upd_same]
      have kf : isKind s.info false id = true := by unfold isKind; rw [hi]; dsimp only; rw [hti]; rfl
      have kt : isKind s.info true id = false := by unfold isKind; rw [hi]; dsimp only; rw [hti]; rfl
      refine ⟨?_, ?_⟩
      · show s2.nTried = _
        rw [e11, hs.ct.c1]
        show _ = (((List.range s2.next).countP (isKind (upd s2.info id none) true) : Nat) : Int)
        rw [e8]
        congr 1
        apply countP_same
        intro n
        by_cases hn : n = id
        · subst hn; rw [kt, k0]
        · rw [hk true n hn]
      · show s2.nNew - 1 = _
        rw [e12, hs.ct.c2]
        show _ = (((List.range s2.next).countP (isKind (upd s2.info id none) false) : Nat) : Int)
        rw [e8, countP_drop (fun n hn => (hk false n hn).symm) kf (k0 false) s.next (hs.core.lt id i hi)]
        omega
    · intro n hn
      dsimp only
      rw [upd_ne _ _ hn]; exact hstrip n hn
    · refine ⟨fun c hcb hic => absurd hic (hother c hcb), ?_⟩
      intro j hj
      dsimp only at hj
      rw [upd_same] at hj; cases hj
  · rw [if_neg h0]
    have hcore : Core { s with info := upd s.info id (some { i with ref := i.ref - 1 }), new := upd s.new b ((s.new b).erase id) } :=
      hs.core.congr (map_upd hi rfl) rfl rfl rfl
    refine ⟨_, rfl, rfl, ⟨hcore, ?_, ?_⟩, ?_, rfl, rfl, ?_⟩
    · have hget : ∀ n j, upd s.info id (some { i with ref := i.ref - 1 }) n = some j →
          (n = id ∧ j = { i with ref := i.ref - 1 }) ∨ (n ≠ id ∧ s.info n = some j) := by
        intro n j h
        by_cases hn : n = id
        · subst hn; rw [upd_same] at h; exact Or.inl ⟨rfl, (Option.some.inj h).symm⟩
        · rw [upd_ne _ _ hn] at h; exact Or.inr ⟨hn, h⟩
      refine ⟨?_, ?_, hs.bk.t3, hs.bk.t4, ?_, ?_, ?_, ?_⟩ <;> dsimp only
      · intro n j h h'
        rcases hget n j h with ⟨h1, h2⟩ | ⟨h1, h2⟩
        · subst h2
          rw [show ({ i with ref := i.ref - 1 } : Info).tried = i.tried from rfl, hti] at h'; cases h'
        · exact hs.bk.t1 n j h2 h'
      · intro k n h
        obtain ⟨j, h1, h2, h3⟩ := hs.bk.t2 k n h
        have hn : n ≠ id := by intro hn; subst hn; rw [hi] at h1; injection h1 with h1; rw [← h1, hti] at h2; cases h2
        exact ⟨j, by rw [upd_ne _ _ hn]; exact h1, h2, h3⟩
      · intro n j h h'
        rcases hget n j h with ⟨h1, h2⟩ | ⟨h1, h2⟩
        · subst h1; subst h2
          dsimp only
          rw [if_neg hx]
          omega
        · rw [refs_erase_ne b h1]; exact hs.bk.n1 n j h2 h'
      · intro c n h
        have hmem : n ∈ s.new c := by
          by_cases hcb : c = b
          · subst hcb; rw [upd_same] at h; exact List.mem_of_mem_erase h
          · rw [upd_ne _ _ hcb] at h; exact h
        obtain ⟨g0, j, g1, g2⟩ := hs.bk.n2 c n hmem
        by_cases hn : n = id
        · subst hn; exact ⟨g0, _, upd_same _ _ _, hti⟩
        · exact ⟨g0, j, by rw [upd_ne _ _ hn]; exact g1, g2⟩
      · intro c
        by_cases hcb : c = b
        · subst hcb; rw [upd_same]; exact (hs.bk.n3 c).sublist List.erase_sublist
        · rw [upd_ne _ _ hcb]; exact hs.bk.n3 c
      · intro c
        by_cases hcb : c = b
        · subst hcb; rw [upd_same]
          have := hs.bk.n4 c
          have h2 := List.length_erase_le (a := id) (l := s.new c)
          omega
        · rw [upd_ne _ _ hcb]; exact hs.bk.n4 c
    · have hk : ∀ t n, isKind (upd s.info id (some { i with ref := i.ref - 1 })) t n = isKind s.info t n := by
        intro t n
        unfold isKind
        by_cases hn : n = id
        · subst hn; rw [upd_same, hi]
        · rw [upd_ne _ _ hn]
      exact ⟨hs.ct.c1.trans (by rw [← countP_same (hk true)]), hs.ct.c2.trans (by rw [← countP_same (hk false)])⟩
    · intro n hn
      dsimp only
      rw [upd_ne _ _ hn]
    · dsimp only
      refine ⟨fun c _ _ => by rw [upd_same]; exact Option.some_ne_none _, ?_⟩
      intro j hj
      rw [upd_same] at hj
      injection hj with hj
      rw [← hj]; rfl

end Verif.Addr
