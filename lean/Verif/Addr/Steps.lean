import Verif.Addr.Lemmas

/-!
# Every operation of the address manager keeps its tables consistent
-/
namespace Verif.Addr

theorem mem_setInsert {x y : Nat} : ∀ {l : List Nat}, y ∈ setInsert x l ↔ y = x ∨ y ∈ l
  | [] => by rw [setInsert]; simp
  | z :: l => by
    rw [setInsert]
    split
    · rw [List.mem_cons]
    · split
      · rename_i h; subst h; simp
      · rw [List.mem_cons, mem_setInsert, List.mem_cons]
        constructor
        · rintro (h | h | h)
          · exact Or.inr (Or.inl h)
          · exact Or.inl h
          · exact Or.inr (Or.inr h)
        · rintro (h | h | h)
          · exact Or.inr (Or.inl h)
          · exact Or.inl h
          · exact Or.inr (Or.inr h)

theorem setInsert_sorted {x : Nat} : ∀ {l : List Nat}, l.Pairwise (· < ·) → (setInsert x l).Pairwise (· < ·)
  | [], _ => by rw [setInsert]; exact List.pairwise_singleton _ _
  | z :: l, h => by
    rw [setInsert]
    split
    · rename_i hz
      rw [List.pairwise_cons]
      refine ⟨?_, h⟩
      intro a ha
      rcases List.mem_cons.1 ha with rfl | ha
      · exact hz
      · exact Nat.lt_trans hz ((List.pairwise_cons.1 h).1 a ha)
    · split
      · exact h
      · rename_i h1 h2
        rw [List.pairwise_cons] at h ⊢
        refine ⟨?_, setInsert_sorted h.2⟩
        intro a ha
        rcases mem_setInsert.1 ha with rfl | ha
        · omega
        · exact h.1 a ha

theorem setInsert_length {x : Nat} : ∀ {l : List Nat}, (setInsert x l).length ≤ l.length + 1
  | [] => by rw [setInsert]; exact Nat.le_refl _
  | z :: l => by
    rw [setInsert]
    split
    · exact Nat.le_refl _
    · split
      · exact Nat.le_succ _
      · rw [List.length_cons, List.length_cons]
        have := setInsert_length (x := x) (l := l)
        omega

theorem refs_insert_ne {new : Nat → List Nat} {id n : Nat} (b : Nat) (h : n ≠ id) : refs (upd new b (setInsert id (new b))) n = refs new n := by
  unfold refs
  apply countP_same
  intro c
  by_cases hc : c = b
  · subst hc
    rw [upd_same]
    congr 1
    rw [mem_setInsert]
    simp [h]
  · rw [upd_ne _ _ hc]

theorem refs_insert_self {new : Nat → List Nat} {id : Nat} {b : Nat} (hb : b < 256) (h : id ∉ new b) :
    refs (upd new b (setInsert id (new b))) id = refs new id + 1 := by
  unfold refs
  refine countP_drop ?_ ?_ ?_ 256 hb
  · intro c hc; rw [upd_ne _ _ hc]
  · rw [upd_same]; exact decide_eq_true (mem_setInsert.2 (Or.inl rfl))
  · exact decide_eq_false h

theorem findTerrible_ok {s : St} {now : Int} : ∀ {l : List Nat}, (∀ n ∈ l, ∃ i, s.info n = some i) →
    ∃ r, findTerrible s now l = some r ∧ ∀ n, r = some n → n ∈ l
  | [], _ => ⟨none, rfl, by intro n h; cases h⟩
  | a :: l, h => by
    obtain ⟨i, hi⟩ := h a List.mem_cons_self
    rw [findTerrible, hi]
    dsimp only
    split
    · exact ⟨_, rfl, by intro n hn; cases hn; exact List.mem_cons_self⟩
    · obtain ⟨r, h1, h2⟩ := findTerrible_ok (s := s) (now := now) (l := l) (fun n hn => h n (List.mem_cons_of_mem _ hn))
      exact ⟨r, h1, fun n hn => List.mem_cons_of_mem _ (h2 n hn)⟩

theorem pickOldest_ok {s : St} {chosen : Nat → Bool} : ∀ {l : List Nat} {n : Nat} {o : Option Nat},
    (o ≠ none ∨ ∃ k, n ≤ k ∧ k < n + l.length ∧ chosen k = true) →
    ∃ r, pickOldest s chosen n o l = some r ∧ (r ∈ l ∨ o = some r)
  | [], n, o, h => by
    rcases h with h | ⟨k, h1, h2, _⟩
    · cases o with
      | none => exact absurd rfl h
      | some r => exact ⟨r, by rw [pickOldest.eq_def], Or.inr rfl⟩
    · rw [List.length_nil] at h2; omega
  | a :: l, n, o, h => by
    rw [pickOldest.eq_def]
    dsimp only
    split
    · cases o with
      | none =>
        dsimp only
        obtain ⟨r, h1, h2⟩ := pickOldest_ok (s := s) (chosen := chosen) (l := l) (n := n + 1) (o := some a) (Or.inl (Option.some_ne_none _))
        refine ⟨r, h1, Or.inl ?_⟩
        rcases h2 with h2 | h2
        · exact List.mem_cons_of_mem _ h2
        · injection h2 with h2; rw [h2]; exact List.mem_cons_self
      | some old =>
        dsimp only
        obtain ⟨r, h1, h2⟩ := pickOldest_ok (s := s) (chosen := chosen) (l := l) (n := n + 1)
          (o := if timeOf s a < timeOf s old then some a else some old) (Or.inl (by split <;> exact Option.some_ne_none _))
        refine ⟨r, h1, ?_⟩
        rcases h2 with h2 | h2
        · exact Or.inl (List.mem_cons_of_mem _ h2)
        · split at h2
          · injection h2 with h2; exact Or.inl (h2 ▸ List.mem_cons_self)
          · exact Or.inr h2
    · rename_i hc
      obtain ⟨r, h1, h2⟩ := pickOldest_ok (s := s) (chosen := chosen) (l := l) (n := n + 1) (o := o) (by
        rcases h with h | ⟨k, g1, g2, g3⟩
        · exact Or.inl h
        · refine Or.inr ⟨k, ?_, by rw [List.length_cons] at g2; omega, g3⟩
          have : k ≠ n := by intro hk; rw [hk] at g3; exact hc g3
          omega)
      exact ⟨r, h1, h2.imp (List.mem_cons_of_mem _) _root_.id⟩

/-- `ShrinkNew` takes one entry `v` out of the bucket; the entry is forgotten only if no other bucket holds it. -/
theorem shrink_ok {H : Hashes} {s : St} {x : Option Nat} (hs : Inv H s x) {b : Nat} (hb : s.new b ≠ []) (hx : ∀ n ∈ s.new b, x ≠ some n)
    (now : Int) (rnd : Nat → Nat) :
    ∃ s' v, shrinkNew s b now rnd = some s' ∧ v ∈ s.new b ∧ Inv H s' x ∧ s'.new = upd s.new b ((s.new b).erase v) ∧
      (∀ n, n ≠ v → (s'.info n).map strip = (s.info n).map strip) ∧ s'.next = s.next ∧ s'.tried = s.tried ∧
      ((∀ c, c ≠ b → v ∈ s.new c → s'.info v ≠ none) ∧ ∀ j, s'.info v = some j → (s.info v).map akey = some (akey j)) := by
  have key : ∀ v, v ∈ s.new b → ∃ s', (deref s v).map (fun s => { s with new := upd s.new b ((s.new b).erase v) }) = some s' ∧
      Inv H s' x ∧ s'.new = upd s.new b ((s.new b).erase v) ∧
      (∀ n, n ≠ v → (s'.info n).map strip = (s.info n).map strip) ∧ s'.next = s.next ∧ s'.tried = s.tried ∧
      ((∀ c, c ≠ b → v ∈ s.new c → s'.info v ≠ none) ∧ ∀ j, s'.info v = some j → (s.info v).map akey = some (akey j)) := by
    intro v hv
    obtain ⟨s', h1, h2, h3, h4, h5, h6, h7⟩ := unref_ok hs hv (hx v hv)
    rw [h1]
    refine ⟨_, rfl, h3, ?_, h4, h5, h6, h7⟩
    dsimp only
    rw [h2]
  unfold shrinkNew
  obtain ⟨r, h1, h2⟩ := findTerrible_ok (s := s) (now := now) (l := s.new b) (fun n hn => by
    obtain ⟨_, i, hi, _⟩ := hs.bk.n2 b n hn; exact ⟨i, hi⟩)
  rw [h1]
  cases r with
  | some v =>
    dsimp only
    obtain ⟨s', g⟩ := key v (h2 v rfl)
    exact ⟨s', v, g.1, h2 v rfl, g.2⟩
  | none =>
    dsimp only
    have hlen : 0 < (s.new b).length := List.length_pos_iff.2 hb
    obtain ⟨v, e1, e2⟩ := pickOldest_ok (s := s)
      (chosen := fun k => decide (k = rnd 0 % (s.new b).length ∨ k = rnd 1 % (s.new b).length ∨ k = rnd 2 % (s.new b).length ∨ k = rnd 3 % (s.new b).length))
      (l := s.new b) (n := 0) (o := none)
      (Or.inr ⟨rnd 0 % (s.new b).length, Nat.zero_le _, by rw [Nat.zero_add]; exact Nat.mod_lt _ hlen, by simp⟩)
    rw [e1]
    have hv : v ∈ s.new b := e2.resolve_right (by intro h; cases h)
    obtain ⟨s', g⟩ := key v hv
    exact ⟨s', v, g.1, hv, g.2⟩

/-- Putting an entry into a bucket with room settles its counter. -/
theorem insert_new_ok {H : Hashes} {s : St} {id : Nat} (hs : Inv H s (some id)) {b : Nat} (hb : b < 256) (hid : id ∉ s.new b)
    (hlen : (s.new b).length < 64) (hi : ∃ i, s.info id = some i ∧ i.tried = false) :
    Inv H { s with new := upd s.new b (setInsert id (s.new b)) } none := by
  refine ⟨hs.core.congr (fun _ => rfl) rfl rfl rfl, ?_, hs.ct.congr (fun _ => rfl) rfl rfl rfl⟩
  refine ⟨hs.bk.t1, hs.bk.t2, hs.bk.t3, hs.bk.t4, ?_, ?_, ?_, ?_⟩ <;> dsimp only
  · intro n i h h'
    obtain ⟨h1, h2, h3⟩ := hs.bk.n1 n i h h'
    refine ⟨h1, h2, ?_⟩
    rw [if_neg (by intro h; cases h)]
    by_cases hn : n = id
    · subst hn
      rw [if_pos rfl] at h3
      rw [refs_insert_self hb hid]; omega
    · rw [if_neg (fun hc => hn (Option.some.inj hc).symm)] at h3
      rw [refs_insert_ne b hn]; omega
  · intro c n h
    by_cases hc : c = b
    · subst hc
      rw [upd_same, mem_setInsert] at h
      rcases h with rfl | h
      · exact ⟨hb, hi⟩
      · exact hs.bk.n2 c n h
    · rw [upd_ne _ _ hc] at h; exact hs.bk.n2 c n h
  · intro c
    by_cases hc : c = b
    · subst hc; rw [upd_same]; exact setInsert_sorted (hs.bk.n3 c)
    · rw [upd_ne _ _ hc]; exact hs.bk.n3 c
  · intro c
    by_cases hc : c = b
    · subst hc; rw [upd_same]
      have := setInsert_length (x := id) (l := s.new c)
      omega
    · rw [upd_ne _ _ hc]; exact hs.bk.n4 c

theorem newBucket_lt (H : Hashes) (a b : Ip) : newBucket H a b < 256 := Nat.mod_lt _ (by decide)

/-- The end of `Add_`. -/
theorem place_ok {H : Hashes} {s : St} {id : Nat} {i : Info} {source : Ip}
    (hs : Inv H { s with info := upd s.info id (some { i with ref := i.ref + 1 }) } (some id)) (ht : i.tried = false)
    (hid : id ∉ s.new (newBucket H i.ip source)) (now : Int) (rnd : Nat → Nat) :
    ∃ s' v, place H s id i source now rnd = some s' ∧ Inv H s' none ∧
      (s'.info id).map strip = some (strip { i with ref := i.ref + 1 }) ∧ id ∈ s'.new (newBucket H i.ip source) ∧
      (∀ n, n ≠ id → n ≠ v → (s'.info n).map strip = (s.info n).map strip) ∧
      (∀ k, v ∉ s.tried k) ∧ ((∀ c, c ≠ newBucket H i.ip source → v ∈ s.new c → s'.info v ≠ none) ∧ v ≠ id ∧ ∀ j, s'.info v = some j → (s.info v).map akey = some (akey j)) ∧
      s'.next = s.next ∧ s'.tried = s.tried ∧ ∀ c, c ≠ newBucket H i.ip source → s'.new c = s.new c := by
  have hb := newBucket_lt H i.ip source
  unfold place
  dsimp only
  rw [if_neg hid]
  generalize newBucket H i.ip source = b at *
  by_cases hl : (s.new b).length = 64
  · rw [if_pos hl]
    have hne : s.new b ≠ [] := by intro h; rw [h] at hl; cases hl
    obtain ⟨s', v, h1, h2, h3, h4, h5, h6, h7, h8⟩ := shrink_ok hs (b := b) hne (fun n hn hc => hid (Option.some.inj hc ▸ hn)) now rnd
    rw [h1]
    dsimp only at h2 h4 h5 h6 h7 h8 ⊢
    have hvid : id ≠ v := fun h => hid (h ▸ h2)
    have hinfo : (s'.info id).map strip = some (strip { i with ref := i.ref + 1 }) := by
      rw [h5 id hvid, upd_same]; rfl
    have hex : ∃ j, s'.info id = some j ∧ j.tried = false := by
      cases hj : s'.info id with
      | none => rw [hj] at hinfo; cases hinfo
      | some j =>
        rw [hj] at hinfo
        have := Option.some.inj hinfo
        have h9 : (strip j).tried = (strip { i with ref := i.ref + 1 }).tried := by rw [this]
        exact ⟨j, rfl, Eq.trans h9 ht⟩
    have hn : s'.new b = (s.new b).erase v := by rw [h4, upd_same]
    have hid' : id ∉ s'.new b := by rw [hn]; exact fun hc => hid (List.mem_of_mem_erase hc)
    have hlen : (s'.new b).length < 64 := by
      rw [hn, List.length_erase_of_mem h2, hl]; decide
    refine ⟨_, v, rfl, insert_new_ok h3 hb hid' hlen hex, hinfo, ?_, ?_, ?_, ⟨h8.1, fun h => hvid h.symm, fun j hj => by
      have := h8.2 j hj; rw [upd_ne _ _ (fun h => hvid h.symm)] at this; exact this⟩, h6, h7, ?_⟩
    · dsimp only; rw [upd_same]; exact mem_setInsert.2 (Or.inl rfl)
    · intro n h9 h10
      dsimp only
      rw [h5 n h10, upd_ne _ _ h9]
    · intro k hk
      obtain ⟨_, j, g1, g2⟩ := hs.bk.n2 b v h2
      obtain ⟨j', e1, e2, _⟩ := hs.bk.t2 k v hk
      rw [g1] at e1
      injection e1 with e1
      rw [e1, e2] at g2; cases g2
    · intro c hc
      dsimp only
      rw [upd_ne _ _ hc, h4, upd_ne _ _ hc]
  · rw [if_neg hl]
    dsimp only
    have hlen : (s.new b).length < 64 := by
      have := hs.bk.n4 b
      dsimp only at this
      omega
    have hfresh : ∃ v : Nat, v ≠ id ∧ s.info v = none ∧ (∀ k, v ∉ s.tried k) ∧ ∀ c, v ∉ s.new c := by
      refine ⟨s.next + id + 1, by omega, ?_, ?_, ?_⟩
      · cases h : s.info (s.next + id + 1) with
        | none => rfl
        | some j =>
          have h1 := hs.core.lt (s.next + id + 1) j (by dsimp only; rw [upd_ne _ _ (by omega)]; exact h)
          dsimp only at h1
          omega
      · intro k hk
        obtain ⟨j, h1, _⟩ := hs.bk.t2 k _ hk
        have := hs.core.lt _ j h1
        dsimp only at this
        omega
      · intro c hc
        obtain ⟨_, j, h1, _⟩ := hs.bk.n2 c _ hc
        have := hs.core.lt _ j h1
        dsimp only at this
        omega
    obtain ⟨v, v1, v2, v3, v4⟩ := hfresh
    refine ⟨_, v, rfl, insert_new_ok hs hb hid hlen ⟨_, upd_same _ _ _, ht⟩, ?_, ?_, ?_, v3, ?_, rfl, rfl, ?_⟩
    · dsimp only; rw [upd_same]; rfl
    · dsimp only; rw [upd_same]; exact mem_setInsert.2 (Or.inl rfl)
    · intro n h9 _
      dsimp only
      rw [upd_ne _ _ h9]
    · refine ⟨fun c _ hc => absurd hc (v4 c), v1, ?_⟩
      intro j hj
      dsimp only at hj
      rw [upd_ne _ _ v1, v2] at hj; cases hj
    · intro c hc
      dsimp only
      rw [upd_ne _ _ hc]

/-- The counter of an entry that is to be put into a further bucket. -/
theorem bump_ok {H : Hashes} {s : St} (hs : Inv H s none) {id : Nat} {i : Info} (hi : s.info id = some i) (ht : i.tried = false)
    (h4 : i.ref ≠ 4) : Inv H { s with info := upd s.info id (some { i with ref := i.ref + 1 }) } (some id) := by
  refine ⟨hs.core.congr (map_upd hi rfl) rfl rfl rfl, ?_, ?_⟩
  · have hget : ∀ n j, upd s.info id (some { i with ref := i.ref + 1 }) n = some j →
        (n = id ∧ j = { i with ref := i.ref + 1 }) ∨ (n ≠ id ∧ s.info n = some j) := by
      intro n j h
      by_cases hn : n = id
      · subst hn; rw [upd_same] at h; exact Or.inl ⟨rfl, (Option.some.inj h).symm⟩
      · rw [upd_ne _ _ hn] at h; exact Or.inr ⟨hn, h⟩
    refine ⟨?_, ?_, hs.bk.t3, hs.bk.t4, ?_, ?_, hs.bk.n3, hs.bk.n4⟩ <;> dsimp only
    · intro n j h h'
      rcases hget n j h with ⟨h1, h2⟩ | ⟨h1, h2⟩
      · rw [h2] at h'; rw [show ({ i with ref := i.ref + 1 } : Info).tried = i.tried from rfl, ht] at h'; cases h'
      · exact hs.bk.t1 n j h2 h'
    · intro k n h
      obtain ⟨j, h1, h2, h3⟩ := hs.bk.t2 k n h
      have hn : n ≠ id := by intro hn; subst hn; rw [hi] at h1; injection h1 with h1; rw [← h1, ht] at h2; cases h2
      exact ⟨j, by rw [upd_ne _ _ hn]; exact h1, h2, h3⟩
    · intro n j h h'
      rcases hget n j h with ⟨h1, h2⟩ | ⟨h1, h2⟩
      · subst h1; subst h2
        obtain ⟨a1, a2, a3⟩ := hs.bk.n1 n i hi ht
        rw [if_neg (by intro h; cases h)] at a3
        rw [if_pos rfl]
        dsimp only
        omega
      · rw [if_neg (fun hc => h1 (Option.some.inj hc).symm)]
        have := hs.bk.n1 n j h2 h'
        rw [if_neg (by intro h; cases h)] at this
        exact this
    · intro c n h
      obtain ⟨g0, j, g1, g2⟩ := hs.bk.n2 c n h
      by_cases hn : n = id
      · subst hn; exact ⟨g0, _, upd_same _ _ _, ht⟩
      · exact ⟨g0, j, by rw [upd_ne _ _ hn]; exact g1, g2⟩
  · have hk : ∀ t n, isKind (upd s.info id (some { i with ref := i.ref + 1 })) t n = isKind s.info t n := by
      intro t n
      unfold isKind
      by_cases hn : n = id
      · subst hn; rw [upd_same, hi]
      · rw [upd_ne _ _ hn]
    exact ⟨hs.ct.c1.trans (by rw [← countP_same (hk true)]), hs.ct.c2.trans (by rw [← countP_same (hk false)])⟩

/-- `Create`, with the counter the entry then gets. -/
theorem create_ok {H : Hashes} {s : St} (hs : Inv H s none) {i : Info} (hip : s.addr i.ip = none) (ht : i.tried = false) (hr : i.ref = 1)
    (hp : i.pos = s.random.length) :
    Inv H { s with next := s.next + 1, info := upd s.info s.next (some i), addr := upd s.addr i.ip (some s.next),
                   random := s.random ++ [s.next], nNew := s.nNew + 1 } (some s.next) := by
  have hnone : s.info s.next = none := by
    cases h : s.info s.next with
    | none => rfl
    | some j => have := hs.core.lt _ j h; omega
  have hne : ∀ n j, s.info n = some j → n ≠ s.next := by intro n j h hn; rw [hn, hnone] at h; cases h
  have hget : ∀ n j, upd s.info s.next (some i) n = some j → (n = s.next ∧ j = i) ∨ (n ≠ s.next ∧ s.info n = some j) := by
    intro n j h
    by_cases hn : n = s.next
    · subst hn; rw [upd_same] at h; exact Or.inl ⟨rfl, (Option.some.inj h).symm⟩
    · rw [upd_ne _ _ hn] at h; exact Or.inr ⟨hn, h⟩
  have hnew : ∀ c, s.next ∉ s.new c := by
    intro c hc
    obtain ⟨_, j, h1, _⟩ := hs.bk.n2 c _ hc
    exact hne _ j h1 rfl
  have hrefs : refs s.new s.next = 0 := by
    unfold refs
    rw [List.countP_eq_zero]
    intro c _
    rw [decide_eq_true_eq]; exact hnew c
  refine ⟨⟨?_, ?_, ?_, ?_, ?_⟩, ⟨?_, ?_, hs.bk.t3, hs.bk.t4, ?_, ?_, hs.bk.n3, hs.bk.n4⟩, ?_⟩ <;> try dsimp only
  · intro a n h
    by_cases ha : a = i.ip
    · subst ha; rw [upd_same] at h; injection h with h; subst h; exact ⟨i, upd_same _ _ _, rfl⟩
    · rw [upd_ne _ _ ha] at h
      obtain ⟨j, h1, h2⟩ := hs.core.a1 a n h
      exact ⟨j, by rw [upd_ne _ _ (hne n j h1)]; exact h1, h2⟩
  · intro n j h
    rcases hget n j h with ⟨h1, h2⟩ | ⟨h1, h2⟩
    · subst h1; subst h2; exact upd_same _ _ _
    · have h3 := hs.core.a2 n j h2
      have : j.ip ≠ i.ip := by intro hc; rw [hc, hip] at h3; cases h3
      rw [upd_ne _ _ this]; exact h3
  · intro n j h
    rcases hget n j h with ⟨h1, h2⟩ | ⟨h1, h2⟩
    · subst h1; subst h2; rw [hp, List.getElem?_concat_length]
    · have h3 := hs.core.p1 n j h2
      rw [List.getElem?_append_left (List.getElem?_eq_some_iff.1 h3).1]; exact h3
  · intro k n h
    by_cases hk : k < s.random.length
    · rw [List.getElem?_append_left hk] at h
      obtain ⟨j, h1, h2⟩ := hs.core.p2 k n h
      exact ⟨j, by rw [upd_ne _ _ (hne n j h1)]; exact h1, h2⟩
    · have hk' : k = s.random.length := by
        have := (List.getElem?_eq_some_iff.1 h).1
        rw [List.length_append, List.length_singleton] at this
        omega
      subst hk'
      rw [List.getElem?_concat_length] at h
      injection h with h
      subst h
      exact ⟨i, upd_same _ _ _, hp⟩
  · intro n j h
    rcases hget n j h with ⟨h1, h2⟩ | ⟨h1, h2⟩
    · omega
    · have := hs.core.lt n j h2; omega
  · intro n j h h'
    rcases hget n j h with ⟨h1, h2⟩ | ⟨h1, h2⟩
    · rw [h2, ht] at h'; cases h'
    · exact hs.bk.t1 n j h2 h'
  · intro k n h
    obtain ⟨j, h1, h2, h3⟩ := hs.bk.t2 k n h
    exact ⟨j, by rw [upd_ne _ _ (hne n j h1)]; exact h1, h2, h3⟩
  · intro n j h h'
    rcases hget n j h with ⟨h1, h2⟩ | ⟨h1, h2⟩
    · subst h1; subst h2
      rw [if_pos rfl, hrefs, hr]
      decide
    · rw [if_neg (fun hc => h1 (Option.some.inj hc).symm)]
      have := hs.bk.n1 n j h2 h'
      rw [if_neg (by intro h; cases h)] at this
      exact this
  · intro c n h
    obtain ⟨g0, j, g1, g2⟩ := hs.bk.n2 c n h
    exact ⟨g0, j, by rw [upd_ne _ _ (hne n j g1)]; exact g1, g2⟩
  · have k1 : ∀ t n, n ≠ s.next → isKind (upd s.info s.next (some i)) t n = isKind s.info t n := by
      intro t n hn; unfold isKind; rw [upd_ne _ _ hn]
    have k2 : isKind (upd s.info s.next (some i)) true s.next = false := by unfold isKind; rw [upd_same]; dsimp only; rw [ht]; rfl
    have k3 : isKind (upd s.info s.next (some i)) false s.next = true := by unfold isKind; rw [upd_same]; dsimp only; rw [ht]; rfl
    have k4 : ∀ t, (List.range s.next).countP (isKind (upd s.info s.next (some i)) t) = (List.range s.next).countP (isKind s.info t) := by
      intro t
      apply List.countP_congr
      intro n hn
      rw [k1 t n (Nat.ne_of_lt (List.mem_range.1 hn))]
    refine ⟨?_, ?_⟩ <;> dsimp only <;> rw [List.range_succ, List.countP_append, List.countP_singleton, k4]
    · rw [k2, hs.ct.c1]; simp
    · rw [k3, hs.ct.c2]; simp

end Verif.Addr
