import Verif.Addr.Steps

/-!
# Moving addresses to the tried ones; all operations
-/
namespace Verif.Addr

theorem selectLoop_ok {s : St} {rnd : Nat → Nat} : ∀ (n i : Nat) (l : List Nat) (best : Option (Nat × Nat)),
    (∀ x ∈ l, (s.info x).isSome = true) → (∀ o p, best = some (o, p) → p < l.length) →
    ∃ l' best', selectLoop s rnd n i l best = some (l', best') ∧ l'.Perm l ∧ (∀ o p, best' = some (o, p) → p < l.length) ∧
      (best ≠ none → best' ≠ none) ∧ (0 < n → i < l.length → best' ≠ none)
  | 0, i, l, best, _, hb => ⟨l, best, by rw [selectLoop], List.Perm.refl _, hb, _root_.id, fun h => absurd h (Nat.lt_irrefl _)⟩
  | n + 1, i, l, best, hl, hb => by
    rw [selectLoop.eq_def]
    dsimp only
    by_cases hi : i < l.length
    · rw [if_pos hi]
      have hpos : rnd i % (l.length - i) + i < l.length := by
        have := Nat.mod_lt (rnd i) (show 0 < l.length - i by omega)
        omega
      generalize rnd i % (l.length - i) + i = pos at hpos
      rw [List.getElem?_eq_getElem hpos, List.getElem?_eq_getElem hi]
      dsimp only
      have hperm : ((l.set pos l[i]).set i l[pos]).Perm l := List.set_set_perm hpos hi
      have hlen : ((l.set pos l[i]).set i l[pos]).length = l.length := by rw [List.length_set, List.length_set]
      have hl' : ∀ x ∈ (l.set pos l[i]).set i l[pos], (s.info x).isSome = true := fun x hx => hl x (hperm.mem_iff.1 hx)
      cases best with
      | none =>
        dsimp only
        obtain ⟨l', b', h1, h2, h3, h4, _⟩ := selectLoop_ok (s := s) (rnd := rnd) n (i + 1) _ (some (l[pos], pos)) hl'
          (by intro o p h; injection h with h; injection h with _ h; rw [hlen, ← h]; exact hpos)
        refine ⟨l', b', h1, h2.trans hperm, ?_, fun h => absurd rfl h, fun _ _ => h4 (Option.some_ne_none _)⟩
        intro o p h; have := h3 o p h; rwa [hlen] at this
      | some r =>
        obtain ⟨old, p⟩ := r
        dsimp only
        rw [if_pos (hl _ (List.getElem_mem _))]
        obtain ⟨l', b', h1, h2, h3, h4, _⟩ := selectLoop_ok (s := s) (rnd := rnd) n (i + 1) _
          (if successOf s l[pos] < successOf s old then some (l[pos], pos) else some (old, p)) hl'
          (by
            intro o q h
            rw [hlen]
            split at h
            · injection h with h; injection h with _ h; rw [← h]; exact hpos
            · exact hb o q h)
        have hne : (if successOf s l[pos] < successOf s old then some (l[pos], pos) else some (old, p)) ≠ none := by
          split <;> exact Option.some_ne_none _
        refine ⟨l', b', h1, h2.trans hperm, ?_, fun _ => h4 hne, fun _ _ => h4 hne⟩
        intro o q h; have := h3 o q h; rwa [hlen] at this
    · rw [if_neg hi]
      exact ⟨l, best, rfl, List.Perm.refl _, hb, _root_.id, fun _ h => absurd h hi⟩

theorem selectTried_ok {s : St} {k : Nat} {rnd : Nat → Nat} (hl : ∀ x ∈ s.tried k, (s.info x).isSome = true) (hne : 0 < (s.tried k).length) :
    ∃ l p, selectTried s k rnd = some (l, p) ∧ l.Perm (s.tried k) ∧ p < l.length := by
  obtain ⟨l, b, h1, h2, h3, _, h5⟩ := selectLoop_ok (s := s) (rnd := rnd) 4 0 (s.tried k) none hl (by intro o p h; cases h)
  unfold selectTried
  rw [h1]
  cases b with
  | none => exact absurd rfl (h5 (by decide) hne)
  | some r => exact ⟨l, r.2, rfl, h2, by rw [h2.length_eq]; exact h3 r.1 r.2 rfl⟩

theorem set_mem {l : List Nat} (hn : l.Nodup) {p id old : Nat} (hp : l[p]? = some old) (hid : id ∉ l) :
    (l.set p id).Nodup ∧ ∀ n, n ∈ l.set p id ↔ n = id ∨ (n ∈ l ∧ n ≠ old) := by
  obtain ⟨hlt, he⟩ := List.getElem?_eq_some_iff.1 hp
  have e1 : l = l.take p ++ old :: l.drop (p + 1) := by
    rw [← he, List.getElem_cons_drop, List.take_append_drop]
  have e2 : l.set p id = l.take p ++ id :: l.drop (p + 1) := by
    rw [List.set_eq_take_append_cons_drop, if_pos hlt]
  generalize l.take p = a at *
  generalize l.drop (p + 1) = b at *
  rw [e2]
  rw [e1] at hn hid
  rw [List.nodup_append] at hn ⊢
  obtain ⟨h1, h2, h3⟩ := hn
  rw [List.nodup_cons] at h2
  rw [List.mem_append, List.mem_cons] at hid
  refine ⟨⟨h1, List.nodup_cons.2 ⟨fun h => hid (Or.inr (Or.inr h)), h2.2⟩, ?_⟩, ?_⟩
  · intro x hx y hy
    rcases List.mem_cons.1 hy with hy | hy
    · intro hxy; exact hid (Or.inl (by rw [← hy, ← hxy]; exact hx))
    · exact h3 x hx y (List.mem_cons_of_mem _ hy)
  · intro n
    rw [e1, List.mem_append, List.mem_cons, List.mem_append, List.mem_cons]
    constructor
    · rintro (h | h | h)
      · exact Or.inr ⟨Or.inl h, fun hc => h3 n h old List.mem_cons_self hc⟩
      · exact Or.inl h
      · exact Or.inr ⟨Or.inr (Or.inr h), fun hc => h2.1 (hc ▸ h)⟩
    · rintro (h | ⟨h | h | h, hn⟩)
      · exact Or.inr (Or.inl h)
      · exact Or.inl h
      · exact absurd h hn
      · exact Or.inr (Or.inr h)

theorem triedBucket_lt (H : Hashes) (a b : Nat) : triedBucket H a b < 64 := Nat.mod_lt _ (by decide)

/-- What a move to the tried addresses does. -/
structure Moved (H : Hashes) (s s' : St) (id : Nat) (i : Info) : Prop where
  inv : Inv H s' none
  self : s'.info id = some { i with ref := 0, tried := true }
  kept : ∀ n j, n ≠ id → s.info n = some j → ∃ j', s'.info n = some j' ∧ j'.ip = j.ip ∧ j'.port = j.port ∧ j'.src = j.src ∧
    (j'.tried = j.tried ∨ triedBucket H j.ip j.port = triedBucket H i.ip i.port ∧ (s.tried (triedBucket H i.ip i.port)).length = 64 ∧ j'.tried = false)
  other : ∀ k, k ≠ triedBucket H i.ip i.port → s'.tried k = s.tried k

theorem makeTried_ok {H : Hashes} {s : St} (hs : Inv H s none) {id : Nat} {i : Info} (hi : s.info id = some i) (ht : i.tried = false)
    {origin : Nat} (ho : id ∈ s.new origin) (rnd : Nat → Nat) : ∃ s', makeTried H s id origin rnd = some s' ∧ Moved H s s' id i := by
  obtain ⟨hr1, hr2, hr3⟩ := hs.bk.n1 id i hi ht
  rw [if_neg (by intro h; cases h)] at hr3
  have hnoT : ∀ k, id ∉ s.tried k := by
    intro k hk
    obtain ⟨j, h1, h2, _⟩ := hs.bk.t2 k id hk
    rw [hi] at h1; injection h1 with h1; rw [← h1, ht] at h2; cases h2
  have hnew1 : ∀ b n, n ∈ dropAll s.new id b ↔ n ∈ s.new b ∧ n ≠ id := by
    intro b n
    unfold dropAll
    split
    · rw [List.Nodup.mem_erase_iff (nodup_of_lt (hs.bk.n3 b))]; exact And.comm
    · rename_i hb
      constructor
      · intro h; exact absurd (hs.bk.n2 b n h).1 hb
      · intro h; exact h.1
  have hsort1 : ∀ b, (dropAll s.new id b).Pairwise (· < ·) := by
    intro b; unfold dropAll; split
    · exact (hs.bk.n3 b).sublist List.erase_sublist
    · exact hs.bk.n3 b
  have hlen1 : ∀ b, (dropAll s.new id b).length ≤ 64 := by
    intro b; unfold dropAll
    have := hs.bk.n4 b
    split
    · have h2 := List.length_erase_le (a := id) (l := s.new b); omega
    · exact this
  have hlo : (dropAll s.new id origin).length < 64 := by
    unfold dropAll
    rw [if_pos (hs.bk.n2 origin id ho).1, List.length_erase_of_mem ho]
    have := hs.bk.n4 origin
    have := List.length_pos_of_mem ho
    omega
  have hrefs1 : ∀ n, n ≠ id → refs (dropAll s.new id) n = refs s.new n := by
    intro n hn
    unfold refs
    apply countP_same
    intro b
    have := hnew1 b n
    rw [decide_eq_decide]
    rw [this]
    exact ⟨fun h => h.1, fun h => ⟨h, hn⟩⟩
  have hk64 := triedBucket_lt H i.ip i.port
  unfold makeTried
  rw [if_pos ho, hi]
  dsimp only
  rw [if_pos (by omega)]
  generalize (dropAll s.new id) = new1 at hnew1 hsort1 hlen1 hlo hrefs1 ⊢
  obtain ⟨k, hkk⟩ : ∃ k, triedBucket H i.ip i.port = k := ⟨_, rfl⟩
  rw [hkk] at hk64
  simp only [hkk]
  have kf : isKind s.info false id = true := by unfold isKind; rw [hi]; dsimp only; rw [ht]; rfl
  have kt : isKind s.info true id = false := by unfold isKind; rw [hi]; dsimp only; rw [ht]; rfl
  by_cases hroom : (s.tried k).length < 64
  · rw [if_pos hroom]
    have hget : ∀ n j, upd s.info id (some { i with ref := 0, tried := true }) n = some j →
        (n = id ∧ j = { i with ref := 0, tried := true }) ∨ (n ≠ id ∧ s.info n = some j) := by
      intro n j h
      by_cases hn : n = id
      · subst hn; rw [upd_same] at h; exact Or.inl ⟨rfl, (Option.some.inj h).symm⟩
      · rw [upd_ne _ _ hn] at h; exact Or.inr ⟨hn, h⟩
    refine ⟨_, rfl, ⟨⟨hs.core.congr (map_upd hi rfl) rfl rfl rfl, ⟨?_, ?_, ?_, ?_, ?_, ?_, hsort1, hlen1⟩, ?_⟩, ?_, ?_, ?_⟩⟩ <;> try dsimp only
    · intro n j h h'
      rcases hget n j h with ⟨h1, h2⟩ | ⟨h1, h2⟩
      · subst h1; subst h2
        refine ⟨rfl, ?_⟩
        show n ∈ upd s.tried k _ (triedBucket H i.ip i.port)
        rw [hkk, upd_same]
        exact List.mem_append_right _ (List.mem_singleton.2 rfl)
      · obtain ⟨h3, h4⟩ := hs.bk.t1 n j h2 h'
        refine ⟨h3, ?_⟩
        by_cases hc : triedBucket H j.ip j.port = k
        · rw [hc] at h4 ⊢; rw [upd_same]; exact List.mem_append_left _ h4
        · rw [upd_ne _ _ hc]; exact h4
    · intro c n h
      have hold : n ∈ s.tried c → ∃ j, upd s.info id (some { i with ref := 0, tried := true }) n = some j ∧ j.tried = true ∧ triedBucket H j.ip j.port = c := by
        intro h
        obtain ⟨j, h1, h2, h3⟩ := hs.bk.t2 c n h
        have hn : n ≠ id := fun hn => hnoT c (hn ▸ h)
        exact ⟨j, by rw [upd_ne _ _ hn]; exact h1, h2, h3⟩
      by_cases hc : c = k
      · subst hc
        rw [upd_same, List.mem_append, List.mem_singleton] at h
        rcases h with h | h
        · exact hold h
        · subst h; exact ⟨_, upd_same _ _ _, rfl, hkk⟩
      · rw [upd_ne _ _ hc] at h; exact hold h
    · intro c
      by_cases hc : c = k
      · subst hc
        rw [upd_same, List.nodup_append]
        refine ⟨hs.bk.t3 c, by simp, ?_⟩
        intro a ha b hb hab
        rw [List.mem_singleton] at hb
        exact hnoT c (by rw [← hb, ← hab]; exact ha)
      · rw [upd_ne _ _ hc]; exact hs.bk.t3 c
    · intro c
      by_cases hc : c = k
      · subst hc; rw [upd_same, List.length_append, List.length_singleton]; omega
      · rw [upd_ne _ _ hc]; exact hs.bk.t4 c
    · intro n j h h'
      rcases hget n j h with ⟨h1, h2⟩ | ⟨h1, h2⟩
      · rw [h2] at h'; cases h'
      · rw [hrefs1 n h1]; exact hs.bk.n1 n j h2 h'
    · intro b n h
      obtain ⟨h1, hn⟩ := (hnew1 b n).1 h
      obtain ⟨g0, j, g1, g2⟩ := hs.bk.n2 b n h1
      exact ⟨g0, j, by rw [upd_ne _ _ hn]; exact g1, g2⟩
    · have k1 : ∀ t n, n ≠ id → isKind (upd s.info id (some { i with ref := 0, tried := true })) t n = isKind s.info t n := by
        intro t n hn; unfold isKind; rw [upd_ne _ _ hn]
      have k2 : isKind (upd s.info id (some { i with ref := 0, tried := true })) true id = true := by unfold isKind; rw [upd_same]; rfl
      have k3 : isKind (upd s.info id (some { i with ref := 0, tried := true })) false id = false := by unfold isKind; rw [upd_same]; rfl
      have hlt := hs.core.lt id i hi
      refine ⟨?_, ?_⟩ <;> dsimp only
      · rw [countP_drop (k1 true) k2 kt s.next hlt, hs.ct.c1]; simp
      · rw [hs.ct.c2, countP_drop (fun n hn => (k1 false n hn).symm) kf k3 s.next hlt]; simp
    · exact upd_same _ _ _
    · intro n j hn h
      exact ⟨j, by rw [upd_ne _ _ hn]; exact h, rfl, rfl, rfl, Or.inl rfl⟩
    · intro c hc
      rw [hkk] at hc
      exact upd_ne _ _ hc
  · rw [if_neg hroom]
    have h64 : (s.tried k).length = 64 := by have := hs.bk.t4 k; omega
    obtain ⟨l, p, e1, e2, e3⟩ := selectTried_ok (s := { s with new := new1, nNew := s.nNew - 1 }) (k := k) (rnd := rnd)
      (fun x hx => by obtain ⟨j, h1, _⟩ := hs.bk.t2 k x hx; dsimp only; rw [h1]; rfl) (by dsimp only; omega)
    dsimp only at e2
    rw [e1]
    dsimp only
    rw [List.getElem?_eq_getElem e3]
    dsimp only
    generalize hold : l[p] = old
    have hpold : l[p]? = some old := by rw [List.getElem?_eq_getElem e3, hold]
    have holdk : old ∈ s.tried k := e2.mem_iff.1 (hold ▸ List.getElem_mem e3)
    obtain ⟨io, hio, hto, hko⟩ := hs.bk.t2 k old holdk
    rw [hio]
    dsimp only
    have hoi : old ≠ id := fun h => hnoT k (h ▸ holdk)
    have hnl : l.Nodup := e2.nodup_iff.2 (hs.bk.t3 k)
    have hidl : id ∉ l := fun h => hnoT k (e2.mem_iff.1 h)
    obtain ⟨hset1, hset2⟩ := set_mem hnl hpold hidl
    have holdnew : ∀ b, old ∉ s.new b := by
      intro b hb
      obtain ⟨_, j, h1, h2⟩ := hs.bk.n2 b old hb
      rw [hio] at h1; injection h1 with h1; rw [← h1, hto] at h2; cases h2
    have hdest : ∃ dest, (if (new1 (newBucket H io.ip io.src)).length < 64 then newBucket H io.ip io.src else origin) = dest ∧ dest < 256 ∧ (new1 dest).length < 64 := by
      refine ⟨_, rfl, ?_, ?_⟩
      · split
        · exact newBucket_lt _ _ _
        · exact (hs.bk.n2 origin id ho).1
      · split
        · assumption
        · exact hlo
    obtain ⟨dest, hd1, hd2, hd3⟩ := hdest
    rw [hd1]
    have hold1 : old ∉ new1 dest := fun h => holdnew dest ((hnew1 dest old).1 h).1
    have hrefs0 : refs new1 old = 0 := by
      unfold refs
      rw [List.countP_eq_zero]
      intro b _
      rw [decide_eq_true_eq]
      exact fun h => holdnew b ((hnew1 b old).1 h).1
    generalize hio' : ({ io with tried := false, ref := 1 } : Info) = io'
    generalize hi' : ({ i with ref := 0, tried := true } : Info) = i'
    have bi : bkey io' = (io.ip, io.port, 1, false) := by rw [← hio']; rfl
    have bi' : bkey i' = (i.ip, i.port, 0, true) := by rw [← hi']; rfl
    simp only [bkey, Prod.mk.injEq] at bi bi'
    obtain ⟨b1, b2, b3, b4⟩ := bi
    obtain ⟨c1, c2, c3, c4⟩ := bi'
    have hcore : ∀ n, (upd (upd s.info old (some io')) id (some i') n).map ckey = (s.info n).map ckey := by
      intro n
      have h1 : upd s.info old (some io') id = some i := by rw [upd_ne _ _ (fun h => hoi h.symm)]; exact hi
      exact (map_upd (f := ckey) (j := i') h1 (by rw [← hi']; rfl) n).trans (map_upd (f := ckey) (j := io') hio (by rw [← hio']; rfl) n)
    have hget : ∀ n j, upd (upd s.info old (some io')) id (some i') n = some j →
        (n = id ∧ j = i') ∨ (n = old ∧ j = io') ∨ (n ≠ id ∧ n ≠ old ∧ s.info n = some j) := by
      intro n j h
      by_cases hn : n = id
      · subst hn; rw [upd_same] at h; exact Or.inl ⟨rfl, (Option.some.inj h).symm⟩
      · rw [upd_ne _ _ hn] at h
        by_cases hn' : n = old
        · subst hn'; rw [upd_same] at h; exact Or.inr (Or.inl ⟨rfl, (Option.some.inj h).symm⟩)
        · rw [upd_ne _ _ hn'] at h; exact Or.inr (Or.inr ⟨hn, hn', h⟩)
    have hput : ∀ n, n ≠ id → n ≠ old → upd (upd s.info old (some io')) id (some i') n = s.info n := by
      intro n h1 h2; rw [upd_ne _ _ h1, upd_ne _ _ h2]
    have hputold : upd (upd s.info old (some io')) id (some i') old = some io' := by rw [upd_ne _ _ hoi, upd_same]
    refine ⟨_, rfl, ⟨⟨hs.core.congr hcore rfl rfl rfl, ⟨?_, ?_, ?_, ?_, ?_, ?_, ?_, ?_⟩, ?_⟩, ?_, ?_, ?_⟩⟩ <;> try dsimp only
    · intro n j h h'
      rcases hget n j h with ⟨h1, h2⟩ | ⟨h1, h2⟩ | ⟨h1, h2, h3⟩
      · rw [h1, h2, c3, c1, c2, hkk, upd_same, hset2]; exact ⟨rfl, Or.inl rfl⟩
      · rw [h2, b4] at h'; cases h'
      · obtain ⟨g1, g2⟩ := hs.bk.t1 n j h3 h'
        refine ⟨g1, ?_⟩
        by_cases hc : triedBucket H j.ip j.port = k
        · rw [hc] at g2 ⊢; rw [upd_same, hset2]; exact Or.inr ⟨e2.mem_iff.2 g2, h2⟩
        · rw [upd_ne _ _ hc]; exact g2
    · intro c n h
      by_cases hc : c = k
      · subst hc
        rw [upd_same, hset2] at h
        rcases h with h | ⟨h, h2⟩
        · subst h; exact ⟨i', upd_same _ _ _, c4, by rw [c1, c2]; exact hkk⟩
        · have hm := e2.mem_iff.1 h
          obtain ⟨j, g1, g2, g3⟩ := hs.bk.t2 c n hm
          exact ⟨j, by rw [hput n (fun hn => hnoT c (hn ▸ hm)) h2]; exact g1, g2, g3⟩
      · rw [upd_ne _ _ hc] at h
        obtain ⟨j, g1, g2, g3⟩ := hs.bk.t2 c n h
        have hno : n ≠ old := by
          intro hn
          rw [hn, hio] at g1
          injection g1 with g1
          rw [← g1, hko] at g3
          exact hc g3.symm
        exact ⟨j, by rw [hput n (fun hn => hnoT c (hn ▸ h)) hno]; exact g1, g2, g3⟩
    · intro c
      by_cases hc : c = k
      · subst hc; rw [upd_same]; exact hset1
      · rw [upd_ne _ _ hc]; exact hs.bk.t3 c
    · intro c
      by_cases hc : c = k
      · subst hc; rw [upd_same, List.length_set, e2.length_eq]; exact hs.bk.t4 c
      · rw [upd_ne _ _ hc]; exact hs.bk.t4 c
    · intro n j h h'
      rw [if_neg (by intro h; cases h)]
      rcases hget n j h with ⟨h1, h2⟩ | ⟨h1, h2⟩ | ⟨h1, h2, h3⟩
      · rw [h2, c4] at h'; cases h'
      · rw [h1, h2, b3, refs_insert_self hd2 hold1, hrefs0]; decide
      · rw [refs_insert_ne dest h2, hrefs1 n h1]
        have := hs.bk.n1 n j h3 h'
        rw [if_neg (by intro h; cases h)] at this
        exact this
    · intro b n h
      have hc : (b = dest ∧ n = old) ∨ n ∈ new1 b := by
        by_cases hb : b = dest
        · subst hb; rw [upd_same, mem_setInsert] at h; exact h.imp (fun h => ⟨rfl, h⟩) _root_.id
        · rw [upd_ne _ _ hb] at h; exact Or.inr h
      rcases hc with ⟨h1, h2⟩ | hc
      · rw [h1, h2]; exact ⟨hd2, io', hputold, b4⟩
      · obtain ⟨h1, hn⟩ := (hnew1 b n).1 hc
        obtain ⟨g0, j, g1, g2⟩ := hs.bk.n2 b n h1
        exact ⟨g0, j, by rw [hput n hn (fun h => holdnew b (h ▸ h1))]; exact g1, g2⟩
    · intro b
      by_cases hb : b = dest
      · subst hb; rw [upd_same]; exact setInsert_sorted (hsort1 b)
      · rw [upd_ne _ _ hb]; exact hsort1 b
    · intro b
      by_cases hb : b = dest
      · subst hb; rw [upd_same]
        have := setInsert_length (x := old) (l := new1 b)
        omega
      · rw [upd_ne _ _ hb]; exact hlen1 b
    · -- the evicted entry and the moved one change places
      have m1 : ∀ t n, n ≠ id → isKind (upd (upd s.info old (some io')) id (some i')) t n = isKind (upd s.info old (some io')) t n := by
        intro t n hn; unfold isKind; rw [upd_ne _ _ hn]
      have m2 : ∀ t n, n ≠ old → isKind (upd s.info old (some io')) t n = isKind s.info t n := by
        intro t n hn; unfold isKind; rw [upd_ne _ _ hn]
      have f1 : isKind (upd (upd s.info old (some io')) id (some i')) true id = true := by unfold isKind; rw [upd_same]; dsimp only; rw [c4]; rfl
      have f2 : isKind (upd (upd s.info old (some io')) id (some i')) false id = false := by unfold isKind; rw [upd_same]; dsimp only; rw [c4]; rfl
      have f3 : isKind (upd s.info old (some io')) true id = false := by rw [m2 true id (fun h => hoi h.symm)]; exact kt
      have f4 : isKind (upd s.info old (some io')) false id = true := by rw [m2 false id (fun h => hoi h.symm)]; exact kf
      have f5 : isKind (upd s.info old (some io')) true old = false := by unfold isKind; rw [upd_same]; dsimp only; rw [b4]; rfl
      have f6 : isKind (upd s.info old (some io')) false old = true := by unfold isKind; rw [upd_same]; dsimp only; rw [b4]; rfl
      have f7 : isKind s.info true old = true := by unfold isKind; rw [hio]; dsimp only; rw [hto]; rfl
      have f8 : isKind s.info false old = false := by unfold isKind; rw [hio]; dsimp only; rw [hto]; rfl
      have l1 := hs.core.lt id i hi
      have l2 := hs.core.lt old io hio
      have q1 := countP_drop (m1 true) f1 f3 s.next l1
      have q2 := countP_drop (fun n hn => (m2 true n hn).symm) f7 f5 s.next l2
      have q3 := countP_drop (fun n hn => (m1 false n hn).symm) f4 f2 s.next l1
      have q4 := countP_drop (m2 false) f6 f8 s.next l2
      refine ⟨?_, ?_⟩ <;> dsimp only
      · rw [hs.ct.c1, q1, q2]
      · have := hs.ct.c2
        omega
    · rw [upd_same, hi']
    · intro n j hn h
      by_cases hno : n = old
      · subst hno
        rw [hio] at h
        injection h with h
        subst h
        exact ⟨io', hputold, b1, b2, by rw [← hio'], Or.inr ⟨by rw [hko, hkk], by rw [hkk]; exact h64, b4⟩⟩
      · exact ⟨j, by rw [hput n hn hno]; exact h, rfl, rfl, rfl, Or.inl rfl⟩
    · intro c hc
      rw [hkk] at hc
      exact upd_ne _ _ hc

end Verif.Addr
