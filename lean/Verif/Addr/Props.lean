import Verif.Addr.All

/-!
# Properties of the address manager

C153 (the tables stay consistent), C154 (what the operations do to the addresses), C155 (one group of peers can only reach part of the
tables).
-/
namespace Verif.Addr

/-- What `Find` returns for an address. -/
def entry (s : St) (a : Ip) : Option Info := (s.addr a).bind s.info

/-- The tables as a reader of `CAddrMan` would want them; nothing here refers to the operations. -/
structure Consistent (s : St) : Prop where
  /-- `size()` is the number of new and tried addresses, which are bounded -/
  size : (s.random.length : Int) = s.nNew + s.nTried
  tried_max : s.nTried ≤ 4096
  new_max : s.nNew ≤ 16384
  /-- an address has one entry -/
  once : ∀ n m i j, s.info n = some i → s.info m = some j → i.ip = j.ip → n = m
  found : ∀ n i, s.info n = some i → entry s i.ip = some i
  sound : ∀ a i, entry s a = some i → i.ip = a
  /-- what is in the vector of all entries, in the map and in the buckets is the same -/
  listed : ∀ n, n ∈ s.random ↔ (s.info n).isSome
  distinct : s.random.Nodup
  placed : ∀ n, (s.info n).isSome ↔ (∃ k, n ∈ s.tried k) ∨ ∃ b, n ∈ s.new b
  /-- an entry is in one tried bucket or in one to four new ones, never both -/
  apart : ∀ n k b, n ∈ s.tried k → n ∉ s.new b
  tried_one : ∀ n k k', n ∈ s.tried k → n ∈ s.tried k' → k = k'
  new_four : ∀ n (bs : List Nat), bs.Nodup → (∀ b ∈ bs, n ∈ s.new b) → bs.length ≤ 4
  flag : ∀ n i, s.info n = some i → (i.tried = true ↔ ∃ k, n ∈ s.tried k)
  /-- buckets have no entry twice and no more than 64 -/
  tried_room : ∀ k, (s.tried k).length ≤ 64 ∧ (s.tried k).Nodup
  new_room : ∀ b, (s.new b).length ≤ 64 ∧ (s.new b).Nodup
  /-- the loops of `Select` that look for a bucket with entries can end -/
  tried_some : 0 < s.nTried → ∃ k, k < 64 ∧ s.tried k ≠ []
  new_some : 0 < s.nNew → ∃ b, b < 256 ∧ s.new b ≠ []

theorem kind_some {info : Nat → Option Info} {t : Bool} {n : Nat} (h : isKind info t n = true) : ∃ i, info n = some i ∧ i.tried = t := by
  unfold isKind at h
  cases hi : info n with
  | none => rw [hi] at h; cases h
  | some i => rw [hi] at h; exact ⟨i, rfl, by simpa using h⟩

theorem Inv.consistent {H : Hashes} {s : St} (hs : Inv H s none) : Consistent s where
  size := size_eq hs
  tried_max := by have := tried_le hs; omega
  new_max := by have := new_le hs; omega
  once := by
    intro n m i j h1 h2 h
    have e1 := hs.core.a2 n i h1
    have e2 := hs.core.a2 m j h2
    rw [h, e2] at e1
    exact (Option.some.inj e1).symm
  found := by
    intro n i h
    unfold entry
    rw [hs.core.a2 n i h]; exact h
  sound := by
    intro a i h
    unfold entry at h
    cases ha : s.addr a with
    | none => rw [ha] at h; cases h
    | some n =>
      rw [ha] at h
      obtain ⟨j, h1, h2⟩ := hs.core.a1 a n ha
      have h : s.info n = some i := h
      rw [h1] at h; injection h with h; rw [← h]; exact h2
  listed := by
    intro n
    constructor
    · intro h
      obtain ⟨k, hk, he⟩ := List.mem_iff_getElem.1 h
      obtain ⟨i, hi, _⟩ := hs.core.p2 k n (by rw [List.getElem?_eq_getElem hk, he])
      rw [hi]; rfl
    · intro h
      obtain ⟨i, hi⟩ := Option.isSome_iff_exists.1 h
      exact List.mem_of_getElem? (hs.core.p1 n i hi)
  distinct := random_nodup hs.core
  placed := by
    intro n
    constructor
    · intro h
      obtain ⟨i, hi⟩ := Option.isSome_iff_exists.1 h
      cases ht : i.tried with
      | true => exact Or.inl ⟨_, (hs.bk.t1 n i hi ht).2⟩
      | false => obtain ⟨b, _, hb⟩ := new_mem hs hi ht; exact Or.inr ⟨b, hb⟩
    · rintro (⟨k, h⟩ | ⟨b, h⟩)
      · obtain ⟨i, hi, _⟩ := hs.bk.t2 k n h; rw [hi]; rfl
      · obtain ⟨_, i, hi, _⟩ := hs.bk.n2 b n h; rw [hi]; rfl
  apart := by
    intro n k b h1 h2
    obtain ⟨i, g1, g2, _⟩ := hs.bk.t2 k n h1
    obtain ⟨_, j, g3, g4⟩ := hs.bk.n2 b n h2
    rw [g1] at g3; injection g3 with g3; rw [← g3, g2] at g4; cases g4
  tried_one := by
    intro n k k' h1 h2
    obtain ⟨i, g1, _, g2⟩ := hs.bk.t2 k n h1
    obtain ⟨j, g3, _, g4⟩ := hs.bk.t2 k' n h2
    rw [g1] at g3; injection g3 with g3; rw [← g2, ← g4, g3]
  new_four := by
    intro n bs hn hb
    cases bs with
    | nil => exact Nat.zero_le _
    | cons b0 bs0 =>
      obtain ⟨_, i, hi, ht⟩ := hs.bk.n2 b0 n (hb b0 List.mem_cons_self)
      obtain ⟨_, h4, h3⟩ := hs.bk.n1 n i hi ht
      rw [if_neg (by intro h; cases h)] at h3
      have : (b0 :: bs0).length ≤ refs s.new n := by
        unfold refs
        rw [List.countP_eq_length_filter]
        apply List.Nodup.length_le_of_subset hn
        intro b hm
        rw [List.mem_filter, List.mem_range]
        exact ⟨(hs.bk.n2 b n (hb b hm)).1, decide_eq_true (hb b hm)⟩
      omega
  flag := by
    intro n i hi
    constructor
    · intro ht; exact ⟨_, (hs.bk.t1 n i hi ht).2⟩
    · rintro ⟨k, h⟩
      obtain ⟨j, g1, g2, _⟩ := hs.bk.t2 k n h
      rw [hi] at g1; injection g1 with g1; rw [g1]; exact g2
  tried_room := fun k => ⟨hs.bk.t4 k, hs.bk.t3 k⟩
  new_room := fun b => ⟨hs.bk.n4 b, nodup_of_lt (hs.bk.n3 b)⟩
  tried_some := by
    intro h
    rw [hs.ct.c1] at h
    obtain ⟨n, _, h1⟩ := List.countP_pos_iff.1 (by omega : 0 < (List.range s.next).countP (isKind s.info true))
    obtain ⟨i, h2, h3⟩ := kind_some h1
    exact ⟨_, triedBucket_lt H i.ip i.port, List.ne_nil_of_mem (hs.bk.t1 n i h2 h3).2⟩
  new_some := by
    intro h
    rw [hs.ct.c2] at h
    obtain ⟨n, _, h1⟩ := List.countP_pos_iff.1 (by omega : 0 < (List.range s.next).countP (isKind s.info false))
    obtain ⟨i, h2, h3⟩ := kind_some h1
    obtain ⟨b, h4, h5⟩ := new_mem hs h2 h3
    exact ⟨b, h4, List.ne_nil_of_mem h5⟩

/-! ## C153 -/

/-- **C153**: no sequence of operations, whatever the hashes and the random numbers, makes an assert fail, and the tables are consistent
after it. -/
theorem tables_consistent (H : Hashes) (ops : List Op) : ∃ s, run H ops = some s ∧ Consistent s := by
  obtain ⟨s, h1, h2⟩ := steps_ok (H := H) ops (init_inv H)
  exact ⟨s, h1, h2.consistent⟩

/-- **C153**: the addresses handed out are known ones, all different, and 23 percent of all but at most 2500. -/
theorem getaddr_sound (H : Hashes) (ops : List Op) (s : St) (h : run H ops = some s) (rnd : Nat → Nat) :
    ∃ r s', getAddr s rnd = some (r, s') ∧ (r.length : Int) = min (23 * (s.nNew + s.nTried) / 100) 2500 ∧ (r.map (·.ip)).Nodup ∧
      (∀ i ∈ r, ∃ j, entry s i.ip = some j ∧ j.port = i.port) ∧
      ∀ a, (entry s' a).map akey = (entry s a).map akey := by
  have hs := run_inv h
  obtain ⟨r, s', h1, _, h3, h4, _, _, h5, h6, h7⟩ := getAddr_ok hs rnd
  refine ⟨r, s', h1, ?_, h6, ?_, ?_⟩
  · have := size_eq hs
    rw [← this]
    omega
  · intro i hi
    obtain ⟨id, g1, g2⟩ := h7 i hi
    cases hj : s.info id with
    | none => rw [hj] at g2; cases g2
    | some j =>
      rw [hj] at g2
      exact ⟨j, by unfold entry; rw [g1]; exact hj, (akey_inv (Option.some.inj g2)).2.1⟩
  · intro a
    unfold entry
    rw [h4]
    cases s.addr a with
    | none => rfl
    | some n => exact strip_akey (h3 n)

/-! ## C154 -/

theorem entry_of {s : St} {a : Ip} {n : Nat} (h : s.addr a = some n) : entry s a = s.info n := by
  unfold entry; rw [h]; rfl

theorem entry_some {s : St} {a : Ip} {i : Info} (h : entry s a = some i) : ∃ n, s.addr a = some n ∧ s.info n = some i := by
  unfold entry at h
  cases ha : s.addr a with
  | none => rw [ha] at h; cases h
  | some n => rw [ha] at h; exact ⟨n, rfl, h⟩

theorem entry_akey {H : Hashes} {s' : St} (hs : Inv H s' none) {n : Nat} {j : Info} (h : (s'.info n).map akey = some (akey j)) :
    (entry s' j.ip).map akey = some (akey j) := by
  cases h' : s'.info n with
  | none => rw [h'] at h; cases h
  | some j' =>
    rw [h'] at h
    have h := Option.some.inj h
    have h2 := hs.core.a2 n j' h'
    rw [(akey_inv h).1] at h2
    rw [entry_of h2, h', Option.map_some, h]

/-- **C154**: after `Add` a routable address is known; if it was not, it is a new one with the port and source given, and only then does
`Add` return true.  An address that was known keeps its port, source and table. -/
theorem add_known (H : Hashes) (ops : List Op) (s : St) (h : run H ops = some s) (ip port : Nat) (time : Int) (source : Ip)
    (penalty now : Int) (rnd : Nat → Nat) :
    ∃ b s', add H s ip port time true source penalty now rnd = some (b, s') ∧ (b = true ↔ entry s ip = none) ∧
      (entry s' ip).map akey = some (((entry s ip).map akey).getD (ip, port, source, false)) := by
  have hs := run_inv h
  obtain ⟨b, s', h1, h2⟩ := add_ok hs ip port time true source penalty now rnd
  refine ⟨b, s', h1, ?_, ?_⟩
  · rw [h2.fresh]
    constructor
    · rintro ⟨_, g⟩; unfold entry; rw [g]; rfl
    · intro g
      refine ⟨rfl, ?_⟩
      cases ha : s.addr ip with
      | none => rfl
      | some n =>
        obtain ⟨i, hi, _⟩ := hs.core.a1 ip n ha
        rw [entry_of ha, hi] at g; cases g
  · obtain ⟨id, i, g1, g2, g3, g4⟩ := h2.self rfl
    cases ha : s.addr ip with
    | none =>
      rw [entry_of g1, g2, Option.map_some, (g4 ha).1]
      unfold entry; rw [ha]; rfl
    | some n =>
      obtain ⟨j, hj, _⟩ := hs.core.a1 ip n ha
      obtain ⟨k1, k2⟩ := h2.again n j ha hj
      rw [entry_of k1, k2, entry_of ha, hj]; rfl

/-- **C154**: `Add` changes nothing else but that it may forget one address, which is not a tried one; it learns no other address, and
nothing at all from an address that is not routable. -/
theorem add_forgets_at_most_one (H : Hashes) (ops : List Op) (s : St) (h : run H ops = some s) (ip port : Nat) (time : Int)
    (routable : Bool) (source : Ip) (penalty now : Int) (rnd : Nat → Nat) :
    ∃ b s', add H s ip port time routable source penalty now rnd = some (b, s') ∧ (routable = false → s' = s) ∧
      (∀ a i, entry s a = some i → i.tried = true → (entry s' a).map akey = some (akey i)) ∧
      (∀ a, a ≠ ip → entry s a = none → entry s' a = none) ∧
      ∃ lost, ∀ a i, a ≠ lost → entry s a = some i → (entry s' a).map akey = some (akey i) := by
  have hs := run_inv h
  obtain ⟨b, s', h1, h2⟩ := add_ok hs ip port time routable source penalty now rnd
  obtain ⟨v, v1, v2⟩ := h2.kept
  have step : ∀ a n i, n ≠ v → s.addr a = some n → s.info n = some i → (entry s' a).map akey = some (akey i) := by
    intro a n i hn ha hi
    obtain ⟨i', g1, g2⟩ := hs.core.a1 a n ha
    rw [hi] at g1; injection g1 with g1; subst g1
    have := entry_akey h2.inv (v2 n i hn hi)
    rwa [g2] at this
  refine ⟨b, s', h1, ?_, ?_, ?_, ?_⟩
  · intro hr
    subst hr
    unfold add at h1
    rw [if_pos (show (!false) = true from rfl)] at h1
    injection h1 with h1; injection h1 with _ h1; exact h1.symm
  · intro a i ha ht
    obtain ⟨n, g1, g2⟩ := entry_some ha
    exact step a n i (fun hn => v1 _ (hn ▸ (hs.bk.t1 n i g2 ht).2)) g1 g2
  · intro a hne hno
    have : s.addr a = none := by
      cases ha : s.addr a with
      | none => rfl
      | some n =>
        obtain ⟨i, hi, _⟩ := hs.core.a1 a n ha
        rw [entry_of ha, hi] at hno; cases hno
    unfold entry; rw [h2.only a hne this]; rfl
  · cases hv : s.info v with
    | none =>
      refine ⟨0, fun a i _ ha => ?_⟩
      obtain ⟨n, g1, g2⟩ := entry_some ha
      exact step a n i (fun hn => by rw [hn, hv] at g2; cases g2) g1 g2
    | some j =>
      refine ⟨j.ip, fun a i hne ha => ?_⟩
      obtain ⟨n, g1, g2⟩ := entry_some ha
      refine step a n i (fun hn => ?_) g1 g2
      obtain ⟨i', k1, k2⟩ := hs.core.a1 a n g1
      rw [hn, hv] at k1; injection k1 with k1
      exact hne (by rw [k1]; exact k2.symm)

/-- **C154**: `Good` makes the address, if it is known with this port, a tried one that has just succeeded; it forgets no address, and
another one loses its place among the tried only if it shares the bucket and the bucket is full; an address that is not known with this
port changes nothing. -/
theorem good_moves (H : Hashes) (ops : List Op) (s : St) (h : run H ops = some s) (ip port : Nat) (now : Int) (rnd : Nat → Nat) :
    ∃ s', good H s ip port now rnd = some s' ∧
      (∀ i, entry s ip = some i → i.port = port →
        ∃ j, entry s' ip = some j ∧ j.port = port ∧ j.src = i.src ∧ j.tried = true ∧ j.lastSuccess = now ∧ j.attempts = 0) ∧
      ((∀ i, entry s ip = some i → i.port ≠ port) → s' = s) ∧
      ∀ a i, a ≠ ip → entry s a = some i → ∃ j, entry s' a = some j ∧ j.port = i.port ∧ j.src = i.src ∧
        (j.tried = i.tried ∨ i.tried = true ∧ j.tried = false ∧ (s.tried (triedBucket H ip port)).length = 64 ∧
          triedBucket H a i.port = triedBucket H ip port) := by
  have hs := run_inv h
  obtain ⟨s', h1, h2⟩ := good_ok hs ip port now rnd
  refine ⟨s', h1, ?_, ?_, ?_⟩
  · intro i hi hp
    obtain ⟨n, g1, g2⟩ := entry_some hi
    obtain ⟨j, k1, k2, k3, k4⟩ := h2.self n i g1 g2 hp
    simp only [akey, Prod.mk.injEq] at k2
    have := h2.inv.core.a2 n j k1
    rw [k2.1] at this
    exact ⟨j, by rw [entry_of this]; exact k1, k2.2.1, k2.2.2.1, k2.2.2.2, k3, k4⟩
  · intro hno
    exact h2.skip (fun n i g1 g2 => hno i (by rw [entry_of g1]; exact g2))
  · intro a i hne hi
    obtain ⟨n, g1, g2⟩ := entry_some hi
    obtain ⟨i', e1, e2⟩ := hs.core.a1 a n g1
    rw [g2] at e1; injection e1 with e1; subst e1
    obtain ⟨j, k1, k2, k3, k4, k5⟩ := h2.kept n i g2
    have := h2.inv.core.a2 n j k1
    rw [k2, e2] at this
    refine ⟨j, by rw [entry_of this]; exact k1, k3, k4, ?_⟩
    rcases k5 (by rw [e2]; exact hne) with k | ⟨m1, m2, m3⟩
    · exact Or.inl k
    · cases ht : i.tried with
      | false => exact Or.inl (by rw [m3])
      | true => rw [e2] at m1; exact Or.inr ⟨rfl, m3, m2, m1⟩

theorem findTerrible_spec {s : St} {now : Int} : ∀ {l : List Nat} {r : Option Nat}, findTerrible s now l = some r →
    (∀ v, r = some v → ∃ i, s.info v = some i ∧ i.terrible now = true) ∧ (r = none → ∀ n ∈ l, ∀ i, s.info n = some i → i.terrible now = false)
  | [], r, h => by
    rw [findTerrible] at h
    injection h with h
    subst h
    exact ⟨(by intro v h; cases h), (by intro _ n h; cases h)⟩
  | a :: l, r, h => by
    rw [findTerrible] at h
    cases ha : s.info a with
    | none => rw [ha] at h; cases h
    | some i =>
      rw [ha] at h
      dsimp only at h
      split at h
      · rename_i ht
        injection h with h
        subst h
        refine ⟨?_, (by intro h; cases h)⟩
        intro v hv
        injection hv with hv
        subst hv
        exact ⟨i, ha, ht⟩
      · rename_i ht
        obtain ⟨h1, h2⟩ := findTerrible_spec h
        refine ⟨h1, ?_⟩
        intro hr n hn j hj
        rcases List.mem_cons.1 hn with hn | hn
        · subst hn
          rw [ha] at hj; injection hj with hj; subst hj
          cases hb : i.terrible now with
          | true => exact absurd hb ht
          | false => rfl
        · exact h2 hr n hn j hj

theorem pickOldest_spec {s : St} {chosen : Nat → Bool} : ∀ {l : List Nat} {n : Nat} {o : Option Nat} {r : Nat}, pickOldest s chosen n o l = some r →
    (∀ x, o = some x → timeOf s r ≤ timeOf s x) ∧ (∀ (k x : Nat), l[k]? = some x → chosen (n + k) = true → timeOf s r ≤ timeOf s x) ∧
    (o = some r ∨ ∃ k : Nat, l[k]? = some r ∧ chosen (n + k) = true)
  | [], n, o, r, h => by
    rw [pickOldest.eq_def] at h
    dsimp only at h
    refine ⟨?_, (by intro k x h; cases h), Or.inl h⟩
    intro x hx
    rw [hx] at h; injection h with h; rw [h]; exact Int.le_refl _
  | a :: l, n, o, r, h => by
    rw [pickOldest.eq_def] at h
    dsimp only at h
    have shift : ∀ k : Nat, n + 1 + k = n + (k + 1) := by intro k; omega
    by_cases hc : chosen n = true
    · rw [if_pos hc] at h
      have fin : ∀ o' : Option Nat, pickOldest s chosen (n + 1) o' l = some r → (∃ y, o' = some y ∧ timeOf s y ≤ timeOf s a ∧ (∀ x, o = some x → timeOf s y ≤ timeOf s x) ∧ (y = a ∨ o = some y)) →
          (∀ x, o = some x → timeOf s r ≤ timeOf s x) ∧ (∀ (k x : Nat), (a :: l)[k]? = some x → chosen (n + k) = true → timeOf s r ≤ timeOf s x) ∧
          (o = some r ∨ ∃ k : Nat, (a :: l)[k]? = some r ∧ chosen (n + k) = true) := by
        rintro o' h' ⟨y, hy, h1, h2, h3⟩
        obtain ⟨g1, g2, g3⟩ := pickOldest_spec h'
        have gy := g1 y hy
        refine ⟨fun x hx => Int.le_trans gy (h2 x hx), ?_, ?_⟩
        · intro k x hk hck
          cases k with
          | zero =>
            rw [List.getElem?_cons_zero] at hk
            injection hk with hk
            rw [← hk]; exact Int.le_trans gy h1
          | succ k =>
            rw [List.getElem?_cons_succ] at hk
            exact g2 k x hk (by rw [shift]; exact hck)
        · rcases g3 with g3 | ⟨k, k1, k2⟩
          · rw [hy] at g3
            injection g3 with g3
            subst g3
            rcases h3 with h3 | h3
            · exact Or.inr ⟨0, by rw [List.getElem?_cons_zero, h3], hc⟩
            · exact Or.inl h3
          · exact Or.inr ⟨k + 1, by rw [List.getElem?_cons_succ]; exact k1, by rw [← shift]; exact k2⟩
      cases o with
      | none => exact fin _ h ⟨a, rfl, Int.le_refl _, (by intro x hx; cases hx), Or.inl rfl⟩
      | some old =>
        dsimp only at h
        refine fin _ h ?_
        by_cases hlt : timeOf s a < timeOf s old
        · rw [if_pos hlt]
          exact ⟨a, rfl, Int.le_refl _, (by intro x hx; injection hx with hx; rw [← hx]; exact Int.le_of_lt hlt), Or.inl rfl⟩
        · rw [if_neg hlt]
          exact ⟨old, rfl, Int.not_lt.1 hlt, (by intro x hx; injection hx with hx; rw [← hx]; exact Int.le_refl _), Or.inr rfl⟩
    · rw [if_neg hc] at h
      obtain ⟨g1, g2, g3⟩ := pickOldest_spec h
      refine ⟨g1, ?_, ?_⟩
      · intro k x hk hck
        cases k with
        | zero => exact absurd hck hc
        | succ k =>
          rw [List.getElem?_cons_succ] at hk
          exact g2 k x hk (by rw [shift]; exact hck)
      · rcases g3 with g3 | ⟨k, k1, k2⟩
        · exact Or.inl g3
        · exact Or.inr ⟨k + 1, by rw [List.getElem?_cons_succ]; exact k1, by rw [← shift]; exact k2⟩

theorem deref_new {s s' : St} {v : Nat} (h : deref s v = some s') : s'.new = s.new := by
  unfold deref at h
  split at h
  · cases h
  · split at h
    · split at h
      · cases h
      · rename_i s2 hsw
        injection h with h
        subst h
        unfold swapRandom at hsw
        split at hsw
        · injection hsw with hsw; subst hsw; rfl
        · split at hsw
          · split at hsw
            · injection hsw with hsw; subst hsw; rfl
            · cases hsw
          · cases hsw
    · injection h with h; subst h; rfl

/-- An entry the manager would rather forget, in its own words: seen last more than 30 days ago, never or in the future; three attempts and
no success; or ten failures and no success in a week; but none that was tried in the last minute. -/
def useless (i : Info) (now : Int) : Prop :=
  ¬(i.lastTry ≠ 0 ∧ now - 60 ≤ i.lastTry) ∧
    (now + 600 < i.time ∨ i.time = 0 ∨ i.time + 2592000 < now ∨ (i.lastSuccess = 0 ∧ 3 ≤ i.attempts) ∨ (i.lastSuccess + 604800 < now ∧ 10 ≤ i.attempts))

theorem terrible_iff (i : Info) (now : Int) : i.terrible now = true ↔ useless i now := by
  unfold Info.terrible useless
  repeat' split
  all_goals simp only [Bool.false_eq_true, false_iff, true_iff]
  all_goals omega

/-- **C154**: room in a full new bucket is made by a useless entry if there is one, otherwise by the one heard of least recently among
those at the four random positions. -/
theorem shrink_victim (H : Hashes) (ops : List Op) (s : St) (h : run H ops = some s) (b : Nat) (hb : s.new b ≠ []) (now : Int) (rnd : Nat → Nat) :
    ∃ s' v i, shrinkNew s b now rnd = some s' ∧ v ∈ s.new b ∧ s'.new b = (s.new b).erase v ∧ s.info v = some i ∧
      (useless i now ∨ (∀ n ∈ s.new b, ∀ j, s.info n = some j → ¬useless j now) ∧
        (∃ q : Nat, q < 4 ∧ (s.new b)[rnd q % (s.new b).length]? = some v) ∧
        ∀ (q n : Nat) j, q < 4 → (s.new b)[rnd q % (s.new b).length]? = some n → s.info n = some j → i.time ≤ j.time) := by
  have hs := run_inv h
  obtain ⟨s', v, h1, h2, _, h4, _⟩ := shrink_ok hs hb (fun n _ => by intro hc; cases hc) now rnd
  have hexist : ∀ n ∈ s.new b, ∃ j, s.info n = some j := fun n hn => by obtain ⟨_, j, hj, _⟩ := hs.bk.n2 b n hn; exact ⟨j, hj⟩
  unfold shrinkNew at h1 ⊢
  cases hf : findTerrible s now (s.new b) with
  | none => rw [hf] at h1; cases h1
  | some r =>
    rw [hf] at h1
    obtain ⟨t1, t2⟩ := findTerrible_spec hf
    obtain ⟨r', f1, f2⟩ := findTerrible_ok (s := s) (now := now) hexist
    rw [hf] at f1; injection f1 with f1; subst f1
    cases r with
    | some w =>
      obtain ⟨i, i1, i2⟩ := t1 w rfl
      dsimp only at h1 ⊢
      refine ⟨s', w, i, h1, f2 w rfl, ?_, i1, Or.inl ((terrible_iff i now).1 i2)⟩
      cases hd : deref s w with
      | none => rw [hd] at h1; cases h1
      | some s1 =>
        rw [hd] at h1
        injection h1 with h1
        rw [← h1]
        dsimp only
        rw [upd_same, deref_new hd]
    | none =>
      dsimp only at h1 ⊢
      cases hp : pickOldest s (fun k => decide (k = rnd 0 % (s.new b).length ∨ k = rnd 1 % (s.new b).length ∨ k = rnd 2 % (s.new b).length ∨ k = rnd 3 % (s.new b).length)) 0 none (s.new b) with
      | none => rw [hp] at h1; cases h1
      | some w =>
        rw [hp] at h1
        dsimp only at h1 ⊢
        obtain ⟨_, p2, p3⟩ := pickOldest_spec hp
        obtain ⟨k, k1, k2⟩ := p3.resolve_left (by intro hc; cases hc)
        have hw : w ∈ s.new b := List.mem_of_getElem? k1
        obtain ⟨i, hi⟩ := hexist w hw
        refine ⟨s', w, i, h1, hw, ?_, hi, Or.inr ⟨?_, ?_, ?_⟩⟩
        · cases hd : deref s w with
          | none => rw [hd] at h1; cases h1
          | some s1 =>
            rw [hd] at h1
            injection h1 with h1
            rw [← h1]
            dsimp only
            rw [upd_same, deref_new hd]
        · intro n hn j hj hu
          have := t2 rfl n hn j hj
          rw [(terrible_iff j now).2 hu] at this; cases this
        · rw [Nat.zero_add] at k2
          rcases of_decide_eq_true k2 with e | e | e | e
          · exact ⟨0, by decide, e ▸ k1⟩
          · exact ⟨1, by decide, e ▸ k1⟩
          · exact ⟨2, by decide, e ▸ k1⟩
          · exact ⟨3, by decide, e ▸ k1⟩
        · intro q n j hq hn hj
          have := p2 _ n hn (by
            rw [Nat.zero_add]
            apply decide_eq_true
            have : q = 0 ∨ q = 1 ∨ q = 2 ∨ q = 3 := by omega
            rcases this with e | e | e | e <;> subst e <;> simp)
          unfold timeOf at this
          rw [hi, hj] at this
          exact this

/-- **C154**: an attempt and a connection are noted for the address with this port and no other; the time of a connected address is set
when it is more than 20 minutes old. -/
theorem noted (H : Hashes) (ops : List Op) (s : St) (h : run H ops = some s) (ip port : Nat) (now : Int) (a : Ip) (i : Info) (ha : entry s a = some i) :
    entry (attempt s ip port now) a = some (if a = ip ∧ i.port = port then { i with lastTry := now, attempts := i.attempts + 1 } else i) ∧
    entry (connected s ip port now) a = some (if a = ip ∧ i.port = port ∧ i.time + 1200 < now then { i with time := now } else i) := by
  have hs := run_inv h
  obtain ⟨n, g1, g2⟩ := entry_some ha
  have other : ∀ (m : Nat) (j : Info), s.addr ip = some m → a ≠ ip → entry { s with info := upd s.info m (some j) } a = some i := by
    intro m j hm hne
    have hnm : n ≠ m := by
      intro hc
      obtain ⟨i1, e1, e2⟩ := hs.core.a1 a n g1
      obtain ⟨i2, e3, e4⟩ := hs.core.a1 ip m hm
      rw [hc, e3] at e1; injection e1 with e1
      exact hne (by rw [← e2, ← e1, e4])
    unfold entry
    dsimp only
    rw [g1, Option.bind_some, upd_ne _ _ hnm]; exact g2
  have self : ∀ j : Info, entry { s with info := upd s.info n (some j) } a = some j := by
    intro j
    unfold entry
    dsimp only
    rw [g1, Option.bind_some, upd_same]
  constructor
  · unfold attempt
    by_cases hne : a = ip
    · subst hne
      rw [g1, Option.bind_some, g2, Option.map_some]
      dsimp only
      by_cases hp : i.port = port
      · rw [if_neg (fun hc => hc hp), if_pos ⟨rfl, hp⟩]; exact self _
      · rw [if_pos hp, if_neg (fun hc => hp hc.2)]; exact ha
    · rw [if_neg (fun hc => hne hc.1)]
      cases hm : s.addr ip with
      | none => exact ha
      | some m =>
        obtain ⟨j, hj, _⟩ := hs.core.a1 ip m hm
        rw [Option.bind_some, hj, Option.map_some]
        dsimp only
        split
        · exact ha
        · exact other m _ hm hne
  · unfold connected
    by_cases hne : a = ip
    · subst hne
      rw [g1, Option.bind_some, g2, Option.map_some]
      dsimp only
      by_cases hp : i.port = port
      · rw [if_neg (fun hc => hc hp)]
        by_cases ht : i.time + 1200 < now
        · rw [if_pos (by omega), if_pos ⟨rfl, hp, ht⟩]; exact self _
        · rw [if_neg (by omega), if_neg (fun hc => ht hc.2.2)]; exact ha
      · rw [if_pos hp, if_neg (fun hc => hp hc.2.1)]; exact ha
    · rw [if_neg (fun hc => hne hc.1)]
      cases hm : s.addr ip with
      | none => exact ha
      | some m =>
        obtain ⟨j, hj, _⟩ := hs.core.a1 ip m hm
        rw [Option.bind_some, hj, Option.map_some]
        dsimp only
        split
        · exact ha
        · split
          · exact other m _ hm hne
          · exact ha

/-! ### What is wrong -/

def zeroHash : Hashes := ⟨fun _ => 0, fun _ _ => 0, fun _ _ => 0, fun _ _ => 0, fun _ _ => 0⟩

/-- 64 addresses become tried ones, address 10 long before the others; address 64 is new. -/
def fill : List Op :=
  (List.range 64).flatMap (fun a => [.add a 8333 1000 true 1 0 1000 (fun _ => 0), .good a 8333 (if a = 10 then 1 else 100) (fun _ => 0)]) ++
    [.add 64 8333 1000 true 1 0 1000 (fun _ => 0)]

def pick : Nat → Nat := fun k => if k = 0 then 10 else 0

set_option maxRecDepth 100000 in
/-- **C154, violated**: of the tried addresses inspected the one that succeeded least recently is to make room.  `SelectTried` returns the
position the entry had before it was swapped to the front, so an entry is evicted that is not the oldest: address 10, the oldest of
all, is looked at and stays; address 0 goes. -/
theorem evicts_oldest_violated :
    ∃ s s' old lost, run zeroHash fill = some s ∧ good zeroHash s 64 8333 2000 pick = some s' ∧
      (s.tried 0).length = 64 ∧ (s.tried 0)[pick 0 % 64]? = s.addr 10 ∧ entry s 10 = some old ∧ entry s 0 = some lost ∧
      old.lastSuccess < lost.lastSuccess ∧ (entry s' 10).map (·.tried) = some true ∧ lost.tried = true ∧
      (entry s' 0).map (·.tried) = some false := by
  have key : (match run zeroHash fill with
    | none => false
    | some s => match good zeroHash s 64 8333 2000 pick with
      | none => false
      | some s' => match entry s 10, entry s 0 with
        | some old, some lost =>
          decide ((s.tried 0).length = 64 ∧ (s.tried 0)[pick 0 % 64]? = s.addr 10 ∧ old.lastSuccess < lost.lastSuccess ∧
            (entry s' 10).map (·.tried) = some true ∧ lost.tried = true ∧ (entry s' 0).map (·.tried) = some false)
        | _, _ => false) = true := by decide +kernel
  split at key
  · cases key
  · rename_i s hs
    split at key
    · cases key
    · rename_i s' hs'
      split at key
      · rename_i old lost ho hl
        obtain ⟨k1, k2, k3, k4, k5, k6⟩ := of_decide_eq_true key
        exact ⟨s, s', old, lost, hs, hs', k1, k2, ho, hl, k3, k4, k5, k6⟩
      · cases key

/-- **C154, violated**: addresses are indexed without their port.  As long as an address is known with one port, another port at the same
address is neither learned by `Add` nor made a tried one by `Good`, however often a connection to it succeeds. -/
theorem other_port_violated (H : Hashes) (ops : List Op) (s : St) (h : run H ops = some s) (ip port : Nat) (i : Info)
    (hi : entry s ip = some i) (hp : i.port ≠ port) (time : Int) (routable : Bool) (source : Ip) (penalty now now' : Int) (rnd rnd' : Nat → Nat) :
    ∃ b s', add H s ip port time routable source penalty now rnd = some (b, s') ∧ good H s' ip port now' rnd' = some s' ∧
      (entry s' ip).map akey = some (akey i) := by
  have hs := run_inv h
  obtain ⟨n, g1, g2⟩ := entry_some hi
  obtain ⟨b, s', h1, h2⟩ := add_ok hs ip port time routable source penalty now rnd
  obtain ⟨k1, k2⟩ := h2.again n i g1 g2
  have hk : (entry s' ip).map akey = some (akey i) := by rw [entry_of k1]; exact k2
  obtain ⟨s2, h3, h4⟩ := good_ok h2.inv ip port now' rnd'
  have : s2 = s' := h4.skip (by
    intro m j e1 e2
    rw [k1] at e1; injection e1 with e1; subst e1
    rw [e2] at k2
    rw [(akey_inv (Option.some.inj k2)).2.1]; exact hp)
  rw [this] at h3
  exact ⟨b, s', h1, h3, hk⟩

/-! ## C155 -/

/-- An `Add` on behalf of a peer of the group. -/
def addFrom (H : Hashes) (g : Nat) : Op → Prop
  | .add _ _ _ _ source _ _ _ => H.group source = g
  | _ => False

/-- **C155**: all that the peers of one group can say goes into 32 of the 256 new buckets.  The other buckets and the tried ones stay as
they are, and every address in them stays known. -/
theorem source_group_limited (H : Hashes) (g : Nat) :
    ∃ reach : List Nat, reach.length ≤ 32 ∧ ∀ (before after : List Op) (s s' : St), run H before = some s →
      (∀ op ∈ after, addFrom H g op) → after.foldlM (step H) s = some s' →
      s'.tried = s.tried ∧ (∀ c, c ∉ reach → s'.new c = s.new c) ∧
      ∀ n i, s.info n = some i → i.tried = true ∨ (∃ c, c ∉ reach ∧ n ∈ s.new c) → (entry s' i.ip).map akey = some (akey i) := by
  refine ⟨(List.range 32).map (fun m => H.k2 g m % 256), by rw [List.length_map, List.length_range]; exact Nat.le_refl _, ?_⟩
  have hin : ∀ ip source, H.group source = g → newBucket H ip source ∈ (List.range 32).map (fun m => H.k2 g m % 256) := by
    intro ip source hg
    rw [List.mem_map]
    exact ⟨H.k1 (H.group ip) (H.group source) % 32, List.mem_range.2 (Nat.mod_lt _ (by decide)), by unfold newBucket; rw [hg]⟩
  generalize (List.range 32).map (fun m => H.k2 g m % 256) = reach at hin
  have main : ∀ (after : List Op) (s s' : St), Inv H s none → (∀ op ∈ after, addFrom H g op) → after.foldlM (step H) s = some s' →
      Inv H s' none ∧ s'.tried = s.tried ∧ (∀ c, c ∉ reach → s'.new c = s.new c) ∧
      ∀ n i, s.info n = some i → i.tried = true ∨ (∃ c, c ∉ reach ∧ n ∈ s.new c) → (s'.info n).map akey = some (akey i) := by
    intro after
    induction after with
    | nil =>
      intro s s' hs _ hf
      injection hf with hf
      subst hf
      exact ⟨hs, rfl, fun _ _ => rfl, fun n i hi _ => by rw [hi]; rfl⟩
    | cons op after ih =>
      intro s s' hs hall hf
      have hop := hall op List.mem_cons_self
      cases op with
      | add ip port time routable source penalty now rnd =>
        have hop : H.group source = g := hop
        obtain ⟨b, s1, h1, h2⟩ := add_ok hs ip port time routable source penalty now rnd
        rw [List.foldlM_cons, step, h1] at hf
        obtain ⟨r1, r2, r3, r4⟩ := ih s1 s' h2.inv (fun op h => hall op (List.mem_cons_of_mem _ h)) hf
        have hb : ∀ c, c ∉ reach → c ≠ newBucket H ip source := fun c hc he => hc (he ▸ hin ip source hop)
        refine ⟨r1, r2.trans h2.tried, fun c hc => (r3 c hc).trans (h2.new c (hb c hc)), ?_⟩
        intro n i hi hcase
        have hn : (s1.info n).map akey = some (akey i) := by
          rcases hcase with ht | ⟨c, hc, hm⟩
          · obtain ⟨v, v1, v2⟩ := h2.kept
            exact v2 n i (fun hv => v1 _ (hv ▸ (hs.bk.t1 n i hi ht).2)) hi
          · exact h2.safe n i c (hb c hc) hm hi
        cases h' : s1.info n with
        | none => rw [h'] at hn; cases hn
        | some i1 =>
          rw [h'] at hn
          have hk := Option.some.inj hn
          rw [← hk]
          refine r4 n i1 h' ?_
          rcases hcase with ht | ⟨c, hc, hm⟩
          · exact Or.inl ((akey_inv hk).2.2.2.trans ht)
          · exact Or.inr ⟨c, hc, by rw [h2.new c (hb c hc)]; exact hm⟩
      | good => exact hop.elim
      | attempt => exact hop.elim
      | connected => exact hop.elim
      | getAddr => exact hop.elim
  intro before after s s' hr hall hf
  obtain ⟨r1, r2, r3, r4⟩ := main after s s' (run_inv hr) hall hf
  exact ⟨r2, r3, fun n i hi hc => entry_akey r1 (r4 n i hi hc)⟩

/-- **C155**: of the addresses of one group at most 256 (4 buckets) are tried ones. -/
theorem tried_group_limited (H : Hashes) (g : Nat) (ops : List Op) (s : St) (h : run H ops = some s) (as : List Ip) (hn : as.Nodup)
    (hg : ∀ a ∈ as, H.group a = g ∧ ∃ i, entry s a = some i ∧ i.tried = true) : as.length ≤ 256 := by
  have hs := run_inv h
  have hid : ∀ a ∈ as, ∃ n i, s.addr a = some n ∧ s.info n = some i ∧ i.tried = true ∧ i.ip = a := by
    intro a ha
    obtain ⟨i, h1, h2⟩ := (hg a ha).2
    obtain ⟨n, g1, g2⟩ := entry_some h1
    obtain ⟨j, k1, k2⟩ := hs.core.a1 a n g1
    rw [g2] at k1; injection k1 with k1
    exact ⟨n, i, g1, g2, h2, by rw [k1]; exact k2⟩
  have hnd : (as.map (fun a => (s.addr a).getD 0)).Nodup := by
    refine List.Nodup.map_on ?_ hn
    intro a ha b hb he
    obtain ⟨n, i, a1, a2, _, a3⟩ := hid a ha
    obtain ⟨m, j, b1, b2, _, b3⟩ := hid b hb
    rw [a1, b1] at he
    have he : n = m := he
    rw [he, b2] at a2
    injection a2 with a2
    rw [← a3, ← a2, b3]
  have := count_le hs.bk.t4 (ks := (List.range 4).map (fun m => H.h2 g m % 64)) hnd (by
    intro n hm
    obtain ⟨a, ha, he⟩ := List.mem_map.1 hm
    obtain ⟨m, i, a1, a2, a3, a4⟩ := hid a ha
    rw [a1] at he
    have he : m = n := he
    subst he
    refine ⟨_, ?_, (hs.bk.t1 m i a2 a3).2⟩
    rw [List.mem_map]
    refine ⟨H.h1 i.ip i.port % 4, List.mem_range.2 (Nat.mod_lt _ (by decide)), ?_⟩
    unfold triedBucket
    rw [a4, (hg a ha).1])
  rw [List.length_map, List.length_map, List.length_range] at this
  exact this

/-! ## Examples -/

def demo : List Op :=
  [.add 1 8333 1000 true 7 0 1000 (fun _ => 0), .add 2 8333 1000 true 7 0 1000 (fun _ => 0), .good 1 8333 1010 (fun _ => 0),
   .add 3 8333 1000 true 9 0 1000 (fun _ => 0), .attempt 3 8333 1020, .getAddr (fun n => n)]

example : ((run zeroHash demo).map (fun s => (s.nNew, s.nTried, s.random.length, s.new 0, s.tried 0))) = some (2, 1, 3, [1, 2], [0]) := by decide +kernel

/-- An address known with port 8333, asked about with port 9000. -/
example : ((run zeroHash demo).bind (fun s => (entry s 2).map (·.port))) = some 8333 := by decide +kernel

/-- A tried address whose group has a limit. -/
example : ((run zeroHash demo).bind (fun s => (entry s 1).map (·.tried))) = some true ∧ zeroHash.group 1 = 0 := by decide +kernel

/-- A bucket with entries to choose from. -/
example : ((run zeroHash demo).map (fun s => s.new 0)) = some [1, 2] := by decide +kernel

/-- Two groups of sources with different buckets. -/
example : newBucket ⟨fun a => a, fun _ _ => 0, fun _ _ => 0, fun a _ => a, fun g m => 32 * g + m⟩ 5 1 = 37 ∧
    newBucket ⟨fun a => a, fun _ _ => 0, fun _ _ => 0, fun a _ => a, fun g m => 32 * g + m⟩ 5 2 = 69 := by decide

end Verif.Addr
