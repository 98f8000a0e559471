import Verif.Addr.Tried
import Mathlib.Data.List.Nodup

/-!
# All operations keep the tables consistent
-/
namespace Verif.Addr

theorem strip_akey {o p : Option Info} (h : o.map strip = p.map strip) : o.map akey = p.map akey := by
  have e : ∀ q : Option Info, q.map akey = (q.map strip).map akey := by intro q; cases q <;> rfl
  rw [e o, e p, h]

theorem findBucket_mem {s : St} {id start : Nat} : ∀ {n i b : Nat}, findBucket s id start n i = some b → id ∈ s.new b
  | 0, i, b, h => by rw [findBucket] at h; cases h
  | n + 1, i, b, h => by
    rw [findBucket] at h
    split at h
    · rename_i hm; injection h with h; rw [← h]; exact hm
    · exact findBucket_mem h

theorem findBucket_none {s : St} {id start : Nat} : ∀ {n i : Nat}, findBucket s id start n i = none →
    ∀ m, i ≤ m → m < i + n → id ∉ s.new ((m + start) % 256)
  | 0, i, _, m, h1, h2 => by omega
  | n + 1, i, h, m, h1, h2 => by
    rw [findBucket] at h
    split at h
    · cases h
    · rename_i hm
      by_cases he : m = i
      · rw [he]; exact hm
      · exact findBucket_none h m (by omega) (by omega)

theorem refs_pos {new : Nat → List Nat} {id : Nat} (h : 0 < refs new id) : ∃ b, b < 256 ∧ id ∈ new b := by
  unfold refs at h
  obtain ⟨b, h1, h2⟩ := List.countP_pos_iff.1 h
  exact ⟨b, List.mem_range.1 h1, of_decide_eq_true h2⟩

theorem findBucket_ok {s : St} {id start : Nat} (hs : start < 256) (h : 0 < refs s.new id) :
    ∃ b, findBucket s id start 256 0 = some b ∧ id ∈ s.new b := by
  cases hf : findBucket s id start 256 0 with
  | some b => exact ⟨b, rfl, findBucket_mem hf⟩
  | none =>
    obtain ⟨b, hb, hm⟩ := refs_pos h
    have := findBucket_none hf ((b + 256 - start) % 256) (Nat.zero_le _) (by have := Nat.mod_lt (b + 256 - start) (show 0 < 256 by decide); omega)
    rw [show ((b + 256 - start) % 256 + start) % 256 = b by omega] at this
    exact absurd hm this

/-! ## Good -/

/-- What `Good` does to the entry of an address. -/
structure GoodOut (H : Hashes) (s s' : St) (ip port : Nat) (now : Int) : Prop where
  inv : Inv H s' none
  self : ∀ id i, s.addr ip = some id → s.info id = some i → i.port = port →
    ∃ j, s'.info id = some j ∧ akey j = (ip, port, i.src, true) ∧ j.lastSuccess = now ∧ j.attempts = 0
  kept : ∀ n j, s.info n = some j → ∃ j', s'.info n = some j' ∧ j'.ip = j.ip ∧ j'.port = j.port ∧ j'.src = j.src ∧
    (j.ip ≠ ip → j'.tried = j.tried ∨ triedBucket H j.ip j.port = triedBucket H ip port ∧ (s.tried (triedBucket H ip port)).length = 64 ∧ j'.tried = false)
  skip : (∀ id i, s.addr ip = some id → s.info id = some i → i.port ≠ port) → s' = s
  other : ∀ k, k ≠ triedBucket H ip port → s'.tried k = s.tried k

theorem good_ok {H : Hashes} {s : St} (hs : Inv H s none) (ip port : Nat) (now : Int) (rnd : Nat → Nat) :
    ∃ s', good H s ip port now rnd = some s' ∧ GoodOut H s s' ip port now := by
  have same : (∀ id i, s.addr ip = some id → s.info id = some i → i.port ≠ port) → GoodOut H s s ip port now := fun hno =>
    ⟨hs, fun id i h1 h2 h3 => absurd h3 (hno id i h1 h2), fun n j h => ⟨j, h, rfl, rfl, rfl, fun _ => Or.inl rfl⟩, fun _ => rfl, fun _ _ => rfl⟩
  unfold good
  cases ha : s.addr ip with
  | none => exact ⟨s, rfl, same (by intro id i h; rw [ha] at h; cases h)⟩
  | some id =>
    obtain ⟨i, hi, hip⟩ := hs.core.a1 ip id ha
    dsimp only
    rw [hi]
    dsimp only
    by_cases hp : i.port = port
    · rw [if_neg (fun h => h hp)]
      obtain ⟨i', hi'⟩ : ∃ i', ({ i with lastSuccess := now, lastTry := now, time := now, attempts := 0 } : Info) = i' := ⟨_, rfl⟩
      have hs1 : Inv H { s with info := upd s.info id (some i') } none := hs.touch hi (by rw [← hi']; rfl) (by rw [← hi']; rfl)
      have ht' : i'.tried = i.tried := by rw [← hi']
      have hip' : i'.ip = ip := by rw [← hi']; exact hip
      have hpo' : i'.port = port := by rw [← hi']; exact hp
      have hsr' : i'.src = i.src := by rw [← hi']
      have hls' : i'.lastSuccess = now := by rw [← hi']
      have hat' : i'.attempts = 0 := by rw [← hi']
      have huniq : ∀ n j, s.info n = some j → j.ip = ip → n = id := by
        intro n j h hj
        have := hs.core.a2 n j h
        rw [hj, ha] at this
        exact (Option.some.inj this).symm
      by_cases ht : i.tried = true
      · rw [if_pos ht, hi']
        refine ⟨_, rfl, hs1, ?_, ?_, ?_, fun _ _ => rfl⟩
        · intro n j h1 h2 _
          rw [ha] at h1; injection h1 with h1; subst h1
          rw [hi] at h2; injection h2 with h2; subst h2
          refine ⟨i', upd_same _ _ _, ?_, hls', hat'⟩
          unfold akey; rw [hip', hpo', hsr', ht', ht]
        · intro n j h
          by_cases hn : n = id
          · subst hn
            rw [hi] at h; injection h with h; subst h
            exact ⟨i', upd_same _ _ _, by rw [hip', hip], by rw [hpo', hp], hsr', fun _ => Or.inl ht'⟩
          · exact ⟨j, by dsimp only; rw [upd_ne _ _ hn]; exact h, rfl, rfl, rfl, fun _ => Or.inl rfl⟩
        · intro hno; exact absurd hp (hno id i ha hi)
      · rw [if_neg ht, hi']
        have ht : i.tried = false := by cases h : i.tried <;> [rfl; exact absurd h ht]
        have hinfo : ({ s with info := upd s.info id (some i') } : St).info id = some i' := upd_same _ _ _
        obtain ⟨r1, r2, r3⟩ := hs1.bk.n1 id i' hinfo (ht'.trans ht)
        rw [if_neg (by intro h; cases h)] at r3
        obtain ⟨b, hb1, hb2⟩ := findBucket_ok (s := { s with info := upd s.info id (some i') }) (id := id) (start := rnd 100 % 256)
          (Nat.mod_lt _ (by decide)) (by omega)
        rw [hb1]
        dsimp only
        obtain ⟨s', m1, m⟩ := makeTried_ok hs1 hinfo (ht'.trans ht) hb2 rnd
        refine ⟨s', m1, m.inv, ?_, ?_, ?_, ?_⟩
        · intro n j h1 h2 _
          rw [ha] at h1; injection h1 with h1; subst h1
          rw [hi] at h2; injection h2 with h2; subst h2
          refine ⟨_, m.self, ?_, hls', hat'⟩
          unfold akey; dsimp only; rw [hip', hpo', hsr']
        · intro n j h
          by_cases hn : n = id
          · subst hn
            rw [hi] at h; injection h with h; subst h
            exact ⟨_, m.self, by dsimp only; rw [hip', hip], by dsimp only; rw [hpo', hp], hsr', fun hc => absurd hip hc⟩
          · obtain ⟨j', g1, g2, g3, g4, g5⟩ := m.kept n j hn (by dsimp only; rw [upd_ne _ _ hn]; exact h)
            rw [hip', hpo'] at g5
            exact ⟨j', g1, g2, g3, g4, fun _ => g5⟩
        · intro hno; exact absurd hp (hno id i ha hi)
        · intro k hk
          exact m.other k (by rw [hip', hpo']; exact hk)
    · rw [if_pos hp]
      refine ⟨s, rfl, same ?_⟩
      intro n j h1 h2
      rw [ha] at h1; injection h1 with h1; subst h1
      rw [hi] at h2; injection h2 with h2; subst h2
      exact hp

/-! ## Add -/

/-- What `Add` does. -/
structure AddOut (H : Hashes) (s s' : St) (ip port : Nat) (routable : Bool) (source : Ip) (fresh : Bool) : Prop where
  inv : Inv H s' none
  tried : s'.tried = s.tried
  new : ∀ c, c ≠ newBucket H ip source → s'.new c = s.new c
  kept : ∃ v, (∀ k, v ∉ s.tried k) ∧ ∀ n j, n ≠ v → s.info n = some j → (s'.info n).map akey = some (akey j)
  safe : ∀ n j c, c ≠ newBucket H ip source → n ∈ s.new c → s.info n = some j → (s'.info n).map akey = some (akey j)
  fresh : fresh = true ↔ routable = true ∧ s.addr ip = none
  self : routable = true → ∃ id i, s'.addr ip = some id ∧ s'.info id = some i ∧ i.ip = ip ∧
    (s.addr ip = none → akey i = (ip, port, source, false) ∧ id ∈ s'.new (newBucket H ip source))
  again : ∀ id i, s.addr ip = some id → s.info id = some i → s'.addr ip = some id ∧ (s'.info id).map akey = some (akey i)
  only : ∀ a, a ≠ ip → s.addr a = none → s'.addr a = none

theorem refresh_same (i : Info) (time now penalty : Int) :
    bkey (refresh i time now penalty) = bkey i ∧ ckey (refresh i time now penalty) = ckey i ∧ akey (refresh i time now penalty) = akey i := by
  unfold refresh
  dsimp only
  generalize (if now - time < 86400 then (3600 : Int) else 86400) = v
  split <;> exact ⟨rfl, rfl, rfl⟩

theorem akey_inv {i j : Info} (h : akey i = akey j) : i.ip = j.ip ∧ i.port = j.port ∧ i.src = j.src ∧ i.tried = j.tried := by
  simpa only [akey, Prod.mk.injEq] using h

theorem add_ok {H : Hashes} {s : St} (hs : Inv H s none) (ip port : Nat) (time : Int) (routable : Bool) (source : Ip) (penalty now : Int)
    (rnd : Nat → Nat) :
    ∃ b s', add H s ip port time routable source penalty now rnd = some (b, s') ∧ AddOut H s s' ip port routable source b := by
  have hnext : s.info s.next = none := by
    cases h : s.info s.next with
    | none => rfl
    | some j => have := hs.core.lt _ j h; omega
  have hfree : ∀ k, s.next ∉ s.tried k := by
    intro k hk
    obtain ⟨j, h, _⟩ := hs.bk.t2 k _ hk
    rw [hnext] at h; cases h
  unfold add
  cases routable with
  | false =>
    rw [if_pos (show (!false) = true from rfl)]
    refine ⟨false, s, rfl, hs, rfl, fun _ _ => rfl, ⟨s.next, hfree, fun n j _ h => by rw [h]; rfl⟩, fun n j _ _ _ h => by rw [h]; rfl, ?_, ?_, ?_, fun _ _ h => h⟩
    · constructor
      · intro h; cases h
      · intro h; cases h.1
    · intro h; cases h
    · intro id i h1 h2; exact ⟨h1, by rw [h2]; rfl⟩
  | true =>
    rw [if_neg (by intro h; cases h)]
    cases ha : s.addr ip with
    | some id =>
      obtain ⟨i, hi, hip⟩ := hs.core.a1 ip id ha
      rw [Option.bind_some, hi, Option.map_some]
      dsimp only
      obtain ⟨r1, r2, r3⟩ := refresh_same i time now penalty
      generalize refresh i time now penalty = i' at r1 r2 r3 ⊢
      obtain ⟨a1, a2, a3, a4⟩ := akey_inv r3
      have hs1 : Inv H { s with info := upd s.info id (some i') } none := hs.touch hi r1 r2
      have hinfo : ({ s with info := upd s.info id (some i') } : St).info id = some i' := upd_same _ _ _
      have hmap := map_upd (f := akey) (g := s.info) hi r3
      have early : AddOut H s { s with info := upd s.info id (some i') } ip port true source false := by
        refine ⟨hs1, rfl, fun _ _ => rfl, ⟨s.next, hfree, fun n j _ h => by dsimp only; rw [hmap n, h]; rfl⟩, ?_, ?_, ?_, ?_, fun _ _ h => h⟩
        · intro n j c _ _ h
          dsimp only; rw [hmap n, h]; rfl
        · constructor
          · intro h; cases h
          · intro h; rw [ha] at h; cases h.2
        · intro _
          exact ⟨id, i', ha, hinfo, a1.trans hip, fun h => by rw [ha] at h; cases h⟩
        · intro n j h1 h2; exact ⟨h1, by dsimp only; rw [hmap n, h2]; rfl⟩
      by_cases c1 : time = 0 ∨ (i'.time ≠ 0 ∧ time ≤ i'.time)
      · rw [if_pos c1]; exact ⟨false, _, rfl, early⟩
      rw [if_neg c1]
      by_cases c2 : i'.tried = true
      · rw [if_pos c2]; exact ⟨false, _, rfl, early⟩
      rw [if_neg c2]
      by_cases c3 : i'.ref = 4
      · rw [if_pos c3]; exact ⟨false, _, rfl, early⟩
      rw [if_neg c3]
      by_cases c4 : 2 ^ i'.ref.toNat > 1 ∧ rnd 100 % 2 ^ i'.ref.toNat ≠ 0
      · rw [if_pos c4]; exact ⟨false, _, rfl, early⟩
      rw [if_neg c4]
      have ht : i'.tried = false := by cases h : i'.tried <;> [rfl; exact absurd h c2]
      by_cases c5 : id ∈ s.new (newBucket H i'.ip source)
      · have : place H { s with info := upd s.info id (some i') } id i' source now rnd = some { s with info := upd s.info id (some i') } := by
          unfold place
          dsimp only
          rw [if_pos c5]
        rw [this]
        exact ⟨false, _, rfl, early⟩
      · obtain ⟨s', v, p1, p2, p3, p4, p5, p6, ⟨p7, p8, p9⟩, _, p10, p11⟩ :=
          place_ok (s := { s with info := upd s.info id (some i') }) (bump_ok hs1 hinfo ht c3) ht c5 now rnd
        rw [p1]
        rw [a1, hip] at p4 p7 p11
        dsimp only at p5 p6 p7 p9 p10 p11
        have hself : (s'.info id).map akey = some (akey i') := by
          have : (s'.info id).map strip = (some { i' with ref := i'.ref + 1 }).map strip := p3
          rw [strip_akey this]; rfl
        have hkeep : ∀ n j, n ≠ v → s.info n = some j → (s'.info n).map akey = some (akey j) := by
          intro n j hn h
          by_cases hni : n = id
          · subst hni
            rw [hi] at h; injection h with h; subst h
            rw [hself, r3]
          · rw [strip_akey (p5 n hni hn), hmap n, h]; rfl
        refine ⟨false, s', rfl, p2, p10, p11, ⟨v, p6, hkeep⟩, ?_, ?_, ?_, ?_, ?_⟩
        · intro n j c hc hm h
          by_cases hn : n = v
          · subst hn
            cases h' : s'.info n with
            | none => exact absurd h' (p7 c hc hm)
            | some j' => rw [Option.map_some, ← p9 j' h', hmap n, h]; rfl
          · exact hkeep n j hn h
        · constructor
          · intro h; cases h
          · intro h; rw [ha] at h; cases h.2
        · intro _
          cases h' : s'.info id with
          | none => rw [h'] at hself; cases hself
          | some j =>
            rw [h'] at hself
            obtain ⟨q1, _⟩ := akey_inv (Option.some.inj hself)
            have hj : j.ip = ip := q1.trans (a1.trans hip)
            exact ⟨id, j, hj ▸ p2.core.a2 id j h', h', hj, fun h => by rw [ha] at h; cases h⟩
        · intro n j h1 h2
          rw [ha] at h1; injection h1 with h1; subst h1
          rw [hi] at h2; injection h2 with h2; subst h2
          refine ⟨?_, by rw [hself, r3]⟩
          cases h' : s'.info id with
          | none => rw [h'] at hself; cases hself
          | some j' =>
            rw [h'] at hself
            have hj : j'.ip = ip := (akey_inv (Option.some.inj hself)).1.trans (a1.trans hip)
            exact hj ▸ p2.core.a2 id j' h'
        · intro a hne hno
          cases h : s'.addr a with
          | none => rfl
          | some n =>
            exfalso
            obtain ⟨j, g1, g2⟩ := p2.core.a1 a n h
            have hj : (s.info n).map akey = some (akey j) := by
              by_cases hni : n = id
              · subst hni
                rw [g1] at hself
                rw [hi]; rw [Option.some.inj hself, r3]; rfl
              · by_cases hnv : n = v
                · subst hnv; rw [← hmap n]; exact p9 j g1
                · rw [← hmap n, ← strip_akey (p5 n hni hnv), g1]; rfl
            cases h' : s.info n with
            | none => rw [h'] at hj; cases hj
            | some j0 =>
              rw [h'] at hj
              have := hs.core.a2 n j0 h'
              rw [(akey_inv (Option.some.inj hj)).1, g2, hno] at this
              cases this
    | none =>
      rw [Option.bind_none]
      dsimp only
      obtain ⟨i, hie⟩ : ∃ i : Info, (⟨ip, port, source, max 0 (time - penalty), 0, 0, 0, 0, false, s.random.length⟩ : Info) = i := ⟨_, rfl⟩
      rw [hie]
      have e1 : i.ip = ip := by rw [← hie]
      have e2 : i.port = port := by rw [← hie]
      have e3 : i.src = source := by rw [← hie]
      have e4 : i.tried = false := by rw [← hie]
      have e5 : i.ref = 0 := by rw [← hie]
      have e6 : i.pos = s.random.length := by rw [← hie]
      have hc := create_ok hs (i := { i with ref := i.ref + 1 }) (by dsimp only; rw [e1]; exact ha) e4 (by dsimp only; rw [e5]; rfl) e6
      dsimp only at hc
      have huu : upd (upd s.info s.next (some i)) s.next (some { i with ref := i.ref + 1 }) = upd s.info s.next (some { i with ref := i.ref + 1 }) := by
        funext n
        by_cases hn : n = s.next
        · subst hn; rw [upd_same, upd_same]
        · rw [upd_ne _ _ hn, upd_ne _ _ hn, upd_ne _ _ hn]
      obtain ⟨s', v, p1, p2, p3, p4, p5, p6, ⟨p7, p8, p9⟩, _, p10, p11⟩ :=
        place_ok (H := H) (s := { s with next := s.next + 1, info := upd s.info s.next (some i), addr := upd s.addr ip (some s.next), random := s.random ++ [s.next], nNew := s.nNew + 1 })
          (id := s.next) (i := i) (source := source) (by dsimp only; rw [huu, ← e1]; exact hc) e4
          (by intro h; obtain ⟨_, j, h1, _⟩ := hs.bk.n2 _ _ h; rw [hnext] at h1; cases h1) now rnd
      rw [p1]
      rw [e1] at p4 p7 p11
      dsimp only at p5 p6 p7 p9 p10 p11
      have hself : (s'.info s.next).map akey = some (akey i) := by
        have : (s'.info s.next).map strip = (some { i with ref := i.ref + 1 }).map strip := p3
        rw [strip_akey this]; rfl
      have hkeep : ∀ n j, n ≠ v → s.info n = some j → (s'.info n).map akey = some (akey j) := by
        intro n j hn h
        have hni : n ≠ s.next := by intro hc; rw [hc, hnext] at h; cases h
        rw [strip_akey (p5 n hni hn), upd_ne _ _ hni, h]; rfl
      refine ⟨true, s', rfl, p2, p10, p11, ⟨v, p6, hkeep⟩, ?_, ?_, ?_, ?_, ?_⟩
      · intro n j c hc hm h
        by_cases hn : n = v
        · subst hn
          cases h' : s'.info n with
          | none => exact absurd h' (p7 c hc hm)
          | some j' =>
            have := p9 j' h'
            rw [upd_ne _ _ p8, h] at this
            rw [Option.map_some, ← this]; rfl
        · exact hkeep n j hn h
      · exact ⟨fun _ => ⟨rfl, ha⟩, fun _ => rfl⟩
      · intro _
        cases h' : s'.info s.next with
        | none => rw [h'] at hself; cases hself
        | some j =>
          rw [h'] at hself
          have hk := Option.some.inj hself
          have hj : j.ip = ip := (akey_inv hk).1.trans e1
          refine ⟨s.next, j, hj ▸ p2.core.a2 s.next j h', h', hj, fun _ => ⟨?_, p4⟩⟩
          rw [hk]; unfold akey; rw [e1, e2, e3, e4]
      · intro n j h1 _; rw [ha] at h1; cases h1
      · intro a hne hno
        cases h : s'.addr a with
        | none => rfl
        | some n =>
          exfalso
          obtain ⟨j, g1, g2⟩ := p2.core.a1 a n h
          have hni : n ≠ s.next := by
            intro hc
            rw [hc] at g1
            rw [g1] at hself
            have := (akey_inv (Option.some.inj hself)).1
            rw [g2, e1] at this
            exact hne this
          have hj : (s.info n).map akey = some (akey j) := by
            by_cases hnv : n = v
            · subst hnv
              have := p9 j g1
              rwa [upd_ne _ _ hni] at this
            · have := strip_akey (p5 n hni hnv)
              rw [upd_ne _ _ hni] at this
              rw [← this, g1]; rfl
          cases h' : s.info n with
          | none => rw [h'] at hj; cases hj
          | some j0 =>
            rw [h'] at hj
            have := hs.core.a2 n j0 h'
            rw [(akey_inv (Option.some.inj hj)).1, g2, hno] at this
            cases this

/-! ## Attempt and Connected -/

theorem attempt_ok {H : Hashes} {s : St} (hs : Inv H s none) (ip port : Nat) (now : Int) :
    Inv H (attempt s ip port now) none ∧ ∀ n, ((attempt s ip port now).info n).map akey = (s.info n).map akey := by
  unfold attempt
  cases ha : s.addr ip with
  | none => exact ⟨hs, fun _ => rfl⟩
  | some id =>
    obtain ⟨i, hi, _⟩ := hs.core.a1 ip id ha
    rw [Option.bind_some, hi, Option.map_some]
    dsimp only
    split
    · exact ⟨hs, fun _ => rfl⟩
    · exact ⟨hs.touch hi rfl rfl, map_upd hi rfl⟩

theorem connected_ok {H : Hashes} {s : St} (hs : Inv H s none) (ip port : Nat) (now : Int) :
    Inv H (connected s ip port now) none ∧ ∀ n, ((connected s ip port now).info n).map akey = (s.info n).map akey := by
  unfold connected
  cases ha : s.addr ip with
  | none => exact ⟨hs, fun _ => rfl⟩
  | some id =>
    obtain ⟨i, hi, _⟩ := hs.core.a1 ip id ha
    rw [Option.bind_some, hi, Option.map_some]
    dsimp only
    split
    · exact ⟨hs, fun _ => rfl⟩
    · split
      · exact ⟨hs.touch hi rfl rfl, map_upd hi rfl⟩
      · exact ⟨hs, fun _ => rfl⟩

/-! ## GetAddr -/

theorem getAddrLoop_ok {rnd : Nat → Nat} : ∀ (k n : Nat) (s : St), Core s → n + k ≤ s.random.length →
    ∃ r s', getAddrLoop rnd k n s = some (r, s') ∧ Core s' ∧ (∀ m, (s'.info m).map strip = (s.info m).map strip) ∧
      s'.random.length = s.random.length ∧ s'.addr = s.addr ∧ s'.next = s.next ∧ s'.tried = s.tried ∧ s'.new = s.new ∧
      s'.nTried = s.nTried ∧ s'.nNew = s.nNew ∧ (∀ p, p < n → s'.random[p]? = s.random[p]?) ∧ r.length = k ∧
      ∀ m i, r[m]? = some i → ∃ id, s'.random[n + m]? = some id ∧ (s.info id).map strip = some (strip i)
  | 0, n, s, hc, _ => ⟨[], s, rfl, hc, fun _ => rfl, rfl, rfl, rfl, rfl, rfl, rfl, rfl, fun _ _ => rfl, rfl, by intro m i h; cases h⟩
  | k + 1, n, s, hc, hn => by
    rw [getAddrLoop]
    have hq : n ≤ rnd n % (s.random.length - n) + n ∧ rnd n % (s.random.length - n) + n < s.random.length := by
      have := Nat.mod_lt (rnd n) (show 0 < s.random.length - n by omega)
      omega
    generalize rnd n % (s.random.length - n) + n = q at hq
    obtain ⟨s1, a0, a1, a2, a3, a4, a5, a6, a7, a8, a9, a10, a11, a12⟩ := swap_ok hc (p := n) (q := q) (by omega) hq.2
    rw [a0]
    dsimp only
    have hlt : n < s1.random.length := by omega
    rw [List.getElem?_eq_getElem hlt]
    dsimp only
    have hget : s1.random[n]? = some s1.random[n] := List.getElem?_eq_getElem hlt
    generalize s1.random[n] = id at hget
    obtain ⟨i, hi, _⟩ := a1.p2 n id hget
    rw [hi]
    dsimp only
    obtain ⟨r, s2, b0, b1, b2, b3, b4, b5, b6, b7, b8, b9, b10, b11, b12⟩ := getAddrLoop_ok (rnd := rnd) k (n + 1) s1 a1 (by omega)
    rw [b0]
    refine ⟨i :: r, s2, rfl, b1, fun m => (b2 m).trans (a2 m), b3.trans a6, b4.trans a7, b5.trans a8, b6.trans a9, b7.trans a10,
      b8.trans a11, b9.trans a12, ?_, by rw [List.length_cons, b11], ?_⟩
    · intro p hp
      rw [b10 p (by omega), a5 p (by omega) (by omega)]
    · intro m j h
      cases m with
      | zero =>
        rw [List.getElem?_cons_zero] at h
        injection h with h
        subst h
        refine ⟨id, ?_, ?_⟩
        · rw [Nat.add_zero, b10 n (by omega)]; exact hget
        · rw [← a2 id, hi]; rfl
      | succ m =>
        rw [List.getElem?_cons_succ] at h
        obtain ⟨id', h1, h2⟩ := b12 m j h
        refine ⟨id', ?_, ?_⟩
        · rw [show n + (m + 1) = n + 1 + m by omega]; exact h1
        · rw [← a2 id']; exact h2

theorem getAddr_ok {H : Hashes} {s : St} (hs : Inv H s none) (rnd : Nat → Nat) :
    ∃ r s', getAddr s rnd = some (r, s') ∧ Inv H s' none ∧ (∀ m, (s'.info m).map strip = (s.info m).map strip) ∧ s'.addr = s.addr ∧
      s'.tried = s.tried ∧ s'.new = s.new ∧
      r.length = min (23 * s.random.length / 100) 2500 ∧ (r.map (·.ip)).Nodup ∧
      ∀ i ∈ r, ∃ id, s.addr i.ip = some id ∧ (s.info id).map akey = some (akey i) := by
  obtain ⟨r, s', b0, b1, b2, b3, b4, b5, b6, b7, b8, b9, b10, b11, b12⟩ :=
    getAddrLoop_ok (rnd := rnd) (min (23 * s.random.length / 100) 2500) 0 s hs.core (by omega)
  have hkey : ∀ (m : Nat) (i : Info), r[m]? = some i → ∃ id j, s'.random[m]? = some id ∧ s.info id = some j ∧ strip j = strip i := by
    intro m i h
    obtain ⟨id, h1, h2⟩ := b12 m i h
    rw [Nat.zero_add] at h1
    cases h3 : s.info id with
    | none => rw [h3] at h2; cases h2
    | some j => rw [h3] at h2; exact ⟨id, j, h1, h3, Option.some.inj h2⟩
  have hip : ∀ i j : Info, strip j = strip i → j.ip = i.ip ∧ akey j = akey i := by
    intro i j h
    have h1 : (strip j).ip = (strip i).ip := by rw [h]
    have h2 : akey (strip j) = akey (strip i) := by rw [h]
    exact ⟨h1, h2⟩
  refine ⟨r, s', b0, ⟨b1, hs.bk.congr (fun n => strip_bkey (b2 n)) b6 b7, hs.ct.congr (fun n => strip_bkey (b2 n)) b5 b8 b9⟩, b2, b4, b6, b7, b11, ?_, ?_⟩
  · rw [List.nodup_iff_getElem?_ne_getElem?]
    intro m n hmn hn heq
    rw [List.length_map] at hn
    rw [List.getElem?_map, List.getElem?_map, List.getElem?_eq_getElem hn, List.getElem?_eq_getElem (Nat.lt_trans hmn hn)] at heq
    obtain ⟨id1, j1, x1, x2, x3⟩ := hkey m _ (List.getElem?_eq_getElem (Nat.lt_trans hmn hn))
    obtain ⟨id2, j2, y1, y2, y3⟩ := hkey n _ (List.getElem?_eq_getElem hn)
    have e := Option.some.inj heq
    have z1 := hs.core.a2 id1 j1 x2
    have z2 := hs.core.a2 id2 j2 y2
    rw [(hip _ _ x3).1] at z1
    rw [(hip _ _ y3).1] at z2
    rw [show r[m].ip = r[n].ip from e, z2] at z1
    have hid : id2 = id1 := Option.some.inj z1
    obtain ⟨k1, w1, w2⟩ := b1.p2 m id1 x1
    obtain ⟨k2, w3, w4⟩ := b1.p2 n id2 y1
    rw [hid, w1] at w3
    injection w3 with w3
    rw [← w3, w2] at w4
    omega
  · intro i hi
    obtain ⟨m, hm, he⟩ := List.mem_iff_getElem.1 hi
    obtain ⟨id, j, h1, h2, h3⟩ := hkey m i (by rw [List.getElem?_eq_getElem hm, he])
    refine ⟨id, ?_, by rw [h2, Option.map_some, (hip _ _ h3).2]⟩
    rw [← (hip _ _ h3).1]
    exact hs.core.a2 id j h2

/-! ## Sizes -/

theorem countP_split {p q r : Nat → Bool} (h1 : ∀ x, p x = (q x || r x)) (h2 : ∀ x, (q x && r x) = false) :
    ∀ l : List Nat, l.countP p = l.countP q + l.countP r
  | [] => rfl
  | x :: l => by
    rw [List.countP_cons, List.countP_cons, List.countP_cons, countP_split h1 h2 l, h1 x]
    have := h2 x
    cases hq : q x <;> cases hr : r x <;> simp_all <;> omega

theorem random_nodup {s : St} (hc : Core s) : s.random.Nodup := by
  rw [List.nodup_iff_getElem?_ne_getElem?]
  intro m n hmn hn heq
  rw [List.getElem?_eq_getElem hn] at heq
  obtain ⟨i, h1, h2⟩ := hc.p2 m _ heq
  obtain ⟨j, h3, h4⟩ := hc.p2 n _ (List.getElem?_eq_getElem hn)
  rw [h1] at h3
  injection h3 with h3
  rw [← h3, h2] at h4
  omega

theorem size_eq {H : Hashes} {s : St} (hs : Inv H s none) : (s.random.length : Int) = s.nNew + s.nTried := by
  have hp : s.random.Perm ((List.range s.next).filter (fun n => (s.info n).isSome)) := by
    rw [List.perm_ext_iff_of_nodup (random_nodup hs.core) (List.Nodup.filter _ List.nodup_range)]
    intro n
    rw [List.mem_filter, List.mem_range]
    constructor
    · intro h
      obtain ⟨k, hk, he⟩ := List.mem_iff_getElem.1 h
      obtain ⟨i, hi, _⟩ := hs.core.p2 k n (by rw [List.getElem?_eq_getElem hk, he])
      exact ⟨hs.core.lt n i hi, by rw [hi]; rfl⟩
    · rintro ⟨_, h⟩
      obtain ⟨i, hi⟩ := Option.isSome_iff_exists.1 h
      exact List.mem_of_getElem? (hs.core.p1 n i hi)
  have h1 := hp.length_eq
  rw [← List.countP_eq_length_filter, countP_split (q := isKind s.info false) (r := isKind s.info true)] at h1
  · rw [hs.ct.c1, hs.ct.c2, h1]; omega
  · intro n; unfold isKind
    cases s.info n with
    | none => rfl
    | some i => cases h : i.tried <;> simp [h]
  · intro n; unfold isKind
    cases s.info n with
    | none => rfl
    | some i => cases h : i.tried <;> simp [h]

theorem flat_length {f : Nat → List Nat} {m : Nat} (h : ∀ k, (f k).length ≤ m) : ∀ l : List Nat, (l.flatMap f).length ≤ l.length * m
  | [] => Nat.zero_le _
  | x :: l => by
    rw [List.flatMap_cons, List.length_append, List.length_cons, Nat.succ_mul]
    have := flat_length h l
    have := h x
    omega

/-- Different entries that all are in some of the buckets listed. -/
theorem count_le {f : Nat → List Nat} (h : ∀ k, (f k).length ≤ 64) {ks l : List Nat} (hn : l.Nodup) (hl : ∀ n ∈ l, ∃ k ∈ ks, n ∈ f k) :
    l.length ≤ ks.length * 64 :=
  Nat.le_trans (List.Nodup.length_le_of_subset hn (fun n h' => List.mem_flatMap.2 (hl n h'))) (flat_length h ks)

theorem tried_le {H : Hashes} {s : St} (hs : Inv H s none) : s.nTried ≤ 64 * 64 := by
  rw [hs.ct.c1, List.countP_eq_length_filter]
  have := count_le hs.bk.t4 (ks := List.range 64) (l := (List.range s.next).filter (isKind s.info true)) (List.Nodup.filter _ List.nodup_range) (by
    intro n hn
    rw [List.mem_filter] at hn
    have hk := hn.2
    unfold isKind at hk
    cases hi : s.info n with
    | none => rw [hi] at hk; cases hk
    | some i =>
      rw [hi] at hk
      exact ⟨_, List.mem_range.2 (triedBucket_lt H i.ip i.port), (hs.bk.t1 n i hi (by simpa using hk)).2⟩)
  rw [List.length_range] at this
  omega

theorem new_mem {H : Hashes} {s : St} (hs : Inv H s none) {n : Nat} {i : Info} (hi : s.info n = some i) (ht : i.tried = false) :
    ∃ b, b < 256 ∧ n ∈ s.new b := by
  obtain ⟨h1, _, h3⟩ := hs.bk.n1 n i hi ht
  rw [if_neg (by intro h; cases h)] at h3
  exact refs_pos (by omega)

theorem new_le {H : Hashes} {s : St} (hs : Inv H s none) : s.nNew ≤ 256 * 64 := by
  rw [hs.ct.c2, List.countP_eq_length_filter]
  have := count_le hs.bk.n4 (ks := List.range 256) (l := (List.range s.next).filter (isKind s.info false)) (List.Nodup.filter _ List.nodup_range) (by
    intro n hn
    rw [List.mem_filter] at hn
    have hk := hn.2
    unfold isKind at hk
    cases hi : s.info n with
    | none => rw [hi] at hk; cases hk
    | some i =>
      rw [hi] at hk
      obtain ⟨b, h1, h2⟩ := new_mem hs hi (by simpa using hk)
      exact ⟨b, List.mem_range.2 h1, h2⟩)
  rw [List.length_range] at this
  omega

/-! ## Sequences -/

/-- The state after a sequence of operations from the empty tables; `none` if an assert fails. -/
def run (H : Hashes) (ops : List Op) : Option St := ops.foldlM (step H) St.init

theorem init_inv (H : Hashes) : Inv H St.init none := by
  refine ⟨⟨?_, ?_, ?_, ?_, ?_⟩, ⟨?_, ?_, ?_, ?_, ?_, ?_, ?_, ?_⟩, ⟨rfl, rfl⟩⟩ <;> intros <;> simp_all [St.init]

theorem step_ok {H : Hashes} {s : St} (hs : Inv H s none) (op : Op) : ∃ s', step H s op = some s' ∧ Inv H s' none := by
  cases op with
  | add ip port time routable source penalty now rnd =>
    obtain ⟨b, s', h1, h2⟩ := add_ok hs ip port time routable source penalty now rnd
    exact ⟨s', by rw [step, h1]; rfl, h2.inv⟩
  | good ip port now rnd =>
    obtain ⟨s', h1, h2⟩ := good_ok hs ip port now rnd
    exact ⟨s', h1, h2.inv⟩
  | attempt ip port now => exact ⟨_, rfl, (attempt_ok hs ip port now).1⟩
  | connected ip port now => exact ⟨_, rfl, (connected_ok hs ip port now).1⟩
  | getAddr rnd =>
    obtain ⟨r, s', h1, h2, _⟩ := getAddr_ok hs rnd
    exact ⟨s', by rw [step, h1]; rfl, h2⟩

theorem steps_ok {H : Hashes} : ∀ (ops : List Op) {s : St}, Inv H s none → ∃ s', ops.foldlM (step H) s = some s' ∧ Inv H s' none
  | [], s, hs => ⟨s, rfl, hs⟩
  | op :: ops, s, hs => by
    obtain ⟨s1, h1, h2⟩ := step_ok hs op
    obtain ⟨s2, h3, h4⟩ := steps_ok ops h2
    exact ⟨s2, by rw [List.foldlM_cons, h1]; exact h3, h4⟩

theorem run_inv {H : Hashes} {ops : List Op} {s : St} (h : run H ops = some s) : Inv H s none := by
  obtain ⟨s', h1, h2⟩ := steps_ok (H := H) ops (init_inv H)
  unfold run at h
  rw [h] at h1
  injection h1 with h1
  rw [h1]; exact h2

end Verif.Addr
