import Verif.Intake.Process

/-!
# Intake of blocks: properties
-/
namespace Verif.Intake

/-- A state the node can be in after some history of delivered blocks. -/
def Reachable (e : Env) (st : St) : Prop := ∃ vs, run e vs (init e) = some st

theorem Reachable.inv {e : Env} {st : St} (h : Reachable e st) : Inv e st ∧ Pool [] st := by
  obtain ⟨vs, h⟩ := h
  exact run_inv (init_inv e).1 (init_inv e).2 h

theorem process_step {e : Env} {inp : Inputs} {peer ok : Bool} {st s : St} {b : Blk} (h : Reachable e st)
    (hp : process e inp peer st b = some (s, ok)) : Inv e s ∧ Pool [] s ∧ Step inp st s := by
  rcases process_spec (inp := inp) (peer := peer) h.inv.1 h.inv.2 b with ⟨p1, -⟩ | ⟨t, ok', p1, p2, p3, p4, -⟩
  · rw [p1] at hp; simp at hp
  · rw [p1] at hp
    simp only [Option.some.injEq, Prod.mk.injEq] at hp
    obtain ⟨rfl, -⟩ := hp
    exact ⟨p2, p3, p4⟩

/-! ## A small node for the examples -/

/-- Genesis 1; blocks are sound unless `body = 9`; the block signature is part of `body`. -/
def demo : Env :=
  { genesis := ⟨1, 0, 0, 0, true, 0⟩, check := fun _ => true, interval := fun _ => 3, fuelOk := fun _ _ => true,
    reward := fun _ b => b.body != 9, exec := fun _ b => b.body != 8, maxFork := fun _ => 20 }

def calm : Inputs := { flush := fun _ => false, prot := fun _ => [] }

/-- A block of the small node. -/
def blk (h p n body : Nat) : Blk := ⟨h, p, n, 10 * n, true, body⟩

def deliver (bs : List Blk) : Option St := run demo (bs.map fun b => ⟨calm, true, b⟩) (init demo)

/-- Hashes of the active chain. -/
def tips (s : Option St) : Option (List Nat) := s.map fun s => s.active.map (·.hash)

/-! ## C100: the active chain -/

/-- After any history the active chain starts at genesis, every block of it names its predecessor, keeps height, time and fuel
rules, and passed `ConnectBlock` on exactly the chain below it - although blocks of side branches and orphans are taken
before they are executed. -/
theorem active_chain_sound {e : Env} {st : St} (h : Reachable e st) : Linked e st.active ∧ Sound e st.active :=
  ⟨h.inv.1.tree.linked _ h.inv.1.act, h.inv.1.sound⟩

/-- A block of the active chain that may not be disconnected while a block is processed stays in the active chain. -/
theorem final_blocks_stay {e : Env} {inp : Inputs} {peer ok : Bool} {st s : St} {b : Blk} (h : Reachable e st)
    (hp : process e inp peer st b = some (s, ok)) {x : Blk} (hx : x ∈ st.active) (hf : ∀ a, x.hash ∈ inp.prot a) : x ∈ s.active :=
  (process_step h hp).2.2.kept x hx hf

/-- Two branches arrive out of order, with an unsound block on the longer one: the sound branch is active. -/
example : tips (deliver [blk 3 2 2 0, blk 2 1 1 0, blk 12 1 1 0, blk 13 12 2 0, blk 14 13 3 8, blk 15 14 4 0]) = some [3, 2, 1] := by
  decide +kernel

/-- A longer sound branch replaces the active one; the last block is protected and it does not. -/
example : tips (deliver [blk 2 1 1 0, blk 12 1 1 0, blk 13 12 2 0]) = some [13, 12, 1] ∧
    tips (run demo ([blk 2 1 1 0, blk 12 1 1 0, blk 13 12 2 0].map fun b => ⟨{ calm with prot := fun _ => [2] }, true, b⟩) (init demo)) =
      some [2, 1] := by decide +kernel

/-! ## C101: the choice of the chain -/

theorem no_better {e : Env} {s : St} (inv : Inv e s) {n : Node} (hb : best s.idx = some n) (ha : s.active = n.path) {p : List Blk}
    (hk : Known s p) (hs : Sound e p) : ¬ Prefer s p s.active := by
  obtain ⟨m, hm, rfl⟩ := hk
  have hf : m.failed = false := by
    by_contra hc
    exact inv.flags.failed m hm (by simpa using hc) hs
  have hc : m.cand = true := by rw [inv.flags.cand m hm, hf]; rfl
  have hd : (s.idx.map fun n => n.blk.hash).Nodup := by
    have h := inv.tree.nodup
    unfold skel at h
    rw [List.map_map] at h
    have h2 : ((s.idx.map fun n => n.blk.hash).map some).Nodup := by
      rw [List.map_map]
      simpa [Function.comp_def, Node.path, tipHash_cons] using h
    exact List.Pairwise.of_map some (fun a b h hab => h (by rw [hab])) h2
  have hl := best_max hd hb hm hc
  unfold less at hl
  simp only [Bool.or_eq_false_iff, decide_eq_false_iff_not, Bool.and_eq_false_iff, beq_eq_false_iff_ne] at hl
  unfold Prefer
  rw [ha]
  rintro (h | ⟨h1, x, y, h2, h3, h4⟩)
  · simp only [Node.path, List.length_cons] at h
    omega
  · simp only [Node.path, List.length_cons, tipHash_cons, Option.some.injEq] at h1 h2 h3
    subst h2 h3
    rcases hl.2 with h | h
    · omega
    · exact h h4

/-- Whenever processing a block changed what is known, no known sound chain is preferred to the active chain, unless a block
of the active chain that may not be disconnected is missing from some known chain. -/
theorem chain_choice {e : Env} {inp : Inputs} {peer ok : Bool} {st s : St} {b : Blk} (h : Reachable e st)
    (hp : process e inp peer st b = some (s, ok)) (hnew : s.idx ≠ st.idx)
    (hfree : ∀ a, ∀ x ∈ s.active, x.hash ∈ inp.prot a → ∀ q, Known s q → x ∈ q) :
    ∀ p, Known s p → Sound e p → ¬ Prefer s p s.active := by
  obtain ⟨i1, -, i3⟩ := process_step h hp
  rcases i3.best with ⟨h1, -⟩ | ⟨a, q, hq, x, hx, hpr, hn⟩ | ⟨n, hn, ha, -⟩
  · exact absurd h1 hnew
  · obtain ⟨m, hm, hmq⟩ := List.mem_map.1 hq
    exact absurd (hfree a x hx hpr q ⟨m, hm, hmq⟩) hn
  · exact fun p hk hs => no_better i1 hn ha hk hs

theorem run_best {e : Env} {vs : List Event} (hv : ∀ v ∈ vs, ∀ a, v.inp.prot a = []) {st : St}
    (h : run e vs (init e) = some st) : Inv e st ∧ ∃ n, best st.idx = some n ∧ st.active = n.path ∧ st.most = st.active := by
  suffices key : ∀ (vs : List Event) (s0 : St), (∀ v ∈ vs, ∀ a, v.inp.prot a = []) → Inv e s0 → Pool [] s0 →
      (∃ n, best s0.idx = some n ∧ s0.active = n.path ∧ s0.most = s0.active) → run e vs s0 = some st →
      Inv e st ∧ ∃ n, best st.idx = some n ∧ st.active = n.path ∧ st.most = st.active from
    key vs _ hv (init_inv e).1 (init_inv e).2 ⟨_, rfl, rfl, rfl⟩ h
  intro vs
  induction vs with
  | nil => intro s0 _ i _ hb h; simp only [run, Option.some.injEq] at h; subst h; exact ⟨i, hb⟩
  | cons v vs ih =>
    intro s0 hv i pl hb h
    unfold run at h
    rcases process_spec (inp := v.inp) (peer := v.peer) i pl v.blk with ⟨p1, -⟩ | ⟨t, ok, p1, p2, p3, p4, -⟩
    · rw [p1] at h; simp at h
    · rw [p1] at h
      refine ih t (fun w hw => hv w (by simp [hw])) p2 p3 ?_ h
      rcases p4.best with ⟨h1, h2, h3⟩ | ⟨a, q, hq, x, hx, hpr, hn⟩ | hb'
      · rw [h1, h2, h3]; exact hb
      · rw [hv v (by simp) a] at hpr; simp at hpr
      · exact hb'

/-- As long as nothing is final, the active chain is at all times the longest known sound chain, the first to arrive among equals. -/
theorem chain_choice_always {e : Env} {vs : List Event} (hv : ∀ v ∈ vs, ∀ a, v.inp.prot a = []) {st : St}
    (h : run e vs (init e) = some st) : ∀ p, Known st p → Sound e p → ¬ Prefer st p st.active := by
  obtain ⟨i, n, hn, ha, -⟩ := run_best hv h
  exact fun p hk hs => no_better i hn ha hk hs

/-! ## C102: nothing that arrives stops the node -/

/-- Genesis blocks apart: the producer is named by registration id and the previous hash is not null. -/
def Tame (b : Blk) : Prop := b.height = 0 ∨ (b.byReg = true ∧ b.prev ≠ 0)

/-- No history of tame blocks makes the node fail an assertion, dereference null, loop for ever or shut down: choosing the
chain, checking side branches and resolving orphans always finish. -/
theorem never_stops_partial (e : Env) (vs : List Event) (hv : ∀ v ∈ vs, Tame v.blk) : run e vs (init e) ≠ none := by
  suffices key : ∀ (vs : List Event) (s0 : St), (∀ v ∈ vs, Tame v.blk) → Inv e s0 → Pool [] s0 → (∀ o ∈ s0.orphans, Tame o) →
      run e vs s0 ≠ none from key vs _ hv (init_inv e).1 (init_inv e).2 (by simp [init])
  intro vs
  induction vs with
  | nil => intro s0 _ _ _ _; simp [run]
  | cons v vs ih =>
    intro s0 hv i pl ho
    unfold run
    rcases process_spec (inp := v.inp) (peer := v.peer) i pl v.blk with ⟨-, h⟩ | ⟨t, ok, p1, p2, p3, p4, p5, -⟩
    · exfalso
      rcases h with ⟨h1, h2⟩ | ⟨k, hk, h1, h2⟩
      · rcases hv v (by simp) with h | ⟨h3, h4⟩
        · exact h1 h
        · rcases h2 with h2 | h2
          · rw [h2] at h3; simp at h3
          · exact h4 h2
      · rcases ho k hk with h | ⟨h3, -⟩
        · exact h1 h
        · rw [h2] at h3; simp at h3
    · rw [p1]
      refine ih t (fun w hw => hv w (by simp [hw])) p2 p3 ?_
      intro o hoo
      rcases p5 o hoo with h | h
      · exact ho o h
      · rw [h]; exact hv v (by simp)

example : ∀ v ∈ ([blk 3 2 2 0, blk 2 1 1 9, blk 12 1 1 0].map fun b => (⟨calm, true, b⟩ : Event)), Tame v.blk := by
  intro v hv
  simp [blk] at hv
  rcases hv with rfl | rfl | rfl <;> simp [Tame]

/-- One block with a null previous hash and a height other than 0 stops the node: it is not taken for an orphan, and
`AcceptBlock` asserts that its predecessor is known. -/
theorem null_prev_stops_violated : deliver [blk 2 0 1 0] = none := by decide +kernel

/-- One block on the tip whose first transaction names its sender by public key stops the node: `GetBlockBpRegid` throws and
`AcceptBlock` orders the shutdown. Nothing about the block has been verified by then. -/
theorem pubkey_producer_stops_violated : deliver [{ blk 2 1 1 9 with byReg := false }] = none := by decide +kernel

/-- The same from the orphan pool, when the predecessor arrives from an honest peer. -/
theorem pubkey_orphan_stops_violated :
    (deliver [{ blk 3 2 2 9 with byReg := false }]).isSome = true ∧ deliver [{ blk 3 2 2 9 with byReg := false }, blk 2 1 1 0] = none := by
  decide +kernel

/-! ## C103: a good block is taken -/

theorem run_append {e : Env} {vs ws : List Event} {s0 s : St} (h : run e vs s0 = some s) : run e (vs ++ ws) s0 = run e ws s := by
  induction vs generalizing s0 with
  | nil => simp only [run, Option.some.injEq] at h; subst h; rfl
  | cons v vs ih =>
    rw [List.cons_append]
    unfold run at h
    conv_lhs => unfold run
    cases hq : process e v.inp v.peer s0 v.blk with
    | none => rw [hq] at h; simp at h
    | some q => rw [hq] at h; exact ih h

/-- A block whose hash has not been seen before, on a known sound chain within the fork limit, that is itself sound on that
chain and keeps the rules for height, time and fuel, is known afterwards, and as long as nothing is final the active chain
is then at least as long as the chain it ends. -/
theorem good_block_taken_partial {e : Env} {vs : List Event} (hv : ∀ v ∈ vs, ∀ a, v.inp.prot a = []) {st s : St} {peer ok : Bool}
    {inp : Inputs} (hi : ∀ a, inp.prot a = []) (h : run e vs (init e) = some st) {b : Blk} (hnew : has st.idx b.hash = false)
    (hno : inChain st.orphans b.hash = false) {p : List Blk} (hk : Known st p) (hf : Fits e b p) (hs : Sound e (b :: p))
    (hn : Near st (e.maxFork b.height) p) (hp : process e inp peer st b = some (s, ok)) :
    Known s (b :: p) ∧ p.length + 1 ≤ s.active.length := by
  have hr : Reachable e st := ⟨vs, h⟩
  obtain ⟨m, hm, rfl⟩ := hk
  have hps : Sound e m.path := hs.suffix (List.suffix_cons _ _) (by simp [Node.path])
  have hc : connect e m.path b = true := (sound_cons hps).1 hs
  simp only [connect, Bool.and_eq_true] at hc
  rcases process_spec (inp := inp) (peer := peer) hr.inv.1 hr.inv.2 b with ⟨p1, -⟩ | ⟨t, ok', p1, p2, p3, p4, p5, p6⟩
  · rw [p1] at hp; simp at hp
  rw [p1] at hp
  simp only [Option.some.injEq, Prod.mk.injEq] at hp
  obtain ⟨rfl, -⟩ := hp
  have h6 := (p6 hno hc.1.1 m.path (mem_path hm) hf (Or.inr ⟨hn, hps, hc.1.2⟩)).2 hnew
  obtain ⟨k, hkm, hkp⟩ := List.mem_map.1 h6
  have hkn : Known t (b :: m.path) := ⟨k, hkm, hkp⟩
  refine ⟨hkn, ?_⟩
  have hrun : run e (vs ++ [⟨inp, peer, b⟩]) (init e) = some t := by
    rw [run_append h]
    simp only [run, p1]
  have := chain_choice_always (vs := vs ++ [⟨inp, peer, b⟩]) (by
    intro v hvv a
    rcases List.mem_append.1 hvv with h | h
    · exact hv v h a
    · simp only [List.mem_singleton] at h
      rw [h]; exact hi a) hrun _ hkn hs
  unfold Prefer at this
  push_neg at this
  have h1 := this.1
  simpa using h1

/-- A good block on a side branch. -/
example : ∃ st, deliver [blk 2 1 1 0, blk 3 2 2 0, blk 12 1 1 0] = some st ∧ has st.idx 13 = false ∧ inChain st.orphans 13 = false ∧
    Known st [blk 12 1 1 0, demo.genesis] ∧ Fits demo (blk 13 12 2 0) [blk 12 1 1 0, demo.genesis] ∧
    Sound demo [blk 13 12 2 0, blk 12 1 1 0, demo.genesis] ∧ Near st 20 [blk 12 1 1 0, demo.genesis] ∧
    (process demo calm true st (blk 13 12 2 0)).isSome = true := by
  refine ⟨⟨[⟨blk 12 1 1 0, [demo.genesis], false, true⟩, ⟨blk 3 2 2 0, [blk 2 1 1 0, demo.genesis], false, true⟩,
    ⟨blk 2 1 1 0, [demo.genesis], false, true⟩, ⟨demo.genesis, [], false, true⟩], [blk 3 2 2 0, blk 2 1 1 0, demo.genesis],
    [blk 3 2 2 0, blk 2 1 1 0, demo.genesis], [(1, [demo.genesis])], [], [], []⟩, ?_, ?_, ?_, ⟨_, List.mem_cons_self, rfl⟩,
    ⟨_, _, rfl, rfl, rfl, by decide, by decide, rfl⟩, ⟨⟨rfl, rfl, rfl⟩, ⟨rfl, rfl, rfl⟩, rfl⟩, ⟨[demo.genesis], by simp, ⟨[blk 12 1 1 0], rfl⟩,
    ⟨[blk 3 2 2 0, blk 2 1 1 0], rfl⟩, by decide⟩, ?_⟩ <;> decide +kernel

/-- An altered copy of a block - same hash, since the signature is not hashed - is entered in the index before it is found
bad. The genuine block is then refused as known, its successors are refused or never connected, and the node stays behind
for ever while without the copy it follows the chain. -/
theorem altered_copy_violated :
    tips (deliver [blk 2 1 1 0, blk 3 2 2 0, blk 4 3 3 0]) = some [4, 3, 2, 1] ∧
    (blk 2 1 1 9).hash = (blk 2 1 1 0).hash ∧
    tips (deliver [blk 2 1 1 9, blk 2 1 1 0, blk 3 2 2 0, blk 4 3 3 0, blk 2 1 1 0, blk 3 2 2 0]) = some [1] := by decide +kernel

/-! ## C104: the pool of orphans -/

/-- At all times the pool has at most one orphan more than `MAX_ORPHAN_BLOCKS`, hashes are unique, the three collections hold
the same objects (so none of them points to a deleted one), the greatest element read when the pool is full exists, no
orphan waits for a predecessor that is known and no orphan is in the index. -/
theorem orphan_pool {e : Env} {st : St} (h : Reachable e st) :
    st.orphans.length ≤ 751 ∧ (st.orphans.map (·.hash)).Nodup ∧ st.byPrev = st.orphans ∧ (∀ x ∈ st.oset, x ∈ st.orphans) ∧
    (750 < st.byPrev.length → st.oset ≠ []) ∧ (∀ o ∈ st.orphans, has st.idx o.prev = false ∧ has st.idx o.hash = false) := by
  obtain ⟨-, pl⟩ := h.inv
  refine ⟨pl.bound, pl.nodup, pl.same, pl.sub, fun hl => pl.full ?_, fun o ho => ⟨?_, pl.fresh o ho⟩⟩
  · rw [pl.same] at hl
    have := pl.bound
    simp only [maxOrphans] at this ⊢
    omega
  · by_contra hc
    have := pl.waiting o ho (by simpa using hc)
    simp at this

example : (deliver [blk 4 3 3 0, blk 3 2 2 0, blk 5 4 4 0, blk 14 3 3 0]).map (fun s => (s.orphans.map (·.hash), s.oset.map (·.hash))) =
      some ([4, 3, 5, 14], [5, 4, 3]) ∧
    tips (deliver [blk 4 3 3 0, blk 3 2 2 0, blk 5 4 4 0, blk 14 3 3 0, blk 2 1 1 0]) = some [5, 4, 3, 2, 1] := by decide +kernel

/-- A full pool makes room for an orphan that is nearer than all stored ones, as long as heights are below 2^31: the orphan is
stored, at most one other leaves, and that one is farther away. -/
theorem nearer_orphan_kept_partial {e : Env} {st : St} (h : Reachable e st) {inp : Inputs} {b : Blk} (hc : e.check b = true)
    (h1 : has st.idx b.hash = false) (h2 : inChain st.orphans b.hash = false) (h3 : b.prev ≠ 0) (h4 : has st.idx b.prev = false)
    (hlow : ∀ o ∈ st.orphans, b.height < o.height ∧ o.height < 2 ^ 31) :
    ∃ s, process e inp true st b = some (s, true) ∧ b ∈ s.orphans ∧ s.idx = st.idx ∧ s.active = st.active ∧
      ∃ gone : List Blk, (∀ x ∈ gone, b.height < x.height) ∧ gone.length ≤ 1 ∧ ∀ x ∈ st.orphans, x ∈ s.orphans ∨ x ∈ gone := by
  obtain ⟨-, pl⟩ := h.inv
  unfold process
  rw [if_neg (by simp [h1]), if_neg (by simp [h2]), if_neg (by simp [hc]), if_pos ⟨h3, h4⟩, if_pos rfl]
  unfold keep prune
  split
  · rename_i heq
    split at heq
    · simp at heq
    · rename_i hl
      have hfull : st.orphans.length = maxOrphans + 1 := by have := pl.bound; rw [pl.same] at hl; omega
      have hne := pl.full hfull
      split at heq
      · rename_i hnil; exact absurd hnil hne
      · split at heq <;> simp at heq
  · rename_i heq
    split at heq
    · simp at heq
    · split at heq
      · simp at heq
      · rename_i t ts hos
        obtain ⟨l1, l2⟩ := hlow t (pl.sub t (by rw [hos]; simp))
        rw [if_neg (by unfold i32; rw [if_pos l2, if_pos (by omega)]; omega)] at heq
        simp at heq
  · rename_i st' heq
    split at heq
    · simp only [Option.some.injEq, Prod.mk.injEq, and_true] at heq
      subst heq
      exact ⟨_, rfl, by simp, rfl, rfl, [], by simp, by simp, fun x hx => Or.inl (by simp [hx])⟩
    · split at heq
      · simp at heq
      · rename_i t ts hos
        have ht : t ∈ st.orphans := pl.sub t (by rw [hos]; simp)
        obtain ⟨l1, l2⟩ := hlow t ht
        rw [if_neg (by unfold i32; rw [if_pos l2, if_pos (by omega)]; omega)] at heq
        simp only [Option.some.injEq, Prod.mk.injEq, and_true] at heq
        subst heq
        refine ⟨_, rfl, by simp, rfl, rfl, [t], by simpa using l1, by simp, fun x hx => ?_⟩
        by_cases he : x.hash = t.hash
        · right
          rw [inj_of_nodup_map pl.nodup hx ht he]; simp
        · left
          simp only [List.mem_append, List.mem_filter, bne_iff_ne]
          exact Or.inl ⟨hx, he⟩

/-- Orphans that nobody can build on. -/
def far (n i : Nat) : Blk := blk (100 + i) (10000 + i) n 9

/-- The small node with `n` orphans of one height. -/
def filled (h n : Nat) : St :=
  { init demo with orphans := (List.range n).map (far h), byPrev := (List.range n).map (far h), oset := if n = 0 then [] else [far h 0] }

theorem deliver_far (h : Nat) : ∀ n, n ≤ 751 → deliver ((List.range n).map (far h)) = some (filled h n)
  | 0, _ => rfl
  | n + 1, hn => by
    have ih := deliver_far h n (by omega)
    unfold deliver at ih ⊢
    rw [List.range_succ, List.map_append, List.map_append, run_append ih]
    simp only [List.map_cons, List.map_nil, run]
    have h1 : has (filled h n).idx (far h n).hash = false := by
      simp [filled, init, has, find, far, blk, demo]
      omega
    have h2 : inChain (filled h n).orphans (far h n).hash = false := by
      unfold inChain
      rw [List.any_eq_false]
      intro x hx
      simp only [filled, List.mem_map, List.mem_range] at hx
      obtain ⟨i, hi, rfl⟩ := hx
      simp [far, blk]
      omega
    have h3 : has (filled h n).idx (far h n).prev = false := by
      simp [filled, init, has, find, far, blk, demo]
      omega
    unfold process
    rw [if_neg (by simp [h1]), if_neg (by simp [h2]), if_neg (by simp [demo]), if_pos ⟨by simp [far, blk], h3⟩, if_pos rfl]
    unfold keep prune
    rw [if_pos (by simp [filled, maxOrphans]; omega)]
    simp only [Option.map_some, Option.some.injEq]
    unfold filled
    simp only [List.range_succ, List.map_append, List.map_cons, List.map_nil, Nat.add_eq_zero_iff, Nat.one_ne_zero, and_false, if_false]
    congr 1
    by_cases h0 : n = 0
    · subst h0; rfl
    · rw [if_neg h0]
      simp [oins, far, blk]

/-- 751 unsigned orphans of height 2^31 fill the pool for good: stored as `int32_t` their height is negative, so an orphan of
height 2 does not count as nearer and is abandoned. -/
theorem far_orphans_block_violated :
    ∃ st s, deliver ((List.range 751).map (far (2 ^ 31))) = some st ∧ (∀ o ∈ st.orphans, (blk 3 2 2 0).height < o.height) ∧
      process demo calm true st (blk 3 2 2 0) = some (s, true) ∧ blk 3 2 2 0 ∉ s.orphans := by
  have h2 : inChain (filled (2 ^ 31) 751).orphans 3 = false := by
    unfold inChain
    rw [List.any_eq_false]
    intro x hx
    simp only [filled, List.mem_map, List.mem_range] at hx
    obtain ⟨i, hi, rfl⟩ := hx
    simp only [far, blk, beq_iff_eq]
    omega
  refine ⟨_, filled (2 ^ 31) 751, deliver_far (2 ^ 31) 751 (by omega), ?_, ?_, ?_⟩
  · intro o ho
    simp only [filled, List.mem_map, List.mem_range] at ho
    obtain ⟨i, hi, rfl⟩ := ho
    simp [far, blk]
  · unfold process
    rw [if_neg (by decide), if_neg (by simp only [blk]; rw [h2]; simp), if_neg (by decide), if_pos (by decide), if_pos rfl]
    unfold keep prune
    rw [if_neg (by simp [filled, maxOrphans])]
    simp [filled, far, blk, i32]
  · intro hm
    have : inChain (filled (2 ^ 31) 751).orphans 3 = true := by
      unfold inChain
      exact List.any_eq_true.2 ⟨_, hm, rfl⟩
    rw [h2] at this
    simp at this

/-- With an honest height the same pool makes room. -/
example : ∃ s, process demo calm true (filled 7 751) (blk 3 2 2 0) = some (s, true) ∧ blk 3 2 2 0 ∈ s.orphans := by
  have hr : Reachable demo (filled 7 751) := ⟨_, deliver_far 7 751 (by omega)⟩
  have h2 : inChain (filled 7 751).orphans 3 = false := by
    unfold inChain
    rw [List.any_eq_false]
    intro x hx
    simp only [filled, List.mem_map, List.mem_range] at hx
    obtain ⟨i, hi, rfl⟩ := hx
    simp only [far, blk, beq_iff_eq]
    omega
  obtain ⟨s, h, hm, -⟩ := nearer_orphan_kept_partial hr (inp := calm) (b := blk 3 2 2 0) rfl rfl h2 (by decide) rfl (by
    intro o ho
    simp only [filled, List.mem_map, List.mem_range] at ho
    obtain ⟨i, hi, rfl⟩ := ho
    simp [far, blk])
  exact ⟨s, h, hm⟩

end Verif.Intake
