import Verif.Sync.Lemmas

/-!
# Properties C146 (block download), C147 (getblocks), C148 (getdata)
-/
namespace Verif.Sync

/-! ## C146: block download -/

/-- The states the node can get into: any events, about peers that exist. -/
inductive Reach : St → Prop
  | init : Reach St.init
  | step {s s' : St} {e : Ev} {o : List Hash} : Reach s → e.valid s → step s e = some (o, s') → Reach s'

/-- The blocks that are to be fetched or are being fetched from a peer. -/
def assigned (s : St) (p : Peer) : List Hash := (s.todo.list p ++ s.flight.list p).map (·.hash)

theorem Reach.inv {s : St} (h : Reach s) : Inv' s := by
  induction h with
  | init => exact init_inv
  | step _ hv hs ih =>
    obtain ⟨o, s', h1, h2⟩ := step_ok ih hv
    rw [hs] at h1
    injection h1 with h1
    injection h1 with _ h1
    rw [h1]; exact h2

/-- No event makes the node use an invalid iterator or a missing node state. -/
theorem download_never_fails {s : St} (hr : Reach s) {e : Ev} (he : e.valid s) : ∃ o s', step s e = some (o, s') := by
  obtain ⟨o, s', h, _⟩ := step_ok hr.inv he
  exact ⟨o, s', h⟩

theorem mem_assigned {s : St} {p : Peer} {h : Hash} :
    h ∈ assigned s p ↔ (∃ e ∈ s.todo.list p, e.hash = h) ∨ (∃ e ∈ s.flight.list p, e.hash = h) := by
  unfold assigned
  rw [List.map_append, List.mem_append, List.mem_map, List.mem_map]

theorem assigned_map {s : St} (hs : Inv' s) {p : Peer} {h : Hash} (hh : h ∈ assigned s p) :
    (∃ t m, s.todo.map h = some (p, t, m)) ∨ (∃ t m, s.flight.map h = some (p, t, m)) := by
  rcases mem_assigned.1 hh with ⟨e, he, rfl⟩ | ⟨e, he, rfl⟩
  · exact Or.inl ⟨_, _, hs.todo.up p e he⟩
  · exact Or.inr ⟨_, _, hs.flight.up p e he⟩

/-- A block is assigned to at most one peer, and once. -/
theorem download_one_peer {s : St} (hr : Reach s) :
    (∀ p q h, h ∈ assigned s p → h ∈ assigned s q → p = q) ∧ ∀ p, (assigned s p).Nodup := by
  have hs := hr.inv
  have hex : ∀ h, s.todo.map h ≠ none → s.flight.map h ≠ none → False := fun h h1 h2 => h2 (hs.disj h h1)
  constructor
  · intro p q h h1 h2
    rcases assigned_map hs h1 with ⟨t, m, e1⟩ | ⟨t, m, e1⟩ <;> rcases assigned_map hs h2 with ⟨t', m', e2⟩ | ⟨t', m', e2⟩
    · rw [e1] at e2; injection e2 with e2; injection e2
    · exact (hex h (by rw [e1]; exact Option.some_ne_none _) (by rw [e2]; exact Option.some_ne_none _)).elim
    · exact (hex h (by rw [e2]; exact Option.some_ne_none _) (by rw [e1]; exact Option.some_ne_none _)).elim
    · rw [e1] at e2; injection e2 with e2; injection e2
  · intro p
    unfold assigned
    rw [List.map_append, List.nodup_append]
    refine ⟨?_, ?_, ?_⟩
    · exact (List.pairwise_map).2 (hs.todo.hash_inj p)
    · exact (List.pairwise_map).2 (hs.flight.hash_inj p)
    · intro a ha b hb hab
      rw [List.mem_map] at ha hb
      obtain ⟨x, hx, rfl⟩ := ha
      obtain ⟨y, hy, rfl⟩ := hb
      exact hex x.hash (by rw [hs.todo.up p x hx]; exact Option.some_ne_none _)
        (by rw [hab, hs.flight.up p y hy]; exact Option.some_ne_none _)

/-- At most 128 blocks are in flight from a peer, and the counters count. -/
theorem download_limit {s : St} (hr : Reach s) (p : Peer) :
    (s.flight.list p).length ≤ 128 ∧ s.flight.cnt p = (s.flight.list p).length ∧ s.todo.cnt p = (s.todo.list p).length := by
  have hs := hr.inv
  have h1 := hs.cap p
  have h2 := hs.flight.cnt p
  exact ⟨by omega, h2, hs.todo.cnt p⟩

/-- A peer that has gone has no blocks assigned. -/
theorem download_disconnected {s : St} (hr : Reach s) {p : Peer} (hp : s.conn p = false) : assigned s p = [] := by
  unfold assigned
  rw [hr.inv.todo.list_nil hp, hr.inv.flight.list_nil hp]; rfl

/-- After its announcement by a peer a block is assigned to a peer that is there; to the announcing one, as the last to be fetched,
if nobody is fetching it or the one that does has taken too long. -/
theorem download_announced {s : St} (hr : Reach s) {p : Peer} (hp : s.conn p = true) (h : Hash) (now : Int) (miner : Bool) :
    ∃ s', step s (.announce p h now miner) = some ([], s') ∧ (∃ q, s'.conn q = true ∧ h ∈ assigned s' q) ∧
      ((∀ q, h ∉ assigned s q) ∨
        (∀ q, (∀ x ∈ s.todo.list q, x.hash = h → todoLimit miner ≤ now - x.time) ∧
          (∀ x ∈ s.flight.list q, x.hash = h → flightLimit miner ≤ now - x.time)) →
        (s'.todo.list p).getLast?.map (fun e => (e.hash, e.time)) = some (h, now)) := by
  have hs := hr.inv
  have hyt : ∀ {b : Tab} {lim : Int}, young b h now lim = true → ∃ q t m, b.map h = some (q, t, m) ∧ now - m < lim := by
    intro b lim hy
    unfold young at hy
    cases hm : b.map h with
    | none => rw [hm] at hy; cases hy
    | some r =>
      obtain ⟨q, t, m⟩ := r
      rw [hm] at hy
      exact ⟨q, t, m, rfl, of_decide_eq_true hy⟩
  cases hy : (young s.todo h now (todoLimit miner) || young s.flight h now (flightLimit miner)) with
  | true =>
    refine ⟨s, ?_, ?_, ?_⟩
    · simp only [step, addToQueue, hy, if_true, Option.map_some]
    · rw [Bool.or_eq_true] at hy
      rcases hy with hy | hy
      · obtain ⟨q, t, m, hm, _⟩ := hyt hy
        obtain ⟨h1, h2⟩ := hs.todo.down h q t m hm
        exact ⟨q, h1, mem_assigned.2 (Or.inl ⟨_, h2, rfl⟩)⟩
      · obtain ⟨q, t, m, hm, _⟩ := hyt hy
        obtain ⟨h1, h2⟩ := hs.flight.down h q t m hm
        exact ⟨q, h1, mem_assigned.2 (Or.inr ⟨_, h2, rfl⟩)⟩
    · intro hx
      exfalso
      rw [Bool.or_eq_true] at hy
      rcases hy with hy | hy
      · obtain ⟨q, t, m, hm, hlt⟩ := hyt hy
        obtain ⟨_, h2⟩ := hs.todo.down h q t m hm
        rcases hx with hx | hx
        · exact hx q (mem_assigned.2 (Or.inl ⟨_, h2, rfl⟩))
        · have := (hx q).1 _ h2 rfl
          dsimp only at this
          omega
      · obtain ⟨q, t, m, hm, hlt⟩ := hyt hy
        obtain ⟨_, h2⟩ := hs.flight.down h q t m hm
        rcases hx with hx | hx
        · exact hx q (mem_assigned.2 (Or.inr ⟨_, h2, rfl⟩))
        · have := (hx q).2 _ h2 rfl
          dsimp only at this
          omega
  | false =>
    obtain ⟨s', h1, _, h3, h4, _⟩ := addToQueue_new hs h hp now miner hy
    refine ⟨s', by simp only [step, h1, Option.map_some], ⟨p, by rw [h3]; exact hp, ?_⟩, fun _ => ?_⟩
    · refine mem_assigned.2 (Or.inl ⟨⟨s.nextTok, h, now⟩, ?_, rfl⟩)
      rw [h4]; exact List.mem_append_right _ (List.mem_singleton.2 rfl)
    · rw [h4, List.getLast?_append]; rfl

/-- After a block has come it is assigned to nobody; nothing else changes. -/
theorem download_received {s : St} (hr : Reach s) (h : Hash) :
    ∃ s', step s (.block h) = some ([], s') ∧ ∀ p, assigned s' p = (assigned s p).filter (fun g => decide (g ≠ h)) := by
  obtain ⟨s', h1, _, _, _, _, h6, _⟩ := received_ok hr.inv h
  refine ⟨s', by simp only [step, h1, Option.map_some], fun p => ?_⟩
  unfold assigned
  rw [(h6 p).1, (h6 p).2, ← List.filter_append, List.filter_map]
  rfl

/-- The peer is asked for the first blocks of its queue, in order, as many as fit into 128 in flight; none of them was in flight
from anyone; the rest stays in the queue. -/
theorem download_send {s : St} (hr : Reach s) {p : Peer} (hp : s.conn p = true) (now : Int) :
    ∃ o s', step s (.send p now) = some (o, s') ∧
      o = ((s.todo.list p).map (·.hash)).take (128 - (s.flight.list p).length) ∧
      (∀ h ∈ o, ∀ q, ∀ x ∈ s.flight.list q, x.hash ≠ h) ∧
      (s'.todo.list p).map (·.hash) = ((s.todo.list p).map (·.hash)).drop (128 - (s.flight.list p).length) ∧
      (s'.flight.list p).map (·.hash) = (s.flight.list p).map (·.hash) ++ o ∧
      ∀ q, q ≠ p → s'.todo.list q = s.todo.list q ∧ s'.flight.list q = s.flight.list q := by
  have hs := hr.inv
  have hq : quota s p < 129 := by unfold quota; omega
  obtain ⟨s', h1, _, h3, h4, h5, _⟩ := askLoop_ok 129 hs hp now hq
  have e1 : ((s.todo.list p).take (quota s p)).map (·.hash) =
      ((s.todo.list p).map (·.hash)).take (128 - (s.flight.list p).length) := by
    unfold quota
    rw [List.map_take, Nat.min_comm, ← List.take_take, List.take_of_length_le (i := (s.todo.list p).length) (by rw [List.length_map]; exact Nat.le_refl _)]
  have e2 : ((s.todo.list p).drop (quota s p)).map (·.hash) =
      ((s.todo.list p).map (·.hash)).drop (128 - (s.flight.list p).length) := by
    unfold quota
    rw [List.map_drop]
    by_cases hle : (s.todo.list p).length ≤ 128 - (s.flight.list p).length
    · rw [Nat.min_eq_left hle, List.drop_of_length_le (by rw [List.length_map]; exact Nat.le_refl _),
        List.drop_of_length_le (by rw [List.length_map]; exact hle)]
    · rw [Nat.min_eq_right (by omega)]
  refine ⟨_, s', by simp only [step, hp, if_true]; exact h1, e1, ?_, by rw [h3, e2], h4, h5⟩
  intro h hh q x hx hxe
  rw [List.mem_map] at hh
  obtain ⟨y, hy, rfl⟩ := hh
  have hy' := List.mem_of_mem_take hy
  have a1 := hs.disj y.hash (by rw [hs.todo.up p y hy']; exact Option.some_ne_none _)
  have a2 := hs.flight.up q x hx
  rw [hxe, a1] at a2
  cases a2

/-- A block that was asked for stays with the peer until it comes, the peer goes, or a peer announces it when the time is over. -/
theorem download_kept {s s' : St} (hr : Reach s) {e : Ev} {o : List Hash} (he : e.valid s) (hst : step s e = some (o, s')) {p : Peer}
    {x : Entry} (hx : x ∈ s.flight.list p) :
    x ∈ s'.flight.list p ∨ e = .block x.hash ∨ e = .disconnect p ∨
      ∃ q now miner, e = .announce q x.hash now miner ∧ flightLimit miner ≤ now - x.time := by
  have hs := hr.inv
  have hc : s.conn p = true := (hs.flight.down _ _ _ _ (hs.flight.up p x hx)).1
  cases e with
  | connect =>
    refine Or.inl ?_
    simp only [step, Option.some.injEq, Prod.mk.injEq] at hst
    rw [← hst.2]
    have hn : p ≠ s.nextPeer := by
      intro hc'; have := hs.peers p (hc' ▸ Nat.le_refl _); rw [hc] at this; cases this
    unfold connect Tab.fresh
    dsimp only
    rw [upd_ne _ _ hn]; exact hx
  | disconnect q =>
    by_cases hq : q = p
    · rw [hq]; exact Or.inr (Or.inr (Or.inl rfl))
    · refine Or.inl ?_
      have he' : s.conn q = true := he
      simp only [step, disconnect, he', if_true, Option.map_some, Option.some.injEq, Prod.mk.injEq] at hst
      rw [← hst.2]
      unfold Tab.drop
      dsimp only
      rw [upd_ne _ _ (fun h => hq h.symm)]; exact hx
  | announce q h now miner =>
    cases hy : (young s.todo h now (todoLimit miner) || young s.flight h now (flightLimit miner)) with
    | true =>
      refine Or.inl ?_
      simp only [step, addToQueue, hy, if_true, Option.map_some, Option.some.injEq, Prod.mk.injEq] at hst
      rw [← hst.2]; exact hx
    | false =>
      by_cases hh : x.hash = h
      · refine Or.inr (Or.inr (Or.inr ⟨q, now, miner, by rw [hh], ?_⟩))
        rw [Bool.or_eq_false_iff] at hy
        have h1 := hy.2
        unfold young at h1
        rw [← hh, hs.flight.up p x hx] at h1
        have := of_decide_eq_false h1
        omega
      · refine Or.inl ?_
        cases hp : s.conn q with
        | true =>
          obtain ⟨s2, h1, _, _, _, h5⟩ := addToQueue_new hs h hp now miner hy
          simp only [step, h1, Option.map_some, Option.some.injEq, Prod.mk.injEq] at hst
          rw [← hst.2, h5, List.mem_filter]
          exact ⟨hx, by simpa using hh⟩
        | false =>
          have : addToQueue s h q now miner = some (false, s) := by
            unfold addToQueue; rw [hy, hp]; rfl
          simp only [step, this, Option.map_some, Option.some.injEq, Prod.mk.injEq] at hst
          rw [← hst.2]; exact hx
  | send q now =>
    refine Or.inl ?_
    have he' : s.conn q = true := he
    have hq : quota s q < 129 := by unfold quota; omega
    obtain ⟨s2, h1, _, _, _, h5, _, _, h8⟩ := askLoop_ok 129 hs he' now hq
    simp only [step, he', if_true] at hst
    rw [hst] at h1
    injection h1 with h1
    injection h1 with _ h1
    rw [h1]
    by_cases hqp : p = q
    · subst hqp; exact h8 x hx
    · rw [(h5 p hqp).2]; exact hx
  | block h =>
    by_cases hh : x.hash = h
    · rw [hh]; exact Or.inr (Or.inl rfl)
    · refine Or.inl ?_
      obtain ⟨s2, h1, _, _, _, _, h6, _⟩ := received_ok hs h
      simp only [step, h1, Option.map_some, Option.some.injEq, Prod.mk.injEq] at hst
      rw [← hst.2, (h6 p).2, List.mem_filter]
      exact ⟨hx, by simpa using hh⟩

/-- Two peers; one announces two blocks, is asked for them, and takes too long for the first, which goes to the other one. -/
def demoRun : List Ev :=
  [.connect, .connect, .announce 0 7 0 false, .announce 0 8 0 false, .send 0 1, .announce 1 7 5 false, .announce 1 7 30000000 false]

def runEv (s : St) : List Ev → Option St
  | [] => some s
  | e :: l => (step s e).bind (fun r => runEv r.2 l)

example : (runEv St.init demoRun).map (fun s => (assigned s 0, assigned s 1, s.flight.cnt 0, s.todo.cnt 1)) = some ([8], [7], 1, 1) := by
  decide

example : Reach (connect St.init) ∧ (connect St.init).conn 0 = true := ⟨Reach.step (e := .connect) Reach.init trivial rfl, rfl⟩

/-! ## C147: getblocks and getheaders -/

theorem blocksLoop_spec (stop : Hash) : ∀ (l : List Hash) (lim i : Nat), 1 ≤ lim →
    (blocksLoop stop lim i l).1 =
      (((l.takeWhile (fun h => decide (h ≠ stop))).take lim).zipIdx i).map (fun r => (r.1, decide (r.2 < 2))) ∧
    (blocksLoop stop lim i l).2 = (l.takeWhile (fun h => decide (h ≠ stop)))[lim - 1]?
  | [], lim, i, _ => by rw [blocksLoop]; simp
  | h :: rest, lim, i, hl => by
    rw [blocksLoop, List.takeWhile_cons]
    by_cases hs : h = stop
    · rw [if_pos hs]; simp [hs]
    · rw [if_neg hs]
      obtain ⟨k, rfl⟩ : ∃ k, lim = k + 1 := ⟨lim - 1, by omega⟩
      by_cases hk : k + 1 - 1 ≤ 0
      · have hk0 : k = 0 := by omega
        subst hk0
        rw [if_pos hk]
        simp [hs]
      · rw [if_neg hk]
        obtain ⟨h1, h2⟩ := blocksLoop_spec stop rest (k + 1 - 1) (i + 1) (by omega)
        dsimp only
        rw [h1, h2]
        have hd : decide (h ≠ stop) = true := by simpa using hs
        rw [if_pos hd]
        obtain ⟨j, rfl⟩ : ∃ j, k = j + 1 := ⟨k - 1, by omega⟩
        constructor
        · simp
        · simp

/-- The answer to getblocks: the blocks after the fork point up to the stop block, at most 500; the first two are announced even if
known; `hashContinue` is the last one exactly if there are at least 500. -/
theorem getblocks_answer (active : List Hash) (fork : Nat) (stop : Hash) :
    let want := (active.drop (fork + 1)).takeWhile (fun h => decide (h ≠ stop))
    (getBlocks active fork stop).1.map Prod.fst = want.take 500 ∧
    (∀ i h b, (getBlocks active fork stop).1[i]? = some (h, b) → b = decide (i < 2)) ∧
    (getBlocks active fork stop).2 = if 500 ≤ want.length then want[499]? else none := by
  intro want
  obtain ⟨h1, h2⟩ := blocksLoop_spec stop (active.drop (fork + 1)) 500 0 (by decide)
  unfold getBlocks
  refine ⟨?_, ?_, ?_⟩
  · rw [h1, List.map_map]
    show List.map Prod.fst (List.zipIdx _ _) = _
    rw [List.zipIdx_map_fst]
  · intro i h b hi
    rw [h1, List.getElem?_map, List.getElem?_zipIdx] at hi
    simp only [Option.map_map, Option.map_eq_some_iff] at hi
    obtain ⟨a, _, ha⟩ := hi
    simp only [Function.comp, Prod.mk.injEq, Nat.zero_add] at ha
    exact ha.2.symm
  · rw [h2]
    show want[499]? = _
    split
    · rfl
    · rename_i hn
      exact List.getElem?_eq_none (by omega)

/-- The height of a node that asks again and again, beginning at height `n`, of a node with the chain `active`. -/
def catchUp (active : List Hash) (stop : Hash) : Nat → Nat → Nat
  | 0, n => n
  | k + 1, n => catchUp active stop k (n + (getBlocks active n stop).1.length)

/-- Asking again brings one to the tip, 500 blocks at a time. -/
theorem getblocks_reaches_tip (active : List Hash) (stop : Hash) (hstop : stop ∉ active) : ∀ (k n : Nat), n + 1 ≤ active.length →
    catchUp active stop k n + 1 = min (n + 1 + 500 * k) active.length
  | 0, n, hn => by rw [catchUp]; omega
  | k + 1, n, hn => by
    have hall : ∀ l : List Hash, stop ∉ l → l.takeWhile (fun h => decide (h ≠ stop)) = l := by
      intro l
      induction l with
      | nil => intro _; rfl
      | cons a l ih =>
        intro hl
        have h1 : a ≠ stop := fun hc => hl (hc ▸ List.mem_cons_self)
        rw [List.takeWhile_cons, if_pos (by simpa using h1), ih (fun hc => hl (List.mem_cons_of_mem _ hc))]
    have hlen : (getBlocks active n stop).1.length = min 500 (active.length - (n + 1)) := by
      have h1 := (getblocks_answer active n stop).1
      rw [hall _ (fun hc => hstop (List.mem_of_mem_drop hc))] at h1
      have := congrArg List.length h1
      rw [List.length_map, List.length_take, List.length_drop] at this
      exact this
    rw [catchUp, getblocks_reaches_tip active stop hstop k _ (by omega), hlen]
    omega

example : catchUp (List.range 1203) 5000 3 0 + 1 = 1203 := by
  have := getblocks_reaches_tip (List.range 1203) 5000 (by rw [List.mem_range]; decide) 3 0 (by rw [List.length_range]; decide)
  rw [List.length_range] at this
  omega

example : getBlocks [10, 11, 12, 13, 14] 0 14 = ([(11, true), (12, true), (13, false)], none) := by decide

/-- The answer to getheaders: the blocks after the fork point up to and with the stop block, at most 2000. -/
theorem headersLoop_spec (stop : Hash) : ∀ (l : List Hash) (lim : Nat), 1 ≤ lim →
    headersLoop stop lim l = (l.take ((l.takeWhile (fun h => decide (h ≠ stop))).length + 1)).take lim
  | [], lim, _ => by rw [headersLoop]; simp
  | h :: rest, lim, hl => by
    rw [headersLoop, List.takeWhile_cons]
    obtain ⟨k, rfl⟩ : ∃ k, lim = k + 1 := ⟨lim - 1, by omega⟩
    by_cases hs : h = stop
    · rw [if_pos (Or.inr hs)]
      simp [hs]
    · rw [if_pos (show decide (h ≠ stop) = true by simpa using hs)]
      by_cases hk : k + 1 - 1 ≤ 0
      · have hk0 : k = 0 := by omega
        subst hk0
        rw [if_pos (Or.inl hk)]
        simp
      · rw [if_neg (fun hc => hc.elim hk hs)]
        rw [headersLoop_spec stop rest _ (by omega)]
        simp

theorem getheaders_answer (active : List Hash) (fork : Nat) (stop : Hash) :
    getHeaders active fork stop =
      ((active.drop (fork + 1)).take (((active.drop (fork + 1)).takeWhile (fun h => decide (h ≠ stop))).length + 1)).take 2000 :=
  headersLoop_spec stop _ 2000 (by decide)

example : getHeaders [10, 11, 12, 13, 14] 1 13 = [12, 13] := by decide

/-- The inventory that the answer leads to. -/
def serve (cap : Nat) (a : Ann) (active : List Hash) (fork : Nat) (stop : Hash) : List Inv × Ann :=
  ((getBlocks active fork stop).1.foldl (fun a r => a.push ⟨.block, r.1⟩ r.2) a).send cap false (fun _ => true)

/-- A peer that asks for the same blocks again on the same connection is told of the first two only. -/
theorem getblocks_again_violated :
    ¬ ∀ (a : Ann) (active : List Hash) (fork : Nat) (stop : Hash),
        (serve 1000 a active fork stop).1.map (·.hash) = (getBlocks active fork stop).1.map Prod.fst := by
  intro h
  have := h (serve 1000 ⟨[], [], []⟩ [10, 11, 12, 13, 14] 0 0).2 [10, 11, 12, 13, 14] 0 0
  revert this
  decide

example : ((serve 1000 ⟨[], [], []⟩ [10, 11, 12, 13, 14] 0 0).1.map (·.hash),
    (serve 1000 (serve 1000 ⟨[], [], []⟩ [10, 11, 12, 13, 14] 0 0).2 [10, 11, 12, 13, 14] 0 0).1.map (·.hash)) =
      ([11, 12, 13, 14], [11, 12]) := by decide

/-! ## C148: getdata -/

/-- The message a request is answered with: a block if it is here, as the part that matches the filter if that was asked for and a
filter is set; a transaction if it was relayed lately or waits in the pool. -/
def reply (e : Env) (x : Inv) : Option Msg :=
  match x.kind with
  | .tx => if e.relayed x || e.hasTx x.hash then some (.item x) else none
  | .block => if e.hasBlock x.hash then some (.block x.hash) else none
  | .filtered => if e.hasBlock x.hash && e.filter then some (.merkle x.hash) else none
  | .other _ => none

/-- The transactions that are not here. -/
def missing (e : Env) (x : Inv) : Bool := decide (x.kind = .tx) && !(e.relayed x || e.hasTx x.hash)

def Msg.isReply : Msg → Bool
  | .inv _ => false
  | .notFound _ => false
  | _ => true

theorem answer_spec (e : Env) (cont : Option Hash) (x : Inv) :
    (answer e cont x).1.filter Msg.isReply = (reply e x).toList ∧ (answer e cont x).2.1 = [x].filter (missing e) ∧
      ∀ l, Msg.notFound l ∉ (answer e cont x).1 := by
  obtain ⟨k, h⟩ := x
  unfold answer reply missing
  cases k with
  | tx =>
    dsimp only
    cases h1 : e.relayed ⟨.tx, h⟩ <;> cases h2 : e.hasTx h <;> simp [h1, h2, Msg.isReply, List.filter_cons]
  | block =>
    cases hb : e.hasBlock h <;> by_cases hcc : cont = some h <;> simp [hb, hcc, Msg.isReply, List.filter_cons]
  | filtered =>
    cases hb : e.hasBlock h <;> by_cases hcc : cont = some h <;> cases hf : e.filter <;> simp [hb, hcc, hf, Msg.isReply, List.filter_cons]
  | other n => simp

theorem getDataLoop_spec (e : Env) : ∀ (n : Nat) (cont : Option Hash) (q : List Inv),
    (getDataLoop e n cont q).1.filter Msg.isReply = (q.take n).filterMap (reply e) ∧
    (getDataLoop e n cont q).2.1 = (q.take n).filter (missing e) ∧ (getDataLoop e n cont q).2.2.2 = q.drop n ∧
    ∀ l, Msg.notFound l ∉ (getDataLoop e n cont q).1
  | n, cont, [] => by cases n <;> simp [getDataLoop]
  | 0, cont, x :: q => by simp [getDataLoop]
  | n + 1, cont, x :: q => by
    rw [getDataLoop]
    dsimp only
    obtain ⟨a1, a2, a3⟩ := answer_spec e cont x
    obtain ⟨h1, h2, h3, h4⟩ := getDataLoop_spec e n (answer e cont x).2.2 q
    refine ⟨?_, ?_, ?_, ?_⟩
    · rw [List.filter_append, a1, h1, List.take_succ_cons, List.filterMap_cons]
      cases reply e x <;> rfl
    · rw [a2, h2, List.take_succ_cons, ← List.filter_append]; rfl
    · rw [h3]; rfl
    · intro l hl
      rw [List.mem_append] at hl
      rcases hl with hl | hl
      · exact a3 l hl
      · exact h4 l hl

/-- One call: the requests are answered in order as long as there is room, the missing transactions are reported in one message at
the end, the other requests remain. -/
theorem getdata_answers (e : Env) (n : Nat) (cont : Option Hash) (q : List Inv) :
    (getData e n cont q).1.filter Msg.isReply = (q.take n).filterMap (reply e) ∧
    (∀ l, Msg.notFound l ∈ (getData e n cont q).1 ↔ l ≠ [] ∧ l = (q.take n).filter (missing e)) ∧
    (getData e n cont q).2.2 = q.drop n := by
  obtain ⟨h1, h2, h3, h4⟩ := getDataLoop_spec e n cont q
  unfold getData
  dsimp only
  refine ⟨?_, ?_, h3⟩
  · rw [List.filter_append, h1]
    split <;> simp [Msg.isReply]
  · intro l
    rw [List.mem_append]
    constructor
    · rintro (hl | hl)
      · exact absurd hl (h4 l)
      · split at hl
        · cases hl
        · rename_i hne
          rw [List.mem_singleton] at hl
          injection hl with hl
          rw [hl]; exact ⟨hne, h2⟩
    · rintro ⟨hne, hl⟩
      refine Or.inr ?_
      rw [h2, ← hl, if_neg hne]; exact List.mem_singleton.2 rfl

/-- Several calls with different room in the send buffer. -/
def getDataRun (e : Env) : List Nat → Option Hash → List Inv → List Msg × Option Hash × List Inv
  | [], cont, q => ([], cont, q)
  | n :: ns, cont, q =>
    let r := getData e n cont q
    let r' := getDataRun e ns r.2.1 r.2.2
    (r.1 ++ r'.1, r'.2)

/-- Nothing is lost, doubled or put out of order by pauses. -/
theorem getdata_pauses (e : Env) : ∀ (ns : List Nat) (cont : Option Hash) (q : List Inv),
    (getDataRun e ns cont q).1.filter Msg.isReply = (q.take ns.sum).filterMap (reply e) ∧
      (getDataRun e ns cont q).2.2 = q.drop ns.sum
  | [], cont, q => by simp [getDataRun]
  | n :: ns, cont, q => by
    obtain ⟨h1, _, h3⟩ := getdata_answers e n cont q
    obtain ⟨g1, g2⟩ := getdata_pauses e ns (getData e n cont q).2.1 (getData e n cont q).2.2
    rw [getDataRun]
    dsimp only
    rw [List.filter_append, h1, g1, g2, h3, List.sum_cons, List.drop_drop, List.take_add, List.filterMap_append]
    exact ⟨rfl, rfl⟩

theorem getDataLoop_cont (e : Env) (c : Hash) : ∀ (n : Nat) (q : List Inv),
    (Msg.inv [e.tip] ∈ (getDataLoop e n (some c) q).1 ↔
      ∃ x ∈ q.take n, (x.kind = .block ∨ x.kind = .filtered) ∧ x.hash = c ∧ e.hasBlock c = true)
  | n, [] => by cases n <;> simp [getDataLoop]
  | 0, x :: q => by simp [getDataLoop]
  | n + 1, x :: q => by
    rw [getDataLoop]
    dsimp only
    have ih := getDataLoop_cont e c n q
    rw [List.mem_append, List.take_succ_cons]
    by_cases hx : (x.kind = .block ∨ x.kind = .filtered) ∧ x.hash = c ∧ e.hasBlock c = true
    · constructor
      · intro _; exact ⟨x, List.mem_cons_self, hx⟩
      · intro _
        refine Or.inl ?_
        obtain ⟨k, h⟩ := x
        obtain ⟨hk, rfl, hb⟩ := hx
        dsimp only at hk hb
        rcases hk with rfl | rfl <;> simp [answer, hb]
    · have hno : (answer e (some c) x).2.2 = some c ∧ Msg.inv [e.tip] ∉ (answer e (some c) x).1 := by
        obtain ⟨k, h⟩ := x
        unfold answer
        cases k with
        | tx => dsimp only; split <;> simp
        | other m => simp
        | block =>
          cases hb : e.hasBlock h with
          | false => simp [hb]
          | true =>
            have hne : ¬ c = h := by intro hc; subst hc; exact hx ⟨Or.inl rfl, rfl, hb⟩
            simp [hb, hne]
        | filtered =>
          cases hb : e.hasBlock h with
          | false => simp [hb]
          | true =>
            have hne : ¬ c = h := by intro hc; subst hc; exact hx ⟨Or.inr rfl, rfl, hb⟩
            cases e.filter <;> simp [hb, hne]
      rw [hno.1, ih]
      constructor
      · rintro (hc | ⟨y, hy, hy'⟩)
        · exact absurd hc hno.2
        · exact ⟨y, List.mem_cons_of_mem _ hy, hy'⟩
      · rintro ⟨y, hy, hy'⟩
        rcases List.mem_cons.1 hy with rfl | hy
        · exact absurd hy' hx
        · exact Or.inr ⟨y, hy, hy'⟩

/-- The tip is announced, so that the peer asks again, exactly when it gets the last block of the answer to getblocks. -/
theorem getdata_continues (e : Env) (c : Hash) (n : Nat) (q : List Inv) :
    Msg.inv [e.tip] ∈ (getData e n (some c) q).1 ↔
      ∃ x ∈ q.take n, (x.kind = .block ∨ x.kind = .filtered) ∧ x.hash = c ∧ e.hasBlock c = true := by
  rw [← getDataLoop_cont]
  unfold getData
  dsimp only
  rw [List.mem_append]
  constructor
  · rintro (h | h)
    · exact h
    · split at h
      · cases h
      · rw [List.mem_singleton] at h; cases h
  · exact Or.inl

/-- A node with block 5 and transaction 9, used in the examples. -/
def demoEnv : Env := ⟨fun h => h == 5, fun h => h == 9, fun _ => false, true, 77⟩

example : getData demoEnv 3 (some 5) [⟨.tx, 9⟩, ⟨.tx, 8⟩, ⟨.block, 5⟩, ⟨.filtered, 5⟩] =
    ([.item ⟨.tx, 9⟩, .block 5, .inv [77], .notFound [⟨.tx, 8⟩]], none, [⟨.filtered, 5⟩]) := by decide

example : getDataRun demoEnv [1, 0, 2, 7] none [⟨.tx, 9⟩, ⟨.tx, 8⟩, ⟨.block, 5⟩, ⟨.filtered, 5⟩] =
    ([.item ⟨.tx, 9⟩, .block 5, .notFound [⟨.tx, 8⟩], .merkle 5], none, []) := by decide

/-- A request for a block that is not here gets no answer at all, not even that it was not found. -/
theorem getdata_unknown_block_violated :
    ¬ ∀ (e : Env) (cont : Option Hash) (x : Inv), (getData e 1 cont [x]).1 ≠ [] := by
  intro h
  exact h demoEnv none ⟨.block, 6⟩ (by decide)

end Verif.Sync
