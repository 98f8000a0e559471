import Verif.TxCache.Lemmas

/-!
# C11, C12: recent-transaction cache, replay protection
-/

namespace Verif.TxCache

/-! ## C12 specification: every layer is a set; a child starts as a copy of its
parent; flushing replaces the parent by the child. -/

def specStep : List (Nat → Bool) → Op → Option (List (Nat → Bool))
  | [], _ => none
  | v :: rest, .add txs => some ((fun q => decide (q ∈ txs) || v q) :: rest)
  | v :: rest, .remove txs => some ((fun q => !decide (q ∈ txs) && v q) :: rest)
  | v :: rest, .push => some (v :: v :: rest)
  | [_], .flush => none
  | v :: _ :: rest, .flush => some (v :: v :: rest)
  | [_], .drop => none
  | _ :: b :: rest, .drop => some (b :: rest)

def specRun : List (Nat → Bool) → List Op → Option (List (Nat → Bool))
  | s, [] => some s
  | s, o :: os => match specStep s o with
    | none => none
    | some s' => specRun s' os

/-- What each cache of the stack answers to `HasTx`. -/
def views : Stack → List (Nat → Bool)
  | [] => []
  | m :: rest => hasTx (m :: rest) :: views rest

theorem step_views (s : Stack) (hs : ∀ m ∈ s, SortedBy ltN m) (o : Op) :
    (step s o).map views = specStep (views s) o := by
  match s, o with
  | [], o => cases o <;> rfl
  | m :: rest, .add txs =>
    simp only [step, Option.map_some, views, specStep]
    congr 2
    funext q; exact hasTx_add m rest txs q
  | m :: rest, .remove txs =>
    simp only [step, Option.map_some, views, specStep]
    congr 2
    funext q; exact hasTx_remove m rest txs q
  | m :: rest, .push =>
    simp only [step, Option.map_some, views, specStep]
    rw [show hasTx ([] :: m :: rest) = hasTx (m :: rest) from funext (hasTx_cons_nil _)]
  | [_], .flush => rfl
  | m :: b :: rest, .flush =>
    simp only [step, Option.map_some, views, specStep]
    have h2 : hasTx (batchWrite rest.isEmpty b m :: rest) = hasTx (m :: b :: rest) := by
      funext q; exact hasTx_flush m b rest (hs m (by simp)) q
    have h1 : hasTx ([] :: batchWrite rest.isEmpty b m :: rest) = hasTx (m :: b :: rest) := by
      rw [← h2]; funext q; exact hasTx_cons_nil _ q
    rw [h1, h2]
  | [_], .drop => rfl
  | _ :: b :: rest, .drop => rfl

theorem step_sorted {s s' : Stack} (hs : ∀ m ∈ s, SortedBy ltN m) {o : Op} (h : step s o = some s') :
    ∀ m ∈ s', SortedBy ltN m := by
  match s, o with
  | [], o => cases o <;> cases h
  | m :: rest, .add txs =>
    cases h
    intro x hx
    rcases List.mem_cons.1 hx with rfl | hx
    · exact sorted_addTxs (hs m (by simp)) _
    · exact hs x (List.mem_cons_of_mem _ hx)
  | m :: rest, .remove txs =>
    cases h
    intro x hx
    rcases List.mem_cons.1 hx with rfl | hx
    · exact sorted_removeTxs (hs m (by simp)) _ _
    · exact hs x (List.mem_cons_of_mem _ hx)
  | m :: rest, .push =>
    cases h
    intro x hx
    rcases List.mem_cons.1 hx with rfl | hx
    · exact sorted_nil
    · exact hs x hx
  | [_], .flush => cases h
  | m :: b :: rest, .flush =>
    cases h
    intro x hx
    rcases List.mem_cons.1 hx with rfl | hx
    · exact sorted_nil
    · rcases List.mem_cons.1 hx with rfl | hx
      · exact sorted_batchWrite (hs b (by simp)) _ _
      · exact hs x (by simp [hx])
  | [_], .drop => cases h
  | a :: b :: rest, .drop =>
    cases h
    intro x hx
    exact hs x (List.mem_cons_of_mem _ hx)

/-- **C12.** Every stack of transaction caches answers `HasTx`, in every layer and
after every sequence of operations, like a stack of plain sets; in particular
flushing never changes what the top layer answers, and it crashes exactly when
there is no layer to flush into. -/
theorem cache_stack_is_set (s : Stack) (hs : ∀ m ∈ s, SortedBy ltN m) (ops : List Op) :
    (run s ops).map views = specRun (views s) ops := by
  induction ops generalizing s with
  | nil => rfl
  | cons o os ih =>
    have h := step_views s hs o
    simp only [run, specRun]
    cases hst : step s o with
    | none => rw [hst] at h; rw [← h]; rfl
    | some s' =>
      rw [hst] at h
      rw [← h]
      exact ih s' (step_sorted hs hst)

/-- The last block operation mentioning an id. -/
def lastMention : List Op → Nat → Option Bool
  | [], _ => none
  | .add txs :: os, q => (lastMention os q).or (if q ∈ txs then some true else none)
  | .remove txs :: os, q => (lastMention os q).or (if q ∈ txs then some false else none)
  | _ :: os, q => lastMention os q

/-- **C12.** As long as no layer is thrown away, a transaction is present exactly
if the last add or remove mentioning it was an add, or, if none mentions it, if
it was present before. -/
theorem has_iff_last_add (s s' : Stack) (hs : ∀ m ∈ s, SortedBy ltN m) (ops : List Op)
    (hd : Op.drop ∉ ops) (h : run s ops = some s') (q : Nat) :
    hasTx s' q = (lastMention ops q).getD (hasTx s q) := by
  induction ops generalizing s with
  | nil => simp only [run, Option.some.injEq] at h; subst h; rfl
  | cons o os ih =>
    simp only [run] at h
    cases hst : step s o with
    | none => rw [hst] at h; cases h
    | some s1 =>
      rw [hst] at h
      have ih := ih s1 (step_sorted hs hst) (fun hm => hd (List.mem_cons_of_mem _ hm)) h
      rw [ih]
      match s, o with
      | [], o => cases o <;> cases hst
      | m :: rest, .add txs =>
        cases hst
        rw [hasTx_add]
        simp only [lastMention]
        cases lastMention os q with
        | some b => rfl
        | none => by_cases hq : q ∈ txs <;> simp [hq]
      | m :: rest, .remove txs =>
        cases hst
        rw [hasTx_remove]
        simp only [lastMention]
        cases lastMention os q with
        | some b => rfl
        | none => by_cases hq : q ∈ txs <;> simp [hq]
      | m :: rest, .push => cases hst; rw [hasTx_cons_nil]; rfl
      | [_], .flush => cases hst
      | m :: b :: rest, .flush =>
        cases hst
        rw [hasTx_cons_nil, hasTx_flush _ _ _ (hs m (by simp))]; rfl
      | _, .drop => exact absurd (by simp) hd

/-- Non-vacuity: a removed transaction stays hidden from a child, through a flush,
and is found again after being re-added. -/
example :
    (run [[(7, true)]] [.push, .remove [7], .push, .add [3], .flush]).map (fun s => (hasTx s 7, hasTx s 3))
      = some (false, true) := by decide

/-! ## C11 -/

variable {T : Type}

/-- **C11 (partial).** In every history of connecting, disconnecting, clean restarts
and cache reloads, no ordinary transaction id occurs twice in the blocks above the
genesis block.

Missing: block reward and price median transactions (see the witnesses below),
the transactions of the genesis block, and start-ups at which stored blocks are
connected before the cache is loaded. -/
theorem no_double_confirmation_partial (I : TxInfo T) (hinj : Function.Injective I.hash) (cacheH : Nat)
    (es : List (Ev T)) (hes : ∀ e ∈ es, e.covered) :
    (((evRun I cacheH (freshNode T) es).chain.dropLast.flatten.filter
        (fun t => decide (I.kind t = .ordinary))).map I.hash).Nodup :=
  ordinary_ids_nodup hinj (inv_run hinj hes (chainInv_nil I cacheH) (window_fresh I cacheH)).1

/-- Price median transactions may repeat, but only more than `cacheH` blocks apart
(the same holds for every transaction other than the block reward). -/
theorem repeats_far_apart (I : TxInfo T) (hinj : Function.Injective I.hash) (cacheH : Nat)
    (es : List (Ev T)) (hes : ∀ e ∈ es, e.covered) (i j : Nat) (b1 b2 : List T) (t : T)
    (hi : (evRun I cacheH (freshNode T) es).chain.reverse[i]? = some b1)
    (hj : (evRun I cacheH (freshNode T) es).chain.reverse[j]? = some b2)
    (h1 : 1 ≤ i) (hij : i < j) (t1 : t ∈ b1) (t2 : t ∈ b2) (hk : I.kind t ≠ .reward) :
    cacheH < j - i := by
  have inv := (inv_run hinj hes (chainInv_nil I cacheH) (window_fresh I cacheH)).1
  have conv : ∀ {c : List (List T)} {k : Nat} {b : List T}, c.reverse[k]? = some b → At c k b := by
    intro c k b hb
    have hk : k < c.length := by
      have := (List.getElem?_eq_some_iff.1 hb).1; simpa using this
    rw [List.getElem?_reverse hk] at hb
    have := at_of_getElem hb
    rwa [show c.length - 1 - (c.length - 1 - k) = k by omega] at this
  exact inv.apart i j b1 b2 t h1 hij (conv hi) (conv hj) t1 t2 hk

/-- A transaction is refused as a duplicate only if it really is on the active
chain — in every history, including starts with an empty cache.  So a transaction
of a disconnected block can always be confirmed again. -/
theorem duplicate_refusal_sound (I : TxInfo T) (cacheH : Nat) (hpos : 1 ≤ cacheH) (es : List (Ev T)) (x : Nat)
    (h : hasTx [[], (evRun I cacheH (freshNode T) es).cache] x = true) :
    ∃ b ∈ (evRun I cacheH (freshNode T) es).chain, ∃ t ∈ b, I.hash t = x := by
  rw [hasTx_cons_nil, hasTx_root] at h
  obtain ⟨k, b, t, a, ht, e⟩ := only_run hpos (only_fresh I) x h
  exact ⟨b, List.mem_of_getElem? (getElem_of_at a), t, ht, e⟩

/-- Every non-reward transaction of the last `cacheH` blocks is known to the cache. -/
theorem recent_transactions_known (I : TxInfo T) (hinj : Function.Injective I.hash) (cacheH : Nat)
    (es : List (Ev T)) (hes : ∀ e ∈ es, e.covered) (b : List T) (t : T)
    (hb : b ∈ ((evRun I cacheH (freshNode T) es).chain.dropLast).take cacheH) (ht : t ∈ b)
    (hk : I.kind t ≠ .reward) :
    hasTx [(evRun I cacheH (freshNode T) es).cache] (I.hash t) = true := by
  have hw := (inv_run hinj hes (chainInv_nil I cacheH) (window_fresh I cacheH)).2
  rw [hasTx_root]
  generalize evRun I cacheH (freshNode T) es = n at hw hb ⊢
  obtain ⟨i, hi⟩ := List.getElem?_of_mem hb
  rw [List.getElem?_take] at hi
  split at hi
  · rename_i hlt
    have hlen : i < n.chain.dropLast.length := (List.getElem?_eq_some_iff.1 hi).1
    rw [List.length_dropLast] at hlen
    have hi' : n.chain[i]? = some b := by
      rw [List.getElem?_dropLast] at hi
      rwa [if_pos hlen] at hi
    exact hw _ b (by omega) (by omega) (at_of_getElem hi') t ht hk
  · cases hi

/-! ### Witnesses -/

/-- Test transactions: id = content; 0–9 rewards, 10–19 medians, others ordinary
with valid height 5. -/
def demoInfo : TxInfo Nat where
  hash := id
  kind t := if t < 10 then .reward else if t < 20 then .median else .ordinary
  validHeight _ := 5

/-- Non-vacuity of `no_double_confirmation_partial`: a history with a
reorganisation, a restart and a refused replay, which ends with an ordinary
transaction confirmed. -/
example :
    (evRun demoInfo 6 (freshNode Nat)
      [.connect false true [0], .connect false true [1], .connect false true [2],
       .connect false true [3, 20, 21], .disconnect, .connect false true [3, 21],
       .connect false true [4, 21], .restart, .connect false true [4, 20], .reload,
       .connect false true [5, 20]]).chain
      = [[4, 20], [3, 21], [2], [1], [0]] := by decide

/-- **C11 violated for block reward transactions**: nothing stops a block from
repeating the reward transaction of the previous block, so its id occurs twice. -/
theorem reward_id_repeats_violated :
    ∃ es : List (Ev Nat), (∀ e ∈ es, e.covered) ∧
      ¬ ((evRun demoInfo 500 (freshNode Nat) es).chain.flatten.map demoInfo.hash).Nodup := by
  refine ⟨[.connect false true [0], .connect false true [1], .connect false true [1]], ?_, ?_⟩
  · intro e he; simp at he; rcases he with rfl | rfl <;> trivial
  · decide

/-- **C11 violated for price median transactions** once they are older than the
cache: their height is not checked. (Cache height 2 keeps the witness short.) -/
theorem median_id_repeats_violated :
    ∃ es : List (Ev Nat), (∀ e ∈ es, e.covered) ∧
      ¬ ((evRun demoInfo 2 (freshNode Nat) es).chain.dropLast.flatten.filter (fun t => decide (demoInfo.kind t = .median))).Nodup := by
  refine ⟨[.connect false true [0], .connect false true [1, 10], .connect false true [2], .connect false true [3],
    .connect false true [4, 10]], ?_, ?_⟩
  · intro e he; simp at he; rcases he with rfl | rfl | rfl | rfl | rfl <;> trivial
  · decide

/-- **Replay across a start-up.** At start-up stored blocks are connected
(init.cpp:814-816) before the cache is loaded (init.cpp:820-834), so a stored but
unconnected block which repeats an ordinary transaction is accepted. -/
theorem startup_replay_violated :
    ∃ es : List (Ev Nat),
      ¬ ((evRun demoInfo 500 (freshNode Nat) es).chain.dropLast.flatten.filter
          (fun t => decide (demoInfo.kind t = .ordinary))).Nodup := by
  refine ⟨[.connect false true [0], .connect false true [1, 20],
    .start, .connect false true [2, 20], .load], ?_⟩
  decide

/-- The same block is refused when it arrives without a start-up in between. -/
example :
    (evRun demoInfo 500 (freshNode Nat)
      [.connect false true [0], .connect false true [1, 20], .connect false true [2, 20]]).chain
      = [[1, 20], [0]] := by decide

/-- **Genesis transactions** are not put into the cache when the genesis block is
connected, so an ordinary one can be confirmed again in block 1. -/
theorem genesis_replay_violated :
    ∃ es : List (Ev Nat), (∀ e ∈ es, e.covered) ∧
      ¬ ((evRun demoInfo 500 (freshNode Nat) es).chain.flatten.filter
          (fun t => decide (demoInfo.kind t = .ordinary))).Nodup := by
  refine ⟨[.connect false true [0, 20], .connect false true [1, 20]], ?_, ?_⟩
  · intro e he; simp at he; rcases he with rfl | rfl <;> trivial
  · decide

end Verif.TxCache
