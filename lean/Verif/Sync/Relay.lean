import Verif.Sync.Model

/-!
# Properties C149 (inventory), C150 (asking for transactions), C151 (bans), C152 (filters)
-/
namespace Verif.Sync

/-! ## C149: inventory -/

theorem mem_mruInsert {cap : Nat} {l : List Inv} {x y : Inv} (h : y ∈ mruInsert cap l x) : y ∈ l ∨ y = x := by
  unfold mruInsert at h
  split at h
  · exact Or.inl h
  · split at h <;> rw [List.mem_append, List.mem_singleton] at h
    · exact h.imp List.mem_of_mem_tail id
    · exact h

theorem self_mem_mruInsert (cap : Nat) (l : List Inv) (x : Inv) : x ∈ mruInsert cap l x := by
  unfold mruInsert
  split
  · assumption
  · split <;> exact List.mem_append_right _ (List.mem_singleton.2 rfl)

/-- There is room for `n` more. -/
def Room (cap n : Nat) (l : List Inv) : Prop := cap = 0 ∨ l.length + n ≤ cap

theorem mruInsert_room {cap n : Nat} {l : List Inv} (x : Inv) (h : Room cap (n + 1) l) :
    (∀ y ∈ l, y ∈ mruInsert cap l x) ∧ Room cap n (mruInsert cap l x) ∧ (mruInsert cap l x).length ≤ l.length + 1 := by
  have hne : ¬ (cap ≠ 0 ∧ l.length = cap) := by
    rintro ⟨h1, h2⟩
    rcases h with h | h
    · exact h1 h
    · omega
  unfold mruInsert
  rw [if_neg hne]
  unfold Room at *
  split
  · exact ⟨fun _ hy => hy, by omega, by omega⟩
  · refine ⟨fun y hy => List.mem_append_left _ hy, ?_, ?_⟩ <;> rw [List.length_append, List.length_singleton] <;> omega

theorem Room.mono {cap n m : Nat} {l : List Inv} (h : Room cap n l) (hm : m ≤ n) : Room cap m l := by
  unfold Room at *; omega

theorem annLoop_sent {cap : Nat} {wait : Inv → Bool} : ∀ {pending known force : List Inv},
    (annLoop cap wait known force pending).2.2.1.Sublist pending ∧ (annLoop cap wait known force pending).2.2.2.Sublist pending ∧
    (∀ x ∈ (annLoop cap wait known force pending).2.2.2, wait x = true) ∧
    (∀ x ∈ pending, x ∈ (annLoop cap wait known force pending).2.2.1 ∨ x ∈ (annLoop cap wait known force pending).2.2.2 ∨ x ∈ known)
  | [], known, force => by rw [annLoop]; simp
  | y :: rest, known, force => by
    rw [annLoop]
    split
    · obtain ⟨h1, h2, h3, h4⟩ := annLoop_sent (cap := cap) (wait := wait) (pending := rest) (known := mruInsert cap known y) (force := force.filter (· ≠ y))
      refine ⟨h1.cons₂ y, h2.cons y, h3, ?_⟩
      intro x hx
      rcases List.mem_cons.1 hx with rfl | hx
      · exact Or.inl List.mem_cons_self
      · rcases h4 x hx with h | h | h
        · exact Or.inl (List.mem_cons_of_mem _ h)
        · exact Or.inr (Or.inl h)
        · rcases mem_mruInsert h with h | h
          · exact Or.inr (Or.inr h)
          · exact Or.inl (h ▸ List.mem_cons_self)
    · split
      · rename_i hk
        obtain ⟨h1, h2, h3, h4⟩ := annLoop_sent (cap := cap) (wait := wait) (pending := rest) (known := known) (force := force)
        refine ⟨h1.cons y, h2.cons y, h3, ?_⟩
        intro x hx
        rcases List.mem_cons.1 hx with rfl | hx
        · exact Or.inr (Or.inr hk)
        · exact h4 x hx
      · split
        · rename_i hw
          obtain ⟨h1, h2, h3, h4⟩ := annLoop_sent (cap := cap) (wait := wait) (pending := rest) (known := known) (force := force)
          refine ⟨h1.cons y, h2.cons₂ y, ?_, ?_⟩
          · intro x hx
            rcases List.mem_cons.1 hx with rfl | hx
            · exact hw
            · exact h3 x hx
          · intro x hx
            rcases List.mem_cons.1 hx with rfl | hx
            · exact Or.inr (Or.inl List.mem_cons_self)
            · exact (h4 x hx).imp id (Or.imp (List.mem_cons_of_mem _) id)
        · obtain ⟨h1, h2, h3, h4⟩ := annLoop_sent (cap := cap) (wait := wait) (pending := rest) (known := mruInsert cap known y) (force := force)
          refine ⟨h1.cons₂ y, h2.cons y, h3, ?_⟩
          intro x hx
          rcases List.mem_cons.1 hx with rfl | hx
          · exact Or.inl List.mem_cons_self
          · rcases h4 x hx with h | h | h
            · exact Or.inl (List.mem_cons_of_mem _ h)
            · exact Or.inr (Or.inl h)
            · rcases mem_mruInsert h with h | h
              · exact Or.inr (Or.inr h)
              · exact Or.inl (h ▸ List.mem_cons_self)

theorem annLoop_once {cap : Nat} {wait : Inv → Bool} : ∀ {pending known force : List Inv}, Room cap pending.length known →
    (∀ x ∈ known, x ∉ force → x ∉ (annLoop cap wait known force pending).2.2.1) ∧
    (annLoop cap wait known force pending).2.2.1.Nodup ∧
    (∀ x ∈ known, x ∈ (annLoop cap wait known force pending).1) ∧
    (∀ x ∈ (annLoop cap wait known force pending).2.2.1, x ∈ (annLoop cap wait known force pending).1) ∧
    (∀ x ∈ (annLoop cap wait known force pending).2.1, x ∈ force) ∧
    (annLoop cap wait known force pending).1.length + (annLoop cap wait known force pending).2.2.2.length ≤ known.length + pending.length
  | [], known, force, _ => by rw [annLoop]; simp
  | y :: rest, known, force, hr => by
    rw [annLoop]
    obtain ⟨r1, r2, r3⟩ := mruInsert_room y hr
    split
    · rename_i hy
      obtain ⟨h1, h2, h3, h4, h5, h6⟩ := annLoop_once (wait := wait) (force := force.filter (· ≠ y)) r2
      refine ⟨?_, ?_, fun x hx => h3 x (r1 x hx), ?_, fun x hx => (List.mem_filter.1 (h5 x hx)).1, ?_⟩
      · intro x hx hf hc
        rcases List.mem_cons.1 hc with hc | hc
        · exact hf (hc ▸ hy)
        · exact h1 x (r1 x hx) (fun h => hf (List.mem_filter.1 h).1) hc
      · refine List.nodup_cons.2 ⟨h1 y (self_mem_mruInsert cap known y) ?_, h2⟩
        intro h
        have := (List.mem_filter.1 h).2
        simp at this
      · intro x hx
        rcases List.mem_cons.1 hx with hx | hx
        · exact h3 x (hx ▸ self_mem_mruInsert cap known y)
        · exact h4 x hx
      · dsimp only
        rw [List.length_cons]
        omega
    · split
      · obtain ⟨h1, h2, h3, h4, h5, h6⟩ := annLoop_once (wait := wait) (force := force) (hr.mono (Nat.le_succ rest.length))
        refine ⟨h1, h2, h3, h4, h5, ?_⟩
        rw [List.length_cons]; omega
      · split
        · obtain ⟨h1, h2, h3, h4, h5, h6⟩ := annLoop_once (wait := wait) (force := force) (hr.mono (Nat.le_succ rest.length))
          refine ⟨h1, h2, h3, h4, h5, ?_⟩
          dsimp only
          rw [List.length_cons, List.length_cons]; omega
        · rename_i hf hk _
          obtain ⟨h1, h2, h3, h4, h5, h6⟩ := annLoop_once (wait := wait) (force := force) r2
          refine ⟨?_, ?_, fun x hx => h3 x (r1 x hx), ?_, h5, ?_⟩
          · intro x hx hxf hc
            rcases List.mem_cons.1 hc with hc | hc
            · exact hk (hc ▸ hx)
            · exact h1 x (r1 x hx) hxf hc
          · exact List.nodup_cons.2 ⟨h1 y (self_mem_mruInsert cap known y) hf, h2⟩
          · intro x hx
            rcases List.mem_cons.1 hx with hx | hx
            · exact h3 x (hx ▸ self_mem_mruInsert cap known y)
            · exact h4 x hx
          · dsimp only
            rw [List.length_cons]
            omega

/-- What is announced was waiting, in the same order; everything that was waiting is announced, was known, or waits on; only
transactions wait on, and none when it is the peer's turn. -/
theorem inventory_complete (cap : Nat) (a : Ann) (trickle : Bool) (coin : Inv → Bool) :
    (a.send cap trickle coin).1.Sublist a.pending ∧ (a.send cap trickle coin).2.pending.Sublist a.pending ∧
    (∀ x ∈ a.pending, x ∈ (a.send cap trickle coin).1 ∨ x ∈ (a.send cap trickle coin).2.pending ∨ x ∈ a.known) ∧
    (∀ x ∈ (a.send cap trickle coin).2.pending, x.kind = .tx) ∧ (trickle = true → (a.send cap trickle coin).2.pending = []) := by
  obtain ⟨h1, h2, h3, h4⟩ := annLoop_sent (cap := cap) (wait := fun x => decide (x.kind = .tx) && !trickle && coin x)
    (pending := a.pending) (known := a.known) (force := a.force)
  refine ⟨h1, h2, h4, ?_, ?_⟩
  · intro x hx
    have := h3 x hx
    simp only [Bool.and_eq_true, decide_eq_true_eq] at this
    exact this.1.1
  · intro ht
    subst ht
    rw [List.eq_nil_iff_forall_not_mem]
    intro x hx
    have := h3 x hx
    simp at this

/-- What happens to the inventory of a peer. -/
inductive AnnEv
  | push (x : Inv) (forced : Bool)
  | known (x : Inv)
  | send (trickle : Bool) (coin : Inv → Bool)

/-- Everything that is announced. -/
def annRun (cap : Nat) : Ann → List AnnEv → List Inv
  | _, [] => []
  | a, .push x f :: l => annRun cap (a.push x f) l
  | a, .known x :: l => annRun cap (a.addKnown cap x) l
  | a, .send t c :: l => (a.send cap t c).1 ++ annRun cap (a.send cap t c).2 l

def AnnRoom (cap : Nat) (a : Ann) (n : Nat) : Prop := cap = 0 ∨ a.known.length + a.pending.length + n ≤ cap

theorem push_facts (a : Ann) (x y : Inv) (f : Bool) (hne : ¬ (y = x ∧ f = true)) (hy : x ∉ a.force) :
    x ∉ (a.push y f).force ∧ (a.push y f).known = a.known ∧ (a.push y f).pending.length ≤ a.pending.length + 1 := by
  unfold Ann.push
  dsimp only
  cases f with
  | false =>
    by_cases hk : y ∈ a.known
    · simp [hk, hy]
    · simp [hk, hy]
  | true =>
    have hxy : x ≠ y := fun h => hne ⟨h.symm, rfl⟩
    by_cases hf : y ∈ a.force
    · simp [hf, hy]
    · simp [hf, hy, hxy]

theorem annRun_known {cap : Nat} {x : Inv} : ∀ (l : List AnnEv) (a : Ann), AnnRoom cap a l.length → x ∉ a.force → x ∈ a.known →
    (∀ e ∈ l, e ≠ .push x true) → x ∉ annRun cap a l
  | [], _, _, _, _, _ => by rw [annRun]; exact List.not_mem_nil
  | .push y f :: l, a, hr, hf, hk, hl => by
    have hne : ¬ (y = x ∧ f = true) := by rintro ⟨rfl, rfl⟩; exact hl _ List.mem_cons_self rfl
    obtain ⟨h1, h2, h3⟩ := push_facts a x y f hne hf
    rw [annRun]
    refine annRun_known l _ ?_ h1 (by rw [h2]; exact hk) (fun e he => hl e (List.mem_cons_of_mem _ he))
    unfold AnnRoom at *
    rw [List.length_cons] at hr
    rw [h2]; omega
  | .known y :: l, a, hr, hf, hk, hl => by
    rw [annRun]
    have hroom : Room cap (0 + 1) a.known := by unfold AnnRoom at hr; unfold Room; rw [List.length_cons] at hr; omega
    obtain ⟨r1, _, r3⟩ := mruInsert_room y hroom
    refine annRun_known l _ ?_ hf (r1 x hk) (fun e he => hl e (List.mem_cons_of_mem _ he))
    unfold AnnRoom Ann.addKnown at *
    rw [List.length_cons] at hr
    dsimp only
    omega
  | .send t c :: l, a, hr, hf, hk, hl => by
    rw [annRun, List.mem_append]
    have hroom : Room cap a.pending.length a.known := by unfold AnnRoom at hr; unfold Room; omega
    obtain ⟨h1, h2, h3, h4, h5, h6⟩ := annLoop_once (wait := fun x => decide (x.kind = .tx) && !t && c x) (force := a.force) hroom
    rintro (hc | hc)
    · exact h1 x hk hf hc
    · refine annRun_known l _ ?_ (fun h => hf (h5 x h)) (h3 x hk) (fun e he => hl e (List.mem_cons_of_mem _ he)) hc
      unfold AnnRoom Ann.send at *
      rw [List.length_cons] at hr
      dsimp only
      omega

/-- Something that is never announced by force is announced to a peer at most once, as long as the set of known things has room. -/
theorem inventory_once {cap : Nat} {x : Inv} : ∀ (l : List AnnEv) (a : Ann), AnnRoom cap a l.length → x ∉ a.force →
    (∀ e ∈ l, e ≠ .push x true) → (annRun cap a l).count x ≤ 1
  | [], _, _, _, _ => by rw [annRun]; exact Nat.zero_le _
  | .push y f :: l, a, hr, hf, hl => by
    have hne : ¬ (y = x ∧ f = true) := by rintro ⟨rfl, rfl⟩; exact hl _ List.mem_cons_self rfl
    obtain ⟨h1, h2, h3⟩ := push_facts a x y f hne hf
    rw [annRun]
    refine inventory_once l _ ?_ h1 (fun e he => hl e (List.mem_cons_of_mem _ he))
    unfold AnnRoom at *
    rw [List.length_cons] at hr
    rw [h2]; omega
  | .known y :: l, a, hr, hf, hl => by
    rw [annRun]
    have hroom : Room cap (0 + 1) a.known := by unfold AnnRoom at hr; unfold Room; rw [List.length_cons] at hr; omega
    obtain ⟨r1, _, r3⟩ := mruInsert_room y hroom
    refine inventory_once l _ ?_ hf (fun e he => hl e (List.mem_cons_of_mem _ he))
    unfold AnnRoom Ann.addKnown at *
    rw [List.length_cons] at hr
    dsimp only
    omega
  | .send t c :: l, a, hr, hf, hl => by
    rw [annRun, List.count_append]
    have hroom : Room cap a.pending.length a.known := by unfold AnnRoom at hr; unfold Room; omega
    obtain ⟨h1, h2, h3, h4, h5, h6⟩ := annLoop_once (wait := fun x => decide (x.kind = .tx) && !t && c x) (force := a.force) hroom
    have hroom' : AnnRoom cap (a.send cap t c).2 l.length := by
      unfold AnnRoom Ann.send at *
      rw [List.length_cons] at hr
      dsimp only
      omega
    have hf' : x ∉ (a.send cap t c).2.force := fun h => hf (h5 x h)
    have hl' : ∀ e ∈ l, e ≠ AnnEv.push x true := fun e he => hl e (List.mem_cons_of_mem _ he)
    by_cases hx : x ∈ (a.send cap t c).1
    · have h7 := annRun_known l _ hroom' hf' (h4 x hx) hl'
      have h8 : (a.send cap t c).1.count x ≤ 1 := List.nodup_iff_count.1 h2 x
      rw [List.count_eq_zero_of_not_mem h7]; omega
    · rw [List.count_eq_zero_of_not_mem hx]
      have := inventory_once l _ hroom' hf' hl'
      omega

/-- What the peer has announced itself is not announced to it. -/
theorem inventory_not_echoed {cap : Nat} {x : Inv} (l : List AnnEv) (a : Ann) (hr : AnnRoom cap a (l.length + 1)) (hf : x ∉ a.force)
    (hl : ∀ e ∈ l, e ≠ .push x true) : x ∉ annRun cap a (.known x :: l) := by
  have hroom : Room cap (0 + 1) a.known := by unfold AnnRoom at hr; unfold Room; omega
  obtain ⟨_, _, r3⟩ := mruInsert_room x hroom
  rw [annRun]
  refine annRun_known l _ ?_ hf (self_mem_mruInsert _ _ _) hl
  unfold AnnRoom Ann.addKnown at *
  dsimp only
  omega

example : AnnRoom 1000 ⟨[], [], []⟩ 4 := Or.inr (by decide)

example : annRun 1000 ⟨[], [], []⟩ [.push ⟨.tx, 1⟩ false, .push ⟨.block, 2⟩ false, .send false (fun _ => true), .push ⟨.block, 2⟩ false,
    .send true (fun _ => true), .push ⟨.block, 2⟩ true, .send true (fun _ => true)] = [⟨.block, 2⟩, ⟨.tx, 1⟩, ⟨.block, 2⟩] := by decide

/-- Without room in the set of known things (here for one) the same thing is announced again. -/
theorem inventory_once_full_violated :
    ¬ ∀ (cap : Nat) (l : List AnnEv) (x : Inv), (∀ y, AnnEv.push y true ∉ l) → (annRun cap ⟨[], [], []⟩ l).count x ≤ 1 := by
  intro h
  have := h 1 [.push ⟨.block, 1⟩ false, .push ⟨.block, 2⟩ false, .push ⟨.block, 1⟩ false, .send true (fun _ => false)] ⟨.block, 1⟩
    (by intro y hy; simp at hy)
  revert this
  decide

/-! ## C150: asking for transactions -/

theorem askAll_later {x : Inv} {r : Int} : ∀ (l : List (Inv × Int)) (a : Asked), (∃ r', a.at_ x = some r' ∧ r ≤ r') →
    ∀ y ∈ (askAll a l).1, y.1 = x → r + 120000000 ≤ y.2
  | [], _, _, y, hy, _ => by cases hy
  | (z, now) :: l, a, ⟨r', h1, h2⟩, y, hy, hyx => by
    rw [askAll] at hy
    dsimp only at hy
    rcases List.mem_cons.1 hy with rfl | hy
    · dsimp only at hyx ⊢
      subst hyx
      unfold askFor
      rw [h1]
      simp only [Option.getD_some]
      omega
    · refine askAll_later l _ ?_ y hy hyx
      by_cases hz : x = z
      · subst hz
        refine ⟨_, if_pos rfl, ?_⟩
        rw [h1]
        simp only [Option.getD_some]
        omega
      · exact ⟨r', by unfold askFor; dsimp only; rw [if_neg hz]; exact h1, h2⟩

/-- The requests for one transaction are at least two minutes apart, whoever announces it, when and how often. -/
theorem ask_apart : ∀ (l : List (Inv × Int)) (a : Asked),
    (askAll a l).1.Pairwise (fun r s => r.1 = s.1 → r.2 + 120000000 ≤ s.2)
  | [], _ => by rw [askAll]; exact List.Pairwise.nil
  | (z, now) :: l, a => by
    rw [askAll]
    dsimp only
    rw [List.pairwise_cons]
    refine ⟨?_, ask_apart l _⟩
    intro y hy hyx
    dsimp only at hyx
    exact askAll_later l _ ⟨_, if_pos rfl, Int.le_refl _⟩ y hy hyx.symm

/-- Something not asked for in the last minutes is asked for at once. -/
theorem ask_soon (a : Asked) (x : Inv) (now : Int) (h1 : (a.at_ x).getD 0 + 121000000 ≤ now) (h2 : a.last < now) :
    (askFor a x now).1 ≤ now := by
  unfold askFor
  dsimp only
  omega

/-- Requests that are not delayed keep the order of the announcements. -/
theorem ask_in_order (a : Asked) (x : Inv) (now : Int) : a.last < (askFor a x now).2.last ∧ (askFor a x now).2.last ≤ (askFor a x now).1 := by
  unfold askFor
  dsimp only
  omega

example : (askAll ⟨fun _ => none, 0⟩ [(⟨.tx, 1⟩, 1000000000), (⟨.tx, 2⟩, 1000000000), (⟨.tx, 1⟩, 1000000000)]).1.map (·.2) =
    [999000000, 999000001, 1119000000] := by decide

theorem ask_delay (x : Inv) (now : Int) : ∀ (k : Nat) (a : Asked), now - 1000000 ≤ a.last →
    ∃ t, (askAll a (List.replicate (k + 1) (x, now))).1.getLast? = some (x, t) ∧
      (a.at_ x).getD 0 + 120000000 * ((k : Int) + 1) ≤ t
  | 0, a, _ => by
    refine ⟨_, rfl, ?_⟩
    unfold askFor
    dsimp only
    omega
  | k + 1, a, ha => by
    rw [List.replicate_succ, askAll]
    dsimp only
    obtain ⟨t, h1, h2⟩ := ask_delay x now k (askFor a x now).2 (by unfold askFor; dsimp only; omega)
    refine ⟨t, ?_, ?_⟩
    · rw [List.getLast?_cons, h1]; rfl
    · have : ((askFor a x now).2.at_ x).getD 0 = (askFor a x now).1 := by
        unfold askFor; dsimp only; rw [if_pos rfl]; rfl
      rw [this] at h2
      have h3 : (a.at_ x).getD 0 + 120000000 ≤ (askFor a x now).1 := by unfold askFor; dsimp only; omega
      rw [Int.natCast_add]
      omega

/-- A peer that announces a transaction 50000 times (what it can have waiting) and does not send it keeps the node from asking
anybody else for it for 69 days. -/
theorem ask_delay_violated :
    ¬ ∀ (a : Asked) (l : List (Inv × Int)) (now : Int), l.length ≤ 50001 → (∀ y ∈ l, y.2 = now) → (∀ y ∈ l, (a.at_ y.1).getD 0 ≤ now) →
        a.last ≤ now → ∀ y ∈ (askAll a l).1, y.2 ≤ now + 69 * 24 * 3600 * 1000000 := by
  intro h
  let x : Inv := ⟨.tx, 1⟩
  obtain ⟨t, h1, h2⟩ := ask_delay x 0 50000 ⟨fun _ => none, 0⟩ (by decide)
  have h3 := h ⟨fun _ => none, 0⟩ (List.replicate (50000 + 1) (x, 0)) 0 (by rw [List.length_replicate]; decide)
    (fun y hy => by rw [List.eq_of_mem_replicate hy]) (fun _ _ => Int.le_refl _) (Int.le_refl _) (x, t) (List.mem_of_getLast? h1)
  have h4 : (((⟨fun _ => none, 0⟩ : Asked).at_ x).getD 0) = 0 := rfl
  rw [h4] at h2
  dsimp only at h3
  omega

/-! ## C151: bans -/

theorem misbehaving_run {limit : Int} : ∀ (l : List Int) (s : Score), (∀ n ∈ l, 0 ≤ n) → s.misbehavior < limit → s.shouldBan = false →
    (l.foldl (misbehaving limit) s).shouldBan = decide (limit ≤ s.misbehavior + l.sum)
  | [], s, _, h1, h2 => by
    rw [List.foldl_nil, h2, List.sum_nil]
    symm; apply decide_eq_false; omega
  | n :: l, s, hl, h1, h2 => by
    rw [List.foldl_cons, List.sum_cons]
    have hn := hl n List.mem_cons_self
    have hl' : ∀ m ∈ l, 0 ≤ m := fun m hm => hl m (List.mem_cons_of_mem _ hm)
    have hsum : ∀ (l : List Int), (∀ m ∈ l, 0 ≤ m) → 0 ≤ l.sum := by
      intro l
      induction l with
      | nil => intro _; exact Int.le_refl _
      | cons m l ih =>
        intro h
        rw [List.sum_cons]
        have := ih (fun k hk => h k (List.mem_cons_of_mem _ hk))
        have := h m List.mem_cons_self
        omega
    have hstay : ∀ (l : List Int) (s : Score), s.shouldBan = true → (l.foldl (misbehaving limit) s).shouldBan = true := by
      intro l
      induction l with
      | nil => intro s h; exact h
      | cons m l ih =>
        intro s h
        rw [List.foldl_cons]
        apply ih
        unfold misbehaving
        split
        · exact h
        · dsimp only; split
          · rfl
          · exact h
    by_cases h0 : n = 0
    · have : misbehaving limit s n = s := by unfold misbehaving; rw [if_pos h0]
      rw [this, misbehaving_run l s hl' h1 h2, h0, Int.zero_add]
    · by_cases hlim : s.misbehavior + n ≥ limit
      · have : (misbehaving limit s n).shouldBan = true := by
          unfold misbehaving; rw [if_neg h0]; dsimp only; rw [if_pos hlim]
        rw [hstay l _ this]
        symm; apply decide_eq_true
        have := hsum l hl'
        omega
      · have e : misbehaving limit s n = ⟨s.misbehavior + n, false⟩ := by
          unfold misbehaving; rw [if_neg h0]; dsimp only; rw [if_neg hlim, h2]
        rw [e, misbehaving_run l _ hl' (by dsimp only; omega) rfl]
        dsimp only
        congr 1
        rw [Int.add_assoc]

/-- A new peer is to be banned exactly if its penalties have reached the limit. -/
theorem ban_threshold {limit : Int} (hlim : 0 < limit) (l : List Int) (hl : ∀ n ∈ l, 0 ≤ n) :
    (l.foldl (misbehaving limit) ⟨0, false⟩).shouldBan = true ↔ limit ≤ l.sum := by
  rw [misbehaving_run l _ hl hlim rfl]
  dsimp only
  rw [Int.zero_add, decide_eq_true_eq]

/-- What the next round of `SendMessages` does: nothing without a ban; a local peer stays and is not banned; any other is
disconnected and its address banned for the time of a ban, or for as long as it already was. No other address is concerned. -/
theorem ban_effect (bans : Nat → Option Int) (addr : Nat) (isLocal : Bool) (now banTime : Int) (s : Score) (other : Nat) (t : Int)
    (ht : 0 ≤ t) :
    ((banStep bans addr isLocal now banTime s).1 = (s.shouldBan && !isLocal)) ∧
    (banStep bans addr isLocal now banTime s).2.1.shouldBan = false ∧
    (isBanned (banStep bans addr isLocal now banTime s).2.2 other t = true ↔
      isBanned bans other t = true ∨ (other = addr ∧ s.shouldBan = true ∧ isLocal = false ∧ t < now + banTime)) := by
  unfold banStep
  cases hs : s.shouldBan with
  | false => simp [hs]
  | true =>
    cases isLocal with
    | true => simp
    | false =>
      simp only [if_true, Bool.not_false, Bool.and_true, true_and]
      refine ⟨rfl, rfl, ?_⟩
      by_cases ho : other = addr
      · subst ho
        unfold isBanned
        cases hb : bans other with
        | none =>
          by_cases h0 : (0 : Int) < now + banTime
          · simp [h0]
          · simp [h0]; omega
        | some r =>
          by_cases h0 : r < now + banTime
          · simp [h0]; omega
          · simp [h0]; omega
      · unfold isBanned
        simp [ho]

/-- A ban is never shortened. -/
theorem ban_not_shortened (bans : Nat → Option Int) (addr : Nat) (isLocal : Bool) (now banTime : Int) (s : Score) (other : Nat) (t : Int)
    (ht : 0 ≤ t) (hb : isBanned bans other t = true) : isBanned (banStep bans addr isLocal now banTime s).2.2 other t = true :=
  (ban_effect bans addr isLocal now banTime s other t ht).2.2.2 (Or.inl hb)

example : ([20, 0, 50, 30].foldl (misbehaving 100) ⟨0, false⟩).shouldBan = true ∧
    isBanned (banStep (fun _ => none) 3 false 1000 86400 ⟨100, true⟩).2.2 3 87399 = true ∧
    isBanned (banStep (fun _ => none) 3 false 1000 86400 ⟨100, true⟩).2.2 3 87400 = false := by decide

/-! ## C152: filters -/

variable (hash : Nat → Bytes → Nat)

/-- The bit is set. -/
def BitSet (d : Bytes) (k : Nat) : Prop := ∃ b, d[k / 8]? = some b ∧ b &&& 1 <<< (k % 8) ≠ 0

theorem setBit_ok {d : Bytes} {k : Nat} (h : k < d.length * 8) :
    ∃ d', setBit d k = some d' ∧ d'.length = d.length ∧ BitSet d' k ∧ ∀ j, BitSet d j → BitSet d' j := by
  have hk : k / 8 < d.length := by omega
  unfold setBit
  rw [List.getElem?_eq_getElem hk]
  refine ⟨_, rfl, List.length_set, ?_, ?_⟩
  · refine ⟨_, List.getElem?_set_self hk, ?_⟩
    intro hc
    have := congrArg (fun n => n.testBit (k % 8)) hc
    simp [Nat.testBit_shiftLeft] at this
  · rintro j ⟨b, h1, h2⟩
    by_cases hj : k / 8 = j / 8
    · refine ⟨d[k / 8] ||| 1 <<< (k % 8), ?_, ?_⟩
      · rw [← hj, List.getElem?_set_self hk]
      · rw [← hj, List.getElem?_eq_getElem hk] at h1
        injection h1 with h1
        rw [h1]
        intro hc
        rw [Nat.and_or_distrib_right] at hc
        exact h2 (Nat.or_eq_zero_iff.1 hc).1
    · exact ⟨b, by rw [List.getElem?_set_ne hj]; exact h1, h2⟩

theorem insertLoop_ok (f : Filter) (x : Bytes) (hf : 0 < f.data.length) : ∀ (n i : Nat) (d : Bytes), d.length = f.data.length →
    ∃ d', f.insertLoop hash x n i d = some d' ∧ d'.length = f.data.length ∧ (∀ j, BitSet d j → BitSet d' j) ∧
      ∀ m, m < n → BitSet d' (hash (i + m) x % (f.data.length * 8))
  | 0, _, d, hd => ⟨d, rfl, hd, fun _ h => h, fun _ h => absurd h (Nat.not_lt_zero _)⟩
  | n + 1, i, d, hd => by
    have hpos : 0 < f.data.length * 8 := by omega
    have hlt := Nat.mod_lt (hash i x) hpos
    obtain ⟨d1, h1, h2, h3, h4⟩ := setBit_ok (d := d) (k := hash i x % (f.data.length * 8)) (by rw [hd]; exact hlt)
    obtain ⟨d2, g1, g2, g3, g4⟩ := insertLoop_ok f x hf n (i + 1) d1 (by rw [h2, hd])
    refine ⟨d2, ?_, g2, fun j hj => g3 j (h4 j hj), ?_⟩
    · rw [Filter.insertLoop, Filter.index, if_neg (by omega)]
      dsimp only
      rw [h1]; exact g1
    · intro m hm
      cases m with
      | zero => exact g3 _ h3
      | succ m =>
        have := g4 m (by omega)
        rwa [show i + 1 + m = i + (m + 1) by omega] at this

theorem containsLoop_iff (f : Filter) (x : Bytes) (hf : 0 < f.data.length) : ∀ (n i : Nat),
    ∃ b, f.containsLoop hash x n i = some b ∧ (b = true ↔ ∀ m, m < n → BitSet f.data (hash (i + m) x % (f.data.length * 8)))
  | 0, _ => ⟨true, rfl, by simp⟩
  | n + 1, i => by
    have hpos : 0 < f.data.length * 8 := by omega
    have hlt := Nat.mod_lt (hash i x) hpos
    have hk : hash i x % (f.data.length * 8) / 8 < f.data.length := by omega
    rw [Filter.containsLoop, Filter.index, if_neg (by omega)]
    dsimp only
    rw [List.getElem?_eq_getElem hk]
    dsimp only
    split
    · rename_i h0
      refine ⟨false, rfl, ?_⟩
      simp only [Bool.false_eq_true, false_iff]
      intro hall
      obtain ⟨b, h1, h2⟩ := hall 0 (by omega)
      rw [Nat.add_zero, List.getElem?_eq_getElem hk] at h1
      injection h1 with h1
      rw [Nat.add_zero, ← h1] at h2
      exact h2 h0
    · rename_i h0
      obtain ⟨b, h1, h2⟩ := containsLoop_iff f x hf n (i + 1)
      refine ⟨b, h1, h2.trans ?_⟩
      constructor
      · intro h m hm
        cases m with
        | zero => exact ⟨_, List.getElem?_eq_getElem hk, h0⟩
        | succ m =>
          have := h m (by omega)
          rwa [show i + 1 + m = i + (m + 1) by omega] at this
      · intro h m hm
        have := h (m + 1) (by omega)
        rwa [show i + (m + 1) = i + 1 + m by omega] at this

/-- No division by zero: a filter without bits counts as full. -/
def Filter.Safe (f : Filter) : Prop := f.full = true ∨ 0 < f.data.length

theorem insert_ok {f : Filter} (hf : f.Safe) (x : Bytes) :
    ∃ f', f.insert hash x = some f' ∧ f'.Safe ∧ f'.contains hash x = some true ∧ f'.data.length = f.data.length ∧ f'.funcs = f.funcs ∧
      ∀ y, f.contains hash y = some true → f'.contains hash y = some true := by
  unfold Filter.insert
  by_cases hfull : f.full = true
  · rw [if_pos hfull]
    exact ⟨f, rfl, hf, by unfold Filter.contains; rw [if_pos hfull], rfl, rfl, fun _ h => h⟩
  · rw [if_neg hfull]
    have hpos : 0 < f.data.length := hf.resolve_left hfull
    obtain ⟨d, h1, h2, h3, h4⟩ := insertLoop_ok hash f x hpos f.funcs 0 f.data rfl
    rw [h1]
    have hcon : ∀ y, (∀ m, m < f.funcs → BitSet d (hash (0 + m) y % (f.data.length * 8))) →
        ({ f with data := d, empty := false } : Filter).contains hash y = some true := by
      intro y hy
      unfold Filter.contains
      rw [if_neg hfull, if_neg (by simp)]
      obtain ⟨b, g1, g2⟩ := containsLoop_iff hash { f with data := d, empty := false } y (by dsimp only; omega) f.funcs 0
      rw [g1, g2.2]
      dsimp only
      rw [h2]; exact hy
    refine ⟨_, rfl, Or.inr (by dsimp only; omega), hcon x h4, h2, rfl, ?_⟩
    intro y hy
    apply hcon
    unfold Filter.contains at hy
    rw [if_neg hfull] at hy
    by_cases he : f.empty = true
    · rw [if_pos he] at hy; cases hy
    · rw [if_neg he] at hy
      obtain ⟨b, g1, g2⟩ := containsLoop_iff hash f y hpos f.funcs 0
      rw [hy] at g1
      injection g1 with g1
      intro m hm
      exact h3 _ (g2.1 g1.symm m hm)

/-- What is known of the filter of a peer: no division by zero, and within the limits. -/
def Spv.Good (s : Spv) : Prop := ∀ f, s.filter = some f → f.Safe ∧ f.data.length ≤ 36000 ∧ f.funcs ≤ 50

theorem fstep_good {s : Spv} (hs : s.Good) (m : FMsg) : ∃ s', fstep hash s m = some s' ∧ s'.Good := by
  cases m with
  | load d n =>
    simp only [fstep]
    split
    · rename_i h
      refine ⟨_, rfl, ?_⟩
      rintro f ⟨⟩
      unfold Filter.sizeOk at h
      simp only [Bool.and_eq_true, decide_eq_true_eq] at h
      refine ⟨?_, h.1, h.2⟩
      unfold Filter.Safe Filter.update
      cases d with
      | nil => exact Or.inl rfl
      | cons b d => exact Or.inr (Nat.succ_pos _)
    · exact ⟨_, rfl, hs⟩
  | add x =>
    rw [fstep]
    split
    · exact ⟨_, rfl, hs⟩
    · cases hf : s.filter with
      | none => exact ⟨_, rfl, by rintro f ⟨⟩⟩
      | some f =>
        dsimp only
        obtain ⟨h0, hl, hn⟩ := hs f hf
        obtain ⟨f', h1, h2, _, h4, h5, _⟩ := insert_ok hash h0 x
        rw [h1]
        refine ⟨_, rfl, ?_⟩
        rintro g ⟨⟩
        exact ⟨h2, by omega, by omega⟩
  | clear =>
    refine ⟨_, rfl, ?_⟩
    rintro f ⟨⟩
    exact ⟨Or.inl rfl, by decide, by decide⟩

/-- Whatever filter messages a peer sends, the node does not divide by zero or write outside the filter, and filters are within
the limits of size. -/
theorem filter_never_fails (l : List FMsg) : ∀ (s : Spv), s.Good → ∃ s', frun hash s l = some s' ∧ s'.Good := by
  induction l with
  | nil => intro s hs; exact ⟨s, rfl, hs⟩
  | cons m l ih =>
    intro s hs
    obtain ⟨s1, h1, h2⟩ := fstep_good hash hs m
    obtain ⟨s2, h3, h4⟩ := ih s1 h2
    exact ⟨s2, by rw [frun, h1]; exact h3, h4⟩

/-- Too large filters and elements are refused and punished. -/
theorem filter_too_large (s : Spv) (d : Bytes) (n : Nat) (h : 36000 < d.length ∨ 50 < n) :
    fstep hash s (.load d n) = some { s with penalty := s.penalty + 100 } := by
  simp only [fstep]
  rw [if_neg]
  unfold Filter.sizeOk
  simp only [Bool.and_eq_true, decide_eq_true_eq]
  omega

/-- The messages that do not replace the filter. -/
def FMsg.isAdd : FMsg → Bool
  | .add _ => true
  | _ => false

theorem filter_keeps {y : Bytes} : ∀ (l : List FMsg) (s : Spv) (f : Filter), s.Good → s.filter = some f →
    f.contains hash y = some true → (∀ m ∈ l, m.isAdd = true) →
    ∃ s' f', frun hash s l = some s' ∧ s'.filter = some f' ∧ f'.contains hash y = some true
  | [], s, f, _, hf, hy, _ => ⟨s, f, rfl, hf, hy⟩
  | .load d n :: l, _, _, _, _, _, hl => by have := hl _ List.mem_cons_self; cases this
  | .clear :: l, _, _, _, _, _, hl => by have := hl _ List.mem_cons_self; cases this
  | .add x :: l, s, f, hs, hf, hy, hl => by
    have hl' : ∀ m ∈ l, m.isAdd = true := fun m hm => hl m (List.mem_cons_of_mem _ hm)
    obtain ⟨s1, h1, h2⟩ := fstep_good hash hs (.add x)
    rw [frun, h1]
    dsimp only
    rw [fstep] at h1
    split at h1
    · injection h1 with h1
      subst h1
      exact filter_keeps l _ f h2 hf hy hl'
    · rw [hf] at h1
      dsimp only at h1
      obtain ⟨f', g1, _, _, _, _, g6⟩ := insert_ok hash (hs f hf).1 x
      rw [g1] at h1
      injection h1 with h1
      subst h1
      exact filter_keeps l _ f' h2 rfl (g6 y hy) hl'

/-- No false negatives: what a peer has added to its filter is matched from then on, as long as the peer does not load or clear
a filter. -/
theorem filter_no_false_negative (before after : List FMsg) (x : Bytes) (hx : x.length ≤ 520) (hl : ∀ m ∈ after, m.isAdd = true)
    {s0 : Spv} (h0 : frun hash ⟨none, 0⟩ before = some s0) (hf : s0.filter ≠ none) :
    ∃ s f, frun hash s0 (.add x :: after) = some s ∧ s.filter = some f ∧ f.contains hash x = some true := by
  have hgood : s0.Good := by
    obtain ⟨s', h1, h2⟩ := filter_never_fails hash before ⟨none, 0⟩ (by rintro f ⟨⟩)
    rw [h0] at h1
    injection h1 with h1
    rw [h1]; exact h2
  cases hs : s0.filter with
  | none => exact absurd hs hf
  | some f =>
    obtain ⟨f', h1, _, h3, _⟩ := insert_ok hash (hgood f hs).1 x
    obtain ⟨s1, g1, g2⟩ := fstep_good hash hgood (.add x)
    have : fstep hash s0 (.add x) = some { s0 with filter := some f' } := by
      rw [fstep, if_neg (by omega), hs]
      dsimp only
      rw [h1]
    rw [this] at g1
    injection g1 with g1
    subst g1
    obtain ⟨s, f2, k1, k2, k3⟩ := filter_keeps hash after _ f' g2 rfl h3 hl
    exact ⟨s, f2, by rw [frun, this]; exact k1, k2, k3⟩

/-- A hash for the examples. -/
def demoHash (i : Nat) (x : Bytes) : Nat := 7 * i + x.sum

example : ((frun demoHash ⟨none, 0⟩ [.load [0, 0, 0] 2, .add [1], .add [4, 5]]).bind (·.filter)).map
    (fun f => (f.data, f.contains demoHash [1], f.contains demoHash [4, 5], f.contains demoHash [3])) =
      some ([2, 3, 1], some true, some true, some false) := by decide

/-- Transactions that match the filter of a peer are not announced to it: the test of a transaction is commented out. -/
theorem filter_relay_violated :
    ¬ ∀ (hash : Nat → Bytes → Nat) (l : List FMsg) (s : Spv) (f : Filter) (x : Bytes), frun hash ⟨none, 0⟩ l = some s →
        s.filter = some f → f.contains hash x = some true → relays s = true := by
  intro h
  have := h demoHash [.load [0, 0, 0] 2, .add [1]] ⟨some ⟨[2, 1, 0], false, false, 2⟩, 0⟩ ⟨[2, 1, 0], false, false, 2⟩ [1]
    (by decide) rfl (by decide)
  revert this
  decide

/-- What is left: a peer without filter, and one with a full or cleared one, is told of every transaction. -/
theorem filter_relay_partial (s : Spv) : relays s = true ↔ ∀ f, s.filter = some f → f.full = true := by
  unfold relays Filter.relevant
  cases s.filter with
  | none => simp
  | some f => cases hf : f.full <;> cases he : f.empty <;> simp [hf]

end Verif.Sync
