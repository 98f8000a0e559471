import Verif.Intake.Accept

/-!
# Intake of blocks: delivered blocks and histories
-/
namespace Verif.Intake

theorem oins_mem {b x : Blk} {l : List Blk} (h : x ∈ oins b l) : x = b ∨ x ∈ l := by
  induction l with
  | nil => simpa [oins] using h
  | cons a r ih =>
    unfold oins at h
    split at h
    · rcases List.mem_cons.1 h with h | h
      · exact Or.inl h
      · exact Or.inr h
    · split at h
      · exact Or.inr h
      · rcases List.mem_cons.1 h with h | h
        · exact Or.inr (by simp [h])
        · rcases ih h with h | h
          · exact Or.inl h
          · exact Or.inr (by simp [h])

theorem oins_ne {b : Blk} {l : List Blk} : oins b l ≠ [] := by
  cases l with
  | nil => simp [oins]
  | cons a r => unfold oins; split <;> [simp; split <;> simp]

theorem erase_eq {l : List Blk} (hd : (l.map (·.hash)).Nodup) {t : Blk} (ht : t ∈ l) :
    l.eraseP (fun x => x.prev == t.prev && x.hash == t.hash) = l.filter fun x => x.hash != t.hash := by
  induction l with
  | nil => simp at ht
  | cons a r ih =>
    rw [List.map_cons, List.nodup_cons] at hd
    by_cases he : a.hash = t.hash
    · have hat : a = t := by
        rcases List.mem_cons.1 ht with h | h
        · exact h.symm
        · exact absurd (List.mem_map.2 ⟨t, h, he.symm⟩) hd.1
      subst hat
      rw [List.eraseP_cons_of_pos (by simp), List.filter_cons_of_neg (by simp)]
      symm
      rw [List.filter_eq_self]
      intro x hx
      simp only [bne_iff_ne]
      intro hxe
      exact hd.1 (List.mem_map.2 ⟨x, hx, hxe⟩)
    · rw [List.eraseP_cons_of_neg (by simp [he]), List.filter_cons_of_pos (by simpa using he)]
      rw [ih hd.2]
      rcases List.mem_cons.1 ht with h | h
      · exact absurd (by rw [h]) he
      · exact h

theorem prune_spec {st : St} (pool : Pool [] st) (height : Nat) :
    ∃ s ok, prune st height = some (s, ok) ∧ Pool [] s ∧ s.idx = st.idx ∧ s.active = st.active ∧ s.most = st.most ∧ s.forks = st.forks ∧
      (∀ x ∈ s.orphans, x ∈ st.orphans) ∧ (ok = true → s.orphans.length ≤ maxOrphans) ∧ (ok = false → s = st) := by
  unfold prune
  split
  · rename_i h
    rw [pool.same] at h
    exact ⟨st, true, rfl, pool, rfl, rfl, rfl, rfl, fun _ h => h, fun _ => h, by simp⟩
  · rename_i h
    rw [pool.same] at h
    have hfull : st.orphans.length = maxOrphans + 1 := by have := pool.bound; omega
    have hne := pool.full hfull
    cases hos : st.oset with
    | nil => exact absurd hos hne
    | cons t ts =>
      simp only
      split
      · exact ⟨st, false, rfl, pool, rfl, rfl, rfl, rfl, fun _ h => h, by simp, fun _ => rfl⟩
      · have ht : t ∈ st.orphans := pool.sub t (by rw [hos]; simp)
        have hlt : (st.orphans.filter fun x => x.hash != t.hash).length < st.orphans.length := by
          apply List.length_filter_lt_length_iff_exists.2
          exact ⟨t, ht, by simp⟩
        refine ⟨_, true, rfl, ?_, rfl, rfl, rfl, rfl, fun x hx => List.mem_of_mem_filter hx, fun _ => by simp only; omega, by simp⟩
        constructor
        · simp only
          rw [pool.same]
          exact erase_eq pool.nodup ht
        · exact pool.nodup.sublist (List.filter_sublist.map _)
        · intro x hx
          simp only [← hos] at hx
          unfold oerase at hx
          rw [List.mem_filter] at hx
          show x ∈ st.orphans.filter _
          rw [List.mem_filter]
          refine ⟨pool.sub x hx.1, ?_⟩
          have h2 := hx.2
          simp only [bne_iff_ne] at h2 ⊢
          intro he
          exact h2 (by rw [inj_of_nodup_map pool.nodup (pool.sub x hx.1) ht he])
        · show (st.orphans.filter _).length ≤ _
          omega
        · intro hl
          change (st.orphans.filter _).length = _ at hl
          omega
        · intro o ho
          exact pool.waiting o (List.mem_of_mem_filter ho)
        · intro o ho
          exact pool.fresh o (List.mem_of_mem_filter ho)

theorem keep_spec {e : Env} {st : St} (inv : Inv e st) (pool : Pool [] st) {b : Blk} (h1 : has st.idx b.hash = false)
    (h2 : inChain st.orphans b.hash = false) (h3 : has st.idx b.prev = false) :
    ∃ s, keep st b = some s ∧ Inv e s ∧ Pool [] s ∧ s.idx = st.idx ∧ s.active = st.active ∧ s.most = st.most ∧
      (∀ x ∈ s.orphans, x ∈ st.orphans ∨ x = b) := by
  unfold keep
  obtain ⟨s, ok, g1, g2, g3, g4, g5, g6, g7, g8, g9⟩ := prune_spec pool b.height
  rw [g1]
  cases ok with
  | false =>
    rw [g9 rfl]
    exact ⟨st, rfl, inv, pool, rfl, rfl, rfl, fun _ h => Or.inl h⟩
  | true =>
    have hb : ∀ x ∈ s.orphans, x.hash ≠ b.hash := by
      intro x hx he
      have : inChain st.orphans b.hash = true := by
        unfold inChain
        exact List.any_eq_true.2 ⟨x, g7 x hx, by simp [he]⟩
      rw [h2] at this; simp at this
    refine ⟨_, rfl, ⟨?_, ?_, ?_, ?_, ?_, ?_⟩, ?_, g3, g4, g5, ?_⟩
    · show Tree e (skel s.idx); rw [g3]; exact inv.tree
    · show Flags e s.idx; rw [g3]; exact inv.flags
    · show s.active ∈ skel s.idx; rw [g3, g4]; exact inv.act
    · show Sound e s.active; rw [g4]; exact inv.sound
    · show s.most ∈ skel s.idx; rw [g3, g5]; exact inv.most
    · show ∀ p ∈ s.forks, p.2 ∈ skel s.idx ∧ _; rw [g3, g6]; exact inv.forks
    · constructor
      · simp only; rw [g2.same]
      · show ((s.orphans ++ [b]).map (·.hash)).Nodup
        rw [List.map_append, List.nodup_append]
        refine ⟨g2.nodup, by simp, ?_⟩
        intro x hx y hy
        obtain ⟨z, hz, rfl⟩ := List.mem_map.1 hx
        simp only [List.map_cons, List.map_nil, List.mem_singleton] at hy
        rw [hy]
        exact hb z hz
      · intro x hx
        show x ∈ s.orphans ++ [b]
        rcases oins_mem hx with h | h
        · simp [h]
        · exact List.mem_append_left _ (g2.sub x h)
      · show (s.orphans ++ [b]).length ≤ _
        have := g8 rfl
        simp only [List.length_append, List.length_cons, List.length_nil]
        omega
      · intro _; exact oins_ne
      · intro o ho
        rcases List.mem_append.1 ho with ho | ho
        · exact g2.waiting o ho
        · simp only [List.mem_singleton] at ho
          show has s.idx o.prev = true → _
          rw [ho, g3, h3]; simp
      · intro o ho
        rcases List.mem_append.1 ho with ho | ho
        · exact g2.fresh o ho
        · simp only [List.mem_singleton] at ho
          show has s.idx o.hash = false
          rw [ho, g3, h1]
    · intro x hx
      rcases List.mem_append.1 hx with hx | hx
      · exact Or.inl (g7 x hx)
      · exact Or.inr (by simpa using hx)

/-- All outcomes of `ProcessBlock`. -/
theorem process_spec {e : Env} {inp : Inputs} {peer : Bool} {st : St} (inv : Inv e st) (pool : Pool [] st) (b : Blk) :
    (process e inp peer st b = none ∧ ((b.height ≠ 0 ∧ (b.byReg = false ∨ b.prev = 0)) ∨ ∃ k ∈ st.orphans, k.height ≠ 0 ∧ k.byReg = false)) ∨
    ∃ s ok, process e inp peer st b = some (s, ok) ∧ Inv e s ∧ Pool [] s ∧ Step inp st s ∧
      (∀ x ∈ s.orphans, x ∈ st.orphans ∨ x = b) ∧
      (inChain st.orphans b.hash = false → e.check b = true → ∀ p ∈ skel st.idx, Fits e b p →
        (tipHash st.active = some b.prev ∨ (Near st (e.maxFork b.height) p ∧ Sound e p ∧ e.reward p b = true)) →
        has s.idx b.hash = true ∧ (has st.idx b.hash = false → b :: p ∈ skel s.idx)) := by
  unfold process
  split
  · rename_i h
    refine Or.inr ⟨st, false, rfl, inv, pool, Step.refl _ _, fun _ h => Or.inl h, fun _ _ p hp hf _ => ⟨h, fun h' => ?_⟩⟩
    rw [h] at h'; simp at h'
  rename_i h1
  split
  · rename_i h
    exact Or.inr ⟨st, false, rfl, inv, pool, Step.refl _ _, fun _ h => Or.inl h, fun h' => by rw [h] at h'; simp at h'⟩
  rename_i h2
  split
  · rename_i h
    exact Or.inr ⟨st, false, rfl, inv, pool, Step.refl _ _, fun _ h => Or.inl h, fun _ h' => by rw [h] at h'; simp at h'⟩
  rename_i h3
  have h1' : has st.idx b.hash = false := by simpa using h1
  have h2' : inChain st.orphans b.hash = false := by simpa using h2
  split
  · rename_i h4
    have hc : ∀ p ∈ skel st.idx, ¬ Fits e b p := by
      rintro p hp ⟨q, r, rfl, g, -⟩
      have : has st.idx b.prev = true := has_iff.2 ⟨_, hp, by rw [g]; rfl⟩
      rw [h4.2] at this; simp at this
    split
    · obtain ⟨s, g1, g2, g3, g4, g5, gm, g6⟩ := keep_spec inv pool h1' h2' h4.2
      rw [g1]
      exact Or.inr ⟨s, true, rfl, g2, g3, ⟨by rw [g4]; exact List.suffix_refl _, fun x hx _ => by rw [g5]; exact hx, Or.inl ⟨g4, g5, gm⟩⟩, g6,
        fun _ _ p hp hf => absurd hf (hc p hp)⟩
    · exact Or.inr ⟨st, true, rfl, inv, pool, Step.refl _ _, fun _ h => Or.inl h, fun _ _ p hp hf => absurd hf (hc p hp)⟩
  · rename_i h4
    rcases accept_spec (inp := inp) inv b with ⟨a1, a2, a3⟩ | ⟨s, ok, a1, a2, a3, a4, a5⟩
    · rw [a1]
      refine Or.inl ⟨rfl, Or.inl ⟨a2, ?_⟩⟩
      rcases a3 with a3 | a3
      · exact Or.inl a3
      · right
        by_contra hc
        exact h4 ⟨hc, a3⟩
    · rw [a1]
      obtain ⟨g1, ⟨g2, g3, g4⟩, g5⟩ := accept_step a3 a4
      cases ok with
      | false =>
        obtain ⟨forks, rfl⟩ := a3 rfl
        exact Or.inr ⟨_, false, rfl, a2, ⟨pool.same, pool.nodup, pool.sub, pool.bound, pool.full, pool.waiting, pool.fresh⟩, g1,
          fun _ h => Or.inl h, fun _ _ p hp hf hor => absurd (a5 h1' p hp hf hor) (by simp)⟩
      | true =>
        simp only
        obtain ⟨-, p0, hp0, hf0, ha⟩ := a4 rfl
        have hbi : has s.idx b.hash = true := has_iff.2 ⟨b :: p0, by rw [ha.skel]; simp, rfl⟩
        have pool2 : Pool [b.hash] s := by
          constructor
          · rw [g2, g3]; exact pool.same
          · rw [g2]; exact pool.nodup
          · rw [g2, g4]; exact pool.sub
          · rw [g2]; exact pool.bound
          · rw [g2, g4]; exact pool.full
          · rw [g2]
            intro o ho hh
            rcases g5 _ hh with h | ⟨-, h⟩
            · have := pool.waiting o ho h
              simp at this
            · simp [h]
          · rw [g2]
            intro o ho
            by_contra hc
            rcases g5 o.hash (by simpa using hc) with h | ⟨-, h⟩
            · rw [pool.fresh o ho] at h; simp at h
            · apply h2
              unfold inChain
              exact List.any_eq_true.2 ⟨o, ho, by simp [h]⟩
        rcases resolve_spec (inp := inp) (fuel := s.byPrev.length + 1) a2 pool2 (by simpa using hbi) (by simp) with
          ⟨r1, k, r2, r3⟩ | ⟨t, r1, r2, r3, r4, r5⟩
        · rw [r1]
          exact Or.inl ⟨rfl, Or.inr ⟨k, by rw [← g2]; exact r2, r3⟩⟩
        · rw [r1]
          refine Or.inr ⟨t, true, rfl, r2, r3, g1.trans r4, fun x hx => Or.inl (by rw [← g2]; exact r5 x hx), ?_⟩
          intro _ _ p hp hf _
          refine ⟨has_grow r4.grow hbi, fun _ => r4.grow.subset ?_⟩
          rw [ha.skel]
          obtain ⟨q, r, rfl, e1, -⟩ := hf
          obtain ⟨q', r', rfl, e2, -⟩ := hf0
          have := inv.tree.eq hp hp0 (by rw [tipHash_cons, tipHash_cons, ← e1, ← e2])
          rw [this]; simp

theorem init_inv (e : Env) : Inv e (init e) ∧ Pool [] (init e) := by
  refine ⟨⟨⟨by simp [init, skel], ?_, ?_⟩, ⟨?_, ?_⟩, by simp [init, skel, Node.path], rfl, by simp [init, skel, Node.path], by simp [init]⟩,
    ⟨rfl, by simp [init], by simp [init], by simp [init], by simp [init, maxOrphans], by simp [init], by simp [init]⟩⟩
  · intro b p h
    simp [init, skel, Node.path] at h
    exact Or.inl h.2
  · intro p h
    simp [init, skel, Node.path] at h
    rw [h]; rfl
  · intro n hn hf
    simp [init] at hn
    rw [hn] at hf; simp at hf
  · intro n hn
    simp [init] at hn
    rw [hn]; rfl

theorem run_inv {e : Env} {vs : List Event} {st s : St} (inv : Inv e st) (pool : Pool [] st) (h : run e vs st = some s) :
    Inv e s ∧ Pool [] s := by
  induction vs generalizing st with
  | nil => simp only [run, Option.some.injEq] at h; subst h; exact ⟨inv, pool⟩
  | cons v vs ih =>
    unfold run at h
    rcases process_spec (inp := v.inp) (peer := v.peer) inv pool v.blk with ⟨p1, -⟩ | ⟨t, ok, p1, p2, p3, -⟩
    · rw [p1] at h; simp at h
    · rw [p1] at h
      exact ih p2 p3 h

end Verif.Intake
