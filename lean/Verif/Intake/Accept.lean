import Verif.Intake.Choose

/-!
# Intake of blocks: side branches, acceptance and orphans
-/
namespace Verif.Intake

theorem cached_mem {forks : List (Nat × List Blk)} {h : Nat} {c : List Blk} (hc : cached forks h = some c) : (h, c) ∈ forks := by
  unfold cached at hc
  rw [Option.map_eq_some_iff] at hc
  obtain ⟨p, hp, rfl⟩ := hc
  have h1 := List.find?_some hp
  have h2 := List.mem_of_find?_eq_some hp
  simp only [beq_iff_eq] at h1
  rw [← h1]; exact h2

theorem uncache_mem {forks : List (Nat × List Blk)} {h : Nat} {p : Nat × List Blk} (hp : p ∈ uncache forks h) : p ∈ forks :=
  List.mem_of_mem_filter hp

/-- The walk ends at the fork point; the blocks above the kept state are collected, newest first. -/
theorem walk_spec {e : Env} {st : St} (inv : Inv e st) {limit : Nat} {p0 : List Blk} (h0 : p0 ∈ skel st.idx) {p pre : List Blk} {tip : Option Nat}
    (hp : p ∈ skel st.idx)
    (hinv : (tip = none ∧ p0 = pre ++ p) ∨ ∃ h c, tip = some h ∧ cached st.forks h = some c ∧ p0 = pre ++ c) :
    walk st limit tip pre p = .refused ∨
    ∃ q tip' pre', walk st limit tip pre p = .found q tip' pre' ∧ q <:+ p ∧ q <:+ st.active ∧ q ≠ [] ∧
      ((tip' = none ∧ p0 = pre' ++ q) ∨ ∃ h c, tip' = some h ∧ cached st.forks h = some c ∧ p0 = pre' ++ c) := by
  induction p generalizing tip pre with
  | nil => exact absurd (inv.tree.linked _ hp).ne (by simp)
  | cons b r ih =>
    unfold walk
    by_cases hin : inChain st.active b.hash = true
    · rw [if_pos hin]
      exact Or.inr ⟨b :: r, tip, pre, rfl, List.suffix_refl _, (inv.tree.contains inv.act hp).1 hin, by simp, hinv⟩
    · rw [if_neg hin]
      rcases inv.tree.closed b r hp with rfl | hr
      · exfalso
        apply hin
        rw [inv.tree.contains inv.act hp]
        have := inv.tree.linked _ hp
        rw [show b = e.genesis from this]
        exact (inv.tree.linked _ inv.act).genesis
      · cases r with
        | nil => exact absurd (inv.tree.linked _ hr).ne (by simp)
        | cons q r' =>
          simp only
          split
          · exact Or.inl rfl
          · have hq : has st.idx q.hash = true := has_iff.2 ⟨_, hr, rfl⟩
            rw [hq]
            simp only [Bool.not_true, Bool.false_eq_true, if_false]
            have key := ih (tip := if tip = none && (cached st.forks b.hash).isSome then some b.hash else tip)
              (pre := if (if tip = none && (cached st.forks b.hash).isSome then some b.hash else tip) = none then pre ++ [b] else pre) hr (by
                rcases hinv with ⟨rfl, hinv⟩ | ⟨h, c, rfl, hc, hinv⟩
                · cases hcb : cached st.forks b.hash with
                  | none => simp [hinv]
                  | some c =>
                    right
                    have hm := cached_mem hcb
                    obtain ⟨k1, k2, k3⟩ := inv.forks _ hm
                    have : c = b :: q :: r' := inv.tree.eq k1 hp (by rw [k3]; rfl)
                    exact ⟨b.hash, c, by simp, hcb, by simp [hinv, this]⟩
                · right
                  exact ⟨h, c, by simp, hc, by simp [hinv]⟩)
            rcases key with k | ⟨q', t', p', k1, k2, k3, k4, k5⟩
            · exact Or.inl k
            · exact Or.inr ⟨q', t', p', k1, k2.trans (List.suffix_cons _ _), k3, k4, k5⟩

/-- The chain `p` leaves the active chain at most `limit` blocks below its tip. -/
def Near (st : St) (limit : Nat) (p : List Blk) : Prop := ∃ q, q ≠ [] ∧ q <:+ p ∧ q <:+ st.active ∧ st.active.length - q.length ≤ limit

theorem walk_near {e : Env} {st : St} (inv : Inv e st) {limit : Nat} {p q pre : List Blk} {tip : Option Nat} (hp : p ∈ skel st.idx)
    (hq0 : q ≠ []) (hqp : q <:+ p) (hqa : q <:+ st.active) (hl : st.active.length - q.length ≤ limit) :
    walk st limit tip pre p ≠ .refused ∧ ∀ a t c, walk st limit tip pre p = .found a t c → st.active.length - a.length ≤ limit := by
  induction p generalizing tip pre with
  | nil => exact absurd (inv.tree.linked _ hp).ne (by simp)
  | cons b r ih =>
    unfold walk
    by_cases hin : inChain st.active b.hash = true
    · rw [if_pos hin]
      refine ⟨by simp, fun a t c h => ?_⟩
      simp only [Walk.found.injEq] at h
      obtain ⟨rfl, -⟩ := h
      have := hqp.length_le
      omega
    · rw [if_neg hin]
      have hqr : q <:+ r := by
        rcases List.suffix_cons_iff.1 hqp with rfl | h
        · exact absurd ((inv.tree.contains inv.act hp).2 hqa) hin
        · exact h
      have hle := hqr.length_le
      rcases inv.tree.closed b r hp with rfl | hr
      · simp at hqr; exact absurd hqr hq0
      · cases r with
        | nil => exact absurd (inv.tree.linked _ hr).ne (by simp)
        | cons x r' =>
          simp only
          rw [if_neg (by omega)]
          have hx : has st.idx x.hash = true := has_iff.2 ⟨_, hr, rfl⟩
          rw [hx]
          simp only [Bool.not_true, Bool.false_eq_true, if_false]
          exact ih hr hqr

theorem revive_id {e : Env} {idx : List Node} (t : Tree e (skel idx)) (fl : Flags e idx) {b : Blk} {p : List Blk} (hp : b :: p ∈ skel idx)
    (hs : Sound e (b :: p)) : revive idx b.hash = idx := by
  unfold revive upd
  conv_rhs => rw [← List.map_id idx]
  apply List.map_congr_left
  intro n hn
  split
  · rename_i he
    have : n.path = b :: p := t.eq (mem_path hn) hp (by simp [Node.path, tipHash_cons, he])
    have hf : n.failed = false := by
      by_contra hc
      exact fl.failed n hn (by simpa using hc) (this ▸ hs)
    cases n
    simp only at hf
    simp [hf]
  · rfl

/-- Connecting a known branch on the state of its base gives the state of the branch or finds it unsound. -/
theorem connectPre_spec {e : Env} {idx : List Node} (t : Tree e (skel idx)) (fl : Flags e idx) {bs chain : List Blk} (hs : Sound e chain)
    (hk : bs.reverse ++ chain ∈ skel idx) :
    (connectPre e idx chain bs = some (idx, some (bs.reverse ++ chain)) ∧ Sound e (bs.reverse ++ chain)) ∨
      (connectPre e idx chain bs = some (idx, none) ∧ ¬ Sound e (bs.reverse ++ chain)) := by
  induction bs generalizing chain with
  | nil => exact Or.inl ⟨rfl, hs⟩
  | cons b bs ih =>
    have hbs : b :: chain <:+ (b :: bs).reverse ++ chain := ⟨bs.reverse, by simp⟩
    have hbk := t.suffix hk hbs (by simp)
    have hL := t.linked _ hbk
    unfold connectPre
    have htip : tipHash chain = some b.prev := by
      cases chain with
      | nil => exact absurd hs.ne (by simp)
      | cons q r => rw [tipHash_cons, hL.1.1]
    rw [if_neg (by simp [htip])]
    by_cases hc : connect e chain b = true
    · rw [if_pos hc]
      have hS : Sound e (b :: chain) := (sound_cons hs).2 hc
      rw [revive_id t fl hbk hS]
      have := ih hS (by simpa using hk)
      simpa using this
    · rw [if_neg hc]
      refine Or.inr ⟨rfl, fun h => ?_⟩
      have := h.suffix hbs (by simp)
      rw [sound_cons hs] at this
      exact hc this

theorem dropWhile_suffix {st : St} {q r : List Blk} {b : Blk} {e : Env} (inv : Inv e st) (hq : q = b :: r) (hs : q <:+ st.active) :
    (st.active.dropWhile fun x => x.hash != b.hash) = q := by
  subst hq
  obtain ⟨l, hl⟩ := hs
  have hall : ∀ x ∈ l, x.hash ≠ b.hash := by
    intro x hx he
    obtain ⟨l1, l2, rfl⟩ := List.append_of_mem hx
    have h1 : x :: (l2 ++ b :: r) ∈ skel st.idx := inv.tree.suffix inv.act ⟨l1, by rw [← hl]; simp⟩ (by simp)
    have h2 : b :: r ∈ skel st.idx := inv.tree.suffix inv.act ⟨l1 ++ x :: l2, by rw [← hl]⟩ (by simp)
    have := congrArg List.length (inv.tree.eq h1 h2 (by simp [tipHash_cons, he]))
    simp at this
    omega
  rw [← hl, List.dropWhile_append_of_pos (by intro x hx; simpa using hall x hx), List.dropWhile_cons, if_neg (by simp)]

/-- `ProcessForkedChain`: the index is unchanged and the producer is verified on the state of the block's own branch. -/
theorem forked_spec {e : Env} {st : St} (inv : Inv e st) {b : Blk} {p0 : List Blk} (h0 : p0 ∈ skel st.idx) :
    ∃ forks ok, forked e st b p0 = some ({ st with forks := forks }, ok) ∧ Inv e { st with forks := forks } ∧
      (ok = true → e.reward p0 b = true ∧ Sound e p0) ∧
      (Near st (e.maxFork b.height) p0 → Sound e p0 → e.reward p0 b = true → ok = true) := by
  have hid : ({ st with forks := st.forks } : St) = st := rfl
  unfold forked
  rcases walk_spec inv (limit := e.maxFork b.height) h0 (tip := none) (pre := []) h0 (Or.inl ⟨rfl, rfl⟩) with h | ⟨q, tip, pre, h1, h2, h3, h4, h5⟩
  · rw [h]
    refine ⟨st.forks, false, rfl, inv, by simp, ?_⟩
    rintro ⟨q, n1, n2, n3, n4⟩
    exact absurd h (walk_near inv h0 n1 n2 n3 n4).1
  · rw [h1]
    simp only
    split
    · rename_i hd
      refine ⟨st.forks, false, rfl, inv, by simp, ?_⟩
      rintro ⟨q, n1, n2, n3, n4⟩
      have := (walk_near inv h0 n1 n2 n3 n4).2 _ _ _ h1
      omega
    · obtain ⟨x, r, rfl⟩ := List.exists_cons_of_ne_nil h4
      have hxk : x :: r ∈ skel st.idx := inv.tree.suffix inv.act h3 (by simp)
      have hxS : Sound e (x :: r) := inv.sound.suffix h3 (by simp)
      rw [tipHash_cons]
      simp only
      -- the state found
      obtain ⟨c, forks, hcc, ⟨hcS, hcS2, hp0⟩, hck2⟩ : ∃ c forks, forkState st (tip.getD x.hash) x.hash = (c, forks) ∧
          (c ∈ skel st.idx ∧ Sound e c ∧ p0 = pre ++ c) ∧
          ∀ p ∈ forks, p.2 ∈ skel st.idx ∧ Sound e p.2 ∧ tipHash p.2 = some p.1 := by
        unfold forkState
        rcases h5 with ⟨rfl, h5⟩ | ⟨h, c, rfl, hcc, h5⟩
        · simp only [Option.getD_none]
          cases hcx : cached st.forks x.hash with
          | none =>
            simp only
            rw [dropWhile_suffix inv rfl h3]
            refine ⟨_, _, rfl, ⟨hxk, hxS, h5⟩, ?_⟩
            intro p hp
            unfold cache at hp
            rcases List.mem_cons.1 hp with rfl | hp
            · exact ⟨hxk, hxS, rfl⟩
            · exact inv.forks p (uncache_mem hp)
          | some c =>
            simp only
            obtain ⟨k1, k2, k3⟩ := inv.forks _ (cached_mem hcx)
            have : c = x :: r := inv.tree.eq k1 hxk (by rw [k3]; rfl)
            exact ⟨_, _, rfl, ⟨k1, k2, by rw [h5, this]⟩, inv.forks⟩
        · simp only [Option.getD_some, hcc]
          obtain ⟨k1, k2, k3⟩ := inv.forks _ (cached_mem hcc)
          exact ⟨_, _, rfl, ⟨k1, k2, h5⟩, inv.forks⟩
      rw [hcc]
      simp only
      obtain ⟨y, ys, rfl⟩ := List.exists_cons_of_ne_nil hcS2.ne
      rw [tipHash_cons]
      simp only
      rw [has_iff.2 ⟨_, hcS, rfl⟩]
      simp only [Bool.not_true, Bool.false_eq_true, if_false]
      cases pre with
      | nil =>
        simp only
        refine ⟨_, _, rfl, ⟨inv.tree, inv.flags, inv.act, inv.sound, inv.most, hck2⟩, fun h => ?_, fun _ _ h => ?_⟩
        · rw [hp0]
          exact ⟨h, hcS2⟩
        · rw [hp0] at h
          exact h
      | cons top pre =>
        simp only
        have hk2 : (top :: pre).reverse.reverse ++ y :: ys ∈ skel st.idx := by
          rw [List.reverse_reverse, ← hp0]; exact h0
        rcases connectPre_spec inv.tree inv.flags (bs := (top :: pre).reverse) hcS2 hk2 with ⟨g1, g2⟩ | ⟨g1, g2⟩
        · rw [g1]
          simp only
          rw [List.reverse_reverse] at g2 ⊢
          refine ⟨_, _, rfl, ⟨inv.tree, inv.flags, inv.act, inv.sound, inv.most, ?_⟩, fun h => ?_, fun _ _ h => ?_⟩
          · intro p hp
            unfold cache at hp
            rcases List.mem_cons.1 hp with rfl | hp
            · exact ⟨by rw [← hp0]; exact h0, g2, rfl⟩
            · exact hck2 p (uncache_mem (uncache_mem hp))
          · rw [hp0]; exact ⟨h, g2⟩
          · rw [hp0] at h; exact h
        · rw [g1]
          refine ⟨_, _, rfl, ⟨inv.tree, inv.flags, inv.act, inv.sound, inv.most, hck2⟩, by simp, fun _ h _ => ?_⟩
          rw [List.reverse_reverse, ← hp0] at g2
          exact absurd h g2

/-! ## Accepting -/

/-- The block may be put on top of the entry `p`. -/
def Fits (e : Env) (b : Blk) (p : List Blk) : Prop :=
  ∃ q r, p = q :: r ∧ b.prev = q.hash ∧ b.height = r.length + 1 ∧ q.time < b.time ∧ q.time + e.interval b.height ≤ b.time ∧
    e.fuelOk p b = true

theorem tree_cons {e : Env} {idx : List Node} (t : Tree e (skel idx)) {b : Blk} {p : List Blk} (hp : p ∈ skel idx) (hf : Fits e b p)
    (hr : b.byReg = true) (hn : has idx b.hash = false) (f c : Bool) :
    Tree e (skel ({ blk := b, anc := p, failed := f, cand := c } :: idx)) := by
  have hs : skel ({ blk := b, anc := p, failed := f, cand := c } :: idx) = (b :: p) :: skel idx := rfl
  rw [hs]
  constructor
  · rw [List.map_cons, List.nodup_cons]
    refine ⟨?_, t.nodup⟩
    intro h
    obtain ⟨q, hq, he⟩ := List.mem_map.1 h
    rw [tipHash_cons] at he
    rw [has_iff.2 ⟨q, hq, he⟩] at hn
    simp at hn
  · intro x y h
    rcases List.mem_cons.1 h with h | h
    · simp only [List.cons.injEq] at h
      rw [h.2]; exact Or.inr (List.mem_cons_of_mem _ hp)
    · rcases t.closed x y h with h | h
      · exact Or.inl h
      · exact Or.inr (List.mem_cons_of_mem _ h)
  · intro q hq
    rcases List.mem_cons.1 hq with rfl | hq
    · obtain ⟨q, r, rfl, h1, h2, h3, h4, h5⟩ := hf
      exact ⟨⟨h1, h2, h3, h4, h5, hr⟩, t.linked _ hp⟩
    · exact t.linked q hq

/-- What accepting a block into the index leaves behind. -/
structure Added (e : Env) (inp : Inputs) (b : Blk) (p : List Blk) (st st' : St) : Prop where
  inv : Inv e st'
  skel : skel st'.idx = (b :: p) :: Intake.skel st.idx
  orphans : st'.orphans = st.orphans ∧ st'.byPrev = st.byPrev ∧ st'.oset = st.oset
  kept : ∀ x ∈ st.active, x.hash ∈ inp.prot b.hash → x ∈ st'.active
  best : (∃ q ∈ Intake.skel st'.idx, ∃ x ∈ st'.active, x.hash ∈ inp.prot b.hash ∧ x ∉ q) ∨
    ∃ n, Intake.best st'.idx = some n ∧ st'.active = n.path ∧ st'.most = st'.active

theorem addIndex_spec {e : Env} {inp : Inputs} {st : St} (inv : Inv e st) {b : Blk} {p : List Blk} (hp : p ∈ skel st.idx)
    (hf : Fits e b p) (hr : b.byReg = true) (hn : has st.idx b.hash = false) :
    ∃ st', addIndex e inp st b p = some st' ∧ Added e inp b p st st' := by
  unfold addIndex
  rw [if_neg (by simp [hr])]
  set idx' : List Node := { blk := b, anc := p, failed := false, cand := true } :: st.idx with hidx
  have ht : Tree e (skel idx') := tree_cons inv.tree hp hf hr hn _ _
  have hsk : skel idx' = (b :: p) :: skel st.idx := rfl
  have inv1 : Inv e { st with idx := idx' } := by
    refine ⟨ht, ⟨?_, ?_⟩, ?_, inv.sound, ?_, ?_⟩
    · intro n hn hfl
      rcases List.mem_cons.1 hn with rfl | hn
      · simp at hfl
      · exact inv.flags.failed n hn hfl
    · intro n hn
      rcases List.mem_cons.1 hn with rfl | hn
      · rfl
      · exact inv.flags.cand n hn
    · exact List.mem_cons_of_mem _ inv.act
    · exact List.mem_cons_of_mem _ inv.most
    · intro q hq
      obtain ⟨h1, h2⟩ := inv.forks q hq
      exact ⟨List.mem_cons_of_mem _ h1, h2⟩
  have hprev : tipHash p = some b.prev := by
    obtain ⟨q, r, rfl, h1, -⟩ := hf
    rw [tipHash_cons, h1]
  obtain ⟨st1, h1, h2⟩ := activate_spec (prot := inp.prot b.hash) (ob := some b) (fuel := idx'.length + 1) inv1
    (by rintro _ ⟨⟩; exact ⟨p, by rw [hsk]; simp, hprev⟩) (by have := open_le_length idx'; simp only; omega)
  simp only
  rw [h1]
  have hbest : (∃ q ∈ skel st1.idx, ∃ x ∈ st1.active, x.hash ∈ inp.prot b.hash ∧ x ∉ q) ∨
      ∃ n, best st1.idx = some n ∧ st1.active = n.path ∧ st1.most = st1.active := by
    rcases h2.best with ⟨q, hq, x, hx, hxp, hxq, -⟩ | h
    · exact Or.inl ⟨q, by rw [h2.skel]; exact hq, x, hx, hxp, hxq⟩
    · exact Or.inr h
  by_cases hfl : inp.flush b.hash = true
  · refine ⟨{ st1 with forks := [] }, by simp [hfl], ⟨h2.inv.tree, h2.inv.flags, h2.inv.act, h2.inv.sound, h2.inv.most, by simp⟩, ?_, ?_, ?_, hbest⟩
    · exact h2.skel.trans hsk
    · exact h2.orphans
    · exact h2.kept
  · refine ⟨st1, by simp [hfl], h2.inv, h2.skel.trans hsk, h2.orphans, h2.kept, hbest⟩

theorem addIndex_stop {e : Env} {inp : Inputs} {st : St} {b : Blk} {p : List Blk} (hf : Fits e b p) (hr : b.byReg = false) :
    addIndex e inp st b p = none := by
  unfold addIndex
  obtain ⟨q, r, -, -, h, -⟩ := hf
  rw [if_pos ⟨by omega, hr⟩]

/-- All outcomes of `AcceptBlock`. -/
theorem accept_spec {e : Env} {inp : Inputs} {st : St} (inv : Inv e st) (b : Blk) :
    (accept e inp st b = none ∧ b.height ≠ 0 ∧ (b.byReg = false ∨ has st.idx b.prev = false)) ∨
    ∃ st' ok, accept e inp st b = some (st', ok) ∧ Inv e st' ∧
      (ok = false → ∃ forks, st' = { st with forks := forks }) ∧
      (ok = true → has st.idx b.hash = false ∧ ∃ p ∈ skel st.idx, Fits e b p ∧ Added e inp b p st st') ∧
      (has st.idx b.hash = false → ∀ p ∈ skel st.idx, Fits e b p →
        (tipHash st.active = some b.prev ∨ (Near st (e.maxFork b.height) p ∧ Sound e p ∧ e.reward p b = true)) → ok = true) := by
  have hg : has st.idx e.genesis.hash = true := has_iff.2 ⟨_, inv.tree.genesis inv.act, rfl⟩
  have hno : ∀ {p : Node}, find st.idx b.prev = some p → ∀ p' ∈ skel st.idx, Fits e b p' → p' = p.path := by
    intro p hfind p' hp' hf
    obtain ⟨hpm, hph⟩ := find_some hfind
    obtain ⟨q, r, rfl, h1, -⟩ := hf
    exact inv.tree.eq hp' (mem_path hpm) (by simp [Node.path, tipHash_cons, hph, h1])
  unfold accept
  by_cases hb : has st.idx b.hash = true
  · rw [if_pos hb]
    refine Or.inr ⟨st, false, rfl, inv, fun _ => ⟨st.forks, rfl⟩, by simp, fun h => ?_⟩
    rw [hb] at h; simp at h
  rw [if_neg hb]
  have hb' : has st.idx b.hash = false := by simpa using hb
  split
  · rename_i h; exact Or.inl ⟨rfl, h.1, Or.inr h.2⟩
  cases hfind : find st.idx b.prev with
  | none =>
    simp only
    rw [if_neg (by rintro h; rw [h] at hb; exact hb hg)]
    refine Or.inr ⟨st, false, rfl, inv, fun _ => ⟨st.forks, rfl⟩, by simp, fun _ p hp hf => ?_⟩
    obtain ⟨q, r, rfl, h1, -⟩ := hf
    have : has st.idx b.prev = true := has_iff.2 ⟨_, hp, by rw [h1]; rfl⟩
    unfold has at this
    rw [hfind] at this
    simp at this
  | some p =>
    obtain ⟨hpm, hph⟩ := find_some hfind
    simp only
    split
    · rename_i c
      refine Or.inr ⟨st, false, rfl, inv, fun _ => ⟨st.forks, rfl⟩, by simp, fun _ p' hp' hf => ?_⟩
      have := hno hfind p' hp' hf
      obtain ⟨q, r, -, -, -, -, -, h5⟩ := hf
      rw [this, c.2] at h5; simp at h5
    rename_i c1
    split
    · rename_i c
      refine Or.inr ⟨st, false, rfl, inv, fun _ => ⟨st.forks, rfl⟩, by simp, fun _ p' hp' hf => ?_⟩
      have := hno hfind p' hp' hf
      obtain ⟨q, r, hqr, -, h3, -⟩ := hf
      rw [this] at hqr
      simp only [Node.path, List.cons.injEq] at hqr
      rw [hqr.2] at c
      exact absurd h3 c
    rename_i c2
    split
    · rename_i c
      refine Or.inr ⟨st, false, rfl, inv, fun _ => ⟨st.forks, rfl⟩, by simp, fun _ p' hp' hf => ?_⟩
      have := hno hfind p' hp' hf
      obtain ⟨q, r, hqr, -, -, h3, h4, -⟩ := hf
      rw [this] at hqr
      simp only [Node.path, List.cons.injEq] at hqr
      rw [hqr.1] at c
      omega
    rename_i c3
    have hfits : Fits e b p.path := by
      simp only [ne_eq, Decidable.not_not] at c2
      refine ⟨p.blk, p.anc, rfl, hph.symm, c2, by omega, by omega, ?_⟩
      by_contra hc
      exact c1 ⟨by omega, by simpa using hc⟩
    have h0 : b.height ≠ 0 := by
      simp only [ne_eq, Decidable.not_not] at c2
      omega
    split
    · by_cases hr : b.byReg = true
      · obtain ⟨st', h1, h2⟩ := addIndex_spec (inp := inp) inv (mem_path hpm) hfits hr hb'
        rw [h1]
        exact Or.inr ⟨st', true, rfl, h2.inv, by simp, fun _ => ⟨hb', p.path, mem_path hpm, hfits, h2⟩, fun _ _ _ _ _ => rfl⟩
      · rw [addIndex_stop hfits (by simpa using hr)]
        exact Or.inl ⟨rfl, h0, Or.inl (by simpa using hr)⟩
    · rename_i htip
      obtain ⟨forks, ok, f1, f2, f3, f4⟩ := forked_spec inv (b := b) (mem_path hpm)
      rw [f1]
      cases ok with
      | false =>
        refine Or.inr ⟨_, false, rfl, f2, fun _ => ⟨forks, rfl⟩, by simp, fun _ p' hp' hf hor => ?_⟩
        rw [hno hfind p' hp' hf] at hor
        rcases hor with h | ⟨h1, h2, h3⟩
        · rw [hph] at htip; exact absurd h htip
        · exact f4 h1 h2 h3
      | true =>
        simp only
        by_cases hr : b.byReg = true
        · obtain ⟨st', h1, h2⟩ := addIndex_spec (inp := inp) f2 (mem_path hpm) hfits hr hb'
          rw [h1]
          exact Or.inr ⟨st', true, rfl, h2.inv, by simp, fun _ => ⟨hb', p.path, mem_path hpm, hfits,
            ⟨h2.inv, h2.skel, h2.orphans, h2.kept, h2.best⟩⟩, fun _ _ _ _ _ => rfl⟩
        · rw [addIndex_stop hfits (by simpa using hr)]
          exact Or.inl ⟨rfl, h0, Or.inl (by simpa using hr)⟩

/-! ## Orphans -/

/-- The three collections of orphans agree, are bounded, and no orphan's predecessor is known unless it is in the queue `q`. -/
structure Pool (q : List Nat) (st : St) : Prop where
  same : st.byPrev = st.orphans
  nodup : (st.orphans.map (·.hash)).Nodup
  sub : ∀ x ∈ st.oset, x ∈ st.orphans
  bound : st.orphans.length ≤ maxOrphans + 1
  full : st.orphans.length = maxOrphans + 1 → st.oset ≠ []
  waiting : ∀ o ∈ st.orphans, has st.idx o.prev = true → o.prev ∈ q
  fresh : ∀ o ∈ st.orphans, has st.idx o.hash = false

/-- At rest the active chain is the best candidate, unless a protected block holds it. -/
def AtBest (inp : Inputs) (st : St) : Prop :=
  (∃ h, ∃ q ∈ skel st.idx, ∃ x ∈ st.active, x.hash ∈ inp.prot h ∧ x ∉ q) ∨ ∃ n, best st.idx = some n ∧ st.active = n.path ∧ st.most = st.active

/-- What a step does to index and active chain. -/
structure Step (inp : Inputs) (s t : St) : Prop where
  grow : skel s.idx <:+ skel t.idx
  kept : ∀ x ∈ s.active, (∀ h, x.hash ∈ inp.prot h) → x ∈ t.active
  best : (t.idx = s.idx ∧ t.active = s.active ∧ t.most = s.most) ∨ AtBest inp t

theorem Step.refl (inp : Inputs) (s : St) : Step inp s s := ⟨List.suffix_refl _, fun _ h _ => h, Or.inl ⟨rfl, rfl, rfl⟩⟩

theorem Step.trans {inp : Inputs} {s t u : St} (h1 : Step inp s t) (h2 : Step inp t u) : Step inp s u := by
  refine ⟨h1.grow.trans h2.grow, fun x hx hp => h2.kept x (h1.kept x hx hp) hp, ?_⟩
  rcases h2.best with ⟨a, b, m⟩ | h
  · rcases h1.best with ⟨c, d, m'⟩ | h
    · exact Or.inl ⟨a.trans c, b.trans d, m.trans m'⟩
    · right
      unfold AtBest at h ⊢
      rwa [a, b, m]
  · exact Or.inr h

theorem has_grow {idx idx' : List Node} (h : skel idx <:+ skel idx') {x : Nat} (hx : has idx x = true) : has idx' x = true := by
  obtain ⟨p, hp, e⟩ := has_iff.1 hx
  exact has_iff.2 ⟨p, h.subset hp, e⟩

theorem accept_step {e : Env} {inp : Inputs} {st st' : St} {b : Blk} {ok : Bool}
    (h1 : ok = false → ∃ forks, st' = { st with forks := forks })
    (h2 : ok = true → has st.idx b.hash = false ∧ ∃ p ∈ skel st.idx, Fits e b p ∧ Added e inp b p st st') :
    Step inp st st' ∧ (st'.orphans = st.orphans ∧ st'.byPrev = st.byPrev ∧ st'.oset = st.oset) ∧
      ∀ x, has st'.idx x = true → has st.idx x = true ∨ (ok = true ∧ x = b.hash) := by
  cases ok with
  | false =>
    obtain ⟨forks, rfl⟩ := h1 rfl
    exact ⟨⟨List.suffix_refl _, fun _ h _ => h, Or.inl ⟨rfl, rfl, rfl⟩⟩, ⟨rfl, rfl, rfl⟩, fun x hx => Or.inl hx⟩
  | true =>
    obtain ⟨-, p, hp, -, ha⟩ := h2 rfl
    refine ⟨⟨by rw [ha.skel]; exact List.suffix_cons _ _, fun x hx hpr => ha.kept x hx (hpr _), Or.inr ?_⟩, ha.orphans, ?_⟩
    · rcases ha.best with ⟨q, hq, x, hx, h3, h4⟩ | h
      · exact Or.inl ⟨b.hash, q, hq, x, hx, h3, h4⟩
      · exact Or.inr h
    · intro x hx
      obtain ⟨q, hq, he⟩ := has_iff.1 hx
      rw [ha.skel] at hq
      rcases List.mem_cons.1 hq with rfl | hq
      · right; exact ⟨rfl, by simpa [tipHash_cons] using he.symm⟩
      · left; exact has_iff.2 ⟨q, hq, he⟩

theorem kids_spec {e : Env} {inp : Inputs} {ks : List Blk} {st : St} (inv : Inv e st) (hk : ∀ k ∈ ks, has st.idx k.prev = true) :
    (kids e inp st ks = none ∧ ∃ k ∈ ks, k.height ≠ 0 ∧ k.byReg = false) ∨
    ∃ s hs, kids e inp st ks = some (s, hs) ∧ Inv e s ∧ Step inp st s ∧
      s.orphans = st.orphans.filter (fun x => !(ks.any fun k => k.hash == x.hash)) ∧ s.byPrev = st.byPrev ∧
      s.oset = st.oset.filter (fun x => !(ks.any fun k => i32 k.height == i32 x.height)) ∧
      (∀ x, has s.idx x = true → has st.idx x = true ∨ x ∈ hs) ∧ (∀ x ∈ hs, x ∈ ks.map (·.hash) ∧ has s.idx x = true) ∧ hs.length ≤ ks.length := by
  induction ks generalizing st with
  | nil =>
    refine Or.inr ⟨st, [], rfl, inv, Step.refl _ _, ?_, rfl, ?_, fun x hx => Or.inl hx, by simp, by simp⟩
    · symm; rw [List.filter_eq_self]; simp
    · symm; rw [List.filter_eq_self]; simp
  | cons k ks ih =>
    unfold kids
    rcases accept_spec (inp := inp) inv k with ⟨h1, h2, h3⟩ | ⟨st1, ok, h1, h2, h3, h4, -⟩
    · rw [h1]
      refine Or.inl ⟨rfl, k, by simp, h2, ?_⟩
      rcases h3 with h3 | h3
      · exact h3
      · rw [hk k (by simp)] at h3; simp at h3
    · rw [h1]
      simp only
      obtain ⟨g1, ⟨g2, g3, g4⟩, g5⟩ := accept_step h3 h4
      set st2 : St := { st1 with oset := oerase k st1.oset, orphans := st1.orphans.filter fun x => x.hash != k.hash } with hst2
      have inv2 : Inv e st2 := ⟨h2.tree, h2.flags, h2.act, h2.sound, h2.most, h2.forks⟩
      have step2 : Step inp st st2 := ⟨g1.grow, g1.kept, g1.best⟩
      rcases ih inv2 (fun x hx => has_grow g1.grow (hk x (by simp [hx]))) with ⟨i1, x, i2, i3⟩ | ⟨s, hs, i1, i2, i3, i4, i5, i6, i7, i8, i9⟩
      · rw [i1]
        exact Or.inl ⟨rfl, x, by simp [i2], i3⟩
      · rw [i1]
        refine Or.inr ⟨s, _, rfl, i2, step2.trans i3, ?_, i5.trans g3, ?_, ?_, ?_, ?_⟩
        · rw [i4]
          show (st1.orphans.filter fun x => x.hash != k.hash).filter _ = _
          rw [List.filter_filter, g2]
          apply List.filter_congr
          intro x _
          simp only [List.any_cons, Bool.not_or]
          rw [Bool.and_comm]
          congr 1
          rw [Bool.beq_comm]; rfl
        · rw [i6]
          show (oerase k st1.oset).filter _ = _
          unfold oerase
          rw [List.filter_filter, g4]
          apply List.filter_congr
          intro x _
          simp only [List.any_cons, Bool.not_or]
          rw [Bool.and_comm]
          congr 1
          rw [Bool.beq_comm]; rfl
        · intro x hx
          rcases i7 x hx with h | h
          · rcases g5 x h with h | ⟨rfl, rfl⟩
            · exact Or.inl h
            · right; simp
          · right; split
            · exact List.mem_cons_of_mem _ h
            · exact h
        · intro x hx
          split at hx
          · rename_i hok
            rcases List.mem_cons.1 hx with rfl | hx
            · refine ⟨by simp, has_grow i3.grow ?_⟩
              obtain ⟨-, p, -, -, ha⟩ := h4 hok
              exact has_iff.2 ⟨k :: p, by show _ ∈ skel st1.idx; rw [ha.skel]; simp, rfl⟩
            · exact ⟨List.mem_cons_of_mem _ (i8 x hx).1, (i8 x hx).2⟩
          · exact ⟨List.mem_cons_of_mem _ (i8 x hx).1, (i8 x hx).2⟩
        · split <;> simp only [List.length_cons] <;> omega

theorem filter_same {l : List Blk} (hd : (l.map (·.hash)).Nodup) (h : Nat) :
    l.filter (fun x => !((l.filter fun y => y.prev == h).any fun k => k.hash == x.hash)) = l.filter (fun x => x.prev != h) := by
  apply List.filter_congr
  intro x hx
  rw [Bool.eq_iff_iff]
  simp only [Bool.not_eq_true', List.any_eq_false, List.mem_filter, beq_iff_eq, bne_iff_ne]
  constructor
  · intro hall he
    exact hall x ⟨hx, he⟩ rfl
  · rintro hne y ⟨hy, hyp⟩ he
    have := inj_of_nodup_map hd hy hx he
    rw [this] at hyp
    exact hne hyp

theorem resolve_spec {e : Env} {inp : Inputs} {fuel : Nat} {st : St} {q : List Nat} (inv : Inv e st) (pool : Pool q st)
    (hq : ∀ h ∈ q, has st.idx h = true) (hf : st.byPrev.length + q.length ≤ fuel) :
    (resolve e inp fuel st q = none ∧ ∃ k ∈ st.orphans, k.height ≠ 0 ∧ k.byReg = false) ∨
    ∃ s, resolve e inp fuel st q = some s ∧ Inv e s ∧ Pool [] s ∧ Step inp st s ∧ (∀ x ∈ s.orphans, x ∈ st.orphans) := by
  induction fuel generalizing st q with
  | zero =>
    have : q = [] := List.length_eq_zero_iff.1 (by omega)
    subst this
    exact Or.inr ⟨st, rfl, inv, pool, Step.refl _ _, fun _ h => h⟩
  | succ fuel ih =>
    cases q with
    | nil => exact Or.inr ⟨st, by unfold resolve; rfl, inv, pool, Step.refl _ _, fun _ h => h⟩
    | cons h q =>
      unfold resolve
      have hkids : ∀ k ∈ st.byPrev.filter fun x => x.prev == h, has st.idx k.prev = true := by
        intro k hk
        have := (List.mem_filter.1 hk).2
        simp only [beq_iff_eq] at this
        rw [this]; exact hq h (by simp)
      rcases kids_spec (inp := inp) inv hkids with ⟨k1, x, k2, k3⟩ | ⟨s, hs, k1, k2, k3, k4, k5, k6, k7, k8, k9⟩
      · rw [k1]
        exact Or.inl ⟨rfl, x, by rw [← pool.same]; exact List.mem_of_mem_filter k2, k3⟩
      · rw [k1]
        simp only
        rw [pool.same, filter_same pool.nodup] at k4
        have hlen : (st.byPrev.filter fun x => x.prev == h).length + (st.byPrev.filter fun x => x.prev != h).length = st.byPrev.length := by
          rw [← List.countP_eq_length_filter, ← List.countP_eq_length_filter]
          have := List.length_eq_countP_add_countP (p := fun x : Blk => x.prev == h) (l := st.byPrev)
          rw [this]
          congr 1
          apply List.countP_congr
          intro x _
          simp
        have hsubl : List.Sublist (st.orphans.filter fun x => x.prev != h) st.orphans := List.filter_sublist
        have pool2 : Pool (q ++ hs) { s with byPrev := s.byPrev.filter fun x => x.prev != h } := by
          constructor
          · simp only
            rw [k4, k5, pool.same]
          · show (s.orphans.map (·.hash)).Nodup
            rw [k4]
            exact pool.nodup.sublist (hsubl.map _)
          · intro x hx
            show x ∈ s.orphans
            change x ∈ s.oset at hx
            rw [k6, List.mem_filter] at hx
            rw [k4, List.mem_filter]
            refine ⟨pool.sub x hx.1, ?_⟩
            simp only [bne_iff_ne, ne_eq]
            intro hxp
            have h2 := hx.2
            simp only [Bool.not_eq_true', List.any_eq_false, List.mem_filter, beq_iff_eq] at h2
            exact h2 x ⟨by rw [pool.same]; exact pool.sub x hx.1, hxp⟩ rfl
          · show s.orphans.length ≤ _
            rw [k4]
            have := hsubl.length_le
            have := pool.bound
            omega
          · intro hl
            change s.orphans.length = _ at hl
            show s.oset ≠ []
            have hb := pool.bound
            have hle := hsubl.length_le
            rw [k4] at hl
            have hall : st.orphans.length = maxOrphans + 1 := by omega
            have heq := hsubl.eq_of_length (by omega)
            have hnil : (st.byPrev.filter fun x => x.prev == h) = [] := by
              rw [List.filter_eq_nil_iff, pool.same]
              intro x hx hc
              rw [← heq, List.mem_filter] at hx
              simp only [beq_iff_eq] at hc
              simp [hc] at hx
            rw [k6, hnil]
            simp only [List.any_nil, Bool.not_false, List.filter_true]
            exact pool.full hall
          · intro o ho hhas
            change o ∈ s.orphans at ho
            rw [k4, List.mem_filter] at ho
            rcases k7 _ hhas with h1 | h1
            · have := pool.waiting o ho.1 h1
              rcases List.mem_cons.1 this with h2 | h2
              · have h3 := ho.2
                simp [h2] at h3
              · exact List.mem_append_left _ h2
            · exact List.mem_append_right _ h1
          · intro o ho
            change o ∈ s.orphans at ho
            rw [k4, List.mem_filter] at ho
            by_contra hcon
            rcases k7 o.hash (by simpa using hcon) with h1 | h1
            · rw [pool.fresh o ho.1] at h1; simp at h1
            · obtain ⟨y, hy, he⟩ := List.mem_map.1 (k8 _ h1).1
              rw [List.mem_filter, pool.same] at hy
              have := inj_of_nodup_map pool.nodup hy.1 ho.1 he
              rw [this] at hy
              have h3 := ho.2
              simp at hy
              simp [hy.2] at h3
        have inv2 : Inv e { s with byPrev := s.byPrev.filter fun x => x.prev != h } :=
          ⟨k2.tree, k2.flags, k2.act, k2.sound, k2.most, k2.forks⟩
        have hq2 : ∀ x ∈ q ++ hs, has s.idx x = true := by
          intro x hx
          rcases List.mem_append.1 hx with hx | hx
          · exact has_grow k3.grow (hq x (by simp [hx]))
          · exact (k8 x hx).2
        have hfu : (s.byPrev.filter fun x => x.prev != h).length + (q ++ hs).length ≤ fuel := by
          rw [k5, List.length_append]
          simp only [List.length_cons] at hf
          omega
        have hsub : ∀ x ∈ s.orphans, x ∈ st.orphans := by
          intro x hx
          rw [k4] at hx
          exact List.mem_of_mem_filter hx
        rcases ih inv2 pool2 hq2 hfu with ⟨i1, x, i2, i3⟩ | ⟨t, i1, i2, i3, i4, i5⟩
        · exact Or.inl ⟨i1, x, hsub x i2, i3⟩
        · exact Or.inr ⟨t, i1, i2, i3, k3.trans ⟨i4.grow, i4.kept, i4.best⟩, fun x hx => hsub x (i5 x hx)⟩

end Verif.Intake
