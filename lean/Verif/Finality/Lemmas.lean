import Verif.Finality.Model

/-! # Lemmas about finality -/
namespace Verif.Finality
open Verif.Chain

variable {t : Tree}

abbrev W (t : Tree) : Prop := WF t (fun _ => True)

theorem onChain_iff (wf : W t) (p b : Ptr) : onChain t p b = true ↔ Anc t b p := by
  rw [anc_at wf (p := p) trivial]; simp [onChain]

theorem at_some (wf : W t) {s : St} {h : Nat} {b : Ptr} (e : s.at t h = some b) : Anc t b s.tip ∧ t.height b = h := by
  unfold St.at ancestorAt at e
  split at e
  · exact ⟨⟨_, e⟩, by have := (up_some wf (p := s.tip) trivial e).2; omega⟩
  · cases e

theorem at_of (wf : W t) {s : St} {b : Ptr} (h : Anc t b s.tip) : s.at t (t.height b) = some b :=
  (anc_at wf (p := s.tip) trivial).1 h

theorem at_ok (wf : W t) (s : St) {h : Nat} (hh : h ≤ t.height s.tip) : ∃ b, s.at t h = some b := by
  obtain ⟨q, e, _⟩ := up_ok wf (p := s.tip) trivial (k := t.height s.tip - h) (by omega)
  exact ⟨q, by unfold St.at ancestorAt; rw [if_pos hh]; exact e⟩

theorem anc_height (wf : W t) {b p : Ptr} (h : Anc t b p) : t.height b ≤ t.height p := by
  obtain ⟨k, hk⟩ := h
  have := (up_some wf (p := p) trivial hk).2
  omega

theorem anc_eq (wf : W t) {b c p : Ptr} (hb : Anc t b p) (hc : Anc t c p) (h : t.height b = t.height c) : b = c := by
  have h1 := (anc_at wf (p := p) trivial).1 hb
  have h2 := (anc_at wf (p := p) trivial).1 hc
  rw [h, h2] at h1
  exact (Option.some.inj h1).symm

/-- Same state except for the local final block and the cached hash. -/
structure Alike (s s' : St) : Prop where
  tip : s'.tip = s.tip
  glob : s'.glob = s.glob
  stored : s'.stored = s.stored
  confirms : s'.confirms = s.confirms
  finals : s'.finals = s.finals
  lists : s'.lists = s.lists

theorem Alike.refl (s : St) : Alike s s := ⟨rfl, rfl, rfl, rfl, rfl, rfl⟩

theorem Alike.trans {a b c : St} (h : Alike a b) (k : Alike b c) : Alike a c :=
  ⟨k.1.trans h.1, k.2.trans h.2, k.3.trans h.3, k.4.trans h.4, k.5.trans h.5, k.6.trans h.6⟩

/-- The invariant of a node. -/
structure Inv (t : Tree) (s : St) : Prop where
  storedOn : ∀ B, s.stored = some B → Anc t B s.tip
  glob : ∀ G, s.glob = some G → s.stored = some G
  cache : s.glob = none → ∀ x, s.cache = some x → s.stored = some x ∨ s.stored = none
  locOn : ∀ L, s.loc = some L → Anc t L s.tip
  low : s.glob = none → ∀ B, s.stored = some B → ∀ c, (s.finals c ≠ none ∨ s.confirms c ≠ none) → Anc t c s.tip →
    t.height B ≤ t.height c

theorem globHash_alike (s : St) : Alike s (s.globHash t).2 ∧ (s.globHash t).2.loc = s.loc := by
  unfold St.globHash
  split
  · exact ⟨Alike.refl s, rfl⟩
  · split
    · exact ⟨Alike.refl s, rfl⟩
    · split
      · exact ⟨⟨rfl, rfl, rfl, rfl, rfl, rfl⟩, rfl⟩
      · split
        · exact ⟨⟨rfl, rfl, rfl, rfl, rfl, rfl⟩, rfl⟩
        · exact ⟨Alike.refl s, rfl⟩

theorem globHash_inv {s : St} (h : Inv t s) : Inv t (s.globHash t).2 := by
  unfold St.globHash
  split
  · exact h
  · split
    · exact h
    · split
      · rename_i hs
        exact ⟨h.storedOn, h.glob, fun _ x hx => Or.inl (by cases hx; exact hs), h.locOn, h.low⟩
      · rename_i hs
        split
        · exact ⟨h.storedOn, h.glob, fun _ x hx => Or.inr hs, h.locOn, h.low⟩
        · exact h

theorem globHash_stored {s : St} (h : Inv t s) {B : Ptr} (hB : s.stored = some B) : (s.globHash t).1 = some B := by
  unfold St.globHash
  split
  · rename_i G hg
    have := h.glob G hg
    rw [hB] at this; exact this.symm
  · rename_i hg
    split
    · rename_i x hx
      rcases h.cache hg x hx with e | e
      · rw [hB] at e; exact e.symm
      · rw [hB] at e; cases e
    · simp [hB]

theorem setLoc_inv (wf : W t) {s : St} (h : Inv t s) : Inv t { s with loc := s.at t 0 } :=
  ⟨h.storedOn, h.glob, h.cache, fun L hL => (at_some (h := 0) wf (s := s) hL).1, h.low⟩

theorem guardWalk_spec (wf : W t) (most : Ptr) (stale : Bool) : ∀ (n : Nat) (s : St), Inv t s → n ≤ t.height s.tip + 1 →
    let r := guardWalk t most stale n s
    Inv t r.2 ∧ Alike s r.2 ∧
    (r.1 = .proceed → (∀ B, s.stored = some B → t.height B < n → Anc t B most) ∧
      (∀ L, r.2.loc = some L → t.height L < n → Anc t L most ∨ t.height L = 0) ∧
      (∀ L, r.2.loc = some L → s.loc = some L ∨ t.height L = 0))
  | 0, s, hi, _ => by
    refine ⟨hi, Alike.refl s, fun _ => ⟨fun _ _ h => absurd h (by omega), fun _ _ h => absurd h (by omega), fun L hL => Or.inl hL⟩⟩
  | h + 1, s, hi, hn => by
    obtain ⟨c, hc⟩ := at_ok wf s (h := h) (by omega)
    obtain ⟨hca, hch⟩ := at_some wf hc
    simp only [guardWalk, hc]
    by_cases h1 : onChain t most c = true
    · rw [if_pos h1]
      have hcm := (onChain_iff wf most c).1 h1
      refine ⟨hi, Alike.refl s, fun _ => ⟨fun B hB hl => ?_, fun L hL hl => ?_, fun L hL => Or.inl hL⟩⟩
      · exact anc_trans (anc_of_anc wf (p := s.tip) trivial (hi.storedOn B hB) hca (by omega)) hcm
      · exact Or.inl (anc_trans (anc_of_anc wf (p := s.tip) trivial (hi.locOn L hL) hca (by omega)) hcm)
    · rw [if_neg h1]
      by_cases h2 : s.locFin t = some c ∧ stale = false
      · rw [if_pos h2]
        exact ⟨hi, Alike.refl s, fun hh => by cases hh⟩
      · rw [if_neg h2]
        -- the state after a possible timeout
        have hs1 : ∃ s1, s1 = (if s.locFin t = some c then { s with loc := s.at t 0 } else s) ∧ Inv t s1 ∧ Alike s s1 ∧
            (∀ L, s1.loc = some L → (s.loc = some L ∧ L ≠ c) ∨ t.height L = 0) := by
          by_cases h3 : s.locFin t = some c
          · refine ⟨_, (if_pos h3).symm, setLoc_inv wf hi, ⟨rfl, rfl, rfl, rfl, rfl, rfl⟩, fun L hL => Or.inr ?_⟩
            exact (at_some (h := 0) wf (s := s) hL).2
          · refine ⟨_, (if_neg h3).symm, hi, Alike.refl s, fun L hL => Or.inl ⟨hL, ?_⟩⟩
            rintro rfl
            apply h3; simp [St.locFin, hL]
        obtain ⟨s1, e1, i1, a1, l1⟩ := hs1
        rw [← e1]
        have i2 := globHash_inv i1
        obtain ⟨a2, l2⟩ := globHash_alike (t := t) s1
        by_cases h4 : (s1.globHash t).1 = some c
        · rw [if_pos h4]
          exact ⟨i2, a1.trans a2, fun hh => by cases hh⟩
        · rw [if_neg h4]
          have a12 := a1.trans a2
          obtain ⟨i3, a3, p3⟩ := guardWalk_spec wf most stale h (s1.globHash t).2 i2 (by rw [a12.tip]; omega)
          refine ⟨i3, a12.trans a3, fun hp => ?_⟩
          obtain ⟨q1, q2, q3⟩ := p3 hp
          refine ⟨fun B hB hl => ?_, fun L hL hl => ?_, fun L hL => ?_⟩
          · by_cases hbh : t.height B = h
            · exfalso
              apply h4
              have hbc : B = c := anc_eq wf (hi.storedOn B hB) hca (by omega)
              rw [← hbc]
              exact globHash_stored i1 (by rw [a1.stored]; exact hB)
            · exact q1 B (by rw [a12.stored]; exact hB) (by omega)
          · by_cases hlh : t.height L = h
            · right
              rcases q3 L hL with e | e
              · rw [l2] at e
                rcases l1 L e with ⟨e', e''⟩ | e'
                · exact absurd (anc_eq wf (hi.locOn L e') hca (by omega)) e''
                · exact e'
              · exact e
            · exact q2 L hL (by omega)
          · rcases q3 L hL with e | e
            · rw [l2] at e
              rcases l1 L e with ⟨e', _⟩ | e'
              · exact Or.inl e'
              · exact Or.inr e'
            · exact Or.inr e

theorem anc_prev {p q : Ptr} (h : t.prev p = some q) : Anc t q p := ⟨1, by simp [up, h]⟩

theorem disconnect_spec (wf : W t) (most : Ptr) : ∀ (fuel ok : Nat) (p : Ptr),
    let d := disconnect t most fuel ok p
    Anc t d.2 p ∧ (d.1 = true → Anc t d.2 most) ∧ ∀ B, Anc t B p → (Anc t B most ∨ t.height B = 0) → Anc t B d.2
  | 0, ok, p => ⟨anc_refl t p, fun h => (by cases h), fun B hB _ => hB⟩
  | fuel + 1, ok, p => by
    simp only [disconnect]
    by_cases h : onChain t most p = true
    · rw [if_pos h]
      exact ⟨anc_refl t p, fun _ => (onChain_iff wf most p).1 h, fun B hB _ => hB⟩
    · rw [if_neg h]
      split
      · rename_i k q hq
        obtain ⟨a, b, c⟩ := disconnect_spec wf most fuel k q
        refine ⟨anc_trans a (anc_prev hq), b, fun B hB hm => ?_⟩
        apply c B _ hm
        have hne : t.height B ≠ t.height p := by
          intro he
          have hbp : B = p := anc_eq wf hB (anc_refl t p) he
          subst hbp
          rcases hm with hm | hm
          · exact h ((onChain_iff wf most B).2 hm)
          · have := wf.height_succ B q trivial hq; omega
        have h1 := anc_height wf hB
        have h2 := wf.height_succ p q trivial hq
        exact anc_of_anc wf (p := p) trivial hB (anc_prev hq) (by omega)
      · exact ⟨anc_refl t p, fun h => (by cases h), fun B hB _ => hB⟩

theorem connect_spec (wf : W t) (most : Ptr) : ∀ (k : Nat) (p : Ptr), Anc t p most →
    Anc t p (connect t most k p) ∧ Anc t (connect t most k p) most
  | 0, p, h => ⟨anc_refl t p, h⟩
  | k + 1, p, h => by
    simp only [connect]
    split
    · exact ⟨anc_refl t p, h⟩
    · split
      · exact ⟨anc_refl t p, h⟩
      · rename_i q hq
        have hq' : Anc t q most ∧ t.height q = t.height p + 1 := by
          unfold ancestorAt at hq
          split at hq
          · exact ⟨⟨_, hq⟩, by have := (up_some wf (p := most) trivial hq).2; omega⟩
          · cases hq
        obtain ⟨a, b⟩ := connect_spec wf most k q hq'.1
        exact ⟨anc_trans (anc_of_anc wf (p := most) trivial h hq'.1 (by omega)) a, b⟩

/-- Moving the tip to a block that keeps the final blocks keeps the invariant. -/
theorem setTip_inv (wf : W t) {s : St} (h : Inv t s) (p : Ptr) (h1 : ∀ B, s.stored = some B → Anc t B p)
    (h2 : ∀ L, s.loc = some L → Anc t L p) : Inv t (setTipTo s p) := by
  refine ⟨h1, h.glob, h.cache, h2, ?_⟩
  intro hg B hB c hc hca
  by_contra hlt
  have hlt' : t.height c ≤ t.height B := by omega
  have hcB := anc_of_anc wf (p := p) trivial hca (h1 B hB) hlt'
  exact hlt (h.low hg B hB c hc (anc_trans hcB (h.storedOn B hB)))

theorem activate_spec (wf : W t) (new : Ptr) (finOK : Bool) : ∀ (rs : List Round) (s : St), Inv t s →
    Inv t (activate t new finOK rs s) ∧ (activate t new finOK rs s).stored = s.stored ∧
    (activate t new finOK rs s).glob = s.glob ∧ (activate t new finOK rs s).confirms = s.confirms ∧
    (activate t new finOK rs s).finals = s.finals ∧ (activate t new finOK rs s).lists = s.lists
  | [], s, h => ⟨h, rfl, rfl, rfl, rfl, rfl⟩
  | r :: rs, s, h => by
    obtain ⟨i1, a1, p1⟩ := guardWalk_spec wf r.most r.stale (t.height s.tip + 1) s h (Nat.le_refl _)
    simp only [activate]
    rcases hg : guardWalk t r.most r.stale (t.height s.tip + 1) s with ⟨v, s1⟩
    rw [hg] at i1 a1 p1
    dsimp only at i1 a1 p1
    cases v with
    | done => exact ⟨i1, a1.stored, a1.glob, a1.confirms, a1.finals, a1.lists⟩
    | protect =>
      dsimp only
      split
      · rename_i hc
        have := anc_prev hc.1
        exact ⟨setTip_inv wf i1 new (fun B hB => anc_trans (i1.storedOn B hB) this) (fun L hL => anc_trans (i1.locOn L hL) this),
          a1.stored, a1.glob, a1.confirms, a1.finals, a1.lists⟩
      · exact ⟨i1, a1.stored, a1.glob, a1.confirms, a1.finals, a1.lists⟩
    | proceed =>
      dsimp only
      obtain ⟨q1, q2, q3⟩ := p1 rfl
      obtain ⟨d1, d2, d3⟩ := disconnect_spec wf r.most (t.height s1.tip + 1) r.disc s1.tip
      have hB : ∀ B, s1.stored = some B → Anc t B (disconnect t r.most (t.height s1.tip + 1) r.disc s1.tip).2 := by
        intro B hB
        have hon := i1.storedOn B hB
        apply d3 B hon
        left
        apply q1 B (by rw [← a1.stored]; exact hB)
        have := anc_height wf hon
        rw [a1.tip] at this; omega
      have hL : ∀ L, s1.loc = some L → Anc t L (disconnect t r.most (t.height s1.tip + 1) r.disc s1.tip).2 := by
        intro L hL
        have hon := i1.locOn L hL
        apply d3 L hon
        apply q2 L hL
        have := anc_height wf hon
        rw [a1.tip] at this; omega
      split
      · rename_i hd
        obtain ⟨c1, c2⟩ := connect_spec wf r.most r.conn _ (d2 hd)
        have i2 := setTip_inv wf i1 _ (fun B hb => anc_trans (hB B hb) c1) (fun L hl => anc_trans (hL L hl) c1)
        split
        · obtain ⟨e1, e2, e3, e4, e5, e6⟩ := activate_spec wf new finOK rs _ i2
          exact ⟨e1, e2.trans a1.stored, e3.trans a1.glob, e4.trans a1.confirms, e5.trans a1.finals, e6.trans a1.lists⟩
        · exact ⟨i2, a1.stored, a1.glob, a1.confirms, a1.finals, a1.lists⟩
      · exact ⟨setTip_inv wf i1 _ hB hL, a1.stored, a1.glob, a1.confirms, a1.finals, a1.lists⟩

/-! ## Updates -/

theorem updLocal_some {s s' : St} {h : Nat} (e : updLocal t s h = some s') :
    ∃ b, s.at t h = some b ∧ s' = { s with loc := some b } := by
  unfold updLocal at e
  split at e
  · cases e
  · split at e
    · cases e
    · split at e
      · cases e
      · rename_i b hb; cases e; exact ⟨b, hb, rfl⟩

theorem updLocal_inv (wf : W t) {s s' : St} {h : Nat} (hi : Inv t s) (e : updLocal t s h = some s') : Inv t s' := by
  obtain ⟨b, hb, rfl⟩ := updLocal_some e
  exact ⟨hi.storedOn, hi.glob, hi.cache, fun L hL => by cases hL; exact (at_some wf hb).1, hi.low⟩

theorem updGlobal_some {s s' : St} {h : Nat} (e : updGlobal t s h = some s') :
    ∃ b g, s.at t h = some b ∧ s.globFin t = some g ∧ t.height g < h ∧
      s' = { s with glob := some b, cache := some b, stored := some b } := by
  unfold updGlobal at e
  split at e
  · rename_i l old h1 h2
    split at e
    · cases e
    · split at e
      · cases e
      · rename_i hh
        split at e
        · cases e
        · split at e
          · cases e
          · rename_i b hb
            cases e
            exact ⟨b, old, hb, h2, by omega, rfl⟩
  · cases e

/-- A new final block with messages descends from the old one. -/
theorem updGlobal_inv (wf : W t) {s s' : St} {h : Nat} {b : Ptr} (hi : Inv t s) (e : updGlobal t s h = some s')
    (hb : s.at t h = some b) (hm : s.finals b ≠ none) :
    Inv t s' ∧ s'.stored = some b ∧ ∀ B, s.stored = some B → Anc t B b := by
  obtain ⟨b', g, hb', hg, hgh, rfl⟩ := updGlobal_some e
  rw [hb] at hb'; cases hb'
  obtain ⟨ba, bh⟩ := at_some wf hb
  refine ⟨⟨fun B hB => by cases hB; exact ba, fun G hG => hG, fun hn => (by cases hn), hi.locOn, fun hn => (by cases hn)⟩, rfl, ?_⟩
  intro B hB
  apply anc_of_anc wf (p := s.tip) trivial (hi.storedOn B hB) ba
  cases hgl : s.glob with
  | none => exact hi.low hgl B hB b (Or.inl hm) ba
  | some G =>
    have := hi.glob G hgl
    rw [hB] at this; cases this
    simp only [St.globFin, hgl] at hg
    cases hg
    omega

theorem enough_store {store : Ptr → Option (List Msg)} {lists : Ptr → Option (List Nat)} {n : Nat} {b : Ptr}
    (h : enough t store lists n b = true) : store b ≠ none := by
  unfold enough at h
  split at h
  · cases h
  · split at h
    · rename_i hs _; rw [hs]; simp
    · cases h

theorem scanLocal_some {s s' : St} {n top : Nat} : ∀ {h : Nat}, scanLocal t s n top h = some s' →
    ∃ k b, s.at t k = some b ∧ enough t s.confirms s.lists n b = true ∧ updLocal t s k = some s'
  | 0, e => by cases e
  | h + 1, e => by
    simp only [scanLocal] at e
    split at e
    · cases e
    · split at e
      · split at e
        · cases e
        · rename_i b hb
          split at e
          · rename_i he; exact ⟨h + 1, b, hb, he, e⟩
          · exact scanLocal_some e
      · cases e

theorem scanGlobal_some {s s' : St} {n top : Nat} : ∀ {h : Nat}, scanGlobal t s n top h = some s' →
    ∃ k b, s.at t k = some b ∧ enough t s.finals s.lists n b = true ∧ updGlobal t s k = some s'
  | 0, e => by cases e
  | h + 1, e => by
    simp only [scanGlobal] at e
    split at e
    · cases e
    · split at e
      · split at e
        · cases e
        · rename_i b hb
          split at e
          · rename_i he; exact ⟨h + 1, b, hb, he, e⟩
          · exact scanGlobal_some e
      · cases e

theorem updLocalIdx_some {s s' : St} {dels : List Nat} {p : Ptr} (e : updLocalIdx t s dels p = some s') :
    ∃ q k b, t.prev p = some q ∧ s.at t k = some b ∧ enough t s.confirms s.lists (need s dels q) b = true ∧
      updLocal t s k = some s' := by
  unfold updLocalIdx at e
  split at e
  · cases e
  · split at e
    · cases e
    · rename_i q hq
      obtain ⟨k, b, h1, h2, h3⟩ := scanLocal_some e
      exact ⟨q, k, b, hq, h1, h2, h3⟩

theorem updGlobalIdx_some {s s' : St} {dels : List Nat} {p : Ptr} (e : updGlobalIdx t s dels p = some s') :
    ∃ q k b, t.prev p = some q ∧ s.at t k = some b ∧ enough t s.finals s.lists (need s dels q) b = true ∧
      updGlobal t s k = some s' := by
  unfold updGlobalIdx at e
  split at e
  · cases e
  · split at e
    · cases e
    · rename_i q hq
      obtain ⟨k, b, h1, h2, h3⟩ := scanGlobal_some e
      exact ⟨q, k, b, hq, h1, h2, h3⟩

theorem updLocalMsg_some (wf : W t) {s s' : St} {dels : List Nat} {m : Msg} {c : Nat} (e : updLocalMsg t s dels m c = some s') :
    s.at t m.height = some m.block ∧ enough t s.confirms s.lists (need s dels m.pre) m.block = true ∧
      updLocal t s m.height = some s' := by
  unfold updLocalMsg at e
  dsimp only at e
  split at e
  · cases e
  · split at e
    · cases e
    · split at e
      · cases e
      · split at e
        · cases e
        · rename_i b hb
          split at e
          · cases e
          · rename_i hbm
            split at e
            · rename_i he
              have hbm' : b = m.block := by simpa using hbm
              subst hbm'
              rw [(at_some wf hb).2] at e
              exact ⟨hb, he, e⟩
            · cases e

theorem updGlobalMsg_some (wf : W t) {s s' : St} {dels : List Nat} {m : Msg} {c : Nat} (e : updGlobalMsg t s dels m c = some s') :
    s.at t m.height = some m.block ∧ enough t s.finals s.lists (need s dels m.pre) m.block = true ∧
      updGlobal t s m.height = some s' := by
  unfold updGlobalMsg at e
  dsimp only at e
  split at e
  · cases e
  · split at e
    · cases e
    · split at e
      · cases e
      · split at e
        · cases e
        · rename_i b hb
          split at e
          · cases e
          · rename_i hbm
            split at e
            · rename_i he
              have hbm' : b = m.block := by simpa using hbm
              subst hbm'
              rw [(at_some wf hb).2] at e
              exact ⟨hb, he, e⟩
            · cases e

/-! ## Stores -/

theorem save_dom (store : Ptr → Option (List Msg)) (b : Ptr) (m : Msg) (x : Ptr) :
    (save store b m).1 x ≠ none ↔ store x ≠ none ∨ x = b := by
  unfold save
  cases hs : store b with
  | none =>
    by_cases hx : x = b
    · simp [hx]
    · simp [hx]
  | some ms =>
    by_cases hx : x = b
    · subst hx; simp
    · simp [hx]

theorem saveOwn_dom (b p : Ptr) (h : Nat) : ∀ (ds : List Nat) (store : Ptr → Option (List Msg)) (x : Ptr),
    saveOwn b p h ds store x ≠ none → store x ≠ none ∨ x = b
  | [], _, _, hx => Or.inl hx
  | d :: ds, store, x, hx => by
    rcases saveOwn_dom b p h ds _ x hx with h1 | h1
    · exact (save_dom _ _ _ _).1 h1
    · exact Or.inr h1

theorem sendConfirm_inv {s : St} (hi : Inv t s) (own : Option (List Nat)) (b : Ptr)
    (hb : s.glob = none → ∀ B, s.stored = some B → t.height B ≤ t.height b) : Inv t (sendConfirm t s own b) := by
  unfold sendConfirm
  split
  · refine ⟨hi.storedOn, hi.glob, hi.cache, hi.locOn, ?_⟩
    intro hg B hB c hc hca
    rcases hc with hc | hc
    · exact hi.low hg B hB c (Or.inl hc) hca
    · rcases saveOwn_dom _ _ _ _ _ _ hc with hc | rfl
      · exact hi.low hg B hB c (Or.inr hc) hca
      · exact hb hg B hB
  · exact hi

theorem sendFinality_inv {s : St} (hi : Inv t s) (own : Option (List Nat)) (b : Ptr)
    (hb : s.glob = none → ∀ B, s.stored = some B → t.height B ≤ t.height b) : Inv t (sendFinality t s own b) := by
  unfold sendFinality
  split
  · refine ⟨hi.storedOn, hi.glob, hi.cache, hi.locOn, ?_⟩
    intro hg B hB c hc hca
    rcases hc with hc | hc
    · rcases saveOwn_dom _ _ _ _ _ _ hc with hc | rfl
      · exact hi.low hg B hB c (Or.inl hc) hca
      · exact hb hg B hB
    · exact hi.low hg B hB c (Or.inr hc) hca
  · exact hi

/-- A message that passes the check is about the tip: the height test uses an unsigned difference. -/
theorem checkMsg_tip (wf : W t) {s : St} (hh : t.height s.tip < 2147483648) {m : Msg} {sig : Bool} (h : checkMsg t s m sig = true) :
    m.block = s.tip ∧ m.height = t.height s.tip ∧ sig = true := by
  rw [checkMsg] at h
  by_cases h1 : (m.height + 4294967296 - t.height s.tip) % 4294967296 > 500
  · rw [if_pos h1] at h; cases h
  · rw [if_neg h1] at h
    simp at h
    obtain ⟨_, h3, hs⟩ := h
    obtain ⟨ha, hb⟩ := at_some wf h3
    have hle := anc_height wf ha
    have he : m.height = t.height s.tip := by omega
    exact ⟨anc_eq wf ha (anc_refl t _) (by omega), he, hs⟩

theorem forget_inv {s s' : St} (hi : Inv t s) (h1 : s'.tip = s.tip) (h2 : s'.loc = s.loc) (h3 : s'.glob = s.glob)
    (h4 : s'.cache = s.cache) (h5 : s'.stored = s.stored)
    (h6 : ∀ c, (s'.finals c ≠ none ∨ s'.confirms c ≠ none) → (s.finals c ≠ none ∨ s.confirms c ≠ none)) : Inv t s' := by
  refine ⟨?_, ?_, ?_, ?_, ?_⟩
  · rw [h5, h1]; exact hi.storedOn
  · rw [h3, h5]; exact hi.glob
  · rw [h3, h4, h5]; exact hi.cache
  · rw [h2, h1]; exact hi.locOn
  · rw [h3, h5, h1]; intro hg B hB c hc hca; exact hi.low hg B hB c (h6 c hc) hca

end Verif.Finality
