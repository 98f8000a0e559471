import Verif.Net.Spec
import Mathlib.Tactic.Linarith

/-! # Lemmas: framing, handling, sending -/
namespace Verif.Net

theorem flat_nil : flat [] = [] := rfl
theorem flat_cons (f : Frame) (fs) : flat (f :: fs) = f.h ++ f.d ++ flat fs := by simp [flat]
theorem flat_append (a b : List Frame) : flat (a ++ b) = flat a ++ flat b := by simp [flat]

/-! ## Streams determine their frames -/

theorem tail_not_frame {f : Frame} (hf : f.Ok) {r t : List Nat} (hr : Tail r) (e : r = f.h ++ f.d ++ t) : False := by
  obtain ⟨h1, h2, h3⟩ := hf
  rcases hr with hr | ⟨h, d, e2, hh, hs, hd⟩
  · rw [e] at hr; simp at hr; omega
  · rw [e2, List.append_assoc] at e
    have := List.append_inj e (by omega)
    obtain ⟨ea, eb⟩ := this
    rw [ea] at hd; rw [eb] at hd; simp at hd; omega

theorem cut_unique : ∀ (fs fs' : List Frame) (r r' : List Nat), (∀ f ∈ fs, f.Ok) → (∀ f ∈ fs', f.Ok) → Tail r → Tail r' →
    flat fs ++ r = flat fs' ++ r' → fs = fs' ∧ r = r'
  | [], [], r, r', _, _, _, _, e => ⟨rfl, by simpa [flat] using e⟩
  | [], f :: fs', r, r', _, h', hr, _, e => by
    rw [flat_nil, flat_cons, List.nil_append, List.append_assoc] at e
    exact (tail_not_frame (h' f (by simp)) hr e).elim
  | f :: fs, [], r, r', h, _, _, hr', e => by
    rw [flat_nil, flat_cons, List.nil_append, List.append_assoc] at e
    exact (tail_not_frame (h f (by simp)) hr' e.symm).elim
  | f :: fs, g :: fs', r, r', h, h', hr, hr', e => by
    have hf := h f (by simp); have hg := h' g (by simp)
    rw [flat_cons, flat_cons] at e
    simp only [List.append_assoc] at e
    obtain ⟨ea, eb⟩ := List.append_inj e (by rw [hf.1, hg.1])
    obtain ⟨ec, ed⟩ := List.append_inj eb (by rw [hf.2.2, hg.2.2, ea])
    obtain ⟨ee, ef⟩ := cut_unique fs fs' r r' (fun x hx => h x (by simp [hx])) (fun x hx => h' x (by simp [hx])) hr hr' ed
    have : f = g := by cases f; cases g; simp_all
    exact ⟨by rw [this, ee], ef⟩

theorem cut_not_oversize : ∀ (fs fs' : List Frame) (r h t : List Nat), (∀ f ∈ fs, f.Ok) → (∀ f ∈ fs', f.Ok) → Tail r →
    h.length = 24 → hSize h > MAX_SIZE → flat fs ++ r ≠ flat fs' ++ (h ++ t)
  | [], [], r, h, t, _, _, hr, hl, hs, e => by
    rw [flat_nil, List.nil_append, List.nil_append] at e
    rcases hr with hr | ⟨h2, d, e2, hh, hs2, _⟩
    · rw [e] at hr; simp at hr; omega
    · rw [e2] at e
      obtain ⟨ea, _⟩ := List.append_inj e (by omega)
      rw [ea] at hs2; omega
  | [], f :: fs', r, h, t, _, h', hr, _, _, e => by
    rw [flat_nil, flat_cons, List.nil_append, List.append_assoc] at e
    exact tail_not_frame (h' f (by simp)) hr e
  | f :: fs, [], r, h, t, hh, _, _, hl, hs, e => by
    have hf := hh f (by simp)
    rw [flat_nil, flat_cons, List.nil_append] at e
    simp only [List.append_assoc] at e
    obtain ⟨ea, _⟩ := List.append_inj e (by rw [hf.1, hl])
    have := hf.2.1
    rw [ea] at this; omega
  | f :: fs, g :: fs', r, h, t, h1, h', hr, hl, hs, e => by
    have hf := h1 f (by simp); have hg := h' g (by simp)
    rw [flat_cons, flat_cons] at e
    simp only [List.append_assoc] at e
    obtain ⟨ea, eb⟩ := List.append_inj e (by rw [hf.1, hg.1])
    obtain ⟨ec, ed⟩ := List.append_inj eb (by rw [hf.2.2, hg.2.2, ea])
    exact cut_not_oversize fs fs' r h t (fun x hx => h1 x (by simp [hx])) (fun x hx => h' x (by simp [hx])) hr hl hs ed

/-! ## One round of the receive loop -/

theorem msgOf_complete {f : Frame} (h : f.Ok) : (msgOf f).complete = true := by
  simp [Msg.complete, msgOf, h.2.2]

def curMsg (r : List Nat) : Msg :=
  if r.length < 24 then ⟨false, r, 0, []⟩ else ⟨true, r.take 24, hSize (r.take 24), r.drop 24⟩

theorem tail_incomplete {r : List Nat} (hr : Tail r) : (curMsg r).complete = false := by
  unfold curMsg
  rcases hr with hr | ⟨h, d, e, hh, hs, hd⟩
  · simp [hr, Msg.complete]
  · have : ¬ r.length < 24 := by rw [e]; simp; omega
    rw [if_neg this]
    have e1 : r.take 24 = h := by rw [e, ← hh]; simp
    have e2 : r.drop 24 = d := by rw [e, ← hh]; simp
    simp [Msg.complete, e1, e2]; omega

theorem tailMsgs_eq (r : List Nat) : tailMsgs r = if r = [] then [] else [curMsg r] := by
  unfold tailMsgs curMsg
  split
  · rfl
  · split <;> rfl

theorem current_view {fs : List Frame} {r : List Nat} (hf : ∀ f ∈ fs, f.Ok) (hr : Tail r) :
    current (view fs r) = (fs.map msgOf, curMsg r) := by
  unfold current view
  rw [tailMsgs_eq]
  by_cases h0 : r = []
  · subst h0
    rw [if_pos rfl, List.append_nil]
    cases h : (fs.map msgOf).getLast? with
    | none => simp [curMsg, Msg.new]
    | some m =>
      have hm := List.mem_of_getLast? h
      obtain ⟨f, hf1, hf2⟩ := List.mem_map.mp hm
      have : m.complete = true := by rw [← hf2]; exact msgOf_complete (hf f hf1)
      simp [this, curMsg, Msg.new]
  · rw [if_neg h0]
    simp [tail_incomplete hr]

/-- A stretch of the stream taken in one round. -/
def Round (fs : List Frame) (r t : List Nat) (q : Option (List Msg)) : Prop :=
  (∃ fs' r', q = some (view fs' r') ∧ flat fs ++ r ++ t = flat fs' ++ r' ∧ (∀ f ∈ fs', f.Ok) ∧ Tail r' ∧ ∃ g, fs' = fs ++ g) ∨
  (q = none ∧ ∃ h, h.length = 24 ∧ hSize h > MAX_SIZE ∧ flat fs ++ r ++ t = flat fs ++ h)

theorem round_header {fs : List Frame} {r bs : List Nat} (hf : ∀ f ∈ fs, f.Ok) (hr : r.length < 24) (hb : bs ≠ []) :
    (∃ m n, readHeader (curMsg r) bs = some (m, n) ∧ 0 < n ∧ n ≤ bs.length ∧
        Round fs r (bs.take n) (some (fs.map msgOf ++ [m]))) ∨
    (readHeader (curMsg r) bs = none ∧ ∃ n, Round fs r (bs.take n) none) := by
  have hl : 0 < bs.length := List.length_pos_of_ne_nil hb
  have hc : curMsg r = ⟨false, r, 0, []⟩ := by simp [curMsg, hr]
  obtain ⟨n, hn⟩ : ∃ n, n = min (24 - r.length) bs.length := ⟨_, rfl⟩
  have hn0 : 0 < n := by omega
  have hlen : (r ++ bs.take n).length = r.length + n := by simp; omega
  rw [hc]
  unfold readHeader
  simp only [← hn]
  by_cases h1 : (r ++ bs.take n).length < 24
  · rw [if_pos h1]
    refine Or.inl ⟨_, _, rfl, hn0, by omega, Or.inl ⟨fs, r ++ bs.take n, ?_, by simp, hf, Or.inl h1, [], by simp⟩⟩
    have : r ++ bs.take n ≠ [] := by intro e; rw [e] at hlen; simp at hlen; omega
    simp only [view, tailMsgs]
    rw [if_neg this, if_pos h1]
  · rw [if_neg h1]
    have h24 : (r ++ bs.take n).length = 24 := by omega
    by_cases h2 : hSize (r ++ bs.take n) > MAX_SIZE
    · rw [if_pos h2]
      exact Or.inr ⟨rfl, n, Or.inr ⟨rfl, _, h24, h2, by simp⟩⟩
    · rw [if_neg h2]
      refine Or.inl ⟨_, _, rfl, hn0, by omega, Or.inl ?_⟩
      by_cases h3 : hSize (r ++ bs.take n) = 0
      · refine ⟨fs ++ [⟨r ++ bs.take n, []⟩], [], ?_, ?_, ?_, Or.inl (by simp), [_], rfl⟩
        · simp [view, tailMsgs, msgOf]
        · simp [flat_append, flat_cons, flat_nil]
        · intro f hf'
          rcases List.mem_append.mp hf' with h | h
          · exact hf f h
          · simp at h; subst h; exact ⟨h24, by simp only [h3]; exact Nat.zero_le _, by simp [h3]⟩
      · refine ⟨fs, r ++ bs.take n, ?_, by simp, hf, Or.inr ⟨_, [], by simp, h24, by omega, by simp; omega⟩, [], by simp⟩
        have : r ++ bs.take n ≠ [] := by intro e; rw [e] at h24; simp at h24
        simp only [view, tailMsgs]
        rw [if_neg this, if_neg h1]
        have e1 : (r ++ bs.take n).take 24 = r ++ bs.take n := List.take_of_length_le (by omega)
        have e2 : (r ++ bs.take n).drop 24 = [] := List.drop_of_length_le (by omega)
        rw [e1, e2]

theorem round_data {fs : List Frame} {r bs : List Nat} (hf : ∀ f ∈ fs, f.Ok) (hr : Tail r) (h24 : ¬ r.length < 24) (hb : bs ≠ []) :
    0 < (readData (curMsg r) bs).2 ∧ (readData (curMsg r) bs).2 ≤ bs.length ∧
      Round fs r (bs.take (readData (curMsg r) bs).2) (some (fs.map msgOf ++ [(readData (curMsg r) bs).1])) := by
  have hl : 0 < bs.length := List.length_pos_of_ne_nil hb
  rcases hr with hr | ⟨h, d, e, hh, hs, hd⟩
  · exact absurd hr h24
  · have e1 : r.take 24 = h := by rw [e, ← hh]; simp
    have e2 : r.drop 24 = d := by rw [e, ← hh]; simp
    have hc : curMsg r = ⟨true, h, hSize h, d⟩ := by simp [curMsg, h24, e1, e2]
    rw [hc]
    unfold readData
    dsimp only
    obtain ⟨n, hn⟩ : ∃ n, n = min (hSize h - d.length) bs.length := ⟨_, rfl⟩
    rw [← hn]
    have hlen : (d ++ bs.take n).length = d.length + n := by simp; omega
    refine ⟨by omega, by omega, Or.inl ?_⟩
    by_cases h3 : d.length + n = hSize h
    · refine ⟨fs ++ [⟨h, d ++ bs.take n⟩], [], ?_, ?_, ?_, Or.inl (by simp), [_], rfl⟩
      · simp [view, tailMsgs, msgOf]
      · simp [flat_append, flat_cons, flat_nil, e]
      · intro f hf'
        rcases List.mem_append.mp hf' with h' | h'
        · exact hf f h'
        · simp at h'; subst h'; exact ⟨hh, hs, by rw [hlen]; exact h3⟩
    · refine ⟨fs, r ++ bs.take n, ?_, by simp, hf, Or.inr ⟨h, d ++ bs.take n, by simp [e], hh, hs, by rw [hlen]; omega⟩, [], by simp⟩
      have hne : r ++ bs.take n ≠ [] := by
        intro e'; have := congrArg List.length e'; rw [e] at this; simp at this; simp [this] at hh
      have hl2 : ¬ (r ++ bs.take n).length < 24 := by simp; omega
      simp only [view, tailMsgs]
      rw [if_neg hne, if_neg hl2]
      have e3 : (r ++ bs.take n).take 24 = h := by rw [e, ← hh]; simp
      have e4 : (r ++ bs.take n).drop 24 = d ++ bs.take n := by rw [e, ← hh]; simp
      rw [e3, e4]

theorem receiveLoop_spec : ∀ (k : Nat) (fs : List Frame) (r bs : List Nat), bs.length ≤ k → (∀ f ∈ fs, f.Ok) → Tail r →
    (∃ fs' r', receiveLoop k (view fs r) bs = .ok (view fs' r') ∧ Cut (flat fs ++ r ++ bs) fs' r' ∧ ∃ g, fs' = fs ++ g) ∨
    (receiveLoop k (view fs r) bs = .refused ∧ Oversize (flat fs ++ r ++ bs))
  | k, fs, r, [], _, hf, hr => by
    left; exact ⟨fs, r, by unfold receiveLoop; rfl, ⟨by simp, hf, hr⟩, [], by simp⟩
  | 0, fs, r, b :: bs, h, _, _ => by simp at h
  | k + 1, fs, r, b :: bs, h, hf, hr => by
    have hb : b :: bs ≠ [] := by simp
    have fin : ∀ (m : Msg) (n : Nat), 0 < n → n ≤ (b :: bs).length →
        Round fs r ((b :: bs).take n) (some (fs.map msgOf ++ [m])) →
        (∃ fs' r', receiveLoop k (fs.map msgOf ++ [m]) ((b :: bs).drop n) = .ok (view fs' r') ∧
            Cut (flat fs ++ r ++ (b :: bs)) fs' r' ∧ ∃ g, fs' = fs ++ g) ∨
        (receiveLoop k (fs.map msgOf ++ [m]) ((b :: bs).drop n) = .refused ∧ Oversize (flat fs ++ r ++ (b :: bs))) := by
      intro m n hn0 hn1 hR
      rcases hR with ⟨fs', r', eq, est, hf', hr', g, hg⟩ | ⟨hc, _⟩
      · injection eq with eq
        rw [eq]
        have hs : flat fs' ++ r' ++ (b :: bs).drop n = flat fs ++ r ++ (b :: bs) := by
          rw [← est]; simp only [List.append_assoc, List.take_append_drop]
        rcases receiveLoop_spec k fs' r' ((b :: bs).drop n) (by simp at h ⊢; omega) hf' hr' with ⟨fs2, r2, e2, hc2, g2, hg2⟩ | ⟨e2, ho⟩
        · left; exact ⟨fs2, r2, e2, hs ▸ hc2, g ++ g2, by rw [hg2, hg, List.append_assoc]⟩
        · right; exact ⟨e2, hs ▸ ho⟩
      · cases hc
    unfold receiveLoop
    rw [current_view hf hr]
    dsimp only
    by_cases h24 : r.length < 24
    · have hi : (curMsg r).inData = false := by simp [curMsg, h24]
      rw [hi]
      rcases round_header hf h24 hb with ⟨m, n, e, hn0, hn1, hR⟩ | ⟨e, n, hR⟩
      · simp only [Bool.not_false, if_true, e]
        exact fin m n hn0 hn1 hR
      · simp only [Bool.not_false, if_true, e]
        right
        refine ⟨trivial, ?_⟩
        rcases hR with ⟨_, _, hc, _⟩ | ⟨_, h', hl', hs', est⟩
        · cases hc
        · refine ⟨fs, h', (b :: bs).drop n, ?_, hf, hl', hs'⟩
          rw [← List.append_assoc, ← est]; simp only [List.append_assoc, List.take_append_drop]
    · have hi : (curMsg r).inData = true := by simp [curMsg, h24]
      rw [hi]
      obtain ⟨hn0, hn1, hR⟩ := round_data hf hr h24 hb
      simp only [Bool.not_true, Bool.false_eq_true, if_false]
      exact fin _ _ hn0 hn1 hR

theorem receive_spec {fs : List Frame} {r : List Nat} (bs : List Nat) (hf : ∀ f ∈ fs, f.Ok) (hr : Tail r) :
    (∃ fs' r', receive (view fs r) bs = .ok (view fs' r') ∧ Cut (flat fs ++ r ++ bs) fs' r' ∧ ∃ g, fs' = fs ++ g) ∨
    (receive (view fs r) bs = .refused ∧ Oversize (flat fs ++ r ++ bs)) :=
  receiveLoop_spec bs.length fs r bs (Nat.le_refl _) hf hr

theorem tail_nil : Tail [] := Or.inl (by simp)
theorem view_nil : view [] [] = [] := by simp [view, tailMsgs]

/-! ## Commands -/

theorem cmdOk_iff : ∀ b : List Nat, cmdOk b = true ↔
    ∃ c, (∀ x ∈ c, 32 ≤ x ∧ x ≤ 126) ∧ c.length ≤ b.length ∧ b = c ++ List.replicate (b.length - c.length) 0
  | [] => by simp [cmdOk]
  | x :: b => by
    have ih := cmdOk_iff b
    unfold cmdOk
    by_cases h0 : x = 0
    · subst h0
      rw [if_pos rfl]
      constructor
      · intro h
        refine ⟨[], by simp, by simp, ?_⟩
        simp only [List.length_cons, List.length_nil, Nat.sub_zero, List.nil_append, List.replicate_succ, List.cons.injEq, true_and]
        rw [List.eq_replicate_iff]
        exact ⟨rfl, fun y hy => by simpa using List.all_eq_true.mp h y hy⟩
      · rintro ⟨c, hc, hl, e⟩
        cases c with
        | nil =>
          simp only [List.length_cons, List.length_nil, Nat.sub_zero, List.nil_append, List.replicate_succ, List.cons.injEq, true_and] at e
          rw [e]; simp
        | cons y c =>
          have := hc y (by simp)
          simp at e; omega
    · rw [if_neg h0]
      by_cases h1 : x < 32 ∨ x > 126
      · rw [if_pos h1]
        constructor
        · intro h; cases h
        · rintro ⟨c, hc, hl, e⟩
          cases c with
          | nil => simp [List.replicate_succ] at e; omega
          | cons y c =>
            have := hc y (by simp)
            simp at e; omega
      · rw [if_neg h1, ih]
        constructor
        · rintro ⟨c, hc, hl, e⟩
          refine ⟨x :: c, ?_, by simp; exact hl, ?_⟩
          · intro y hy
            rcases List.mem_cons.mp hy with h | h
            · omega
            · exact hc y h
          · simp only [List.length_cons, Nat.add_sub_add_right, List.cons_append, List.cons.injEq, true_and]
            exact e
        · rintro ⟨c, hc, hl, e⟩
          cases c with
          | nil => simp [List.replicate_succ] at e; omega
          | cons y c =>
            simp only [List.length_cons, Nat.add_sub_add_right, List.cons_append, List.cons.injEq] at e
            exact ⟨c, fun z hz => hc z (by simp [hz]), by simpa using hl, e.2⟩

theorem takeWhile_pad (c : List Nat) (k : Nat) (hc : ∀ x ∈ c, 32 ≤ x ∧ x ≤ 126) :
    (c ++ List.replicate k 0).takeWhile (· ≠ 0) = c := by
  induction c with
  | nil => cases k <;> simp [List.replicate_succ]
  | cons x c ih =>
    have h1 := hc x (by simp)
    have : x ≠ 0 := by omega
    rw [List.cons_append, List.takeWhile_cons]
    simp only [ne_eq, this, not_false_eq_true, decide_true, if_true]
    rw [ih (fun y hy => hc y (by simp [hy]))]

theorem getCmd_pad (c : List Nat) (k : Nat) (hc : ∀ x ∈ c, 32 ≤ x ∧ x ≤ 126) : getCmd (c ++ List.replicate k 0) = c := by
  unfold getCmd
  cases k with
  | zero =>
    rw [if_neg]
    · simp
    · intro h
      simp at h
      have := hc 0 (List.mem_of_getLast? h)
      omega
  | succ k =>
    rw [if_pos, takeWhile_pad c _ hc]
    rw [List.getLast?_append, List.getLast?_replicate]
    simp

theorem hCmd_length {h : List Nat} (hl : h.length = 24) : (hCmd h).length = 12 := by simp [hCmd, hl]

theorem carries_iff (p : Params) {f : Frame} (hf : f.Ok) :
    (headerOk p f.h = true ∧ p.cksum f.d = hSum f.h) ↔ ∃ c, Carries p f c := by
  have hl := hCmd_length hf.1
  unfold headerOk
  constructor
  · rintro ⟨h, hs⟩
    split at h
    · cases h
    · rename_i h1
      split at h
      · cases h
      · rename_i h2
        have h3 : cmdOk (hCmd f.h) = true := by simpa using h2
        obtain ⟨c, hc, hcl, e⟩ := (cmdOk_iff _).mp h3
        rw [hl] at hcl e
        exact ⟨c, by simpa using h1, e, ⟨hcl, hc⟩, hs.symm⟩
  · rintro ⟨c, h1, h2, h3, h4⟩
    refine ⟨?_, h4.symm⟩
    have : cmdOk (hCmd f.h) = true := (cmdOk_iff _).mpr ⟨c, h3.2, by rw [hl]; exact h3.1, by rw [hl]; exact h2⟩
    simp [h1, this, hf.2.1]

theorem carries_cmd {p : Params} {f : Frame} {c : List Nat} (h : Carries p f c) : getCmd (hCmd f.h) = c := by
  rw [h.2.1]; exact getCmd_pad c _ h.2.2.1.2

/-! ## A pass over the queue -/

/-- Frames of this network that carry nothing. -/
def Noise (p : Params) (fs : List Frame) : Prop := ∀ f ∈ fs, hStart f.h = p.start ∧ ∀ c, ¬ Carries p f c

theorem scan_tail (p : Params) {r : List Nat} (hr : Tail r) : scan p (tailMsgs r) = (none, tailMsgs r, true) := by
  rw [tailMsgs_eq]
  split
  · rfl
  · unfold scan
    rw [tail_incomplete hr]; rfl

theorem scan_view (p : Params) {r : List Nat} (hr : Tail r) : ∀ fs : List Frame, (∀ f ∈ fs, f.Ok) →
    (scan p (view fs r) = (none, view [] r, true) ∧ Noise p fs) ∨
    (∃ a f b, fs = a ++ f :: b ∧ Noise p a ∧ hStart f.h ≠ p.start ∧ scan p (view fs r) = (none, view b r, false)) ∨
    (∃ a f b c, fs = a ++ f :: b ∧ Noise p a ∧ Carries p f c ∧ scan p (view fs r) = (some (c, f.d), view b r, true))
  | [], _ => by
    left
    refine ⟨?_, by intro f hf; cases hf⟩
    simp only [view, List.map_nil, List.nil_append]
    exact scan_tail p hr
  | f :: fs, hf => by
    have hok := hf f (by simp)
    have hm := msgOf_complete hok
    have ev : view (f :: fs) r = msgOf f :: view fs r := by simp [view]
    have skip : scan p (view (f :: fs) r) = scan p (view fs r) → hStart f.h = p.start → (∀ c, ¬ Carries p f c) →
        (scan p (view (f :: fs) r) = (none, view [] r, true) ∧ Noise p (f :: fs)) ∨
        (∃ a g b, f :: fs = a ++ g :: b ∧ Noise p a ∧ hStart g.h ≠ p.start ∧ scan p (view (f :: fs) r) = (none, view b r, false)) ∨
        (∃ a g b c, f :: fs = a ++ g :: b ∧ Noise p a ∧ Carries p g c ∧ scan p (view (f :: fs) r) = (some (c, g.d), view b r, true)) := by
      intro e hs hn
      have cons : ∀ a, Noise p a → Noise p (f :: a) := by
        intro a ha g hg
        rcases List.mem_cons.mp hg with h | h
        · rw [h]; exact ⟨hs, hn⟩
        · exact ha g h
      rw [e]
      rcases scan_view p hr fs (fun x hx => hf x (by simp [hx])) with ⟨e1, h1⟩ | ⟨a, g, b, e1, h1, h2, h3⟩ | ⟨a, g, b, c, e1, h1, h2, h3⟩
      · left; exact ⟨e1, cons _ h1⟩
      · right; left; exact ⟨f :: a, g, b, by rw [e1]; rfl, cons _ h1, h2, h3⟩
      · right; right; exact ⟨f :: a, g, b, c, by rw [e1]; rfl, cons _ h1, h2, h3⟩
    by_cases h1 : hStart f.h = p.start
    · by_cases h2 : headerOk p f.h = true
      · by_cases h3 : p.cksum f.d = hSum f.h
        · obtain ⟨c, hc⟩ := (carries_iff p hok).mp ⟨h2, h3⟩
          right; right
          refine ⟨[], f, fs, c, rfl, (by intro g hg; cases hg), hc, ?_⟩
          rw [ev, scan]
          simp only [hm, Bool.not_true, Bool.false_eq_true, if_false]
          simp only [msgOf, h1, ne_eq, not_true_eq_false, if_false, h2, Bool.not_true, Bool.false_eq_true, h3, carries_cmd hc]
        · refine skip ?_ h1 (fun c hc => h3 ((carries_iff p hok).mpr ⟨c, hc⟩).2)
          rw [ev, scan]
          simp only [hm, Bool.not_true, Bool.false_eq_true, if_false]
          simp only [msgOf, h1, ne_eq, not_true_eq_false, if_false, h2, Bool.not_true, Bool.false_eq_true, h3, not_false_eq_true, if_true]
      · refine skip ?_ h1 (fun c hc => h2 ((carries_iff p hok).mpr ⟨c, hc⟩).1)
        rw [ev, scan]
        simp only [hm, Bool.not_true, Bool.false_eq_true, if_false]
        simp only [msgOf, h1, ne_eq, not_true_eq_false, if_false]
        have : headerOk p f.h = false := by simpa using h2
        simp [this]
    · right; left
      refine ⟨[], f, fs, rfl, (by intro g hg; cases hg), h1, ?_⟩
      rw [ev, scan]
      simp only [hm, Bool.not_true, Bool.false_eq_true, if_false]
      simp only [msgOf, ne_eq, h1, not_false_eq_true, if_true]

/-! ## What was said -/

theorem said_append {p : Params} {a : List Frame} {la} (h : Said p a la) : ∀ {b lb}, Said p b lb → Said p (a ++ b) (la ++ lb) := by
  induction h with
  | nil => intro b lb hb; exact hb
  | carry h1 _ ih => intro b lb hb; exact .carry h1 (ih hb)
  | skip h1 _ ih => intro b lb hb; exact .skip h1 (ih hb)

theorem said_noise {p : Params} : ∀ {a : List Frame}, Noise p a → Said p a []
  | [], _ => .nil
  | f :: a, h => .skip (h f (by simp)).2 (said_noise fun g hg => h g (by simp [hg]))

theorem carries_inj {p : Params} {f : Frame} {c c' : List Nat} (h : Carries p f c) (h' : Carries p f c') : c = c' := by
  rw [← carries_cmd h, ← carries_cmd h']

theorem said_unique {p : Params} {fs : List Frame} {l} (h : Said p fs l) : ∀ {l'}, Said p fs l' → l = l' := by
  induction h with
  | nil => intro l' h'; cases h'; rfl
  | carry h1 _ ih =>
    intro l' h'
    cases h' with
    | carry h2 h3 => rw [ih h3, carries_inj h1 h2]
    | skip h2 _ => exact absurd h1 (h2 _)
  | skip h1 _ ih =>
    intro l' h'
    cases h' with
    | carry h2 _ => exact absurd h2 (h1 _)
    | skip _ h3 => exact ih h3

/-! ## Runs -/

/-- The pieces read in a run. -/
def pieces : List Ev → List Nat
  | [] => []
  | .recv bs :: es => bs ++ pieces es
  | .process .. :: es => pieces es

/-- State of a connection after the stream `B`. -/
structure Inv (p : Params) (B : List Nat) (n : Node) : Prop where
  opened : n.closed = false → ∃ dn todo r, Cut B (dn ++ todo) r ∧ (∀ f ∈ dn, hStart f.h = p.start) ∧
    n.recv = view todo r ∧ Said p dn n.log
  shut : n.closed = true → n.recv = [] ∧ ∃ dn rest, B = flat dn ++ rest ∧ (∀ f ∈ dn, f.Ok) ∧ (∀ f ∈ dn, hStart f.h = p.start) ∧
    Said p dn n.log

theorem inv_recv {p : Params} {B : List Nat} {n : Node} (h : Inv p B n) (bs : List Nat) :
    ∃ n', step p n (.recv bs) = some n' ∧ Inv p (B ++ bs) n' ∧ (n'.closed = true → n.closed = false → Oversize (B ++ bs)) := by
  unfold step
  cases hc : n.closed with
  | true =>
    obtain ⟨h0, dn, rest, h1, h2, h3, h4⟩ := h.shut hc
    exact ⟨n, by simp, ⟨(by rw [hc]; intro h; cases h), fun _ => ⟨h0, dn, rest ++ bs, by rw [h1, List.append_assoc], h2, h3, h4⟩⟩, by
      intro _ h; cases h⟩
  | false =>
    obtain ⟨dn, todo, r, ⟨e, hok, ht⟩, hs, hq, hsaid⟩ := h.opened hc
    have hok1 : ∀ f ∈ dn, f.Ok := fun f hf => hok f (by simp [hf])
    have hok2 : ∀ f ∈ todo, f.Ok := fun f hf => hok f (by simp [hf])
    simp only [Bool.false_eq_true, if_false]
    unfold onRecv
    rw [hq]
    rcases receive_spec bs hok2 ht with ⟨fs', r', e1, ⟨e2, hok', ht'⟩, g, hg⟩ | ⟨e1, fs, h', t, e2, hok', hl, hsz⟩
    · rw [e1]
      refine ⟨_, rfl, ⟨fun _ => ⟨dn, fs', r', ⟨?_, ?_, ht'⟩, hs, rfl, hsaid⟩, fun h' => ?_⟩, fun h' => ?_⟩
      · rw [e, flat_append, flat_append, List.append_assoc, List.append_assoc, List.append_assoc, ← e2]; simp
      · intro f hf
        rcases List.mem_append.mp hf with h | h
        · exact hok1 f h
        · exact hok' f h
      · rw [hc] at h'; cases h'
      · rw [hc] at h'; cases h'
    · rw [e1]
      refine ⟨_, rfl, ⟨fun h' => by simp [close] at h', fun _ => ⟨by simp [close], dn, flat todo ++ r ++ bs, ?_, hok1, hs, hsaid⟩⟩, fun _ _ => ?_⟩
      · rw [e, flat_append]; simp
      · refine ⟨dn ++ fs, h', t, ?_, ?_, hl, hsz⟩
        · rw [e, flat_append, flat_append, List.append_assoc, List.append_assoc, List.append_assoc, ← e2]; simp
        · intro f hf
          rcases List.mem_append.mp hf with h | h
          · exact hok1 f h
          · exact hok' f h

theorem noise_start {p : Params} {a : List Frame} (h : Noise p a) : ∀ f ∈ a, hStart f.h = p.start := fun f hf => (h f hf).1

theorem inv_process {p : Params} {B : List Nat} {n : Node} (h : Inv p B n) (full o0 o1 dr : Bool) :
    ∃ n', step p n (.process full o0 o1 dr) = some n' ∧ Inv p B n' ∧
      (n'.closed = true → n.closed = false → dr = false → ∃ (fs : List Frame) (f : Frame) (t : List Nat), B = flat fs ++ (f.h ++ f.d ++ t) ∧
        (∀ g ∈ fs, g.Ok ∧ hStart g.h = p.start) ∧ f.Ok ∧ hStart f.h ≠ p.start) := by
  unfold step
  cases hc : n.closed with
  | true => exact ⟨n, by simp, h, by intro _ h; cases h⟩
  | false =>
    simp only [Bool.false_eq_true, if_false]
    refine ⟨_, rfl, ?_⟩
    have same : ∀ n' : Node, n'.closed = n.closed → n'.recv = n.recv → n'.log = n.log → Inv p B n' := by
      intro n' e1 e2 e3
      exact ⟨fun h1 => by rw [e2, e3]; exact h.opened (e1 ▸ h1), fun h1 => by rw [e2, e3]; exact h.shut (e1 ▸ h1)⟩
    unfold onProcess
    split
    · exact ⟨h, fun h1 => by rw [hc] at h1; cases h1⟩
    · split
      · exact ⟨same _ rfl rfl rfl, fun h1 => by simp [hc] at h1⟩
      · obtain ⟨dn, todo, r, ⟨e, hok, ht⟩, hs, hq, hsaid⟩ := h.opened hc
        have hok1 : ∀ f ∈ dn, f.Ok := fun f hf => hok f (by simp [hf])
        have hok2 : ∀ f ∈ todo, f.Ok := fun f hf => hok f (by simp [hf])
        rw [hq]
        rcases scan_view p ht todo hok2 with ⟨e1, h1⟩ | ⟨a, f, b, e1, h1, h2, h3⟩ | ⟨a, f, b, c, e1, h1, h2, h3⟩
        · rw [e1]
          refine ⟨⟨fun _ => ⟨dn ++ todo, [], r, ⟨by simpa using e, by simpa using hok, ht⟩, ?_, rfl, ?_⟩, fun h' => ?_⟩, fun h' => ?_⟩
          · intro f hf
            rcases List.mem_append.mp hf with h | h
            · exact hs f h
            · exact noise_start h1 f h
          · simpa using said_append hsaid (said_noise h1)
          · simp [hc] at h'
          · simp [hc] at h'
        · rw [h3]
          have hsa : ∀ f ∈ dn ++ a, hStart f.h = p.start := by
            intro g hg
            rcases List.mem_append.mp hg with h | h
            · exact hs g h
            · exact noise_start h1 g h
          have hoka : ∀ f ∈ dn ++ a, f.Ok := by
            intro g hg; apply hok; rw [e1]
            rcases List.mem_append.mp hg with h | h
            · simp [h]
            · simp [h]
          have eB : B = flat (dn ++ a) ++ (f.h ++ f.d ++ (flat b ++ r)) := by
            rw [e, e1]; simp [flat_append, flat_cons]
          refine ⟨⟨fun h' => by simp [close] at h', fun _ => ⟨by simp [close], dn ++ a, _, eB, hoka, hsa, ?_⟩⟩, fun _ _ _ => ?_⟩
          · simpa [close] using said_append hsaid (said_noise h1)
          · exact ⟨dn ++ a, f, _, eB, fun g hg => ⟨hoka g hg, hsa g hg⟩, hok2 f (by rw [e1]; simp), h2⟩
        · rw [h3]
          have hst : ∀ g ∈ dn ++ a ++ [f], hStart g.h = p.start := by
            intro g hg
            rcases List.mem_append.mp hg with h | h
            · rcases List.mem_append.mp h with h | h
              · exact hs g h
              · exact noise_start h1 g h
            · simp at h; rw [h]; exact h2.1
          have hsaid' : Said p (dn ++ a ++ [f]) (n.log ++ [(c, f.d)]) := by
            have := said_append (said_append hsaid (said_noise h1)) (Said.carry h2 .nil)
            simpa using this
          have efs : dn ++ todo = (dn ++ a ++ [f]) ++ b := by rw [e1]; simp
          cases dr with
          | false =>
            refine ⟨⟨fun _ => ⟨dn ++ a ++ [f], b, r, ⟨by rw [← efs]; exact e, by rw [← efs]; exact hok, ht⟩, hst, rfl, hsaid'⟩, fun h' => ?_⟩, fun h' => ?_⟩
            · simp [hc] at h'
            · simp [hc] at h'
          | true =>
            refine ⟨⟨fun h' => by simp [close] at h', fun _ => ⟨by simp [close], dn ++ a ++ [f], flat b ++ r, ?_, ?_, hst, ?_⟩⟩, fun _ _ h' => by cases h'⟩
            · rw [e, efs, flat_append (dn ++ a ++ [f])]; simp
            · intro g hg; apply hok; rw [efs]; exact List.mem_append_left _ hg
            · simpa [close] using hsaid'

theorem inv_new (p : Params) : Inv p [] .new :=
  ⟨fun _ => ⟨[], [], [], ⟨by simp [flat], by simp, tail_nil⟩, by simp, by simp [Node.new, view_nil], .nil⟩, fun h => by cases h⟩

theorem run_inv (p : Params) : ∀ (es : List Ev) (B : List Nat) (n : Node), Inv p B n →
    ∃ n', run p n es = some n' ∧ Inv p (B ++ pieces es) n'
  | [], B, n, h => ⟨n, rfl, by simpa [pieces] using h⟩
  | .recv bs :: es, B, n, h => by
    obtain ⟨n1, e1, h1, _⟩ := inv_recv h bs
    obtain ⟨n2, e2, h2⟩ := run_inv p es _ _ h1
    refine ⟨n2, by rw [run, e1]; exact e2, ?_⟩
    simpa [pieces] using h2
  | .process full o0 o1 dr :: es, B, n, h => by
    obtain ⟨n1, e1, h1, _⟩ := inv_process h full o0 o1 dr
    obtain ⟨n2, e2, h2⟩ := run_inv p es _ _ h1
    exact ⟨n2, by rw [run, e1]; exact e2, by simpa [pieces] using h2⟩

end Verif.Net
