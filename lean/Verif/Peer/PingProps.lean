import Verif.Peer.Ping
import Mathlib.Data.List.Induction

namespace Verif.Peer

/-- In this history a ping went out at `s`, its nonce came back at `e` and no other ping went out in between. -/
def Measured (l : List Step) (s e : Int) : Prop :=
  ∃ a b c nonce, l = a ++ [.send s nonce] ++ b ++ [.pong e (some nonce)] ++ c ∧ (sendPing (runPing {} a) s nonce).2 = some nonce ∧
    ∀ b1 b2 t n, b = b1 ++ [.send t n] ++ b2 → (sendPing (runPing {} (a ++ [.send s nonce] ++ b1)) t n).2 = none

theorem runPing_snoc (s : Ping) (l : List Step) (x : Step) : runPing s (l ++ [x]) = stepPing (runPing s l) x := by
  rw [runPing, List.foldl_append]; rfl

/-- The ping waited for is the last that went out. -/
def Last (l : List Step) (nonce : Nat) (t : Int) : Prop :=
  ∃ a b, l = a ++ [.send t nonce] ++ b ∧ (sendPing (runPing {} a) t nonce).2 = some nonce ∧
    ∀ b1 b2 u n, b = b1 ++ [.send u n] ++ b2 → (sendPing (runPing {} (a ++ [.send t nonce] ++ b1)) u n).2 = none

theorem Last.snoc {l : List Step} {nonce : Nat} {t : Int} (h : Last l nonce t) {x : Step}
    (hx : ∀ u n, x = .send u n → (sendPing (runPing {} l) u n).2 = none) : Last (l ++ [x]) nonce t := by
  obtain ⟨a, b, rfl, h2, h3⟩ := h
  refine ⟨a, b ++ [x], by simp, h2, ?_⟩
  intro b1 b2 u n e
  rcases List.eq_nil_or_concat b2 with rfl | ⟨b2', y, rfl⟩
  · rw [List.append_nil] at e
    obtain ⟨e1, e2⟩ := List.append_inj' e rfl
    subst e1
    exact hx u n (by simpa using e2)
  · rw [List.concat_eq_append, ← List.append_assoc] at e
    obtain ⟨e1, -⟩ := List.append_inj' e rfl
    exact h3 b1 b2' u n e1

theorem Measured.snoc {l : List Step} {s e : Int} (h : Measured l s e) (x : Step) : Measured (l ++ [x]) s e := by
  obtain ⟨a, b, c, n, rfl, h2, h3⟩ := h
  exact ⟨a, b, c ++ [x], n, by simp, h2, h3⟩

theorem ping_inv (l : List Step) : ((runPing {} l).sent ≠ 0 → Last l (runPing {} l).sent (runPing {} l).start) ∧
    ((runPing {} l).time ≠ 0 → ∃ s e, Measured l s e ∧ (runPing {} l).time = e - s ∧ 0 < e - s) := by
  induction l using List.reverseRecOn with
  | nil => exact ⟨fun h => absurd rfl h, fun h => absurd rfl h⟩
  | append_singleton l x ih =>
    obtain ⟨i1, i2⟩ := ih
    rw [runPing_snoc]
    have keep : (runPing {} l).time ≠ 0 → ∃ s e, Measured (l ++ [x]) s e ∧ (runPing {} l).time = e - s ∧ 0 < e - s := by
      intro h
      obtain ⟨s, e, m, k⟩ := i2 h
      exact ⟨s, e, m.snoc x, k⟩
    cases x with
    | send now nonce =>
      simp only [stepPing]
      by_cases d : pingDue (runPing {} l) now = true
      · have e : sendPing (runPing {} l) now nonce = ({ runPing {} l with sent := nonce, queued := false, start := now }, some nonce) := by
          unfold sendPing; rw [if_pos d]
        rw [e]
        refine ⟨fun _ => ⟨l, [], by simp, by rw [e], ?_⟩, keep⟩
        intro b1 b2 u n k
        simp at k
      · have e : sendPing (runPing {} l) now nonce = (runPing {} l, none) := by
          unfold sendPing; rw [if_neg d]
        rw [e]
        refine ⟨fun h => (i1 h).snoc ?_, keep⟩
        intro u n k
        injection k with k1 k2
        subst k1 k2
        rw [e]
    | pong now nonce =>
      have other : ∀ u n, Step.pong now nonce = Step.send u n → (sendPing (runPing {} l) u n).2 = none := by
        intro u n k; cases k
      simp only [stepPing]
      cases nonce with
      | none => exact ⟨fun h => absurd rfl h, keep⟩
      | some n =>
        simp only [pong]
        by_cases h0 : (runPing {} l).sent ≠ 0
        · rw [if_pos h0]
          by_cases h1 : n = (runPing {} l).sent
          · rw [if_pos h1]
            by_cases h2 : 0 < now - (runPing {} l).start
            · rw [if_pos h2]
              refine ⟨fun h => absurd rfl h, fun _ => ⟨(runPing {} l).start, now, ?_, rfl, h2⟩⟩
              obtain ⟨a, b, k1, k2, k3⟩ := i1 h0
              refine ⟨a, b, [], (runPing {} l).sent, ?_, k2, k3⟩
              rw [h1, List.append_nil, ← k1]
            · rw [if_neg h2]
              exact ⟨fun h => absurd rfl h, keep⟩
          · rw [if_neg h1]
            by_cases h2 : n = 0
            · rw [if_pos h2]; exact ⟨fun h => absurd rfl h, keep⟩
            · rw [if_neg h2]; exact ⟨fun h => (i1 h).snoc other, keep⟩
        · rw [if_neg h0]; exact ⟨fun h => absurd h h0, keep⟩
    | request =>
      exact ⟨fun h => (i1 h).snoc (by intro u n k; cases k), keep⟩
    | check now =>
      simp only [stepPing, checkPing]
      have other : ∀ u n, Step.check now = Step.send u n → (sendPing (runPing {} l) u n).2 = none := by
        intro u n k; cases k
      by_cases h : (runPing {} l).sent ≠ 0 ∧ (runPing {} l).start + timeoutInterval < now
      · rw [if_pos h]; exact ⟨fun h => (i1 h).snoc other, keep⟩
      · rw [if_neg h]; exact ⟨fun h => (i1 h).snoc other, keep⟩

/-- A reported ping time is the time between a ping and the answer with its nonce, with no other ping in between. -/
theorem ping_time_true {l : List Step} (h : (runPing {} l).time ≠ 0) :
    ∃ s e, Measured l s e ∧ (runPing {} l).time = e - s ∧ 0 < e - s := (ping_inv l).2 h

/-- After messages are sent a ping is waited for, or the last one is not older than the interval. -/
theorem ping_keepalive (s : Ping) (now : Int) (nonce : Nat) (hn : nonce ≠ 0) :
    (sendPing s now nonce).1.sent ≠ 0 ∨ now ≤ (sendPing s now nonce).1.start + 2 * 60 * 1000000 := by
  unfold sendPing
  by_cases d : pingDue s now = true
  · rw [if_pos d]; exact Or.inl hn
  · rw [if_neg d]
    simp only [pingDue, Bool.or_eq_true, Bool.and_eq_true, beq_iff_eq, pingInterval] at d
    by_cases z : s.sent = 0
    · right
      simp only
      by_contra c
      exact d (Or.inr ⟨z, decide_eq_true (by omega)⟩)
    · exact Or.inl z

/-- The operator does not ask for pings, and the peer does not answer: neither the nonce, nor 0, nor a short answer. -/
def Silent (nonce : Nat) : Step → Prop
  | .send _ _ => True
  | .pong _ (some n) => n ≠ nonce ∧ n ≠ 0
  | .pong _ none => False
  | .request => False
  | .check _ => True

/-- A peer that does not answer is disconnected by the first check after twenty minutes. -/
theorem ping_timeout_partial {l : List Step} : ∀ {s : Ping} (_ : s.sent ≠ 0) (_ : s.queued = false) (_ : ∀ x ∈ l, Silent s.sent x) {now : Int}
    (_ : s.start + 20 * 60 * 1000000 < now), (runPing s (l ++ [.check now])).closed = true := by
  induction l with
  | nil =>
    intro s h0 hq hl now ht
    simp only [runPing, List.nil_append, List.foldl_cons, List.foldl_nil, stepPing, checkPing]
    rw [if_pos ⟨h0, by unfold timeoutInterval; omega⟩]
  | cons x l ih =>
    intro s h0 hq hl now ht
    have hx := hl x (by simp)
    have step : (stepPing s x).sent = s.sent ∧ (stepPing s x).start = s.start ∧ (stepPing s x).queued = false := by
      cases x with
      | send t n =>
        have d : pingDue s t = false := by simp [pingDue, hq, h0]
        have e : stepPing s (.send t n) = s := by simp only [stepPing, sendPing, d, Bool.false_eq_true, ↓reduceIte]
        rw [e]
        exact ⟨rfl, rfl, hq⟩
      | pong t n =>
        cases n with
        | none => exact absurd hx (by simp [Silent])
        | some n =>
          simp only [Silent] at hx
          simp only [stepPing, pong]
          rw [if_pos h0, if_neg hx.1, if_neg hx.2]
          exact ⟨rfl, rfl, hq⟩
      | request => exact absurd hx (by simp [Silent])
      | check t =>
        simp only [stepPing, checkPing]
        split
        · exact ⟨rfl, rfl, hq⟩
        · exact ⟨rfl, rfl, hq⟩
    rw [List.cons_append, runPing, List.foldl_cons]
    exact ih (s := stepPing s x) (by rw [step.1]; exact h0) step.2.2 (by intro y hy; rw [step.1]; exact hl y (by simp [hy])) (by rw [step.2.1]; exact ht)

/-- A peer that answers every ping with the nonce 0 -/
def faker (n : Nat) : List Step := (List.range n).flatMap (fun i : Nat =>
  [.send (((i : Int) + 1) * 1000000000) 5, .pong (((i : Int) + 1) * 1000000000 + 1) (some 0), .check (((i : Int) + 1) * 1000000000 + 2)])

/-- It never gives a right answer and is never disconnected, however long it goes on. -/
theorem ping_timeout_violated (n : Nat) : (runPing {} (faker n)).closed = false ∧ (runPing {} (faker n)).time = 0 ∧
    (runPing {} (faker n)).start = n * 1000000000 := by
  have inv : (runPing {} (faker n)).closed = false ∧ (runPing {} (faker n)).time = 0 ∧ (runPing {} (faker n)).start = n * 1000000000 ∧
      (runPing {} (faker n)).sent = 0 ∧ (runPing {} (faker n)).queued = false := by
    induction n with
    | zero => decide
    | succ n ih =>
      obtain ⟨h1, h2, h3, h4, h5⟩ := ih
      have e : faker (n + 1) = faker n ++ [.send ((n + 1) * 1000000000) 5, .pong ((n + 1) * 1000000000 + 1) (some 0),
          .check ((n + 1) * 1000000000 + 2)] := by
        unfold faker
        rw [List.range_succ, List.flatMap_append]
        simp
      rw [e, runPing, List.foldl_append]
      change _ ∧ _
      generalize hs : List.foldl stepPing {} (faker n) = s
      have hs' : runPing {} (faker n) = s := hs
      rw [hs'] at h1 h2 h3 h4 h5
      have d : pingDue s (((n : Int) + 1) * 1000000000) = true := by
        simp only [pingDue, h4, h3, pingInterval, Bool.or_eq_true, Bool.and_eq_true, beq_self_eq_true, decide_eq_true_eq, true_and]
        right; omega
      simp only [List.foldl_cons, List.foldl_nil, stepPing, sendPing, d, ↓reduceIte, pong, checkPing]
      simp [h1, h2]
  exact ⟨inv.1, inv.2.1, inv.2.2.1⟩

-- a measured ping
example : (runPing {} [.send 200000000 7, .pong 200000500 (some 6), .pong 200000900 (some 7)]).time = 900 := by decide
-- a peer that does not answer
example : (runPing {} ([.send 200000000 7, .pong 200000500 (some 6), .send 900000000 8] ++ [.check 1400000001])).closed = true := by decide

end Verif.Peer
