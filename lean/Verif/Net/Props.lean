import Verif.Net.Lemmas2

/-! # Properties C125-C128: messages on a connection -/
namespace Verif.Net

/-! ## C125: the stream is cut into messages the same way however it arrives -/

/-- Reading piece after piece; a refusal ends it. -/
def receiveAll : List Msg → List (List Nat) → Got
  | q, [] => .ok q
  | q, c :: cs => match receive q c with
    | .ok q' => receiveAll q' cs
    | x => x

theorem oversize_append {a : List Nat} (b : List Nat) (h : Oversize a) : Oversize (a ++ b) := by
  obtain ⟨fs, h, t, e, h1, h2, h3⟩ := h
  exact ⟨fs, h, t ++ b, by rw [e]; simp, h1, h2, h3⟩

theorem receiveAll_spec : ∀ (cs : List (List Nat)) (fs : List Frame) (r : List Nat), (∀ f ∈ fs, f.Ok) → Tail r →
    (∃ fs' r', receiveAll (view fs r) cs = .ok (view fs' r') ∧ Cut (flat fs ++ r ++ cs.flatten) fs' r') ∨
    (receiveAll (view fs r) cs = .refused ∧ Oversize (flat fs ++ r ++ cs.flatten))
  | [], fs, r, hf, hr => Or.inl ⟨fs, r, rfl, by simp, hf, hr⟩
  | c :: cs, fs, r, hf, hr => by
    rcases receive_spec c hf hr with ⟨fs', r', e, hc, _⟩ | ⟨e, ho⟩
    · have es : flat fs ++ r ++ (c :: cs).flatten = flat fs' ++ r' ++ cs.flatten := by
        rw [← hc.1]; simp
      rw [receiveAll, e, es]
      exact receiveAll_spec cs fs' r' hc.2.1 hc.2.2
    · right
      refine ⟨by rw [receiveAll, e], ?_⟩
      have := oversize_append cs.flatten ho
      simpa using this

/-- The queue after any pieces is exactly the frames of the stream and the beginning of the next; a stream is refused exactly if a header
announces too much; the loop always ends. -/
theorem stream_understood (cs : List (List Nat)) :
    (∀ q, receiveAll [] cs = .ok q ↔ ∃ fs r, Cut cs.flatten fs r ∧ q = view fs r) ∧
    (receiveAll [] cs = .refused ↔ Oversize cs.flatten) ∧ receiveAll [] cs ≠ .spin := by
  have h := receiveAll_spec cs [] [] (by simp) tail_nil
  rw [view_nil] at h
  simp only [flat_nil, List.nil_append] at h
  rcases h with ⟨fs, r, e, hc⟩ | ⟨e, ho⟩
  · refine ⟨fun q => ⟨fun h => ?_, fun h => ?_⟩, ⟨fun h => ?_, fun h => ?_⟩, by rw [e]; simp⟩
    · rw [e] at h; injection h with h; exact ⟨fs, r, hc, h.symm⟩
    · obtain ⟨fs', r', hc', hq⟩ := h
      obtain ⟨e1, e2⟩ := cut_unique fs fs' r r' hc.2.1 hc'.2.1 hc.2.2 hc'.2.2 (by rw [← hc.1, ← hc'.1])
      rw [e, hq, e1, e2]
    · rw [e] at h; cases h
    · obtain ⟨fs', h', t, e', hok, hl, hs⟩ := h
      exact (cut_not_oversize fs fs' r h' t hc.2.1 hok hc.2.2 hl hs (by rw [← hc.1, ← e'])).elim
  · refine ⟨fun q => ⟨fun h => ?_, fun h => ?_⟩, ⟨fun _ => ho, fun _ => e⟩, by rw [e]; simp⟩
    · rw [e] at h; cases h
    · obtain ⟨fs', r', hc', hq⟩ := h
      obtain ⟨fs, h', t, e', hok, hl, hs⟩ := ho
      exact (cut_not_oversize fs' fs r' h' t hc'.2.1 hok hc'.2.2 hl hs (by rw [← hc'.1, ← e'])).elim

/-- Only the bytes matter, not the pieces. -/
theorem pieces_do_not_matter (cs cs' : List (List Nat)) (h : cs.flatten = cs'.flatten) : receiveAll [] cs = receiveAll [] cs' := by
  obtain ⟨h1, h2, h3⟩ := stream_understood cs
  obtain ⟨h1', h2', h3'⟩ := stream_understood cs'
  cases e : receiveAll [] cs with
  | ok q => exact ((h1' q).mpr (h ▸ (h1 q).mp e)).symm
  | refused => exact (h2'.mpr (h ▸ h2.mp e)).symm
  | spin => exact absurd e h3

/-- What one side sends, the other side finds: all messages, complete, in order, nothing else. -/
theorem sent_is_received (p : Params) (hs : p.start.length = 4) (ms : List (List Nat × List Nat))
    (hm : ∀ m ∈ ms, Name m.1 ∧ m.2.length ≤ MAX_SIZE) (cs : List (List Nat))
    (h : cs.flatten = (ms.map fun m => frame p m.1 m.2).flatten) :
    ∃ q, receiveAll [] cs = .ok q ∧ (∀ x ∈ q, x.complete = true) ∧
      q.map (fun x => (getCmd (hCmd x.hdr), x.data)) = ms := by
  have hok : ∀ f ∈ ms.map (ownFrame p), f.Ok := by
    intro f hf
    obtain ⟨m, hm1, hm2⟩ := List.mem_map.mp hf
    rw [← hm2]; exact ownFrame_ok hs (hm m hm1).2
  refine ⟨view (ms.map (ownFrame p)) [], ((stream_understood cs).1 _).mpr ⟨_, _, ⟨?_, hok, tail_nil⟩, rfl⟩, ?_, ?_⟩
  · rw [h, flat_own, List.append_nil]
  · intro x hx
    simp only [view, tailMsgs, if_true, List.append_nil] at hx
    obtain ⟨f, hf1, hf2⟩ := List.mem_map.mp hx
    rw [← hf2]; exact msgOf_complete (hok f hf1)
  · simp only [view, tailMsgs, if_true, List.append_nil, List.map_map]
    conv_rhs => rw [← List.map_id ms]
    apply List.map_congr_left
    intro m hm1
    simp only [Function.comp_apply, ownFrame, msgOf, (hdrOf_parts p hs m.1 m.2).2.1, putCmd_name (hm m hm1).1, id_eq]
    rw [getCmd_pad _ _ (hm m hm1).1.2]

/-- A small network. -/
def netA : Params := ⟨[255, 66, 29, 26], fun d => d.sum % 4294967296⟩

def msgPing : List Nat × List Nat := ([112, 105, 110, 103], [1, 2, 3, 4, 5, 6, 7, 8])
def msgAck : List Nat × List Nat := ([118, 101, 114, 97, 99, 107], [])

example : (∀ m ∈ [msgPing, msgAck], Name m.1 ∧ m.2.length ≤ MAX_SIZE) ∧ netA.start.length = 4 ∧
    (receiveAll [] [(frame netA msgPing.1 msgPing.2).take 7, (frame netA msgPing.1 msgPing.2).drop 7 ++ [255, 66]] =
      .ok (view [ownFrame netA msgPing] [255, 66])) := by
  refine ⟨?_, rfl, by decide +kernel⟩
  simp only [Name]; decide +kernel

/-! ## C126: exactly the messages addressed to this network are handled, once and in order -/

/-- Whatever a peer sends and however it arrives and is worked off, the messages handled are what the first frames of the stream carry, each
once and in order; none of these frames belongs to another network. -/
theorem handled_was_said (p : Params) (es : List Ev) : ∃ n, run p .new es = some n ∧
    ∃ dn rest, pieces es = flat dn ++ rest ∧ (∀ f ∈ dn, f.Ok ∧ hStart f.h = p.start) ∧ Said p dn n.log := by
  obtain ⟨n, e, h⟩ := run_inv p es [] .new (inv_new p)
  rw [List.nil_append] at h
  refine ⟨n, e, ?_⟩
  cases hc : n.closed with
  | false =>
    obtain ⟨dn, todo, r, ⟨e1, hok, _⟩, hs, _, hsaid⟩ := h.opened hc
    exact ⟨dn, flat todo ++ r, by rw [e1, flat_append]; simp, fun f hf => ⟨hok f (by simp [hf]), hs f hf⟩, hsaid⟩
  | true =>
    obtain ⟨_, dn, rest, e1, hok, hs, hsaid⟩ := h.shut hc
    exact ⟨dn, rest, e1, fun f hf => ⟨hok f hf, hs f hf⟩, hsaid⟩

/-- On an open connection with no complete message waiting, everything received was handled. -/
theorem nothing_left_out (p : Params) (es : List Ev) {n : Node} (h : run p .new es = some n) (ho : n.closed = false)
    (hw : ∀ m ∈ n.recv, m.complete = false) :
    ∃ dn r, Cut (pieces es) dn r ∧ Said p dn n.log := by
  obtain ⟨n', e, hi⟩ := run_inv p es [] .new (inv_new p)
  rw [h] at e; injection e with e; subst e
  rw [List.nil_append] at hi
  obtain ⟨dn, todo, r, hc, _, hq, hsaid⟩ := hi.opened ho
  cases todo with
  | nil => exact ⟨dn, r, by simpa using hc, hsaid⟩
  | cons f todo =>
    have := hw (msgOf f) (by rw [hq]; simp [view])
    rw [msgOf_complete (hc.2.1 f (by simp))] at this
    cases this

/-- The stream contains a frame that belongs to another network, after frames of this one. -/
def Foreign (p : Params) (bs : List Nat) : Prop :=
  ∃ (fs : List Frame) (f : Frame) (t : List Nat), bs = flat fs ++ (f.h ++ f.d ++ t) ∧ (∀ g ∈ fs, g.Ok ∧ hStart g.h = p.start) ∧ f.Ok ∧
    hStart f.h ≠ p.start

theorem foreign_append {p : Params} {a : List Nat} (b : List Nat) (h : Foreign p a) : Foreign p (a ++ b) := by
  obtain ⟨fs, f, t, e, h1, h2, h3⟩ := h
  exact ⟨fs, f, t ++ b, by rw [e]; simp, h1, h2, h3⟩

/-- No event lets a handler close the connection. -/
def Mild (es : List Ev) : Prop := ∀ f a b, Ev.process f a b true ∉ es

theorem closed_why_aux (p : Params) : ∀ (es : List Ev) (B : List Nat) (n n' : Node), Inv p B n → Mild es → run p n es = some n' →
    (n.closed = true → Oversize B ∨ Foreign p B) → n'.closed = true → Oversize (B ++ pieces es) ∨ Foreign p (B ++ pieces es)
  | [], B, n, n', _, _, h, hw, hc => by
    injection h with h; subst h
    simpa [pieces] using hw hc
  | e :: es, B, n, n', hi, hm, h, hw, hc => by
    have hm' : Mild es := fun f a b hx => hm f a b (List.mem_cons_of_mem _ hx)
    cases e with
    | recv bs =>
      obtain ⟨n1, e1, h1, h2⟩ := inv_recv hi bs
      rw [run, e1] at h
      have := closed_why_aux p es (B ++ bs) n1 n' h1 hm' h (fun hc1 => ?_) hc
      · simpa [pieces] using this
      · cases hn : n.closed with
        | false => exact Or.inl (h2 hc1 hn)
        | true => rcases hw hn with h | h
                  · exact Or.inl (oversize_append _ h)
                  · exact Or.inr (foreign_append _ h)
    | process f a b d =>
      obtain ⟨n1, e1, h1, h2⟩ := inv_process hi f a b d
      rw [run, e1] at h
      have hd : d = false := by
        cases d with
        | false => rfl
        | true => exact absurd (List.mem_cons_self) (hm f a b)
      have := closed_why_aux p es B n1 n' h1 hm' h (fun hc1 => ?_) hc
      · simpa [pieces] using this
      · cases hn : n.closed with
        | false => exact Or.inr (h2 hc1 hn hd)
        | true => exact hw hn

/-- Unless a handler closes it, a connection is closed only because of a frame of another network or a header that announces too much. -/
theorem closed_why (p : Params) (es : List Ev) (hm : Mild es) {n : Node} (h : run p .new es = some n) (hc : n.closed = true) :
    Oversize (pieces es) ∨ Foreign p (pieces es) := by
  have := closed_why_aux p es [] .new n (inv_new p) hm h (fun h => by cases h) hc
  simpa using this

theorem own_not_foreign {p : Params} (hs : p.start.length = 4) : ∀ (ms : List (List Nat × List Nat)) (fs : List Frame) (f : Frame) (t : List Nat),
    (∀ m ∈ ms, m.2.length ≤ MAX_SIZE) → (∀ g ∈ fs, g.Ok) → f.Ok → hStart f.h ≠ p.start → ∀ u,
    flat (ms.map (ownFrame p)) = flat fs ++ (f.h ++ f.d ++ t) ++ u → False
  | [], fs, f, t, _, _, hf, _, u, e => by
    have := congrArg List.length e
    have := hf.1
    simp [flat_nil] at *
    omega
  | m :: ms, [], f, t, hm, _, hf, hn, u, e => by
    have hok := ownFrame_ok (p := p) hs (hm m (by simp))
    rw [List.map_cons, flat_cons, flat_nil, List.nil_append] at e
    simp only [List.append_assoc] at e
    obtain ⟨e1, _⟩ := List.append_inj e (by rw [hok.1, hf.1])
    exact hn (by rw [← e1]; exact (hdrOf_parts p hs m.1 m.2).1)
  | m :: ms, g :: fs, f, t, hm, hg, hf, hn, u, e => by
    have hok := ownFrame_ok (p := p) hs (hm m (by simp))
    have hgo := hg g (by simp)
    rw [List.map_cons, flat_cons, flat_cons] at e
    simp only [List.append_assoc] at e
    obtain ⟨e1, e2⟩ := List.append_inj e (by rw [hok.1, hgo.1])
    obtain ⟨_, e3⟩ := List.append_inj e2 (by rw [hok.2.2, hgo.2.2, e1])
    exact own_not_foreign hs ms fs f t (fun x hx => hm x (by simp [hx])) (fun x hx => hg x (by simp [hx])) hf hn u (by
      rw [e3]; simp only [List.append_assoc])

theorem own_prefix_said {p : Params} (hs : p.start.length = 4) (hck : ∀ d, p.cksum d < 4294967296) :
    ∀ (ms : List (List Nat × List Nat)) (dn : List Frame) (rest : List Nat) log,
    (∀ m ∈ ms, Name m.1 ∧ m.2.length ≤ MAX_SIZE) → (∀ f ∈ dn, f.Ok) → flat (ms.map (ownFrame p)) = flat dn ++ rest → Said p dn log →
    log <+: ms
  | ms, [], rest, log, _, _, _, h => by cases h; exact List.nil_prefix
  | [], f :: dn, rest, log, _, hok, e, _ => by
    have := congrArg List.length e
    have := (hok f (by simp)).1
    simp [flat_cons, flat_nil] at *
    omega
  | m :: ms, f :: dn, rest, log, hm, hok, e, h => by
    have ho := ownFrame_ok (p := p) hs (hm m (by simp)).2
    have hf := hok f (by simp)
    rw [List.map_cons, flat_cons, flat_cons] at e
    simp only [List.append_assoc] at e
    obtain ⟨e1, e2⟩ := List.append_inj e (by rw [ho.1, hf.1])
    obtain ⟨e3, e4⟩ := List.append_inj e2 (by rw [ho.2.2, hf.2.2, e1])
    have ef : f = ownFrame p m := by
      cases f; simp only [ownFrame] at *; simp_all
    have hcar := ownFrame_carries hs hck (hm m (by simp)).1
    have ih := fun l => own_prefix_said hs hck ms dn rest l (fun x hx => hm x (by simp [hx])) (fun x hx => hok x (by simp [hx])) e4
    cases h with
    | carry h1 h2 =>
      rw [ef] at h1
      have := carries_inj h1 hcar
      rw [this, ef]
      obtain ⟨t, ht⟩ := ih _ h2
      exact ⟨t, by rw [List.cons_append, ht]; rfl⟩
    | skip h1 _ => rw [ef] at h1; exact absurd hcar (h1 _)

/-- From end to end: whatever one node sends is handled by the other, all of it, once and in order, however it arrives and is worked off. -/
theorem delivered (p : Params) (hs : p.start.length = 4) (hck : ∀ d, p.cksum d < 4294967296) (ms : List (List Nat × List Nat))
    (hm : ∀ m ∈ ms, Name m.1 ∧ m.2.length ≤ MAX_SIZE) (es : List Ev) (hmild : Mild es)
    (hp : pieces es <+: (ms.map fun m => frame p m.1 m.2).flatten) {n : Node} (h : run p .new es = some n) :
    n.closed = false ∧ n.log <+: ms ∧
      (pieces es = (ms.map fun m => frame p m.1 m.2).flatten → (∀ m ∈ n.recv, m.complete = false) → n.log = ms) := by
  obtain ⟨u, hu⟩ := hp
  rw [← flat_own] at hu
  have hok : ∀ f ∈ ms.map (ownFrame p), f.Ok := by
    intro f hf
    obtain ⟨m, hm1, hm2⟩ := List.mem_map.mp hf
    rw [← hm2]; exact ownFrame_ok hs (hm m hm1).2
  have hc : n.closed = false := by
    cases hc : n.closed with
    | false => rfl
    | true =>
      rcases closed_why p es hmild h hc with ⟨fs, h', t, e, hf, hl, hsz⟩ | ⟨fs, f, t, e, hf, hfo, hne⟩
      · refine (cut_not_oversize (ms.map (ownFrame p)) fs [] h' (t ++ u) hok hf tail_nil hl hsz ?_).elim
        rw [List.append_nil, ← hu, e]; simp
      · refine (own_not_foreign hs ms fs f t (fun m hx => (hm m hx).2) (fun g hg => (hf g hg).1) hfo hne u ?_).elim
        rw [← hu, e]
  refine ⟨hc, ?_, ?_⟩
  · obtain ⟨n', e, dn, rest, e1, hd, hsaid⟩ := handled_was_said p es
    rw [h] at e; injection e with e; subst e
    exact own_prefix_said hs hck ms dn (rest ++ u) n.log hm (fun f hf => (hd f hf).1) (by rw [← hu, e1]; simp) hsaid
  · intro hall hw
    obtain ⟨dn, r, hcut, hsaid⟩ := nothing_left_out p es h hc hw
    obtain ⟨e1, _⟩ := cut_unique dn (ms.map (ownFrame p)) r [] hcut.2.1 hok hcut.2.2 tail_nil (by
      rw [← hcut.1, hall, flat_own, List.append_nil])
    rw [e1] at hsaid
    exact said_unique hsaid (said_own hs hck fun m hx => (hm m hx).1)

/-- Working off gets on: with room to send and no requests owed, a waiting complete message is taken from the queue. -/
theorem work_gets_on (p : Params) (es : List Ev) {n : Node} (h : run p .new es = some n) (ho : n.closed = false) {m : Msg} {ms : List Msg}
    (hq : n.recv = m :: ms) (hm : m.complete = true) (o0 o1 d : Bool) (hw : n.owed = false ∨ o0 = false) :
    ∃ n', step p n (.process false o0 o1 d) = some n' ∧ n'.recv.length < n.recv.length := by
  obtain ⟨n', e, hi⟩ := run_inv p es [] .new (inv_new p)
  rw [h] at e; injection e with e; subst e
  obtain ⟨dn, todo, r, ⟨_, hok, ht⟩, _, hq2, _⟩ := hi.opened ho
  refine ⟨_, by unfold step; rw [ho]; rfl, ?_⟩
  have hb : (n.owed && o0) = false := by rcases hw with h | h <;> simp [h]
  unfold onProcess
  rw [hb]
  simp only [Bool.false_eq_true, if_false]
  have hok2 : ∀ f ∈ todo, f.Ok := fun f hf => hok f (by simp [hf])
  have hne : todo ≠ [] := by
    intro h0
    rw [h0, hq] at hq2
    simp only [view, List.map_nil, List.nil_append, tailMsgs_eq] at hq2
    split at hq2
    · cases hq2
    · injection hq2 with h1 _
      rw [h1, tail_incomplete ht] at hm; cases hm
  have len : ∀ a : List Frame, (view a r).length = a.length + (tailMsgs r).length := by intro a; simp [view]
  have hpos : 0 < todo.length := List.length_pos_of_ne_nil hne
  rw [hq2]
  rcases scan_view p ht todo hok2 with ⟨e1, _⟩ | ⟨a, f, b, e1, _, _, h3⟩ | ⟨a, f, b, c, e1, _, _, h3⟩
  · rw [e1]; simp only [len]; simp only [List.length_nil]; omega
  · rw [h3]; simp only [close, List.length_nil, len]; omega
  · rw [h3]
    have : b.length < todo.length := by rw [e1]; simp; omega
    cases d <;> simp only [close, Bool.false_eq_true, if_false, if_true, len, List.length_nil] <;> omega

/-- Two messages, the second with a wrong checksum, then one of another network: the first is handled, the second passed over, the third
ends the connection. -/
example : ∃ n, run netA .new
      [.recv ((frame netA msgPing.1 msgPing.2).take 30), .process false false false false,
       .recv ((frame netA msgPing.1 msgPing.2).drop 30 ++ frame { netA with cksum := fun _ => 7 } msgAck.1 msgAck.2),
       .process false false false false, .process true false false false, .process false false false false,
       .recv (frame { netA with start := [1, 2, 3, 4] } msgAck.1 msgAck.2), .process false false false false] = some n ∧
    n.closed = true ∧ n.log = [msgPing] := by
  refine ⟨⟨[], ⟨[], 0, 0, []⟩, true, false, [msgPing]⟩, ?_, rfl, rfl⟩
  decide +kernel

example : ∃ n, run netA .new [.recv ((frame netA msgPing.1 msgPing.2).take 30), .process false false false false,
      .recv ((frame netA msgPing.1 msgPing.2).drop 30 ++ frame netA msgAck.1 msgAck.2), .process false false false false,
      .process false false false false] = some n ∧ n.closed = false ∧ n.recv = [] ∧ n.log = [msgPing, msgAck] := by
  refine ⟨⟨[], ⟨[], 0, 0, []⟩, false, false, [msgPing, msgAck]⟩, ?_, rfl, rfl, rfl⟩
  decide +kernel

/-! ## C127: what is queued is written, byte for byte -/

inductive SendOp
  /-- `BeginMessage` .. `EndMessage`; the last argument is what the socket takes -/
  | push (cmd payload ks : List Nat)
  /-- the socket is writable -/
  | flush (ks : List Nat)

def sendStep (p : Params) (o : Out) : SendOp → Option Out
  | .push c d ks => push p o c d ks
  | .flush ks => sendLoop o ks

def sendRun (p : Params) : Out → List SendOp → Option Out
  | o, [] => some o
  | o, s :: ss => match sendStep p o s with
    | none => none
    | some o' => sendRun p o' ss

/-- All frames handed over. -/
def handed (p : Params) : List SendOp → List Nat
  | [] => []
  | .push c d _ :: ss => frame p c d ++ handed p ss
  | .flush _ :: ss => handed p ss

theorem sendRun_spec (p : Params) : ∀ (ss : List SendOp) (o : Out), OInv o →
    ∃ o', sendRun p o ss = some o' ∧ OInv o' ∧ o'.wire ++ pending o' = o.wire ++ pending o ++ handed p ss
  | [], o, h => ⟨o, rfl, h, by simp [handed]⟩
  | .push c d ks :: ss, o, h => by
    obtain ⟨o1, e1, h1, w1, _⟩ := push_spec (p := p) h c d ks
    obtain ⟨o2, e2, h2, w2⟩ := sendRun_spec p ss o1 h1
    refine ⟨o2, by rw [sendRun, sendStep, e1]; exact e2, h2, ?_⟩
    rw [w2, w1, handed]; simp
  | .flush ks :: ss, o, h => by
    obtain ⟨o1, e1, h1, w1, _⟩ := sendLoop_spec ks o h
    obtain ⟨o2, e2, h2, w2⟩ := sendRun_spec p ss o1 h1
    refine ⟨o2, by rw [sendRun, sendStep, e1]; exact e2, h2, ?_⟩
    rw [w2, w1, handed]

theorem oinv_new : OInv ⟨[], 0, 0, []⟩ := ⟨fun _ => rfl, (fun _ _ h => by cases h), (fun _ h => by cases h), rfl⟩

/-- However the socket takes the bytes: no assertion fails, what was written is the beginning of all frames in order, the recorded size is
that of the frames not yet finished, and once it is zero everything was written. -/
theorem written_as_queued (p : Params) (ss : List SendOp) : ∃ o, sendRun p ⟨[], 0, 0, []⟩ ss = some o ∧
    o.wire <+: handed p ss ∧ o.size = (o.queue.map List.length).sum ∧
    o.wire.length + o.size = (handed p ss).length + o.offset ∧
    (o.size = 0 → o.wire = handed p ss) := by
  obtain ⟨o, e, h, w⟩ := sendRun_spec p ss _ oinv_new
  have w' : o.wire ++ pending o = handed p ss := by simpa [pending] using w
  have hoff : o.offset ≤ o.queue.flatten.length := by
    cases hq : o.queue with
    | nil => rw [h.empty hq]; exact Nat.zero_le _
    | cons x xs => have := h.head x xs hq; simp; omega
  have hl := congrArg List.length w'
  have hf : o.queue.flatten.length = o.size := by rw [h.size, List.length_flatten]
  simp only [pending, List.length_append, List.length_drop] at hl
  refine ⟨o, e, ⟨_, w'⟩, h.size, by omega, fun h0 => ?_⟩
  have : pending o = [] := by
    rw [pending]; exact List.drop_of_length_le (by omega)
  rw [this] at w'; simpa using w'

/-- If the socket takes anything, writing gets on; if it takes nothing, nothing changes. -/
theorem writing_gets_on (p : Params) (ss : List SendOp) {o : Out} (h : sendRun p ⟨[], 0, 0, []⟩ ss = some o) (hq : o.queue ≠ []) :
    (∀ k ks, 0 < k → ∃ o', sendLoop o (k :: ks) = some o' ∧ o.wire.length < o'.wire.length) ∧
    (∀ ks, sendLoop o (0 :: ks) = some o) := by
  obtain ⟨o', e, hi, _⟩ := sendRun_spec p ss _ oinv_new
  rw [h] at e; injection e with e; subst e
  refine ⟨fun k ks hk => ?_, fun ks => ?_⟩
  · obtain ⟨o', e, _⟩ := sendLoop_spec (k :: ks) o hi
    exact ⟨o', e, sendLoop_progress hi hk hq e⟩
  · rw [sendLoop.eq_def]
    cases hq' : o.queue with
    | nil => exact absurd hq' hq
    | cons d ds =>
      have := hi.head d ds hq'
      simp [hq', Nat.not_le.mpr this]

example : sendRun netA ⟨[], 0, 0, []⟩ [.push msgPing.1 msgPing.2 [20], .push msgAck.1 msgAck.2 [], .flush [12, 5]] =
    some ⟨[frame netA msgAck.1 msgAck.2], 5, 24, frame netA msgPing.1 msgPing.2 ++ (frame netA msgAck.1 msgAck.2).take 5⟩ := by
  decide +kernel

/-! ## C128: bounded memory, no standstill -/

/-- Connections as the socket loop lets them become: it reads at most one buffer, and only if it waits for data. -/
inductive Reach (p : Params) (flood : Nat) : Node → Prop
  | new : Reach p flood .new
  | recv {n n' : Node} {bs : List Nat} : Reach p flood n → wantsRecv flood n = true → bs.length ≤ CHUNK →
      step p n (.recv bs) = some n' → Reach p flood n'
  | process {n n' : Node} {f a b d : Bool} : Reach p flood n → step p n (.process f a b d) = some n' → Reach p flood n'
  /-- sending changes the send queue only -/
  | send {n : Node} (o : Out) : Reach p flood n → Reach p flood { n with out := o }

theorem view_suffix_total {a b : List Frame} {r : List Nat} : totalRecv (view b r) ≤ totalRecv (view (a ++ b) r) := by
  simp only [view, List.map_append, List.append_assoc, total_append]; omega

theorem scan_total (p : Params) : ∀ q : List Msg, totalRecv (scan p q).2.1 ≤ totalRecv q
  | [] => Nat.le_refl _
  | m :: ms => by
    have ih := scan_total p ms
    have hc : totalRecv ms ≤ totalRecv (m :: ms) := by simp [totalRecv]
    unfold scan
    split
    · exact Nat.le_refl _
    · split
      · exact hc
      · split
        · exact ih.trans hc
        · split
          · exact ih.trans hc
          · exact hc

theorem reach_inv {p : Params} {flood : Nat} {n : Node} (h : Reach p flood n) :
    (∃ B, Inv p B n) ∧ totalRecv n.recv ≤ max flood (MAX_SIZE + 24) + CHUNK + (MAX_SIZE + 24) := by
  induction h with
  | new => exact ⟨⟨[], inv_new p⟩, by simp [Node.new, totalRecv]⟩
  | @recv n n' bs _ hw hb he ih =>
    obtain ⟨⟨B, hi⟩, hT⟩ := ih
    obtain ⟨n1, e1, h1, _⟩ := inv_recv hi bs
    rw [he] at e1; injection e1 with e1; subst e1
    refine ⟨⟨_, h1⟩, ?_⟩
    cases hc : n.closed with
    | true =>
      unfold step at he
      rw [hc] at he
      simp at he; rw [← he]; exact hT
    | false =>
      obtain ⟨dn, todo, r, ⟨e, hok, ht⟩, hs, hq, hsaid⟩ := hi.opened hc
      have hok2 : ∀ f ∈ todo, f.Ok := fun f hf => hok f (by simp [hf])
      have hbase : totalRecv n.recv ≤ max flood (MAX_SIZE + 24) := by
        unfold wantsRecv at hw
        simp only [Bool.and_eq_true, Bool.or_eq_true] at hw
        rcases hw.2 with (hw | hw) | hw
        · have : n.recv = [] := by simpa using hw
          rw [this]; simp [totalRecv]
        · rw [hq] at hw ⊢
          have htodo : todo = [] := by
            cases todo with
            | nil => rfl
            | cons f fs =>
              simp [view, msgOf_complete (hok2 f (by simp))] at hw
          rw [htodo, total_view (by simp), flat_nil]
          have := (total_tail ht).1
          simp only [List.length_nil]; omega
        · have : totalRecv n.recv ≤ flood := by simpa using hw
          omega
      unfold step at he
      rw [hc] at he
      simp only [Bool.false_eq_true, if_false] at he
      unfold onRecv at he
      rw [hq] at he hbase
      rcases receive_spec bs hok2 ht with ⟨fs', r', e1, hcut, _⟩ | ⟨e1, _⟩
      · rw [e1] at he
        injection he with he; subst he
        have := receive_grows hok2 ht hcut
        show totalRecv (view fs' r') ≤ _
        omega
      · rw [e1] at he
        injection he with he; subst he
        simp [close, totalRecv]
  | @process n n' f a b d _ he ih =>
    obtain ⟨⟨B, hi⟩, hT⟩ := ih
    obtain ⟨n1, e1, h1, _⟩ := inv_process hi f a b d
    rw [he] at e1; injection e1 with e1; subst e1
    refine ⟨⟨_, h1⟩, ?_⟩
    unfold step at he
    simp only at he
    split at he
    · injection he with he; subst he; exact hT
    · injection he with he; subst he
      have hsc := scan_total p n.recv
      unfold onProcess
      split
      · exact hT
      · split
        · exact hT
        · split
          · rename_i hm; rw [hm] at hsc; exact Nat.le_trans hsc hT
          · simp [close, totalRecv]
          · rename_i hm; rw [hm] at hsc
            split
            · simp [close, totalRecv]
            · exact Nat.le_trans hsc hT
  | send o _ ih =>
    obtain ⟨⟨B, hi⟩, hT⟩ := ih
    exact ⟨⟨B, ⟨hi.opened, hi.shut⟩⟩, hT⟩

/-- The memory held for received messages never exceeds a fixed bound, whatever the peer sends. -/
theorem memory_bounded {p : Params} {flood : Nat} {n : Node} (h : Reach p flood n) :
    totalRecv n.recv ≤ max flood (MAX_SIZE + 24) + CHUNK + (MAX_SIZE + 24) := (reach_inv h).2

/-- With the default limit of five million bytes: less than 68 million, so the 32-bit sum does not wrap. -/
theorem memory_bounded_default {p : Params} {n : Node} (h : Reach p 5000000 n) : totalRecv n.recv < 68000000 := by
  have := memory_bounded h
  unfold MAX_SIZE CHUNK at this
  omega

/-- There is always something to do: write, read, or handle a waiting message with room to send. -/
theorem no_standstill (p : Params) {flood : Nat} {n : Node} (h : Reach p flood n) (ho : n.closed = false) (ss : List SendOp)
    (hs : sendRun p ⟨[], 0, 0, []⟩ ss = some n.out) (buf : Nat) (hb : 0 < buf) :
    n.out.queue ≠ [] ∨ wantsRecv flood n = true ∨
      (n.out.size < buf ∧ ∃ m ms, n.recv = m :: ms ∧ m.complete = true ∧
        ∀ o1 d, ∃ n', step p n (.process false false o1 d) = some n' ∧ n'.recv.length < n.recv.length) := by
  by_cases hq : n.out.queue = []
  · right
    cases hw : wantsRecv flood n with
    | true => left; rfl
    | false =>
      right
      obtain ⟨o', e, hi, _⟩ := sendRun_spec p ss _ oinv_new
      rw [hs] at e; injection e with e; subst e
      have hsz : n.out.size = 0 := by rw [hi.size, hq]; rfl
      refine ⟨by omega, ?_⟩
      unfold wantsRecv at hw
      rw [hq] at hw
      simp only [List.isEmpty_nil, Bool.true_and, Bool.or_eq_false_iff] at hw
      obtain ⟨⟨hw1, hw2⟩, _⟩ := hw
      cases hr : n.recv with
      | nil => rw [hr] at hw1; simp at hw1
      | cons m ms =>
        rw [hr] at hw2
        have hm : m.complete = true := by simpa using hw2
        refine ⟨m, ms, rfl, hm, fun o1 d => ?_⟩
        obtain ⟨⟨B, hinv⟩, _⟩ := reach_inv h
        obtain ⟨dn, todo, r, ⟨_, hok, ht⟩, _, hq2, _⟩ := hinv.opened ho
        have hok2 : ∀ f ∈ todo, f.Ok := fun f hf => hok f (by simp [hf])
        rw [← hr]
        refine ⟨_, by unfold step; rw [ho]; rfl, ?_⟩
        unfold onProcess
        simp only [Bool.and_false, Bool.false_eq_true, if_false]
        have hsc : (scan p n.recv).2.1.length < n.recv.length := by
          have hle : ∀ q : List Msg, (scan p q).2.1.length ≤ q.length := by
            intro q
            induction q with
            | nil => exact Nat.le_refl _
            | cons x xs ih =>
              unfold scan
              split
              · exact Nat.le_refl _
              · split
                · simp
                · split
                  · simp; omega
                  · split
                    · simp; omega
                    · simp
          rw [hr]
          have := hle ms
          unfold scan
          rw [hm]
          simp only [Bool.not_true, Bool.false_eq_true, if_false]
          split
          · simp
          · split
            · simp; omega
            · split
              · simp; omega
              · simp
        split
        · rename_i hm'; rw [hm'] at hsc; exact hsc
        · simp only [close, List.length_nil]; rw [hr]; simp
        · rename_i hm'; rw [hm'] at hsc
          split
          · simp only [close, List.length_nil]; rw [hr]; simp
          · exact hsc
  · left; exact hq

/-- A reachable connection that must handle before it reads on, with a limit of 40 bytes. -/
example : ∃ n, Reach netA 40 n ∧ n.closed = false ∧ wantsRecv 40 n = false ∧ n.recv.length = 2 ∧ n.out.queue = [] := by
  refine ⟨⟨view [ownFrame netA msgPing, ownFrame netA msgAck] [], ⟨[], 0, 0, []⟩, false, false, []⟩, ?_, rfl, ?_, ?_, rfl⟩
  · exact .recv (bs := frame netA msgPing.1 msgPing.2 ++ frame netA msgAck.1 msgAck.2) .new rfl (by decide +kernel) (by decide +kernel)
  · decide +kernel
  · decide +kernel

/-! ## C129: memory is earned -/

/-- Messages received in full hold as much memory as was received; only the one under way can hold more, up to its announced size. -/
theorem memory_earned_partial (p : Params) (es : List Ev) {n : Node} (h : run p .new es = some n) :
    ∃ a b, n.recv = a ++ b ∧ b.length ≤ 1 ∧ (∀ m ∈ b, m.complete = false ∧ m.mem ≤ MAX_SIZE + 24) ∧
      totalRecv a ≤ (pieces es).length := by
  obtain ⟨n', e, hi⟩ := run_inv p es [] .new (inv_new p)
  rw [h] at e; injection e with e; subst e
  rw [List.nil_append] at hi
  cases hc : n.closed with
  | true => exact ⟨[], [], by rw [(hi.shut hc).1]; rfl, by simp, by simp, by simp [totalRecv]⟩
  | false =>
    obtain ⟨dn, todo, r, ⟨e1, hok, ht⟩, _, hq, _⟩ := hi.opened hc
    have hok2 : ∀ f ∈ todo, f.Ok := fun f hf => hok f (by simp [hf])
    refine ⟨todo.map msgOf, tailMsgs r, hq, ?_, ?_, ?_⟩
    · rw [tailMsgs_eq]; split <;> simp
    · have htt := (total_tail ht).1
      intro m hm
      rw [tailMsgs_eq] at hm htt
      split at hm
      · cases hm
      · rename_i h0
        rw [if_neg h0] at htt
        simp at hm
        subst hm
        refine ⟨tail_incomplete ht, ?_⟩
        simpa [totalRecv] using htt
    · rw [total_frames hok2, e1, flat_append]; simp; omega

/-- 24 zero bytes with one 2 among them, belonging to no network. -/
def bigHeader : List Nat := List.replicate 19 0 ++ [2, 0, 0, 0, 0]

/-- A header alone, of another network, makes the node hold 32 MiB, and no pass of the message loop frees them. -/
theorem memory_earned_violated : ∃ n, run netA .new [.recv bigHeader, .process false false false false] = some n ∧
    hStart bigHeader ≠ netA.start ∧ bigHeader.length = 24 ∧ n.closed = false ∧ totalRecv n.recv = 33554456 := by
  refine ⟨⟨[⟨true, bigHeader, 33554432, []⟩], ⟨[], 0, 0, []⟩, false, false, []⟩, ?_, ?_, ?_, ?_, ?_⟩ <;> decide +kernel

end Verif.Net
