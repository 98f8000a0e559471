import Verif.Net.Lemmas

/-! # Lemmas: frames of our own, sending, memory -/
namespace Verif.Net

/-! ## Frames as the sender makes them -/

theorem get_put32 (n : Nat) (h : n < 4294967296) : get32 (put32 n) = n := by
  simp only [put32, get32]; omega

theorem putCmd_length (c : List Nat) : (putCmd c).length = 12 := by simp [putCmd]; omega

theorem put32_length (n : Nat) : (put32 n).length = 4 := rfl

def hdrOf (p : Params) (cmd payload : List Nat) : List Nat :=
  p.start ++ putCmd cmd ++ put32 payload.length ++ put32 (p.cksum payload)

def ownFrame (p : Params) (m : List Nat × List Nat) : Frame := ⟨hdrOf p m.1 m.2, m.2⟩

theorem frame_eq (p : Params) (cmd payload : List Nat) : frame p cmd payload = hdrOf p cmd payload ++ payload := by
  simp [frame, hdrOf]

theorem hdrOf_length (p : Params) (hs : p.start.length = 4) (cmd payload : List Nat) : (hdrOf p cmd payload).length = 24 := by
  simp [hdrOf, hs, putCmd_length, put32_length]

theorem hdrOf_parts (p : Params) (hs : p.start.length = 4) (c d : List Nat) :
    hStart (hdrOf p c d) = p.start ∧ hCmd (hdrOf p c d) = putCmd c ∧ hSize (hdrOf p c d) = get32 (put32 d.length) ∧
      hSum (hdrOf p c d) = get32 (put32 (p.cksum d)) := by
  have hc := putCmd_length c
  refine ⟨?_, ?_, ?_, ?_⟩
  · simp only [hStart, hdrOf, List.append_assoc]
    rw [List.take_append_of_le_length (by omega), List.take_of_length_le (by omega)]
  · simp only [hCmd, hdrOf, List.append_assoc]
    rw [List.drop_append_of_le_length (by omega), List.drop_of_length_le (by omega), List.nil_append,
      List.take_append_of_le_length (by omega), List.take_of_length_le (by omega)]
  · have : hdrOf p c d = (p.start ++ putCmd c) ++ (put32 d.length ++ put32 (p.cksum d)) := by simp [hdrOf]
    rw [hSize, this]
    rw [List.drop_append_of_le_length (by simp; omega), List.drop_of_length_le (by simp; omega), List.nil_append,
      List.take_append_of_le_length (by rw [put32_length]), List.take_of_length_le (by rw [put32_length])]
  · have : hdrOf p c d = (p.start ++ putCmd c ++ put32 d.length) ++ put32 (p.cksum d) := by simp [hdrOf]
    rw [hSum, this]
    rw [List.drop_append_of_le_length (by simp [put32_length]; omega), List.drop_of_length_le (by simp [put32_length]; omega),
      List.nil_append, List.take_of_length_le (by rw [put32_length])]

theorem putCmd_name {c : List Nat} (h : Name c) : putCmd c = c ++ List.replicate (12 - c.length) 0 := by
  rw [putCmd, List.take_of_length_le h.1]

theorem ownFrame_ok {p : Params} (hs : p.start.length = 4) {m : List Nat × List Nat} (hm : m.2.length ≤ MAX_SIZE) : (ownFrame p m).Ok := by
  have h := (hdrOf_parts p hs m.1 m.2).2.2.1
  rw [get_put32 _ (by unfold MAX_SIZE at hm; omega)] at h
  exact ⟨hdrOf_length p hs _ _, by rw [ownFrame, h]; exact hm, by rw [ownFrame, h]⟩

theorem ownFrame_carries {p : Params} (hs : p.start.length = 4) (hck : ∀ d, p.cksum d < 4294967296) {m : List Nat × List Nat}
    (hn : Name m.1) : Carries p (ownFrame p m) m.1 := by
  obtain ⟨h1, h2, _, h4⟩ := hdrOf_parts p hs m.1 m.2
  refine ⟨h1, ?_, hn, ?_⟩
  · rw [ownFrame, h2, putCmd_name hn]
  · rw [ownFrame, h4, get_put32 _ (hck _)]

theorem flat_own (p : Params) (ms : List (List Nat × List Nat)) :
    flat (ms.map (ownFrame p)) = (ms.map fun m => frame p m.1 m.2).flatten := by
  simp [flat, ownFrame, frame_eq, Function.comp_def]

theorem said_own {p : Params} (hs : p.start.length = 4) (hck : ∀ d, p.cksum d < 4294967296) :
    ∀ {ms : List (List Nat × List Nat)}, (∀ m ∈ ms, Name m.1) → Said p (ms.map (ownFrame p)) ms
  | [], _ => .nil
  | m :: ms, h => by
    have := Said.carry (ownFrame_carries hs hck (h m (by simp))) (said_own hs hck fun x hx => h x (List.mem_cons_of_mem _ hx))
    exact this

/-! ## Sending -/

/-- Bookkeeping of the send queue. -/
structure OInv (o : Out) : Prop where
  empty : o.queue = [] → o.offset = 0
  head : ∀ d ds, o.queue = d :: ds → o.offset < d.length
  pos : ∀ d ∈ o.queue, 0 < d.length
  size : o.size = (o.queue.map List.length).sum

/-- Bytes still to be written. -/
def pending (o : Out) : List Nat := o.queue.flatten.drop o.offset

theorem sendLoop_spec : ∀ (ks : List Nat) (o : Out), OInv o →
    ∃ o', sendLoop o ks = some o' ∧ OInv o' ∧ o'.wire ++ pending o' = o.wire ++ pending o ∧ o.wire <+: o'.wire
  | ks, o, h => by
    rw [sendLoop.eq_def]
    rcases hq : o.queue with _ | ⟨d, ds⟩
    · have h1 := h.empty hq
      have h2 : o.size = 0 := by rw [h.size, hq]; rfl
      simp only [hq, h1, h2, and_self, if_true]
      exact ⟨o, rfl, h, rfl, List.prefix_rfl⟩
    · have hh := h.head d ds hq
      simp only [hq, Nat.not_le.mpr hh, if_false]
      cases ks with
      | nil => exact ⟨o, rfl, h, rfl, List.prefix_rfl⟩
      | cons k ks =>
        dsimp only
        obtain ⟨n, hn⟩ : ∃ n, n = min k (d.length - o.offset) := ⟨_, rfl⟩
        rw [← hn]
        split
        · exact ⟨o, rfl, h, rfl, List.prefix_rfl⟩
        · rename_i hn0
          have hsz := h.size
          rw [hq] at hsz
          simp only [List.map_cons, List.sum_cons] at hsz
          have hpend : pending o = d.drop o.offset ++ ds.flatten := by
            rw [pending, hq, List.flatten_cons, List.drop_append_of_le_length (by omega)]
          split
          · rename_i hd
            have hinv : OInv { o with wire := o.wire ++ (d.drop o.offset).take n, queue := ds, offset := 0, size := o.size - d.length } := by
              refine ⟨fun _ => rfl, ?_, ?_, ?_⟩
              · intro e es he; exact h.pos e (by rw [hq]; simp at he; simp [he])
              · intro e he; exact h.pos e (by rw [hq]; exact List.mem_cons_of_mem _ he)
              · show o.size - d.length = (ds.map List.length).sum; omega
            obtain ⟨o', e1, h1, e2, h2⟩ := sendLoop_spec ks _ hinv
            refine ⟨o', e1, h1, ?_, (List.prefix_append _ _).trans h2⟩
            rw [e2, hpend]
            have : (d.drop o.offset).take n = d.drop o.offset := List.take_of_length_le (by simp; omega)
            simp [pending, this]
          · rename_i hd
            refine ⟨_, rfl, ⟨?_, ?_, ?_, hq ▸ h.size⟩, ?_, List.prefix_append _ _⟩
            · intro he; cases he
            · intro e es he; injection he with he _; show o.offset + n < _; rw [← he]; omega
            · rw [← hq]; exact h.pos
            · have : pending { o with queue := d :: ds, wire := o.wire ++ (d.drop o.offset).take n, offset := o.offset + n } =
                  (d.drop o.offset).drop n ++ ds.flatten := by
                rw [pending]
                show ((d :: ds).flatten).drop _ = _
                rw [List.flatten_cons, List.drop_append_of_le_length (by show o.offset + n ≤ _; omega), List.drop_drop]
              rw [this, hpend]
              show o.wire ++ (d.drop o.offset).take n ++ _ = _
              rw [List.append_assoc, ← List.append_assoc (List.take _ _), List.take_append_drop]

theorem sendLoop_progress {ks : List Nat} {k : Nat} {o o' : Out} (h : OInv o) (hk : 0 < k) (hq : o.queue ≠ [])
    (he : sendLoop o (k :: ks) = some o') : o.wire.length < o'.wire.length := by
  rw [sendLoop.eq_def] at he
  rcases hq' : o.queue with _ | ⟨d, ds⟩
  · exact absurd hq' hq
  · have hh := h.head d ds hq'
    simp only [hq', Nat.not_le.mpr hh, if_false] at he
    obtain ⟨n, hn⟩ : ∃ n, n = min k (d.length - o.offset) := ⟨_, rfl⟩
    rw [← hn] at he
    rw [if_neg (by omega)] at he
    have hlen : ((d.drop o.offset).take n).length = n := by simp; omega
    have hsz := h.size
    rw [hq'] at hsz
    simp only [List.map_cons, List.sum_cons] at hsz
    split at he
    · have hinv : OInv { o with wire := o.wire ++ (d.drop o.offset).take n, queue := ds, offset := 0, size := o.size - d.length } := by
        refine ⟨fun _ => rfl, ?_, ?_, ?_⟩
        · intro e es he; exact h.pos e (by rw [hq']; simp at he; simp [he])
        · intro e he; exact h.pos e (by rw [hq']; exact List.mem_cons_of_mem _ he)
        · show o.size - d.length = (ds.map List.length).sum; omega
      obtain ⟨o2, e1, _, _, h2⟩ := sendLoop_spec ks _ hinv
      rw [e1] at he
      injection he with he
      subst he
      have := h2.length_le
      simp only [List.length_append, hlen] at this
      omega
    · injection he with he
      subst he
      simp only [List.length_append, hlen]; omega

theorem push_spec {p : Params} {o : Out} (h : OInv o) (cmd payload ks : List Nat) :
    ∃ o', push p o cmd payload ks = some o' ∧ OInv o' ∧
      o'.wire ++ pending o' = o.wire ++ pending o ++ frame p cmd payload ∧ o.wire <+: o'.wire := by
  have hlen : 0 < (frame p cmd payload).length := by
    simp [frame, putCmd_length]
  have hinv : OInv { o with queue := o.queue ++ [frame p cmd payload], size := o.size + (frame p cmd payload).length } := by
    refine ⟨?_, ?_, ?_, ?_⟩
    · intro he; simp at he
    · intro d ds he
      cases hq : o.queue with
      | nil =>
        simp only [hq, List.nil_append] at he
        injection he with he _
        have := h.empty hq
        show o.offset < _
        rw [this, ← he]; exact hlen
      | cons e es =>
        simp only [hq, List.cons_append] at he
        injection he with he _
        show o.offset < _
        rw [← he]; exact h.head e es hq
    · intro d hd
      rcases List.mem_append.mp hd with hd | hd
      · exact h.pos d hd
      · simp at hd; rw [hd]; exact hlen
    · show _ = _
      simp [h.size]
  have hoff : o.offset ≤ o.queue.flatten.length := by
    cases hq : o.queue with
    | nil => rw [h.empty hq]; exact Nat.zero_le _
    | cons e es => have := h.head e es hq; simp; omega
  have hp : pending { o with queue := o.queue ++ [frame p cmd payload], size := o.size + (frame p cmd payload).length } =
      pending o ++ frame p cmd payload := by
    rw [pending, pending]
    show (o.queue ++ [frame p cmd payload]).flatten.drop o.offset = _
    rw [List.flatten_append, List.drop_append_of_le_length hoff]; simp
  unfold push
  dsimp only
  split
  · obtain ⟨o', e1, h1, e2, h2⟩ := sendLoop_spec ks _ hinv
    refine ⟨o', e1, h1, ?_, h2⟩
    rw [e2, hp, List.append_assoc]
  · refine ⟨_, rfl, hinv, ?_, List.prefix_rfl⟩
    rw [hp, List.append_assoc]

/-! ## Memory -/

theorem mem_msgOf {f : Frame} (h : f.Ok) : (msgOf f).mem = (f.h ++ f.d).length := by
  simp [Msg.mem, msgOf, h.1, h.2.2]; omega

theorem total_frames : ∀ {fs : List Frame}, (∀ f ∈ fs, f.Ok) → totalRecv (fs.map msgOf) = (flat fs).length
  | [], _ => rfl
  | f :: fs, h => by
    have ih := total_frames (fs := fs) fun x hx => h x (by simp [hx])
    have hm := mem_msgOf (h f (by simp))
    rw [flat_cons]
    simp only [totalRecv, List.map_cons, List.sum_cons, List.length_append] at ih hm ⊢
    omega

theorem total_tail {r : List Nat} (h : Tail r) : totalRecv (tailMsgs r) ≤ MAX_SIZE + 24 ∧ r.length ≤ totalRecv (tailMsgs r) := by
  rw [tailMsgs_eq]
  rcases h with h | ⟨h', d, e, hl, hs, hd⟩
  · split
    · rename_i h0; subst h0; simp [totalRecv]
    · simp [totalRecv, curMsg, h, Msg.mem]; omega
  · have h24 : ¬ r.length < 24 := by rw [e]; simp; omega
    have hne : r ≠ [] := by intro h0; rw [h0] at h24; simp at h24
    have e1 : r.take 24 = h' := by rw [e, ← hl]; simp
    rw [if_neg hne]
    simp only [totalRecv, curMsg, h24, if_false, Msg.mem, if_true, List.map_cons, List.map_nil, List.sum_cons, List.sum_nil, e1]
    have : r.length = 24 + d.length := by rw [e]; simp [hl]
    omega

theorem total_append (a b : List Msg) : totalRecv (a ++ b) = totalRecv a + totalRecv b := by simp [totalRecv]

theorem total_view {fs : List Frame} {r : List Nat} (h : ∀ f ∈ fs, f.Ok) :
    totalRecv (view fs r) = (flat fs).length + totalRecv (tailMsgs r) := by
  rw [view, total_append, total_frames h]

/-- Growth of the queue by one piece. -/
theorem receive_grows {fs fs' : List Frame} {r r' bs : List Nat} (hf : ∀ f ∈ fs, f.Ok) (hr : Tail r)
    (hc : Cut (flat fs ++ r ++ bs) fs' r') :
    totalRecv (view fs' r') ≤ totalRecv (view fs r) + bs.length + (MAX_SIZE + 24) := by
  have h1 := total_tail hr
  have h2 := total_tail hc.2.2
  have h3 := congrArg List.length hc.1
  simp only [List.length_append] at h3
  rw [total_view hf, total_view hc.2.1]
  omega

end Verif.Net
