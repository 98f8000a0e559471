import Verif.Hash.Model

namespace Verif.Hash

/-! ### Spec: the standard construction -/

/-- Split into blocks of `B` bytes (a last incomplete block is left out). -/
def split (B : Nat) (m : Bytes) : List Bytes :=
  if h : m.length ≥ B ∧ 0 < B then m.take B :: split B (m.drop B) else []
termination_by m.length
decreasing_by simp only [List.length_drop]; omega

/-- What is left over. -/
def rest (B : Nat) (m : Bytes) : Bytes := m.drop (B * (m.length / B))

theorem split_lt {B : Nat} {m : Bytes} (h : m.length < B) : split B m = [] := by
  rw [split, dif_neg (by omega)]

theorem split_cons {B : Nat} (hB : 0 < B) {a : Bytes} (ha : a.length = B) (m : Bytes) :
    split B (a ++ m) = a :: split B m := by
  rw [split, dif_pos (by simp; omega)]
  have h1 : (a ++ m).take B = a := by rw [← ha]; simp
  have h2 : (a ++ m).drop B = m := by rw [← ha]; simp
  rw [h1, h2]

theorem rest_lt {B : Nat} {m : Bytes} (h : m.length < B) : rest B m = m := by
  simp [rest, Nat.div_eq_of_lt h]

theorem rest_cons {B : Nat} (hB : 0 < B) {a : Bytes} (ha : a.length = B) (m : Bytes) :
    rest B (a ++ m) = rest B m := by
  unfold rest
  rw [List.length_append, ha, Nat.add_div_left _ hB, Nat.mul_succ, Nat.add_comm, List.drop_append,
    ha]
  rw [List.drop_of_length_le (by omega)]
  simp

theorem rest_len {B : Nat} (m : Bytes) : (rest B m).length = m.length % B := by
  unfold rest
  rw [List.length_drop]
  have := Nat.div_add_mod m.length B
  omega

/-- Induction by blocks. -/
theorem blockInd {B : Nat} (hB : 0 < B) {P : Bytes → Prop} (base : ∀ m, m.length < B → P m)
    (step : ∀ a m, a.length = B → P m → P (a ++ m)) : ∀ m, P m := by
  intro m
  induction hn : m.length using Nat.strongRecOn generalizing m with
  | ind n ih =>
    by_cases hl : m.length < B
    · exact base m hl
    · rw [← List.take_append_drop B m]
      apply step
      · rw [List.length_take]; omega
      · exact ih (m.drop B).length (by rw [List.length_drop]; omega) _ rfl

theorem split_append {B : Nat} (hB : 0 < B) (m d : Bytes) :
    split B (m ++ d) = split B m ++ split B (rest B m ++ d) := by
  induction m using blockInd hB with
  | base m hm => rw [split_lt hm, rest_lt hm]; rfl
  | step a m ha ih =>
    rw [List.append_assoc, split_cons hB ha, split_cons hB ha, rest_cons hB ha, ih]; rfl

theorem rest_append {B : Nat} (hB : 0 < B) (m d : Bytes) :
    rest B (m ++ d) = rest B (rest B m ++ d) := by
  induction m using blockInd hB with
  | base m hm => rw [rest_lt hm]
  | step a m ha ih => rw [List.append_assoc, rest_cons hB ha, rest_cons hB ha, ih]

/-- Run of the compression function over the whole blocks. -/
def absorb (A : Alg) (s : A.S) (m : Bytes) : A.S := (split A.B m).foldl A.compress s

theorem oneByOne_eq (A : Alg) (hB : 0 < A.B) (d : Bytes) : ∀ s n,
    oneByOne A s n d =
      (absorb A s d, if d.length < A.B then n else u64 (n + A.B * (d.length / A.B)), rest A.B d) := by
  induction d using blockInd hB with
  | base m hm =>
    intro s n
    rw [oneByOne, dif_neg (by omega), rest_lt hm, if_pos hm, absorb, split_lt hm]; rfl
  | step a m ha ih =>
    intro s n
    have h1 : (a ++ m).take A.B = a := by rw [← ha]; simp
    have h2 : (a ++ m).drop A.B = m := by rw [← ha]; simp
    rw [oneByOne, dif_pos (by simp; omega), h1, h2, ih, rest_cons hB ha, absorb, absorb,
      split_cons hB ha, List.foldl_cons]
    refine Prod.ext rfl (Prod.ext ?_ rfl)
    have hq : (a ++ m).length / A.B = m.length / A.B + 1 := by
      rw [List.length_append, ha, Nat.add_div_left _ hB]
    dsimp only
    have hnl : ¬ (a ++ m).length < A.B := by rw [List.length_append, ha]; omega
    rw [if_neg hnl, hq, Nat.mul_succ]
    by_cases hm : m.length < A.B
    · rw [if_pos hm, Nat.div_eq_of_lt hm]; simp
    · rw [if_neg hm]; unfold u64; rw [Nat.mod_add_mod]; congr 1; omega

theorem transformN_eq (A : Alg) (hB : 0 < A.B) (d : Bytes) : ∀ s,
    transformN A s d (d.length / A.B) = absorb A s d := by
  induction d using blockInd hB with
  | base m hm => intro s; rw [Nat.div_eq_of_lt hm, transformN, absorb, split_lt hm]; rfl
  | step a m ha ih =>
    intro s
    have h1 : (a ++ m).take A.B = a := by rw [← ha]; simp
    have h2 : (a ++ m).drop A.B = m := by rw [← ha]; simp
    rw [List.length_append, ha, Nat.add_div_left _ hB, transformN, h1, h2, ih, absorb, absorb,
      split_cons hB ha, List.foldl_cons]

theorem together_eq (A : Alg) (hB : 0 < A.B) (d : Bytes) (s : A.S) (n : Nat) :
    together A s n d =
      (absorb A s d, if d.length < A.B then n else u64 (n + A.B * (d.length / A.B)), rest A.B d) := by
  unfold together
  by_cases h : d.length < A.B
  · rw [if_neg (by omega), if_pos h, rest_lt h, absorb, split_lt h]; rfl
  · rw [if_pos (by omega), if_neg h]; dsimp only; rw [transformN_eq A hB]; rfl

theorem whole_eq (A : Alg) (hB : 0 < A.B) (d : Bytes) (s : A.S) (n : Nat) :
    whole A s n d =
      (absorb A s d, if d.length < A.B then n else u64 (n + A.B * (d.length / A.B)), rest A.B d) := by
  unfold whole
  split
  · exact together_eq A hB d s n
  · exact oneByOne_eq A hB d s n

/-- The object has been given the bytes `m`. -/
structure Rep (A : Alg) (st : St A) (m : Bytes) : Prop where
  s : st.s = absorb A A.init m
  len : st.buf.length = A.B
  bytes : st.bytes = u64 m.length
  buf : st.buf.take (m.length % A.B) = rest A.B m

structure WF (A : Alg) : Prop where
  pos : 0 < A.B
  dvd : A.B ∣ 2 ^ 64
  len : 8 ≤ A.L
  le : A.L + 1 ≤ A.B
  padc : A.padc = 2 * A.B - 1 - A.L

theorem rep_fresh (A : Alg) (h : WF A) (junk : Bytes) (hj : junk.length = A.B) :
    Rep A (fresh A junk) [] := by
  refine ⟨?_, hj, rfl, ?_⟩
  · simp only [absorb, fresh]; rw [split_lt (by simpa using h.pos)]; rfl
  · simp [fresh, rest]

theorem rep_reset (A : Alg) (h : WF A) {st : St A} (hl : st.buf.length = A.B) :
    Rep A (reset A st) [] :=  by
  refine ⟨?_, hl, rfl, ?_⟩
  · simp only [absorb, reset]; rw [split_lt (by simpa using h.pos)]; rfl
  · simp [reset, rest]

theorem copyAt_len {buf : Bytes} {off : Nat} {d : Bytes} (h : off + d.length ≤ buf.length) :
    (copyAt buf off d).length = buf.length := by
  unfold copyAt
  simp only [List.length_append, List.length_take, List.length_drop]
  omega

theorem copyAt_take {buf : Bytes} {off : Nat} {d : Bytes} (h : off + d.length ≤ buf.length) :
    (copyAt buf off d).take (off + d.length) = buf.take off ++ d := by
  unfold copyAt
  rw [List.take_append_of_le_length (by simp; omega)]
  apply List.take_of_length_le
  simp; omega

theorem absorb_append (A : Alg) (h : WF A) (s : A.S) (m d : Bytes) :
    absorb A s (m ++ d) = absorb A (absorb A s m) (rest A.B m ++ d) := by
  unfold absorb; rw [split_append h.pos, List.foldl_append]

/-- `Write` appends. -/
theorem rep_write (A : Alg) (h : WF A) {st : St A} {m : Bytes} (hr : Rep A st m) (d : Bytes) :
    Rep A (write A st d) (m ++ d) := by
  have hB := h.pos
  have hbs : st.bytes % A.B = m.length % A.B := by
    rw [hr.bytes, u64, Nat.mod_mod_of_dvd _ h.dvd]
  have hlt : m.length % A.B < A.B := Nat.mod_lt _ hB
  have hrl : (rest A.B m).length = m.length % A.B := rest_len m
  unfold write
  rw [hbs]
  dsimp only
  by_cases hc : m.length % A.B ≠ 0 ∧ m.length % A.B + d.length ≥ A.B
  · -- the buffer is filled
    have hfl : (d.take (A.B - m.length % A.B)).length = A.B - m.length % A.B := by
      rw [List.length_take]; omega
    have hbuf : copyAt st.buf (m.length % A.B) (d.take (A.B - m.length % A.B)) =
        rest A.B m ++ d.take (A.B - m.length % A.B) := by
      have h1 := copyAt_take (buf := st.buf) (off := m.length % A.B)
        (d := d.take (A.B - m.length % A.B)) (by rw [hfl, hr.len]; omega)
      rw [hr.buf, hfl] at h1
      refine (List.take_of_length_le ?_).symm.trans h1
      rw [copyAt_len (by rw [hfl, hr.len]; omega), hr.len]; omega
    have hbl : (rest A.B m ++ d.take (A.B - m.length % A.B)).length = A.B := by
      rw [List.length_append, hfl, hrl]; omega
    have hd : rest A.B m ++ d = (rest A.B m ++ d.take (A.B - m.length % A.B)) ++
        d.drop (A.B - m.length % A.B) := by
      rw [List.append_assoc, List.take_append_drop]
    have hs : absorb A A.init (m ++ d) =
        absorb A (A.compress st.s (rest A.B m ++ d.take (A.B - m.length % A.B)))
          (d.drop (A.B - m.length % A.B)) := by
      rw [absorb_append A h, hd, absorb, split_cons hB hbl, List.foldl_cons, hr.s]; rfl
    have hrest : rest A.B (m ++ d) = rest A.B (d.drop (A.B - m.length % A.B)) := by
      rw [rest_append hB, hd, rest_cons hB hbl]
    have hlen : (m ++ d).length = m.length + (A.B - m.length % A.B) +
        (d.drop (A.B - m.length % A.B)).length := by
      rw [List.length_append, List.length_drop]; omega
    rw [if_pos hc]
    simp only [hbuf]
    rw [whole_eq A hB]
    simp only
    generalize hd' : d.drop (A.B - m.length % A.B) = d' at *
    have hmod : (m ++ d).length % A.B = d'.length % A.B := by
      have := Nat.div_add_mod m.length A.B
      have e : (m ++ d).length = d'.length + A.B * (m.length / A.B + 1) := by
        rw [hlen, Nat.mul_succ]; omega
      rw [e, Nat.add_mul_mod_self_left]
    have hcount : (if d'.length < A.B then u64 (st.bytes + (A.B - m.length % A.B))
        else u64 (u64 (st.bytes + (A.B - m.length % A.B)) + A.B * (d'.length / A.B))) =
        u64 (m.length + (A.B - m.length % A.B) + A.B * (d'.length / A.B)) := by
      rw [hr.bytes]
      by_cases hq : d'.length < A.B
      · rw [if_pos hq, Nat.div_eq_of_lt hq]; unfold u64; rw [Nat.mod_add_mod]; rfl
      · rw [if_neg hq]; unfold u64; rw [Nat.mod_add_mod, Nat.add_assoc, Nat.mod_add_mod, Nat.add_assoc]
    have hrl' : (rest A.B d').length = d'.length % A.B := rest_len d'
    have hlt' : d'.length % A.B < A.B := Nat.mod_lt _ hB
    have hdm := Nat.div_add_mod d'.length A.B
    by_cases hn : rest A.B d' ≠ []
    · rw [if_pos hn]
      refine ⟨hs.symm, ?_, ?_, ?_⟩
      · dsimp only; rw [copyAt_len (by rw [hbl]; omega), hbl]
      · dsimp only; rw [hcount, hlen, hrl']; unfold u64; rw [Nat.mod_add_mod]; congr 1; omega
      · dsimp only
        have := copyAt_take (buf := rest A.B m ++ d.take (A.B - m.length % A.B)) (off := 0)
          (d := rest A.B d') (by rw [hbl]; omega)
        rw [hmod, ← hrl', hrest]
        simpa using this
    · rw [if_neg hn]
      have hn' : rest A.B d' = [] := Classical.not_not.1 hn
      have hz : d'.length % A.B = 0 := by rw [← hrl', hn']; rfl
      refine ⟨hs.symm, hbl, ?_, ?_⟩
      · dsimp only; rw [hcount, hlen]; congr 1; omega
      · dsimp only; rw [hmod, hz, hrest, hn']; rfl
  · rw [if_neg hc]
    simp only
    rw [whole_eq A hB]
    simp only
    by_cases hz : m.length % A.B = 0
    · -- nothing in the buffer
      have hr0 : rest A.B m = [] := List.length_eq_zero_iff.1 (by rw [hrl, hz])
      have hs : absorb A A.init (m ++ d) = absorb A st.s d := by
        rw [absorb_append A h, hr0, hr.s]; rfl
      have hrest : rest A.B (m ++ d) = rest A.B d := by rw [rest_append hB, hr0]; rfl
      have hmod : (m ++ d).length % A.B = d.length % A.B := by
        rw [List.length_append, Nat.add_mod, hz, Nat.zero_add, Nat.mod_mod]
      have hcount : (if d.length < A.B then st.bytes else u64 (st.bytes + A.B * (d.length / A.B))) =
          u64 (m.length + A.B * (d.length / A.B)) := by
        rw [hr.bytes]
        by_cases hq : d.length < A.B
        · rw [if_pos hq, Nat.div_eq_of_lt hq]; rfl
        · rw [if_neg hq]; unfold u64; rw [Nat.mod_add_mod]
      have hrl' : (rest A.B d).length = d.length % A.B := rest_len d
      have hlt' : d.length % A.B < A.B := Nat.mod_lt _ hB
      have hdm := Nat.div_add_mod d.length A.B
      by_cases hn : rest A.B d ≠ []
      · rw [if_pos hn, hz]
        refine ⟨hs.symm, ?_, ?_, ?_⟩
        · dsimp only; rw [copyAt_len (by rw [hr.len]; omega), hr.len]
        · dsimp only; rw [hcount, List.length_append, hrl']; unfold u64; rw [Nat.mod_add_mod]
          congr 1; omega
        · dsimp only
          have := copyAt_take (buf := st.buf) (off := 0) (d := rest A.B d) (by rw [hr.len]; omega)
          rw [hmod, ← hrl', hrest]
          simpa using this
      · rw [if_neg hn]
        have hn' : rest A.B d = [] := Classical.not_not.1 hn
        have hz' : d.length % A.B = 0 := by rw [← hrl', hn']; rfl
        refine ⟨hs.symm, hr.len, ?_, ?_⟩
        · dsimp only; rw [hcount, List.length_append]; congr 1; omega
        · dsimp only; rw [hmod, hz', hrest, hn']; rfl
    · -- the buffer is not filled
      have hsum : m.length % A.B + d.length < A.B := by
        rcases Nat.lt_or_ge (m.length % A.B + d.length) A.B with h1 | h1
        · exact h1
        · exact absurd ⟨hz, h1⟩ hc
      have hdl : d.length < A.B := by omega
      have hl2 : (rest A.B m ++ d).length < A.B := by rw [List.length_append, hrl]; exact hsum
      have hs : absorb A A.init (m ++ d) = st.s := by
        rw [absorb_append A h, hr.s, absorb, split_lt hl2]; rfl
      have hrest : rest A.B (m ++ d) = rest A.B m ++ d := by rw [rest_append hB, rest_lt hl2]
      have hmod : (m ++ d).length % A.B = m.length % A.B + d.length := by
        rw [← rest_len, hrest, List.length_append, hrl]
      have hab : absorb A st.s d = st.s := by rw [absorb, split_lt hdl]; rfl
      rw [if_pos hdl, rest_lt hdl, hab]
      by_cases hn : d ≠ []
      · rw [if_pos hn]
        refine ⟨hs.symm, ?_, ?_, ?_⟩
        · dsimp only; rw [copyAt_len (by rw [hr.len]; omega), hr.len]
        · dsimp only; rw [hr.bytes, List.length_append]; unfold u64; rw [Nat.mod_add_mod]
        · dsimp only
          rw [hmod, copyAt_take (by rw [hr.len]; omega), hr.buf, hrest]
      · rw [if_neg hn]
        have hn' : d = [] := Classical.not_not.1 hn
        subst hn'
        refine ⟨hs.symm, hr.len, ?_, ?_⟩
        · simpa using hr.bytes
        · simpa using hr.buf

theorem rep_writes (A : Alg) (h : WF A) (ds : List Bytes) : ∀ {st : St A} {m : Bytes}, Rep A st m →
    Rep A (writes A st ds) (m ++ ds.flatten) := by
  induction ds with
  | nil => intro st m hr; simpa [writes] using hr
  | cons d ds ih =>
    intro st m hr
    have := ih (rep_write A h hr d)
    simpa [writes, List.append_assoc] using this

/-- Padding the code uses, in closed form. -/
def codePad (A : Alg) (n : Nat) : Bytes :=
  0x80 :: List.replicate ((A.padc - n % A.B) % A.B) 0 ++ sizedesc A (u64 n)

theorem finalize_eq (A : Alg) (h : WF A) {st : St A} {m : Bytes} (hr : Rep A st m) :
    (finalize A st).1 = A.out (absorb A A.init (m ++ codePad A m.length)) ∧
    Rep A (finalize A st).2 (m ++ codePad A m.length) := by
  have hbs : st.bytes % A.B = m.length % A.B := by
    rw [hr.bytes, u64, Nat.mod_mod_of_dvd _ h.dvd]
  have hB := h.pos
  have hp : (padArr A).take (1 + (A.padc - m.length % A.B) % A.B) =
      0x80 :: List.replicate ((A.padc - m.length % A.B) % A.B) 0 := by
    have : (A.padc - m.length % A.B) % A.B < A.B := Nat.mod_lt _ hB
    rw [padArr, Nat.add_comm, List.take_succ_cons, List.take_replicate]
    congr 2; omega
  have h1 := rep_write A h hr ((padArr A).take (1 + (A.padc - st.bytes % A.B) % A.B))
  have h2 := rep_write A h h1 (sizedesc A st.bytes)
  rw [hbs] at h1
  have he : m ++ ((padArr A).take (1 + (A.padc - st.bytes % A.B) % A.B)) ++ sizedesc A st.bytes =
      m ++ codePad A m.length := by
    rw [hbs, hp, hr.bytes, codePad, List.append_assoc]
  rw [he] at h2
  exact ⟨by rw [finalize]; exact congrArg _ h2.s, h2⟩

end Verif.Hash
