import Verif.Hash.Lemmas

/-!
# Properties of the streaming hashes (C139, C140)

`Digest` below is the standard construction (FIPS 180-4 section 5.1 and 6, the RIPEMD paper), stated
without any function of the model.
-/

namespace Verif.Hash

/-! ### Spec -/

/-- Number written by bytes, lowest first. -/
def valLE : Bytes → Nat
  | [] => 0
  | b :: bs => b.toNat + 256 * valLE bs

/-- Number written by bytes in the order of the algorithm. -/
def valOf (big : Bool) (bs : Bytes) : Nat := if big then valLE bs.reverse else valLE bs

/-- `p` is the padding of a message of `n` bytes: a one bit, as few zeros as possible, and the number
of bits in a field of `L` bytes, to a whole number of blocks of `B` bytes. -/
def IsPadding (B L : Nat) (big : Bool) (n : Nat) (p : Bytes) : Prop :=
  ∃ k f, p = 0x80 :: List.replicate k 0 ++ f ∧ k < B ∧ f.length = L ∧ valOf big f = 8 * n ∧
    B ∣ n + p.length

/-- `h` is the digest of `m`. -/
def Digest (B L : Nat) (big : Bool) {S : Type} (init : S) (f : S → Bytes → S) (out : S → Bytes)
    (m h : Bytes) : Prop :=
  ∃ (p : Bytes) (blocks : List Bytes), IsPadding B L big m.length p ∧ blocks.flatten = m ++ p ∧
    (∀ b ∈ blocks, b.length = B) ∧ h = out (blocks.foldl f init)

/-! ### Link -/

theorem valLE_lt : ∀ bs : Bytes, valLE bs < 256 ^ bs.length
  | [] => by simp [valLE]
  | b :: bs => by
    have := valLE_lt bs
    have hb := b.toNat_lt
    rw [valLE, List.length_cons, Nat.pow_succ]; omega

theorem valLE_inj : ∀ a b : Bytes, a.length = b.length → valLE a = valLE b → a = b
  | [], [], _, _ => rfl
  | [], _ :: _, h, _ => by simp at h
  | _ :: _, [], h, _ => by simp at h
  | x :: xs, y :: ys, h, hv => by
    have hx := x.toNat_lt
    have hy := y.toNat_lt
    rw [valLE, valLE] at hv
    have h1 : x.toNat = y.toNat := by omega
    have h2 : valLE xs = valLE ys := by omega
    rw [valLE_inj xs ys (by simpa using h) h2, UInt8.toNat_inj.1 h1]

theorem valOf_inj (big : Bool) (a b : Bytes) (h : a.length = b.length)
    (hv : valOf big a = valOf big b) : a = b := by
  cases big with
  | false => exact valLE_inj a b h (by simpa [valOf] using hv)
  | true =>
    have := valLE_inj a.reverse b.reverse (by simpa using h) (by simpa [valOf] using hv)
    exact List.reverse_inj.1 this

theorem le64_len (n : Nat) : (le64 n).length = 8 := by simp [le64]

theorem valLE_le64 (n : Nat) (h : n < 2 ^ 64) : valLE (le64 n) = n := by
  simp only [le64, List.range, List.range.loop, List.map, valLE, byteOf, UInt8.toNat_ofNat']
  omega

theorem valLE_append_zeros : ∀ (a : Bytes) (k : Nat), valLE (a ++ List.replicate k 0) = valLE a
  | [], 0 => rfl
  | [], k + 1 => by
    have := valLE_append_zeros [] k
    rw [List.nil_append] at this ⊢
    rw [List.replicate_succ]
    show (0 : UInt8).toNat + 256 * valLE (List.replicate k 0) = valLE []
    rw [this]; rfl
  | x :: xs, k => by rw [List.cons_append, valLE, valLE_append_zeros xs k, valLE]

/-- Little endian fields of the code have no bytes to spare. -/
structure Good (A : Alg) : Prop extends WF A where
  le8 : A.big = false → A.L = 8

theorem sizedesc_ok (A : Alg) (h : Good A) (n : Nat) (hn : 8 * n < 2 ^ 64) :
    (sizedesc A n).length = A.L ∧ valOf A.big (sizedesc A n) = 8 * n := by
  have hl := h.len
  have hu : u64 (n * 8) = 8 * n := by unfold u64; rw [Nat.mod_eq_of_lt (by omega)]; omega
  unfold sizedesc
  rw [hu]
  cases hb : A.big with
  | true =>
    constructor
    · simp [be64, le64_len]; omega
    · simp only [valOf, if_true, be64, List.reverse_append, List.reverse_reverse,
        List.reverse_replicate, valLE_append_zeros, valLE_le64 _ hn]
  | false =>
    rw [h.le8 hb]
    constructor
    · simp [le64_len]
    · simp [valOf, valLE_le64 _ hn]

theorem codePad_ok (A : Alg) (h : Good A) (n : Nat) (hn : 8 * n < 2 ^ 64) :
    IsPadding A.B A.L A.big n (codePad A n) := by
  have hu : u64 n = n := Nat.mod_eq_of_lt (by omega)
  obtain ⟨h1, h2⟩ := sizedesc_ok A h n hn
  refine ⟨(A.padc - n % A.B) % A.B, sizedesc A n, ?_, Nat.mod_lt _ h.pos, h1, h2, ?_⟩
  · rw [codePad, hu]
  · rw [codePad, hu]
    simp only [List.cons_append, List.length_cons, List.length_append, List.length_replicate, h1]
    have hpos := h.pos
    have hle := h.le
    have hlt : n % A.B < A.B := Nat.mod_lt _ hpos
    have hdm := Nat.div_add_mod n A.B
    have hp := h.padc
    have hdm2 := Nat.div_add_mod (A.padc - n % A.B) A.B
    -- padc - r + r + 1 + L = 2 B
    have : n + ((A.padc - n % A.B) % A.B + A.L + 1) + A.B * ((A.padc - n % A.B) / A.B) =
        A.B * (n / A.B + 2) := by
      rw [Nat.mul_add]; omega
    have hd : A.B ∣ n + ((A.padc - n % A.B) % A.B + A.L + 1) +
        A.B * ((A.padc - n % A.B) / A.B) := by rw [this]; exact Nat.dvd_mul_right _ _
    exact (Nat.dvd_add_left (Nat.dvd_mul_right _ _)).1 hd

theorem padding_unique (B L : Nat) (big : Bool) (n : Nat) (p q : Bytes)
    (hp : IsPadding B L big n p) (hq : IsPadding B L big n q) : p = q := by
  obtain ⟨k, f, rfl, hk, hf, hv, hd⟩ := hp
  obtain ⟨k', f', rfl, hk', hf', hv', hd'⟩ := hq
  have hff : f = f' := valOf_inj big f f' (by omega) (by omega)
  have hkk : k = k' := by
    simp only [List.cons_append, List.length_cons, List.length_append, List.length_replicate] at hd hd'
    rw [hf] at hd
    rw [hf'] at hd'
    have aux : ∀ x y : Nat, x ≤ y → y < B → B ∣ n + (x + L + 1) → B ∣ n + (y + L + 1) → x = y := by
      intro x y hxy hy h1 h2
      have h3 : B ∣ y - x := by
        have e : n + (y + L + 1) = n + (x + L + 1) + (y - x) := by omega
        rw [e] at h2
        exact (Nat.dvd_add_right h1).1 h2
      rcases Nat.eq_zero_or_pos (y - x) with h0 | h0
      · omega
      · have := Nat.le_of_dvd h0 h3; omega
    rcases Nat.le_total k k' with h | h
    · exact aux k k' h hk' hd hd'
    · exact (aux k' k h hk hd' hd).symm
  rw [hff, hkk]

theorem split_flatten {B : Nat} (hB : 0 < B) : ∀ bs : List Bytes, (∀ b ∈ bs, b.length = B) →
    split B bs.flatten = bs
  | [], _ => by rw [List.flatten_nil, split_lt (by simpa using hB)]
  | b :: bs, h => by
    rw [List.flatten_cons, split_cons hB (h b List.mem_cons_self),
      split_flatten hB bs fun x hx => h x (List.mem_cons_of_mem _ hx)]

theorem split_ok {B : Nat} (hB : 0 < B) (m : Bytes) : (∀ b ∈ split B m, b.length = B) ∧
    (split B m).flatten ++ rest B m = m := by
  induction m using blockInd hB with
  | base m hm => rw [split_lt hm, rest_lt hm]; simp
  | step a m ha ih =>
    rw [split_cons hB ha, rest_cons hB ha]
    constructor
    · intro b hb
      rcases List.mem_cons.1 hb with rfl | hb
      · exact ha
      · exact ih.1 b hb
    · rw [List.flatten_cons, List.append_assoc, ih.2]

theorem finalize_digest (A : Alg) (h : Good A) {st : St A} {m : Bytes} (hr : Rep A st m)
    (hm : m.length < 2 ^ 61) :
    Digest A.B A.L A.big A.init A.compress A.out m (finalize A st).1 := by
  have hp := codePad_ok A h m.length (by omega)
  obtain ⟨h1, h2⟩ := split_ok h.pos (m ++ codePad A m.length)
  refine ⟨codePad A m.length, split A.B (m ++ codePad A m.length), hp, ?_, h1,
    (finalize_eq A h.toWF hr).1⟩
  have h0 : rest A.B (m ++ codePad A m.length) = [] := by
    apply List.length_eq_zero_iff.1
    rw [rest_len, List.length_append]
    obtain ⟨_, _, _, _, _, _, hd⟩ := hp
    exact Nat.mod_eq_zero_of_dvd hd
  rw [h0, List.append_nil] at h2
  exact h2

theorem digest_unique {B L : Nat} (hB : 0 < B) {big : Bool} {S : Type} {init : S}
    {f : S → Bytes → S} {out : S → Bytes} {m h h' : Bytes} (h1 : Digest B L big init f out m h)
    (h2 : Digest B L big init f out m h') : h = h' := by
  obtain ⟨p, bs, hp, hf, hl, rfl⟩ := h1
  obtain ⟨p', bs', hp', hf', hl', rfl⟩ := h2
  have hpp := padding_unique B L big m.length p p' hp hp'
  subst hpp
  have : bs = bs' := by rw [← split_flatten hB bs hl, ← split_flatten hB bs' hl', hf, hf']
  rw [this]

section
variable {S : Type} (i : S) (f : S → Bytes → S) (o : S → Bytes)

theorem good256 : Good (sha256 S i f o) :=
  ⟨⟨by simp [sha256], by simp only [sha256]; exact ⟨2 ^ 58, by decide⟩, by simp [sha256], by simp [sha256], by simp [sha256]⟩,
    by intro h; cases h⟩
theorem good1 : Good (sha1 S i f o) :=
  ⟨⟨by simp [sha1], by simp only [sha1]; exact ⟨2 ^ 58, by decide⟩, by simp [sha1], by simp [sha1], by simp [sha1]⟩,
    by intro h; cases h⟩
theorem good512 : Good (sha512 S i f o) :=
  ⟨⟨by simp [sha512], by simp only [sha512]; exact ⟨2 ^ 57, by decide⟩, by simp [sha512], by simp [sha512], by simp [sha512]⟩,
    by intro h; cases h⟩
theorem good160 : Good (ripemd160 S i f o) :=
  ⟨⟨by simp [ripemd160], by simp only [ripemd160]; exact ⟨2 ^ 58, by decide⟩, by simp [ripemd160], by simp [ripemd160], by simp [ripemd160]⟩,
    by intro _; rfl⟩

end

/-- One of the four classes with its standard parameters: block size, length field, byte order. -/
inductive Class : Alg → Nat → Nat → Bool → Prop
  | sha256 (S i f o) : Class (sha256 S i f o) 64 8 true
  | sha1 (S i f o) : Class (sha1 S i f o) 64 8 true
  | sha512 (S i f o) : Class (sha512 S i f o) 128 16 true
  | ripemd160 (S i f o) : Class (ripemd160 S i f o) 64 8 false

theorem Class.good {A : Alg} {B L : Nat} {big : Bool} (h : Class A B L big) :
    Good A ∧ A.B = B ∧ A.L = L ∧ A.big = big := by
  cases h with
  | sha256 S i f o => exact ⟨good256 i f o, rfl, rfl, rfl⟩
  | sha1 S i f o => exact ⟨good1 i f o, rfl, rfl, rfl⟩
  | sha512 S i f o => exact ⟨good512 i f o, rfl, rfl, rfl⟩
  | ripemd160 S i f o => exact ⟨good160 i f o, rfl, rfl, rfl⟩

/-! ### C139 -/

/-- **Whatever the pieces the data comes in, and whatever the memory of the buffer held, the result
is the standard digest of all the data.** -/
theorem streamed_is_digest {A : Alg} {B L : Nat} {big : Bool} (h : Class A B L big) (junk : Bytes)
    (hj : junk.length = B) (ds : List Bytes) (hm : ds.flatten.length < 2 ^ 61) :
    Digest B L big A.init A.compress A.out ds.flatten (finalize A (writes A (fresh A junk) ds)).1 := by
  obtain ⟨hg, rfl, rfl, rfl⟩ := h.good
  have hr := rep_writes A hg.toWF ds (rep_fresh A hg.toWF junk hj)
  rw [List.nil_append] at hr
  exact finalize_digest A hg hr hm

/-- **The standard digest is one value**: nothing else would satisfy the statement above. -/
theorem digest_is_one_value {A : Alg} {B L : Nat} {big : Bool} (h : Class A B L big) {m x y : Bytes}
    (hx : Digest B L big A.init A.compress A.out m x)
    (hy : Digest B L big A.init A.compress A.out m y) : x = y := by
  obtain ⟨hg, rfl, rfl, rfl⟩ := h.good
  exact digest_unique hg.pos hx hy

/-- **How the data is cut does not matter.** -/
theorem cut_does_not_matter {A : Alg} {B L : Nat} {big : Bool} (h : Class A B L big)
    (j j' : Bytes) (hj : j.length = B) (hj' : j'.length = B) (ds es : List Bytes)
    (he : ds.flatten = es.flatten) :
    (finalize A (writes A (fresh A j) ds)).1 = (finalize A (writes A (fresh A j') es)).1 := by
  obtain ⟨hg, rfl, rfl, rfl⟩ := h.good
  have h1 := rep_writes A hg.toWF ds (rep_fresh A hg.toWF j hj)
  have h2 := rep_writes A hg.toWF es (rep_fresh A hg.toWF j' hj')
  rw [(finalize_eq A hg.toWF h1).1, (finalize_eq A hg.toWF h2).1, he]

theorem writes_len {A : Alg} {B L : Nat} {big : Bool} (h : Class A B L big) (j : Bytes)
    (hj : j.length = B) (ds : List Bytes) :
    (writes A (fresh A j) ds).buf.length = B ∧
      (finalize A (writes A (fresh A j) ds)).2.buf.length = B := by
  obtain ⟨hg, rfl, rfl, rfl⟩ := h.good
  have h1 := rep_writes A hg.toWF ds (rep_fresh A hg.toWF j hj)
  exact ⟨h1.len, (finalize_eq A hg.toWF h1).2.len⟩

/-- **An object reset, in the middle of data or after its result was taken, gives the digest of what
is written afterwards.** -/
theorem reset_is_new {A : Alg} {B L : Nat} {big : Bool} (h : Class A B L big) (junk : Bytes)
    (hj : junk.length = B) (before after : List Bytes) (taken : Bool)
    (hm : after.flatten.length < 2 ^ 61) :
    let used := if taken then (finalize A (writes A (fresh A junk) before)).2
      else writes A (fresh A junk) before
    Digest B L big A.init A.compress A.out after.flatten
      (finalize A (writes A (reset A used) after)).1 := by
  intro used
  have hl : used.buf.length = B := by
    have := writes_len h junk hj before
    cases taken with
    | true => exact this.2
    | false => exact this.1
  obtain ⟨hg, rfl, rfl, rfl⟩ := h.good
  have hr := rep_writes A hg.toWF after (rep_reset A hg.toWF hl)
  rw [List.nil_append] at hr
  exact finalize_digest A hg hr hm

theorem once_digest {A : Alg} {B L : Nat} {big : Bool} (h : Class A B L big) (junk : Bytes)
    (hj : junk.length = B) (d : Bytes) (hm : d.length < 2 ^ 61) :
    Digest B L big A.init A.compress A.out d (once A junk d) := by
  have := streamed_is_digest h junk hj [d] (by simpa using hm)
  simpa [writes, once] using this

/-- **The double hash of an object written in pieces, and of two or three ranges, is the digest of the
digest of the bytes in a row.** -/
theorem double_hash_of_row {A : Alg} {B L : Nat} {big : Bool} (h : Class A B L big) (j1 j2 : Bytes)
    (h1 : j1.length = B) (h2 : j2.length = B) (hout : ∀ s, (A.out s).length < 2 ^ 61)
    (ds : List Bytes) (hm : ds.flatten.length < 2 ^ 61) :
    ∃ x, Digest B L big A.init A.compress A.out ds.flatten x ∧
      Digest B L big A.init A.compress A.out x (hashWriter A j1 j2 ds) ∧
      hashWriter A j1 j2 ds = hash1 A j1 j2 ds.flatten ∧
      (∀ a b, ds = [a, b] → hash2 A j1 j2 a b = hashWriter A j1 j2 ds) ∧
      (∀ a b c, ds = [a, b, c] → hash3 A j1 j2 a b c = hashWriter A j1 j2 ds) := by
  have hd := streamed_is_digest h j1 h1 ds hm
  refine ⟨_, hd, once_digest h j2 h2 _ ?_, ?_, ?_, ?_⟩
  · obtain ⟨_, _, _, _, _, he⟩ := hd
    rw [he]; exact hout _
  · unfold hashWriter hash1
    congr 1
    exact digest_is_one_value h hd (once_digest h j1 h1 _ hm)
  · rintro a b rfl; rfl
  · rintro a b c rfl; rfl

/-! ### C140 -/

/-- RFC 2104: the key made `B` bytes long. -/
def KeyBlock (B L : Nat) (big : Bool) {S : Type} (init : S) (f : S → Bytes → S) (out : S → Bytes)
    (key k : Bytes) : Prop :=
  k.length = B ∧
    if key.length ≤ B then ∃ z, k = key ++ List.replicate z 0
    else ∃ h z, Digest B L big init f out key h ∧ k = h ++ List.replicate z 0

/-- RFC 2104: `H(K xor opad, H(K xor ipad, text))`. -/
def IsHmac (B L : Nat) (big : Bool) {S : Type} (init : S) (f : S → Bytes → S) (out : S → Bytes)
    (key text r : Bytes) : Prop :=
  ∃ k x, KeyBlock B L big init f out key k ∧
    Digest B L big init f out (k.map (· ^^^ 0x36) ++ text) x ∧
    Digest B L big init f out (k.map (· ^^^ 0x5c) ++ x) r

theorem rep_foldl_inner (A : Alg) (ds : List Bytes) : ∀ h : Hmac A,
    ds.foldl (hmacWrite A) h = ⟨h.outer, writes A h.inner ds⟩ := by
  induction ds with
  | nil => intro h; rfl
  | cons d ds ih => intro h; rw [List.foldl_cons, ih]; rfl

/-- **The keyed hash of the code is the one of the standard**, for every key, long or short, and text
in any pieces. -/
theorem hmac_is_standard {A : Alg} {B L : Nat} {big : Bool} (h : Class A B L big) (O : Nat)
    (hO : ∀ s, (A.out s).length = O) (hOB : O ≤ B) (j1 j2 j3 : Bytes) (h1 : j1.length = B)
    (h2 : j2.length = B) (h3 : j3.length = B) (key : Bytes) (hk : key.length < 2 ^ 61)
    (ds : List Bytes) (hm : ds.flatten.length + B < 2 ^ 61) :
    IsHmac B L big A.init A.compress A.out key ds.flatten
      (hmacFinal A (ds.foldl (hmacWrite A) (hmacNew A O j1 j2 j3 key))) := by
  have hB61 : B + O < 2 ^ 61 := by
    have : B ≤ 128 := by cases h <;> decide
    omega
  have hone := once_digest h j1 h1 key hk
  obtain ⟨hg, rfl, rfl, rfl⟩ := h.good
  have hkl : (rkey A O j1 key).length = A.B := by
    unfold rkey
    split
    · simp; omega
    · rw [List.length_append, List.length_replicate]
      have : (finalize A (write A (fresh A j1) key)).1.length = O := hO _
      omega
  have hkb : KeyBlock A.B A.L A.big A.init A.compress A.out key (rkey A O j1 key) := by
    refine ⟨hkl, ?_⟩
    unfold rkey
    split
    · exact ⟨_, rfl⟩
    · exact ⟨_, _, hone, rfl⟩
  have hx : ((rkey A O j1 key).map (· ^^^ 0x5c)).map (· ^^^ (0x5c ^^^ 0x36)) =
      (rkey A O j1 key).map (· ^^^ (0x36 : UInt8)) := by
    rw [List.map_map]
    apply List.map_congr_left
    intro x _
    show x ^^^ 0x5c ^^^ (0x5c ^^^ 0x36) = x ^^^ 0x36
    rw [UInt8.xor_assoc, ← UInt8.xor_assoc 0x5c 0x5c 0x36, UInt8.xor_self, UInt8.zero_xor]
  rw [rep_foldl_inner]
  unfold hmacFinal hmacNew
  dsimp only
  rw [hx]
  have hin := rep_writes A hg.toWF ds
    (rep_write A hg.toWF (rep_fresh A hg.toWF j3 h3) ((rkey A O j1 key).map (· ^^^ 0x36)))
  rw [List.nil_append] at hin
  have hdin := finalize_digest A hg hin (by rw [List.length_append, List.length_map, hkl]; omega)
  have hlen : (finalize A (writes A (write A (fresh A j3)
      ((rkey A O j1 key).map (· ^^^ 0x36))) ds)).1.length = O := hO _
  have hout := rep_write A hg.toWF
    (rep_write A hg.toWF (rep_fresh A hg.toWF j2 h2) ((rkey A O j1 key).map (· ^^^ 0x5c)))
    (finalize A (writes A (write A (fresh A j3) ((rkey A O j1 key).map (· ^^^ 0x36))) ds)).1
  rw [List.nil_append] at hout
  have hdout := finalize_digest A hg hout
    (by rw [List.length_append, List.length_map, hkl, hlen]; omega)
  exact ⟨rkey A O j1 key, _, hkb, hdin, hdout⟩

/-! ### Examples -/

/-- A toy compression function that keeps all it was given. -/
def keep : List Bytes → Bytes → List Bytes := fun s b => s ++ [b]

/-- The hypotheses are met: a hundred bytes in three pieces, the middle one empty. -/
example : Digest 64 8 true ([] : List Bytes) keep (fun s => s.flatten)
    [List.replicate 70 7, [], List.replicate 30 9].flatten
    (finalize (sha256 _ [] keep (fun s => s.flatten))
      (writes _ (fresh _ (List.replicate 64 1)) [List.replicate 70 7, [], List.replicate 30 9])).1 :=
  streamed_is_digest (Class.sha256 _ _ _ _) _ (by simp) _
    (by simp only [List.flatten_cons, List.length_append, List.length_replicate]; decide)

/-- A padding for three bytes: 64 bytes in all. -/
example : IsPadding 64 8 true 3 (0x80 :: List.replicate 52 0 ++ [0, 0, 0, 0, 0, 0, 0, 24]) :=
  ⟨52, _, rfl, by decide, rfl, by decide, by decide⟩

/-- Message of 56 bytes: the length no longer fits, a whole block more. -/
example : IsPadding 64 8 false 56 (0x80 :: List.replicate 63 0 ++ [192, 1, 0, 0, 0, 0, 0, 0]) :=
  ⟨63, _, rfl, by decide, rfl, by decide, by decide⟩

end Verif.Hash
