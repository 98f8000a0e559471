import Verif.Wallet.Model

namespace Verif.Wallet

/-- What is assumed of the cryptography: decryption undoes encryption, no other key gives the same text, and different secret keys have
different public keys. -/
structure Laws (C : Crypto) : Prop where
  dec_enc : ∀ k iv m, C.dec k iv (C.enc k iv m) = some m
  commit : ∀ k k' iv m, C.dec k' iv (C.enc k iv m) = some m → k' = k
  pub_inj : ∀ a b, C.pub a = C.pub b → a = b

variable {C : Crypto}

theorem lt_total : StrictTotal lt := by
  refine ⟨?_, ?_, ?_⟩ <;> simp [lt] <;> omega

theorem put_ne_nil {V : Type} (l : List (Nat × V)) (k : Nat) (v : V) : put lt l k v ≠ [] := by
  cases l with
  | nil => simp [put]
  | cons p l =>
    obtain ⟨a, b⟩ := p
    unfold put
    split
    · simp
    · split <;> simp

theorem sorted_head {V : Type} {k : Nat} {v : V} {l : List (Nat × V)} (h : SortedBy lt ((k, v) :: l)) : find l k = none := by
  cases hf : find l k with
  | none => rfl
  | some w =>
    have := (List.pairwise_cons.mp h).1 _ (find_mem hf)
    simp [lt] at this

theorem sorted_nil {V : Type} : SortedBy lt ([] : List (Nat × V)) := List.Pairwise.nil

theorem sorted_map {V W : Type} (f : V → W) {l : List (Nat × V)} (h : SortedBy lt l) : SortedBy lt (l.map fun p => (p.1, f p.2)) := by
  unfold SortedBy at *
  rw [List.pairwise_map]
  exact h

theorem find_map {V W : Type} (f : V → W) (l : List (Nat × V)) (k : Nat) : find (l.map fun p => (p.1, f p.2)) k = (find l k).map f := by
  induction l with
  | nil => rfl
  | cons p l ih =>
    obtain ⟨a, b⟩ := p
    simp only [List.map_cons, find]
    split
    · rfl
    · exact ih

theorem sorted_foldl {V W : Type} (f : V → W) : ∀ (l : List (Nat × V)) (ks : List (Nat × W)), SortedBy lt ks →
    SortedBy lt (l.foldl (fun ks p => put lt ks p.1 (f p.2)) ks)
  | [], _, h => h
  | _ :: l, _, h => sorted_foldl f l _ (sorted_put lt_total h _ _)

theorem find_foldl {V W : Type} (f : V → W) : ∀ (l : List (Nat × V)) (ks : List (Nat × W)) (k : Nat), SortedBy lt l →
    find (l.foldl (fun ks p => put lt ks p.1 (f p.2)) ks) k = match find l k with
      | some v => some (f v)
      | none => find ks k
  | [], _, _, _ => rfl
  | (a, v) :: l, ks, k, h => by
    rw [List.foldl_cons, find_foldl f l _ k (List.pairwise_cons.mp h).2, find_put]
    by_cases hk : k = a
    · subst hk
      rw [sorted_head h]
      simp [find]
    · simp only [find, if_neg hk]

theorem mem_foldl {V W : Type} (f : V → W) : ∀ (l : List (Nat × V)) (ks : List (Nat × W)) (q : Nat × W),
    q ∈ l.foldl (fun ks p => put lt ks p.1 (f p.2)) ks → q ∈ ks ∨ ∃ p ∈ l, q = (p.1, f p.2)
  | [], _, _, h => Or.inl h
  | p :: l, ks, q, h => by
    rcases mem_foldl f l _ q h with h | ⟨p', h1, h2⟩
    · rcases mem_put h with h | h
      · exact Or.inr ⟨p, List.mem_cons_self .., h⟩
      · exact Or.inl h
    · exact Or.inr ⟨p', List.mem_cons_of_mem _ h1, h2⟩

/-! ## The file -/

/-- The file of an encrypted wallet: master key `m` under the passphrase, all secrets under the master key. -/
structure Good (C : Crypto) (pass m : Bytes) (id : Nat) (k : Master) (d : Disk) : Prop where
  some : d.ck ≠ []
  ver : d.ver = true
  len : m.length = 32
  mas : d.mas = [(id, k)]
  salt : k.salt.length = 8
  rounds : 1 ≤ k.rounds
  ct : k.ct = C.enc (C.kdf pass k.salt k.rounds) 0 m
  keys : ∀ (p : Nat) (ct : Bytes), (p, ct) ∈ d.ck → ∃ x : Bytes, x.length = 32 ∧ C.pub x = p ∧ ct = C.enc m p x

/-- A record of keys in the right format -/
def Fmt (C : Crypto) (ver : Bool) (q : Nat × Combi × Bool) : Prop :=
  q.2.2 = ver ∧ badId C q.1 q.2.1 = false ∧ ∀ x, q.2.1.main = some x → x.length = 32

structure DInv (C : Crypto) (pass : Bytes) (d : Disk) : Prop where
  sorted : SortedBy lt d.ks
  fmt : ∀ q ∈ d.ks, Fmt C d.ver q
  kind : (d.ck = [] ∧ d.mas = [] ∧ d.ks ≠ [] ∧ d.ver = false) ∨ ∃ m id k, Good C pass m id k d

structure Inv (C : Crypto) (pass : Bytes) (s : St) : Prop where
  disk : DInv C pass s.disk
  ver : s.ver = s.disk.ver
  mas : s.mas = s.disk.mas
  ck : s.ck = s.disk.ck
  sorted : SortedBy lt s.keys
  crypto : s.crypto = !s.ck.isEmpty
  keys : s.crypto = false → ∀ id, find s.keys id = (find s.disk.ks id).map Prod.fst
  main : ∀ q ∈ s.keys, ∀ x, q.2.main = some x → x.length = 32
  master : s.master = [] ∨ ∃ id k, Good C pass s.master id k s.disk

theorem good_unique (L : Laws C) {pass m m' : Bytes} {id id' : Nat} {k k' : Master} {d : Disk} (h : Good C pass m id k d) (h' : Good C pass m' id' k' d) : m = m' := by
  have e : [(id, k)] = [(id', k')] := h.mas.symm.trans h'.mas
  obtain ⟨_, rfl⟩ := Prod.mk.inj (List.cons.inj e).1
  have := L.dec_enc (C.kdf pass k.salt k.rounds) 0 m
  rw [← h.ct, h'.ct, L.dec_enc] at this
  exact (Option.some.inj this).symm

/-- The key is in the file. -/
def Has (C : Crypto) (pass : Bytes) (d : Disk) (x : Bytes) : Prop :=
  if d.ck = [] then ∃ c f, find d.ks (C.pub x) = some (c, f) ∧ c.main = some x
  else x.length = 32 ∧ ∃ m id k, Good C pass m id k d ∧ find d.ck (C.pub x) = some (C.enc m (C.pub x) x)

theorem crypto_iff {pass : Bytes} {s : St} (h : Inv C pass s) : s.crypto = true ↔ s.disk.ck ≠ [] := by
  rw [h.crypto, h.ck]
  cases s.disk.ck <;> simp

theorem plain_iff {pass : Bytes} {s : St} (h : Inv C pass s) : s.crypto = false ↔ s.disk.ck = [] := by
  rw [h.crypto, h.ck]
  cases s.disk.ck <;> simp

theorem good_of {pass : Bytes} {s : St} (h : Inv C pass s) (hc : s.crypto = true) : ∃ m id k, Good C pass m id k s.disk := by
  rcases h.disk.kind with ⟨h0, _⟩ | hg
  · exact absurd h0 ((crypto_iff h).mp hc)
  · exact hg

/-! ## Unlocking -/

theorem setCrypted_crypto {s : St} (h : s.crypto = true) : setCrypted s = some s := by simp [setCrypted, h]

theorem lock_crypto {s : St} (h : s.crypto = true) : lock s = { s with master := [] } := by simp [lock, setCrypted_crypto h]

theorem opens_good (L : Laws C) {pass m : Bytes} {id : Nat} {k : Master} {d : Disk} (h : Good C pass m id k d) : opens C m d.ck = true := by
  have hk := h.keys
  cases hd : d.ck with
  | nil => rfl
  | cons p l =>
    obtain ⟨a, ct⟩ := p
    obtain ⟨x, h1, h2, h3⟩ := hk a ct (by rw [hd]; exact List.mem_cons_self ..)
    unfold opens decSecret
    simp [h.len, h3, L.dec_enc, h1, h2]

theorem derive_ok (pass salt : Bytes) {r : Nat} (h : salt.length = 8) (hr : 1 ≤ r) : derive C pass salt r = some (C.kdf pass salt r) := by
  unfold derive
  rw [if_neg]
  omega

theorem unlock_right (L : Laws C) {pass m : Bytes} {s : St} {id : Nat} {k : Master} (h : Inv C pass s) (hg : Good C pass m id k s.disk) :
    unlock C pass s = some { s with master := m } := by
  have hc : s.crypto = true := (crypto_iff h).mpr hg.some
  have hmas : s.mas = [(id, k)] := h.mas.trans hg.mas
  have hop := opens_good L hg
  rw [← h.ck] at hop
  have : ∀ l, l = [(id, k)] → tryUnlock C pass s l = some { s with master := m } := by
    rintro _ rfl
    rw [tryUnlock, derive_ok pass k.salt hg.salt hg.rounds]
    simp only [hg.ct, L.dec_enc, storeUnlock, setCrypted_crypto hc]
    simp [hop]
  exact this _ hmas

/-- The state in which keys can be used -/
def opened (C : Crypto) (pass : Bytes) (s : St) : St := if s.crypto then (unlock C pass s).getD s else s

/-- The main key `x` can be used with the passphrase. -/
def Usable (C : Crypto) (pass : Bytes) (s : St) (x : Bytes) : Prop := getKey C (opened C pass s) (C.pub x) false = some x

theorem usable_iff (L : Laws C) {pass : Bytes} {s : St} (h : Inv C pass s) (x : Bytes) : Usable C pass s x ↔ Has C pass s.disk x := by
  unfold Usable opened Has
  by_cases hc : s.crypto = true
  · obtain ⟨m, id, k, hg⟩ := good_of h hc
    rw [if_pos hc, unlock_right L h hg, if_neg hg.some]
    unfold getKey
    simp only [Option.getD_some, Bool.false_eq_true, if_false, hc, Bool.not_true, h.ck]
    constructor
    · intro hx
      cases hf : find s.disk.ck (C.pub x) with
      | none => simp [hf] at hx
      | some ct =>
        obtain ⟨y, h1, h2, h3⟩ := hg.keys _ _ (find_mem hf)
        simp only [hf, decSecret, hg.len, ne_eq, not_true_eq_false, if_false, h3, L.dec_enc, h1, if_true, Option.some.injEq] at hx
        subst hx
        exact ⟨h1, m, id, k, hg, by rw [h3]⟩
    · rintro ⟨hx, m', id', k', hg', hf⟩
      rw [good_unique L hg hg', hf]
      simp [decSecret, hg'.len, L.dec_enc, hx]
  · have hc' : s.crypto = false := by simpa using hc
    rw [if_neg hc, if_pos ((plain_iff h).mp hc')]
    unfold getKey
    simp only [Bool.false_eq_true, if_false, hc', Bool.not_false, if_true, h.keys hc']
    cases find s.disk.ks (C.pub x) with
    | none => simp
    | some cf =>
      obtain ⟨c, f⟩ := cf
      constructor
      · intro hx; exact ⟨c, f, rfl, hx⟩
      · rintro ⟨c', f', e, hx⟩
        obtain ⟨rfl, _⟩ := Prod.mk.inj (Option.some.inj e)
        exact hx

/-! ## Starting -/

theorem loadKeys_ok {ver : Bool} : ∀ {ks : List (Nat × Combi × Bool)}, (∀ q ∈ ks, Fmt C ver q) →
    loadKeys C ver ks = some (ks.map fun q => (q.1, q.2.1))
  | [], _ => rfl
  | (id, c, f) :: ks, h => by
    obtain ⟨h1, h2, _⟩ := h _ (List.mem_cons_self ..)
    rw [loadKeys, loadKeys_ok (ks := ks) fun q hq => h q (List.mem_cons_of_mem _ hq)]
    rw [if_neg (fun h' => h'.elim (fun h' => h' h1) (fun h' => by simp [show badId C id c = false from h2] at h'))]
    rfl

/-- What is in memory after the start -/
def loaded (d : Disk) : St :=
  ⟨d, d.ks.map fun q => (q.1, q.2.1), d.ck, !d.ck.isEmpty, [], d.mas, (d.mas.map Prod.fst).foldr max 0, d.ver⟩

theorem load_ok {pass : Bytes} {d : Disk} (h : DInv C pass d) (fresh : Bytes) : load C d fresh = some (loaded d) := by
  unfold load
  rw [loadKeys_ok h.fmt]
  simp only
  rw [if_neg]
  · rfl
  · rcases h.kind with ⟨_, _, h3, _⟩ | ⟨m, id, k, hg⟩
    · simp [h3]
    · simp [hg.some]

theorem loaded_inv {pass : Bytes} {d : Disk} (h : DInv C pass d) : Inv C pass (loaded d) := by
  refine ⟨h, rfl, rfl, rfl, sorted_map Prod.fst h.sorted, rfl, fun _ id => find_map Prod.fst d.ks id, ?_, Or.inl rfl⟩
  intro q hq x hx
  obtain ⟨q', h1, rfl⟩ := List.mem_map.mp hq
  exact (h.fmt q' h1).2.2 x hx

theorem start_ok {pass : Bytes} {d : Disk} (h : DInv C pass d) (s : St) (fresh : Bytes) (o : Out) : start C s d fresh o = (loaded d, o) := by
  unfold start
  rw [load_ok h]

/-! ## Every operation keeps the file in order -/

theorem dinv_put {pass : Bytes} {d : Disk} (h : DInv C pass d) {id : Nat} {c : Combi} (hf : Fmt C d.ver (id, c, d.ver)) :
    DInv C pass { d with ks := put lt d.ks id (c, d.ver) } := by
  refine ⟨sorted_put lt_total h.sorted _ _, ?_, ?_⟩
  · intro q hq
    rcases mem_put hq with rfl | hq
    · exact hf
    · exact h.fmt q hq
  · rcases h.kind with ⟨h1, h2, _, h4⟩ | ⟨m, i, k, g⟩
    · exact Or.inl ⟨h1, h2, put_ne_nil _ _ _, h4⟩
    · exact Or.inr ⟨m, i, k, g.some, g.ver, g.len, g.mas, g.salt, g.rounds, g.ct, g.keys⟩

theorem good_ck {pass m : Bytes} {i : Nat} {k : Master} {d : Disk} (g : Good C pass m i k d) {x : Bytes} (hx : x.length = 32) (ks : List (Nat × Combi × Bool)) :
    Good C pass m i k { d with ck := put lt d.ck (C.pub x) (C.enc m (C.pub x) x), ks := ks } := by
  refine ⟨put_ne_nil _ _ _, g.ver, g.len, g.mas, g.salt, g.rounds, g.ct, ?_⟩
  intro p ct hp
  rcases mem_put hp with hp | hp
  · obtain ⟨rfl, rfl⟩ := Prod.mk.inj hp
    exact ⟨x, hx, rfl, rfl⟩
  · exact g.keys p ct hp

theorem dinv_ck {pass m : Bytes} {i : Nat} {k : Master} {d : Disk} (h : DInv C pass d) (g : Good C pass m i k d) {x : Bytes} (hx : x.length = 32) :
    DInv C pass { d with ck := put lt d.ck (C.pub x) (C.enc m (C.pub x) x) } :=
  ⟨h.sorted, h.fmt, Or.inr ⟨m, i, k, good_ck g hx d.ks⟩⟩

theorem fmt_purge (C : Crypto) (ver : Bool) (id : Nat) (c : Combi) : Fmt C ver (id, c.purge, ver) :=
  ⟨rfl, rfl, fun x hx => by cases hx⟩

theorem writeCrypted_ck (d : Disk) (p : Nat) (ct : Bytes) : (writeCrypted d p ct).ck = put lt d.ck p ct := by
  unfold writeCrypted
  simp only
  split
  · rfl
  · split <;> rfl

theorem dinv_write {pass m : Bytes} {i : Nat} {k : Master} {d : Disk} (h : DInv C pass d) (g : Good C pass m i k d) {x : Bytes} (hx : x.length = 32) :
    DInv C pass (writeCrypted d (C.pub x) (C.enc m (C.pub x) x)) ∧ Good C pass m i k (writeCrypted d (C.pub x) (C.enc m (C.pub x) x)) := by
  have h1 := dinv_ck h g hx
  have g1 := good_ck g hx d.ks
  unfold writeCrypted
  simp only
  split
  · exact ⟨h1, g1⟩
  · rename_i c f _
    split
    · have : ∀ b, b = d.ver → DInv C pass { d with ck := put lt d.ck (C.pub x) (C.enc m (C.pub x) x), ks := put lt d.ks (C.pub x) (c.purge, b) } := by
        rintro _ rfl
        exact dinv_put h1 (fmt_purge C _ (C.pub x) c)
      exact ⟨this true g.ver.symm, good_ck g hx _⟩
    · exact ⟨h1, g1⟩

/-- What has to be true of an operation: keys and salts of the right size, and the last key is not removed. -/
def Sane (C : Crypto) (s : St) : Op → Prop
  | .add _ c => ∀ x, c.main = some x → x.length = 32
  | .late _ c => ∀ x, c.main = some x → x.length = 32
  | .cut _ c _ => ∀ x, c.main = some x → x.length = 32
  | .encrypt _ m salt _ => m.length = 32 ∧ salt.length = 8
  | .remove x => ∃ q ∈ s.keys, q.1 ≠ C.pub x
  | _ => True

/-- The passphrase after the operation -/
def newPass (pass : Bytes) : Op → Out → Bytes
  | .encrypt p _ _ _, .yes => p
  | .change _ p _, .yes => p
  | _, _ => pass

theorem fmt_new {ver : Bool} {id : Nat} {c : Combi} (hb : badId C id c = false) (hl : ∀ x, c.main = some x → x.length = 32) : Fmt C ver (id, c, ver) :=
  ⟨rfl, hb, hl⟩

theorem badId_main {id : Nat} {c : Combi} {x : Bytes} (hb : badId C id c = false) (hx : c.main = some x) : C.pub x = id := by
  unfold badId at hb
  rw [hx] at hb
  have := of_decide_eq_false hb
  simp only [ne_eq, Decidable.not_not] at this
  exact this.symm

theorem nodisk {pass : Bytes} {s : St} (h : Inv C pass s) {d : Disk} (hd : DInv C pass d) (hv : d.ver = s.disk.ver) (hm : d.mas = s.disk.mas)
    (hk : d.ck = s.disk.ck) (hc : s.crypto = true) : Inv C pass { s with disk := d } := by
  refine ⟨hd, h.ver.trans hv.symm, h.mas.trans hm.symm, h.ck.trans hk.symm, h.sorted, h.crypto, fun h' => ?_, h.main, ?_⟩
  · rw [show s.crypto = false from h'] at hc; cases hc
  · rcases h.master with h0 | ⟨i, k, g⟩
    · exact Or.inl h0
    · exact Or.inr ⟨i, k, by rw [hk]; exact g.some, hv.trans g.ver, g.len, hm.trans g.mas, g.salt, g.rounds, g.ct, by rw [hk]; exact g.keys⟩

theorem encSecret_ok {m : Bytes} (h : m.length = 32) (p : Nat) (x : Bytes) : encSecret C m p x = some (C.enc m p x) := by
  simp [encSecret, h]

theorem locked_disk (s : St) (d : Disk) : locked { s with disk := d } = locked s := rfl

/-- `AddKey`: the invariant if it returns, the file if the program dies -/
theorem add_inv {pass : Bytes} {s : St} (h : Inv C pass s) (id : Nat) {c : Combi} (hl : ∀ x, c.main = some x → x.length = 32) :
    DInv C pass (addKey C s id c).1.disk ∧ ((addKey C s id c).2 ≠ .died → Inv C pass (addKey C s id c).1) := by
  unfold addKey
  by_cases hb : badId C id c = true
  · rw [if_pos hb]; exact ⟨h.disk, fun _ => h⟩
  rw [if_neg hb]
  have hb : badId C id c = false := by simpa using hb
  have hd : DInv C pass { s.disk with ks := put lt s.disk.ks id (c, s.ver) } := by
    rw [h.ver]; exact dinv_put h.disk (fmt_new hb hl)
  simp only
  by_cases hc : s.crypto = true
  · rw [if_neg (by simp [hc])]
    have i1 := nodisk h hd rfl rfl rfl hc
    by_cases hk : locked s = true
    · rw [if_pos (by rw [locked_disk]; exact hk)]; exact ⟨hd, fun _ => i1⟩
    · rw [if_neg (by rw [locked_disk]; exact hk)]
      cases hm : c.main with
      | none => exact ⟨hd, fun h' => absurd rfl h'⟩
      | some x =>
        obtain ⟨i, k, g⟩ : ∃ i k, Good C pass s.master i k s.disk := by
          rcases h.master with h0 | hg
          · exfalso; apply hk; simp [locked, hc, h0]
          · exact hg
        have g1 : Good C pass s.master i k { s.disk with ks := put lt s.disk.ks id (c, s.ver) } :=
          ⟨g.some, g.ver, g.len, g.mas, g.salt, g.rounds, g.ct, g.keys⟩
        have hx := hl x hm
        simp only
        rw [encSecret_ok g.len]
        obtain ⟨w1, w2⟩ := dinv_write hd g1 hx
        refine ⟨w1, fun _ => ⟨w1, ?_, ?_, ?_, sorted_put lt_total h.sorted _ _, ?_, ?_, ?_, Or.inr ⟨i, k, w2⟩⟩⟩
        · show s.ver = _
          rw [w2.ver, h.ver, g.ver]
        · show s.mas = _
          rw [w2.mas, h.mas, g.mas]
        · show put lt s.ck _ _ = _
          rw [writeCrypted_ck, h.ck]
        · show s.crypto = !(put lt s.ck _ _).isEmpty
          rw [hc]
          have := put_ne_nil s.ck (C.pub x) (C.enc s.master (C.pub x) x)
          simp [this]
        · intro h'
          rw [show s.crypto = false from h'] at hc; cases hc
        · intro q hq y hy
          rcases mem_put hq with rfl | hq
          · exact hl y hy
          · exact h.main q hq y hy
  · have hc' : s.crypto = false := by simpa using hc
    rw [if_pos (by simp [hc'])]
    refine ⟨hd, fun _ => ⟨hd, h.ver, h.mas, h.ck, sorted_put lt_total h.sorted _ _, h.crypto, ?_, ?_, ?_⟩⟩
    · intro _ q
      show find (put lt s.keys id c) q = (find (put lt s.disk.ks id (c, s.ver)) q).map Prod.fst
      rw [find_put, find_put]
      split
      · rfl
      · exact h.keys hc' q
    · intro q hq y hy
      rcases mem_put hq with rfl | hq
      · exact hl y hy
      · exact h.main q hq y hy
    · rcases h.master with h0 | ⟨i, k, g⟩
      · exact Or.inl h0
      · exact absurd ((plain_iff h).mp hc') g.some

theorem cut_inv {pass : Bytes} {s : St} (h : Inv C pass s) (id : Nat) {c : Combi} (hl : ∀ x, c.main = some x → x.length = 32) (n : Nat) :
    DInv C pass (addCut C s id c n) := by
  unfold addCut
  by_cases hb : (badId C id c || decide (n = 0)) = true
  · rw [if_pos hb]; exact h.disk
  rw [if_neg hb]
  have hb : badId C id c = false := by
    cases hh : badId C id c
    · rfl
    · simp [hh] at hb
  have hd : DInv C pass { s.disk with ks := put lt s.disk.ks id (c, s.ver) } := by
    rw [h.ver]; exact dinv_put h.disk (fmt_new hb hl)
  simp only
  split
  · exact hd
  · rename_i hcond
    cases hm : c.main with
    | none => exact hd
    | some x =>
      simp only
      have hc : s.crypto = true := by
        cases hh : s.crypto
        · simp [hh] at hcond
        · rfl
      have hk : locked s = false := by
        cases hh : locked s
        · rfl
        · simp [hh] at hcond
      obtain ⟨i, k, g⟩ : ∃ i k, Good C pass s.master i k s.disk := by
        rcases h.master with h0 | hg
        · simp [locked, hc, h0] at hk
        · exact hg
      rw [encSecret_ok g.len]
      exact dinv_ck hd ⟨g.some, g.ver, g.len, g.mas, g.salt, g.rounds, g.ct, g.keys⟩ (hl x hm)

/-! ### Encryption -/

theorem encryptKeys_none {m : Bytes} : ∀ {l : List (Nat × Combi)} {r}, (∃ q ∈ l, q.2.main = none) → encryptKeys C m l r = none
  | [], _, ⟨_, hq, _⟩ => absurd hq (List.not_mem_nil)
  | (a, c) :: l, (ck, d), ⟨q, hq, hn⟩ => by
    rw [encryptKeys]
    cases hm : c.main with
    | none => rfl
    | some x =>
      simp only
      cases encSecret C m (C.pub x) x with
      | none => rfl
      | some ct =>
        refine encryptKeys_none ⟨q, ?_, hn⟩
        rcases List.mem_cons.mp hq with rfl | hq
        · rw [hm] at hn; cases hn
        · exact hq

/-- The result of the loop -/
structure Encrypted (C : Crypto) (m : Bytes) (l : List (Nat × Combi)) (d d' : Disk) : Prop where
  mas : d'.mas = d.mas
  ver : d'.ver = d.ver
  sorted : SortedBy lt d'.ks
  ks : ∀ p, find d'.ks p = match find l p with
    | some c => some (c.purge, true)
    | none => find d.ks p
  old : ∀ e ∈ d'.ck, e ∈ d.ck ∨ ∃ x : Bytes, x.length = 32 ∧ e = (C.pub x, C.enc m (C.pub x) x)
  new : ∀ q ∈ l, ∀ x, q.2.main = some x → find d'.ck (C.pub x) = some (C.enc m (C.pub x) x)
  keep : ∀ y, find d.ck (C.pub y) = some (C.enc m (C.pub y) y) → find d'.ck (C.pub y) = some (C.enc m (C.pub y) y)

theorem encryptKeys_spec (L : Laws C) {m : Bytes} (hm : m.length = 32) : ∀ (l : List (Nat × Combi)) (d : Disk), SortedBy lt l → d.ver = false →
    SortedBy lt d.ks → (∀ q ∈ l, ∃ x : Bytes, q.2.main = some x ∧ C.pub x = q.1 ∧ x.length = 32 ∧ find d.ks q.1 = some (q.2, false)) →
    ∃ d', encryptKeys C m l (d.ck, d) = some (d'.ck, d') ∧ Encrypted C m l d d'
  | [], d, _, _, hs, _ => ⟨d, rfl, rfl, rfl, hs, fun _ => rfl, fun e he => Or.inl he, fun q hq => absurd hq (List.not_mem_nil), fun _ h => h⟩
  | (a, c) :: l, d, hsl, hv, hs, hq => by
    obtain ⟨x, x1, x2, x3, x4⟩ := hq _ (List.mem_cons_self ..)
    have x1 : c.main = some x := x1
    have x2 : C.pub x = a := x2
    have hw : writeCrypted d (C.pub x) (C.enc m (C.pub x) x) =
        { d with ck := put lt d.ck (C.pub x) (C.enc m (C.pub x) x), ks := put lt d.ks (C.pub x) (c.purge, true) } := by
      unfold writeCrypted
      simp only
      rw [show find d.ks (C.pub x) = some (c, false) by rw [x2]; exact x4]
      simp only
      rw [if_pos hv.symm]
    have hhead := sorted_head hsl
    obtain ⟨d', e1, e2⟩ := encryptKeys_spec L hm l (writeCrypted d (C.pub x) (C.enc m (C.pub x) x)) (List.pairwise_cons.mp hsl).2 (by rw [hw]; exact hv)
      (by rw [hw]; exact sorted_put lt_total hs _ _)
      (by
        intro q hql
        obtain ⟨y, y1, y2, y3, y4⟩ := hq q (List.mem_cons_of_mem _ hql)
        refine ⟨y, y1, y2, y3, ?_⟩
        rw [hw]
        show find (put lt d.ks (C.pub x) (c.purge, true)) q.1 = _
        rw [find_put, if_neg]
        · exact y4
        · rw [x2]
          intro he
          exact find_none_not_mem hhead q.2 (by rw [← he]; exact hql))
    refine ⟨d', ?_, ?_⟩
    · rw [encryptKeys, x1]
      simp only
      rw [encSecret_ok hm]
      simp only
      rw [writeCrypted_ck] at e1
      exact e1
    · have hfind : ∀ p, find (writeCrypted d (C.pub x) (C.enc m (C.pub x) x)).ck p = if p = C.pub x then some (C.enc m (C.pub x) x) else find d.ck p := by
        intro p; rw [writeCrypted_ck, find_put]
      have hkeep : ∀ y, find d.ck (C.pub y) = some (C.enc m (C.pub y) y) ∨ y = x →
          find d'.ck (C.pub y) = some (C.enc m (C.pub y) y) := by
        intro y hy
        refine e2.keep y ?_
        rw [hfind]
        by_cases hp : C.pub y = C.pub x
        · rw [if_pos hp, L.pub_inj _ _ hp]
        · rw [if_neg hp]
          rcases hy with hy | rfl
          · exact hy
          · exact absurd rfl hp
      refine ⟨?_, ?_, e2.sorted, ?_, ?_, ?_, fun y hy => hkeep y (Or.inl hy)⟩
      · rw [e2.mas, hw]
      · rw [e2.ver, hw]
      · intro p
        rw [e2.ks p, hw]
        simp only [find]
        by_cases hp : p = a
        · subst hp
          rw [hhead]
          simp only [if_true]
          rw [find_put, if_pos x2.symm]
        · rw [if_neg hp]
          cases find l p with
          | some v => rfl
          | none =>
            simp only
            rw [find_put, if_neg (by rw [x2]; exact hp)]
      · intro e he
        rcases e2.old e he with he | he
        · rw [writeCrypted_ck] at he
          rcases mem_put he with rfl | he
          · exact Or.inr ⟨x, x3, rfl⟩
          · exact Or.inl he
        · exact Or.inr he
      · intro q hql y hy
        rcases List.mem_cons.mp hql with rfl | hql
        · rw [show c.main = some y from hy] at x1
          exact hkeep y (Or.inr (Option.some.inj x1))
        · exact e2.new q hql y hy

/-- What unlocking changes -/
theorem storeUnlock_form {s s' : St} (hc : s.crypto = true) {m : Bytes} (h : storeUnlock C s m = some s') :
    s' = { s with master := m } ∧ opens C m s.ck = true := by
  unfold storeUnlock at h
  rw [setCrypted_crypto hc] at h
  simp only at h
  split at h
  · rename_i ho
    exact ⟨(Option.some.inj h).symm, ho⟩
  · cases h

theorem tryUnlock_form {pass : Bytes} {s s' : St} (hc : s.crypto = true) : ∀ {l : List (Nat × Master)}, tryUnlock C pass s l = some s' →
    ∃ m, s' = { s with master := m } ∧ opens C m s.ck = true ∧ ∃ q ∈ l, C.dec (C.kdf pass q.2.salt q.2.rounds) 0 q.2.ct = some m
  | [], h => by cases h
  | (i, k) :: l, h => by
    rw [tryUnlock] at h
    cases hd : derive C pass k.salt k.rounds with
    | none => rw [hd] at h; cases h
    | some key =>
      have hkey : key = C.kdf pass k.salt k.rounds := by
        unfold derive at hd
        split at hd
        · cases hd
        · exact (Option.some.inj hd).symm
      rw [hd] at h
      simp only at h
      have rest : tryUnlock C pass s l = some s' → ∃ m, s' = { s with master := m } ∧ opens C m s.ck = true ∧
          ∃ q ∈ (i, k) :: l, C.dec (C.kdf pass q.2.salt q.2.rounds) 0 q.2.ct = some m := by
        intro h
        obtain ⟨m, a, b, q, c, d⟩ := tryUnlock_form hc h
        exact ⟨m, a, b, q, List.mem_cons_of_mem _ c, d⟩
      cases hm : C.dec key 0 k.ct with
      | none => rw [hm] at h; exact rest h
      | some m =>
        rw [hm] at h
        simp only at h
        cases hs : storeUnlock C s m with
        | none => rw [hs] at h; exact rest h
        | some s1 =>
          rw [hs] at h
          obtain ⟨a, b⟩ := storeUnlock_form hc hs
          refine ⟨m, ?_, b, (i, k), List.mem_cons_self .., ?_⟩
          · rw [← Option.some.inj h, a]
          · rw [← hkey]; exact hm

theorem relock {s : St} (hc : s.crypto = true) (p : Bytes) :
    lock ((unlock C p (lock s)).getD (lock s)) = { s with master := [] } := by
  rw [lock_crypto hc]
  cases hu : unlock C p { s with master := [] } with
  | none => exact lock_crypto hc
  | some s' =>
    obtain ⟨m, hs, _⟩ := tryUnlock_form (s := { s with master := [] }) hc hu
    rw [Option.getD_some, hs]
    exact lock_crypto hc

/-- A master key that opens the store is the right one. -/
theorem opens_only (L : Laws C) {pass m m' : Bytes} {i : Nat} {k : Master} {d : Disk} (g : Good C pass m i k d) (h : opens C m' d.ck = true) : m' = m := by
  have hk := g.keys
  have hs := g.some
  cases hd : d.ck with
  | nil => exact absurd hd hs
  | cons p l =>
    obtain ⟨a, ct⟩ := p
    obtain ⟨x, h1, h2, h3⟩ := hk a ct (by rw [hd]; exact List.mem_cons_self ..)
    rw [hd, opens] at h
    unfold decSecret at h
    split at h
    · cases h
    · rename_i y hy
      split at hy
      · cases hy
      · simp only [Bool.and_eq_true, decide_eq_true_eq] at h
        rw [← h2] at h
        rw [L.pub_inj _ _ h.2, h3] at hy
        exact L.commit _ _ _ _ hy

theorem encrypt_inv (L : Laws C) {pass : Bytes} {s : St} (h : Inv C pass s) {p m salt : Bytes} (hm : m.length = 32) (hs : salt.length = 8) (rounds : Nat) :
    (s.crypto = true ∧ encryptWallet C s p m salt rounds = (s, .no)) ∨
    (s.crypto = false ∧ (∃ q ∈ s.keys, q.2.main = none) ∧ encryptWallet C s p m salt rounds = (s, .died)) ∨
    (s.crypto = false ∧ (∀ q ∈ s.keys, q.2.main ≠ none) ∧ (encryptWallet C s p m salt rounds).2 = .yes ∧ Inv C p (encryptWallet C s p m salt rounds).1 ∧
      (encryptWallet C s p m salt rounds).1.crypto = true ∧ locked (encryptWallet C s p m salt rounds).1 = true ∧
      (∀ q ∈ (encryptWallet C s p m salt rounds).1.keys, q.2.main = none) ∧ (∀ q ∈ (encryptWallet C s p m salt rounds).1.disk.ks, q.2.1.main = none) ∧
      (encryptWallet C s p m salt rounds).1.keys = s.keys.map (fun p => (p.1, p.2.purge)) ∧
      (∀ x, Has C pass s.disk x → Has C p (encryptWallet C s p m salt rounds).1.disk x) ∧
      ∀ id c, find s.keys id = some c → find (encryptWallet C s p m salt rounds).1.disk.ks id = some (c.purge, true)) := by
  by_cases hc : s.crypto = true
  · left
    exact ⟨hc, by simp [encryptWallet, hc]⟩
  right
  have hc : s.crypto = false := by simpa using hc
  have hck0 := (plain_iff h).mp hc
  have hck : s.ck = [] := h.ck.trans hck0
  obtain ⟨k1, k2, k3, k4⟩ : s.disk.ck = [] ∧ s.disk.mas = [] ∧ s.disk.ks ≠ [] ∧ s.disk.ver = false := by
    rcases h.disk.kind with hk | ⟨_, _, _, g⟩
    · exact hk
    · exact absurd hck0 g.some
  by_cases hall : ∃ q ∈ s.keys, q.2.main = none
  · left
    refine ⟨hc, hall, ?_⟩
    unfold encryptWallet
    simp only [hc, Bool.false_eq_true, if_false]
    rw [derive_ok p salt hs (by split <;> omega)]
    simp only [hck, List.isEmpty_nil, Bool.not_true, Bool.false_eq_true, if_false]
    rw [encryptKeys_none hall]
  right
  have hall : ∀ q ∈ s.keys, q.2.main ≠ none := fun q hq hn => hall ⟨q, hq, hn⟩
  refine ⟨hc, hall, ?_⟩
  have hfind : ∀ id c, find s.keys id = some c → find s.disk.ks id = some (c, false) := by
    intro id c hf
    rw [h.keys hc] at hf
    cases hk : find s.disk.ks id with
    | none => rw [hk] at hf; cases hf
    | some cf =>
      obtain ⟨c', f⟩ := cf
      rw [hk] at hf
      have e1 : c' = c := Option.some.inj hf
      have e2 := (h.disk.fmt _ (find_mem hk)).1
      rw [k4] at e2
      rw [e1, show f = false from e2]
  obtain ⟨d', e1, e2⟩ := encryptKeys_spec L hm s.keys { s.disk with mas := s.disk.mas ++ [(s.mkMax + 1, ⟨C.enc (C.kdf p salt (if rounds < 25000 then 25000 else rounds)) 0 m, salt, if rounds < 25000 then 25000 else rounds⟩)] }
    h.sorted k4 h.disk.sorted (by
      intro q hq
      have hf := hfind q.1 q.2 ((mem_iff_find lt_total h.sorted q.1 q.2).mp hq)
      cases hx : q.2.main with
      | none => exact absurd hx (hall q hq)
      | some x => exact ⟨x, rfl, badId_main (h.disk.fmt _ (find_mem hf)).2.1 hx, h.main q hq x hx, hf⟩)
  have hr : 1 ≤ (if rounds < 25000 then 25000 else rounds) := by split <;> omega
  have he : ∃ s1 : St, encryptWallet C s p m salt rounds = (s1, .yes) ∧
      s1 = { disk := { d' with ver := true }, keys := s.keys.map fun p => (p.1, p.2.purge), ck := d'.ck, crypto := true, master := [],
             mas := s.mas ++ [(s.mkMax + 1, ⟨C.enc (C.kdf p salt (if rounds < 25000 then 25000 else rounds)) 0 m, salt, if rounds < 25000 then 25000 else rounds⟩)],
             mkMax := s.mkMax + 1, ver := true } := by
    refine ⟨_, ?_, rfl⟩
    unfold encryptWallet
    simp only [hc, Bool.false_eq_true, if_false]
    rw [derive_ok p salt hs hr]
    simp only [hck, k1, List.isEmpty_nil, Bool.not_true, Bool.false_eq_true, if_false]
    have e1' := e1
    simp only [k1] at e1'
    rw [e1']
    simp only
    rw [relock rfl]
  obtain ⟨s1, f1, f2⟩ := he
  rw [f1]
  -- the records
  have hks : ∀ q ∈ d'.ks, ∃ c : Combi, q.2 = (c.purge, true) := by
    intro q hq
    have hf := (mem_iff_find lt_total e2.sorted q.1 q.2).mp hq
    rw [e2.ks] at hf
    cases hk : find s.keys q.1 with
    | some c => rw [hk] at hf; exact ⟨c, (Option.some.inj hf).symm⟩
    | none =>
      rw [hk] at hf
      have h1 := h.keys hc q.1
      rw [hk, show find s.disk.ks q.1 = some q.2 from hf] at h1
      cases h1
  have hckne : d'.ck ≠ [] := by
    have hne : s.keys ≠ [] := by
      intro h0
      cases hkk : s.disk.ks with
      | nil => exact k3 hkk
      | cons a l =>
        have h1 := h.keys hc a.1
        rw [h0, hkk] at h1
        obtain ⟨a1, a2⟩ := a
        simp [find] at h1
    cases hk : s.keys with
    | nil => exact absurd hk hne
    | cons q l =>
      have hq : q ∈ s.keys := by rw [hk]; exact List.mem_cons_self ..
      cases hx : q.2.main with
      | none => exact absurd hx (hall q hq)
      | some x =>
        have := e2.new q hq x hx
        intro h0
        rw [h0] at this
        cases this
  have hgood : Good C p m (s.mkMax + 1) ⟨C.enc (C.kdf p salt (if rounds < 25000 then 25000 else rounds)) 0 m, salt, if rounds < 25000 then 25000 else rounds⟩
      { d' with ver := true } := by
    refine ⟨hckne, rfl, hm, ?_, hs, hr, rfl, ?_⟩
    · show d'.mas = _
      rw [e2.mas, k2]; rfl
    · intro q ct hq
      rcases e2.old _ hq with hq | ⟨x, x1, x2⟩
      · rw [show ({ s.disk with mas := s.disk.mas ++ _ } : Disk).ck = [] from k1] at hq
        exact absurd hq (List.not_mem_nil)
      · obtain ⟨rfl, rfl⟩ := Prod.mk.inj x2
        exact ⟨x, x1, rfl, rfl⟩
  have hdinv : DInv C p { d' with ver := true } := by
    refine ⟨e2.sorted, ?_, Or.inr ⟨_, _, _, hgood⟩⟩
    intro q hq
    obtain ⟨c, hcq⟩ := hks q hq
    obtain ⟨a, b⟩ := q
    rw [show b = (c.purge, true) from hcq]
    exact fmt_purge C true a c
  refine ⟨rfl, ?_, ?_, ?_, ?_, ?_, ?_, ?_, ?_⟩
  · rw [f2]
    refine ⟨hdinv, rfl, ?_, rfl, sorted_map Combi.purge h.sorted, ?_, fun h' => (by cases h'), ?_, Or.inl rfl⟩
    · show s.mas ++ _ = d'.mas
      rw [e2.mas, h.mas]
    · show true = !d'.ck.isEmpty
      cases hd' : d'.ck with
      | nil => exact absurd hd' hckne
      | cons _ _ => rfl
    · intro q hq x hx
      obtain ⟨q', _, rfl⟩ := List.mem_map.mp hq
      cases hx
  · rw [f2]
  · rw [f2]; rfl
  · rw [f2]
    intro q hq
    obtain ⟨q', _, rfl⟩ := List.mem_map.mp hq
    rfl
  · rw [f2]
    intro q hq
    obtain ⟨c, hcq⟩ := hks q hq
    rw [hcq]; rfl
  · rw [f2]
  · rw [f2]
    intro x hx
    unfold Has at hx ⊢
    rw [if_pos hck0] at hx
    rw [if_neg hckne]
    obtain ⟨c, f, x1, x2⟩ := hx
    have hq : (C.pub x, c) ∈ s.keys := by
      refine find_mem ?_
      rw [h.keys hc, x1]; rfl
    exact ⟨h.main _ hq x x2, m, _, _, hgood, e2.new _ hq x x2⟩
  · rw [f2]
    intro id c hf
    show find d'.ks id = _
    rw [e2.ks, hf]

/-! ### The other operations -/

theorem has_opened (L : Laws C) {pass : Bytes} {s : St} (h : Inv C pass s) {p' : Bytes} {s' : St} (hc : s.crypto = true) (hu : unlock C p' s = some s') :
    ∃ m i k, Good C pass m i k s.disk ∧ s' = { s with master := m } ∧ C.dec (C.kdf p' k.salt k.rounds) 0 k.ct = some m := by
  obtain ⟨m', h1, h2, q, hq, h3⟩ := tryUnlock_form hc hu
  obtain ⟨m, i, k, g⟩ := good_of h hc
  rw [h.ck] at h2
  have := opens_only L g h2
  subst this
  rw [h.mas, g.mas] at hq
  rw [List.mem_singleton.mp hq] at h3
  exact ⟨m', i, k, g, h1, h3⟩

theorem inv_master {pass : Bytes} {s : St} (h : Inv C pass s) {m : Bytes} (hm : m = [] ∨ ∃ i k, Good C pass m i k s.disk) : Inv C pass { s with master := m } :=
  ⟨h.disk, h.ver, h.mas, h.ck, h.sorted, h.crypto, h.keys, h.main, hm⟩

theorem has_of_good {pass pass' : Bytes} {d d' : Disk} (hck : d'.ck = d.ck) (hks : d.ck = [] → d'.ks = d.ks)
    (hg : ∀ m i k, Good C pass m i k d → ∃ i' k', Good C pass' m i' k' d') {x : Bytes} (h : Has C pass d x) : Has C pass' d' x := by
  unfold Has at h ⊢
  rw [hck]
  split
  · rename_i h0
    rw [if_pos h0] at h
    rw [hks h0]; exact h
  · rename_i h0
    rw [if_neg h0] at h
    obtain ⟨hx, m, i, k, g, hf⟩ := h
    obtain ⟨i', k', g'⟩ := hg m i k g
    exact ⟨hx, m, i', k', g', hf⟩

theorem change_form (L : Laws C) {pass : Bytes} {s : St} (h : Inv C pass s) (hc : s.crypto = true) (old new : Bytes) (rounds : Nat) :
    changePass C s old new rounds = ({ s with master := [] }, .no) ∨
    ∃ m i k k', Good C pass m i k s.disk ∧ C.dec (C.kdf old k.salt k.rounds) 0 k.ct = some m ∧
      Good C new m i k' { s.disk with mas := [(i, k')] } ∧ k'.salt = k.salt ∧
      changePass C s old new rounds =
        ({ s with master := if locked s then [] else m, mas := [(i, k')], disk := { s.disk with mas := [(i, k')] } }, .yes) := by
  obtain ⟨m, i, k, g⟩ := good_of h hc
  have hmas : s.mas = [(i, k)] := h.mas.trans g.mas
  unfold changePass
  rw [lock_crypto hc]
  rw [hmas, tryChange, derive_ok old k.salt g.salt g.rounds]
  simp only
  cases hd : C.dec (C.kdf old k.salt k.rounds) 0 k.ct with
  | none => exact Or.inl rfl
  | some m' =>
    simp only
    cases hs : storeUnlock C { s with master := [], mas := [(i, k)] } m' with
    | none => exact Or.inl rfl
    | some s1 =>
      right
      obtain ⟨a, b⟩ := storeUnlock_form (s := { s with master := [], mas := [(i, k)] }) hc hs
      have b : opens C m' s.ck = true := b
      rw [h.ck] at b
      have := opens_only L g b
      subst this
      have hr : 1 ≤ (if rounds < 25000 then 25000 else rounds) := by split <;> omega
      refine ⟨m', i, k, ⟨C.enc (C.kdf new k.salt (if rounds < 25000 then 25000 else rounds)) 0 m', k.salt, if rounds < 25000 then 25000 else rounds⟩, g, hd,
        ⟨g.some, g.ver, g.len, rfl, g.salt, hr, rfl, g.keys⟩, rfl, ?_⟩
      simp only
      rw [derive_ok new k.salt g.salt hr]
      simp only [a, hmas, g.mas, setMaster, List.map_cons, List.map_nil, if_true]
      by_cases hl : locked s = true
      · rw [if_pos hl, if_pos hl]
        exact congrArg (·, Out.yes) (lock_crypto hc)
      · rw [if_neg hl, if_neg hl]

theorem change_inv (L : Laws C) {pass : Bytes} {s : St} (h : Inv C pass s) (hc : s.crypto = true) (old new : Bytes) (rounds : Nat) :
    Inv C (if (changePass C s old new rounds).2 = .yes then new else pass) (changePass C s old new rounds).1 := by
  rcases change_form L h hc old new rounds with he | ⟨m, i, k, k', g, _, g', _, he⟩
  · rw [he]; exact inv_master h (Or.inl rfl)
  · rw [he]
    simp only [if_true]
    refine ⟨⟨h.disk.sorted, h.disk.fmt, Or.inr ⟨m, i, k', g'⟩⟩, h.ver, rfl, h.ck, h.sorted, h.crypto, h.keys, h.main, ?_⟩
    show (if locked s then [] else m) = [] ∨ _
    by_cases hl : locked s = true
    · left; rw [if_pos hl]
    · right
      refine ⟨i, k', ?_⟩
      show Good C new (if locked s then [] else m) i k' _
      rw [if_neg hl]; exact g'

theorem remove_inv {pass : Bytes} {s : St} (h : Inv C pass s) {x : Bytes} (hx : ∃ q ∈ s.keys, q.1 ≠ C.pub x) : Inv C pass (removeKey C s x).1 := by
  unfold removeKey
  by_cases hc : s.crypto = true
  · rw [if_pos hc]; exact h
  · rw [if_neg hc]
    have hc : s.crypto = false := by simpa using hc
    have h0 := (plain_iff h).mp hc
    have hk : s.disk.ck = [] ∧ s.disk.mas = [] ∧ s.disk.ks ≠ [] ∧ s.disk.ver = false := by
      rcases h.disk.kind with hk | ⟨_, _, _, g⟩
      · exact hk
      · exact absurd h0 g.some
    refine ⟨⟨sorted_del h.disk.sorted _, fun q hq => h.disk.fmt q (mem_del hq), Or.inl ⟨hk.1, hk.2.1, ?_, hk.2.2.2⟩⟩, h.ver, h.mas, h.ck, sorted_del h.sorted _, h.crypto, ?_, ?_, ?_⟩
    · obtain ⟨q, hq, hne⟩ := hx
      have h1 := h.keys hc q.1
      rw [(mem_iff_find lt_total h.sorted q.1 q.2).mp hq] at h1
      intro h2
      have h3 := find_del s.disk.ks (C.pub x) q.1
      rw [show del s.disk.ks (C.pub x) = [] from h2, if_neg hne] at h3
      rw [← h3] at h1
      cases h1
    · intro _ id
      show find (del s.keys _) id = (find (del s.disk.ks _) id).map _
      rw [find_del, find_del]
      split
      · rfl
      · exact h.keys hc id
    · exact fun q hq => h.main q (mem_del hq)
    · rcases h.master with hm | ⟨i, k, g⟩
      · exact Or.inl hm
      · exact absurd h0 g.some

theorem drop_inv {pass : Bytes} {s : St} (h : Inv C pass s) : Inv C pass (dropMain s) := by
  have hks : ∀ q ∈ (dropMain s).disk.ks, Fmt C s.disk.ver q := by
    intro q hq
    rcases mem_foldl (fun c : Combi => (c.purge, s.ver)) s.keys s.disk.ks q hq with hq | ⟨p, _, rfl⟩
    · exact h.disk.fmt q hq
    · rw [h.ver]; exact fmt_purge C _ _ _
  have hgood : ∀ m i k, Good C pass m i k s.disk → Good C pass m i k (dropMain s).disk :=
    fun m i k g => ⟨g.some, g.ver, g.len, g.mas, g.salt, g.rounds, g.ct, g.keys⟩
  have hfind := fun id => find_foldl (fun c : Combi => (c.purge, s.ver)) s.keys s.disk.ks id h.sorted
  refine ⟨⟨sorted_foldl (fun c : Combi => (c.purge, s.ver)) s.keys s.disk.ks h.disk.sorted, hks, ?_⟩, h.ver, h.mas, h.ck, sorted_map Combi.purge h.sorted, h.crypto, ?_, ?_, ?_⟩
  · rcases h.disk.kind with ⟨h1, h2, h3, h4⟩ | ⟨m, i, k, g⟩
    · refine Or.inl ⟨h1, h2, ?_, h4⟩
      intro h0
      cases hq : s.disk.ks with
      | nil => exact h3 hq
      | cons q l =>
        have h5 := hfind q.1
        rw [show s.keys.foldl _ s.disk.ks = [] from h0, hq] at h5
        obtain ⟨a, b⟩ := q
        simp only [find, if_true] at h5
        cases hk : find s.keys a <;> rw [hk] at h5 <;> cases h5
    · exact Or.inr ⟨m, i, k, hgood m i k g⟩
  · intro hc id
    have hc : s.crypto = false := hc
    show find (s.keys.map fun p => (p.1, p.2.purge)) id = (find (s.keys.foldl _ s.disk.ks) id).map _
    rw [find_map, hfind id]
    cases hk : find s.keys id with
    | some c => rfl
    | none =>
      have := h.keys hc id
      rw [hk] at this
      simp only
      rw [← this]; rfl
  · intro q hq x hx
    obtain ⟨q', _, rfl⟩ := List.mem_map.mp hq
    cases hx
  · rcases h.master with hm | ⟨i, k, g⟩
    · exact Or.inl hm
    · exact Or.inr ⟨i, k, hgood _ _ _ g⟩

theorem addStep_died {s : St} {fresh : Bytes} {id : Nat} {c : Combi} (h : (addKey C s id c).2 = .died) :
    addStep C fresh s id c = start C s (addKey C s id c).1.disk fresh .died := by
  unfold addStep
  generalize addKey C s id c = r at h
  obtain ⟨a, b⟩ := r
  simp only at h
  subst h
  rfl

theorem addStep_lives {s : St} {fresh : Bytes} {id : Nat} {c : Combi} (h : (addKey C s id c).2 ≠ .died) :
    addStep C fresh s id c = addKey C s id c := by
  unfold addStep
  generalize addKey C s id c = r at h
  obtain ⟨a, b⟩ := r
  cases b
  case died => exact absurd rfl h
  all_goals rfl

theorem addStep_inv {pass : Bytes} {s : St} (h : Inv C pass s) (fresh : Bytes) (id : Nat) {c : Combi} (hl : ∀ x, c.main = some x → x.length = 32) :
    Inv C pass (addStep C fresh s id c).1 := by
  obtain ⟨h1, h2⟩ := add_inv h id hl
  by_cases hd : (addKey C s id c).2 = .died
  · rw [addStep_died hd, start_ok h1]; exact loaded_inv h1
  · rw [addStep_lives hd]; exact h2 hd

theorem lock_inv {pass : Bytes} {s : St} (h : Inv C pass s) (hc : s.crypto = true) : Inv C pass (lock s) := by
  rw [lock_crypto hc]; exact inv_master h (Or.inl rfl)

theorem step_encrypt {s : St} {fresh p m salt : Bytes} {rounds : Nat} (hp : p ≠ []) (h : (encryptWallet C s p m salt rounds).2 = .yes) :
    step C fresh s (.encrypt p m salt rounds) = encryptWallet C s p m salt rounds := by
  simp only [step, if_neg hp]
  generalize encryptWallet C s p m salt rounds = r at h
  obtain ⟨a, b⟩ := r
  simp only at h
  subst h; rfl

/-- Every operation keeps the wallet in order, with the passphrase it sets. -/
theorem step_inv (L : Laws C) {pass : Bytes} {s : St} (h : Inv C pass s) {fresh : Bytes} {op : Op} (hs : Sane C s op) :
    Inv C (newPass pass op (step C fresh s op).2) (step C fresh s op).1 := by
  cases op with
  | add id c =>
    simp only [step]
    split
    · exact h
    · exact addStep_inv h fresh id hs
  | late id c =>
    simp only [step]
    split
    · exact h
    · rename_i hc
      exact addStep_inv (lock_inv h (by cases hh : s.crypto <;> simp [hh] at hc ⊢)) fresh id hs
  | encrypt p m salt rounds =>
    by_cases hp : p = []
    · simp only [step, if_pos hp]; exact h
    rcases encrypt_inv L h hs.1 hs.2 rounds (p := p) with ⟨_, he⟩ | ⟨_, _, he⟩ | ⟨_, _, he, hi, _⟩
    · simp only [step, if_neg hp, he]; exact h
    · simp only [step, if_neg hp, he, start_ok h.disk]; exact loaded_inv h.disk
    · rw [step_encrypt hp he]
      generalize encryptWallet C s p m salt rounds = r at he hi
      obtain ⟨a, b⟩ := r
      simp only at he
      subst he; exact hi
  | lock =>
    simp only [step]
    split
    · rename_i hc
      exact lock_inv h hc
    · exact h
  | unlock p =>
    simp only [step]
    split
    · exact h
    · rename_i hcp
      have hc : s.crypto = true := by cases hh : s.crypto <;> simp [hh] at hcp ⊢
      cases hu : unlock C p s with
      | none => exact h
      | some s1 =>
        obtain ⟨m, i, k, g, he, _⟩ := has_opened L h hc hu
        rw [he]; exact inv_master h (Or.inr ⟨i, k, g⟩)
  | change old new rounds =>
    simp only [step]
    split
    · exact h
    · rename_i hcp
      have hc : s.crypto = true := by cases hh : s.crypto <;> simp [hh] at hcp ⊢
      have := change_inv L h hc old new rounds
      generalize changePass C s old new rounds = r at this
      obtain ⟨a, b⟩ := r
      cases b <;> exact this
  | remove x =>
    simp only [step]
    split
    · exact h
    · exact remove_inv h hs
  | drop reg =>
    simp only [step]
    split
    · exact h
    · exact drop_inv h
  | restart => simp only [step, start_ok h.disk]; exact loaded_inv h.disk
  | cut id c n =>
    simp only [step]
    split
    · exact h
    · have := cut_inv h id hs n
      rw [start_ok this]; exact loaded_inv this

theorem init_inv (C : Crypto) (pass fresh : Bytes) (hf : fresh.length = 32) : Inv C pass (init C fresh) := by
  have hfmt : Fmt C false (C.pub fresh, ⟨some fresh, none⟩, false) := ⟨rfl, by simp [badId], fun x hx => by cases hx; exact hf⟩
  refine ⟨⟨List.pairwise_singleton _ _, ?_, Or.inl ⟨rfl, rfl, by simp [init], rfl⟩⟩, rfl, rfl, rfl, List.pairwise_singleton _ _, rfl, ?_, ?_, Or.inl rfl⟩
  · intro q hq
    rw [List.mem_singleton.mp hq]; exact hfmt
  · intro _ id
    show find [_] id = (find [_] id).map _
    simp only [find]
    split <;> rfl
  · intro q hq x hx
    rw [List.mem_singleton.mp hq] at hx
    cases hx; exact hf

end Verif.Wallet
