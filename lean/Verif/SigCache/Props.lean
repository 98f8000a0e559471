import Verif.SigCache.Model

/-!
# Properties of signature verification through the cache

* C56 "signature verification through the cache returns true exactly when direct verification does, for every cache
  history": proved for valid keys and for every signature under a valid key; violated for keys without bytes, with the exact
  set of accepted strings.
* C66 "an account without a valid key signs nothing": violated for transactions, blocks and finality messages; proved that
  accounts with valid keys are safe.
-/
namespace Verif.SigCache

variable (ecc : Bytes → Bytes → Bytes → Bool) (H : Bytes → Bytes)

/-! ## What a cache history may contain -/

theorem evict_subset (max : Nat) : ∀ (is : List Nat) (c : List Bytes), ∀ e ∈ evict max is c, e ∈ c
  | [], _, _, h => h
  | i :: is, c, e, h => by
    simp only [evict] at h
    split at h
    · exact List.mem_of_mem_eraseIdx (evict_subset max is _ e h)
    · exact h

theorem setEntry_subset (max : Int) (ch : List Nat) (c : List Bytes) (x : Bytes) :
    ∀ e ∈ setEntry max ch c x, e ∈ c ∨ e = x := by
  intro e h
  simp only [setEntry] at h
  split at h
  · exact Or.inl h
  · split at h
    · exact Or.inl (evict_subset _ _ _ _ h)
    · rw [List.mem_append] at h
      rcases h with h | h
      · exact Or.inl (evict_subset _ _ _ _ h)
      · right; simpa using h

theorem verify_true_iff (max : Int) (ch : List Nat) (c : List Bytes) (k : Key) (hash sig : Bytes) :
    (verify ecc H max ch c k hash sig).1 = true ↔ entry H k hash sig ∈ c ∨ direct ecc k hash sig = true := by
  have hd : ¬ (sig.length = 0 ∧ sig.length ≥ 100) := by omega
  simp only [verify, if_neg hd]
  split
  · rename_i h; simp [h]
  · rename_i h
    split
    · rename_i h'; simp [h']
    · rename_i h'; simp [h, h']

theorem direct_valid (k : Key) (hash sig : Bytes) (h : direct ecc k hash sig = true) : keySize k = 33 := by
  by_cases hn : keySize k = 33
  · exact hn
  · simp [direct, keyValid, hn] at h

theorem keySize_cases (k : Key) : keySize k = 33 ∨ keySize k = 0 := by
  unfold keySize; split
  · split <;> simp
  · simp

theorem keyBytes_length (k : Key) (hk : k.length = 65) : (keyBytes k).length = keySize k := by
  rcases keySize_cases k with h | h <;> simp [keyBytes, h, hk]

/-- Two keys with equal, non-empty bytes verify the same signatures. -/
theorem direct_congr (k k' : Key) (hash sig : Bytes) (h1 : keySize k = 33) (h2 : keySize k' = 33)
    (h : keyBytes k = keyBytes k') : direct ecc k hash sig = direct ecc k' hash sig := by
  simp [direct, keyValid, h1, h2, h]

/-- Well-formed calls: key objects of 65 bytes, hashes of 32 bytes. -/
def Call.WF (q : Call) : Prop := q.key.length = 65 ∧ q.hash.length = 32

/-- Entries of triples accepted by direct verification, with 65-byte key objects. -/
def Honest65 (c : List Bytes) : Prop :=
  ∀ e ∈ c, ∃ k hash sig, k.length = 65 ∧ hash.length = 32 ∧ direct ecc k hash sig = true ∧ e = entry H k hash sig

theorem verify_honest65 (max : Int) (ch : List Nat) (c : List Bytes) (k : Key) (hash sig : Bytes) (hk : k.length = 65)
    (hl : hash.length = 32) (hc : Honest65 ecc H c) : Honest65 ecc H (verify ecc H max ch c k hash sig).2 := by
  simp only [verify]
  split
  · exact hc
  · split
    · exact hc
    · split
      · rename_i hd
        intro e he
        rcases setEntry_subset _ _ _ _ e he with h | h
        · exact hc e h
        · exact ⟨k, hash, sig, hk, hl, hd, h⟩
      · exact hc

theorem cacheAfter_honest65 (max : Int) : ∀ (qs : List Call) (c : List Bytes), (∀ q ∈ qs, q.WF) → Honest65 ecc H c →
    Honest65 ecc H (cacheAfter ecc H max qs c)
  | [], _, _, h => h
  | q :: qs, c, hl, h => by
    simp only [cacheAfter]
    have hq := hl q (List.mem_cons_self ..)
    exact cacheAfter_honest65 max qs _ (fun x hx => hl x (List.mem_cons_of_mem _ hx))
      (verify_honest65 ecc H max _ c _ _ _ hq.1 hq.2 h)

/-! ## C56 -/

/-- C56 for valid keys: whatever calls were made before, with whatever evictions, `VerifySignature` returns exactly what
direct verification returns. -/
theorem cached_equals_direct_partial (hinj : Function.Injective H) (max : Int) (qs : List Call) (hq : ∀ q ∈ qs, q.WF)
    (ch : List Nat) (k : Key) (hash sig : Bytes) (hk : k.length = 65) (hh : hash.length = 32) (hv : keySize k = 33) :
    (verify ecc H max ch (cacheAfter ecc H max qs []) k hash sig).1 = direct ecc k hash sig := by
  have hon := cacheAfter_honest65 ecc H max qs [] hq (by intro e he; cases he)
  apply Bool.eq_iff_iff.2
  rw [verify_true_iff]
  constructor
  · rintro (h | h)
    · obtain ⟨k', h', s', hk', hl', hd, he⟩ := hon _ h
      have := hinj he
      simp only [List.append_assoc] at this
      obtain ⟨e1, e2⟩ := List.append_inj this (by omega)
      have hv' := direct_valid ecc k' h' s' hd
      obtain ⟨e3, e4⟩ := List.append_inj e2 (by rw [keyBytes_length k hk, keyBytes_length k' hk', hv, hv'])
      subst e1; subst e4
      rw [direct_congr ecc k k' _ _ hv hv' e3]; exact hd
    · exact h
  · exact Or.inr

/-- C56, completeness, no condition on the key: a signature that verifies directly is never refused. -/
theorem direct_never_refused (max : Int) (ch : List Nat) (c : List Bytes) (k : Key) (hash sig : Bytes)
    (h : direct ecc k hash sig = true) : (verify ecc H max ch c k hash sig).1 = true :=
  (verify_true_iff ecc H max ch c k hash sig).2 (Or.inr h)

/-- C56 for keys without bytes: direct verification refuses everything, but the cache accepts exactly the strings "key bytes
followed by signature" of the cached triples with the same hash. -/
theorem empty_key_accepts_exactly (hinj : Function.Injective H) (max : Int) (qs : List Call) (hq : ∀ q ∈ qs, q.WF)
    (ch : List Nat) (k : Key) (hash sig : Bytes) (hh : hash.length = 32) (hv : keySize k = 0) :
    direct ecc k hash sig = false ∧
    ((verify ecc H max ch (cacheAfter ecc H max qs []) k hash sig).1 = true ↔
      ∃ k' s', k'.length = 65 ∧ keySize k' = 33 ∧ direct ecc k' hash s' = true ∧ sig = keyBytes k' ++ s' ∧
        entry H k' hash s' ∈ cacheAfter ecc H max qs []) := by
  have hon := cacheAfter_honest65 ecc H max qs [] hq (by intro e he; cases he)
  have hd0 : direct ecc k hash sig = false := by simp [direct, keyValid, hv]
  have hkb : keyBytes k = [] := by simp [keyBytes, hv]
  refine ⟨hd0, ?_⟩
  rw [verify_true_iff]
  constructor
  · rintro (h | h)
    · obtain ⟨k', h', s', hk', hl', hd, he⟩ := hon _ h
      have := hinj he
      simp only [hkb, List.append_nil, List.append_assoc] at this
      obtain ⟨e1, e2⟩ := List.append_inj this (by omega)
      subst e1
      exact ⟨k', s', hk', direct_valid ecc _ _ _ hd, hd, e2, he ▸ h⟩
    · rw [hd0] at h; cases h
  · rintro ⟨k', s', _, _, _, rfl, hm⟩
    left
    simpa [entry, hkb, List.append_assoc] using hm

theorem setEntry_mem (max : Int) (hm : 0 < max) (ch : List Nat) (c : List Bytes) (e : Bytes) : e ∈ setEntry max ch c e := by
  simp only [setEntry]
  rw [if_neg (by omega)]
  split
  · assumption
  · simp

/-- A call that verifies leaves its entry in the cache. -/
theorem verify_caches (max : Int) (hm : 0 < max) (ch : List Nat) (c : List Bytes) (k : Key) (hash sig : Bytes)
    (h : direct ecc k hash sig = true) : entry H k hash sig ∈ (verify ecc H max ch c k hash sig).2 := by
  have hd : ¬ (sig.length = 0 ∧ sig.length ≥ 100) := by omega
  simp only [verify, if_neg hd]
  split
  · assumption
  · simp only [h, if_true]
    exact setEntry_mem max hm ch c _

/-- C56 violated, for every verification predicate and every hash function: once anybody's valid signature `s` of `hash` under
`k'` has been checked, "key bytes then `s`" passes as a signature of `hash` under any key without bytes, although direct
verification refuses it. -/
theorem cached_equals_direct_violated (max : Int) (hm : 0 < max) (ch ch' : List Nat) (c : List Bytes) (k k' : Key)
    (hash s : Bytes) (hk : keySize k = 0) (h : direct ecc k' hash s = true) :
    (verify ecc H max ch' (verify ecc H max ch c k' hash s).2 k hash (keyBytes k' ++ s)).1 = true ∧
    direct ecc k hash (keyBytes k' ++ s) = false := by
  refine ⟨?_, by simp [direct, keyValid, hk]⟩
  rw [verify_true_iff]
  left
  have := verify_caches ecc H max hm ch c k' hash s h
  have hkb : keyBytes k = [] := by simp [keyBytes, hk]
  simpa [entry, hkb, List.append_assoc] using this

/-! ## C66 -/

/-- C66 violated for transactions: for every account that is registered, has permissions and no key - as every contract account
has - and every transaction with hash `dhash data`, an attacker who signs that hash with a key of their own and has a contract
verify this signature makes the node accept the transaction as signed by the account. -/
theorem keyless_account_signs_tx_violated (dhash : Bytes → Bytes) (max : Int) (hm : 0 < max) (ch : List Nat) (c : List Bytes)
    (a : Acc) (hp : a.perms ≠ 0) (hr : a.registered = true) (ho : keySize a.owner = 0) (data key s : Bytes)
    (hkl : key.length = 33) (hks : keySize key = 33) (hsig : ecc key (dhash data) s = true) :
    txSigned ecc H max (luaVerify ecc H dhash max ch c data key s).2 true a (dhash data) (key ++ s) = true := by
  have hne : key ≠ [] := by intro h; simp [h] at hkl
  obtain ⟨b, t, rfl⟩ := List.exists_cons_of_ne_nil hne
  have hsz : keySize ((b :: t) ++ List.replicate 32 0) = 33 := by
    simpa [keySize] using hks
  have hkb : keyBytes ((b :: t) ++ List.replicate 32 0) = b :: t := by
    rw [keyBytes, hsz, ← hkl, List.take_left]
  have hd : direct ecc ((b :: t) ++ List.replicate 32 0) (dhash data) s = true := by
    simp only [direct, keyValid, hsz, hkb, decide_true, if_true]
    exact hsig
  have := (cached_equals_direct_violated ecc H max hm ch [] c a.owner ((b :: t) ++ List.replicate 32 0) (dhash data) s ho hd).1
  rw [hkb] at this
  simp only [luaVerify, hkl, hks, if_true]
  simpa [txSigned, hp, hr] using this

/-- C66 violated for finality messages: the same string is accepted as a finality message of a delegate without keys. -/
theorem keyless_account_signs_pbft_violated (max : Int) (hm : 0 < max) (ch : List Nat) (c : List Bytes) (a : Acc)
    (ho : keySize a.owner = 0) (k' : Key) (hash s : Bytes) (h : direct ecc k' hash s = true) :
    pbftSigned ecc H max (verify ecc H max ch c k' hash s).2 a hash (keyBytes k' ++ s) = true := by
  have := (cached_equals_direct_violated ecc H max hm ch [] c a.owner k' hash s ho h).1
  simp [pbftSigned, this]

/-- C66 violated for blocks: one missing key, for instance the miner key, is enough, when the attacker's signature has at most
67 bytes. -/
theorem keyless_account_signs_block_violated (max : Int) (hm : 0 < max) (ch : List Nat) (c : List Bytes) (a : Acc)
    (hmk : keySize a.miner = 0 ∨ keySize a.owner = 0) (k' : Key) (hk' : k'.length = 65) (hash s : Bytes)
    (hs : s.length ≤ 67) (h : direct ecc k' hash s = true) :
    blockSigned ecc H max (verify ecc H max ch c k' hash s).2 a hash (keyBytes k' ++ s) = true := by
  have hv := direct_valid ecc k' hash s h
  have hl := keyBytes_length k' hk'
  have hnl : ¬ ((keyBytes k' ++ s).length = 0 ∨ (keyBytes k' ++ s).length > 100) := by
    rw [List.length_append, hl, hv]; omega
  simp only [blockSigned, if_neg hnl]
  split
  · rfl
  · rename_i hf
    rcases hmk with hk | hk
    · rw [verify_true_iff]
      left
      have hkb : keyBytes a.miner = [] := by simp [keyBytes, hk]
      have hc := verify_caches ecc H max hm ch c k' hash s h
      have hc' : (verify ecc H max [] (verify ecc H max ch c k' hash s).2 a.owner hash (keyBytes k' ++ s)).2 =
          (verify ecc H max ch c k' hash s).2 := by
        have hnt := hf
        rw [verify_true_iff] at hnt
        have hd : ¬ ((keyBytes k' ++ s).length = 0 ∧ (keyBytes k' ++ s).length ≥ 100) := by omega
        simp only [not_or] at hnt
        conv_lhs => rw [verify]
        rw [if_neg hd, if_neg hnt.1, if_neg (by simpa using hnt.2)]
      rw [hc']
      simpa [entry, hkb, List.append_assoc] using hc
    · exact absurd (cached_equals_direct_violated ecc H max hm ch [] c a.owner k' hash s hk h).1 hf

/-- The verdict depends on the cache: a node that never saw the attacker's call, or that runs with
`-maxsigcachesize=0`, refuses the transaction another node accepts. -/
theorem keyless_verdict_differs_violated (max : Int) (hm : 0 < max) (c : List Bytes) (a : Acc) (hp : a.perms ≠ 0)
    (hr : a.registered = true) (ho : keySize a.owner = 0) (k' : Key) (hash s : Bytes) (h : direct ecc k' hash s = true) :
    txSigned ecc H max (verify ecc H max [] c k' hash s).2 true a hash (keyBytes k' ++ s) = true ∧
    txSigned ecc H 0 (verify ecc H 0 [] [] k' hash s).2 true a hash (keyBytes k' ++ s) = false := by
  constructor
  · have := (cached_equals_direct_violated ecc H max hm [] [] c a.owner k' hash s ho h).1
    simpa [txSigned, hp, hr] using this
  · have hd : ¬ (s.length = 0 ∧ s.length ≥ 100) := by omega
    have he : (verify ecc H 0 [] [] k' hash s).2 = [] := by
      simp only [verify, if_neg hd, h, if_true, setEntry]
      simp
    rw [he]
    have : ¬ (verify ecc H 0 [] [] a.owner hash (keyBytes k' ++ s)).1 = true := by
      rw [verify_true_iff]; simp [direct, keyValid, ho]
    simpa [txSigned, hp, hr] using this

/-- C66 for accounts with valid keys, partial: for every cache history, a transaction is accepted as signed by the account
from R2 on only if its signature verifies directly under the owner key; blocks and finality messages only under the owner or the
miner key. Missing: accounts without keys (violated above), transactions before R2 (not checked at all). -/
theorem accepted_is_signed_partial (hinj : Function.Injective H) (max : Int) (qs : List Call) (hq : ∀ q ∈ qs, q.WF) (a : Acc)
    (hash sig : Bytes) (hh : hash.length = 32) (hol : a.owner.length = 65) (hml : a.miner.length = 65)
    (ho : keySize a.owner = 33) (hmk : keySize a.miner = 33) :
    (txSigned ecc H max (cacheAfter ecc H max qs []) true a hash sig = true →
      direct ecc a.owner hash sig = true ∧ a.perms ≠ 0 ∧ a.registered = true) ∧
    (blockSigned ecc H max (cacheAfter ecc H max qs []) a hash sig = true →
      (direct ecc a.owner hash sig = true ∨ direct ecc a.miner hash sig = true) ∧ 0 < sig.length ∧ sig.length ≤ 100) ∧
    (pbftSigned ecc H max (cacheAfter ecc H max qs []) a hash sig = true →
      direct ecc a.owner hash sig = true ∨ direct ecc a.miner hash sig = true) := by
  have h1 := cached_equals_direct_partial ecc H hinj max qs hq [] a.owner hash sig hol hh ho
  have h2 : (verify ecc H max [] (verify ecc H max [] (cacheAfter ecc H max qs []) a.owner hash sig).2 a.miner hash sig).1 =
      direct ecc a.miner hash sig := by
    have hq' : ∀ q ∈ qs ++ [⟨a.owner, hash, sig, []⟩], Call.WF q := by
      intro q hm
      rcases List.mem_append.1 hm with h | h
      · exact hq q h
      · have := List.mem_singleton.1 h
        subst this; exact ⟨hol, hh⟩
    have := cached_equals_direct_partial ecc H hinj max (qs ++ [⟨a.owner, hash, sig, []⟩]) hq' [] a.miner hash sig hml hh hmk
    have happ : ∀ (qs : List Call) (q : Call) (c : List Bytes), cacheAfter ecc H max (qs ++ [q]) c =
        (verify ecc H max q.choices (cacheAfter ecc H max qs c) q.key q.hash q.sig).2 := by
      intro qs
      induction qs with
      | nil => intro q c; rfl
      | cons x xs ih => intro q c; simp only [List.cons_append, cacheAfter]; exact ih q _
    rw [happ] at this
    exact this
  refine ⟨?_, ?_, ?_⟩
  · intro h
    simp only [txSigned] at h
    split at h
    · rename_i hc; simp at hc
    · split at h
      · cases h
      · rename_i hp
        split at h
        · cases h
        · rename_i hr
          rw [h1] at h
          exact ⟨h, hp, by simpa using hr⟩
  · intro h
    simp only [blockSigned] at h
    split at h
    · cases h
    · rename_i hl
      refine ⟨?_, by omega, by omega⟩
      split at h
      · rename_i hc; rw [h1] at hc; exact Or.inl hc
      · rw [h2] at h; exact Or.inr h
  · intro h
    simp only [pbftSigned] at h
    split at h
    · rename_i hc; rw [h1] at hc; exact Or.inl hc
    · rw [h2] at h; exact Or.inr h

/-! ## Examples -/

/-- A key of bytes 2,0,0,… and a verification predicate accepting signatures that end in 7. -/
def exKey : Key := 2 :: List.replicate 64 0
def exEcc (_ _ s : Bytes) : Bool := s.getLast? == some 7
def exHash : Bytes := List.replicate 32 1
/-- A contract account: default permissions, registered, keys never set. -/
def exContract : Acc := ⟨255 :: List.replicate 64 0, 255 :: List.replicate 64 0, 1023, true⟩

/-- `cached_equals_direct_partial` applies to a history with a hit, a miss and a refused signature. -/
example : ∃ qs : List Call, (∀ q ∈ qs, q.WF) ∧ keySize exKey = 33 ∧ exKey.length = 65 ∧
    (verify exEcc id 50000 [] (cacheAfter exEcc id 50000 qs []) exKey exHash [5, 7]).1 = true ∧
    (verify exEcc id 50000 [] (cacheAfter exEcc id 50000 qs []) exKey exHash [5, 8]).1 = false ∧
    (cacheAfter exEcc id 50000 qs []).length = 1 := by
  refine ⟨[⟨exKey, exHash, [5, 7], []⟩, ⟨exKey, exHash, [5, 8], []⟩], ?_, by decide, by decide, by decide +kernel, by decide +kernel, by decide +kernel⟩
  intro q hq
  rcases List.mem_cons.1 hq with h | h
  · subst h; exact ⟨by decide, by decide⟩
  · rw [List.mem_singleton.1 h]; exact ⟨by decide, by decide⟩

/-- The attack on a contract account, step by step. -/
example : direct exEcc exContract.owner exHash (keyBytes exKey ++ [5, 7]) = false ∧
    txSigned exEcc id 50000 [] true exContract exHash (keyBytes exKey ++ [5, 7]) = false ∧
    txSigned exEcc id 50000 (verify exEcc id 50000 [] [] exKey exHash [5, 7]).2 true exContract exHash (keyBytes exKey ++ [5, 7]) = true := by
  refine ⟨by decide, by decide +kernel, by decide +kernel⟩

end Verif.SigCache
