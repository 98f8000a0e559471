import Mathlib.Data.List.Basic

/-!
# The signature cache and the checks behind it

Models `CSignatureCache` (src/sigcache.cpp 9-52), `VerifySignature` (src/main.cpp 218-234), `CPubKey::size`, `Verify`
(src/entities/key.h 52-100, key.cpp 194-210) and the callers `CBaseTx::CheckBaseTx` (src/tx/tx.cpp 101-129), `VerifyRewardTx`
(src/miner/miner.cpp 246-254), `CheckPBFTMessage` (src/miner/pbftmanager.cpp 462-470) and the contract function
`ExVerifySignatureFunc` (src/vm/luavm/lmylib.cpp 887-909).

* Bytes are numbers; a hash is 32 bytes; `H` is SHA-256 over byte strings.
* `ecc key hash sig` is signature verification for a 33-byte key.
* A public key object is its 65-byte array.
* The random evictions are a list of choices, one per round of the loop.
* `&vchSig[0]` of an empty signature is read as an empty byte string.
-/
namespace Verif.SigCache

abbrev Bytes := List Nat
/-- The array `vch` of a `CPubKey`. -/
abbrev Key := List Nat

/-- `CPubKey::size`. -/
def keySize (k : Key) : Nat :=
  match k.head? with
  | some b => if b = 2 ∨ b = 3 then 33 else 0
  | none => 0

/-- The bytes between `begin()` and `end()`. -/
def keyBytes (k : Key) : Bytes := k.take (keySize k)

/-- `CPubKey::IsValid`. -/
def keyValid (k : Key) : Bool := decide (keySize k = 33)

variable (ecc : Bytes → Bytes → Bytes → Bool) (H : Bytes → Bytes)

/-- `CPubKey::Verify`. -/
def direct (k : Key) (hash sig : Bytes) : Bool := if keyValid k then ecc (keyBytes k) hash sig else false

/-- `ComputeEntry`. -/
def entry (k : Key) (hash sig : Bytes) : Bytes := H (hash ++ keyBytes k ++ sig)

/-- The eviction loop of `Set`. -/
def evict (max : Nat) : List Nat → List Bytes → List Bytes
  | [], c => c
  | i :: is, c => if c.length > max then evict max is (c.eraseIdx i) else c

/-- `CSignatureCache::Set`. -/
def setEntry (max : Int) (choices : List Nat) (c : List Bytes) (e : Bytes) : List Bytes :=
  if max ≤ 0 then c
  else
    let c' := evict max.toNat choices c
    if e ∈ c' then c' else c' ++ [e]

/-- `VerifySignature`: verdict and cache afterwards. -/
def verify (max : Int) (choices : List Nat) (c : List Bytes) (k : Key) (hash sig : Bytes) : Bool × List Bytes :=
  if sig.length = 0 ∧ sig.length ≥ 100 then (false, c)
  else if entry H k hash sig ∈ c then (true, c)
  else if direct ecc k hash sig then (true, setEntry max choices c (entry H k hash sig))
  else (false, c)

/-- One call of `VerifySignature`. -/
structure Call where
  key : Key
  hash : Bytes
  sig : Bytes
  choices : List Nat

/-- The cache after a sequence of calls. -/
def cacheAfter (max : Int) : List Call → List Bytes → List Bytes
  | [], c => c
  | q :: qs, c => cacheAfter max qs (verify ecc H max q.choices c q.key q.hash q.sig).2

/-! ## Callers -/

structure Acc where
  owner : Key
  miner : Key
  perms : Nat
  registered : Bool

/-- The signature step of `CheckBaseTx` for a transaction sent by registration id. -/
def txSigned (max : Int) (c : List Bytes) (fork2 : Bool) (a : Acc) (hash sig : Bytes) : Bool :=
  if !fork2 then true
  else if a.perms = 0 then false
  else if !a.registered then false
  else (verify ecc H max [] c a.owner hash sig).1

/-- The signature step of `VerifyRewardTx`. -/
def blockSigned (max : Int) (c : List Bytes) (a : Acc) (hash sig : Bytes) : Bool :=
  if sig.length = 0 ∨ sig.length > 100 then false
  else
    let r := verify ecc H max [] c a.owner hash sig
    if r.1 then true else (verify ecc H max [] r.2 a.miner hash sig).1

/-- The signature step of `CheckPBFTMessage`. -/
def pbftSigned (max : Int) (c : List Bytes) (a : Acc) (hash sig : Bytes) : Bool :=
  let r := verify ecc H max [] c a.owner hash sig
  if r.1 then true else (verify ecc H max [] r.2 a.miner hash sig).1

/-- `ExVerifySignatureFunc`: any data, any 33-byte key, any signature, chosen by the contract; `dhash` is `Hash`. -/
def luaVerify (dhash : Bytes → Bytes) (max : Int) (choices : List Nat) (c : List Bytes) (data key sig : Bytes) : Bool × List Bytes :=
  if key.length ≠ 33 then (false, c)
  else verify ecc H max choices c (if keySize key = 33 then key ++ List.replicate 32 0 else 255 :: List.replicate 64 0) (dhash data) sig

end Verif.SigCache
