/-
Streaming hashes of the project: CSHA256, CSHA1, CSHA512, CRIPEMD160, the keyed hashes built on them.

Sources (all in /repo/src/crypto): sha256.cpp 637-693, sha1.cpp 147-199, sha512.cpp 152-207,
ripemd160.cpp 240-292, hmac_sha256.cpp 9-34, hmac_sha512.cpp 9-34, common.h (WriteBE64 /
WriteLE64), hash.cpp 62-96 (HMAC_SHA512_Init/Update/Final, the same text over the linked library),
hash.h 20-108.  Of the four classes the build lists only sha256.cpp (Makefile.am 351).

Simplifications
* The compression functions (`Transform`) are a parameter.  Nothing is assumed about them.
* The four classes differ in the block size, the width and byte order of the length field, the
  constant in the padding length and in how full blocks are handed to the compression function.
  Those are the fields of `Alg`; the rest of the text is the same.
* Pointers into the source data are the list of bytes not yet consumed.
-/

namespace Verif.Hash

abbrev Bytes := List UInt8

/-- What differs between the classes. -/
structure Alg where
  S : Type
  /-- Bytes per block: the size of `buf`. -/
  B : Nat
  /-- The constant in `1 + ((padc - (bytes % B)) % B)`. -/
  padc : Nat
  /-- Size of `sizedesc`. -/
  L : Nat
  /-- The length field is big endian (RIPEMD: little endian). -/
  big : Bool
  /-- Full blocks are passed on in one call with their number (CSHA256), not one by one. -/
  multi : Bool
  init : S
  compress : S → Bytes → S
  out : S → Bytes

/-- The members `s`, `buf`, `bytes` (sha256.h, sha1.h, sha512.h, ripemd160.h). -/
structure St (A : Alg) where
  s : A.S
  buf : Bytes
  bytes : Nat

/-- Arithmetic of uint64_t. -/
def u64 (n : Nat) : Nat := n % 2 ^ 64

/-- Constructor (sha256.cpp 639-642, sha1.cpp 149-152, sha512.cpp 155-158, ripemd160.cpp 242-245).
`buf` is left with whatever the memory held. -/
def fresh (A : Alg) (junk : Bytes) : St A := ⟨A.init, junk, 0⟩

/-- `Reset` (sha256.cpp 688-693, sha1.cpp 194-199, sha512.cpp 202-207, ripemd160.cpp 287-292). -/
def reset (A : Alg) (st : St A) : St A := { st with bytes := 0, s := A.init }

/-- `memcpy(buf + off, data, data.size)`. -/
def copyAt (buf : Bytes) (off : Nat) (data : Bytes) : Bytes :=
  buf.take off ++ data ++ buf.drop (off + data.length)

/-- `while (end >= data + B) { Transform(s, data); data += B; bytes += B; }`
(sha1.cpp 165-170, sha512.cpp 171-176, ripemd160.cpp 258-263). -/
def oneByOne (A : Alg) (s : A.S) (bytes : Nat) (data : Bytes) : A.S × Nat × Bytes :=
  if h : data.length ≥ A.B ∧ 0 < A.B then
    oneByOne A (A.compress s (data.take A.B)) (u64 (bytes + A.B)) (data.drop A.B)
  else (s, bytes, data)
termination_by data.length
decreasing_by simp only [List.length_drop]; omega

/-- `Transform(s, data, blocks)` (sha256.cpp 100-187: `while (blocks--)` … `chunk += 64`). -/
def transformN (A : Alg) (s : A.S) (data : Bytes) : Nat → A.S
  | 0 => s
  | n + 1 => transformN A (A.compress s (data.take A.B)) (data.drop A.B) n

/-- The branch of CSHA256::Write for whole blocks (sha256.cpp 655-660). -/
def together (A : Alg) (s : A.S) (bytes : Nat) (data : Bytes) : A.S × Nat × Bytes :=
  if data.length ≥ A.B then
    let blocks := data.length / A.B
    (transformN A s data blocks, u64 (bytes + A.B * blocks), data.drop (A.B * blocks))
  else (s, bytes, data)

def whole (A : Alg) (s : A.S) (bytes : Nat) (data : Bytes) : A.S × Nat × Bytes :=
  if A.multi then together A s bytes data else oneByOne A s bytes data

/-- `Write` (sha256.cpp 644-667, sha1.cpp 154-177, sha512.cpp 160-183, ripemd160.cpp 247-270). -/
def write (A : Alg) (st : St A) (data : Bytes) : St A :=
  let bufsize := st.bytes % A.B
  let fill := A.B - bufsize
  let a : St A × Nat × Bytes :=
    if bufsize ≠ 0 ∧ bufsize + data.length ≥ A.B then
      let buf := copyAt st.buf bufsize (data.take fill)
      (⟨A.compress st.s buf, buf, u64 (st.bytes + fill)⟩, 0, data.drop fill)
    else (st, bufsize, data)
  let w := whole A a.1.s a.1.bytes a.2.2
  if w.2.2 ≠ [] then
    ⟨w.1, copyAt a.1.buf a.2.1 w.2.2, u64 (w.2.1 + w.2.2.length)⟩
  else ⟨w.1, a.1.buf, w.2.1⟩

/-- The `i`-th byte of a number counted from the low end. -/
def byteOf (n i : Nat) : UInt8 := UInt8.ofNat (n / 256 ^ i)

/-- `WriteLE64` (common.h). -/
def le64 (n : Nat) : Bytes := (List.range 8).map (byteOf n)

/-- `WriteBE64` (common.h). -/
def be64 (n : Nat) : Bytes := (le64 n).reverse

/-- `sizedesc`: for SHA-512 the first eight of sixteen bytes stay zero (sha512.cpp 188-189). -/
def sizedesc (A : Alg) (bytes : Nat) : Bytes :=
  List.replicate (A.L - 8) 0 ++ (if A.big then be64 (u64 (bytes * 8)) else le64 (u64 (bytes * 8)))

/-- `static const unsigned char pad[B] = {0x80}`. -/
def padArr (A : Alg) : Bytes := 0x80 :: List.replicate (A.B - 1) 0

/-- `Finalize` (sha256.cpp 669-686, sha1.cpp 179-192, sha512.cpp 185-200, ripemd160.cpp 272-285).
The length field is computed before the padding is written. -/
def finalize (A : Alg) (st : St A) : Bytes × St A :=
  let d := sizedesc A st.bytes
  let a := write A st ((padArr A).take (1 + ((A.padc - st.bytes % A.B) % A.B)))
  let b := write A a d
  (A.out b.s, b)

/-- Object with the given pieces written one after the other. -/
def writes (A : Alg) (st : St A) (ds : List Bytes) : St A := ds.foldl (write A) st

/-! ### The keyed hashes -/

/-- `outer` and `inner` (hmac_sha256.h, hmac_sha512.h). -/
structure Hmac (A : Alg) where
  outer : St A
  inner : St A

/-- The array `rkey` (hmac_sha256.cpp 11-18, hmac_sha512.cpp 11-18): `O` is the size of a digest. -/
def rkey (A : Alg) (O : Nat) (junk : Bytes) (key : Bytes) : Bytes :=
  if key.length ≤ A.B then key ++ List.replicate (A.B - key.length) 0
  else (finalize A (write A (fresh A junk) key)).1 ++ List.replicate (A.B - O) 0

/-- Constructor (hmac_sha256.cpp 9-27, hmac_sha512.cpp 9-27, hash.cpp 62-84). The second loop changes the already
changed key. -/
def hmacNew (A : Alg) (O : Nat) (j1 j2 j3 : Bytes) (key : Bytes) : Hmac A :=
  let k1 := (rkey A O j1 key).map (· ^^^ 0x5c)
  let k2 := k1.map (· ^^^ (0x5c ^^^ 0x36))
  ⟨write A (fresh A j2) k1, write A (fresh A j3) k2⟩

/-- `Write` (hmac_sha256.h, hmac_sha512.h): to the inner hash. -/
def hmacWrite (A : Alg) (h : Hmac A) (d : Bytes) : Hmac A := { h with inner := write A h.inner d }

/-- `Finalize` (hmac_sha256.cpp 29-34, hmac_sha512.cpp 29-34, hash.cpp 90-95). -/
def hmacFinal (A : Alg) (h : Hmac A) : Bytes :=
  let temp := (finalize A h.inner).1
  (finalize A (write A h.outer temp)).1

/-! ### Hashes of the consensus code (hash.h), over the streaming interface

`SHA256_Init/Update/Final` of the linked library are taken to be the streaming hash of this model. -/

/-- `SHA256(data, n, out)`: one call. -/
def once (A : Alg) (junk : Bytes) (d : Bytes) : Bytes := (finalize A (write A (fresh A junk) d)).1

/-- `Hash(begin, end)` (hash.h 20-29). -/
def hash1 (A : Alg) (j1 j2 : Bytes) (d : Bytes) : Bytes := once A j2 (once A j1 d)

/-- `Hash(p1begin, p1end, p2begin, p2end)` (hash.h 75-89). -/
def hash2 (A : Alg) (j1 j2 : Bytes) (d1 d2 : Bytes) : Bytes :=
  once A j2 (finalize A (write A (write A (fresh A j1) d1) d2)).1

/-- `Hash` of three ranges (hash.h 91-108). -/
def hash3 (A : Alg) (j1 j2 : Bytes) (d1 d2 d3 : Bytes) : Bytes :=
  once A j2 (finalize A (write A (write A (write A (fresh A j1) d1) d2) d3)).1

/-- `CHashWriter`: `write` for every piece the serialisation hands over, then `GetHash`
(hash.h 42-73). -/
def hashWriter (A : Alg) (j1 j2 : Bytes) (ds : List Bytes) : Bytes :=
  once A j2 (finalize A (writes A (fresh A j1) ds)).1

/-! ### The four classes -/

def sha256 (S : Type) (i : S) (f : S → Bytes → S) (o : S → Bytes) : Alg :=
  ⟨S, 64, 119, 8, true, true, i, f, o⟩
def sha1 (S : Type) (i : S) (f : S → Bytes → S) (o : S → Bytes) : Alg :=
  ⟨S, 64, 119, 8, true, false, i, f, o⟩
def sha512 (S : Type) (i : S) (f : S → Bytes → S) (o : S → Bytes) : Alg :=
  ⟨S, 128, 239, 16, true, false, i, f, o⟩
def ripemd160 (S : Type) (i : S) (f : S → Bytes → S) (o : S → Bytes) : Alg :=
  ⟨S, 64, 119, 8, false, false, i, f, o⟩

end Verif.Hash
