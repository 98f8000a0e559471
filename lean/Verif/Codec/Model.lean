/-!
# Byte encodings (src/commons/serialize.h, src/commons/leb128.h, src/entities/id.h, src/persistence/dbconf.h)

Byte strings are `List Nat`; `Bytes l` says that all elements are below 256.  A stream is the list of
bytes still to be read; a C++ `ios_base::failure` (end of data, bad encoding) is `none`.
-/
namespace Verif.Codec

/-- All elements are bytes. -/
def Bytes (l : List Nat) : Prop := ∀ b ∈ l, b < 256

/-! ## VarInt (serialize.h 309-352) -/

/-- `GetSizeOfVarInt` (serialize.h 309-319). -/
def sizeVarInt (n : Nat) : Nat :=
  if n ≤ 127 then 1 else 1 + sizeVarInt (n / 128 - 1)
termination_by n
decreasing_by omega

/-- Loop of `WriteVarInt` (serialize.h 322-337) for an unsigned `w`-bit type: `acc` holds the bytes
stored in `tmp` so far, last stored first; `tmp` has `(w + 6) / 7` elements and storing outside it
is undefined behaviour (`none`).  At the end the bytes are emitted last stored first. -/
def writeVarIntLoop (w : Nat) (n : Nat) (acc : List Nat) : Option (List Nat) :=
  if acc.length < (w + 6) / 7 then
    let b := n % 128 + (if acc.length = 0 then 0 else 128)
    if n ≤ 127 then some (b :: acc) else writeVarIntLoop w (n / 128 - 1) (b :: acc)
  else none
termination_by n
decreasing_by omega

/-- `WriteVarInt<Stream, I>` for `I` an unsigned type of `w` bits. -/
def writeVarInt (w n : Nat) : Option (List Nat) := writeVarIntLoop w n []

/-- Loop of `ReadVarInt` (serialize.h 339-352) with accumulator `n` of `w` bits:
`n = (n << 7) | (ch & 0x7F); if (ch & 0x80) n++`.  The low seven bits of `n << 7` are zero, so the
bitwise or is an addition; both assignments truncate to `w` bits. -/
def readVarIntLoop (w : Nat) (n : Nat) : List Nat → Option (Nat × List Nat)
  | [] => none
  | ch :: r =>
    let n1 := (n * 128 + ch % 128) % 2 ^ w
    if 128 ≤ ch then readVarIntLoop w ((n1 + 1) % 2 ^ w) r else some (n1, r)

/-- `ReadVarInt<Stream, I>`. -/
def readVarInt (w : Nat) (l : List Nat) : Option (Nat × List Nat) := readVarIntLoop w 0 l

/-! ## Compact size (serialize.h 205-285; repeated for CPubKey in entities/key.h 114-163) -/

/-- `k` bytes of `n`, least significant first: the memory image of an unsigned integer on the
little-endian machines the code assumes (`WRITEDATA`). -/
def leBytes : Nat → Nat → List Nat
  | 0, _ => []
  | k + 1, n => n % 256 :: leBytes k (n / 256)

/-- `READDATA` of a `k`-byte unsigned integer. -/
def readLE : Nat → List Nat → Option (Nat × List Nat)
  | 0, l => some (0, l)
  | _ + 1, [] => none
  | k + 1, b :: r => (readLE k r).map (fun p => (b + 256 * p.1, p.2))

/-- `MAX_SIZE` (serialize.h 35). -/
abbrev MAX_SIZE : Nat := 0x02000000

/-- `GetSizeOfCompactSize` (serialize.h 208-214). -/
def sizeCompactSize (n : Nat) : Nat :=
  if n < 253 then 1 else if n ≤ 0xFFFF then 3 else if n ≤ 0xFFFFFFFF then 5 else 9

/-- `WriteCompactSize` (serialize.h 216-246). -/
def writeCompactSize (n : Nat) : List Nat :=
  if n < 253 then [n]
  else if n ≤ 0xFFFF then 253 :: leBytes 2 n
  else if n ≤ 0xFFFFFFFF then 254 :: leBytes 4 n
  else 255 :: leBytes 8 n

/-- `ReadCompactSize` (serialize.h 248-285). -/
def readCompactSize : List Nat → Option (Nat × List Nat)
  | [] => none
  | ch :: r =>
    (if ch < 253 then some (ch, r)
     else if ch = 253 then (readLE 2 r).bind (fun p => if p.1 < 253 then none else some p)
     else if ch = 254 then (readLE 4 r).bind (fun p => if p.1 < 0x10000 then none else some p)
     else (readLE 8 r).bind (fun p => if p.1 < 0x100000000 then none else some p)).bind
    (fun p => if p.1 > MAX_SIZE then none else some p)

/-! ## CFixedLeb128 (leb128.h 16-96) -/

/-- `CFixedLeb128::SIZE` (leb128.h 22) for `w`-bit integers. -/
def lebSize (w : Nat) : Nat := (w + 6) / 7

/-- Loop of `SerializeValue` (leb128.h 41-51): the last `k` bytes, most significant first. -/
def lebBytes : Nat → Nat → List Nat
  | 0, _ => []
  | k + 1, n => lebBytes k (n / 128) ++ [n % 128]

/-- `CFixedLeb128<w bits>::SerializeValue`. -/
def encLeb (w n : Nat) : List Nat := lebBytes (lebSize w) n

/-- Loop of `UnserializeValue` (leb128.h 53-63): `v = (v << 7) | bytes[i]` truncated to `w` bits.  The
bytes are not masked, hence a real bitwise or. -/
def lebLoop (w : Nat) : Nat → Nat → List Nat → Option (Nat × List Nat)
  | 0, v, l => some (v, l)
  | _ + 1, _, [] => none
  | k + 1, v, b :: r => lebLoop w k ((v * 128 ||| b) % 2 ^ w) r

/-- `CFixedLeb128<w bits>::UnserializeValue`. -/
def decLeb (w : Nat) (l : List Nat) : Option (Nat × List Nat) := lebLoop w (lebSize w) 0 l

/-! ## Registration ids and user ids (entities/id.h) -/

/-- Read exactly `k` bytes (`s.read`). -/
def readN (k : Nat) (l : List Nat) : Option (List Nat × List Nat) :=
  if l.length < k then none else some (l.take k, l.drop k)

/-- `CRegID` (id.h 45-101). -/
structure RegId where
  height : Nat
  index : Nat
  deriving DecidableEq, Repr

/-- Field widths of `CRegID` (id.h 93-94). -/
def RegId.Ok (r : RegId) : Prop := r.height < 2 ^ 32 ∧ r.index < 2 ^ 16

/-- `CRegID` serialization (id.h 88-91): two VarInts. -/
def writeRegId (r : RegId) : Option (List Nat) :=
  (writeVarInt 32 r.height).bind (fun a => (writeVarInt 16 r.index).map (fun b => a ++ b))

def readRegId (l : List Nat) : Option (RegId × List Nat) :=
  (readVarInt 32 l).bind (fun p => (readVarInt 16 p.2).map (fun q => (⟨p.1, q.1⟩, q.2)))

/-- `CRegID::GetSerializeSize`. -/
def sizeRegId (r : RegId) : Nat := sizeVarInt r.height + sizeVarInt r.index

/-- `CRegID::GetIntValue` (id.h 66): a 64-bit value, no wrap for a 32-bit height. -/
def RegId.toInt (r : RegId) : Nat := (r.height * 2 ^ 20 + r.index) % 2 ^ 64

/-- `CRegID::Set(uint64_t)` (id.cpp 74-77): assignments truncate to the field widths. -/
def RegId.ofInt (v : Nat) : RegId := ⟨(v / 2 ^ 20) % 2 ^ 32, (v % 2 ^ 20) % 2 ^ 16⟩

/-- `CRegID::GetRegIdRaw` (id.cpp 92-98). -/
def RegId.raw (r : RegId) : List Nat := leBytes 4 r.height ++ leBytes 2 r.index

/-- `CRegID::SetRegID(vector)` (id.cpp 66-72). -/
def RegId.ofRaw (l : List Nat) : Option RegId :=
  if l.length ≠ 6 then none
  else (readLE 4 l).bind (fun p => (readLE 2 p.2).map (fun q => ⟨p.1, q.1⟩))

/-- `CPubKey` (entities/key.h 40-180): the bytes of a valid (compressed) key, or the invalid key
(first byte 0xFF, `size() == 0`). -/
inductive PubKey where
  | valid (bytes : List Nat)
  | invalid
  deriving DecidableEq, Repr

/-- `CPubKey::Set` (key.h 73-79) with `GetLen` (key.h 53-60). -/
def PubKey.ofBytes (l : List Nat) : PubKey :=
  match l with
  | [] => .invalid
  | h :: _ => if (h = 2 ∨ h = 3) ∧ l.length = 33 then .valid l else .invalid

/-- What a valid key looks like. -/
def PubKey.Ok : PubKey → Prop
  | .valid l => l.length = 33 ∧ Bytes l ∧ (l.head? = some 2 ∨ l.head? = some 3)
  | .invalid => False

/-- `CUserID` (id.h 128-317): the variant. -/
inductive UserId where
  | null
  | reg (r : RegId)
  | key (k : List Nat)
  | pub (p : PubKey)
  deriving DecidableEq, Repr

/-- `CUserID::Serialize` (id.h 257-279).  `none` is a failed `assert` (the process aborts). -/
def writeUserId : UserId → Option (List Nat)
  | .reg r =>
    if 2 ≤ sizeRegId r ∧ sizeRegId r ≤ 10 then (writeRegId r).map (fun b => sizeRegId r :: b) else none
  | .key k => if k.length = 20 then some (20 :: k) else none
  | .pub (.valid l) => if l.length + 1 = 34 then some (l.length :: l) else none
  | .pub .invalid => none
  | .null => some [0]

/-- `CUserID::Unserialize` (id.h 281-315).  Note that the public key is stored as parsed, and that
the length tag of a registration id is not compared with the bytes actually read. -/
def readUserId (l : List Nat) : Option (UserId × List Nat) :=
  (readCompactSize l).bind (fun p =>
    if 2 ≤ p.1 ∧ p.1 ≤ 10 then (readRegId p.2).map (fun q => (.reg q.1, q.2))
    else if p.1 = 20 then (readN 20 p.2).map (fun q => (.key q.1, q.2))
    else if p.1 = 33 then (readN 33 p.2).map (fun q => (.pub (PubKey.ofBytes q.1), q.2))
    else if p.1 = 0 then some (.null, p.2)
    else none)

/-! ## Database keys (persistence/dbconf.h) -/

/-- `DBNameType` (dbconf.h 32-58): which LevelDB a table lives in. -/
inductive Db where
  | none | sysparam | sysgovern | asset | block | account | contract | delegate | cdp | closedcdp
  | dex | log | receipt | utxo | pricefeed | axc
  deriving DecidableEq, Repr

/-- `DBK_PREFIX_LIST` (dbconf.h 71-148) without the two entries with an empty prefix (`EMPTY`,
`PREFIX_COUNT`), which `GenDbKey` refuses (assert) or which name no table. -/
def prefixTable : List (String × String × Db) :=
  [("SYS_PARAM", "sysp", .sysparam), ("MINER_FEE", "minf", .sysparam), ("CDP_PARAM", "cdpp", .sysparam),
   ("CDP_INTEREST_PARAMS", "cips", .sysparam), ("TOTAL_BPS_SIZE", "bpsi", .sysparam),
   ("NEW_TOTAL_BPS_SIZE", "nbps", .sysparam), ("SYS_GOVERN", "govn", .sysgovern),
   ("GOVN_PROP", "pgvn", .sysgovern), ("GOVN_APPROVAL_LIST", "galt", .sysgovern),
   ("AXCOUT_PROPOSAL_TXUID", "aptu", .sysgovern), ("ASSET", "asst", .asset),
   ("AXC_COIN_PEERTOSELF", "acps", .asset), ("AXC_COIN_SELFTOPEER", "acsp", .asset),
   ("BLOCK_INDEX", "bidx", .block), ("BLOCKFILE_NUM_INFO", "bfni", .block), ("LAST_BLOCKFILE", "ltbf", .block),
   ("REINDEX", "ridx", .block), ("FINALITY_BLOCK", "finb", .block), ("FLAG", "flag", .block),
   ("BEST_BLOCKHASH", "bbkh", .block), ("TXID_DISKINDEX", "tidx", .block), ("BLOCK_INFLATED_REWARD", "bird", .block),
   ("REGID_KEYID", "rkey", .account), ("KEYID_ACCOUNT", "idac", .account), ("CONTRACT_DEF", "ucon", .contract),
   ("CONTRACT_DATA", "cdat", .contract), ("CONTRACT_ACCOUNT", "cacc", .contract), ("CONTRACT_TRACES", "ctrs", .contract),
   ("VOTE", "vote", .delegate), ("LAST_VOTE_HEIGHT", "lvht", .delegate), ("PENDING_DELEGATES", "pdds", .delegate),
   ("ACTIVE_DELEGATES", "atds", .delegate), ("REGID_VOTE", "ridv", .delegate), ("CDP", "cid", .cdp),
   ("CDP_BCOIN", "cbcn", .cdp), ("USER_CDP", "ucdp", .cdp), ("CDP_RATIO_INDEX", "crid", .cdp),
   ("CDP_HEIGHT_INDEX", "chid", .cdp), ("CDP_GLOBAL_DATA", "cgdt", .cdp), ("CLOSED_CDP_TX", "ctx", .closedcdp),
   ("CLOSED_TX_CDP", "txc", .closedcdp), ("DEX_ACTIVE_ORDER", "dato", .dex), ("DEX_BLOCK_ORDERS", "dbos", .dex),
   ("DEX_OPERATOR_LAST_ID", "doli", .dex), ("DEX_OPERATOR_DETAIL", "dode", .dex), ("DEX_OPERATOR_OWNER_MAP", "doom", .dex),
   ("DEX_OPERATOR_TRADE_PAIR", "dotp", .dex), ("DEX_QUOTE_COIN_SYMBOL", "dqcs", .dex), ("TX_EXECUTE_FAIL", "txef", .log),
   ("TX_RECEIPT", "txrc", .receipt), ("BLOCK_RECEIPT", "bkrc", .receipt), ("TX_UTXO", "utxo", .utxo),
   ("UTXO_PWSDPRF", "pwdp", .utxo), ("MEDIAN_PRICES", "mdps", .pricefeed), ("PRICE_FEED_COIN_PAIRS", "pfcp", .pricefeed),
   ("PRICE_FEEDERS", "pfdr", .pricefeed), ("AXC_SWAP_IN", "axci", .axc)]

/-- Number of tables. -/
abbrev nTables : Nat := prefixTable.length

/-- A table. -/
abbrev Table := Fin nTables

/-- `GetKeyPrefix` (dbconf.h 176-179) as bytes. -/
def prefixOf (t : Table) : List Nat := (prefixTable[t].2.1).toList.map Char.toNat

/-- Shapes of entry keys occurring in the tables. -/
inductive KT where
  /-- `uint256`, `uint160`/`CKeyID`: `n` raw bytes -/
  | blob (n : Nat)
  /-- `uint8_t` -/
  | u8
  /-- `CFixedUInt16/32/64` -/
  | leb (w : Nat)
  /-- `std::string`: compact size and characters -/
  | str
  /-- `std::vector<uint8_t>` of fixed length `n` (< 253) -/
  | vec (n : Nat)
  /-- `CDBTailKey` (dbconf.h 232-285): the rest of the key -/
  | tail
  /-- `std::optional<CVarIntValue<I>>` holding a value, `I` of `w` bits -/
  | optVar (w : Nat)
  /-- `std::pair`/`std::tuple` -/
  | pair (a b : KT)
  deriving DecidableEq, Repr

/-- `CRegIDKey` (id.h 103-126). -/
abbrev KT.regIdKey : KT := .pair (.leb 32) (.leb 16)

/-- `CCdpCoinPair` (config/scoin.h 163-197). -/
abbrev KT.coinPair : KT := .pair .str .str

/-- C++ values of a key shape. -/
def KT.Val : KT → Type
  | .blob _ => List Nat
  | .u8 => Nat
  | .leb _ => Nat
  | .str => List Nat
  | .vec _ => List Nat
  | .tail => List Nat
  | .optVar _ => Nat
  | .pair a b => a.Val × b.Val

/-- Values that the C++ types can hold. -/
def KT.Ok : (t : KT) → t.Val → Prop
  | .blob n, v => List.length (α := Nat) v = n ∧ Bytes v
  | .u8, v => Nat.lt v 256
  | .leb w, v => Nat.lt v (2 ^ w)
  | .str, v => Bytes v ∧ List.length (α := Nat) v < 2 ^ 64
  | .vec n, v => List.length (α := Nat) v = n ∧ Bytes v ∧ n < 253
  | .tail, v => Bytes v
  | .optVar w, v => Nat.lt v (2 ^ w) ∧ 0 < w
  | .pair a b, v => a.Ok v.1 ∧ b.Ok v.2

/-- A string or byte vector: compact size and contents (serialize.h 572-578, 640-660). -/
def encStr (v : List Nat) : List Nat := writeCompactSize v.length ++ v

/-- Serialization of an entry key (`ssKey << keyElement`): pairs and tuples are concatenated
(serialize.h 700-800). -/
def KT.enc : (t : KT) → t.Val → List Nat
  | .blob _, v => v
  | .u8, v => [v]
  | .leb w, v => encLeb w v
  | .str, v => encStr v
  | .vec _, v => encStr v
  | .tail, v => v
  | .optVar w, v => 1 :: (writeVarInt w v).getD []
  | .pair a b, v => a.enc v.1 ++ b.enc v.2

/-- `CDBTailKey` "must be last element of pair or tuple key" (dbconf.h 230). -/
def KT.noTail : KT → Bool
  | .tail => false
  | .pair a b => a.noTail && b.noTail
  | _ => true

/-- Well-formed key shapes: a tail only at the end. -/
def KT.wf : KT → Bool
  | .pair a b => a.noTail && b.wf
  | _ => true

/-- Lexicographic comparison of byte strings: LevelDB's `BytewiseComparator`, `memcmp` on blobs, and
`std::string`/`std::vector` `operator<`. -/
def bytesLt : List Nat → List Nat → Bool
  | [], [] => false
  | [], _ :: _ => true
  | _ :: _, [] => false
  | a :: as, b :: bs => if a < b then true else if b < a then false else bytesLt as bs

/-- `operator<` of the C++ key type as used by `std::map` (`std::pair`/`std::tuple` compare
lexicographically).  The hand-written `CCdpCoinPair::operator<` is not of this form; tables using
it are not claimed to be ordered below. -/
def KT.lt : (t : KT) → t.Val → t.Val → Bool
  | .blob _, a, b => bytesLt a b
  | .u8, a, b => Nat.blt a b
  | .leb _, a, b => Nat.blt a b
  | .str, a, b => bytesLt a b
  | .vec _, a, b => bytesLt a b
  | .tail, a, b => bytesLt a b
  | .optVar _, a, b => Nat.blt a b
  | .pair s t, a, b => s.lt a.1 b.1 || (!s.lt b.1 a.1 && t.lt a.2 b.2)

/-- Key shapes whose byte encoding sorts like the C++ `operator<`. -/
def KT.ordered : KT → Bool
  | .str => false
  | .optVar _ => false
  | .pair a b => a.ordered && b.ordered
  | _ => true

/-- `GenDbKey` (dbconf.h 200-208). -/
def genDbKey (t : Table) (k : KT) (v : k.Val) : List Nat := prefixOf t ++ k.enc v

/-- The prefix test of `ParseDbKey` (dbconf.h 211-216) and of the database iterator
(dbiterator.h 102): `slice.starts_with(prefix)`. -/
def hasPrefix (t : Table) (key : List Nat) : Bool := (prefixOf t).isPrefixOf key

/-- Entry-key shape of every keyed table (the `CCompositeKVCache` members of persistence/*db.h). -/
def keyShapes : List (String × KT) :=
  [("REGID_KEYID", .regIdKey), ("KEYID_ACCOUNT", .blob 20), ("ASSET", .str),
   ("AXC_COIN_PEERTOSELF", .str), ("AXC_COIN_SELFTOPEER", .str), ("AXC_SWAP_IN", .pair .u8 .str),
   ("TXID_DISKINDEX", .blob 32), ("FLAG", .str),
   ("CDP_RATIO_INDEX", .pair .coinPair (.pair (.leb 64) (.pair (.leb 64) (.blob 32)))),
   ("CDP_HEIGHT_INDEX", .pair .coinPair (.pair (.leb 64) (.blob 32))),
   ("CDP_GLOBAL_DATA", .coinPair), ("CDP", .blob 32), ("CDP_BCOIN", .str),
   ("USER_CDP", .pair .regIdKey .coinPair), ("CLOSED_CDP_TX", .blob 32), ("CLOSED_TX_CDP", .blob 32),
   ("CONTRACT_DATA", .pair .regIdKey .tail), ("CONTRACT_DEF", .regIdKey),
   ("CONTRACT_ACCOUNT", .pair .regIdKey .str), ("CONTRACT_TRACES", .blob 32),
   ("VOTE", .pair (.leb 64) (.vec 6)), ("REGID_VOTE", .regIdKey),
   ("DEX_BLOCK_ORDERS", .pair (.leb 32) (.pair .u8 (.blob 32))), ("DEX_ACTIVE_ORDER", .blob 32),
   ("DEX_OPERATOR_DETAIL", .optVar 32), ("DEX_OPERATOR_OWNER_MAP", .regIdKey),
   ("TX_EXECUTE_FAIL", .pair (.leb 32) (.blob 32)), ("GOVN_PROP", .blob 32), ("GOVN_APPROVAL_LIST", .blob 32),
   ("SYS_PARAM", .u8), ("MINER_FEE", .pair .u8 .str), ("CDP_PARAM", .pair .coinPair .u8),
   ("CDP_INTEREST_PARAMS", .coinPair), ("TX_RECEIPT", .blob 32), ("BLOCK_RECEIPT", .blob 32),
   ("TX_UTXO", .pair (.blob 32) (.leb 16)), ("UTXO_PWSDPRF", .pair (.blob 32) (.pair (.leb 16) .regIdKey))]

end Verif.Codec
