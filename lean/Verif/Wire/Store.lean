import Verif.Wire.Lemmas

/-!
# Records on disk

The values of every table of the state database (`CCompositeKVCache`/`CSimpleKVCache` members of src/persistence/*db.h),
the undo data of blocks and the block file records, as formats.  Keys are in `Verif.Codec` (C10), the block index in
`Verif.Block` (C62).  Structures are tuples of their members in the order of `IMPLEMENT_SERIALIZE`.
-/
namespace Verif.Wire

open Verif.Codec

/-- `std::set<T>` (serialize.h 855-882): written in order, inserted one by one on reading. -/
def set {α : Type} [DecidableEq α] (lt : α → α → Bool) (f : Fmt α) : Fmt (List α) :=
  conv (map lt (f ⊗ nothing)) (fun l => l.map (fun x => (x, ()))) (fun l => l.map Prod.fst)

/-- `CPubKey` (entities/key.h 112-183): a size, then the bytes.  A size other than 0 and 33 is logged and leaves the object
as it was (here: as constructed). -/
def pubkey : Fmt PubKey where
  enc
    | .valid l => some (writeCompactSize l.length ++ l)
    | .invalid => some (writeCompactSize 0)
  size
    | .valid l => l.length + 1
    | .invalid => 1
  dec l := (readCompactSize l).bind (fun p =>
    if p.1 = 33 then (readN 33 p.2).map (fun q => (PubKey.ofBytes q.1, q.2)) else some (.invalid, p.2))
  rng
    | .valid l => PubKey.Ok (.valid l)
    | .invalid => True
  safe _ := True

/-- `operator<` of `CRegID` (entities/id.h 73-76). -/
def regLt (a b : RegId) : Bool := decide (a.height < b.height) || (decide (a.height = b.height) && decide (a.index < b.index))
def natLt (a b : Nat) : Bool := decide (a < b)
def intLt (a b : Int) : Bool := decide (a < b)

/-- `CAccountToken` (entities/account.h 79-93): free, staked, frozen, voted and pledged amounts. -/
abbrev accountToken : Fmt (Nat × Nat × Nat × Nat × Nat) := v64 ⊗ v64 ⊗ v64 ⊗ v64 ⊗ v64

/-- `CAccount` (entities/account.h 157-167): key id, number, owner and miner key, tokens, votes received, last vote height
and epoch, permissions. -/
abbrev Account := List Nat × RegId × PubKey × PubKey × List (Str × Nat × Nat × Nat × Nat × Nat) × Nat × Nat × Nat × Nat
def account : Fmt Account :=
  blob 20 ⊗ regid ⊗ pubkey ⊗ pubkey ⊗ map strLt (str ⊗ accountToken) ⊗ v64 ⊗ v64 ⊗ v64 ⊗ v64

/-- `CAsset` (entities/asset.h 99-108). -/
abbrev assetRecord : Fmt (Str × Str × Nat × Nat × RegId × Nat × Bool × Str) :=
  str ⊗ str ⊗ raw 1 ⊗ v64 ⊗ regid ⊗ v64 ⊗ bool ⊗ str

/-- `CUserCDP` (entities/cdp.h 112-124): id, owner, height, the two symbols, collateral, debt. -/
abbrev userCdp : Fmt (List Nat × RegId × Int × Str × Str × Nat × Nat) :=
  u256 ⊗ regid ⊗ varI 32 ⊗ str ⊗ str ⊗ v64 ⊗ v64

/-- `CDEXOrderDetail` (entities/dexorder.h 126-143). -/
abbrev dexOrder : Fmt (Nat × Nat × Nat × Str × Str × Nat × Nat × Nat × Nat × Option (Nat × Nat × Nat) × RegId × RegId × Nat ×
    Nat × Str × List Nat) :=
  raw 1 ⊗ raw 1 ⊗ raw 1 ⊗ str ⊗ str ⊗ v64 ⊗ v64 ⊗ v64 ⊗ varU 32 ⊗ opt (varU 8 ⊗ v64 ⊗ v64) ⊗ regid ⊗ regid ⊗ v64 ⊗ v64 ⊗
    str ⊗ u256

/-- `DexOperatorDetail` (entities/dexorder.h 195-206). -/
abbrev dexOperator : Fmt (RegId × RegId × Str × Str × Nat × Nat × Nat × List Nat × Bool × Str) :=
  regid ⊗ regid ⊗ str ⊗ str ⊗ varU 8 ⊗ v64 ⊗ v64 ⊗ set natLt v64 ⊗ bool ⊗ str

/-- `CUniversalContractStore` (entities/contract.h 156-164). -/
abbrev contractRecord : Fmt (Nat × RegId × Bool × Str × Str × Str × List Nat) :=
  raw 1 ⊗ regid ⊗ bool ⊗ str ⊗ str ⊗ str ⊗ u256

/-- `CAppUserAccount` with `CAppCFund` (vm/luavm/appaccount.h 45-47, 153-157). -/
abbrev appAccount : Fmt (Nat × Str × List (Nat × Int × List Nat)) := v64 ⊗ str ⊗ list (v64 ⊗ varI 32 ⊗ bytes)

/-- `CReceipt` (entities/receipt.h 132-140). -/
abbrev receipt : Fmt (Nat × Nat × UserId × UserId × Str × Nat) := raw 2 ⊗ raw 1 ⊗ userid ⊗ userid ⊗ str ⊗ v64

/-- `VoteDelegate` (entities/vote.h 176-182). -/
abbrev voteDelegate : Fmt (RegId × Nat) := regid ⊗ v64

/-- Tables and other records. -/
inductive Table
  | regidKeyid | keyidAccount | asset | axcPeerToSelf | axcSelfToPeer | axcSwapIn | txDiskIndex | flag | bestBlockHash
  | lastBlockFile | reindex | finalityBlock | inflatedReward | cdpRatioIndex | cdpHeightIndex | cdpGlobal | cdp | cdpBcoin
  | userCdpIndex | closedCdpTx | closedTxCdp | contractData | contractDef | contractAccount | contractTraces | vote
  | regidVote | lastVoteHeight | pendingDelegates | activeDelegates | dexBlockOrders | dexActiveOrder | dexOperatorDetail
  | dexOperatorOwner | dexOperatorLastId | executeFail | feedCoinPairs | medianPrices | governors | proposals | approvals
  | sysParam | minerFee | cdpParam | cdpInterest | totalBps | newTotalBps | txReceipt | blockReceipt | utxo | utxoProof
  | blockUndo | blockFileInfo
  deriving DecidableEq, Repr

/-- Types of the values. -/
abbrev Table.V : Table → Type
  | .regidKeyid => List Nat
  | .keyidAccount => Account
  | .asset => Str × Str × Nat × Nat × RegId × Nat × Bool × Str
  | .axcPeerToSelf => Nat × Str × Nat | .axcSelfToPeer => Nat × Str × Nat
  | .axcSwapIn => Nat
  | .txDiskIndex => (Int × Nat) × Nat × RegId
  | .flag => Bool
  | .bestBlockHash => List Nat
  | .lastBlockFile => Int
  | .reindex => Bool
  | .finalityBlock => Int × List Nat
  | .inflatedReward => Nat × Nat × Nat × Nat × Nat
  | .cdpRatioIndex => List Nat × RegId × Int × Str × Str × Nat × Nat
  | .cdpHeightIndex => List Nat × RegId × Int × Str × Str × Nat × Nat
  | .cdpGlobal => Nat × Nat
  | .cdp => List Nat × RegId × Int × Str × Str × Nat × Nat
  | .cdpBcoin => Nat × RegId
  | .userCdpIndex => Option (List Nat)
  | .closedCdpTx => List Nat × Nat | .closedTxCdp => List Nat × Nat
  | .contractData => Str
  | .contractDef => Nat × RegId × Bool × Str × Str × Str × List Nat
  | .contractAccount => Nat × Str × List (Nat × Int × List Nat)
  | .contractTraces => Str
  | .vote => Nat
  | .regidVote => List (UserId × Nat)
  | .lastVoteHeight => Nat
  | .pendingDelegates => Nat × Nat × List (RegId × Nat)
  | .activeDelegates => List (RegId × Nat)
  | .dexBlockOrders => Nat × Nat × Nat × Str × Str × Nat × Nat × Nat × Nat × Option (Nat × Nat × Nat) × RegId × RegId × Nat ×
      Nat × Str × List Nat
  | .dexActiveOrder => Nat × Nat × Nat × Str × Str × Nat × Nat × Nat × Nat × Option (Nat × Nat × Nat) × RegId × RegId × Nat ×
      Nat × Str × List Nat
  | .dexOperatorDetail => RegId × RegId × Str × Str × Nat × Nat × Nat × List Nat × Bool × Str
  | .dexOperatorOwner => Option Nat
  | .dexOperatorLastId => Nat
  | .executeFail => Nat × Str
  | .feedCoinPairs => List (Str × Str)
  | .medianPrices => List ((Str × Str) × Nat × Nat)
  | .governors => List RegId
  | .proposals => Sigma PropTag.P
  | .approvals => List RegId
  | .sysParam => Nat | .minerFee => Nat | .cdpParam => Nat
  | .cdpInterest => List (Int × Nat × Nat)
  | .totalBps => Nat
  | .newTotalBps => Nat × Nat
  | .txReceipt => List (Nat × Nat × UserId × UserId × Str × Nat)
  | .blockReceipt => List (Nat × Nat × UserId × UserId × Str × Nat)
  | .utxo => Nat
  | .utxoProof => List Nat
  | .blockUndo => List (List Nat × List (Str × List (Str × Str)))
  | .blockFileInfo => Nat × Nat × Nat × Nat × Nat × Nat × Nat

/-- Formats of the values. -/
def Table.fmt : (t : Table) → Fmt t.V
  -- persistence/accountdb.h 101-103
  | .regidKeyid => blob 20
  | .keyidAccount => account
  -- persistence/assetdb.h 28-32, 65, 155-158
  | .asset => assetRecord
  | .axcPeerToSelf => varU 8 ⊗ str ⊗ varU 8 | .axcSelfToPeer => varU 8 ⊗ str ⊗ varU 8
  -- persistence/axcdb.h 76
  | .axcSwapIn => v64
  -- persistence/blockdb.h 162-172, disk.h 13-21, 53-75
  | .txDiskIndex => (rawI 4 ⊗ varU 32) ⊗ varU 32 ⊗ regid
  | .flag => bool
  | .bestBlockHash => u256
  | .lastBlockFile => rawI 4
  | .reindex => bool
  | .finalityBlock => rawI 4 ⊗ u256
  -- persistence/blockdb.h 44-50
  | .inflatedReward => raw 8 ⊗ raw 8 ⊗ raw 8 ⊗ raw 8 ⊗ raw 8
  -- persistence/cdpdb.h 26-29, 101-107, 172-174; entities/cdp.h 40-43, 178-181
  | .cdpRatioIndex => userCdp
  | .cdpHeightIndex => userCdp
  | .cdpGlobal => v64 ⊗ v64
  | .cdp => userCdp
  | .cdpBcoin => varU 8 ⊗ regid
  | .userCdpIndex => opt u256
  | .closedCdpTx => u256 ⊗ raw 1 | .closedTxCdp => u256 ⊗ raw 1
  -- persistence/contractdb.h 37, 128-137
  | .contractData => str
  | .contractDef => contractRecord
  | .contractAccount => appAccount
  | .contractTraces => str
  -- persistence/delegatedb.h 28, 117-121; entities/vote.h 138-141, 176-207
  | .vote => raw 1
  | .regidVote => list (userid ⊗ v64)
  | .lastVoteHeight => varU 32
  | .pendingDelegates => raw 1 ⊗ varU 32 ⊗ list voteDelegate
  | .activeDelegates => list voteDelegate
  -- persistence/dexdb.h 26, 132-136
  | .dexBlockOrders => dexOrder
  | .dexActiveOrder => dexOrder
  | .dexOperatorDetail => dexOperator
  | .dexOperatorOwner => opt (varU 32)
  | .dexOperatorLastId => varU 32
  -- persistence/logdb.h 48
  | .executeFail => raw 1 ⊗ str
  -- persistence/pricefeeddb.h 139-141; entities/price.h 77-80
  | .feedCoinPairs => set strPairLt (str ⊗ str)
  | .medianPrices => map strPairLt ((str ⊗ str) ⊗ v64 ⊗ varU 32)
  -- persistence/sysgoverndb.h 145-153
  | .governors => set regLt regid
  | .proposals => proposalBean
  | .approvals => list regid
  -- persistence/sysparamdb.h 22-34, 290-296
  | .sysParam => v64 | .minerFee => v64 | .cdpParam => v64
  | .cdpInterest => map intLt (varI 32 ⊗ v64 ⊗ v64)
  | .totalBps => raw 1
  | .newTotalBps => varU 32 ⊗ raw 1
  -- persistence/txreceiptdb.h 57-58
  | .txReceipt => list receipt
  | .blockReceipt => list receipt
  -- persistence/txutxodb.h 65-68
  | .utxo => raw 1
  | .utxoProof => u256
  -- persistence/blockundo.h 23-26, 49-51; leveldbwrapper.h 69-72, 111
  | .blockUndo => list (u256 ⊗ map strLt (str ⊗ list (str ⊗ str)))
  -- persistence/disk.h 82-105
  | .blockFileInfo => varU 32 ⊗ varU 32 ⊗ varU 32 ⊗ varU 32 ⊗ varU 32 ⊗ v64 ⊗ v64

end Verif.Wire
