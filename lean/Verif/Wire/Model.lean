import Verif.Wire.Fmt

/-!
# Transactions and blocks on the wire

Serialization of every transaction class (src/tx/*.h), of the structures inside them (src/entities/*.h,
src/vm/wasm/types/inline_transaction.hpp), of the transaction pointer (src/tx/txserializer.h), of the
signature preimage (`SerializeForHash` of every class) and of blocks (src/persistence/block.h).

A small C++ structure is the tuple of its members in the order of its `IMPLEMENT_SERIALIZE`.  A transaction
is its type and a value for each member a transaction class can have; the tables `wireFields` and
`hashItems` copy the `READWRITE` lines and the `SerializeForHash` bodies.  Members that a class sets to
constants in its constructor (`order_type` of the four old order classes and the like) are not part of the table of
that class.

Simplifications: the memory-only members `sigHash` (cached hash), `pending_block_time` and so on are left out;
`CLuaContract`'s sizes do not wrap at 32 bits (strings are at most 4000000 bytes).
-/
namespace Verif.Wire

open Verif.Codec

/-- Text. -/
abbrev Str := List Nat

/-- `operator<` of `std::string`: lexicographic, bytes compared unsigned. -/
def strLt (a b : Str) : Bool := decide (a < b)

/-- `operator<` of `std::pair<string, string>`. -/
def strPairLt (a b : Str × Str) : Bool := strLt a.1 b.1 || (decide (a.1 = b.1) && strLt a.2 b.2)

/-- `uint256`. -/
abbrev u256 : Fmt (List Nat) := blob 32
/-- `VARINT` of `uint64_t`. -/
abbrev v64 : Fmt Nat := varU 64

/-! ## Structures -/

/-- `SingleTransfer` (tx/tx.h 240-260): recipient, symbol, amount. -/
abbrev singleTransfer : Fmt (UserId × Str × Nat) := userid ⊗ str ⊗ v64

/-- `CUserIssuedAsset` (tx/assettx.h 11-35): symbol, owner, name, mintable, supply. -/
abbrev issuedAsset : Fmt (Str × UserId × Str × Bool × Nat) := str ⊗ userid ⊗ str ⊗ bool ⊗ v64

/-- `CUserUpdateAsset::UpdateType` (tx/assettx.h 97-103). -/
inductive AssetField | owner | name | mint
  deriving DecidableEq, Repr

def AssetField.code : AssetField → Nat
  | .owner => 1 | .name => 2 | .mint => 3

def AssetField.ofCode : Nat → Option AssetField
  | 1 => some .owner | 2 => some .name | 3 => some .mint | _ => none

abbrev AssetField.P : AssetField → Type
  | .owner => UserId | .name => Str | .mint => Nat

def AssetField.fmt : (i : AssetField) → Fmt i.P
  | .owner => userid | .name => str | .mint => v64

/-- `CUserUpdateAsset` (tx/assettx.h 88-195). -/
def assetUpdate : Fmt (Sigma AssetField.P) := tagged AssetField.code AssetField.ofCode _ AssetField.fmt

/-- `CCandidateVote` (entities/vote.h 33-88): vote type, candidate, amount. -/
abbrev candidateVote : Fmt (Nat × UserId × Nat) := raw 1 ⊗ userid ⊗ v64

/-- `CPricePoint` (entities/price.h 24-59): coin pair and price. -/
abbrev pricePoint : Fmt ((Str × Str) × Nat) := (str ⊗ str) ⊗ v64

/-- `CPriceMapCommonSerializer` (tx/blockpricemediantx.h 75-97), used from fork version R3 on. -/
def priceMapNew : Fmt (List ((Str × Str) × Nat)) := strictMap strPairLt ((str ⊗ str) ⊗ v64)
/-- `CPriceMapLESerializer`: prices as eight bytes. -/
def priceMapOld : Fmt (List ((Str × Str) × Nat)) := strictMap strPairLt ((str ⊗ str) ⊗ raw 8)

/-- `CLuaContract` (entities/contract.h 33-72): the announced size is checked on reading. -/
def luaContract : Fmt (Str × Str) where
  enc v := ((str ⊗ str).enc v).map (fun b => writeCompactSize ((str ⊗ str).size v) ++ b)
  size v := sizeCompactSize ((str ⊗ str).size v) + (str ⊗ str).size v
  dec l := (readCompactSize l).bind (fun p => ((str ⊗ str).dec p.2).bind (fun q =>
    if p.1 ≠ (str ⊗ str).size q.1 then none else some q))
  rng := (str ⊗ str).rng
  safe := (str ⊗ str).safe

/-- `CUniversalContract` (entities/contract.h 80-128): VM type, upgradable, code, memo, ABI. -/
abbrev universalContract : Fmt (Nat × Bool × Str × Str × Str) := raw 1 ⊗ bool ⊗ str ⊗ str ⊗ str

/-- `CDEXOperatorRegisterTx::Data` (tx/dexoperatortx.h 18-39). -/
abbrev dexOperatorData : Fmt (UserId × UserId × Str × Str × Nat × Nat × Nat × List Nat × Str) :=
  userid ⊗ userid ⊗ str ⊗ str ⊗ raw 1 ⊗ v64 ⊗ v64 ⊗ list v64 ⊗ str

/-- `CDEXOperatorUpdateData::UpdateField` (tx/dexoperatortx.h 95-107). -/
inductive DexField | owner | feeReceiver | name | portal | openMode | makerRatio | takerRatio | openList | memo
  deriving DecidableEq, Repr

def DexField.code : DexField → Nat
  | .owner => 1 | .feeReceiver => 2 | .name => 3 | .portal => 4 | .openMode => 5 | .makerRatio => 6
  | .takerRatio => 7 | .openList => 8 | .memo => 9

def DexField.ofCode : Nat → Option DexField
  | 1 => some .owner | 2 => some .feeReceiver | 3 => some .name | 4 => some .portal | 5 => some .openMode
  | 6 => some .makerRatio | 7 => some .takerRatio | 8 => some .openList | 9 => some .memo | _ => none

abbrev DexField.P : DexField → Type
  | .feeReceiver => UserId | .owner => UserId | .name => Str | .portal => Str | .memo => Str
  | .openMode => Nat | .makerRatio => Nat | .takerRatio => Nat | .openList => List Nat

def DexField.fmt : (i : DexField) → Fmt i.P
  | .feeReceiver => userid | .owner => userid | .name => str | .portal => str | .memo => str
  | .openMode => raw 1 | .makerRatio => v64 | .takerRatio => v64 | .openList => list v64

/-- `CDEXOperatorUpdateData` (tx/dexoperatortx.h 89-222): the exchange id is written as `uint32_t` and read as
`int32_t`, which for the conversion back to `uint32_t` makes no difference. -/
def dexOperatorUpdate : Fmt (Nat × Sigma DexField.P) := varU 32 ⊗ tagged DexField.code DexField.ofCode _ DexField.fmt

/-- `CDEXSettleTx::DealItem` (tx/dextx.h 494-507). -/
abbrev dealItem : Fmt (List Nat × List Nat × Nat × Nat × Nat) := u256 ⊗ u256 ⊗ v64 ⊗ v64 ⊗ v64

/-- wasm `permission` (vm/wasm/types/inline_transaction.hpp). -/
abbrev permission : Fmt (Nat × Nat) := v64 ⊗ v64
/-- wasm `inline_transaction`: contract, action, authorization, data. -/
abbrev inlineTx : Fmt (Nat × Nat × List (Nat × Nat) × List Nat) := v64 ⊗ v64 ⊗ list permission ⊗ bytes
/-- wasm `signature_pair`: account, signature. -/
abbrev signaturePair : Fmt (Nat × List Nat) := v64 ⊗ bytes

/-- `UtxoCondType` (entities/utxo.h 18-31). -/
inductive CondTag | null | ip2sa | ip2ma | ip2ph | op2sa | op2ma | op2ph | claimLock | reclaimLock
  deriving DecidableEq, Repr

def CondTag.code : CondTag → Nat
  | .null => 0 | .ip2sa => 11 | .ip2ma => 12 | .ip2ph => 13 | .op2sa => 111 | .op2ma => 112 | .op2ph => 113
  | .claimLock => 114 | .reclaimLock => 115

def CondTag.ofCode : Nat → Option CondTag
  | 0 => some .null | 11 => some .ip2sa | 12 => some .ip2ma | 13 => some .ip2ph | 111 => some .op2sa
  | 112 => some .op2ma | 113 => some .op2ph | 114 => some .claimLock | 115 => some .reclaimLock | _ => none

/-- Members of the condition structures; `Unit` stands for the repeated `cond_type`, which is overwritten with the
outer tag after reading (entities/utxo.h 376). -/
abbrev CondTag.P : CondTag → Type
  | .null => Unit
  | .ip2sa => Unit
  | .ip2ma => Unit × Nat × Nat × List UserId × List (List Nat)
  | .ip2ph => Unit × Str
  | .op2sa => Unit × UserId
  | .op2ma => Unit × List Nat
  | .op2ph => Bool × Unit × List Nat
  | .claimLock => Unit × Nat
  | .reclaimLock => Unit × Nat

/-- Nothing is written for the absent condition. -/
def nothing : Fmt Unit where
  enc _ := some []
  size _ := 0
  dec l := some ((), l)
  rng _ := True
  safe _ := True

def CondTag.fmt : (i : CondTag) → Fmt i.P
  | .null => nothing
  | .ip2sa => mark 11
  | .ip2ma => mark 12 ⊗ varU 8 ⊗ varU 8 ⊗ list userid ⊗ list bytes
  | .ip2ph => mark 13 ⊗ str
  | .op2sa => mark 111 ⊗ userid
  | .op2ma => mark 112 ⊗ blob 20
  | .op2ph => bool ⊗ mark 113 ⊗ u256
  | .claimLock => mark 114 ⊗ v64
  | .reclaimLock => mark 115 ⊗ v64

/-- `CUtxoCondStorageBean` (entities/utxo.h 244-382). -/
def utxoCond : Fmt (Sigma CondTag.P) := tagged CondTag.code CondTag.ofCode _ CondTag.fmt

/-- `CUtxoInput` (entities/utxo.h 386-402). -/
abbrev utxoInput : Fmt (List Nat × Nat × List (Sigma CondTag.P)) := u256 ⊗ varU 16 ⊗ list utxoCond
/-- `CUtxoOutput` (entities/utxo.h 419-433). -/
abbrev utxoOutput : Fmt (Nat × List (Sigma CondTag.P)) := v64 ⊗ list utxoCond

/-- `ProposalType` (entities/proposal.h 31-49). -/
inductive PropTag
  | null | sysParam | bpmcList | bpSize | minerFee | coinTransfer | accountPerm | assetPerm | cdpParam | dexOp
  | feedCoinPair | axcIn | axcOut | axcCoin | assetIssue | cancelOrder
  deriving DecidableEq, Repr

def PropTag.code : PropTag → Nat
  | .null => 0 | .sysParam => 1 | .bpmcList => 2 | .bpSize => 3 | .minerFee => 4 | .coinTransfer => 5
  | .accountPerm => 6 | .assetPerm => 7 | .cdpParam => 8 | .dexOp => 9 | .feedCoinPair => 11 | .axcIn => 12
  | .axcOut => 13 | .axcCoin => 14 | .assetIssue => 15 | .cancelOrder => 16

def PropTag.ofCode : Nat → Option PropTag
  | 0 => some .null | 1 => some .sysParam | 2 => some .bpmcList | 3 => some .bpSize | 4 => some .minerFee
  | 5 => some .coinTransfer | 6 => some .accountPerm | 7 => some .assetPerm | 8 => some .cdpParam
  | 9 => some .dexOp | 11 => some .feedCoinPair | 12 => some .axcIn | 13 => some .axcOut | 14 => some .axcCoin
  | 15 => some .assetIssue | 16 => some .cancelOrder | _ => none

/-- Members of the proposals after `expiry_block_height` and `approval_min_count` (entities/proposal.h 108-718). -/
abbrev PropTag.Own : PropTag → Type
  | .null => Unit
  | .sysParam => List (Nat × Nat)
  | .bpmcList => RegId × Nat
  | .bpSize => Nat × Nat
  | .minerFee => Nat × Str × Nat
  | .coinTransfer => Nat × Str × UserId × UserId
  | .accountPerm => UserId × Nat
  | .assetPerm => Str × Nat
  | .cdpParam => List (Nat × Nat) × Str × Str
  | .dexOp => Nat × Nat
  | .feedCoinPair => Str × Str × Nat
  | .axcIn => Str × Str × Str × UserId × Nat
  | .axcOut => UserId × Str × Str × Nat × List (List Nat)
  | .axcCoin => Str × Nat × Nat
  | .assetIssue => Str × Nat × RegId
  | .cancelOrder => List Nat

def PropTag.own : (i : PropTag) → Fmt i.Own
  | .null => nothing
  | .sysParam => list (raw 1 ⊗ v64)
  | .bpmcList => regid ⊗ raw 1
  | .bpSize => raw 1 ⊗ varU 32
  | .minerFee => raw 1 ⊗ str ⊗ v64
  | .coinTransfer => v64 ⊗ str ⊗ userid ⊗ userid
  | .accountPerm => userid ⊗ v64
  | .assetPerm => str ⊗ v64
  | .cdpParam => list (raw 1 ⊗ v64) ⊗ str ⊗ str
  | .dexOp => varU 32 ⊗ raw 1
  | .feedCoinPair => str ⊗ str ⊗ raw 1
  | .axcIn => str ⊗ str ⊗ str ⊗ userid ⊗ v64
  | .axcOut => userid ⊗ str ⊗ str ⊗ v64 ⊗ list bytes
  | .axcCoin => str ⊗ raw 1 ⊗ raw 1
  | .assetIssue => str ⊗ raw 8 ⊗ regid
  | .cancelOrder => u256

abbrev PropTag.P : PropTag → Type
  | .null => Unit
  | i => Nat × Nat × i.Own

/-- With the expiry height and the approval count in front. -/
def PropTag.fmt : (i : PropTag) → Fmt i.P
  | .null => nothing
  | .sysParam => varU 32 ⊗ raw 1 ⊗ PropTag.own .sysParam
  | .bpmcList => varU 32 ⊗ raw 1 ⊗ PropTag.own .bpmcList
  | .bpSize => varU 32 ⊗ raw 1 ⊗ PropTag.own .bpSize
  | .minerFee => varU 32 ⊗ raw 1 ⊗ PropTag.own .minerFee
  | .coinTransfer => varU 32 ⊗ raw 1 ⊗ PropTag.own .coinTransfer
  | .accountPerm => varU 32 ⊗ raw 1 ⊗ PropTag.own .accountPerm
  | .assetPerm => varU 32 ⊗ raw 1 ⊗ PropTag.own .assetPerm
  | .cdpParam => varU 32 ⊗ raw 1 ⊗ PropTag.own .cdpParam
  | .dexOp => varU 32 ⊗ raw 1 ⊗ PropTag.own .dexOp
  | .feedCoinPair => varU 32 ⊗ raw 1 ⊗ PropTag.own .feedCoinPair
  | .axcIn => varU 32 ⊗ raw 1 ⊗ PropTag.own .axcIn
  | .axcOut => varU 32 ⊗ raw 1 ⊗ PropTag.own .axcOut
  | .axcCoin => varU 32 ⊗ raw 1 ⊗ PropTag.own .axcCoin
  | .assetIssue => varU 32 ⊗ raw 1 ⊗ PropTag.own .assetIssue
  | .cancelOrder => varU 32 ⊗ raw 1 ⊗ PropTag.own .cancelOrder

/-- `CProposalStorageBean` (entities/proposal.h 720-919). -/
def proposalBean : Fmt (Sigma PropTag.P) := tagged PropTag.code PropTag.ofCode _ PropTag.fmt

/-! ## Members of transactions -/

/-- Every serialized member of a transaction class. -/
inductive Field
  | version | validHeight | txUid | feeSymbol | fees | signature
  | minerUid | asset | assetSymbol | updateData | medianPrices | rewardFee | rewardFees | inflatedBcoins
  | cdpTxid | assetsToStake | scoinSymbol | scoinsToMint | scoinsToRepay | assetsToRedeem | liquidateSymbol
  | scoinsToLiquidate | cdpList | coinSymbol | coinAmount | stakeType | toUid | memo | transfers | vins | vouts
  | utxoTxid | utxoVoutIndex | passwordProof | luaCode | appUid | arguments | contract | candidateVotes
  | operatorData | operatorUpdate | orderType | orderSide | assetAmount | price | dexId | openMode | makerFeeRatio
  | takerFeeRatio | operatorUid | operatorTxFee | operatorSignature | orderId | dealItems | pricePoints | proposal
  | proposalId | axcSignature | inlineTxs | signatures
  deriving DecidableEq, Repr

/-- Types of the members. -/
abbrev Field.V : Field → Type
  | .version => Int | .validHeight => Int | .txUid => UserId | .feeSymbol => Str | .fees => Nat
  | .signature => List Nat
  | .minerUid => UserId | .asset => Str × UserId × Str × Bool × Nat | .assetSymbol => Str
  | .updateData => Sigma AssetField.P | .medianPrices => List ((Str × Str) × Nat) | .rewardFee => Nat
  | .rewardFees => List (Str × Nat) | .inflatedBcoins => Nat
  | .cdpTxid => List Nat | .assetsToStake => List (Str × Nat) | .scoinSymbol => Str | .scoinsToMint => Nat
  | .scoinsToRepay => Nat | .assetsToRedeem => List (Str × Nat) | .liquidateSymbol => Str
  | .scoinsToLiquidate => Nat | .cdpList => List (List Nat)
  | .coinSymbol => Str | .coinAmount => Nat | .stakeType => Nat | .toUid => UserId | .memo => Str
  | .transfers => List (UserId × Str × Nat)
  | .vins => List (List Nat × Nat × List (Sigma CondTag.P)) | .vouts => List (Nat × List (Sigma CondTag.P))
  | .utxoTxid => List Nat | .utxoVoutIndex => Nat | .passwordProof => List Nat
  | .luaCode => Str × Str | .appUid => UserId | .arguments => Str | .contract => Nat × Bool × Str × Str × Str
  | .candidateVotes => List (Nat × UserId × Nat)
  | .operatorData => UserId × UserId × Str × Str × Nat × Nat × Nat × List Nat × Str
  | .operatorUpdate => Nat × Sigma DexField.P
  | .orderType => Nat | .orderSide => Nat | .assetAmount => Nat | .price => Nat | .dexId => Nat | .openMode => Nat
  | .makerFeeRatio => Nat | .takerFeeRatio => Nat | .operatorUid => UserId | .operatorTxFee => Nat
  | .operatorSignature => List Nat | .orderId => List Nat
  | .dealItems => List (List Nat × List Nat × Nat × Nat × Nat)
  | .pricePoints => List ((Str × Str) × Nat) | .proposal => Sigma PropTag.P | .proposalId => List Nat
  | .axcSignature => List Nat
  | .inlineTxs => List (Nat × Nat × List (Nat × Nat) × List Nat) | .signatures => List (Nat × List Nat)

/-- `map<TokenSymbol, CVarIntValue<uint64_t>>` (tx/cdptx.h 16). -/
def stakeMap : Fmt (List (Str × Nat)) := map strLt (str ⊗ v64)
/-- `map<TokenSymbol, uint64_t>` (tx/blockrewardtx.h 57). -/
def rewardMap : Fmt (List (Str × Nat)) := map strLt (str ⊗ raw 8)

/-- How each member is written; `r3 h` says that `GetFeatureForkVersion(h) >= MAJOR_VER_R3`, on which the price map
depends (tx/blockpricemediantx.h 114-119). -/
def Field.fmt (r3 : Int → Bool) (h : Int) : (f : Field) → Fmt f.V
  | .version => varI 32 | .validHeight => varI 32 | .txUid => userid | .feeSymbol => str | .fees => v64
  | .signature => bytes
  | .minerUid => userid | .asset => issuedAsset | .assetSymbol => str
  | .updateData => assetUpdate | .medianPrices => if r3 h then priceMapNew else priceMapOld | .rewardFee => v64
  | .rewardFees => rewardMap | .inflatedBcoins => v64
  | .cdpTxid => u256 | .assetsToStake => stakeMap | .scoinSymbol => str | .scoinsToMint => v64
  | .scoinsToRepay => v64 | .assetsToRedeem => stakeMap | .liquidateSymbol => str
  | .scoinsToLiquidate => v64 | .cdpList => list u256
  | .coinSymbol => str | .coinAmount => v64 | .stakeType => raw 1 | .toUid => userid | .memo => str
  | .transfers => list singleTransfer
  | .vins => list utxoInput | .vouts => list utxoOutput
  | .utxoTxid => u256 | .utxoVoutIndex => varU 16 | .passwordProof => u256
  | .luaCode => luaContract | .appUid => userid | .arguments => str | .contract => universalContract
  | .candidateVotes => list candidateVote
  | .operatorData => dexOperatorData
  | .operatorUpdate => dexOperatorUpdate
  | .orderType => varU 8 | .orderSide => varU 8 | .assetAmount => v64 | .price => v64 | .dexId => varU 32
  | .openMode => varU 8
  | .makerFeeRatio => v64 | .takerFeeRatio => v64 | .operatorUid => userid | .operatorTxFee => v64
  | .operatorSignature => bytes | .orderId => u256
  | .dealItems => list dealItem
  | .pricePoints => list pricePoint | .proposal => proposalBean | .proposalId => u256
  | .axcSignature => bytes
  | .inlineTxs => list inlineTx | .signatures => list signaturePair

/-! ## Transaction classes -/

/-- The types handled by `SerializePtr`/`UnserializePtr` (config/txbase.h 22-76). -/
inductive TxType
  | blockReward | accountRegister | bcoinTransfer | lcontractInvoke | lcontractDeploy | delegateVote
  | ucoinStake | assetIssue | uiaUpdate | ucoinTransfer | ucoinMint | ucoinBlockReward | ucontractDeploy
  | ucontractInvoke | priceFeed | priceMedian | utxoTransfer | utxoPasswordProof | cdpStake | cdpRedeem
  | cdpLiquidate | cdpForceSettle | accountPermsClear | proposalRequest | proposalApproval | dexLimitBuy
  | dexLimitSell | dexMarketBuy | dexMarketSell | dexCancelOrder | dexSettle | dexOrder | dexOperatorOrder
  | dexOperatorRegister | dexOperatorUpdate | universal
  deriving DecidableEq, Repr

/-- `enum TxType` (config/txbase.h 22-76). -/
def TxType.code : TxType → Nat
  | .blockReward => 1 | .accountRegister => 2 | .bcoinTransfer => 3 | .lcontractInvoke => 4
  | .lcontractDeploy => 5 | .delegateVote => 6 | .ucoinStake => 8 | .assetIssue => 9 | .uiaUpdate => 10
  | .ucoinTransfer => 11 | .ucoinMint => 12 | .ucoinBlockReward => 13 | .ucontractDeploy => 14
  | .ucontractInvoke => 15 | .priceFeed => 16 | .priceMedian => 17 | .utxoTransfer => 18
  | .utxoPasswordProof => 19 | .cdpStake => 21 | .cdpRedeem => 22 | .cdpLiquidate => 23 | .cdpForceSettle => 24
  | .accountPermsClear => 50 | .proposalRequest => 70 | .proposalApproval => 71 | .dexLimitBuy => 84
  | .dexLimitSell => 85 | .dexMarketBuy => 86 | .dexMarketSell => 87 | .dexCancelOrder => 88 | .dexSettle => 89
  | .dexOrder => 90 | .dexOperatorOrder => 91 | .dexOperatorRegister => 92 | .dexOperatorUpdate => 93
  | .universal => 100

/-- The `switch` of `UnserializePtr` (tx/txserializer.h 130-330); any other byte throws. -/
def TxType.ofCode : Nat → Option TxType
  | 1 => some .blockReward | 2 => some .accountRegister | 3 => some .bcoinTransfer | 4 => some .lcontractInvoke
  | 5 => some .lcontractDeploy | 6 => some .delegateVote | 8 => some .ucoinStake | 9 => some .assetIssue
  | 10 => some .uiaUpdate | 11 => some .ucoinTransfer | 12 => some .ucoinMint | 13 => some .ucoinBlockReward
  | 14 => some .ucontractDeploy | 15 => some .ucontractInvoke | 16 => some .priceFeed | 17 => some .priceMedian
  | 18 => some .utxoTransfer | 19 => some .utxoPasswordProof | 21 => some .cdpStake | 22 => some .cdpRedeem
  | 23 => some .cdpLiquidate | 24 => some .cdpForceSettle | 50 => some .accountPermsClear
  | 70 => some .proposalRequest | 71 => some .proposalApproval | 84 => some .dexLimitBuy | 85 => some .dexLimitSell
  | 86 => some .dexMarketBuy | 87 => some .dexMarketSell | 88 => some .dexCancelOrder | 89 => some .dexSettle
  | 90 => some .dexOrder | 91 => some .dexOperatorOrder | 92 => some .dexOperatorRegister
  | 93 => some .dexOperatorUpdate | 100 => some .universal | _ => none

open Field in
/-- `IMPLEMENT_SERIALIZE` of every class. -/
def wireFields : TxType → List Field
  -- tx/blockrewardtx.h 31-38
  | .blockReward => [version, txUid, rewardFee, validHeight]
  -- tx/accountregtx.h 25-33
  | .accountRegister => [version, validHeight, txUid, minerUid, fees, signature]
  -- tx/cointransfertx.h 28-39
  | .bcoinTransfer => [version, validHeight, txUid, toUid, fees, coinAmount, memo, signature]
  -- tx/contracttx.h 61-71
  | .lcontractInvoke => [version, validHeight, txUid, appUid, fees, coinAmount, arguments, signature]
  -- tx/contracttx.h 26-35
  | .lcontractDeploy => [version, validHeight, txUid, luaCode, fees, signature]
  -- tx/delegatetx.h 24-33
  | .delegateVote => [version, validHeight, txUid, candidateVotes, fees, signature]
  -- tx/coinstaketx.h 30-43
  | .ucoinStake => [version, validHeight, txUid, feeSymbol, fees, stakeType, coinSymbol, coinAmount, signature]
  -- tx/assettx.h 63-73
  | .assetIssue => [version, validHeight, txUid, feeSymbol, fees, asset, signature]
  -- tx/assettx.h 217-228
  | .uiaUpdate => [version, validHeight, txUid, feeSymbol, fees, assetSymbol, updateData, signature]
  -- tx/cointransfertx.h 81-91
  | .ucoinTransfer => [version, validHeight, txUid, feeSymbol, fees, transfers, memo, signature]
  -- tx/coinminttx.h 28-38
  | .ucoinMint => [version, txUid, validHeight, coinSymbol, coinAmount, signature]
  -- tx/blockrewardtx.h 76-84
  | .ucoinBlockReward => [version, validHeight, txUid, rewardFees, inflatedBcoins]
  -- tx/contracttx.h 99-110
  | .ucontractDeploy => [version, validHeight, txUid, feeSymbol, fees, contract, signature]
  -- tx/contracttx.h 136-150
  | .ucontractInvoke =>
    [version, validHeight, txUid, appUid, arguments, fees, feeSymbol, coinSymbol, coinAmount, signature]
  -- tx/pricefeedtx.h 27-37
  | .priceFeed => [version, validHeight, txUid, fees, feeSymbol, pricePoints, signature]
  -- tx/blockpricemediantx.h 109-121
  | .priceMedian => [version, validHeight, txUid, medianPrices]
  -- tx/coinutxotx.h 42-56
  | .utxoTransfer => [version, validHeight, txUid, feeSymbol, fees, coinSymbol, vins, vouts, memo, signature]
  -- tx/coinutxotx.h 119-132
  | .utxoPasswordProof =>
    [version, validHeight, txUid, feeSymbol, fees, utxoTxid, utxoVoutIndex, passwordProof, signature]
  -- tx/cdptx.h 43-57
  | .cdpStake =>
    [version, validHeight, txUid, feeSymbol, fees, cdpTxid, assetsToStake, scoinSymbol, scoinsToMint, signature]
  -- tx/cdptx.h 96-109
  | .cdpRedeem => [version, validHeight, txUid, feeSymbol, fees, cdpTxid, scoinsToRepay, assetsToRedeem, signature]
  -- tx/cdptx.h 147-160
  | .cdpLiquidate =>
    [version, validHeight, txUid, feeSymbol, fees, cdpTxid, liquidateSymbol, scoinsToLiquidate, signature]
  -- tx/cdptx.h 198-207
  | .cdpForceSettle => [version, validHeight, txUid, fees, cdpList, signature]
  -- tx/accountpermscleartx.h 21-28
  | .accountPermsClear => [version, validHeight, txUid, feeSymbol, fees, signature]
  -- tx/proposaltx.h 27-36
  | .proposalRequest => [version, validHeight, txUid, fees, feeSymbol, proposal, signature]
  -- tx/proposaltx.h 65-75
  | .proposalApproval => [version, validHeight, txUid, feeSymbol, fees, proposalId, axcSignature, signature]
  -- tx/dextx.h 112-126
  | .dexLimitBuy =>
    [version, validHeight, txUid, feeSymbol, fees, coinSymbol, assetSymbol, assetAmount, price, signature]
  -- tx/dextx.h 166-180
  | .dexLimitSell =>
    [version, validHeight, txUid, feeSymbol, fees, coinSymbol, assetSymbol, assetAmount, price, signature]
  -- tx/dextx.h 220-233
  | .dexMarketBuy => [version, validHeight, txUid, feeSymbol, fees, coinSymbol, assetSymbol, coinAmount, signature]
  -- tx/dextx.h 272-285
  | .dexMarketSell => [version, validHeight, txUid, feeSymbol, fees, coinSymbol, assetSymbol, assetAmount, signature]
  -- tx/dextx.h 459-470
  | .dexCancelOrder => [version, validHeight, txUid, feeSymbol, fees, orderId, signature]
  -- tx/dextx.h 521-532
  | .dexSettle => [version, validHeight, txUid, feeSymbol, fees, dealItems, signature]
  -- tx/dextx.h 340-351 with 307-317
  | .dexOrder => [version, validHeight, txUid, feeSymbol, fees, orderType, orderSide, assetSymbol, coinSymbol,
      assetAmount, coinAmount, price, dexId, memo, signature]
  -- tx/dextx.h 421-433 with 372-387
  | .dexOperatorOrder => [version, validHeight, txUid, feeSymbol, fees, orderType, orderSide, assetSymbol, coinSymbol,
      assetAmount, coinAmount, price, dexId, openMode, makerFeeRatio, takerFeeRatio, operatorUid, operatorTxFee, memo,
      signature, operatorSignature]
  -- tx/dexoperatortx.h 59-69
  | .dexOperatorRegister => [version, validHeight, txUid, feeSymbol, fees, operatorData, signature]
  -- tx/dexoperatortx.h 276-285
  | .dexOperatorUpdate => [version, validHeight, txUid, feeSymbol, fees, operatorUpdate, signature]
  -- tx/universaltx.h 48-58
  | .universal => [version, validHeight, txUid, feeSymbol, fees, inlineTxs, signatures, signature]

/-- What `SerializeForHash` writes: a member as on the wire, the type byte, `utxo_vout_index` as two bytes, or the
accounts of the signatures of a universal transaction. -/
inductive Item
  | of (f : Field)
  | type
  | voutIndex16
  | signers
  deriving DecidableEq, Repr

open Field in
/-- `SerializeForHash` of every class. -/
def hashItems : TxType → List Item
  -- tx/blockrewardtx.h 40-42
  | .blockReward => [.of version, .type, .of txUid, .of rewardFee, .of validHeight]
  -- tx/accountregtx.h 35-38
  | .accountRegister => [.of version, .type, .of validHeight, .of txUid, .of minerUid, .of fees]
  -- tx/cointransfertx.h 41-44
  | .bcoinTransfer => [.of version, .type, .of validHeight, .of txUid, .of toUid, .of fees, .of coinAmount, .of memo]
  -- tx/contracttx.h 73-76
  | .lcontractInvoke =>
    [.of version, .type, .of validHeight, .of txUid, .of appUid, .of fees, .of coinAmount, .of arguments]
  -- tx/contracttx.h 37-40
  | .lcontractDeploy => [.of version, .type, .of validHeight, .of txUid, .of luaCode, .of fees]
  -- tx/delegatetx.h 35-38
  | .delegateVote => [.of version, .type, .of validHeight, .of txUid, .of candidateVotes, .of fees]
  -- tx/coinstaketx.h 45-48
  | .ucoinStake => [.of version, .type, .of validHeight, .of txUid, .of feeSymbol, .of fees, .of stakeType,
      .of coinSymbol, .of coinAmount]
  -- tx/assettx.h 75-78
  | .assetIssue => [.of version, .type, .of validHeight, .of txUid, .of feeSymbol, .of fees, .of asset]
  -- tx/assettx.h 230-233
  | .uiaUpdate => [.of version, .type, .of validHeight, .of txUid, .of feeSymbol, .of fees, .of assetSymbol,
      .of updateData]
  -- tx/cointransfertx.h 93-96
  | .ucoinTransfer => [.of version, .type, .of validHeight, .of txUid, .of feeSymbol, .of fees, .of transfers, .of memo]
  -- tx/coinminttx.h 40-43
  | .ucoinMint => [.of version, .type, .of txUid, .of validHeight, .of coinSymbol, .of coinAmount]
  -- tx/blockrewardtx.h 86-89
  | .ucoinBlockReward => [.of version, .type, .of validHeight, .of txUid, .of rewardFees, .of inflatedBcoins]
  -- tx/contracttx.h 112-115
  | .ucontractDeploy => [.of version, .type, .of validHeight, .of txUid, .of fees, .of feeSymbol, .of contract]
  -- tx/contracttx.h 152-155
  | .ucontractInvoke => [.of version, .type, .of validHeight, .of txUid, .of appUid, .of arguments, .of fees,
      .of feeSymbol, .of coinSymbol, .of coinAmount]
  -- tx/pricefeedtx.h 39-42
  | .priceFeed => [.of version, .type, .of validHeight, .of txUid, .of fees, .of feeSymbol, .of pricePoints]
  -- tx/blockpricemediantx.h 123-131
  | .priceMedian => [.of version, .type, .of validHeight, .of txUid, .of medianPrices]
  -- tx/coinutxotx.h 58-61
  | .utxoTransfer => [.of version, .type, .of validHeight, .of txUid, .of feeSymbol, .of fees, .of coinSymbol,
      .of vins, .of vouts, .of memo]
  -- tx/coinutxotx.h 134-137
  | .utxoPasswordProof => [.of version, .type, .of validHeight, .of txUid, .of feeSymbol, .of fees, .of utxoTxid,
      .voutIndex16, .of passwordProof]
  -- tx/cdptx.h 59-63
  | .cdpStake => [.of version, .type, .of validHeight, .of txUid, .of feeSymbol, .of fees, .of cdpTxid,
      .of assetsToStake, .of scoinSymbol, .of scoinsToMint]
  -- tx/cdptx.h 111-115
  | .cdpRedeem => [.of version, .type, .of validHeight, .of txUid, .of feeSymbol, .of fees, .of cdpTxid,
      .of scoinsToRepay, .of assetsToRedeem]
  -- tx/cdptx.h 162-165
  | .cdpLiquidate => [.of version, .type, .of validHeight, .of txUid, .of feeSymbol, .of fees, .of cdpTxid,
      .of liquidateSymbol, .of scoinsToLiquidate]
  -- tx/cdptx.h 209-211 (no fees)
  | .cdpForceSettle => [.of version, .type, .of validHeight, .of txUid, .of cdpList]
  -- tx/accountpermscleartx.h 30-33
  | .accountPermsClear => [.of version, .type, .of validHeight, .of txUid, .of feeSymbol, .of fees]
  -- tx/proposaltx.h 38-41
  | .proposalRequest => [.of version, .type, .of validHeight, .of txUid, .of fees, .of feeSymbol, .of proposal]
  -- tx/proposaltx.h 78-81
  | .proposalApproval => [.of version, .type, .of validHeight, .of txUid, .of fees, .of feeSymbol, .of proposalId,
      .of axcSignature]
  -- tx/dextx.h 128-132
  | .dexLimitBuy => [.of version, .type, .of validHeight, .of txUid, .of feeSymbol, .of fees, .of coinSymbol,
      .of assetSymbol, .of assetAmount, .of price]
  -- tx/dextx.h 182-186
  | .dexLimitSell => [.of version, .type, .of validHeight, .of txUid, .of feeSymbol, .of fees, .of coinSymbol,
      .of assetSymbol, .of assetAmount, .of price]
  -- tx/dextx.h 235-238
  | .dexMarketBuy => [.of version, .type, .of validHeight, .of txUid, .of feeSymbol, .of fees, .of coinSymbol,
      .of assetSymbol, .of coinAmount]
  -- tx/dextx.h 287-290
  | .dexMarketSell => [.of version, .type, .of validHeight, .of txUid, .of feeSymbol, .of fees, .of coinSymbol,
      .of assetSymbol, .of assetAmount]
  -- tx/dextx.h 472-475
  | .dexCancelOrder => [.of version, .type, .of validHeight, .of txUid, .of feeSymbol, .of fees, .of orderId]
  -- tx/dextx.h 534-537
  | .dexSettle => [.of version, .type, .of validHeight, .of txUid, .of feeSymbol, .of fees, .of dealItems]
  -- tx/dextx.h 353-356
  | .dexOrder => [.of version, .type, .of validHeight, .of txUid, .of feeSymbol, .of fees, .of orderType, .of orderSide,
      .of assetSymbol, .of coinSymbol, .of assetAmount, .of coinAmount, .of price, .of dexId, .of memo]
  -- tx/dextx.h 435-438
  | .dexOperatorOrder => [.of version, .type, .of validHeight, .of txUid, .of feeSymbol, .of fees, .of orderType,
      .of orderSide, .of assetSymbol, .of coinSymbol, .of assetAmount, .of coinAmount, .of price, .of dexId, .of openMode,
      .of makerFeeRatio, .of takerFeeRatio, .of operatorUid, .of operatorTxFee, .of memo]
  -- tx/dexoperatortx.h 71-74
  | .dexOperatorRegister => [.of version, .type, .of validHeight, .of txUid, .of feeSymbol, .of fees, .of operatorData]
  -- tx/dexoperatortx.h 287-290
  | .dexOperatorUpdate => [.of version, .type, .of validHeight, .of txUid, .of feeSymbol, .of fees, .of operatorUpdate]
  -- tx/universaltx.h 60-68
  | .universal => [.of version, .type, .of validHeight, .of txUid, .of feeSymbol, .of fees, .of inlineTxs, .signers]

/-- Values of the members. -/
abbrev Rec := (f : Field) → f.V

/-- A transaction object. -/
structure Tx where
  type : TxType
  val : Rec

/-- Values before reading (default constructors; tx/tx.h 118-160: version 1, fee symbol `WICC`). -/
def Field.init : (f : Field) → f.V
  | .version => 1 | .validHeight => 0 | .txUid => .null | .feeSymbol => [87, 73, 67, 67] | .fees => 0
  | .signature => []
  | .minerUid => .null | .asset => ([], .null, [], false, 0) | .assetSymbol => []
  | .updateData => ⟨.mint, (0 : Nat)⟩ | .medianPrices => [] | .rewardFee => 0
  | .rewardFees => [] | .inflatedBcoins => 0
  | .cdpTxid => List.replicate 32 0 | .assetsToStake => [] | .scoinSymbol => [] | .scoinsToMint => 0
  | .scoinsToRepay => 0 | .assetsToRedeem => [] | .liquidateSymbol => [] | .scoinsToLiquidate => 0 | .cdpList => []
  | .coinSymbol => [] | .coinAmount => 0 | .stakeType => 0 | .toUid => .null | .memo => [] | .transfers => []
  | .vins => [] | .vouts => [] | .utxoTxid => List.replicate 32 0 | .utxoVoutIndex => 0
  | .passwordProof => List.replicate 32 0
  | .luaCode => ([], []) | .appUid => .null | .arguments => [] | .contract => (0, false, [], [], [])
  | .candidateVotes => [] | .operatorData => (.null, .null, [], [], 0, 0, 0, [], [])
  | .operatorUpdate => (0, ⟨.memo, ([] : Str)⟩)
  | .orderType => 0 | .orderSide => 0 | .assetAmount => 0 | .price => 0 | .dexId => 0 | .openMode => 0
  | .makerFeeRatio => 0 | .takerFeeRatio => 0 | .operatorUid => .null | .operatorTxFee => 0
  | .operatorSignature => [] | .orderId => List.replicate 32 0 | .dealItems => [] | .pricePoints => []
  | .proposal => ⟨.null, ()⟩ | .proposalId => List.replicate 32 0 | .axcSignature => [] | .inlineTxs => []
  | .signatures => []

/-- Assign one member. -/
def Rec.set (r : Rec) (f : Field) (v : f.V) : Rec := fun g => if h : g = f then h ▸ v else r g

/-- Write the members of a list in order. -/
def encFields (r3 : Int → Bool) (r : Rec) : List Field → Option (List Nat)
  | [] => some []
  | f :: t => ((Field.fmt r3 (r .validHeight) f).enc (r f)).bind (fun a => (encFields r3 r t).map (fun b => a ++ b))

/-- Their sizes. -/
def sizeFields (r3 : Int → Bool) (r : Rec) (l : List Field) : Nat :=
  (l.map (fun f => (Field.fmt r3 (r .validHeight) f).size (r f))).sum

/-- Read the members of a list in order into the object. -/
def decFields (r3 : Int → Bool) : List Field → Rec → List Nat → Option (Rec × List Nat)
  | [], r, l => some (r, l)
  | f :: t, r, l => ((Field.fmt r3 (r .validHeight) f).dec l).bind (fun p => decFields r3 t (r.set f p.1) p.2)

/-- `CBaseTx::SerializePtr` (tx/txserializer.h 33-118). -/
def writeTx (r3 : Int → Bool) (t : Tx) : Option (List Nat) :=
  (encFields r3 t.val (wireFields t.type)).map (fun b => t.type.code :: b)

/-- `GetSerializePtrSize` (tx/txserializer.h, tx/tx.h): the type byte and `GetSerializeSize` of the class. -/
def sizeTx (r3 : Int → Bool) (t : Tx) : Nat := 1 + sizeFields r3 t.val (wireFields t.type)

/-- `CBaseTx::UnserializePtr` (tx/txserializer.h 120-335). -/
def readTx (r3 : Int → Bool) : List Nat → Option (Tx × List Nat)
  | [] => none
  | c :: r => (TxType.ofCode c).bind (fun ty =>
      (decFields r3 (wireFields ty) Field.init r).map (fun p => (⟨ty, p.1⟩, p.2)))

/-- One `<<` of `SerializeForHash`. -/
def encItem (r3 : Int → Bool) (t : Tx) : Item → Option (List Nat)
  | .of f => (Field.fmt r3 (t.val .validHeight) f).enc (t.val f)
  | .type => (raw 1).enc t.type.code
  | .voutIndex16 => (raw 2).enc (t.val .utxoVoutIndex)
  | .signers => (list v64).enc ((t.val .signatures).map Prod.fst)

def encItems (r3 : Int → Bool) (t : Tx) : List Item → Option (List Nat)
  | [] => some []
  | i :: rest => (encItem r3 t i).bind (fun a => (encItems r3 t rest).map (fun b => a ++ b))

/-- The bytes hashed by `CBaseTx::GetHash` (tx/tx.h, tx.cpp): the transaction id and what is signed. -/
def preimage (r3 : Int → Bool) (t : Tx) : Option (List Nat) := encItems r3 t (hashItems t.type)

/-! ## Blocks (persistence/block.h) -/

/-- `CBlockHeader` (block.h 58-93). -/
structure Header where
  version : Int
  prevHash : List Nat
  merkleRoot : List Nat
  time : Nat
  nonce : Nat
  height : Nat
  fuelFee : Nat
  fuelRate : Nat
  signature : List Nat
  deriving DecidableEq, Repr

/-- `IMPLEMENT_SERIALIZE` of `CBlockHeader` (block.h 75-88). -/
def headerFmt : Fmt Header :=
  conv (rawI 4 ⊗ u256 ⊗ u256 ⊗ raw 4 ⊗ raw 4 ⊗ raw 4 ⊗ raw 8 ⊗ raw 4 ⊗ bytes)
    (fun h => (h.version, h.prevHash, h.merkleRoot, h.time, h.nonce, h.height, h.fuelFee, h.fuelRate, h.signature))
    (fun (a, b, c, d, e, f, g, i, j) => ⟨a, b, c, d, e, f, g, i, j⟩)

/-- `CBlockHeader::ComputeSignatureHash` (block.cpp 21-25): what the block hash and the block signature cover. -/
def headerPreimage (h : Header) : Option (List Nat) :=
  (rawI 4 ⊗ u256 ⊗ u256 ⊗ raw 4 ⊗ raw 4 ⊗ raw 4 ⊗ raw 8 ⊗ raw 4).enc
    (h.version, h.prevHash, h.merkleRoot, h.time, h.nonce, h.height, h.fuelFee, h.fuelRate)

/-- The transaction pointer as a format.  `rng`/`safe`: members in their ranges, the rest as constructed. -/
def txFmt (r3 : Int → Bool) : Fmt Tx where
  enc := writeTx r3
  size := sizeTx r3
  dec := readTx r3
  rng t := (∀ f ∈ wireFields t.type, (Field.fmt r3 (t.val .validHeight) f).rng (t.val f)) ∧
    ∀ f, f ∉ wireFields t.type → t.val f = f.init
  safe t := ∀ f ∈ wireFields t.type, (Field.fmt r3 (t.val .validHeight) f).safe (t.val f)

/-- `CProposalRequestTx::CheckTx` and `ToString` (tx/proposaltx.cpp 51-66) go through the stored pointer; `none` is the
dereference of a null pointer. -/
def proposalToCheck (t : Tx) : Option (Sigma PropTag.P) :=
  if (t.val .proposal).1 = .null then none else some (t.val .proposal)

/-- `CBlock` (block.h 129-157). -/
def blockFmt (r3 : Int → Bool) : Fmt (Header × List Tx) := headerFmt ⊗ list (txFmt r3)

end Verif.Wire
