import Verif.Wire.Lemmas
import Verif.Merkle.Props

/-!
# Properties of transactions and blocks on the wire

`r3` (which heights have the R3 rules) is arbitrary everywhere.
-/
namespace Verif.Wire

open Verif.Codec

/-- All members hold values of their C++ types, and members the class does not have are as constructed. -/
def InRange (r3 : Int → Bool) (t : Tx) : Prop := (txFmt r3).rng t
/-- No negative number where a `VARINT` is written and no invalid public key among the user identifiers. -/
def Sane (r3 : Int → Bool) (t : Tx) : Prop := (txFmt r3).safe t

/-! ### Ranges, from the declared C++ types -/

/-- Lists of at most `MAX_SIZE` elements in range. -/
def AllOf {α : Type} (P : α → Prop) (l : List α) : Prop := l.length ≤ MAX_SIZE ∧ ∀ x ∈ l, P x
def U8 (n : Nat) : Prop := n < 2 ^ 8
def U16 (n : Nat) : Prop := n < 2 ^ 16
def U32 (n : Nat) : Prop := n < 2 ^ 32
def U64' (n : Nat) : Prop := n < 2 ^ 64
def Text (s : Str) : Prop := s.length ≤ 4000000 ∧ ∀ b ∈ s, b < 256
def Vec (s : List Nat) : Prop := s.length ≤ MAX_SIZE ∧ ∀ b ∈ s, b < 256
def Hash (k : Nat) (s : List Nat) : Prop := s.length = k ∧ ∀ b ∈ s, b < 256
def Reg (r : RegId) : Prop := r.height < 2 ^ 32 ∧ r.index < 2 ^ 16
def User : UserId → Prop
  | .null => True | .reg r => Reg r | .key k => Hash 20 k | .pub (.valid l) => Hash 33 l ∧ (l.head? = some 2 ∨ l.head? = some 3)
  | .pub .invalid => True
def I32 (n : Int) : Prop := -2147483648 ≤ n ∧ n < 2147483648

def CondRange : Sigma CondTag.P → Prop
  | ⟨.ip2ma, x⟩ => U8 x.2.1 ∧ U8 x.2.2.1 ∧ AllOf User x.2.2.2.1 ∧ AllOf Vec x.2.2.2.2
  | ⟨.ip2ph, x⟩ => Text x.2
  | ⟨.op2sa, x⟩ => User x.2
  | ⟨.op2ma, x⟩ => Hash 20 x.2
  | ⟨.op2ph, x⟩ => Hash 32 x.2.2
  | ⟨.claimLock, x⟩ => U64' x.2
  | ⟨.reclaimLock, x⟩ => U64' x.2
  | ⟨.null, _⟩ => True
  | ⟨.ip2sa, _⟩ => True

/-- Declared types of the members of proposals (entities/proposal.h). -/
def OwnRange : (i : PropTag) → i.Own → Prop
  | .null, _ => True
  | .sysParam, x => AllOf (fun y => U8 y.1 ∧ U64' y.2) x
  | .bpmcList, x => Reg x.1 ∧ U8 x.2
  | .bpSize, x => U8 x.1 ∧ U32 x.2
  | .minerFee, x => U8 x.1 ∧ Text x.2.1 ∧ U64' x.2.2
  | .coinTransfer, x => U64' x.1 ∧ Text x.2.1 ∧ User x.2.2.1 ∧ User x.2.2.2
  | .accountPerm, x => User x.1 ∧ U64' x.2
  | .assetPerm, x => Text x.1 ∧ U64' x.2
  | .cdpParam, x => AllOf (fun y => U8 y.1 ∧ U64' y.2) x.1 ∧ Text x.2.1 ∧ Text x.2.2
  | .dexOp, x => U32 x.1 ∧ U8 x.2
  | .feedCoinPair, x => Text x.1 ∧ Text x.2.1 ∧ U8 x.2.2
  | .axcIn, x => Text x.1 ∧ Text x.2.1 ∧ Text x.2.2.1 ∧ User x.2.2.2.1 ∧ U64' x.2.2.2.2
  | .axcOut, x => User x.1 ∧ Text x.2.1 ∧ Text x.2.2.1 ∧ U64' x.2.2.2.1 ∧ AllOf Vec x.2.2.2.2
  | .axcCoin, x => Text x.1 ∧ U8 x.2.1 ∧ U8 x.2.2
  | .assetIssue, x => Text x.1 ∧ U64' x.2.1 ∧ Reg x.2.2
  | .cancelOrder, x => Hash 32 x

def PropRange : Sigma PropTag.P → Prop
  | ⟨.null, _⟩ => True
  | ⟨.sysParam, x⟩ => U32 x.1 ∧ U8 x.2.1 ∧ OwnRange .sysParam x.2.2
  | ⟨.bpmcList, x⟩ => U32 x.1 ∧ U8 x.2.1 ∧ OwnRange .bpmcList x.2.2
  | ⟨.bpSize, x⟩ => U32 x.1 ∧ U8 x.2.1 ∧ OwnRange .bpSize x.2.2
  | ⟨.minerFee, x⟩ => U32 x.1 ∧ U8 x.2.1 ∧ OwnRange .minerFee x.2.2
  | ⟨.coinTransfer, x⟩ => U32 x.1 ∧ U8 x.2.1 ∧ OwnRange .coinTransfer x.2.2
  | ⟨.accountPerm, x⟩ => U32 x.1 ∧ U8 x.2.1 ∧ OwnRange .accountPerm x.2.2
  | ⟨.assetPerm, x⟩ => U32 x.1 ∧ U8 x.2.1 ∧ OwnRange .assetPerm x.2.2
  | ⟨.cdpParam, x⟩ => U32 x.1 ∧ U8 x.2.1 ∧ OwnRange .cdpParam x.2.2
  | ⟨.dexOp, x⟩ => U32 x.1 ∧ U8 x.2.1 ∧ OwnRange .dexOp x.2.2
  | ⟨.feedCoinPair, x⟩ => U32 x.1 ∧ U8 x.2.1 ∧ OwnRange .feedCoinPair x.2.2
  | ⟨.axcIn, x⟩ => U32 x.1 ∧ U8 x.2.1 ∧ OwnRange .axcIn x.2.2
  | ⟨.axcOut, x⟩ => U32 x.1 ∧ U8 x.2.1 ∧ OwnRange .axcOut x.2.2
  | ⟨.axcCoin, x⟩ => U32 x.1 ∧ U8 x.2.1 ∧ OwnRange .axcCoin x.2.2
  | ⟨.assetIssue, x⟩ => U32 x.1 ∧ U8 x.2.1 ∧ OwnRange .assetIssue x.2.2
  | ⟨.cancelOrder, x⟩ => U32 x.1 ∧ U8 x.2.1 ∧ OwnRange .cancelOrder x.2.2

/-- Declared types of the members of transactions. -/
def TypeRange : (f : Field) → f.V → Prop
  | .version, v => I32 v | .validHeight, v => I32 v | .txUid, v => User v | .feeSymbol, v => Text v
  | .fees, v => U64' v | .signature, v => Vec v | .minerUid, v => User v
  | .asset, v => Text v.1 ∧ User v.2.1 ∧ Text v.2.2.1 ∧ U64' v.2.2.2.2
  | .assetSymbol, v => Text v
  | .updateData, v => match v with | ⟨.owner, u⟩ => User u | ⟨.name, s⟩ => Text s | ⟨.mint, n⟩ => U64' n
  | .medianPrices, v => AllOf (fun x => (Text x.1.1 ∧ Text x.1.2) ∧ U64' x.2) v ∧ SortedBy strPairLt v
  | .rewardFee, v => U64' v
  | .rewardFees, v => AllOf (fun x => Text x.1 ∧ U64' x.2) v ∧ SortedBy strLt v
  | .inflatedBcoins, v => U64' v | .cdpTxid, v => Hash 32 v
  | .assetsToStake, v => AllOf (fun x => Text x.1 ∧ U64' x.2) v ∧ SortedBy strLt v
  | .scoinSymbol, v => Text v | .scoinsToMint, v => U64' v | .scoinsToRepay, v => U64' v
  | .assetsToRedeem, v => AllOf (fun x => Text x.1 ∧ U64' x.2) v ∧ SortedBy strLt v
  | .liquidateSymbol, v => Text v | .scoinsToLiquidate, v => U64' v | .cdpList, v => AllOf (Hash 32) v
  | .coinSymbol, v => Text v | .coinAmount, v => U64' v | .stakeType, v => U8 v | .toUid, v => User v
  | .memo, v => Text v
  | .transfers, v => AllOf (fun x => User x.1 ∧ Text x.2.1 ∧ U64' x.2.2) v
  | .vins, v => AllOf (fun x => Hash 32 x.1 ∧ U16 x.2.1 ∧ AllOf CondRange x.2.2) v
  | .vouts, v => AllOf (fun x => U64' x.1 ∧ AllOf CondRange x.2) v
  | .utxoTxid, v => Hash 32 v | .utxoVoutIndex, v => U16 v | .passwordProof, v => Hash 32 v
  | .luaCode, v => Text v.1 ∧ Text v.2 | .appUid, v => User v | .arguments, v => Text v
  | .contract, v => U8 v.1 ∧ Text v.2.2.1 ∧ Text v.2.2.2.1 ∧ Text v.2.2.2.2
  | .candidateVotes, v => AllOf (fun x => U8 x.1 ∧ User x.2.1 ∧ U64' x.2.2) v
  | .operatorData, v => User v.1 ∧ User v.2.1 ∧ Text v.2.2.1 ∧ Text v.2.2.2.1 ∧ U8 v.2.2.2.2.1 ∧
      U64' v.2.2.2.2.2.1 ∧ U64' v.2.2.2.2.2.2.1 ∧ AllOf U64' v.2.2.2.2.2.2.2.1 ∧ Text v.2.2.2.2.2.2.2.2
  | .operatorUpdate, v => U32 v.1 ∧ match v.2 with
      | ⟨.owner, x⟩ => User x | ⟨.feeReceiver, x⟩ => User x | ⟨.name, x⟩ => Text x | ⟨.portal, x⟩ => Text x
      | ⟨.memo, x⟩ => Text x | ⟨.openMode, x⟩ => U8 x | ⟨.makerRatio, x⟩ => U64' x | ⟨.takerRatio, x⟩ => U64' x
      | ⟨.openList, x⟩ => AllOf U64' x
  | .orderType, v => U8 v | .orderSide, v => U8 v | .assetAmount, v => U64' v | .price, v => U64' v
  | .dexId, v => U32 v | .openMode, v => U8 v | .makerFeeRatio, v => U64' v | .takerFeeRatio, v => U64' v
  | .operatorUid, v => User v | .operatorTxFee, v => U64' v | .operatorSignature, v => Vec v
  | .orderId, v => Hash 32 v
  | .dealItems, v => AllOf (fun x => Hash 32 x.1 ∧ Hash 32 x.2.1 ∧ U64' x.2.2.1 ∧ U64' x.2.2.2.1 ∧ U64' x.2.2.2.2) v
  | .pricePoints, v => AllOf (fun x => (Text x.1.1 ∧ Text x.1.2) ∧ U64' x.2) v
  | .proposal, v => PropRange v | .proposalId, v => Hash 32 v | .axcSignature, v => Vec v
  | .inlineTxs, v => AllOf (fun x => U64' x.1 ∧ U64' x.2.1 ∧ AllOf (fun y => U64' y.1 ∧ U64' y.2) x.2.2.1 ∧ Vec x.2.2.2) v
  | .signatures, v => AllOf (fun x => U64' x.1 ∧ Vec x.2) v

theorem user_range (u : UserId) : userid.rng u ↔ User u := by
  rcases u with _ | r | k | (l | _)
  · exact iff_of_true trivial trivial
  · exact Iff.rfl
  · exact Iff.rfl
  · show (_ ∧ _ ∧ _) ↔ ((_ ∧ _) ∧ _)
    rw [and_assoc]; rfl
  · exact Iff.rfl

theorem list_range {α : Type} {f : Fmt α} {P : α → Prop} (h : ∀ x, f.rng x ↔ P x) (l : List α) :
    (list f).rng l ↔ AllOf P l := by
  show (_ ∧ ∀ x ∈ l, f.rng x) ↔ (_ ∧ ∀ x ∈ l, P x)
  simp only [h]

theorem cond_range (c : Sigma CondTag.P) : utxoCond.rng c ↔ CondRange c := by
  obtain ⟨i, x⟩ := c
  cases i
  case ip2ma =>
    show (True ∧ _ ∧ _ ∧ (list userid).rng _ ∧ (list bytes).rng _) ↔ _
    rw [list_range user_range, list_range (P := Vec) (fun _ => Iff.rfl), true_and]; rfl
  case op2sa =>
    show (True ∧ userid.rng _) ↔ _
    rw [user_range, true_and]; rfl
  all_goals simp [utxoCond, tagged, CondTag.fmt, pair, mark, nothing, varU, str, blob, bool, CondRange, Text, Hash, U64',
    Bytes]

theorem own_range (i : PropTag) (x : i.Own) : i.own.rng x ↔ OwnRange i x := by
  cases i
  case sysParam => exact list_range (fun _ => Iff.rfl) x
  case cdpParam =>
    show ((list _).rng _ ∧ _ ∧ _) ↔ _
    rw [list_range (P := fun y => U8 y.1 ∧ U64' y.2) (fun _ => Iff.rfl)]; rfl
  case axcOut =>
    show (userid.rng _ ∧ _ ∧ _ ∧ _ ∧ (list bytes).rng _) ↔ _
    rw [list_range (P := Vec) (fun _ => Iff.rfl), user_range]; rfl
  case coinTransfer =>
    show (_ ∧ _ ∧ userid.rng _ ∧ userid.rng _) ↔ _
    rw [user_range, user_range]; rfl
  case accountPerm =>
    show (userid.rng _ ∧ _) ↔ _
    rw [user_range]; rfl
  case axcIn =>
    show (_ ∧ _ ∧ _ ∧ userid.rng _ ∧ _) ↔ _
    rw [user_range]; rfl
  all_goals exact Iff.rfl

theorem prop_range (c : Sigma PropTag.P) : proposalBean.rng c ↔ PropRange c := by
  obtain ⟨i, x⟩ := c
  cases i
  case null => exact Iff.rfl
  all_goals
    show (_ ∧ _ ∧ (PropTag.own _).rng _) ↔ _
    rw [own_range]; rfl

/-- The formats lose nothing of the declared types. -/
theorem field_range (r3 : Int → Bool) (h : Int) (f : Field) (v : f.V) : (f.fmt r3 h).rng v ↔ TypeRange f v := by
  cases f
  case txUid => exact user_range v
  case minerUid => exact user_range v
  case toUid => exact user_range v
  case appUid => exact user_range v
  case operatorUid => exact user_range v
  case asset =>
    show (_ ∧ userid.rng _ ∧ _ ∧ True ∧ _) ↔ (_ ∧ _ ∧ _ ∧ _)
    rw [user_range, true_and]; rfl
  case updateData =>
    obtain ⟨i, x⟩ := v
    cases i
    · exact user_range x
    · exact Iff.rfl
    · exact Iff.rfl
  case medianPrices =>
    dsimp only [Field.fmt]
    split <;> exact and_congr (list_range (fun _ => Iff.rfl) v) Iff.rfl
  case rewardFees => exact and_congr (list_range (fun _ => Iff.rfl) v) Iff.rfl
  case assetsToStake => exact and_congr (list_range (fun _ => Iff.rfl) v) Iff.rfl
  case assetsToRedeem => exact and_congr (list_range (fun _ => Iff.rfl) v) Iff.rfl
  case transfers => exact list_range (fun x => and_congr (user_range x.1) Iff.rfl) v
  case vins => exact list_range (fun x => and_congr Iff.rfl (and_congr Iff.rfl (list_range cond_range x.2.2))) v
  case vouts => exact list_range (fun x => and_congr Iff.rfl (list_range cond_range x.2)) v
  case candidateVotes => exact list_range (fun x => and_congr Iff.rfl (and_congr (user_range _) Iff.rfl)) v
  case operatorData => exact and_congr (user_range _) (and_congr (user_range _) Iff.rfl)
  case operatorUpdate =>
    obtain ⟨n, i, x⟩ := v
    refine and_congr Iff.rfl ?_
    cases i
    case owner => exact user_range x
    case feeReceiver => exact user_range x
    all_goals exact Iff.rfl
  case contract =>
    show (_ ∧ True ∧ _) ↔ _
    rw [true_and]; rfl
  case proposal => exact prop_range v
  all_goals exact Iff.rfl

/-- What `InRange` says: members have values of their declared C++ types (texts and vectors within the reading limits), and
members the class does not write are as constructed. -/
theorem in_range_iff (r3 : Int → Bool) (t : Tx) : InRange r3 t ↔
    (∀ f ∈ wireFields t.type, TypeRange f (t.val f)) ∧ ∀ f, f ∉ wireFields t.type → t.val f = f.init := by
  unfold InRange txFmt
  simp only [field_range]

/-! ## C95: transactions round-trip -/

/-- Every transaction of every type with sane members is written without failure, the announced size is the number
of bytes written, and reading gives back the transaction and leaves what follows. -/
theorem tx_roundtrip (r3 : Int → Bool) (t : Tx) (hr : InRange r3 t) (hs : Sane r3 t) :
    ∃ bs, writeTx r3 t = some bs ∧ bs.length = sizeTx r3 t ∧ (∀ b ∈ bs, b < 256) ∧
      ∀ rest, readTx r3 (bs ++ rest) = some (t, rest) := by
  obtain ⟨bs, h1, h2, h3, h4⟩ := Lawful.good (f := txFmt r3) t hr hs
  exact ⟨bs, h1, h3, h2, h4⟩

open Field in
/-- The data members each class declares besides those of `CBaseTx`, other than constants (tx/*.h). -/
def ownMembers : TxType → List Field
  | .blockReward => [rewardFee]
  | .accountRegister => [minerUid]
  | .bcoinTransfer => [toUid, coinAmount, memo]
  | .lcontractInvoke => [appUid, coinAmount, arguments]
  | .lcontractDeploy => [luaCode]
  | .delegateVote => [candidateVotes]
  | .ucoinStake => [stakeType, coinSymbol, coinAmount]
  | .assetIssue => [asset]
  | .uiaUpdate => [assetSymbol, updateData]
  | .ucoinTransfer => [transfers, memo]
  | .ucoinMint => [coinSymbol, coinAmount]
  | .ucoinBlockReward => [rewardFees, inflatedBcoins]
  | .ucontractDeploy => [contract]
  | .ucontractInvoke => [appUid, arguments, coinSymbol, coinAmount]
  | .priceFeed => [pricePoints]
  | .priceMedian => [medianPrices]
  | .utxoTransfer => [coinSymbol, vins, vouts, memo]
  | .utxoPasswordProof => [utxoTxid, utxoVoutIndex, passwordProof]
  | .cdpStake => [cdpTxid, assetsToStake, scoinSymbol, scoinsToMint]
  | .cdpRedeem => [cdpTxid, scoinsToRepay, assetsToRedeem]
  | .cdpLiquidate => [cdpTxid, liquidateSymbol, scoinsToLiquidate]
  | .cdpForceSettle => [cdpList]
  | .accountPermsClear => []
  | .proposalRequest => [proposal]
  | .proposalApproval => [proposalId, axcSignature]
  | .dexLimitBuy => [coinSymbol, assetSymbol, assetAmount, price]
  | .dexLimitSell => [coinSymbol, assetSymbol, assetAmount, price]
  | .dexMarketBuy => [coinSymbol, assetSymbol, coinAmount]
  | .dexMarketSell => [coinSymbol, assetSymbol, assetAmount]
  | .dexCancelOrder => [orderId]
  | .dexSettle => [dealItems]
  | .dexOrder => [orderType, orderSide, assetSymbol, coinSymbol, assetAmount, coinAmount, price, dexId, memo]
  | .dexOperatorOrder => [orderType, orderSide, assetSymbol, coinSymbol, assetAmount, coinAmount, price, dexId, openMode,
      makerFeeRatio, takerFeeRatio, operatorUid, operatorTxFee, memo, operatorSignature]
  | .dexOperatorRegister => [operatorData]
  | .dexOperatorUpdate => [operatorUpdate]
  | .universal => [inlineTxs, signatures]

/-- The types the network creates itself (reward, price median and coin mint); the others are paid for and signed. -/
def fromBlock : TxType → Bool
  | .blockReward | .ucoinBlockReward | .priceMedian | .ucoinMint => true
  | _ => false

/-- Nothing is left behind: every member of the class, the sender and the height are on the wire, once; so are the fee and
the signature of every type users send. -/
theorem wire_complete (ty : TxType) :
    (∀ f ∈ ownMembers ty, f ∈ wireFields ty) ∧ .txUid ∈ wireFields ty ∧ .validHeight ∈ wireFields ty ∧
    .version ∈ wireFields ty ∧ (fromBlock ty = false → .fees ∈ wireFields ty ∧ .signature ∈ wireFields ty) ∧
    (wireFields ty).Nodup ∧
    ∀ f ∈ wireFields ty, f ∈ ownMembers ty ∨
      f ∈ [Field.version, .validHeight, .txUid, .feeSymbol, .fees, .signature] := by
  cases ty <;> decide

/-- Whatever is read is in range, and what is left over are the remaining bytes. -/
theorem tx_read_in_range (r3 : Int → Bool) (l : List Nat) (hl : ∀ b ∈ l, b < 256) (t : Tx) (rest : List Nat)
    (h : readTx r3 l = some (t, rest)) : InRange r3 t := (Lawful.sound (f := txFmt r3) l t rest hl h).1

/-- Two transactions are never written alike, not even as the beginning of longer texts. -/
theorem tx_encoding_injective (r3 : Int → Bool) (t u : Tx) (ht : InRange r3 t) (st : Sane r3 t) (hu : InRange r3 u)
    (su : Sane r3 u) (a b x y : List Nat) (ha : writeTx r3 t = some a) (hb : writeTx r3 u = some b)
    (h : a ++ x = b ++ y) : t = u ∧ x = y := Lawful.inj (f := txFmt r3) ht st hu su ha hb h

/-- A received transaction that is sane can be relayed: it is written, and every receiver reads the same. -/
theorem received_tx_relays (r3 : Int → Bool) (l : List Nat) (hl : ∀ b ∈ l, b < 256) (t : Tx) (rest : List Nat)
    (h : readTx r3 l = some (t, rest)) (hs : Sane r3 t) :
    ∃ bs, writeTx r3 t = some bs ∧ bs.length = sizeTx r3 t ∧ readTx r3 bs = some (t, []) := by
  obtain ⟨bs, h1, h2, _, h4⟩ := tx_roundtrip r3 t (tx_read_in_range r3 l hl t rest h) hs
  exact ⟨bs, h1, h2, by simpa using h4 []⟩

/-- Users named in a condition of an output. -/
def condUsers : Sigma CondTag.P → List UserId
  | ⟨.ip2ma, x⟩ => x.2.2.2.1
  | ⟨.op2sa, x⟩ => [x.2]
  | _ => []

/-- Users named in a proposal. -/
def propUsers : Sigma PropTag.P → List UserId
  | ⟨.coinTransfer, x⟩ => [x.2.2.2.2.1, x.2.2.2.2.2]
  | ⟨.accountPerm, x⟩ => [x.2.2.1]
  | ⟨.axcIn, x⟩ => [x.2.2.2.2.2.1]
  | ⟨.axcOut, x⟩ => [x.2.2.1]
  | _ => []

/-- Users named in a member of a transaction. -/
def users : (f : Field) → f.V → List UserId
  | .txUid, v => [v] | .minerUid, v => [v] | .toUid, v => [v] | .appUid, v => [v] | .operatorUid, v => [v]
  | .asset, v => [v.2.1]
  | .updateData, v => match v with | ⟨.owner, u⟩ => [u] | _ => []
  | .transfers, v => v.map (fun x => x.1)
  | .vins, v => v.flatMap (fun x => x.2.2.flatMap condUsers)
  | .vouts, v => v.flatMap (fun x => x.2.flatMap condUsers)
  | .candidateVotes, v => v.map (fun x => x.2.1)
  | .operatorData, v => [v.1, v.2.1]
  | .operatorUpdate, v => match v.2 with | ⟨.owner, u⟩ => [u] | ⟨.feeReceiver, u⟩ => [u] | _ => []
  | .proposal, v => propUsers v
  | _, _ => []

theorem cond_safe (c : Sigma CondTag.P) : utxoCond.safe c ↔ ∀ u ∈ condUsers c, u ≠ .pub .invalid := by
  obtain ⟨i, x⟩ := c
  cases i <;> simp [utxoCond, tagged, CondTag.fmt, condUsers, pair, mark, nothing, list, userid, varU, bytes, str,
    blob, bool]

theorem prop_safe (c : Sigma PropTag.P) : proposalBean.safe c ↔ ∀ u ∈ propUsers c, u ≠ .pub .invalid := by
  obtain ⟨i, x⟩ := c
  cases i <;> simp [proposalBean, tagged, PropTag.fmt, PropTag.own, propUsers, pair, nothing, list, userid, varU, bytes,
    str, blob, raw, regid]

theorem field_safe (r3 : Int → Bool) (h : Int) (f : Field) (v : f.V) (h1 : f ≠ .version) (h2 : f ≠ .validHeight) :
    (f.fmt r3 h).safe v ↔ ∀ u ∈ users f v, u ≠ .pub .invalid := by
  cases f
  case version => exact absurd rfl h1
  case validHeight => exact absurd rfl h2
  case medianPrices =>
    simp only [Field.fmt]
    split <;> simp [users, priceMapNew, priceMapOld, strictMap, list, pair, str, varU, raw]
  case proposal => exact prop_safe v
  case vins =>
    simp only [Field.fmt, list, pair, blob, varU, true_and, users, List.mem_flatMap, cond_safe]
    constructor
    · rintro a u ⟨x, hx, c, hc, hu⟩; exact a x hx c hc u hu
    · intro a x hx c hc u hu; exact a u ⟨x, hx, c, hc, hu⟩
  case vouts =>
    simp only [Field.fmt, list, pair, varU, true_and, users, List.mem_flatMap, cond_safe]
    constructor
    · rintro a u ⟨x, hx, c, hc, hu⟩; exact a x hx c hc u hu
    · intro a x hx c hc u hu; exact a u ⟨x, hx, c, hc, hu⟩
  case candidateVotes =>
    simp only [Field.fmt, users, list, pair, raw, varU, userid, true_and, and_true, List.mem_map]
    constructor
    · rintro a u ⟨x, hx, rfl⟩; exact a x hx
    · intro a x hx; exact a _ ⟨x, hx, rfl⟩
  case updateData =>
    obtain ⟨i, x⟩ := v
    cases i <;> simp [Field.fmt, users, assetUpdate, tagged, AssetField.fmt, userid, str, varU]
  case operatorUpdate =>
    obtain ⟨n, i, x⟩ := v
    cases i <;> simp [Field.fmt, users, dexOperatorUpdate, tagged, DexField.fmt, userid, str, varU, pair, raw, list]
  all_goals simp [Field.fmt, users, userid, str, varU, bytes, blob, raw, list, pair, bool, rewardMap, stakeMap, map,
    luaContract]

/-- What `Sane` says. -/
theorem sane_iff (r3 : Int → Bool) (t : Tx) : Sane r3 t ↔ 0 ≤ t.val .version ∧ 0 ≤ t.val .validHeight ∧
    ∀ f ∈ wireFields t.type, ∀ u ∈ users f (t.val f), u ≠ .pub .invalid := by
  have hv : Field.version ∈ wireFields t.type := by cases t.type <;> decide
  constructor
  · intro h
    refine ⟨h _ hv, h _ (wire_height _), fun f hf => ?_⟩
    by_cases h1 : f = .version
    · subst h1; simp [users]
    · by_cases h2 : f = .validHeight
      · subst h2; simp [users]
      · exact (field_safe r3 _ f _ h1 h2).1 (h f hf)
  · rintro ⟨a, b, c⟩ f hf
    by_cases h1 : f = .version
    · subst h1; exact a
    · by_cases h2 : f = .validHeight
      · subst h2; exact b
      · exact (field_safe r3 _ f _ h1 h2).2 (c f hf)

/-- A transfer of 100 units from account 1-1 to a key. -/
def exVal : Rec := ((((((Rec.set Field.init .validHeight (10 : Int)).set .txUid (.reg ⟨1, 1⟩)).set .toUid
    (.key (List.replicate 20 7))).set .fees (10000 : Nat)).set .coinAmount (100 : Nat)).set .memo [104, 105]).set
    .signature [1, 2, 3]
def exTx : Tx := ⟨.bcoinTransfer, exVal⟩

example : InRange (fun _ => true) exTx ∧ Sane (fun _ => true) exTx ∧
    writeTx (fun _ => true) exTx = some ([3, 1, 10, 2, 1, 1, 20] ++ List.replicate 20 7 ++
      [0xcd, 0x10, 100, 2, 104, 105, 3, 1, 2, 3]) ∧ sizeTx (fun _ => true) exTx = 37 := by
  refine ⟨⟨?_, ?_⟩, ?_, by decide +kernel, by decide +kernel⟩
  · intro f hf
    simp only [exTx, wireFields, List.mem_cons, List.not_mem_nil, or_false] at hf
    rcases hf with rfl | rfl | rfl | rfl | rfl | rfl | rfl | rfl
    · exact ⟨by decide, by decide⟩
    · exact ⟨by decide, by decide⟩
    · exact ⟨by decide, by decide⟩
    · exact ⟨by decide, by intro x hx; have := List.eq_of_mem_replicate hx; omega⟩
    · show (10000 : Nat) < 2 ^ 64; decide
    · show (100 : Nat) < 2 ^ 64; decide
    · exact ⟨by decide, by intro x hx; revert x; decide⟩
    · exact ⟨by decide, by intro x hx; revert x; decide⟩
  · intro f hf
    cases f <;> first | rfl | exact absurd (by decide) hf
  · intro f hf
    simp only [exTx, wireFields, List.mem_cons, List.not_mem_nil, or_false] at hf
    rcases hf with rfl | rfl | rfl | rfl | rfl | rfl | rfl | rfl
    · show (0 : Int) ≤ 1; decide
    · show (0 : Int) ≤ 10; decide
    all_goals first | trivial | (intro hc; cases hc)

/-! ## C96: the signature covers the transaction -/

/-- The values written into the hash. -/
abbrev Item.V : Item → Type
  | .of f => f.V | .type => Nat | .voutIndex16 => Nat | .signers => List Nat

def itemFmt (r3 : Int → Bool) (h : Int) : (i : Item) → Fmt i.V
  | .of f => f.fmt r3 h | .type => raw 1 | .voutIndex16 => raw 2 | .signers => list v64

def itemVal (t : Tx) : (i : Item) → i.V
  | .of f => t.val f | .type => t.type.code | .voutIndex16 => t.val .utxoVoutIndex
  | .signers => (t.val .signatures).map Prod.fst

theorem encItem_eq (r3 : Int → Bool) (t : Tx) (i : Item) :
    encItem r3 t i = (itemFmt r3 (t.val .validHeight) i).enc (itemVal t i) := by cases i <;> rfl

instance (r3 : Int → Bool) (h : Int) (i : Item) : Lawful (itemFmt r3 h i) := by
  cases i <;> (dsimp only [itemFmt]; infer_instance)

def HOrdered : List Item → Prop
  | [] => True
  | i :: t => (i = .of .medianPrices → Item.of .validHeight ∉ t) ∧ HOrdered t

instance : ∀ l, Decidable (HOrdered l)
  | [] => isTrue trivial
  | f :: t => by
    have := instDecidableHOrdered t
    unfold HOrdered; infer_instance

theorem items_inj (r3 : Int → Bool) (t u : Tx) (l : List Item) (ho : HOrdered l)
    (ht : ∀ i ∈ l, (itemFmt r3 (t.val .validHeight) i).rng (itemVal t i) ∧
      (itemFmt r3 (t.val .validHeight) i).safe (itemVal t i))
    (hu : ∀ i ∈ l, (itemFmt r3 (u.val .validHeight) i).rng (itemVal u i) ∧
      (itemFmt r3 (u.val .validHeight) i).safe (itemVal u i))
    (hh : Item.of .validHeight ∉ l → t.val .validHeight = u.val .validHeight)
    (a b x y : List Nat) (ha : encItems r3 t l = some a) (hb : encItems r3 u l = some b) (h : a ++ x = b ++ y) :
    (∀ i ∈ l, itemVal t i = itemVal u i) ∧ x = y := by
  induction l generalizing a b with
  | nil =>
    simp only [encItems, Option.some.injEq] at ha hb
    subst ha; subst hb
    exact ⟨fun i hi => by simp at hi, by simpa using h⟩
  | cons i l ih =>
    simp only [encItems, encItem_eq] at ha hb
    obtain ⟨a1, ea, ba, la, ra⟩ := Lawful.good (f := itemFmt r3 (t.val .validHeight) i) (itemVal t i)
      (ht i List.mem_cons_self).1 (ht i List.mem_cons_self).2
    obtain ⟨b1, eb, bb, lb, rb⟩ := Lawful.good (f := itemFmt r3 (u.val .validHeight) i) (itemVal u i)
      (hu i List.mem_cons_self).1 (hu i List.mem_cons_self).2
    rw [ea, Option.bind_some] at ha
    rw [eb, Option.bind_some] at hb
    cases ha2 : encItems r3 t l with
    | none => rw [ha2] at ha; cases ha
    | some a2 =>
      cases hb2 : encItems r3 u l with
      | none => rw [hb2] at hb; cases hb
      | some b2 =>
        rw [ha2, Option.map_some, Option.some.injEq] at ha
        rw [hb2, Option.map_some, Option.some.injEq] at hb
        subst ha; subst hb
        rw [List.append_assoc, List.append_assoc] at h
        have hfmt : itemFmt r3 (t.val .validHeight) i = itemFmt r3 (u.val .validHeight) i := by
          by_cases hi : i = .of .medianPrices
          · rw [hh]
            intro hc
            rcases List.mem_cons.1 hc with hc | hc
            · rw [← hc] at hi; cases hi
            · exact ho.1 hi hc
          · cases i with
            | of f => exact fmt_height _ _ _ _ (fun hc => hi (by rw [hc]))
            | type => rfl
            | voutIndex16 => rfl
            | signers => rfl
        have q1 := ra (a2 ++ x)
        have q2 := rb (b2 ++ y)
        rw [h, hfmt, q2] at q1
        simp only [Option.some.injEq, Prod.mk.injEq] at q1
        obtain ⟨r1, r2⟩ := ih ho.2 (fun j hj => ht j (List.mem_cons_of_mem _ hj))
          (fun j hj => hu j (List.mem_cons_of_mem _ hj)) (fun hc => by
            by_cases hi : i = .of .validHeight
            · subst hi; exact q1.1.symm
            · exact hh (by simp [hc, Ne.symm hi])) a2 b2 ha2 hb2 q1.2.symm
        refine ⟨fun j hj => ?_, r2⟩
        rcases List.mem_cons.1 hj with rfl | hj
        · exact q1.1.symm
        · exact r1 j hj

theorem hash_head (ty : TxType) : ∃ rest, hashItems ty = .of .version :: .type :: rest := by
  cases ty <;> exact ⟨_, rfl⟩

theorem hash_ordered (ty : TxType) : HOrdered (hashItems ty) := by cases ty <;> decide
theorem hash_height (ty : TxType) : Item.of .validHeight ∈ hashItems ty := by cases ty <;> decide

/-- The members that are signatures. -/
def isSig (f : Field) : Bool := f == .signature || f == .operatorSignature || f == .signatures

/-- The member an item is about. -/
def Item.field : Item → Option Field
  | .of f => some f | .type => none | .voutIndex16 => some .utxoVoutIndex | .signers => some .signatures

/-- Only members of the class are hashed. -/
theorem hash_from_wire (ty : TxType) : ∀ i ∈ hashItems ty,
    (i.field.all fun f => decide (f ∈ wireFields ty)) = true := by
  cases ty <;> decide

/-- Every member but signatures is hashed, the fee of a forced settlement excepted. -/
theorem wire_covered (ty : TxType) : ∀ f ∈ wireFields ty, isSig f = false →
    (ty = .cdpForceSettle → f ≠ .fees) →
    Item.of f ∈ hashItems ty ∨ (f = .utxoVoutIndex ∧ Item.voutIndex16 ∈ hashItems ty) := by
  cases ty <;> decide

theorem signers_covered (ty : TxType) : Field.signatures ∈ wireFields ty → Item.signers ∈ hashItems ty := by
  cases ty <;> decide

theorem item_ok (r3 : Int → Bool) (t : Tx) (hr : InRange r3 t) (hs : Sane r3 t) : ∀ i ∈ hashItems t.type,
    (itemFmt r3 (t.val .validHeight) i).rng (itemVal t i) ∧
    (itemFmt r3 (t.val .validHeight) i).safe (itemVal t i) := by
  intro i hi
  have hw := hash_from_wire t.type i hi
  cases i with
  | of f =>
    have hw : f ∈ wireFields t.type := of_decide_eq_true hw
    exact ⟨hr.1 f hw, hs f hw⟩
  | type => exact ⟨(type_code _).1, trivial⟩
  | voutIndex16 =>
    have hw : Field.utxoVoutIndex ∈ wireFields t.type := of_decide_eq_true hw
    have h := hr.1 _ hw
    exact ⟨h, trivial⟩
  | signers =>
    have hw : Field.signatures ∈ wireFields t.type := of_decide_eq_true hw
    have h := hr.1 _ hw
    refine ⟨⟨?_, ?_⟩, ?_⟩
    · simpa [itemVal] using h.1
    · intro x hx
      obtain ⟨p, hp, rfl⟩ := List.mem_map.1 hx
      exact (h.2 p hp).1
    · intro x hx; trivial

/-- **Missing**: the fee of a forced interest settlement (`force_settle_fee_not_signed_violated`) and transactions with
negative numbers (`negative_version_same_id_violated`).  Otherwise equal bytes under the signature mean the same
transaction type, the same value of every member that is not itself a signature, and for universal transactions the
same list of signing accounts. -/
theorem preimage_determines_tx_partial (r3 : Int → Bool) (t u : Tx) (ht : InRange r3 t) (st : Sane r3 t)
    (hu : InRange r3 u) (su : Sane r3 u) (a : List Nat) (ha : preimage r3 t = some a) (hb : preimage r3 u = some a) :
    t.type = u.type ∧
    (∀ f ∈ wireFields t.type, isSig f = false → (t.type = .cdpForceSettle → f ≠ .fees) → t.val f = u.val f) ∧
    (Field.signatures ∈ wireFields t.type → (t.val .signatures).map Prod.fst = (u.val .signatures).map Prod.fst) := by
  have it := item_ok r3 t ht st
  have iu := item_ok r3 u hu su
  have hty : t.type = u.type := by
    obtain ⟨rt, et⟩ := hash_head t.type
    obtain ⟨ru, eu⟩ := hash_head u.type
    have ha' := ha
    have hb' := hb
    unfold preimage at ha' hb'
    rw [et] at ha' it
    rw [eu] at hb' iu
    have key : ∀ (w : Tx) (rest : List Item) (c : List Nat),
        encItems r3 w (.of .version :: .type :: rest) = some c →
        ∃ p q, encItems r3 w [.of .version, .type] = some p ∧ c = p ++ q := by
      intro w rest c hc
      simp only [encItems] at hc ⊢
      cases h1 : encItem r3 w (.of .version) with
      | none => rw [h1] at hc; cases hc
      | some p1 =>
        rw [h1] at hc
        cases h2 : encItem r3 w .type with
        | none => rw [h2] at hc; cases hc
        | some p2 =>
          rw [h2] at hc
          cases h3 : encItems r3 w rest with
          | none => rw [h3] at hc; cases hc
          | some p3 =>
            rw [h3] at hc
            simp only [Option.bind_some, Option.map_some, Option.some.injEq] at hc
            exact ⟨p1 ++ (p2 ++ []), p3, by simp, by rw [← hc]; simp⟩
    obtain ⟨p, q, e1, e2⟩ := key t rt a ha'
    obtain ⟨p', q', e1', e2'⟩ := key u ru a hb'
    have hcode : t.type.code = u.type.code := by
      obtain ⟨p1, g1, _, _, d1⟩ := Lawful.good (f := varI 32) (t.val .version)
        (it (.of .version) List.mem_cons_self).1 (it (.of .version) List.mem_cons_self).2
      obtain ⟨p1', g1', _, _, d1'⟩ := Lawful.good (f := varI 32) (u.val .version)
        (iu (.of .version) List.mem_cons_self).1 (iu (.of .version) List.mem_cons_self).2
      have w1 : encItems r3 t [.of .version, .type] = some (p1 ++ ([t.type.code % 256] ++ [])) := by
        simp only [encItems, encItem, Field.fmt, g1]
        rfl
      have w1' : encItems r3 u [.of .version, .type] = some (p1' ++ ([u.type.code % 256] ++ [])) := by
        simp only [encItems, encItem, Field.fmt, g1']
        rfl
      rw [w1, Option.some.injEq] at e1
      rw [w1', Option.some.injEq] at e1'
      rw [← e1] at e2
      rw [← e1', e2] at e2'
      simp only [List.append_assoc, List.cons_append, List.nil_append] at e2'
      have k1 := d1 (t.type.code % 256 :: q)
      have k2 := d1' (u.type.code % 256 :: q')
      rw [e2', k2] at k1
      simp only [Option.some.injEq, Prod.mk.injEq, List.cons.injEq] at k1
      have b1 := (type_code t.type).1
      have b2 := (type_code u.type).1
      omega
    have c1 := (type_code t.type).2
    rw [hcode, (type_code u.type).2] at c1
    exact (Option.some.inj c1).symm
  unfold preimage at ha hb
  rw [← hty] at hb iu
  obtain ⟨h, _⟩ := items_inj r3 t u _ (hash_ordered _) it iu (fun hc => absurd (hash_height _) hc) a a [] [] ha hb rfl
  refine ⟨hty, fun f hf h1 h2 => ?_, fun hf => h _ (signers_covered _ hf)⟩
  rcases wire_covered _ f hf h1 h2 with hc | ⟨rfl, hc⟩
  · exact h _ hc
  · exact h _ hc

/-- The bytes to sign always exist. -/
theorem preimage_exists (r3 : Int → Bool) (t : Tx) (ht : InRange r3 t) (st : Sane r3 t) :
    ∃ a, preimage r3 t = some a := by
  have key : ∀ l : List Item, (∀ i ∈ l, (itemFmt r3 (t.val .validHeight) i).rng (itemVal t i) ∧
      (itemFmt r3 (t.val .validHeight) i).safe (itemVal t i)) → ∃ a, encItems r3 t l = some a := by
    intro l
    induction l with
    | nil => intro _; exact ⟨[], rfl⟩
    | cons i l ih =>
      intro h
      obtain ⟨a, ha⟩ := ih (fun j hj => h j (List.mem_cons_of_mem _ hj))
      obtain ⟨b, hb, _⟩ := Lawful.good (f := itemFmt r3 (t.val .validHeight) i) (itemVal t i)
        (h i List.mem_cons_self).1 (h i List.mem_cons_self).2
      exact ⟨b ++ a, by simp [encItems, encItem_eq, ha, hb]⟩
  exact key _ (item_ok r3 t ht st)

/-- A signature is not part of what is signed: replacing it does not change the transaction id. -/
theorem signature_not_in_preimage (r3 : Int → Bool) (t : Tx) (s : List Nat) :
    preimage r3 ⟨t.type, t.val.set .signature s⟩ = preimage r3 t := by
  have hn : Item.of .signature ∉ hashItems t.type := by cases t.type <;> decide
  have key : ∀ l : List Item, Item.of .signature ∉ l →
      encItems r3 ⟨t.type, t.val.set .signature s⟩ l = encItems r3 t l := by
    intro l
    induction l with
    | nil => intro _; rfl
    | cons i l ih =>
      intro h
      have e : encItem r3 ⟨t.type, t.val.set .signature s⟩ i = encItem r3 t i := by
        have hv : (t.val.set .signature s) .validHeight = t.val .validHeight :=
          Rec.set_other _ _ _ _ (by decide)
        cases i with
        | of f =>
          have hf : f ≠ .signature := fun hc => h (by rw [hc]; exact List.mem_cons_self)
          simp only [encItem, hv, Rec.set_other _ _ _ _ hf]
        | type => rfl
        | voutIndex16 => rfl
        | signers => rfl
      simp only [encItems, e, ih (fun hc => h (List.mem_cons_of_mem _ hc))]
  exact key _ hn

/-- A forced settlement of one CDP. -/
def exSettle (fee : Nat) : Tx :=
  ⟨.cdpForceSettle, ((Rec.set Field.init .validHeight (10 : Int)).set .cdpList [List.replicate 32 5]).set .fees fee⟩

/-- **Violation**: the fee of a forced settlement (which counts for the miner's reward) is not covered by the id. -/
theorem force_settle_fee_not_signed_violated :
    preimage (fun _ => true) (exSettle 0) = preimage (fun _ => true) (exSettle 5) ∧
    (preimage (fun _ => true) (exSettle 0)).isSome ∧
    (exSettle 0).val .fees ≠ (exSettle 5).val .fees ∧
    (∃ bs, writeTx (fun _ => true) (exSettle 5) = some bs ∧ ∃ u, readTx (fun _ => true) bs = some (u, []) ∧
      u.val .fees = (5 : Nat)) := by
  refine ⟨by decide +kernel, by decide +kernel, by decide +kernel, ?_⟩
  refine ⟨[24, 1, 10, 0, 5, 1] ++ List.replicate 32 5 ++ [0], by decide +kernel, ?_⟩
  exact ⟨_, rfl, by decide +kernel⟩

/-- **Violation**: a transfer received with version -127 has the id of the same transfer with version 1. -/
theorem negative_version_same_id_violated :
    ∃ bs, (∀ b ∈ bs, b < 256) ∧ ∃ u, readTx (fun _ => true) bs = some (u, []) ∧ u.val .version = (-127 : Int) ∧
      preimage (fun _ => true) u = preimage (fun _ => true) exTx ∧ exTx.val .version = (1 : Int) := by
  refine ⟨[3, 0x8e, 0xfe, 0xfe, 0xfe, 0x1] ++ ([10, 2, 1, 1, 20] ++ List.replicate 20 7 ++
      [0xcd, 0x10, 100, 2, 104, 105, 3, 1, 2, 3]), by decide +kernel, ?_⟩
  refine ⟨_, rfl, by decide +kernel, by decide +kernel, by decide +kernel⟩

/-! ## C97: a block is identified by its hash -/

/-- Values of the C++ types. -/
def HeaderInRange (h : Header) : Prop := headerFmt.rng h

theorem header_in_range_iff (h : Header) : HeaderInRange h ↔
    (-(2 ^ 31 : Int) ≤ h.version ∧ h.version < 2 ^ 31) ∧ (h.prevHash.length = 32 ∧ Bytes h.prevHash) ∧
    (h.merkleRoot.length = 32 ∧ Bytes h.merkleRoot) ∧ h.time < 2 ^ 32 ∧ h.nonce < 2 ^ 32 ∧ h.height < 2 ^ 32 ∧
    h.fuelFee < 2 ^ 64 ∧ h.fuelRate < 2 ^ 32 ∧ h.signature.length ≤ MAX_SIZE ∧ Bytes h.signature := Iff.rfl

/-- Headers round-trip. -/
theorem header_roundtrip (h : Header) (hr : HeaderInRange h) :
    ∃ bs, headerFmt.enc h = some bs ∧ bs.length = headerFmt.size h ∧ ∀ r, headerFmt.dec (bs ++ r) = some (h, r) := by
  obtain ⟨bs, h1, _, h3, h4⟩ := Lawful.good (f := headerFmt) h hr ⟨trivial, trivial, trivial, trivial, trivial, trivial,
    trivial, trivial, trivial⟩
  exact ⟨bs, h1, h3, h4⟩

/-- Blocks round-trip, and the announced size is the number of bytes written. -/
theorem block_roundtrip (r3 : Int → Bool) (b : Header × List Tx) (hh : HeaderInRange b.1) (hn : b.2.length ≤ MAX_SIZE)
    (ht : ∀ t ∈ b.2, InRange r3 t ∧ Sane r3 t) :
    ∃ bs, (blockFmt r3).enc b = some bs ∧ bs.length = (blockFmt r3).size b ∧
      ∀ r, (blockFmt r3).dec (bs ++ r) = some (b, r) := by
  obtain ⟨bs, h1, _, h3, h4⟩ := Lawful.good (f := blockFmt r3) b ⟨hh, hn, fun t h => (ht t h).1⟩
    ⟨⟨trivial, trivial, trivial, trivial, trivial, trivial, trivial, trivial, trivial⟩, fun t h => (ht t h).2⟩
  exact ⟨bs, h1, h3, h4⟩

/-- Equal bytes under the block hash mean equal headers but for the signature. -/
theorem header_hash_covers (g h : Header) (hg : HeaderInRange g) (hh : HeaderInRange h)
    (he : headerPreimage g = headerPreimage h) : { g with signature := [] } = { h with signature := [] } := by
  obtain ⟨a, ea, _, _, da⟩ := Lawful.good
    (f := rawI 4 ⊗ u256 ⊗ u256 ⊗ raw 4 ⊗ raw 4 ⊗ raw 4 ⊗ raw 8 ⊗ raw 4)
    (g.version, g.prevHash, g.merkleRoot, g.time, g.nonce, g.height, g.fuelFee, g.fuelRate)
    ⟨hg.1, hg.2.1, hg.2.2.1, hg.2.2.2.1, hg.2.2.2.2.1, hg.2.2.2.2.2.1, hg.2.2.2.2.2.2.1, hg.2.2.2.2.2.2.2.1⟩
    ⟨trivial, trivial, trivial, trivial, trivial, trivial, trivial, trivial⟩
  obtain ⟨b, eb, _, _, db⟩ := Lawful.good
    (f := rawI 4 ⊗ u256 ⊗ u256 ⊗ raw 4 ⊗ raw 4 ⊗ raw 4 ⊗ raw 8 ⊗ raw 4)
    (h.version, h.prevHash, h.merkleRoot, h.time, h.nonce, h.height, h.fuelFee, h.fuelRate)
    ⟨hh.1, hh.2.1, hh.2.2.1, hh.2.2.2.1, hh.2.2.2.2.1, hh.2.2.2.2.2.1, hh.2.2.2.2.2.2.1, hh.2.2.2.2.2.2.2.1⟩
    ⟨trivial, trivial, trivial, trivial, trivial, trivial, trivial, trivial⟩
  unfold headerPreimage at he
  rw [ea, eb, Option.some.injEq] at he
  have d1 := da []
  rw [he, db] at d1
  simp only [Option.some.injEq, Prod.mk.injEq, and_true] at d1
  obtain ⟨e1, e2, e3, e4, e5, e6, e7, e8⟩ := d1
  cases g; cases h
  simp only at e1 e2 e3 e4 e5 e6 e7 e8
  simp only [e1, e2, e3, e4, e5, e6, e7, e8]

/-- The same transaction but for signatures (and the fee of forced settlements). -/
def SameSigned (t u : Tx) : Prop :=
  t.type = u.type ∧
  (∀ f ∈ wireFields t.type, isSig f = false → (t.type = .cdpForceSettle → f ≠ .fees) → t.val f = u.val f) ∧
  (Field.signatures ∈ wireFields t.type → (t.val .signatures).map Prod.fst = (u.val .signatures).map Prod.fst)

/-- The identifiers of the transactions of a block. -/
def txids {α : Type} (r3 : Int → Bool) (H : List Nat → α) (l : List Tx) : List α :=
  l.map (fun t => H ((preimage r3 t).getD []))

/-- **Missing**: signatures, and the fee of forced settlements, are not covered
(`block_hash_ignores_signatures_violated`).  For a collision-free hash `H` of byte strings and `h` of pairs, two blocks
accepted by `CheckBlock` (Merkle root right, no repeated transaction) with the same block hash have equal headers but for
the signature, and the same transactions in the same order, but for signatures. -/
theorem block_hash_determines_partial {α : Type} (r3 : Int → Bool) (H : List Nat → α) (h : α → α → α) (zero : α)
    (toBytes : α → List Nat) (hH : ∀ a b, H a = H b → a = b) (h2 : Merkle.Inj2 h) (hb : ∀ a b, toBytes a = toBytes b → a = b)
    (hl : ∀ s a b, H s ≠ h a b) (b c : Header × List Tx) (rb : HeaderInRange b.1) (rc : HeaderInRange c.1)
    (tb : ∀ t ∈ b.2, InRange r3 t ∧ Sane r3 t) (tc : ∀ t ∈ c.2, InRange r3 t ∧ Sane r3 t)
    (nb : b.2 ≠ []) (nc : c.2 ≠ []) (db : (txids r3 H b.2).Nodup) (dc : (txids r3 H c.2).Nodup)
    (mb : (Merkle.merkleRoot h zero (txids r3 H b.2)).map toBytes = some b.1.merkleRoot)
    (mc : (Merkle.merkleRoot h zero (txids r3 H c.2)).map toBytes = some c.1.merkleRoot)
    (he : headerPreimage b.1 = headerPreimage c.1) :
    { b.1 with signature := [] } = { c.1 with signature := [] } ∧ List.Forall₂ SameSigned b.2 c.2 := by
  have hd := header_hash_covers b.1 c.1 rb rc he
  refine ⟨hd, ?_⟩
  have hm : b.1.merkleRoot = c.1.merkleRoot := (congrArg Header.merkleRoot hd : _)
  rw [← hm] at mc
  have hr : Merkle.merkleRoot h zero (txids r3 H b.2) = Merkle.merkleRoot h zero (txids r3 H c.2) := by
    cases h1 : Merkle.merkleRoot h zero (txids r3 H b.2) with
    | none => rw [h1] at mb; cases mb
    | some x =>
      cases h2' : Merkle.merkleRoot h zero (txids r3 H c.2) with
      | none => rw [h2'] at mc; cases mc
      | some y =>
        rw [h1, Option.map_some, Option.some.injEq] at mb
        rw [h2', Option.map_some, Option.some.injEq] at mc
        rw [hb x y (mb.trans mc.symm)]
  have hids : txids r3 H b.2 = txids r3 H c.2 :=
    Merkle.root_commits_any_size h2 zero (by simpa [txids] using nb) (by simpa [txids] using nc)
      (by intro x hx a b'; simp only [txids, List.mem_map] at hx; obtain ⟨t, _, rfl⟩ := hx; exact hl _ _ _)
      (by intro x hx a b'; simp only [txids, List.mem_map] at hx; obtain ⟨t, _, rfl⟩ := hx; exact hl _ _ _) db dc hr
  clear mb mc db dc hr nb nc he hd hm rb rc
  obtain ⟨gb, l⟩ := b
  obtain ⟨gc, m⟩ := c
  simp only at tb tc hids ⊢
  induction l generalizing m with
  | nil =>
    cases m with
    | nil => exact .nil
    | cons u m => simp [txids] at hids
  | cons t l ih =>
    cases m with
    | nil => simp [txids] at hids
    | cons u m =>
      simp only [txids, List.map_cons, List.cons.injEq] at hids
      refine .cons ?_ (ih (fun x hx => tb x (List.mem_cons_of_mem _ hx)) m (fun x hx => tc x (List.mem_cons_of_mem _ hx))
        hids.2)
      obtain ⟨a, ea⟩ := preimage_exists r3 t (tb t List.mem_cons_self).1 (tb t List.mem_cons_self).2
      obtain ⟨a', ea'⟩ := preimage_exists r3 u (tc u List.mem_cons_self).1 (tc u List.mem_cons_self).2
      have := hH _ _ hids.1
      rw [ea, ea', Option.getD_some, Option.getD_some] at this
      subst this
      exact preimage_determines_tx_partial r3 t u (tb t List.mem_cons_self).1 (tb t List.mem_cons_self).2
        (tc u List.mem_cons_self).1 (tc u List.mem_cons_self).2 a ea ea'

/-- **Violation**: changing the signature of any transaction of a block, or of the block itself, keeps all transaction
ids and the block hash: two different blocks with the same hash. -/
theorem block_hash_ignores_signatures_violated (r3 : Int → Bool) {α : Type} (H : List Nat → α) (h : Header)
    (s s' : List Nat) (t : Tx) (l : List Tx) :
    headerPreimage { h with signature := s' } = headerPreimage h ∧
    txids r3 H (⟨t.type, t.val.set .signature s⟩ :: l) = txids r3 H (t :: l) := by
  refine ⟨rfl, ?_⟩
  simp only [txids, List.map_cons, signature_not_in_preimage]

def exHeader : Header := ⟨1, List.replicate 32 1, List.replicate 32 2, 1500000000, 7, 10, 0, 100, [9, 9]⟩

example : HeaderInRange exHeader := by
  rw [header_in_range_iff]
  have hb : ∀ k n, n < 256 → Bytes (List.replicate k n) := by
    intro k n hn x hx; rw [List.eq_of_mem_replicate hx]; exact hn
  refine ⟨⟨by decide, by decide⟩, ⟨by decide, hb 32 1 (by decide)⟩, ⟨by decide, hb 32 2 (by decide)⟩, by decide, by decide,
    by decide, by decide, by decide, by decide, ?_⟩
  intro x hx; revert x; decide

/-- The hypotheses on the hashes are satisfiable, with two different ids. -/
example : ∃ (H : List Nat → List Nat ⊕ Merkle.Tree) (h : List Nat ⊕ Merkle.Tree → List Nat ⊕ Merkle.Tree →
    List Nat ⊕ Merkle.Tree), (∀ a b, H a = H b → a = b) ∧ ∀ s a b, H s ≠ h a b :=
  ⟨Sum.inl, fun _ _ => .inr (.leaf 0), fun a b h => by simpa using h, fun s a b h => by cases h⟩

/-! ## C98: what is received can be relayed and checked -/

/-- A transfer with version -127. -/
def exNegBytes : List Nat := [3, 0x8e, 0xfe, 0xfe, 0xfe, 0x1] ++ ([10, 2, 1, 1, 20] ++ List.replicate 20 7 ++
  [0xcd, 0x10, 100, 2, 104, 105, 3, 1, 2, 3])

/-- **Violation**: a transaction with a negative version is relayed as another transaction: the next node reads
version 1. -/
theorem relay_changes_tx_violated : ∃ u bs w, readTx (fun _ => true) exNegBytes = some (u, []) ∧
    writeTx (fun _ => true) u = some bs ∧ readTx (fun _ => true) bs = some (w, []) ∧
    u.val .version = (-127 : Int) ∧ w.val .version = (1 : Int) :=
  ⟨_, [3, 1, 10, 2, 1, 1, 20] ++ List.replicate 20 7 ++ [0xcd, 0x10, 100, 2, 104, 105, 3, 1, 2, 3], _, rfl, by decide +kernel, rfl,
    by decide +kernel, by decide +kernel⟩

/-- A proposal request without a proposal. -/
def exNullBytes : List Nat := [70, 1, 10, 2, 1, 1, 100, 4, 87, 73, 67, 67, 0, 3, 1, 2, 3]

/-- **Violation**: a transaction is read whose check dereferences a null pointer. -/
theorem null_proposal_violated : ∃ u, readTx (fun _ => true) exNullBytes = some (u, []) ∧ proposalToCheck u = none :=
  ⟨_, rfl, by decide +kernel⟩

/-- **Missing**: the two violations above.  A received transaction that is sane is relayed as the same transaction, and a
proposal request whose proposal is not null reaches the check of that proposal. -/
theorem received_tx_unharmed_partial (r3 : Int → Bool) (l : List Nat) (hl : ∀ b ∈ l, b < 256) (t : Tx) (rest : List Nat)
    (h : readTx r3 l = some (t, rest)) (hs : Sane r3 t) :
    (∃ bs, writeTx r3 t = some bs ∧ bs.length = sizeTx r3 t ∧ readTx r3 bs = some (t, [])) ∧
    ((t.val .proposal).1 ≠ .null → proposalToCheck t = some (t.val .proposal)) :=
  ⟨received_tx_relays r3 l hl t rest h hs, fun hn => if_neg hn⟩

end Verif.Wire
