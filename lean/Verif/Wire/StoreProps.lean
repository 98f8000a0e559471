import Verif.Wire.Store
import Verif.Wire.Props

/-!
# Properties of records on disk
-/
namespace Verif.Wire

open Verif.Codec

/-! ## Laws -/

theorem natLt_total : StrictTotal natLt where
  irrefl a := by simp [natLt]
  trans a b c := by simp only [natLt, decide_eq_true_eq]; omega
  total a b := by simp only [natLt, decide_eq_false_iff_not]; omega

theorem intLt_total : StrictTotal intLt where
  irrefl a := by simp [intLt]
  trans a b c := by simp only [intLt, decide_eq_true_eq]; omega
  total a b := by simp only [intLt, decide_eq_false_iff_not]; omega

theorem regLt_total : StrictTotal regLt where
  irrefl a := by simp [regLt]
  trans a b c := by simp only [regLt, Bool.or_eq_true, Bool.and_eq_true, decide_eq_true_eq]; omega
  total a b := by
    obtain ⟨ah, ai⟩ := a
    obtain ⟨bh, bi⟩ := b
    simp only [regLt, Bool.or_eq_false_iff, Bool.and_eq_false_iff, decide_eq_false_iff_not, RegId.mk.injEq]
    omega

instance : Lawful nothing where
  good v _ _ := ⟨[], rfl, fun x hx => by simp at hx, rfl, fun r => rfl⟩
  sound l v r hb h := by
    have h : some ((), l) = some (v, r) := h
    simp only [Option.some.injEq, Prod.mk.injEq] at h
    rw [← h.2]; exact ⟨trivial, hb⟩

theorem set_lawful {α : Type} [DecidableEq α] (lt : α → α → Bool) (ho : StrictTotal lt) (f : Fmt α) [Lawful f] :
    Lawful (set lt f) := by
  have := map_lawful lt ho (f ⊗ nothing)
  refine conv_lawful _ _ _ (fun v => ?_) (fun v => ?_)
  · simp [List.map_map, Function.comp_def]
  · simp [List.map_map, Function.comp_def]

instance : Lawful pubkey where
  good v h s := by
    cases v with
    | invalid =>
      refine ⟨writeCompactSize 0, rfl, ?_, rfl, fun r => ?_⟩
      · intro x hx; revert x; decide
      · rfl
    | valid l =>
      have h : l.length = 33 ∧ Bytes l ∧ (l.head? = some 2 ∨ l.head? = some 3) := h
      refine ⟨writeCompactSize l.length ++ l, rfl, ?_, ?_, fun r => ?_⟩
      · intro x hx
        rcases List.mem_append.1 hx with hx | hx
        · rw [h.1] at hx
          have hx : x ∈ [33] := hx
          simp only [List.mem_singleton] at hx
          omega
        · exact h.2.1 x hx
      · show _ = l.length + 1
        rw [h.1, List.length_append, h.1]; rfl
      · show (readCompactSize ((writeCompactSize l.length ++ l) ++ r)).bind _ = _
        rw [h.1]
        have e : readCompactSize ((writeCompactSize 33 ++ l) ++ r) = some (33, l ++ r) := rfl
        rw [e]
        simp only [Option.bind_some, if_true]
        have e2 : readN 33 (l ++ r) = some (l, r) := by
          unfold readN
          rw [if_neg (by rw [List.length_append, h.1]; omega), ← h.1, List.take_left', List.drop_left'] <;> rfl
        rw [e2]
        simp only [Option.map_some, Option.some.injEq, Prod.mk.injEq, and_true]
        cases l with
        | nil => simp at h
        | cons x t =>
          have hx : x = 2 ∨ x = 3 := by simpa using h.2.2
          simp only [PubKey.ofBytes]
          rw [if_pos ⟨hx, h.1⟩]
  sound l v r hb h := by
    have h : (readCompactSize l).bind _ = _ := h
    cases hr : readCompactSize l with
    | none => rw [hr] at h; cases h
    | some p =>
      rw [hr] at h
      simp only [Option.bind_some] at h
      obtain ⟨_, b2⟩ := compact_sound hb hr
      split at h
      · cases hq : readN 33 p.2 with
        | none => rw [hq] at h; cases h
        | some q =>
          rw [hq] at h
          simp only [Option.map_some, Option.some.injEq, Prod.mk.injEq] at h
          rw [← h.1, ← h.2]
          obtain ⟨h1, h2, h3⟩ := readN_sound b2 hq
          refine ⟨?_, h3⟩
          generalize q.1 = s at *
          cases s with
          | nil => simp at h1
          | cons c t =>
            show pubkey.rng (if (c = 2 ∨ c = 3) ∧ (c :: t).length = 33 then PubKey.valid (c :: t) else .invalid)
            split
            · rename_i hc
              exact ⟨h1, h2, by simpa using hc.1⟩
            · trivial
      · simp only [Option.some.injEq, Prod.mk.injEq] at h
        rw [← h.1, ← h.2]; exact ⟨trivial, b2⟩

instance : Lawful (map strLt (str ⊗ accountToken)) := map_lawful _ strLt_total _
instance : Lawful account := by unfold account; infer_instance
instance : Lawful (set natLt v64) := set_lawful _ natLt_total _
instance : Lawful (set strPairLt (str ⊗ str)) := set_lawful _ strPairLt_total _
instance : Lawful (set regLt regid) := set_lawful _ regLt_total _
instance : Lawful (map strPairLt ((str ⊗ str) ⊗ v64 ⊗ varU 32)) := map_lawful _ strPairLt_total _
instance : Lawful (map intLt (varI 32 ⊗ v64 ⊗ v64)) := map_lawful _ intLt_total _
instance : Lawful (map strLt (str ⊗ list (str ⊗ str))) := map_lawful _ strLt_total _

instance (t : Table) : Lawful t.fmt := by cases t <;> (dsimp only [Table.fmt]; infer_instance)

/-! ## C99: what is stored is read back -/

/-- `CUserID` other than the invalid public key. -/
def GoodUser (u : UserId) : Prop := User u ∧ u ≠ .pub .invalid
/-- `CPubKey`, valid or not. -/
def Key : PubKey → Prop
  | .valid l => Hash 33 l ∧ (l.head? = some 2 ∨ l.head? = some 3)
  | .invalid => True
/-- Heights are not negative. -/
def Height (n : Int) : Prop := 0 ≤ n ∧ n < 2147483648
/-- In order without repetition. -/
def Incr {α : Type} (lt : α → α → Bool) (l : List α) : Prop := l.Pairwise (fun a b => lt a b = true)

def OrderRange (v : Nat × Nat × Nat × Str × Str × Nat × Nat × Nat × Nat × Option (Nat × Nat × Nat) × RegId × RegId × Nat ×
    Nat × Str × List Nat) : Prop :=
  let (gen, ty, side, coin, asset, a, b, price, dex, op, cord, user, x, y, src, id) := v
  U8 gen ∧ U8 ty ∧ U8 side ∧ Text coin ∧ Text asset ∧ U64' a ∧ U64' b ∧ U64' price ∧ U32 dex ∧
    (∀ m mk tk, op = some (m, mk, tk) → U8 m ∧ U64' mk ∧ U64' tk) ∧ Reg cord ∧ Reg user ∧ U64' x ∧ U64' y ∧ Text src ∧ Hash 32 id

def CdpRange (v : List Nat × RegId × Int × Str × Str × Nat × Nat) : Prop :=
  let (id, owner, height, b, s, staked, owed) := v
  Hash 32 id ∧ Reg owner ∧ Height height ∧ Text b ∧ Text s ∧ U64' staked ∧ U64' owed

def ReceiptRange (v : Nat × Nat × UserId × UserId × Str × Nat) : Prop :=
  let (ty, op, a, b, sym, n) := v
  U16 ty ∧ U8 op ∧ GoodUser a ∧ GoodUser b ∧ Text sym ∧ U64' n

/-- Values of the declared C++ types: texts and vectors within the reading limits, heights not negative, no invalid public key
among user ids. -/
def Storable : (t : Table) → t.V → Prop
  | .regidKeyid, v => Hash 20 v
  | .keyidAccount, (id, reg, owner, miner, tokens, votes, h, e, perms) =>
      Hash 20 id ∧ Reg reg ∧ Key owner ∧ Key miner ∧
      AllOf (fun x => Text x.1 ∧ U64' x.2.1 ∧ U64' x.2.2.1 ∧ U64' x.2.2.2.1 ∧ U64' x.2.2.2.2.1 ∧ U64' x.2.2.2.2.2) tokens ∧
      SortedBy strLt tokens ∧ U64' votes ∧ U64' h ∧ U64' e ∧ U64' perms
  | .asset, (sym, name, ty, perms, owner, supply, _, icon) =>
      Text sym ∧ Text name ∧ U8 ty ∧ U64' perms ∧ Reg owner ∧ U64' supply ∧ Text icon
  | .axcPeerToSelf, v => U8 v.1 ∧ Text v.2.1 ∧ U8 v.2.2
  | .axcSelfToPeer, v => U8 v.1 ∧ Text v.2.1 ∧ U8 v.2.2
  | .axcSwapIn, v => U64' v
  | .txDiskIndex, v => (I32 v.1.1 ∧ U32 v.1.2) ∧ U32 v.2.1 ∧ Reg v.2.2
  | .flag, _ => True
  | .bestBlockHash, v => Hash 32 v
  | .lastBlockFile, v => I32 v
  | .reindex, _ => True
  | .finalityBlock, v => I32 v.1 ∧ Hash 32 v.2
  | .inflatedReward, v => U64' v.1 ∧ U64' v.2.1 ∧ U64' v.2.2.1 ∧ U64' v.2.2.2.1 ∧ U64' v.2.2.2.2
  | .cdpRatioIndex, v => CdpRange v
  | .cdpHeightIndex, v => CdpRange v
  | .cdpGlobal, v => U64' v.1 ∧ U64' v.2
  | .cdp, v => CdpRange v
  | .cdpBcoin, v => U8 v.1 ∧ Reg v.2
  | .userCdpIndex, v => ∀ h, v = some h → Hash 32 h
  | .closedCdpTx, v => Hash 32 v.1 ∧ U8 v.2
  | .closedTxCdp, v => Hash 32 v.1 ∧ U8 v.2
  | .contractData, v => Text v
  | .contractDef, (vm, m, _, code, abi, memo, h) =>
      U8 vm ∧ Reg m ∧ Text code ∧ Text abi ∧ Text memo ∧ Hash 32 h
  | .contractAccount, v => U64' v.1 ∧ Text v.2.1 ∧ AllOf (fun x => U64' x.1 ∧ Height x.2.1 ∧ Vec x.2.2) v.2.2
  | .contractTraces, v => Text v
  | .vote, v => U8 v
  | .regidVote, v => AllOf (fun x => GoodUser x.1 ∧ U64' x.2) v
  | .lastVoteHeight, v => U32 v
  | .pendingDelegates, v => U8 v.1 ∧ U32 v.2.1 ∧ AllOf (fun x => Reg x.1 ∧ U64' x.2) v.2.2
  | .activeDelegates, v => AllOf (fun x => Reg x.1 ∧ U64' x.2) v
  | .dexBlockOrders, v => OrderRange v
  | .dexActiveOrder, v => OrderRange v
  | .dexOperatorDetail, (owner, fee, name, url, mode, mk, tk, l, _, memo) =>
      Reg owner ∧ Reg fee ∧ Text name ∧ Text url ∧ U8 mode ∧ U64' mk ∧ U64' tk ∧ AllOf U64' l ∧ Incr natLt l ∧ Text memo
  | .dexOperatorOwner, v => ∀ n, v = some n → U32 n
  | .dexOperatorLastId, v => U32 v
  | .executeFail, v => U8 v.1 ∧ Text v.2
  | .feedCoinPairs, v => AllOf (fun x => Text x.1 ∧ Text x.2) v ∧ Incr strPairLt v
  | .medianPrices, v => AllOf (fun x => (Text x.1.1 ∧ Text x.1.2) ∧ U64' x.2.1 ∧ U32 x.2.2) v ∧ SortedBy strPairLt v
  | .governors, v => AllOf Reg v ∧ Incr regLt v
  | .proposals, v => PropRange v ∧ ∀ u ∈ propUsers v, u ≠ .pub .invalid
  | .approvals, v => AllOf Reg v
  | .sysParam, v => U64' v
  | .minerFee, v => U64' v
  | .cdpParam, v => U64' v
  | .cdpInterest, v => AllOf (fun x => Height x.1 ∧ U64' x.2.1 ∧ U64' x.2.2) v ∧ SortedBy intLt v
  | .totalBps, v => U8 v
  | .newTotalBps, v => U32 v.1 ∧ U8 v.2
  | .txReceipt, v => AllOf ReceiptRange v
  | .blockReceipt, v => AllOf ReceiptRange v
  | .utxo, v => U8 v
  | .utxoProof, v => Hash 32 v
  | .blockUndo, v => AllOf (fun x => Hash 32 x.1 ∧
      AllOf (fun y => Text y.1 ∧ AllOf (fun z => Text z.1 ∧ Text z.2) y.2) x.2 ∧ SortedBy strLt x.2) v
  | .blockFileInfo, v => U32 v.1 ∧ U32 v.2.1 ∧ U32 v.2.2.1 ∧ U32 v.2.2.2.1 ∧ U32 v.2.2.2.2.1 ∧ U64' v.2.2.2.2.2.1 ∧
      U64' v.2.2.2.2.2.2

/-- A format that accepts the values satisfying `P`. -/
def Accepts {α : Type} (f : Fmt α) (P : α → Prop) : Prop := ∀ v, P v → f.rng v ∧ f.safe v

theorem acc_pair {α β : Type} {f : Fmt α} {g : Fmt β} {P : α → Prop} {Q : β → Prop} (h : Accepts f P) (k : Accepts g Q) :
    Accepts (f ⊗ g) (fun v => P v.1 ∧ Q v.2) := fun v hv =>
  ⟨⟨(h _ hv.1).1, (k _ hv.2).1⟩, ⟨(h _ hv.1).2, (k _ hv.2).2⟩⟩

theorem acc_list {α : Type} {f : Fmt α} {P : α → Prop} (h : Accepts f P) : Accepts (list f) (AllOf P) := fun v hv =>
  ⟨⟨hv.1, fun x hx => (h x (hv.2 x hx)).1⟩, fun x hx => (h x (hv.2 x hx)).2⟩

theorem acc_map {K V : Type} [DecidableEq K] {f : Fmt (K × V)} {P : K × V → Prop} {lt : K → K → Bool} (h : Accepts f P) :
    Accepts (map lt f) (fun v => AllOf P v ∧ SortedBy lt v) := fun v hv =>
  ⟨⟨(acc_list h v hv.1).1, hv.2⟩, (acc_list h v hv.1).2⟩

theorem acc_set {α : Type} [DecidableEq α] {f : Fmt α} {P : α → Prop} {lt : α → α → Bool} (h : Accepts f P) :
    Accepts (set lt f) (fun v => AllOf P v ∧ Incr lt v) := fun v hv => by
  have h2 : Accepts (f ⊗ nothing) (fun x => P x.1 ∧ True) := acc_pair (Q := fun _ => True) h (fun _ _ => ⟨trivial, trivial⟩)
  refine acc_map (lt := lt) h2 (v.map (fun x => (x, ()))) ⟨⟨by simpa using hv.1.1, ?_⟩, ?_⟩
  · intro x hx
    obtain ⟨y, hy, rfl⟩ := List.mem_map.1 hx
    exact ⟨hv.1.2 y hy, trivial⟩
  · have := hv.2
    unfold Incr at this
    simpa [SortedBy, List.pairwise_map] using this

theorem acc_opt {α : Type} {f : Fmt α} {P : α → Prop} (h : Accepts f P) :
    Accepts (opt f) (fun v => ∀ x, v = some x → P x) := fun v hv => by
  cases v with
  | none => exact ⟨trivial, trivial⟩
  | some x => exact h x (hv x rfl)

theorem acc_user : Accepts userid GoodUser := fun u h => ⟨(user_range u).2 h.1, h.2⟩
theorem acc_height : Accepts (varI 32) Height := fun n h => ⟨⟨by have := h.1; omega, h.2⟩, h.1⟩
theorem acc_key : Accepts pubkey Key := fun k h => by
  cases k with
  | invalid => exact ⟨trivial, trivial⟩
  | valid l => exact ⟨⟨h.1.1, h.1.2, h.2⟩, trivial⟩
theorem acc_str : Accepts str Text := fun _ h => ⟨h, trivial⟩
theorem acc_vec : Accepts bytes Vec := fun _ h => ⟨h, trivial⟩
theorem acc_v64 : Accepts v64 U64' := fun _ h => ⟨h, trivial⟩
theorem acc_v32 : Accepts (varU 32) U32 := fun _ h => ⟨h, trivial⟩
theorem acc_v8 : Accepts (varU 8) U8 := fun _ h => ⟨h, trivial⟩
theorem acc_r8 : Accepts (raw 8) U64' := fun _ h => ⟨h, trivial⟩
theorem acc_r1 : Accepts (raw 1) U8 := fun _ h => ⟨h, trivial⟩
theorem acc_r2 : Accepts (raw 2) U16 := fun _ h => ⟨h, trivial⟩
theorem acc_reg : Accepts regid Reg := fun _ h => ⟨h, trivial⟩
theorem acc_hash (k : Nat) : Accepts (blob k) (Hash k) := fun _ h => ⟨h, trivial⟩
theorem acc_i4 : Accepts (rawI 4) I32 := fun _ h => ⟨h, trivial⟩
theorem acc_bool : Accepts bool (fun _ => True) := fun _ _ => ⟨trivial, trivial⟩

theorem acc_cdp : Accepts userCdp CdpRange :=
  acc_pair (acc_hash 32) (acc_pair acc_reg (acc_pair acc_height (acc_pair acc_str (acc_pair acc_str (acc_pair acc_v64 acc_v64)))))

theorem acc_receipt : Accepts receipt ReceiptRange :=
  acc_pair acc_r2 (acc_pair acc_r1 (acc_pair acc_user (acc_pair acc_user (acc_pair acc_str acc_v64))))

theorem acc_order : Accepts dexOrder OrderRange := by
  rintro ⟨gen, ty, side, coin, asset, a, b, price, dex, op, cord, user, x, y, src, id⟩ h
  exact acc_pair acc_r1 (acc_pair acc_r1 (acc_pair acc_r1 (acc_pair acc_str (acc_pair acc_str (acc_pair acc_v64 (acc_pair acc_v64
    (acc_pair acc_v64 (acc_pair acc_v32 (acc_pair (acc_opt (acc_pair acc_v8 (acc_pair acc_v64 acc_v64))) (acc_pair acc_reg
    (acc_pair acc_reg (acc_pair acc_v64 (acc_pair acc_v64 (acc_pair acc_str (acc_hash 32)))))))))))))))
    (gen, ty, side, coin, asset, a, b, price, dex, op, cord, user, x, y, src, id)
    ⟨h.1, h.2.1, h.2.2.1, h.2.2.2.1, h.2.2.2.2.1, h.2.2.2.2.2.1, h.2.2.2.2.2.2.1, h.2.2.2.2.2.2.2.1, h.2.2.2.2.2.2.2.2.1,
      fun z hz => h.2.2.2.2.2.2.2.2.2.1 z.1 z.2.1 z.2.2 hz, h.2.2.2.2.2.2.2.2.2.2⟩

theorem storable_accepted (t : Table) : Accepts t.fmt (Storable t) := by
  cases t
  case regidKeyid => exact acc_hash 20
  case keyidAccount =>
    rintro ⟨id, reg, owner, miner, tokens, votes, h, e, perms⟩ hv
    exact acc_pair (acc_hash 20) (acc_pair acc_reg (acc_pair acc_key (acc_pair acc_key (acc_pair (acc_map (acc_pair acc_str
      (acc_pair acc_v64 (acc_pair acc_v64 (acc_pair acc_v64 (acc_pair acc_v64 acc_v64)))))) (acc_pair acc_v64 (acc_pair acc_v64
      (acc_pair acc_v64 acc_v64))))))) (id, reg, owner, miner, tokens, votes, h, e, perms)
      ⟨hv.1, hv.2.1, hv.2.2.1, hv.2.2.2.1, ⟨hv.2.2.2.2.1, hv.2.2.2.2.2.1⟩, hv.2.2.2.2.2.2⟩
  case asset =>
    rintro ⟨sym, name, ty, perms, owner, supply, m, icon⟩ hv
    exact acc_pair acc_str (acc_pair acc_str (acc_pair acc_r1 (acc_pair acc_v64 (acc_pair acc_reg (acc_pair acc_v64 (acc_pair
      acc_bool acc_str)))))) (sym, name, ty, perms, owner, supply, m, icon)
      ⟨hv.1, hv.2.1, hv.2.2.1, hv.2.2.2.1, hv.2.2.2.2.1, hv.2.2.2.2.2.1, trivial, hv.2.2.2.2.2.2⟩
  case axcPeerToSelf => exact acc_pair acc_v8 (acc_pair acc_str acc_v8)
  case axcSelfToPeer => exact acc_pair acc_v8 (acc_pair acc_str acc_v8)
  case txDiskIndex => exact acc_pair (acc_pair acc_i4 acc_v32) (acc_pair acc_v32 acc_reg)
  case flag => exact acc_bool
  case bestBlockHash => exact acc_hash 32
  case reindex => exact acc_bool
  case finalityBlock => exact acc_pair acc_i4 (acc_hash 32)
  case inflatedReward => exact acc_pair acc_r8 (acc_pair acc_r8 (acc_pair acc_r8 (acc_pair acc_r8 acc_r8)))
  case cdpRatioIndex => exact acc_cdp
  case cdpHeightIndex => exact acc_cdp
  case cdpGlobal => exact acc_pair acc_v64 acc_v64
  case cdp => exact acc_cdp
  case cdpBcoin => exact acc_pair acc_v8 acc_reg
  case userCdpIndex => exact acc_opt (acc_hash 32)
  case closedCdpTx => exact acc_pair (acc_hash 32) acc_r1
  case closedTxCdp => exact acc_pair (acc_hash 32) acc_r1
  case contractData => exact acc_str
  case contractDef =>
    rintro ⟨vm, m, up, code, abi, memo, h⟩ hv
    exact acc_pair acc_r1 (acc_pair acc_reg (acc_pair acc_bool (acc_pair acc_str (acc_pair acc_str (acc_pair acc_str (acc_hash 32))))))
      (vm, m, up, code, abi, memo, h) ⟨hv.1, hv.2.1, trivial, hv.2.2⟩
  case contractAccount => exact acc_pair acc_v64 (acc_pair acc_str (acc_list (acc_pair acc_v64 (acc_pair acc_height acc_vec))))
  case contractTraces => exact acc_str
  case regidVote => exact acc_list (acc_pair acc_user acc_v64)
  case pendingDelegates => exact acc_pair acc_r1 (acc_pair acc_v32 (acc_list (acc_pair acc_reg acc_v64)))
  case activeDelegates => exact acc_list (acc_pair acc_reg acc_v64)
  case dexBlockOrders => exact acc_order
  case dexActiveOrder => exact acc_order
  case dexOperatorDetail =>
    rintro ⟨owner, fee, name, url, mode, mk, tk, l, act, memo⟩ hv
    exact acc_pair acc_reg (acc_pair acc_reg (acc_pair acc_str (acc_pair acc_str (acc_pair acc_v8 (acc_pair acc_v64 (acc_pair acc_v64
      (acc_pair (acc_set acc_v64) (acc_pair acc_bool acc_str)))))))) (owner, fee, name, url, mode, mk, tk, l, act, memo)
      ⟨hv.1, hv.2.1, hv.2.2.1, hv.2.2.2.1, hv.2.2.2.2.1, hv.2.2.2.2.2.1, hv.2.2.2.2.2.2.1,
        ⟨hv.2.2.2.2.2.2.2.1, hv.2.2.2.2.2.2.2.2.1⟩, trivial, hv.2.2.2.2.2.2.2.2.2⟩
  case dexOperatorOwner => exact acc_opt acc_v32
  case executeFail => exact acc_pair acc_r1 acc_str
  case feedCoinPairs => exact acc_set (acc_pair acc_str acc_str)
  case medianPrices => exact acc_map (acc_pair (acc_pair acc_str acc_str) (acc_pair acc_v64 acc_v32))
  case governors => exact acc_set acc_reg
  case proposals => exact fun v hv => ⟨(prop_range v).2 hv.1, (prop_safe v).2 hv.2⟩
  case approvals => exact acc_list acc_reg
  case cdpInterest => exact acc_map (acc_pair acc_height (acc_pair acc_v64 acc_v64))
  case newTotalBps => exact acc_pair acc_v32 acc_r1
  case txReceipt => exact acc_list acc_receipt
  case blockReceipt => exact acc_list acc_receipt
  case utxoProof => exact acc_hash 32
  case blockUndo =>
    exact acc_list (acc_pair (acc_hash 32) (acc_map (acc_pair acc_str (acc_list (acc_pair acc_str acc_str)))))
  case blockFileInfo =>
    exact acc_pair acc_v32 (acc_pair acc_v32 (acc_pair acc_v32 (acc_pair acc_v32 (acc_pair acc_v32 (acc_pair acc_v64 acc_v64)))))
  all_goals exact fun v hv => ⟨hv, trivial⟩

/-- Every record of every table that is written can be read back unchanged. -/
theorem stored_roundtrip (t : Table) (v : t.V) (h : Storable t v) :
    ∃ bs, t.fmt.enc v = some bs ∧ bs.length = t.fmt.size v ∧ (∀ b ∈ bs, b < 256) ∧
      ∀ rest, t.fmt.dec (bs ++ rest) = some (v, rest) := by
  obtain ⟨h1, h2⟩ := storable_accepted t v h
  obtain ⟨bs, e, hb, hl, hr⟩ := Lawful.good (f := t.fmt) v h1 h2
  exact ⟨bs, e, hl, hb, hr⟩

/-- Two records that differ are stored differently. -/
theorem stored_injective (t : Table) (v w : t.V) (h : Storable t v) (k : Storable t w) (e : t.fmt.enc v = t.fmt.enc w) :
    v = w := by
  obtain ⟨bs, e1, _, _, r1⟩ := stored_roundtrip t v h
  obtain ⟨cs, e2, _, _, r2⟩ := stored_roundtrip t w k
  rw [e1, e2, Option.some.injEq] at e
  have a := r1 []
  rw [e, r2] at a
  exact ((Prod.mk.inj (Option.some.inj a)).1).symm

/-- The limit on texts is sharp: a longer text is written but cannot be read. -/
theorem text_limit_sharp (s : Str) (h1 : MAX_STRING < s.length) (h2 : s.length ≤ MAX_SIZE) :
    ∃ bs, Table.contractTraces.fmt.enc s = some bs ∧ Table.contractTraces.fmt.dec bs = none := by
  refine ⟨_, rfl, ?_⟩
  show (readCompactSize (writeCompactSize s.length ++ s)).bind _ = none
  obtain ⟨_, _, rt⟩ := compact_bytes s.length h2
  rw [rt]
  simp only [Option.bind_some]
  rw [if_pos h1]

/-- So is the sign of heights: -127 would be stored as 1. -/
example : Table.cdpInterest.fmt.enc [((-127 : Int), 5, 6)] = Table.cdpInterest.fmt.enc [((1 : Int), 5, 6)] := by decide +kernel

def exAccount : Account := (List.replicate 20 7, ⟨10, 2⟩, .valid (2 :: List.replicate 32 9), .invalid,
  [([87, 71], 1, 2, 3, 4, 5), ([87, 73], 100, 0, 0, 0, 0)], 0, 12, 0, 63)

example : Storable .keyidAccount exAccount ∧
    Table.keyidAccount.fmt.enc exAccount = some (List.replicate 20 7 ++ [10, 2, 33, 2] ++ List.replicate 32 9 ++
      [0, 2, 2, 87, 71, 1, 2, 3, 4, 5, 2, 87, 73, 100, 0, 0, 0, 0, 0, 12, 0, 63]) := by
  have hr : ∀ k n, n < 256 → Hash k (List.replicate k n) := by
    intro k n hn; exact ⟨by simp, fun b hb => by rw [List.eq_of_mem_replicate hb]; exact hn⟩
  refine ⟨⟨hr 20 7 (by decide), ⟨by decide, by decide⟩, ⟨⟨by simp, ?_⟩, Or.inl rfl⟩, trivial, ⟨by decide, ?_⟩, ?_,
    by unfold U64'; decide, by unfold U64'; decide, by unfold U64'; decide, by unfold U64'; decide⟩, by decide +kernel⟩
  · intro b hb
    rcases List.mem_cons.1 hb with rfl | hb
    · decide
    · rw [List.eq_of_mem_replicate hb]; decide
  · unfold Text U64'; decide
  · unfold SortedBy strLt; decide

end Verif.Wire
