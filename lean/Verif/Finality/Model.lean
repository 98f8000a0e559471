import Verif.Chain.Lemmas

/-!
# Block finality

Models `CPBFTMan` and the functions around it (src/miner/pbftmanager.cpp 21-472), `CPBFTMessageMan::SaveMessageByBlock`,
`GetMessagesByBlockHash`, `CPBFTContext::SaveMinersByHash`, `GetMinerListByBlockHash` (src/miner/pbftcontext.h 62-88,
pbftcontext.cpp 13-37), `operator<(CPBFTMessage)` (src/p2p/protocol.cpp 184-190), `ProcessBlockConfirmMessage`,
`ProcessBlockFinalityMessage` (src/p2p/chainmessage.cpp 816-894), `ActivateBestChain` with `ConnectBlockOnFinChain`
(src/main.cpp 1486-1588) and the end of `AcceptBlock` (main.cpp 1959-1986).

* Blocks are the pointers of `Verif.Chain`; a hash identifies a block. The tree `t` holds every block that ever appears. The
  active chain is given by its tip (`set_tip_right` of Verif.Chain shows that the view is the list of ancestors).
* The candidate chosen by `FindMostWorkChain`, the number of blocks that connect or disconnect before an error, the kind of
  error, the clock test for the local final block and the signature checks are arbitrary inputs.
* Message and miner-list stores are partial functions; `forget` drops any entry (the eviction of the bounded containers).
* Events happen one after the other: the code calls `UpdateGlobalFinBlock` for messages without holding `cs_main`.
* A restart keeps the tip and the stored final block (clean shutdown) and loses the rest.
-/
namespace Verif.Finality
open Verif.Chain

/-- `CPBFTMessage`: `pre` is `preBlockHash`. -/
structure Msg where
  miner : Nat
  height : Nat
  block : Ptr
  pre : Ptr
  deriving DecidableEq

structure St where
  tip : Ptr
  /-- `localFinIndex`. -/
  loc : Option Ptr
  /-- `globalFinIndex`. -/
  glob : Option Ptr
  /-- `globalFinHash`. -/
  cache : Option Ptr
  /-- The final block written by `WriteGlobalFinBlock`. -/
  stored : Option Ptr
  /-- `confirmMessageMan`, `finalityMessageMan`: messages by block. -/
  confirms : Ptr → Option (List Msg)
  finals : Ptr → Option (List Msg)
  /-- `blockMinerListMap`. -/
  lists : Ptr → Option (List Nat)

variable (t : Tree)

/-- `chainActive[h]`. -/
def St.at (s : St) (h : Nat) : Option Ptr := ancestorAt t s.tip h

/-- `Contains` for the chain ending in `p`. -/
def onChain (p b : Ptr) : Bool := ancestorAt t p (t.height b) == some b

/-- `GetLocalFinIndex`, `GetGlobalFinIndex`. -/
def St.locFin (s : St) : Option Ptr := match s.loc with | some b => some b | none => s.at t 0
def St.globFin (s : St) : Option Ptr := match s.glob with | some b => some b | none => s.at t 0

/-- `GetGlobalFinBlockHash`. -/
def St.globHash (s : St) : Option Ptr × St :=
  match s.glob with
  | some b => (some b, s)
  | none =>
    match s.cache with
    | some b => (some b, s)
    | none =>
      match s.stored with
      | some b => (some b, { s with cache := some b })
      | none =>
        match s.at t 0 with
        | some g => (some g, { s with cache := some g })
        | none => (none, s)

/-- `GetFinalBlockMinerCount`; `dels` are the active delegates. -/
def need (s : St) (dels : List Nat) (pre : Ptr) : Nat :=
  match s.lists pre with
  | some l => l.length - l.length / 3
  | none => dels.length - dels.length / 3

/-- `UpdateLocalFinBlock(height)`. -/
def updLocal (s : St) (h : Nat) : Option St :=
  match s.locFin t with
  | none => none
  | some old =>
    if t.height old ≥ h then none
    else
      match s.at t h with
      | none => none
      | some b => some { s with loc := some b }

/-- `UpdateGlobalFinBlock(height)`. -/
def updGlobal (s : St) (h : Nat) : Option St :=
  match s.locFin t, s.globFin t with
  | some l, some old =>
    if h > t.height l then none
    else if t.height old ≥ h then none
    else if s.at t (t.height old) ≠ none ∧ s.at t (t.height old) ≠ some old then none
    else
      match s.at t h with
      | none => none
      | some b => some { s with glob := some b, cache := some b, stored := some b }
  | _, _ => none

/-- The counting loop: true as soon as `n` messages of miners in the list are seen. -/
def reaches (n : Nat) (miners : List Nat) : Nat → List Msg → Bool
  | _, [] => false
  | c, m :: ms =>
    let c' := if m.miner ∈ miners then c + 1 else c
    if c' ≥ n then true else reaches n miners c' ms

/-- The test of one block against its stored messages. -/
def enough (store : Ptr → Option (List Msg)) (lists : Ptr → Option (List Nat)) (n : Nat) (b : Ptr) : Bool :=
  match t.prev b with
  | none => false
  | some p =>
    match store b, lists p with
    | some ms, some miners => decide (ms.length ≥ n) && reaches n miners 0 ms
    | _, _ => false

/-- `UpdateLocalFinBlock(pIndex)`: scan from height `h` down, at most 9 below the tip. -/
def scanLocal (s : St) (n top : Nat) : Nat → Option St
  | 0 => none
  | h + 1 =>
    match s.locFin t with
    | none => none
    | some l =>
      if h + 1 > t.height l ∧ h + 1 + 10 > top then
        match s.at t (h + 1) with
        | none => none
        | some b => if enough t s.confirms s.lists n b then updLocal t s (h + 1) else scanLocal s n top h
      else none

/-- `UpdateGlobalFinBlock(pIndex)`: at most 49 below the tip. -/
def scanGlobal (s : St) (n top : Nat) : Nat → Option St
  | 0 => none
  | h + 1 =>
    match s.globFin t with
    | none => none
    | some g =>
      if h + 1 > t.height g ∧ h + 1 + 50 > top then
        match s.at t (h + 1) with
        | none => none
        | some b => if enough t s.finals s.lists n b then updGlobal t s (h + 1) else scanGlobal s n top h
      else none

def updLocalIdx (s : St) (dels : List Nat) (p : Ptr) : Option St :=
  if t.height p = 0 then none
  else
    match t.prev p with
    | none => none
    | some q => scanLocal t s (need s dels q) (t.height p) (t.height p)

def updGlobalIdx (s : St) (dels : List Nat) (p : Ptr) : Option St :=
  if t.height p = 0 then none
  else
    match t.prev p with
    | none => none
    | some q => scanGlobal t s (need s dels q) (t.height p) (t.height p)

/-- `UpdateLocalFinBlock(msg, messageCount)`. -/
def updLocalMsg (s : St) (dels : List Nat) (m : Msg) (count : Nat) : Option St :=
  let n := need s dels m.pre
  if n > count then none
  else
    match s.locFin t with
    | none => none
    | some l =>
      if t.height l ≥ m.height then none
      else
        match s.at t m.height with
        | none => none
        | some b => if b ≠ m.block then none else if enough t s.confirms s.lists n b then updLocal t s (t.height b) else none

/-- `UpdateGlobalFinBlock(msg, messageCount)`. -/
def updGlobalMsg (s : St) (dels : List Nat) (m : Msg) (count : Nat) : Option St :=
  let n := need s dels m.pre
  if n > count then none
  else
    match s.globFin t with
    | none => none
    | some g =>
      if t.height g ≥ m.height then none
      else
        match s.at t m.height with
        | none => none
        | some b => if b ≠ m.block then none else if enough t s.finals s.lists n b then updGlobal t s (t.height b) else none

/-- Messages that compare equal under `operator<`. -/
def same (a b : Msg) : Bool := a.height == b.height && a.miner == b.miner && a.block == b.block

/-- `SaveMessageByBlock`: the store and the number of messages of the block. -/
def save (store : Ptr → Option (List Msg)) (b : Ptr) (m : Msg) : (Ptr → Option (List Msg)) × Nat :=
  match store b with
  | none => (fun x => if x = b then some [m] else store x, 1)
  | some ms =>
    let ms' := if ms.any (same m) then ms else m :: ms
    (fun x => if x = b then some ms' else store x, ms'.length)

/-- The sending loop of `BroadcastBlockConfirm` and `BroadcastBlockFinality`: messages of the delegates whose keys are held. -/
def saveOwn (b p : Ptr) (h : Nat) : List Nat → (Ptr → Option (List Msg)) → (Ptr → Option (List Msg))
  | [], store => store
  | d :: ds, store => saveOwn b p h ds (save store b ⟨d, h, b, p⟩).1

/-- `BroadcastBlockConfirm`; `own = none` when sending is off or the block was sent before. -/
def sendConfirm (s : St) (own : Option (List Nat)) (b : Ptr) : St :=
  match own, t.prev b with
  | some o, some p => { s with confirms := saveOwn b p (t.height b) (((s.lists p).getD []).filter (· ∈ o)) s.confirms }
  | _, _ => s

/-- `BroadcastBlockFinality`. -/
def sendFinality (s : St) (own : Option (List Nat)) (b : Ptr) : St :=
  match own, t.prev b with
  | some o, some p => { s with finals := saveOwn b p (t.height b) (((s.lists p).getD []).filter (· ∈ o)) s.finals }
  | _, _ => s

/-- `CheckPBFTMessage`, without the type; the subtraction is unsigned with 32 bits. -/
def checkMsg (s : St) (m : Msg) (sigOK : Bool) : Bool :=
  if (m.height + 4294967296 - t.height s.tip) % 4294967296 > 500 then false
  else if (match s.locFin t with | some l => decide (m.height < t.height l) | none => false) then false
  else if s.at t m.height ≠ some m.block then false
  else sigOK

/-- `ProcessBlockConfirmMessage` after the duplicate test. -/
def onConfirm (s : St) (dels : List Nat) (own : Option (List Nat)) (m : Msg) (sigOK : Bool) : St :=
  if checkMsg t s m sigOK then
    let r := save s.confirms m.block m
    let s1 := { s with confirms := r.1 }
    match updLocalMsg t s1 dels m r.2 with
    | none => s1
    | some s2 => match s2.locFin t with
      | some l => sendFinality t s2 own l
      | none => s2
  else s

/-- `ProcessBlockFinalityMessage` after the duplicate test. -/
def onFinality (s : St) (dels : List Nat) (m : Msg) (sigOK : Bool) : St :=
  if checkMsg t s m sigOK then
    let r := save s.finals m.block m
    let s1 := { s with finals := r.1 }
    (updGlobalMsg t s1 dels m r.2).getD s1
  else s

/-! ## ActivateBestChain -/

inductive Verdict
  | proceed
  | protect
  | done
  deriving DecidableEq

/-- The walk down the active chain; the first argument is the height plus one. -/
def guardWalk (most : Ptr) (stale : Bool) : Nat → St → Verdict × St
  | 0, s => (.proceed, s)
  | h + 1, s =>
    match s.at t h with
    | none => (.done, s)
    | some c =>
      if onChain t most c then (.proceed, s)
      else if s.locFin t = some c ∧ stale = false then (.protect, s)
      else
        let s1 := if s.locFin t = some c then { s with loc := s.at t 0 } else s
        let r := s1.globHash t
        if r.1 = some c then (.protect, r.2) else guardWalk most stale h r.2

/-- Disconnecting; `ok` disconnections succeed. The flag tells whether the loop ended. -/
def disconnect (most : Ptr) : Nat → Nat → Ptr → Bool × Ptr
  | 0, _, p => (false, p)
  | fuel + 1, ok, p =>
    if onChain t most p then (true, p)
    else
      match ok, t.prev p with
      | k + 1, some q => disconnect most fuel k q
      | _, _ => (false, p)

/-- Connecting towards `most`; `ok` connections succeed. -/
def connect (most : Ptr) : Nat → Ptr → Ptr
  | 0, p => p
  | k + 1, p =>
    if p = most then p
    else
      match ancestorAt t most (t.height p + 1) with
      | none => p
      | some q => connect most k q

/-- One round of the main loop. -/
structure Round where
  most : Ptr
  stale : Bool
  disc : Nat
  conn : Nat
  again : Bool

def setTipTo (s : St) (p : Ptr) : St := { s with tip := p }

/-- `ActivateBestChain` for the block `new`; `finOK` tells whether a block connects on the final chain. -/
def activate (new : Ptr) (finOK : Bool) : List Round → St → St
  | [], s => s
  | r :: rs, s =>
    match guardWalk t r.most r.stale (t.height s.tip + 1) s with
    | (.done, s1) => s1
    | (.protect, s1) => if t.prev new = some s1.tip ∧ finOK then setTipTo s1 new else s1
    | (.proceed, s1) =>
      let d := disconnect t r.most (t.height s1.tip + 1) r.disc s1.tip
      if d.1 then
        let s2 := setTipTo s1 (connect t r.most r.conn d.2)
        if r.again then activate new finOK rs s2 else s2
      else setTipTo s1 d.2

/-- Saving the miner list of the new tip (`insert` keeps an old entry). -/
def saveMiners (s : St) (b : Ptr) (dels : List Nat) : St :=
  match s.lists b with
  | some _ => s
  | none => { s with lists := fun x => if x = b then some dels else s.lists x }

/-- `AddToBlockIndex` and the end of `AcceptBlock` for the block `new`. -/
def accept (s : St) (new : Ptr) (finOK : Bool) (rounds : List Round) (dels : List Nat) (ownC ownF : Option (List Nat)) : St :=
  let s1 := activate t new finOK rounds s
  if s1.tip = new then
    let s2 := saveMiners s1 new dels
    let s3 := sendConfirm t s2 ownC new
    match updLocalIdx t s3 dels new with
    | none => s3
    | some s4 =>
      let s5 := sendFinality t s4 ownF new
      (updGlobalIdx t s5 dels new).getD s5
  else s1

inductive Ev
  | accept (new : Ptr) (finOK : Bool) (rounds : List Round) (dels : List Nat) (ownC ownF : Option (List Nat))
  | confirm (dels : List Nat) (own : Option (List Nat)) (m : Msg) (sigOK : Bool)
  | finality (dels : List Nat) (m : Msg) (sigOK : Bool)
  | forgetC (b : Ptr)
  | forgetF (b : Ptr)
  | forgetL (b : Ptr)
  | restart

def step (s : St) : Ev → St
  | .accept new finOK rounds dels ownC ownF => accept t s new finOK rounds dels ownC ownF
  | .confirm dels own m sigOK => onConfirm t s dels own m sigOK
  | .finality dels m sigOK => onFinality t s dels m sigOK
  | .forgetC b => { s with confirms := fun x => if x = b then none else s.confirms x }
  | .forgetF b => { s with finals := fun x => if x = b then none else s.finals x }
  | .forgetL b => { s with lists := fun x => if x = b then none else s.lists x }
  | .restart => ⟨s.tip, none, none, none, s.stored, fun _ => none, fun _ => none, fun _ => none⟩

def run : List Ev → St → St
  | [], s => s
  | e :: es, s => run es (step t s e)

/-- A node starting with the chain up to `p`. -/
def start (p : Ptr) : St := ⟨p, none, none, none, none, fun _ => none, fun _ => none, fun _ => none⟩

end Verif.Finality
