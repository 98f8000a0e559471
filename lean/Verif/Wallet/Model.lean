import Verif.Util.SMap

/-!
# The wallet: keys, encryption and passphrase

Code modelled (all under /repo/src):

* `CWallet::Unlock`, `ChangeWalletPassphrase`, `EncryptWallet`, `SetMinVersion`, `AddCryptedKey`, `LoadCryptedKey`, `AddKey`, `RemoveKey`,
  `DropMainKeysForColdMining` (wallet/wallet.cpp 35-106, 271-372, 529-618);
* `CCryptoKeyStore` (wallet/crypter.cpp 126-302, wallet/crypter.h 113-189), `EncryptSecret`, `DecryptSecret`, `SetKeyFromPassphrase`, `SetKey`
  (wallet/crypter.cpp 14-44, 104-124);
* `CBasicKeyStore`, `CKeyCombi` (entities/keystore.h 19-137, entities/keystore.cpp 69-160);
* `ReadKeyValue`, `CWalletDB::LoadWallet`, `WriteKeyStoreValue`, `WriteCryptedKey`, `WriteMasterKey` (wallet/walletdb.cpp 31-200, 276-330);
* the commands `walletpassphrase`, `walletlock`, `walletpassphrasechange`, `encryptwallet`, `getnewaddr`, `importprivkey`, `importwallet`,
  `dropprivkey`, `dropminermainkeys` as callers of these (rpc/rpcwallet.cpp 40-90, 499-690, rpc/rpcdump.cpp 84-273).

Conventions

* Secret keys, master keys and passphrases are byte lists. Public key, key derivation, encryption and decryption are functions given by
  `Crypto`; what is assumed of them stands in each theorem.
* A public key and its key id are one number: `RIPEMD160` after `SHA256` is taken to be without collisions. The initialisation vector of an
  encrypted secret is the hash of its public key, hence here the public key; that of the master key is part of the derived key.
* Records of the wallet file are `keystore`, `ckey`, `mkey` and `minversion`; transactions kept by the wallet are left out. Records are read in
  the order of their keys, in which the length of the name comes first, so every `ckey` is read before any `keystore`.
* `keystore` records are written in one of two formats, the old one if the wallet version is 0. `true` is the new one. Reading a record in the
  wrong format fails (in the code it may also give a wrong key).
* `WriteCryptedKey` reads back and purges the `keystore` record.
* An assertion ends the program; it then starts again from the file. Writing to the file succeeds. Each record is written at once or not at all;
  `EncryptWallet` writes all of them in one transaction.
* Decryption of a secret under a wrong key that gives 32 bytes outside the range of secret keys (probability 2^-128) would fail an assertion in
  `CCryptoKeyStore::Unlock`; here it is refused.
* The number of rounds of key derivation depends on clock readings and is a parameter.
-/
namespace Verif.Wallet

abbrev Bytes := List Nat

structure Crypto where
  /-- public key (and key id) of a secret key -/
  pub : Bytes → Nat
  /-- key from passphrase, salt and rounds -/
  kdf : Bytes → Bytes → Nat → Bytes
  /-- encryption and decryption by key and initialisation vector -/
  enc : Bytes → Nat → Bytes → Bytes
  dec : Bytes → Nat → Bytes → Option Bytes

/-- `CKeyCombi`: the keys of one address, if valid -/
structure Combi where
  main : Option Bytes
  miner : Option Bytes
  deriving DecidableEq

/-- `CMasterKey` -/
structure Master where
  ct : Bytes
  salt : Bytes
  rounds : Nat
  deriving DecidableEq

structure Disk where
  ks : List (Nat × Combi × Bool)
  ck : List (Nat × Bytes)
  mas : List (Nat × Master)
  /-- there is a `minversion` -/
  ver : Bool
  deriving DecidableEq

structure St where
  disk : Disk
  /-- `mapKeys`, `mapCryptedKeys`, `fUseCrypto`, `vMasterKey` -/
  keys : List (Nat × Combi)
  ck : List (Nat × Bytes)
  crypto : Bool
  master : Bytes
  mas : List (Nat × Master)
  mkMax : Nat
  /-- `nWalletVersion` is not 0 -/
  ver : Bool
  deriving DecidableEq

def lt (a b : Nat) : Bool := decide (a < b)

variable (C : Crypto)

/-- `SetKeyFromPassphrase` -/
def derive (pass salt : Bytes) (rounds : Nat) : Option Bytes :=
  if rounds < 1 ∨ salt.length ≠ 8 then none else some (C.kdf pass salt rounds)

/-- `EncryptSecret`, `DecryptSecret` -/
def encSecret (m : Bytes) (p : Nat) (s : Bytes) : Option Bytes := if m.length ≠ 32 then none else some (C.enc m p s)

def decSecret (m : Bytes) (p : Nat) (ct : Bytes) : Option Bytes := if m.length ≠ 32 then none else C.dec m p ct

/-- `PurgeMainKey` -/
def Combi.purge (c : Combi) : Combi := ⟨none, c.miner⟩

/-- The main key is not that of the address. -/
def badId (id : Nat) (c : Combi) : Bool := match c.main with
  | some x => decide (id ≠ C.pub x)
  | none => false

/-- `CBasicKeyStore::HasMainKey` -/
def hasMain (keys : List (Nat × Combi)) : Bool := keys.any fun p => p.2.main.isSome

/-- `SetCrypted` -/
def setCrypted (s : St) : Option St := if s.crypto then some s else if hasMain s.keys then none else some { s with crypto := true }

/-- `IsLocked` -/
def locked (s : St) : Bool := s.crypto && s.master.isEmpty

/-- `CCryptoKeyStore::Lock` -/
def lock (s : St) : St := match setCrypted s with
  | none => s
  | some s1 => { s1 with master := [] }

/-- The test of `CCryptoKeyStore::Unlock`: it looks at the first key only. -/
def opens (m : Bytes) : List (Nat × Bytes) → Bool
  | [] => true
  | (p, ct) :: _ => match decSecret C m p ct with
    | none => false
    | some x => decide (x.length = 32) && decide (C.pub x = p)

/-- `CCryptoKeyStore::Unlock` -/
def storeUnlock (s : St) (m : Bytes) : Option St := match setCrypted s with
  | none => none
  | some s1 => if opens C m s1.ck then some { s1 with master := m } else none

/-- The loop of `CWallet::Unlock` -/
def tryUnlock (pass : Bytes) (s : St) : List (Nat × Master) → Option St
  | [] => none
  | (_, k) :: ks => match derive C pass k.salt k.rounds with
    | none => none
    | some key => match C.dec key 0 k.ct with
      | none => tryUnlock pass s ks
      | some m => match storeUnlock C s m with
        | some s1 => some s1
        | none => tryUnlock pass s ks

def unlock (pass : Bytes) (s : St) : Option St := tryUnlock C pass s s.mas

/-- `WriteCryptedKey` -/
def writeCrypted (d : Disk) (p : Nat) (ct : Bytes) : Disk :=
  let d1 := { d with ck := put lt d.ck p ct }
  match find d1.ks p with
  | none => d1
  | some (c, f) => if f = d1.ver then { d1 with ks := put lt d1.ks p (c.purge, true) } else d1

inductive Out
  | yes
  | no
  | died
  | corrupt
  deriving DecidableEq

/-- `AddKey(keyId, keyCombi)`; the memory is not of interest if the program dies. -/
def addKey (s : St) (id : Nat) (c : Combi) : St × Out :=
  if badId C id c then (s, .no)
  else
    let s1 := { s with disk := { s.disk with ks := put lt s.disk.ks id (c, s.ver) } }
    if !s1.crypto then ({ s1 with keys := put lt s1.keys id c }, .yes)
    else if locked s1 then (s1, .no)
    else match c.main with
      | none => (s1, .died)
      | some x =>
        let s2 := { s1 with keys := put lt s1.keys id c }
        match encSecret C s.master (C.pub x) x with
        | none => (s2, .no)
        | some ct => ({ s2 with ck := put lt s2.ck (C.pub x) ct, disk := writeCrypted s2.disk (C.pub x) ct }, .yes)

/-- The file if the program ends within `AddKey`, after one or two of its writes -/
def addCut (s : St) (id : Nat) (c : Combi) (n : Nat) : Disk :=
  if badId C id c || n = 0 then s.disk
  else
    let d1 := { s.disk with ks := put lt s.disk.ks id (c, s.ver) }
    if !s.crypto || locked s || n = 1 then d1
    else match c.main with
      | none => d1
      | some x => match encSecret C s.master (C.pub x) x with
        | none => d1
        | some ct => { d1 with ck := put lt d1.ck (C.pub x) ct }

/-- The loop of `EncryptKeys`: encrypted keys and file. `none`: an assertion fails or an error is returned (then `EncryptWallet` asserts) -/
def encryptKeys (m : Bytes) : List (Nat × Combi) → List (Nat × Bytes) × Disk → Option (List (Nat × Bytes) × Disk)
  | [], r => some r
  | (_, c) :: ks, (ck, d) => match c.main with
    | none => none
    | some x => match encSecret C m (C.pub x) x with
      | none => none
      | some ct => encryptKeys m ks (put lt ck (C.pub x) ct, writeCrypted d (C.pub x) ct)

/-- `EncryptWallet` with master key `m` and `salt` just drawn -/
def encryptWallet (s : St) (pass m salt : Bytes) (rounds : Nat) : St × Out :=
  if s.crypto then (s, .no)
  else
    let r := if rounds < 25000 then 25000 else rounds
    match derive C pass salt r with
    | none => (s, .no)
    | some key =>
      let k : Master := ⟨C.enc key 0 m, salt, r⟩
      let id := s.mkMax + 1
      let d0 := { s.disk with mas := s.disk.mas ++ [(id, k)] }
      if !s.ck.isEmpty then (s, .died)
      else match encryptKeys C m s.keys (s.ck, d0) with
        | none => (s, .died)
        | some (ck, d) =>
          let s1 : St :=
            { disk := { d with ver := true }
              keys := s.keys.map fun p => (p.1, p.2.purge)
              ck := ck
              crypto := true
              master := s.master
              mas := s.mas ++ [(id, k)]
              mkMax := id
              ver := true }
          -- locked, unlocked for a test, locked
          let s2 := lock s1
          let s3 := (unlock C pass s2).getD s2
          (lock s3, .yes)

/-- Replace the master key with number `id`. -/
def setMaster (l : List (Nat × Master)) (id : Nat) (k : Master) : List (Nat × Master) := l.map fun p => if p.1 = id then (id, k) else p

/-- The loop of `ChangeWalletPassphrase` -/
def tryChange (old new : Bytes) (rounds : Nat) (was : Bool) (s : St) : List (Nat × Master) → St × Out
  | [] => (s, .no)
  | (id, k) :: ks => match derive C old k.salt k.rounds with
    | none => (s, .no)
    | some key => match C.dec key 0 k.ct with
      | none => (s, .no)
      | some m => match storeUnlock C s m with
        | none => tryChange old new rounds was s ks
        | some s1 =>
          let r := if rounds < 25000 then 25000 else rounds
          match derive C new k.salt r with
          | none => (s1, .no)
          | some key' =>
            let k' : Master := ⟨C.enc key' 0 m, k.salt, r⟩
            let s2 := { s1 with mas := setMaster s1.mas id k', disk := { s1.disk with mas := setMaster s1.disk.mas id k' } }
            (if was then lock s2 else s2, .yes)

def changePass (s : St) (old new : Bytes) (rounds : Nat) : St × Out := tryChange C old new rounds (locked s) (lock s) s.mas

/-- `RemoveKey` -/
def removeKey (s : St) (x : Bytes) : St × Out :=
  if s.crypto then (s, .no)
  else ({ s with disk := { s.disk with ks := del s.disk.ks (C.pub x) }, keys := del s.keys (C.pub x) }, .yes)

/-- `DropMainKeysForColdMining` -/
def dropMain (s : St) : St :=
  { s with
    keys := s.keys.map fun p => (p.1, p.2.purge)
    disk := { s.disk with ks := s.keys.foldl (fun ks p => put lt ks p.1 (p.2.purge, s.ver)) s.disk.ks } }

/-- The `keystore` records -/
def loadKeys (ver : Bool) : List (Nat × Combi × Bool) → Option (List (Nat × Combi))
  | [] => some []
  | (id, c, f) :: ks =>
    if f ≠ ver ∨ badId C id c = true then none
    else (loadKeys ver ks).map fun l => (id, c) :: l

/-- `LoadWallet`; `fresh` is the key made for an empty wallet. -/
def load (d : Disk) (fresh : Bytes) : Option St :=
  match loadKeys C d.ver d.ks with
  | none => none
  | some keys =>
    let s : St := ⟨d, keys, d.ck, !d.ck.isEmpty, [], d.mas, (d.mas.map Prod.fst).foldr max 0, d.ver⟩
    if s.keys.isEmpty && s.ck.isEmpty then some (addKey C s (C.pub fresh) ⟨some fresh, none⟩).1
    else some s

/-- `CCryptoKeyStore::GetKey` -/
def getKey (s : St) (id : Nat) (miner : Bool) : Option Bytes :=
  if miner then (find s.keys id).bind Combi.miner
  else if !s.crypto then (find s.keys id).bind Combi.main
  else match find s.ck id with
    | none => none
    | some ct => match decSecret C s.master id ct with
      | none => none
      | some x => if x.length = 32 then some x else none

/-- `IsReadyForColdMining`; `reg`: the accounts with a registration id -/
def ready (s : St) (reg : Nat → Bool) : Bool := s.keys.any fun p => p.2.miner.isSome && reg p.1

inductive Op
  /-- `getnewaddr`, `importprivkey`, `importwallet` -/
  | add (id : Nat) (c : Combi)
  /-- the same, with the wallet locked by the timer of `walletpassphrase` between `EnsureWalletIsUnlocked` and `AddKey` -/
  | late (id : Nat) (c : Combi)
  | encrypt (pass m salt : Bytes) (rounds : Nat)
  | lock
  | unlock (pass : Bytes)
  | change (old new : Bytes) (rounds : Nat)
  | remove (x : Bytes)
  | drop (reg : Nat → Bool)
  | restart
  /-- the program ends within `AddKey` -/
  | cut (id : Nat) (c : Combi) (n : Nat)

/-- Start from the file `d`. -/
def start (s : St) (d : Disk) (fresh : Bytes) (o : Out) : St × Out := match load C d fresh with
  | none => (s, .corrupt)
  | some s' => (s', o)

/-- `AddKey`; if the program dies it is started again. -/
def addStep (fresh : Bytes) (s : St) (id : Nat) (c : Combi) : St × Out := match addKey C s id c with
  | (s1, .died) => start C s s1.disk fresh .died
  | r => r

/-- The commands to lock, unlock and change the passphrase refuse unencrypted wallets and empty passphrases, those that use keys refuse locked
wallets (`EnsureWalletIsUnlocked`). -/
def step (fresh : Bytes) (s : St) : Op → St × Out
  | .add id c => if locked s then (s, .no) else addStep C fresh s id c
  | .late id c => if !s.crypto || locked s then (s, .no) else addStep C fresh (lock s) id c
  | .encrypt pass m salt rounds =>
    if pass = [] then (s, .no)
    else match encryptWallet C s pass m salt rounds with
      | (s1, .died) => start C s s1.disk fresh .died
      | r => r
  | .lock => if s.crypto then (lock s, .yes) else (s, .no)
  | .unlock pass =>
    if !s.crypto || pass = [] then (s, .no)
    else match unlock C pass s with
      | some s1 => (s1, .yes)
      | none => (s, .no)
  | .change old new rounds => if !s.crypto || old = [] || new = [] then (s, .no) else changePass C s old new rounds
  | .remove x => if locked s then (s, .no) else removeKey C s x
  | .drop reg => if locked s || !ready s reg then (s, .no) else (dropMain s, .yes)
  | .restart => start C s s.disk fresh .yes
  | .cut id c n => if locked s then (s, .no) else start C s (addCut C s id c n) fresh .yes

/-- A new wallet -/
def init (fresh : Bytes) : St :=
  ⟨⟨[(C.pub fresh, ⟨some fresh, none⟩, false)], [], [], false⟩, [(C.pub fresh, ⟨some fresh, none⟩)], [], false, [], [], 0, false⟩

end Verif.Wallet
