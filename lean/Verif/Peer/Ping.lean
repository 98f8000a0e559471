import Mathlib.Order.Defs.LinearOrder
import Mathlib.Data.Int.Order.Basic

/-!
# Pings

Models the first part of `SendMessages` (src/p2p/sendmessage.hpp 29-68), `ProcessPongMessage` (src/p2p/chainmessage.cpp 348-397), the flag set by the
command `ping` (src/rpc/rpcnet.cpp 185) and the check for a ping without answer (src/net.cpp 759-763). Times are microseconds. The other reasons
for a disconnection are not modelled; the check is the one reached when none of them applies. Nonces are chosen by the caller, not 0 (the loop in
`SendMessages`).
-/
namespace Verif.Peer

structure Ping where
  sent : Nat := 0           -- nPingNonceSent
  start : Int := 0          -- nPingUsecStart
  time : Int := 0           -- nPingUsecTime
  queued : Bool := false    -- fPingQueued
  closed : Bool := false    -- fDisconnect
  deriving DecidableEq, Repr

/-- `PING_INTERVAL`, `TIMEOUT_INTERVAL` (src/net.h 35, 37) -/
def pingInterval : Int := 2 * 60 * 1000000
def timeoutInterval : Int := 20 * 60 * 1000000

/-- `pingSend` -/
def pingDue (s : Ping) (now : Int) : Bool := s.queued || (s.sent == 0 && decide (s.start + pingInterval < now))

/-- `SendMessages`: the new state and the ping sent, if any -/
def sendPing (s : Ping) (now : Int) (nonce : Nat) : Ping × Option Nat :=
  if pingDue s now then ({ s with sent := nonce, queued := false, start := now }, some nonce) else (s, none)

/-- `ProcessPongMessage`; a short payload is `none`. -/
def pong (s : Ping) (now : Int) (nonce : Option Nat) : Ping :=
  match nonce with
  | none => { s with sent := 0 }
  | some n =>
    if s.sent ≠ 0 then
      if n = s.sent then
        if 0 < now - s.start then { s with sent := 0, time := now - s.start } else { s with sent := 0 }
      else if n = 0 then { s with sent := 0 }
      else s
    else s

/-- The check for a ping without answer -/
def checkPing (s : Ping) (now : Int) : Ping := if s.sent ≠ 0 ∧ s.start + timeoutInterval < now then { s with closed := true } else s

/-- What happens to a connection -/
inductive Step where
  | send (now : Int) (nonce : Nat)
  | pong (now : Int) (nonce : Option Nat)
  | request
  | check (now : Int)

def stepPing (s : Ping) : Step → Ping
  | .send now nonce => (sendPing s now nonce).1
  | .pong now nonce => pong s now nonce
  | .request => { s with queued := true }
  | .check now => checkPing s now

def runPing (s : Ping) (l : List Step) : Ping := l.foldl stepPing s

end Verif.Peer
