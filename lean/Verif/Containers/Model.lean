import Mathlib.Data.List.Basic
import Mathlib.Data.List.Perm.Basic

/-!
# Bounded containers

Models `mruset` (src/commons/mruset.h 15-67), `limitedmap` (src/commons/limitedmap.h 13-96) and `CFIFOLimitmap`
(src/miner/pbftlimitmap.h 13-75).

* `std::set` and `std::map` are lists without duplicate keys; only membership, look-up and size are observed. The `multimap` of
  `limitedmap` is a list ordered by value, equal values in insertion order, holding keys in place of iterators.
* `assert(0)`, erasing `begin()` of an empty container and `vKeys[0]` of an empty vector are the outcome `none`.
* Uninitialised limits are outside: the default constructors are followed by `max_size(s)` in every user.
-/
namespace Verif.Containers

/-! ## mruset -/

structure Mru (T : Type) where
  set : List T
  queue : List T
  max : Nat

variable {T K V : Type} [DecidableEq T] [DecidableEq K]

/-- `mruset::insert` (mruset.h 40-53), with the returned flag. -/
def Mru.insert (s : Mru T) (x : T) : Mru T × Bool :=
  if x ∈ s.set then (s, false)
  else
    let set1 := x :: s.set
    if s.max ≠ 0 ∧ s.queue.length = s.max then
      match s.queue with
      | f :: q => (⟨set1.filter (· ≠ f), q ++ [x], s.max⟩, true)
      | [] => (⟨set1, [x], s.max⟩, true)
    else (⟨set1, s.queue ++ [x], s.max⟩, true)

/-- The loop of `max_size(s)`. -/
def Mru.trim (n : Nat) : List T → List T → List T × List T
  | set, [] => (set, [])
  | set, f :: q => if (f :: q).length > n then Mru.trim n (set.filter (· ≠ f)) q else (set, f :: q)

/-- `mruset::max_size(s)` (mruset.h 55-65). -/
def Mru.resize (s : Mru T) (n : Nat) : Mru T :=
  if n ≠ 0 then
    let r := Mru.trim n s.set s.queue
    ⟨r.1, r.2, n⟩
  else ⟨s.set, s.queue, n⟩

/-- `mruset::clear`. -/
def Mru.clear (s : Mru T) : Mru T := ⟨[], [], s.max⟩

/-- Operations on an `mruset`. -/
inductive MruOp (T : Type) where
  | insert (x : T)
  | clear
  | resize (n : Nat)

def Mru.step (s : Mru T) : MruOp T → Mru T
  | .insert x => (s.insert x).1
  | .clear => s.clear
  | .resize n => s.resize n

/-! ## CFIFOLimitmap -/

/-- `map.find`. -/
def find (l : List (K × V)) (k : K) : Option V := (l.find? (fun e => e.1 = k)).map (·.2)

/-- `map.erase(key)`. -/
def del (l : List (K × V)) (k : K) : List (K × V) := l.filter (fun e => e.1 ≠ k)

/-- Assignment through an iterator. -/
def setVal (l : List (K × V)) (k : K) (v : V) : List (K × V) := l.map (fun e => if e.1 = k then (e.1, v) else e)

structure Fifo (K V : Type) where
  map : List (K × V)
  keys : List K
  max : Nat
  deriving DecidableEq

/-- `eraseFirst` (pbftlimitmap.h 53-57). -/
def Fifo.eraseFirst (s : Fifo K V) : Option (Fifo K V) :=
  match s.keys with
  | [] => none
  | k :: ks => some ⟨del s.map k, ks, s.max⟩

/-- `CFIFOLimitmap::insert` (pbftlimitmap.h 40-51). -/
def Fifo.insert (s : Fifo K V) (k : K) (v : V) : Option (Fifo K V) :=
  let s1 : Fifo K V := if (find s.map k).isSome then s else ⟨(k, v) :: s.map, s.keys ++ [k], s.max⟩
  if s1.map.length > s1.max then s1.eraseFirst else some s1

/-- `CFIFOLimitmap::update` at `find(k)` (pbftlimitmap.h 59-63). -/
def Fifo.update (s : Fifo K V) (k : K) (v : V) : Fifo K V := { s with map := setVal s.map k v }

/-- The loop of `max_size(s)`; one round per element suffices. -/
def Fifo.trim (n : Nat) : Nat → Fifo K V → Option (Fifo K V)
  | 0, s => some s
  | fuel + 1, s => if s.map.length > n then (s.eraseFirst).bind (Fifo.trim n fuel) else some s

/-- `CFIFOLimitmap::max_size(s)` (pbftlimitmap.h 67-74). -/
def Fifo.resize (s : Fifo K V) (n : Nat) : Option (Fifo K V) :=
  if n = 0 then none
  else (Fifo.trim n s.map.length s).map (fun s' => { s' with max := n })

/-- `operator[]` (pbftlimitmap.h 32): the map after the call, with default value `d`. -/
def Fifo.index (d : V) (s : Fifo K V) (k : K) : Fifo K V :=
  if (find s.map k).isSome then s else { s with map := (k, d) :: s.map }

inductive MapOp (K V : Type) where
  | insert (k : K) (v : V)
  | update (k : K) (v : V)
  | resize (n : Nat)
  | erase (k : K)

/-- One operation on a `CFIFOLimitmap` (which has no `erase`). -/
def Fifo.step (s : Fifo K V) : MapOp K V → Option (Fifo K V)
  | .insert k v => s.insert k v
  | .update k v => some (s.update k v)
  | .resize n => s.resize n
  | .erase _ => some s

/-! ## limitedmap -/

structure Lim (K : Type) where
  map : List (K × Int)
  rmap : List (Int × K)
  max : Nat
  deriving DecidableEq

/-- `multimap::insert`: behind all elements with the same value. -/
def rput (v : Int) (k : K) : List (Int × K) → List (Int × K)
  | [] => [(v, k)]
  | (w, j) :: l => if v < w then (v, k) :: (w, j) :: l else (w, j) :: rput v k l

/-- Erasing `rmap.begin()` with its map element. -/
def Lim.eraseLowest (s : Lim K) : Option (Lim K) :=
  match s.rmap with
  | [] => none
  | (_, k) :: r => some ⟨del s.map k, r, s.max⟩

/-- `limitedmap::insert` (limitedmap.h 44-53). -/
def Lim.insert (s : Lim K) (k : K) (v : Int) : Option (Lim K) :=
  if (find s.map k).isSome then some s
  else
    let s1 : Lim K := { s with map := (k, v) :: s.map }
    (if s1.map.length > s1.max then s1.eraseLowest else some s1).map
      (fun s2 => { s2 with rmap := rput v k s2.rmap })

/-- `limitedmap::erase` (limitedmap.h 54-66): the entry must be found among the equal values of the multimap. -/
def Lim.erase (s : Lim K) (k : K) : Option (Lim K) :=
  match find s.map k with
  | none => some s
  | some v => if (v, k) ∈ s.rmap then some ⟨del s.map k, s.rmap.erase (v, k), s.max⟩ else none

/-- `limitedmap::update` at `find(k)` (limitedmap.h 67-86). -/
def Lim.update (s : Lim K) (k : K) (v : Int) : Option (Lim K) :=
  match find s.map k with
  | none => some s
  | some w =>
    if (w, k) ∈ s.rmap then some ⟨setVal s.map k v, rput v k (s.rmap.erase (w, k)), s.max⟩ else none

def Lim.trim (n : Nat) : Nat → Lim K → Option (Lim K)
  | 0, s => some s
  | fuel + 1, s => if s.map.length > n then (s.eraseLowest).bind (Lim.trim n fuel) else some s

/-- `limitedmap::max_size(s)` (limitedmap.h 88-96). -/
def Lim.resize (s : Lim K) (n : Nat) : Option (Lim K) :=
  if n = 0 then none
  else (Lim.trim n s.map.length s).map (fun s' => { s' with max := n })

/-- `operator[]` (limitedmap.h 37). -/
def Lim.index (s : Lim K) (k : K) : Lim K :=
  if (find s.map k).isSome then s else { s with map := (k, 0) :: s.map }

def Lim.step (s : Lim K) : MapOp K Int → Option (Lim K)
  | .insert k v => s.insert k v
  | .update k v => s.update k v
  | .resize n => s.resize n
  | .erase k => s.erase k

end Verif.Containers
