import Verif.Net.Model

/-!
# What a byte stream says

A stream is a sequence of frames and the beginning of another one. Nothing here follows the receiving code.
-/
namespace Verif.Net

/-- A header of 24 bytes and the data it announces. -/
structure Frame where
  h : List Nat
  d : List Nat
  deriving DecidableEq

def Frame.Ok (f : Frame) : Prop := f.h.length = 24 ∧ hSize f.h ≤ MAX_SIZE ∧ f.d.length = hSize f.h

def flat (fs : List Frame) : List Nat := (fs.map fun f => f.h ++ f.d).flatten

/-- The beginning of a frame, but not all of it. -/
def Tail (r : List Nat) : Prop :=
  r.length < 24 ∨ ∃ h d, r = h ++ d ∧ h.length = 24 ∧ hSize h ≤ MAX_SIZE ∧ d.length < hSize h

/-- The stream consists of these frames and this beginning. -/
def Cut (bs : List Nat) (fs : List Frame) (r : List Nat) : Prop := bs = flat fs ++ r ∧ (∀ f ∈ fs, f.Ok) ∧ Tail r

/-- After some frames comes a header that announces too much. -/
def Oversize (bs : List Nat) : Prop :=
  ∃ fs h t, bs = flat fs ++ (h ++ t) ∧ (∀ f ∈ fs, Frame.Ok f) ∧ h.length = 24 ∧ hSize h > MAX_SIZE

/-- A complete message, and the message under way. -/
def msgOf (f : Frame) : Msg := ⟨true, f.h, hSize f.h, f.d⟩

def tailMsgs (r : List Nat) : List Msg :=
  if r = [] then [] else if r.length < 24 then [⟨false, r, 0, []⟩] else [⟨true, r.take 24, hSize (r.take 24), r.drop 24⟩]

def view (fs : List Frame) (r : List Nat) : List Msg := fs.map msgOf ++ tailMsgs r

/-- A name that may be a command: at most 12 printable characters. -/
def Name (c : List Nat) : Prop := c.length ≤ 12 ∧ ∀ x ∈ c, 32 ≤ x ∧ x ≤ 126

/-- The frame carries this message for this network: right start, the name padded with zeros, right checksum. -/
def Carries (p : Params) (f : Frame) (c : List Nat) : Prop :=
  hStart f.h = p.start ∧ hCmd f.h = c ++ List.replicate (12 - c.length) 0 ∧ Name c ∧ hSum f.h = p.cksum f.d

/-- `log` is what the frames carry, in order, frames that carry nothing left out. -/
inductive Said (p : Params) : List Frame → List (List Nat × List Nat) → Prop
  | nil : Said p [] []
  | carry {f fs c log} : Carries p f c → Said p fs log → Said p (f :: fs) ((c, f.d) :: log)
  | skip {f fs log} : (∀ c, ¬ Carries p f c) → Said p fs log → Said p (f :: fs) log

end Verif.Net
