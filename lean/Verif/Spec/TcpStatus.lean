import Verif.Model.SpaceCodec

/-!
# Specification for the status command of the TCP2 backend

What a reader gets to see: an entry for each process and for each connection of a client not
known, as text.
-/

namespace Laik.Sg

open Codec

abbrev Text := List Char

/-- Texts of the reply. -/
def tLid : Text := "#  LID".toList
def tLoc : Text := " loc '".toList
def tHost : Text := "' at host '".toList
def tPort : Text := "' port ".toList
def tFlags : Text := " flags ".toList
def tOpen : Text := "#        open connection at FD ".toList
def tState : Text := "#        state: '".toList
def tAt : Text := "#  at FD".toList
def tThis : Text := " (this connection)".toList
def tSt : Text := " state '".toList
def tQueued : Text := "#        queued for processing: '".toList
def tKnown : Text := "# Known peers:".toList
def tUnknown : Text := "# Unknown peers:".toList

theorem tLid_length : tLid.length = 6 := by decide +kernel
theorem tLoc_length : tLoc.length = 6 := by decide +kernel
theorem tHost_length : tHost.length = 11 := by decide +kernel
theorem tPort_length : tPort.length = 7 := by decide +kernel
theorem tFlags_length : tFlags.length = 7 := by decide +kernel
theorem tOpen_length : tOpen.length = 31 := by decide +kernel
theorem tState_length : tState.length = 17 := by decide +kernel
theorem tAt_length : tAt.length = 8 := by decide +kernel
theorem tThis_length : tThis.length = 18 := by decide +kernel
theorem tSt_length : tSt.length = 8 := by decide +kernel
theorem tQueued_length : tQueued.length = 33 := by decide +kernel
theorem tKnown_length : tKnown.length = 14 := by decide +kernel
theorem tUnknown_length : tUnknown.length = 16 := by decide +kernel

attribute [irreducible] tLid tLoc tHost tPort tFlags tOpen tState tAt tThis tSt tQueued tKnown tUnknown

/-- Number with at least two places. -/
def two (n : Nat) : Text := (if n < 10 then [' '] else []) ++ digits n

/-- Entry of a process; `conn`: descriptor of the connection. -/
structure Proc where
  loc : Text
  host : Text
  port : Int
  bin : Bool
  conn : Option Nat
  state : Text

/-- Entry of a client not known; `this`: it is the one asking. -/
structure Client where
  fd : Nat
  this : Bool
  state : Text
  queued : Option Text

def procText (lid : Nat) (p : Proc) : Text :=
  tLid ++ two lid ++ tLoc ++ p.loc ++ tHost ++ p.host ++ tPort ++ printInt p.port ++
    tFlags ++ [if p.bin then 'b' else '-']

def connText (fd : Nat) : Text := tOpen ++ digits fd

def stateText (s : Text) : Text := tState ++ s ++ ['\'']

def clientText (c : Client) : Text :=
  tAt ++ two c.fd ++ (if c.this then tThis else []) ++ tSt ++ c.state ++ ['\'']

def queuedText (q : Text) : Text := tQueued ++ q ++ ['\'']

def procLines (lid : Nat) (p : Proc) : List Text :=
  procText lid p :: (p.conn.toList.map connText ++ [stateText p.state])

def clientLines (c : Client) : List Text := clientText c :: c.queued.toList.map queuedText

/-- The reply for the processes `0, …, n - 1` and the clients in a list. -/
def reply (n : Nat) (p : Nat → Proc) (cs : List Client) : List Text :=
  tKnown :: ((List.range n).flatMap fun i => procLines i (p i)) ++
    (if cs.isEmpty then [] else [tUnknown]) ++ cs.flatMap clientLines

end Laik.Sg
