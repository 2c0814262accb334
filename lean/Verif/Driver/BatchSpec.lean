import Verif.Driver.Batch
import Verif.Net.Port
/-!
# Batches: specification

The format as documented (`doc/toolchain.rst` 204-266), and what it means to use IDs properly.
-/

namespace Verif.Driver
open Verif.Bytes

/-! ## The format -/

def Kind.text : Kind → Str
  | .stream => sStream
  | .block => sBlock

/-- The line of a command. -/
def Cmd.words : Cmd → List Str
  | .beginFlow id k p => [sBeginFlow, id, k.text, p]
  | .beginConn cid k o po r pr => [sBeginConn, cid, k.text, o, po, r, pr]
  | .data id bs => [sData, id, Net.decimal bs.length]
  | .gap id n => [sGap, id, Net.decimal n]
  | .endFlow id => [sEndFlow, id]
  | .endConn cid => [sEndConn, cid]

/-- What follows the line of a command. -/
def Cmd.payload : Cmd → List Byte
  | .data _ bs => bs ++ [10]
  | _ => []

/-- A command in the format. -/
def Cmd.text (c : Cmd) : List Byte := joinWith id [32] c.words ++ [10] ++ c.payload

/-- A batch. -/
def batchText (cs : List Cmd) : List Byte := sMagic ++ [10] ++ cs.flatMap Cmd.text

/-- A word: not empty, no white space. -/
def Word (s : Str) : Prop := s ≠ [] ∧ ∀ c ∈ s, isWs c = false

/-- IDs and names of parsers are words, sizes are in range. -/
def Cmd.Fit : Cmd → Prop
  | .beginFlow id _ p => Word id ∧ Word p
  | .beginConn cid _ o po r pr => Word cid ∧ Word o ∧ Word po ∧ Word r ∧ Word pr
  | .data id bs => Word id ∧ bs.length < 2 ^ 63 - 1
  | .gap id n => Word id ∧ n < 2 ^ 64
  | .endFlow id => Word id
  | .endConn cid => Word cid

/-! ## Who a command is for -/

section
variable {K : Type} (fp cp : Str → K)

/-- Given who the IDs of flows (`fp`) and connections (`cp`) belong to: who a command is for. -/
def Cmd.party : Cmd → K
  | .beginFlow id _ _ => fp id
  | .beginConn cid _ _ _ _ _ => cp cid
  | .data id _ => fp id
  | .gap id _ => fp id
  | .endFlow id => fp id
  | .endConn cid => cp cid

/-- The flows of a connection belong to whom the connection belongs. -/
def Cmd.Consistent : Cmd → Prop
  | .beginConn cid _ o _ r _ => fp o = cp cid ∧ fp r = cp cid
  | _ => True

end

/-! ## IDs are used properly -/

/-- The IDs of a list of connections (ID, flow, flow). -/
def flowIds (conns : List (Str × Str × Str)) : List Str := conns.flatMap (fun x => [x.2.1, x.2.2])

/-- `fs` are the flows begun and not ended, `conns` the connections: a new flow or connection has an unused ID and unused flows, and flows
    that belong to a connection are not ended by themselves. -/
def Tidy (fs : List Str) (conns : List (Str × Str × Str)) : List Cmd → Prop
  | [] => True
  | .beginFlow id _ _ :: cs => id ∉ fs ∧ id ∉ flowIds conns ∧ Tidy (id :: fs) conns cs
  | .beginConn cid _ o _ r _ :: cs => (∀ x ∈ conns, x.1 ≠ cid) ∧ o ∉ fs ∧ r ∉ fs ∧ o ∉ flowIds conns ∧ r ∉ flowIds conns ∧
      Tidy fs ((cid, o, r) :: conns) cs
  | .endFlow id :: cs => id ∉ flowIds conns ∧ Tidy (fs.filter (· ≠ id)) conns cs
  | .endConn cid :: cs => Tidy fs (conns.filter (·.1 ≠ cid)) cs
  | .data _ _ :: cs => Tidy fs conns cs
  | .gap _ _ :: cs => Tidy fs conns cs

/-! ## Extracting -/

/-- The commands about what a user asks for: the flow or the connection with that ID, and the flows of the connection. -/
def selected (needles : List Str) : List Cmd → List Cmd
  | [] => []
  | .beginFlow id k p :: cs => if id ∈ needles then .beginFlow id k p :: selected needles cs else selected needles cs
  | .beginConn cid k o po r pr :: cs =>
    if cid ∈ needles then .beginConn cid k o po r pr :: selected (o :: r :: needles) cs else selected needles cs
  | .data id bs :: cs => if id ∈ needles then .data id bs :: selected needles cs else selected needles cs
  | .gap id n :: cs => if id ∈ needles then .gap id n :: selected needles cs else selected needles cs
  | .endFlow id :: cs => if id ∈ needles then .endFlow id :: selected needles cs else selected needles cs
  | .endConn cid :: cs => if cid ∈ needles then .endConn cid :: selected needles cs else selected needles cs

def Cmd.isGap : Cmd → Bool
  | .gap _ _ => true
  | _ => false

end Verif.Driver
