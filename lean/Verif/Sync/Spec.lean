import Verif.Sync.Model
import Verif.Parse.Spec
/-!
# Specification of error recovery, on positions of the whole input

`whileS` and `counterS` say what a list with `&synchronize` does, as functions of the input alone: no chunks, no views, no
suspension. `idealS` is what a user expects of such a list; it knows nothing of pending look-ahead symbols.
-/

namespace Verif.Sync
open Verif.Stream Verif.Parse

/-- What is known about the rest of an element (everything after its literal): its meaning; if it fails, up to where the
    input has been consumed by then (`mark`), and whether it failed on its own account, without looking at further input
    (`late`: a `&requires`, a hook). -/
structure Elem where
  g : SParser
  mark : Input → Option Nat → Nat → Nat
  late : Input → Option Nat → Nat → Bool

/-- A pending symbol: the token and the position behind it. -/
abbrev SPending := Option (List Byte × Nat)

/-- State of a list. -/
structure St where
  pos : Nat
  lah : SPending := none
  err : Option Exn := none
  log : List Ev := []

/-- Is the literal there? Otherwise what was pending stays. -/
def tokenS (lit : List Byte) (I : Input) (lim : Option Nat) (pos : Nat) (lah : SPending) : SRes SPending := do
  let h ← I.has lim pos lit.length
  .ok (if h = true ∧ lit <+: I.rest lim pos ∧ lit ≠ [] then some (lit, pos + lit.length) else lah)

/-- Searching for the literal from `pos` on. -/
def searchS (lit : List Byte) (I : Input) (lim : Option Nat) : Nat → Nat → SPending → SRes (Nat × SPending)
  | 0, _, _ => .diverge
  | f + 1, pos, lah => do
    let p ← tokenS lit I lim pos lah
    let e ← atEnd I lim pos
    if e || p.isSome then .ok (pos, p) else searchS lit I lim f (pos + 1) p

/-- Synchronizing: an error at the end of the data. -/
def syncS (lit : List Byte) (I : Input) (lim : Option Nat) (f pos : Nat) (lah : SPending) : SRes (Nat × SPending) := do
  let e ← atEnd I lim pos
  if e then .fail .parseError
  else do
    let r ← searchS lit I lim f pos lah
    let e ← atEnd I lim r.1
    if e || r.2.isNone then .fail .parseError else .ok r

/-- Where a search begins after a failure at `pos`, when the input has been consumed up to `mark`. -/
def restart (trim : Bool) (pos mark : Nat) : Nat := if trim then max (pos + 1) mark else pos + 1

/-- A literal, possibly as pending look-ahead symbol. -/
def litS (lit : List Byte) (I : Input) (lim : Option Nat) (pos : Nat) (lah : SPending) : SRes Nat := match lah with
  | none => do
    if ← I.has lim pos lit.length then
      if lit <+: I.rest lim pos then .ok (pos + lit.length) else .fail .parseError
    else .fail .parseError
  | some (t, e) => if t = lit ∧ e = pos + lit.length ∧ lit <+: I.rest lim pos then .ok e else .fail .parseError

/-- An element. -/
def elemS (E : Elem) (lit : List Byte) (I : Input) (lim : Option Nat) (pos : Nat) (lah : SPending) : SRes (Val × Nat) := do
  let p ← litS lit I lim pos lah
  E.g I lim p

/-- Up to where an element that fails has consumed the input. -/
def elemMark (E : Elem) (lit : List Byte) (I : Input) (lim : Option Nat) (pos : Nat) (lah : SPending) : Nat :=
  match litS lit I lim pos lah with
  | .ok p => E.mark I lim p
  | _ => pos

/-- Recovery from the error `x` at `st.pos`, and the `%synced` hook. -/
def recoverS (L : ListField) (trim : Bool) (I : Input) (lim : Option Nat) (f : Nat) (st : St) (mark : Nat) (x : Exn) :
    SRes St := do
  let r ← syncS L.lit I lim f (restart trim st.pos mark) st.lah
  match runHook L.hook (some x) (st.log ++ [.synced r.1]) with
  | .ok (err, log) => .ok { pos := r.1, lah := r.2, err := err, log := log }
  | .error e => .fail e

/-- How one round of a list ends. -/
inductive SRound where
  | next (st : St)
  | stop (st : St)

/-- The list goes on from the state. -/
def again (r : SRes St) : SRes SRound := r.bind (fun st => .ok (.next st))

/-- The look-ahead symbol that decides how to go on. -/
def lahS (L : ListField) (I : Input) (lim : Option Nat) (st : St) : SRes (Sym × SPending) := match st.lah with
  | some (t, e) => .ok (if t = L.lit then .elem else if t ∈ L.follow then .follow else .none, some (t, e))
  | none => do
    let e ← atEnd I lim st.pos
    if e then .ok (.eod, none)
    else match ← lahSpec I lim st.pos (L.lit :: L.follow) 0 none with
      | some (i, n) => .ok (if i = 0 then .elem else .follow, some ((L.lit :: L.follow).getD i [], st.pos + n))
      | none => .ok (.none, none)

/-- One round of a list `X[]`. -/
def whileRoundS (L : ListField) (E : Elem) (trim : Bool) (I : Input) (lim : Option Nat) (f : Nat) (st : St) :
    SRes SRound := do
  let _ ← I.has lim st.pos 1
  match lahS L I lim st with
  | .diverge => .diverge
  | .more => .more
  | .fail x => if recoverable x then again (recoverS L trim I lim f st st.pos x) else .fail x
  | .ok (.eod, p) =>
    if L.follow.isEmpty then .ok (.stop { st with lah := p })
    else again (recoverS L trim I lim f { st with lah := p } st.pos .parseError)
  | .ok (.none, p) => again (recoverS L trim I lim f { st with lah := p } st.pos .parseError)
  | .ok (.follow, p) => .ok (.stop { st with lah := p })
  | .ok (.elem, p) => match elemS E L.lit I lim st.pos p with
    | .diverge => .diverge
    | .more => .more
    | .fail x =>
      if recoverable x then again (recoverS L trim I lim f { st with lah := p } (elemMark E L.lit I lim st.pos p) x)
      else .fail x
    | .ok r => .ok (.next { st with pos := r.2, lah := none, log := st.log ++ [.value r.1] })

/-- A list `X[]`. -/
def whileS (L : ListField) (E : Elem) (trim : Bool) (I : Input) (lim : Option Nat) (f : Nat) : Nat → St → SRes St
  | 0, _ => .diverge
  | k + 1, st => do
    match ← whileRoundS L E trim I lim f st with
    | .next st' => whileS L E trim I lim f k st'
    | .stop st' => .ok st'

/-- A list `X[n]`. -/
def counterS (L : ListField) (E : Elem) (trim : Bool) (I : Input) (lim : Option Nat) (f : Nat) : Nat → St → SRes St
  | 0, st => .ok st
  | n + 1, st => match elemS E L.lit I lim st.pos st.lah with
    | .diverge => .diverge
    | .more => .more
    | .fail x =>
      if recoverable x then
        (recoverS L trim I lim f st (elemMark E L.lit I lim st.pos st.lah) x).bind (counterS L E trim I lim f n)
      else .fail x
    | .ok r => counterS L E trim I lim f n { st with pos := r.2, lah := none, log := st.log ++ [.value r.1] }

/-! ## What a user expects of a list `X[]` -/

/-- Has the list to look at what comes next, or is the next element known to begin here? -/
inductive Mode where
  | look | elem

/-- State of the list a user thinks of: position, whether there is an unconfirmed error, what was observed. -/
structure Ideal where
  pos : Nat
  err : Bool := false
  log : List Ev := []

/-- The hook at a synchronization at `q`, for a hook that does not reject. -/
def Ideal.synced (h : Hook) (S : Ideal) (q : Nat) : Ideal := match h with
  | .confirm => ⟨q, false, S.log ++ [.synced q, .confirmed]⟩
  | _ => ⟨q, true, S.log ++ [.synced q]⟩

/-- Going on at the first place at or after `p` where an element begins. -/
def resumeS (L : ListField) (I : Input) (lim : Option Nat) (S : Ideal) (p : Nat) (next : Ideal → SRes Ideal) : SRes Ideal :=
  match firstOcc L.lit (I.rest lim p) with
  | some q => next (S.synced L.hook (p + q))
  | none => if I.complete lim then .fail .parseError else .more

/-- The element at `S.pos`: parsed, or skipped if it has an error. -/
def elemStepS (L : ListField) (E : Elem) (trim : Bool) (I : Input) (lim : Option Nat) (S : Ideal)
    (look elem : Ideal → SRes Ideal) : SRes Ideal :=
  match E.g I lim (S.pos + L.lit.length) with
  | .ok r => look { S with pos := r.2, log := S.log ++ [.value r.1] }
  | .fail x =>
    if recoverable x then resumeS L I lim S (restart trim S.pos (E.mark I lim (S.pos + L.lit.length))) elem else .fail x
  | .more => .more
  | .diverge => .diverge

/-- A list `X[]`: elements one after the other, up to a follow-up token or the end of the data; after an error, on with the
    next place where an element begins. -/
def idealS (L : ListField) (E : Elem) (trim : Bool) (I : Input) (lim : Option Nat) : Nat → Mode → Ideal → SRes Ideal
  | 0, _, _ => .diverge
  | k + 1, .elem, S => elemStepS L E trim I lim S (idealS L E trim I lim k .look) (idealS L E trim I lim k .elem)
  | k + 1, .look, S => do
    let e ← atEnd I lim S.pos
    if e then (if L.follow.isEmpty then .ok S else .fail .parseError)
    else match lahSpec I lim S.pos (L.lit :: L.follow) 0 none with
      | .ok (some (i, _)) =>
        if i = 0 then elemStepS L E trim I lim S (idealS L E trim I lim k .look) (idealS L E trim I lim k .elem) else .ok S
      | .ok none => resumeS L I lim S (S.pos + 1) (idealS L E trim I lim k .elem)
      | .fail _ => resumeS L I lim S (S.pos + 1) (idealS L E trim I lim k .elem)
      | .more => .more
      | .diverge => .diverge

/-- The values that were parsed. -/
def values (log : List Ev) : List Val := log.filterMap (fun e => match e with | .value v => some v | _ => none)

end Verif.Sync
