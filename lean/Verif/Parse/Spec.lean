import Verif.Parse.Grammar
import Verif.Regex.Spec
/-!
# Specification of parsing: a function of the whole input

What a grammar means on an input `T` that is known as a whole. There are no chunks, no views, no trimming and no
suspension here. `closed` says whether `T` is all there will ever be; if it is not and the answer depends on what comes
next, the result is `more`.
-/

namespace Verif.Parse
open Verif.Stream

/-- Result of parsing: a value, an error, "needs more input", or not terminating (within the given bound). -/
inductive SRes (α : Type) where
  | ok (a : α)
  | fail (e : Exn)
  | more
  | diverge

namespace SRes
variable {α β : Type}
def bind : SRes α → (α → SRes β) → SRes β
  | .ok a, f => f a
  | .fail e, _ => .fail e
  | .more, _ => .more
  | .diverge, _ => .diverge
instance : Monad SRes where
  pure := .ok
  bind := bind
@[simp] theorem ok_bind (a : α) (f : α → SRes β) : (SRes.ok a >>= f) = f a := rfl
@[simp] theorem fail_bind (e : Exn) (f : α → SRes β) : ((SRes.fail e : SRes α) >>= f) = .fail e := rfl
@[simp] theorem more_bind (f : α → SRes β) : ((SRes.more : SRes α) >>= f) = .more := rfl
@[simp] theorem diverge_bind (f : α → SRes β) : ((SRes.diverge : SRes α) >>= f) = .diverge := rfl
@[simp] theorem pure_eq (a : α) : (pure a : SRes α) = .ok a := rfl
end SRes

/-- An input: the data, and whether the end is known. -/
structure Input where
  data : List Byte
  closed : Bool

namespace Input

/-- Where the accessible data ends: at the end of the input, or at the limit. -/
def stop (I : Input) (lim : Option Nat) : Nat := match lim with
  | none => I.data.length
  | some l => min l I.data.length

/-- Is it certain that nothing more becomes accessible? -/
def complete (I : Input) (lim : Option Nat) : Bool := I.closed || (match lim with
  | none => false
  | some l => decide (l ≤ I.data.length))

/-- Are there `n` bytes at `pos`? -/
def has (I : Input) (lim : Option Nat) (pos n : Nat) : SRes Bool :=
  if pos + n ≤ I.stop lim then .ok true else if I.complete lim then .ok false else .more

/-- The accessible data from `pos` on. -/
def rest (I : Input) (lim : Option Nat) (pos : Nat) : List Byte := (I.data.take (I.stop lim)).drop pos

end Input

/-- Position of the first occurrence of `needle` in `bs`. -/
def firstOcc (needle : List Byte) : List Byte → Option Nat
  | [] => if needle = [] then some 0 else none
  | b :: r => if needle <+: b :: r then some 0 else (firstOcc needle r).map (· + 1)

/-- The look-ahead token at `pos`, trying the literals in order: the longest one wins; a tie is an error. -/
def lahSpec (I : Input) (lim : Option Nat) (pos : Nat) :
    List (List Byte) → Nat → Option (Nat × Nat) → SRes (Option (Nat × Nat))
  | [], _, best => .ok best
  | l :: ls, i, best => do
    let _ ← I.has lim pos l.length
    if l <+: I.rest lim pos ∧ l ≠ [] then
      match best with
      | none => lahSpec I lim pos ls (i + 1) (some (i, l.length))
      | some (j, n) =>
        if l.length = n then .fail .parseError
        else lahSpec I lim pos ls (i + 1) (if l.length > n then some (i, l.length) else some (j, n))
    else lahSpec I lim pos ls (i + 1) best

/-- Parsers of the specification: input, limit and position; value and new position. -/
abbrev SParser := Input → Option Nat → Nat → SRes (Val × Nat)

/-- The limit inside of `&size=n`. -/
def innerLim (lim : Option Nat) (pos n : Nat) : Option Nat := match lim with
  | none => some (pos + n)
  | some l => some (min l (pos + n))

/-- Is the position at the end of the accessible data? -/
def atEnd (I : Input) (lim : Option Nat) (pos : Nat) : SRes Bool := do
  let b ← I.has lim pos 1
  .ok (!b)

/-- Repeating `g` `n` times. -/
def counterSpec (g : SParser) (stop : Val → Stop) (I : Input) (lim : Option Nat) :
    Nat → Nat → List Val → SRes (Val × Nat)
  | 0, pos, acc => .ok (.list acc, pos)
  | n + 1, pos, acc => do
    let r ← g I lim pos
    match stop r.1 with
    | .go => counterSpec g stop I lim n r.2 (acc ++ [r.1])
    | .drop => .ok (.list acc, r.2)
    | .keep => .ok (.list (acc ++ [r.1]), r.2)

/-- Repeating `g` until it stops, or (`eodOk`) the data ends. An element that consumes nothing is an error, unless the
    data ends there. -/
def foreachSpec (eodOk : Bool) (g : SParser) (stop : Val → Stop) (I : Input) (lim : Option Nat) :
    Nat → Nat → List Val → SRes (Val × Nat)
  | 0, _, _ => .diverge
  | f + 1, pos, acc => do
    let e ← (if eodOk then atEnd I lim pos else .ok false)
    if e then .ok (.list acc, pos)
    else do
      let r ← g I lim pos
      match stop r.1 with
      | .go => do
        let bad ← (if r.2 = pos then do
            let e ← atEnd I lim pos
            .ok (!e)
          else .ok false)
        if bad then .fail .parseError
        else foreachSpec eodOk g stop I lim f r.2 (acc ++ [r.1])
      | .drop => .ok (.list acc, r.2)
      | .keep => .ok (.list (acc ++ [r.1]), r.2)

/-- Everything up to the end. -/
def toEnd (v : List Byte → Val) : SParser := fun I lim pos =>
  if I.complete lim then .ok (v (I.rest lim pos), I.stop lim) else .more

/-- `n` bytes. -/
def takeN (n : Nat) (v : List Byte → Val) : SParser := fun I lim pos => do
  if ← I.has lim pos n then .ok (v ((I.rest lim pos).take n), pos + n) else .fail .parseError

/-- The longest match of a regular expression in all of the data, once no longer one is possible. -/
def regexSpec (A : Regex.Auto) : SParser := fun I lim pos =>
  if I.complete lim = false ∧ (I.rest lim pos = [] ∨ A.more (Regex.run A (I.rest lim pos)) = true) then .more
  else match Regex.longest A (I.rest lim pos) with
    | some n => .ok (.bytes ((I.rest lim pos).take n), pos + n)
    | none => .fail .parseError

/-- The meaning of a grammar. -/
def evalWith (callee : Nat → SParser) (f : Nat) : G → SParser
  | .ret v => fun _ _ pos => .ok (v, pos)
  | .fail e => fun _ _ _ => .fail e
  | .offset => fun _ _ pos => .ok (.int pos, pos)
  | .unpack _ n fn => takeN n fn
  | .bytesSize n => takeN n .bytes
  | .bytesSizeEod n => takeN n .bytes       -- not what the code does, see `Sound`
  | .lit bs => fun I lim pos => do
    if ← I.has lim pos bs.length then
      if bs <+: I.rest lim pos then .ok (.bytes bs, pos + bs.length) else .fail .parseError
    else .fail .parseError
  | .until needle incl => fun I lim pos =>
    match firstOcc needle (I.rest lim pos) with
    | some p => .ok (.bytes ((I.rest lim pos).take (if incl then p + needle.length else p)), pos + p + needle.length)
    | none => if I.complete lim then .fail .parseError else .more
  | .regexp A => regexSpec A
  | .eod => toEnd .bytes
  | .chunkedEod => toEnd .bytes
  | .skip n => fun I lim pos => do
    if ← I.has lim pos n then .ok (.unit, pos + n) else .fail .parseError
  | .skipEod => toEnd (fun _ => .unit)
  | .seq g k => fun I lim pos => do
    let r ← evalWith callee f g I lim pos
    evalWith callee f (k r.1) I lim r.2
  | .limit n g => fun I lim pos => do
    let r ← evalWith callee f g I (innerLim lim pos n) pos
    if r.2 < pos + n then .fail .parseError else .ok (r.1, pos + n)
  | .maxSize n g => fun I lim pos => do
    let r ← evalWith callee f g I (innerLim lim pos (n + 1)) pos
    if r.2 ≥ pos + (n + 1) then .fail .parseError else .ok r
  | .try_ g => fun I lim pos => match evalWith callee f g I lim pos with
    | .fail .backtrack => .ok (.unit, pos)
    | r => r
  | .counter n g stop => fun I lim pos => counterSpec (evalWith callee f g) stop I lim n pos []
  | .foreach eodOk g stop => fun I lim pos => foreachSpec eodOk (evalWith callee f g) stop I lim f pos []
  | .lah lits k => fun I lim pos => do
    let e ← atEnd I lim pos
    if e then evalWith callee f (k .eod) I lim pos
    else match ← lahSpec I lim pos lits 0 none with
      | some (i, _) => evalWith callee f (k (.token i)) I lim pos
      | none => evalWith callee f (k .none) I lim pos
  | .parseFrom bs g => fun _ _ pos => do
    let r ← evalWith callee f g ⟨bs, true⟩ none 0
    .ok (r.1, pos)
  | .random k => fun I lim pos => evalWith callee f (k pos) I lim pos
  | .parseAt p g => fun I lim pos => do
    let r ← evalWith callee f g I lim p
    .ok (r.1, pos)
  | .call i => callee i

/-- The meaning of grammar `g`, where unit `i` is `Γ i`; `f` bounds loops and the nesting of units. -/
def eval (Γ : Nat → G) : Nat → G → SParser
  | 0, _ => fun _ _ _ => .diverge
  | f + 1, g => evalWith (fun i => eval Γ f (Γ i)) f g

/-- What is assumed about the units a grammar refers to: `lo i = some l` if unit `i` jumps to positions from `l` on, and whether
    unit `i` asks for data before anything else. Units with parameters are different units for different parameters here. -/
structure Units where
  lo : Nat → Option Nat
  eager : Nat → Prop

/-- Units that do not jump (except for random-access units jumping to positions behind their own beginning). -/
def Units.plain : Units := ⟨fun _ => none, fun _ => False⟩

/-- Grammars that ask for at least one byte of data before anything else. -/
inductive Eager (U : Units) : G → Prop where
  | unpack {n} (f) : 0 < n → Eager U (.unpack n n f)
  | bytesSize {n} : 0 < n → Eager U (.bytesSize n)
  | lit {bs} : bs ≠ [] → Eager U (.lit bs)
  | skip {n} : 0 < n → Eager U (.skip n)
  | seq {g k} : Eager U g → Eager U (.seq g k)
  | call {i} : U.eager i → Eager U (.call i)

/-- From where on data is kept in a random-access unit beginning at `p`. -/
def keptFrom (lo : Option Nat) (p : Nat) : Nat := match lo with
  | none => p
  | some l => min l p

/-- Grammars whose parsing is covered: values that are unpacked are waited for in full, no `bytes &size=n &eod`, regular
    expressions have no inner assertions and need not go back, nothing is parsed from an empty value, and random access goes to
    positions that cannot have been trimmed, to parse something that asks for data. `lo = some l` if this is inside of a
    random-access unit that keeps the data from `l` on. -/
inductive SoundIn (U : Units) : Option Nat → G → Prop where
  | ret {lo} (v) : SoundIn U lo (.ret v)
  | fail {lo} (e) : SoundIn U lo (.fail e)
  | offset {lo} : SoundIn U lo .offset
  | unpack {lo} (n f) : SoundIn U lo (.unpack n n f)
  | bytesSize {lo} (n) : SoundIn U lo (.bytesSize n)
  | lit {lo} (bs) : SoundIn U lo (.lit bs)
  | until {lo} (needle incl) : SoundIn U lo (.until needle incl)
  | regexp {lo A} : Regex.Plain A → Regex.NoBack A → SoundIn U lo (.regexp A)
  | eod {lo} : SoundIn U lo .eod
  | chunkedEod {lo} : SoundIn U lo .chunkedEod
  | skip {lo} (n) : SoundIn U lo (.skip n)
  | skipEod {lo} : SoundIn U lo .skipEod
  | seq {lo g k} : SoundIn U lo g → (∀ v, SoundIn U lo (k v)) → SoundIn U lo (.seq g k)
  | limit {lo g} (n) : SoundIn U lo g → SoundIn U lo (.limit n g)
  | maxSize {lo g} (n) : SoundIn U lo g → SoundIn U lo (.maxSize n g)
  | try_ {lo g} : SoundIn U lo g → SoundIn U lo (.try_ g)
  | counter {lo g} (n stop) : SoundIn U lo g → SoundIn U lo (.counter n g stop)
  | foreach {lo g} (eodOk stop) : SoundIn U lo g → SoundIn U lo (.foreach eodOk g stop)
  | lah {lo lits k} : (∀ t, SoundIn U lo (k t)) → SoundIn U lo (.lah lits k)
  | parseFrom {lo bs g} : bs ≠ [] → bs.length < 2 ^ 64 - 1 → SoundIn U (some 0) g → SoundIn U lo (.parseFrom bs g)
  | random {lo k} : (∀ p, SoundIn U (some (keptFrom lo p)) (k p)) → SoundIn U lo (.random k)
  | parseAt {l p g} : l ≤ p → Eager U g → SoundIn U (some l) g → SoundIn U (some l) (.parseAt p g)
  | call {lo} (i) (h : ∀ m, U.lo i = some m → ∃ l, lo = some l ∧ l ≤ m := by intro m h; cases h) : SoundIn U lo (.call i)

/-- The same for grammars that call only units of which nothing is assumed. -/
abbrev Sound : G → Prop := SoundIn Units.plain none

/-- The data a host will have delivered by a schedule: everything up to the first freeze. -/
def total : Sched → List Byte
  | [] => []
  | it :: s => it.data.flatten ++ (if it.freeze then [] else total s)

/-- Does the host ever signal the end of the input? -/
def closes (s : Sched) : Bool := s.any (·.freeze)

end Verif.Parse
