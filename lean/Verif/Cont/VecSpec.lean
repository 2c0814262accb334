import Verif.Cont.VecModel
/-!
# Specification of vectors: mathematical lists

`ideal` says for each operation what happens to the lists and what is returned. A destroyed vector is `none`.
-/

namespace Verif.Cont

variable {α : Type}

abbrev Lists (α : Type) := List (Option (List α))

def Lists.at (s : Lists α) (o : Nat) : Option (List α) := match s[o]? with
  | some l => l
  | none => none

/-- `n` elements: the ones of `l`, and then the default. -/
def padded (dflt : α) (l : List α) (n : Nat) : List α := (List.range n).map fun j => l.getD j dflt

/-- Element `i` is `x`, the others are as before, elements in between are the default. -/
def assigned (dflt : α) (l : List α) (i : Nat) (x : α) : List α :=
  (List.range (max l.length (i + 1))).map fun j => if j = i then x else l.getD j dflt

/-- Operations on lists; iterators are dealt with separately. -/
def ideal (maxSize : Nat) (dflt : α) (s : Lists α) : VOp α → Lists α × Res (VOut α)
  | .make init => (s ++ [some init], .ok (.obj s.length))
  | .copy o => match s.at o with
    | some l => (s ++ [some l], .ok (.obj s.length))
    | none => (s, .ok .none)
  | .move o => match s.at o with
    | some l => (s.set o (some []) ++ [some l], .ok (.obj s.length))
    | none => (s, .ok .none)
  | .destroy o => match s.at o with
    | some _ => (s.set o none, .ok .none)
    | none => (s, .ok .none)
  | .assignCopy dst src => match s.at dst, s.at src with
    | some _, some l => (s.set dst (some l), .ok .none)
    | _, _ => (s, .ok .none)
  | .assignMove dst src => match s.at dst, s.at src with
    | some _, some l => ((s.set dst (some l)).set src (some []), .ok .none)
    | _, _ => (s, .ok .none)
  | .front o => match s.at o with
    | some [] => (s, .throw .indexError)
    | some (x :: _) => (s, .ok (.elem x))
    | none => (s, .ok .none)
  | .back o => match s.at o with
    | some l => (s, match l[l.length - 1]? with | some x => .ok (.elem x) | none => .throw .indexError)
    | none => (s, .ok .none)
  | .popBack o => match s.at o with
    | some [] => (s, .throw .indexError)
    | some (x :: l) => (s.set o (some ((x :: l).take l.length)), .ok .none)
    | none => (s, .ok .none)
  | .pushBack o x => match s.at o with
    | some l => if l.length < maxSize then (s.set o (some (l ++ [x])), .ok .none) else (s, .throw .logicError)
    | none => (s, .ok .none)
  | .get o i => match s.at o with
    | some l => (s, match l[i]? with | some x => .ok (.elem x) | none => .throw .indexError)
    | none => (s, .ok .none)
  | .set o i x => match s.at o with
    | some l => if i < l.length then (s.set o (some (assigned dflt l i x)), .ok .none) else (s, .throw .indexError)
    | none => (s, .ok .none)
  | .assign o i x => match s.at o with
    | some l => if i < maxSize ∨ i < l.length then (s.set o (some (assigned dflt l i x)), .ok .none) else (s, .throw .logicError)
    | none => (s, .ok .none)
  | .resize o n => match s.at o with
    | some l => if n ≤ maxSize then (s.set o (some (padded dflt l n)), .ok .none) else (s, .throw .logicError)
    | none => (s, .ok .none)
  | .reserve o n => match s.at o with
    | some _ => if n ≤ maxSize then (s, .ok .none) else (s, .throw .logicError)
    | none => (s, .ok .none)
  | .sub o a b => match s.at o with
    | some l => (s ++ [some ((l.drop a).take (b - a))], .ok (.obj s.length))
    | none => (s, .ok .none)
  | .subEnd o b => match s.at o with
    | some l => (s ++ [some (l.take b)], .ok (.obj s.length))
    | none => (s, .ok .none)
  | .sum a b => match s.at a, s.at b with
    | some l, some k => if l.length + k.length ≤ maxSize then (s ++ [some (l ++ k)], .ok (.obj s.length)) else (s, .throw .logicError)
    | _, _ => (s, .ok .none)
  | .sumAssign dst src => match s.at dst, s.at src with
    | some l, some k => if l.length + k.length ≤ maxSize then (s.set dst (some (l ++ k)), .ok .none) else (s, .throw .logicError)
    | _, _ => (s, .ok .none)
  | .size o => match s.at o with
    | some l => (s, .ok (.num l.length))
    | none => (s, .ok .none)
  | .clear o => match s.at o with
    | some _ => (s.set o (some []), .ok .none)
    | none => (s, .ok .none)
  -- operations with iterators: not about the lists
  | .begin _ | .fin _ | .iteratorAt _ _ | .deref _ | .incr _ | .iterEq _ _ | .insert _ _ _ => (s, .ok .none)

/-- The lists of a world. -/
def VWorld.lists (w : VWorld α) : Lists α := w.objs.map fun v => if v.alive then some v.data else none

/-- The operations that are about lists. -/
def VOp.onLists : VOp α → Bool
  | .begin _ | .fin _ | .iteratorAt _ _ | .deref _ | .incr _ | .iterEq _ _ | .insert _ _ _ => false
  | _ => true

/-- What a program does to the lists, and to the positions of its iterators (which start at 0, at the end, or at a given position,
    and move by one with each increment; an insertion goes before the position of its iterator). What `deref` returns, and `==`
    for iterators, is said in `C37_iterator` and `C37_iterators_equal`. -/
def idealAll (maxSize : Nat) (dflt : α) (s : Lists α) (ps : List Nat) : VOp α → (Lists α × List Nat) × Res (VOut α)
  | .begin o => match s.at o with
    | some _ => ((s, ps ++ [0]), .ok (.iter ps.length))
    | none => ((s, ps), .ok .none)
  | .fin o => match s.at o with
    | some l => ((s, ps ++ [l.length]), .ok (.iter ps.length))
    | none => ((s, ps), .ok .none)
  | .iteratorAt o i => match s.at o with
    | some l => if i < l.length then ((s, ps ++ [i]), .ok (.iter ps.length)) else ((s, ps), .throw .indexError)
    | none => ((s, ps), .ok .none)
  | .incr i => match ps[i]? with
    | some p => if p + 1 < 2 ^ 64 then ((s, ps.set i (p + 1)), .ok .none) else ((s, ps), .throw .overflow)
    | none => ((s, ps), .ok .none)
  | .insert o i x => match s.at o, ps[i]? with
    | some l, some p =>
      if l.length < p then ((s, ps), .throw .invalidIterator)
      else if l.length < maxSize then ((s.set o (some (l.take p ++ [x] ++ l.drop p)), ps), .ok .none)
      else ((s, ps), .throw .logicError)
    | _, _ => ((s, ps), .ok .none)
  | op => (((ideal maxSize dflt s op).1, ps), (ideal maxSize dflt s op).2)

/-- The positions of the iterators of a world. -/
def VWorld.positions (w : VWorld α) : List Nat := w.its.map (·.idx)

/-- The exclusions: appending a vector to itself, moving a vector to itself, assigning the element with the largest possible index. -/
def VOp.Proper : VOp α → Prop
  | .sumAssign dst src => dst ≠ src
  | .assignMove dst src => dst ≠ src
  | .assign _ i _ => i + 1 < 2 ^ 64
  | _ => True

end Verif.Cont
