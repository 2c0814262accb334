import Verif.Front.Preproc
import Verif.Bytes.Spec
import Verif.Ints.Spec
/-!
# Specification of conditional compilation

What `doc/programming/language/conditional.rst` says, and a little more: the pieces of a source file are a document of text and
conditionals, whose conditions select the text that counts.
-/

namespace Verif.Front

open Verif.Bytes (Str isWs Words)
open Verif.Ints (Denotes)

/-- The operators. -/
inductive Cmp where
  | eq | ne | lt | le | gt | ge
  deriving DecidableEq

/-- How an operator is written. -/
def Cmp.text : Cmp → Str
  | .eq => [61, 61] | .ne => [33, 61] | .lt => [60] | .le => [60, 61] | .gt => [62] | .ge => [62, 61]

/-- What it says. -/
def Cmp.holds : Cmp → Int → Int → Prop
  | .eq, a, b => a = b
  | .ne, a, b => a ≠ b
  | .lt, a, b => a < b
  | .le, a, b => a ≤ b
  | .gt, a, b => b < a
  | .ge, a, b => b ≤ a

/-- The text says that `id` compares to `v`, `[!] id cmp v` or `[!] id` for `[!] id != 0`, with white space between the words; `v` is
    a decimal number that fits into 32 bits. -/
def Says (s : Str) (neg : Bool) (id : Str) (cmp : Cmp) (v : Int) : Prop :=
  ∃ rest, Words isWs s ((if neg then [[33]] else []) ++ id :: rest) ∧ (neg = false → id ≠ [33]) ∧
    ((rest = [] ∧ cmp = .ne ∧ v = 0) ∨ ∃ num, rest = [cmp.text, num] ∧ Denotes 10 num v ∧ -2 ^ 31 ≤ v ∧ v < 2 ^ 31)

/-- The text is a condition, with this value; a name that is not defined has the value zero. -/
def Holds (consts : Consts) (s : Str) (b : Bool) : Prop :=
  ∃ neg id cmp v, Says s neg id cmp v ∧ (b = true ↔ (cmp.holds ((consts id).getD 0) v ↔ neg = false))

mutual
/-- A document: text and conditionals. -/
inductive Doc (α : Type) where
  | nil
  | text (t : α) (rest : Doc α)
  /-- `@if c`, a document, the documents after each of its `@else`, `@endif`. -/
  | cond (c : Str) (body : Doc α) (elses : Elses α) (rest : Doc α)
/-- The documents after `@else`. -/
inductive Elses (α : Type) where
  | nil
  | cons (body : Doc α) (more : Elses α)
end

/-- Documents have at most one `@else` for each `@if`. -/
def Elses.atMostOne {α : Type} : Elses α → Prop
  | .nil => True
  | .cons _ .nil => True
  | .cons _ (.cons _ _) => False

mutual
/-- The pieces of the source file of a document. -/
def Doc.pieces {α : Type} : Doc α → List (Piece α)
  | .nil => []
  | .text t rest => .text t :: rest.pieces
  | .cond c body elses rest => .dir dIf c :: (body.pieces ++ (elses.pieces ++ .dir dEndif [] :: rest.pieces))
def Elses.pieces {α : Type} : Elses α → List (Piece α)
  | .nil => []
  | .cons body more => .dir dElse [] :: (body.pieces ++ more.pieces)
end

mutual
/-- The text that counts has this value: that of a conditional is the text of its body if the condition holds, and of what follows
    `@else` if not. The conditions outside of the text that counts may be anything. With several `@else`, every other document
    counts. -/
inductive Doc.Counts {α : Type} (consts : Consts) : Doc α → List α → Prop
  | nil : Doc.Counts consts .nil []
  | text {t rest k} : Doc.Counts consts rest k → Doc.Counts consts (.text t rest) (t :: k)
  | yes {c body elses rest k l m} : Holds consts c true → Doc.Counts consts body k → Elses.Counts consts false elses l →
      Doc.Counts consts rest m → Doc.Counts consts (.cond c body elses rest) (k ++ (l ++ m))
  | no {c body elses rest l m} : Holds consts c false → Elses.Counts consts true elses l →
      Doc.Counts consts rest m → Doc.Counts consts (.cond c body elses rest) (l ++ m)
inductive Elses.Counts {α : Type} (consts : Consts) : Bool → Elses α → List α → Prop
  | nil {on} : Elses.Counts consts on .nil []
  | yes {body more k l} : Doc.Counts consts body k → Elses.Counts consts false more l →
      Elses.Counts consts true (.cons body more) (k ++ l)
  | no {body more l} : Elses.Counts consts true more l → Elses.Counts consts false (.cons body more) l
end

mutual
/-- Every conditional has at most one `@else`. -/
def Doc.documented {α : Type} : Doc α → Prop
  | .nil => True
  | .text _ rest => rest.documented
  | .cond _ body elses rest => body.documented ∧ elses.atMostOne ∧ elses.documented ∧ rest.documented
def Elses.documented {α : Type} : Elses α → Prop
  | .nil => True
  | .cons body more => body.documented ∧ more.documented
end

/-- A source file: a document, maybe ending within conditionals that are not closed. -/
inductive File (α : Type) where
  | done (d : Doc α)
  /-- A document; `@if c`; further documents with `@else` after each; and the last branch, to which the rest of the file belongs. -/
  | unclosed (d : Doc α) (c : Str) (branches : List (Doc α)) (last : File α)

/-- The pieces of a file. -/
def File.pieces {α : Type} : File α → List (Piece α)
  | .done d => d.pieces
  | .unclosed d c branches last =>
    d.pieces ++ .dir dIf c :: (branches.flatMap (fun b => b.pieces ++ [.dir dElse []]) ++ last.pieces)

/-- Selecting every other document, `on` for the first one; then `on'` is for the one after them. -/
inductive Alternate {α : Type} (consts : Consts) : Bool → List (Doc α) → Bool → List α → Prop
  | nil {on} : Alternate consts on [] on []
  | yes {d ds on' k l} : d.Counts consts k → Alternate consts false ds on' l → Alternate consts true (d :: ds) on' (k ++ l)
  | no {d ds on' l} : Alternate consts true ds on' l → Alternate consts false (d :: ds) on' l

/-- The text of a file that counts. -/
inductive File.Counts {α : Type} (consts : Consts) : File α → List α → Prop
  | done {d k} : d.Counts consts k → File.Counts consts (.done d) k
  | on {d c branches last b k l m} : d.Counts consts k → Holds consts c b → Alternate consts b branches true l →
      File.Counts consts last m → File.Counts consts (.unclosed d c branches last) (k ++ (l ++ m))
  | off {d c branches last b k l} : d.Counts consts k → Holds consts c b → Alternate consts b branches false l →
      File.Counts consts (.unclosed d c branches last) (k ++ l)

end Verif.Front
