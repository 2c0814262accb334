import Verif.Front.EmitSpec

/-!
# From expressions to C++ text

Models the translation of expressions into C++ text: which operators the code generator writes with
brackets and which it writes bare, relying on the precedence of C++ to group the operands as the
AST does.

Sources: `hilti/toolchain/src/compiler/codegen/operators.cc`, `expressions.cc` 31-135 and 234-242,
`coercions.cc`; the shape of the ASTs is that of `spicy/toolchain/src/compiler/parser/parser.yy` 351-366 and 1020-1117
(the HILTI parser has the same table, `hilti/toolchain/src/compiler/parser/parser.yy` 307-322).

Simplifications: one operator stands for all those of the same format (`a + b` for integers, reals, bytes, intervals ...);
constants, variables, `self`, constructors and casts are names (they are written as names, braced or as calls);
not modelled are list comprehensions, groupings with a local variable, tuple assignment, negative real constants
(written bare, `-0x1p+2`) and the differences between left-hand and right-hand sides.
-/

namespace Verif.Front.Emit

/-- The binary operators of Spicy, told apart by how they are written in C++.

* `set` (expressions.cc:31), `addA`, `subA`, `mulA`, `divA` (operators.cc, e.g. 1023, 1026, 1035, 1041) are infix, `append` is `+=` on
  bytes and streams (152-154, 771-772);
* `lor`, `land` (expressions.cc:127, 134);
* `inMap`: `in` on maps, sets and networks (434, 479, 662); `inFind`: on bytes and stream views (159, 711-716); `ninMap`, `ninFind`: `!in`
  (parser.yy:1077: the negation of `in`);
* comparisons, infix for all types;
* `bAnd`, `bOr`, `bXor`: on bool (108-110); `iAnd`, `iOr`, `iXor`, `shl`, `shr`: on integers (1163-1165, 1205-1206);
* `add`, `sub`, `mul`, `div`, `mod`: infix; `fmod`: `%` on reals and strings (498, 824); `pow` (501, 1036, 1202). -/
inductive SBin
  | set | addA | subA | mulA | divA | append
  | lor | land
  | inMap | inFind | ninMap | ninFind
  | eq | ne | lt | gt | le | ge
  | bOr | iOr | bXor | iXor | bAnd | iAnd
  | shl | shr
  | add | sub | mul | div | mod | fmod | pow
  deriving DecidableEq, Repr

/-- The unary operators.

* prefix: `not` (expressions.cc:130), `derefIt` `*` on iterators (operators.cc:130, 416, 428, 657, 675, 1263), `derefRef` on references (871),
  `derefOpt` on optionals and results (522, 640), `compl` (1201), `neg` (502, 1039, 1207), `inc`, `dec` (1021, 1030);
* `size` and `sizeStr`: `|x|` (150, 421, 437, 665, 700, 770; strings: 813);
* postfix: `incP`, `decP` (1020, 1029). -/
inductive SUn
  | not | derefIt | derefRef | derefOpt | compl | neg | inc | dec
  | size | sizeStr
  | incP | decP
  deriving DecidableEq, Repr

/-- Coercions inserted by the compiler, told apart by how they are written (coercions.cc): `fn` as a call or braced
(43, 59, 119, 125, 139, 154, 174-180, 262-268, 279, 306-311), `star` as `(*x)` (130, 290, 316), `method` as `x.m()` (110, 122, 189, 208, 287), `nonzero` as
`(x != T{})` (68, 145). -/
inductive Co
  | fn | star | method | nonzero
  deriving DecidableEq, Repr

/-- Expressions. `bin o sw a b` is the operator `o` applied to `a` and `b` in the order of the source; `sw` says that operator
resolution has swapped the operands (`operator.h:76-84`, `operator-registry.cc`). `group` is a pair of parentheses in the source. Arguments of calls and
the indices are expressions, several arguments are separated by `comma`. -/
inductive Ex
  | name (n : String)
  | group (e : Ex)
  | bin (o : SBin) (sw : Bool) (a b : Ex)
  | tern (c a b : Ex)
  | un (o : SUn) (a : Ex)
  | index (a i : Ex)
  | field (a : Ex) (f : String)
  | call0 (f : Ex)
  | call (f args : Ex)
  | comma (a b : Ex)
  | co (k : Co) (a : Ex)
  deriving DecidableEq, Repr

/-- How a binary operator is written. -/
inductive Fmt
  /-- `%s op %s` -/
  | infix (o : BOp)
  /-- `%s op= %s` -/
  | assign (o : AOp)
  /-- `(%s op %s)` -/
  | paren (o : BOp)
  /-- `(%s) op (%s)` -/
  | wrapped (o : BOp)
  /-- `f(%s, %s)` -/
  | fn (f : String)
  /-- `%s.m(%s)` -/
  | method (m : String)
  /-- `%s.m(%s)` with the operands swapped -/
  | methodRev (m : String)
  /-- `f(%s.m(%s))` with the operands swapped -/
  | fnMethodRev (f m : String)
  /-- `! (%s.m(%s))` with the operands swapped -/
  | notMethodRev (m : String)
  /-- `! (f(%s.m(%s)))` with the operands swapped -/
  | notFnMethodRev (f m : String)

/-- The format of each binary operator; for the lines see `SBin`. -/
def SBin.fmt : SBin → Fmt
  | .set => .assign .set
  | .addA => .assign .addA
  | .subA => .assign .subA
  | .mulA => .assign .mulA
  | .divA => .assign .divA
  | .append => .method "append"
  | .lor => .wrapped .lor
  | .land => .wrapped .land
  | .inMap => .methodRev "contains"
  | .inFind => .fnMethodRev "::hilti::rt::tuple::get<0>" "find"
  | .ninMap => .notMethodRev "contains"
  | .ninFind => .notFnMethodRev "::hilti::rt::tuple::get<0>" "find"
  | .eq => .infix .eq
  | .ne => .infix .ne
  | .lt => .infix .lt
  | .gt => .infix .gt
  | .le => .infix .le
  | .ge => .infix .ge
  | .bOr => .infix .bor
  | .iOr => .paren .bor
  | .bXor => .infix .bxor
  | .iXor => .paren .bxor
  | .bAnd => .infix .band
  | .iAnd => .paren .band
  | .shl => .paren .shl
  | .shr => .paren .shr
  | .add => .infix .add
  | .sub => .infix .sub
  | .mul => .infix .mul
  | .div => .infix .div
  | .mod => .infix .mod
  | .fmod => .fn "std::fmod"
  | .pow => .fn "::hilti::rt::pow"

/-- the text `( ts )` -/
def par (ts : List Tok) : List Tok := .lpar :: (ts ++ [.rpar])

/-- the text `xs . m ( ys )` -/
def methodText (xs : List Tok) (m : String) (ys : List Tok) : List Tok :=
  (xs ++ [.dot, .name m]) ++ .lpar :: (ys ++ [.rpar])

/-- the text `f ( xs )` -/
def fnText (f : String) (xs : List Tok) : List Tok := [.name f] ++ .lpar :: (xs ++ [.rpar])

/-- The text of a binary operator, from the texts of its operands. -/
def Fmt.text : Fmt → List Tok → List Tok → List Tok
  | .infix o, xs, ys => xs ++ .op o :: ys
  | .assign o, xs, ys => xs ++ .asg o :: ys
  | .paren o, xs, ys => par (xs ++ .op o :: ys)
  | .wrapped o, xs, ys => par xs ++ .op o :: par ys
  | .fn f, xs, ys => fnText f (xs ++ .op .comma :: ys)
  | .method m, xs, ys => methodText xs m ys
  | .methodRev m, xs, ys => methodText ys m xs
  | .fnMethodRev f m, xs, ys => fnText f (methodText ys m xs)
  | .notMethodRev m, xs, ys => .bang :: par (methodText ys m xs)
  | .notFnMethodRev f m, xs, ys => .bang :: par (fnText f (methodText ys m xs))

/-- The text of a unary operator; for the lines see `SUn`. -/
def SUn.text : SUn → List Tok → List Tok
  | .not, xs => .bang :: par xs
  | .derefIt, xs => .op .mul :: xs
  | .derefRef, xs => par (.op .mul :: xs)
  | .derefOpt, xs => (xs ++ [.dot, .name "value"]) ++ [.lpar, .rpar]
  | .compl, xs => .tilde :: xs
  | .neg, xs => par (.op .sub :: xs)
  | .inc, xs => .incr :: xs
  | .dec, xs => .decr :: xs
  | .size, xs => (xs ++ [.dot, .name "size"]) ++ [.lpar, .rpar]
  | .sizeStr, xs => fnText "::hilti::rt::string::size" xs
  | .incP, xs => xs ++ [.incr]
  | .decP, xs => xs ++ [.decr]

/-- The text of a coercion; for the lines see `Co`. -/
def Co.text : Co → List Tok → List Tok
  | .fn, xs => fnText "T" xs
  | .star, xs => par (.op .mul :: xs)
  | .method, xs => (xs ++ [.dot, .name "m"]) ++ [.lpar, .rpar]
  | .nonzero, xs => par (xs ++ .op .ne :: [.name "T{}"])

/-- `CodeGen::compile(Expression*)` (expressions.cc:264, operators.cc): the C++ text of an expression. -/
def emit : Ex → List Tok
  | .name n => [.name n]
  | .group e => par (emit e)
  | .bin o false a b => o.fmt.text (emit a) (emit b)
  | .bin o true a b => o.fmt.text (emit b) (emit a)
  | .tern c a b => par (emit c ++ .quest :: (emit a ++ .colon :: emit b))
  | .un o a => o.text (emit a)
  | .index a i => emit a ++ .lbrack :: (emit i ++ [.rbrack])
  | .field a f => emit a ++ [.dot, .name f]
  | .call0 f => emit f ++ [.lpar, .rpar]
  | .call f args => emit f ++ .lpar :: (emit args ++ [.rpar])
  | .comma a b => emit a ++ .op .comma :: emit b
  | .co k a => k.text (emit a)

/-- The operation a binary operator stands for, with its operands. -/
def Fmt.tree : Fmt → Tree → Tree → Tree
  | .infix o, x, y => .bin o x y
  | .assign o, x, y => .asg o x y
  | .paren o, x, y => .bin o x y
  | .wrapped o, x, y => .bin o x y
  | .fn f, x, y => .call (.name f) (.bin .comma x y)
  | .method m, x, y => .call (.field x m) y
  | .methodRev m, x, y => .call (.field y m) x
  | .fnMethodRev f m, x, y => .call (.name f) (.call (.field y m) x)
  | .notMethodRev m, x, y => .pre .not (.call (.field y m) x)
  | .notFnMethodRev f m, x, y => .pre .not (.call (.name f) (.call (.field y m) x))

/-- The operation a unary operator stands for. -/
def SUn.tree : SUn → Tree → Tree
  | .not, x => .pre .not x
  | .derefIt, x => .pre .deref x
  | .derefRef, x => .pre .deref x
  | .derefOpt, x => .call0 (.field x "value")
  | .compl, x => .pre .compl x
  | .neg, x => .pre .neg x
  | .inc, x => .pre .inc x
  | .dec, x => .pre .dec x
  | .size, x => .call0 (.field x "size")
  | .sizeStr, x => .call (.name "::hilti::rt::string::size") x
  | .incP, x => .post true x
  | .decP, x => .post false x

/-- The operation a coercion stands for. -/
def Co.tree : Co → Tree → Tree
  | .fn, x => .call (.name "T") x
  | .star, x => .pre .deref x
  | .method, x => .call0 (.field x "m")
  | .nonzero, x => .bin .ne x (.name "T{}")

/-- **What the AST means**: every operator applied to its own operands, and nothing else. -/
def means : Ex → Tree
  | .name n => .name n
  | .group e => means e
  | .bin o false a b => o.fmt.tree (means a) (means b)
  | .bin o true a b => o.fmt.tree (means b) (means a)
  | .tern c a b => .cond (means c) (means a) (means b)
  | .un o a => o.tree (means a)
  | .index a i => .sub (means a) (means i)
  | .field a f => .field (means a) f
  | .call0 f => .call0 (means f)
  | .call f args => .call (means f) (means args)
  | .comma a b => .bin .comma (means a) (means b)
  | .co k a => k.tree (means a)

/-- The precedence of the binary operators of Spicy (parser.yy:351-366, `doc/programming/language/precedence.rst`): assignments 1, the
ternary operator 2, ..., `**` 14, unary operators 15, postfix operators 16; 0 is for the arguments of calls. -/
def SBin.prec : SBin → Nat
  | .set | .addA | .subA | .mulA | .divA | .append => 1
  | .lor => 3
  | .land => 4
  | .inMap | .inFind | .ninMap | .ninFind => 5
  | .eq | .ne => 6
  | .lt | .gt | .le | .ge => 7
  | .bOr | .iOr => 8
  | .bXor | .iXor => 9
  | .bAnd | .iAnd => 10
  | .shl | .shr => 11
  | .add | .sub => 12
  | .mul | .div | .mod | .fmod => 13
  | .pow => 14

/-- the operators written before their operand (parser.yy:1059-1065) -/
def SUn.isPrefix : SUn → Bool
  | .not | .derefIt | .derefRef | .derefOpt | .compl | .neg | .inc | .dec => true
  | _ => false

/-- the operators that enclose their operand (parser.yy:1063) -/
def SUn.isSize : SUn → Bool
  | .size | .sizeStr => true
  | _ => false

/-- the operators written after their operand (parser.yy:1069-1070) -/
def SUn.isPostfix : SUn → Bool
  | .incP | .decP => true
  | _ => false

/-- `Parsed l e`: the parser can produce `e` for a piece of source text of precedence `l` or higher (parser.yy:351-366, 1037-1117). All binary
operators except `**` group from left to right, and so does the ternary operator; coercions may be inserted anywhere. -/
inductive Parsed : Nat → Ex → Prop
  | up {l e} (hl : l < 17) (h : Parsed (l + 1) e) : Parsed l e
  | bin {o sw a b} (ho : o ≠ .pow) (ha : Parsed o.prec a) (hb : Parsed (o.prec + 1) b) : Parsed o.prec (.bin o sw a b)
  | pow {sw a b} (ha : Parsed 15 a) (hb : Parsed 14 b) : Parsed 14 (.bin .pow sw a b)
  | tern {c a b} (hc : Parsed 2 c) (ha : Parsed 1 a) (hb : Parsed 3 b) : Parsed 2 (.tern c a b)
  | pre {o a} (ho : o.isPrefix = true) (ha : Parsed 15 a) : Parsed 15 (.un o a)
  | size {o a} (ho : o.isSize = true) (ha : Parsed 1 a) : Parsed 17 (.un o a)
  | post {o a} (ho : o.isPostfix = true) (ha : Parsed 16 a) : Parsed 16 (.un o a)
  | index {a i} (ha : Parsed 16 a) (hi : Parsed 1 i) : Parsed 16 (.index a i)
  | field {a} (f : String) (ha : Parsed 16 a) : Parsed 16 (.field a f)
  | call0 {f} (hf : Parsed 16 f) : Parsed 16 (.call0 f)
  | call {f args} (hf : Parsed 16 f) (ha : Parsed 0 args) : Parsed 16 (.call f args)
  | comma {a b} (ha : Parsed 0 a) (hb : Parsed 1 b) : Parsed 0 (.comma a b)
  | group {e} (h : Parsed 1 e) : Parsed 17 (.group e)
  | name (n : String) : Parsed 17 (.name n)
  | co {k l a} (hl : 1 ≤ l) (h : Parsed l a) : Parsed l (.co k a)

/-- `%s op %s`, `%s op= %s` and `(%s) op (%s)` -/
def Fmt.isInfix : Fmt → Bool
  | .infix _ | .assign _ | .wrapped _ => true
  | _ => false

/-- the operand is an application of `&`, `|`, `^` to bools, without parentheses -/
def isBoolBit : Ex → Bool
  | .bin .bAnd _ _ _ | .bin .bOr _ _ _ | .bin .bXor _ _ _ => true
  | _ => false

/-- the operand is an application of `&&`, `||`, without parentheses -/
def isLogic : Ex → Bool
  | .bin .land _ _ _ | .bin .lor _ _ _ => true
  | _ => false

/-- the operand is an assignment that is written infix, without parentheses -/
def isAssign : Ex → Bool
  | .bin .set _ _ _ | .bin .addA _ _ _ | .bin .subA _ _ _ | .bin .mulA _ _ _ | .bin .divA _ _ _ => true
  | _ => false

/-- the operand is written infix, without parentheses -/
def isInfix : Ex → Bool
  | .bin o _ _ _ => o.fmt.isInfix
  | .comma _ _ => true
  | _ => false

/-- the operand is written with a prefix operator, without parentheses -/
def isPre : Ex → Bool
  | .bin .ninMap _ _ _ | .bin .ninFind _ _ _ => true
  | .un .not _ | .un .derefIt _ | .un .compl _ | .un .inc _ | .un .dec _ => true
  | _ => false

/-- the operand is written infix or with a prefix operator, without parentheses -/
def isBare (e : Ex) : Bool := isInfix e || isPre e

/-- the operand is an infix operator of the same precedence, without parentheses -/
def sameLevel (o : SBin) : Ex → Bool
  | .bin o' _ _ _ => o'.prec == o.prec && o'.fmt.isInfix
  | _ => false

/-- the comparison operators -/
def SBin.isCmp : SBin → Bool
  | .eq | .ne | .lt | .gt | .le | .ge => true
  | _ => false

/-- the assignment operators that are written infix -/
def SBin.isAssignOp : SBin → Bool
  | .set | .addA | .subA | .mulA | .divA => true
  | _ => false

/-- the operators HILTI considers commutative (operator.h:76-84): only these can be swapped -/
def SBin.isComm : SBin → Bool
  | .eq | .ne | .bOr | .iOr | .bXor | .iXor | .bAnd | .iAnd | .add | .mul => true
  | _ => false

/-- operators of which one operand becomes the object of a C++ method call; `isRecvRight` if it is the right one -/
def SBin.isRecvRight : SBin → Bool
  | .inMap | .inFind | .ninMap | .ninFind => true
  | _ => false

/-- What codegen relies on beyond the precedences, node by node:

* `&`, `|`, `^` on bools is not, without parentheses, an operand of a comparison;
* the left operand of an assignment is not, without parentheses, an assignment;
* the right operand of `in`, the operand of `|..|`, of `*` on an optional, the left operand of `+=` on bytes, and an operand that
  is coerced by a method is not written bare; one that is coerced by a dereference is not written infix, and one that is coerced by a
  comparison is not, without parentheses, an assignment or a logical operator;
* if the operands of an operator have been swapped, the left one was not an operator of the same precedence. -/
def Plain : Ex → Prop
  | .name _ => True
  | .group e => Plain e
  | .bin o sw a b =>
    Plain a ∧ Plain b ∧
    (o.isCmp = true → isBoolBit a = false ∧ isBoolBit b = false) ∧
    (o.isAssignOp = true → isAssign a = false) ∧
    (o.isRecvRight = true → isBare b = false) ∧
    (o = .append → isBare a = false) ∧
    (sw = true → o.isComm = true ∧ sameLevel o a = false)
  | .tern c a b => Plain c ∧ Plain a ∧ Plain b
  | .un o a => Plain a ∧ (o = .size ∨ o = .derefOpt → isBare a = false)
  | .index a i => Plain a ∧ Plain i
  | .field a _ => Plain a
  | .call0 f => Plain f
  | .call f args => Plain f ∧ Plain args
  | .comma a b => Plain a ∧ Plain b
  | .co k a =>
    Plain a ∧
    (k = .method → isBare a = false) ∧
    (k = .star → isInfix a = false) ∧
    (k = .nonzero → isAssign a = false ∧ isLogic a = false ∧ isBoolBit a = false)

end Verif.Front.Emit
