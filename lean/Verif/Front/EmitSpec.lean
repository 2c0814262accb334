/-!
# The grammar of C++ expressions

Specification for C87, independent of the code generator: how a C++ compiler groups a sequence of
tokens.  This is the grammar of the C++ standard ([expr.prim] to [expr.comma]), restricted to the tokens the
code generator writes for operators: names and literals, parentheses, calls, subscripts, member access,
prefix and postfix operators, the binary operators, `?:`, the assignment operators and the comma.

Not covered: casts in C style, templates and lambdas as separate tokens (`get<0>` and `static_cast<T>` are one name here),
pointer-to-member operators, `<=>`.
-/

namespace Verif.Front.Emit

/-- The binary operators of C++ that group from left to right. -/
inductive BOp
  | comma | lor | land | bor | bxor | band
  | eq | ne | lt | gt | le | ge | shl | shr | add | sub | mul | div | mod
  deriving DecidableEq, Repr

/-- The assignment operators of C++. -/
inductive AOp
  | set | addA | subA | mulA | divA
  deriving DecidableEq, Repr

/-- The prefix operators of C++. -/
inductive PreOp
  | neg | plus | deref | addr | compl | not | inc | dec
  deriving DecidableEq, Repr

/-- The tokens of C++ expressions. A binary `-`, `+`, `*`, `&` is the same token as the unary one. -/
inductive Tok
  | name (n : String)
  | op (o : BOp)
  | asg (o : AOp)
  | quest | colon | dot | lbrack | rbrack | lpar | rpar | tilde | bang | incr | decr
  deriving DecidableEq, Repr

/-- What a C++ compiler makes of an expression; parentheses leave no trace. -/
inductive Tree
  | name (n : String)
  | bin (o : BOp) (a b : Tree)
  | asg (o : AOp) (a b : Tree)
  | cond (c a b : Tree)
  | pre (o : PreOp) (a : Tree)
  | post (inc : Bool) (a : Tree)
  | field (a : Tree) (f : String)
  | sub (a i : Tree)
  | call0 (f : Tree)
  | call (f args : Tree)
  deriving DecidableEq, Repr

/-- The precedence of the binary operators: the level of [expr.comma] is 0, that of assignments and `?:` 1, that
of multiplicative expressions 11, of unary expressions 12, of postfix expressions 13 and of primary
expressions 14. -/
def BOp.level : BOp → Nat
  | .comma => 0
  | .lor => 2
  | .land => 3
  | .bor => 4
  | .bxor => 5
  | .band => 6
  | .eq | .ne => 7
  | .lt | .gt | .le | .ge => 8
  | .shl | .shr => 9
  | .add | .sub => 10
  | .mul | .div | .mod => 11

/-- The tokens of the prefix operators. -/
def PreOp.tok : PreOp → Tok
  | .neg => .op .sub
  | .plus => .op .add
  | .deref => .op .mul
  | .addr => .op .band
  | .compl => .tilde
  | .not => .bang
  | .inc => .incr
  | .dec => .decr

/-- The tokens of the postfix operators. -/
def postTok : Bool → Tok
  | true => .incr
  | false => .decr

/-- `Cxx l ts t`: the tokens `ts` are, by the grammar of C++, an expression of level `l` with the tree `t`. -/
inductive Cxx : Nat → List Tok → Tree → Prop
  /-- every expression of a level is one of the level below -/
  | up {l ts t} (hl : l < 14) (h : Cxx (l + 1) ts t) : Cxx l ts t
  /-- binary operators group from left to right -/
  | bin (o : BOp) {as bs a b} (ha : Cxx o.level as a) (hb : Cxx (o.level + 1) bs b) :
      Cxx o.level (as ++ .op o :: bs) (.bin o a b)
  /-- assignments group from right to left -/
  | asg (o : AOp) {as bs a b} (ha : Cxx 2 as a) (hb : Cxx 1 bs b) : Cxx 1 (as ++ .asg o :: bs) (.asg o a b)
  | cond {cs as bs c a b} (hc : Cxx 2 cs c) (ha : Cxx 0 as a) (hb : Cxx 1 bs b) :
      Cxx 1 (cs ++ .quest :: (as ++ .colon :: bs)) (.cond c a b)
  | pre (o : PreOp) {ts t} (h : Cxx 12 ts t) : Cxx 12 (o.tok :: ts) (.pre o t)
  | post (i : Bool) {ts t} (h : Cxx 13 ts t) : Cxx 13 (ts ++ [postTok i]) (.post i t)
  | field {ts t} (f : String) (h : Cxx 13 ts t) : Cxx 13 (ts ++ [.dot, .name f]) (.field t f)
  | sub {ts t is i} (h : Cxx 13 ts t) (hi : Cxx 0 is i) : Cxx 13 (ts ++ .lbrack :: (is ++ [.rbrack])) (.sub t i)
  | call0 {ts t} (h : Cxx 13 ts t) : Cxx 13 (ts ++ [.lpar, .rpar]) (.call0 t)
  | call {ts t as a} (h : Cxx 13 ts t) (ha : Cxx 0 as a) : Cxx 13 (ts ++ .lpar :: (as ++ [.rpar])) (.call t a)
  | par {ts t} (h : Cxx 0 ts t) : Cxx 14 (.lpar :: (ts ++ [.rpar])) t
  | name (n : String) : Cxx 14 [.name n] (.name n)

end Verif.Front.Emit
