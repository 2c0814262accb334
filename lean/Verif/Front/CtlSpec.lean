import Verif.Front.Ctl
/-!
# What statements mean, and what the C++ means

`src` is what a statement of the language does (`doc/programming/language/statements.rst`), `cxx` what a C++ statement does. Both are
functions of the number of rounds that every loop may take at most; they return nothing if a loop takes more.
-/

namespace Verif.Front.Ctl

/-- How a statement ends: `goto` only in C++. -/
inductive O (V G : Type) where
  | norm | brk | cont
  | goto (l : G)
  | ret (v : V)
  | exn (v : V)
  | ub
  deriving DecidableEq

/-- The result of a statement. -/
abbrev Run (V W G : Type) := Option (O V G × St V W)

/-- An expression, and what is done with its value. -/
def andThen {V W G : Type} : R V × St V W → (V → St V W → Run V W G) → Run V W G
  | (.val v, σ), k => k v σ
  | (.exn v, σ), _ => some (.exn v, σ)
  | (.ub, σ), _ => some (.ub, σ)

/-- The end of a scope that was entered with the variables of the first state. -/
def leave {V W G : Type} (σ : St V W) (r : Run V W G) : Run V W G :=
  r.map fun (o, σ') => (o, (σ'.1.drop (σ'.1.length - σ.1.length), σ'.2))

/-- A new variable. -/
def bind {V W : Type} (x : Nat) (v : V) (σ : St V W) : St V W := ((x, some v) :: σ.1, σ.2)

/-- A loop: a test, which may declare variables for the round, the body, and what is done when the test fails. -/
def whileN {V W G : Type} (L : Lib V W) (test : St V W → R V × St V W) (body els : St V W → Run V W G) : Nat → St V W → Run V W G
  | 0, _ => none
  | n + 1, σ => match test σ with
    | (.val v, σ₁) =>
      if L.truth v then
        match leave σ (body σ₁) with
        | some (.norm, σ₂) => whileN L test body els n σ₂
        | some (.cont, σ₂) => whileN L test body els n σ₂
        | some (.brk, σ₂) => some (.norm, σ₂)
        | r => r
      else leave σ (els σ₁)
    | (.exn v, σ₁) => leave σ (some (.exn v, σ₁))
    | (.ub, σ₁) => leave σ (some (.ub, σ₁))

/-- A loop over the elements of a sequence. -/
def eachN {V W G : Type} (L : Lib V W) (x : Nat) (body : St V W → Run V W G) : Nat → V → St V W → Run V W G
  | 0, _, _ => none
  | n + 1, v, σ => match L.next v σ.2 with
    | none => some (.norm, σ)
    | some (a, v') => match leave σ (body (bind x a σ)) with
      | some (.norm, σ₂) => eachN L x body n v' σ₂
      | some (.cont, σ₂) => eachN L x body n v' σ₂
      | some (.brk, σ₂) => some (.norm, σ₂)
      | r => r

/-! ### The language -/

/-- A variable that is declared with a value: `e` is not in its scope. -/
def local_ {V W G : Type} (L : Lib V W) (x : Nat) (e : Expr V) (σ : St V W) (k : St V W → Run V W G) : Run V W G :=
  andThen (eval L e σ) fun v σ' => k (bind x v σ')

/-- The test of a loop with a variable: it is declared for each round. -/
def initTest {V W : Type} (L : Lib V W) (x : Nat) (e : Expr V) (σ : St V W) : R V × St V W := match eval L e σ with
  | (.val v, σ') => (.val v, bind x v σ')
  | r => r

/-- Is the value of the variable one of those of the expressions? They are evaluated in order, up to the first that is. -/
def matches_ {V W : Type} (L : Lib V W) (x : Nat) : List (CaseExpr V) → St V W → R V × St V W
  | [], σ => (.val (L.bool false), σ)
  | e :: es, σ => match get x σ.1 with
    | .val v => match eval L e.expr σ with
      | (.val u, σ') => if L.eqv v u then (.val (L.bool true), σ') else matches_ L x es σ'
      | r => r
    | r => (r, σ)

mutual
/-- A statement. -/
def src {V W : Type} (L : Lib V W) (n : Nat) : Stmt V → St V W → Run V W Empty
  | .expr e, σ => andThen (eval L e σ) fun _ σ' => some (.norm, σ')
  | .decl x e, σ => local_ L x e σ fun σ' => some (.norm, σ')
  | .block b, σ => leave σ (srcB L n b σ)
  | .assert e msg, σ => andThen (eval L e σ) fun v σ' =>
      if L.truth v then some (.norm, σ') else andThen (eval L msg σ') fun m σ'' => some (.exn (L.un 1 m), σ'')
  | .ite none c t f, σ => andThen (eval L c σ) fun v σ' =>
      leave σ' (if L.truth v then srcB L n t σ' else srcB L n f σ')
  | .ite (some (x, e)) c t f, σ => leave σ (local_ L x e σ fun σ₁ => andThen (eval L c σ₁) fun v σ' =>
      leave σ' (if L.truth v then srcB L n t σ' else srcB L n f σ'))
  | .loop _ h body hasElse els, σ =>
    let e := fun σ => if hasElse then srcB L n els σ else some (.norm, σ)
    match h with
    | .cond c => whileN L (eval L c) (srcB L n body) e n σ
    | .init x e₀ => whileN L (initTest L x e₀) (srcB L n body) e n σ
    | .both x e₀ c => leave σ (local_ L x e₀ σ fun σ₁ => whileN L (eval L c) (srcB L n body) e n σ₁)
  | .each _ x e _ body, σ => andThen (eval L e σ) fun v σ' => eachN L x (srcB L n body) n v σ'
  | .switch x e _ cs hasDefault d, σ => leave σ (local_ L x e σ fun σ₁ => srcC L n x cs (fun σ₂ =>
      if hasDefault then leave σ₂ (srcB L n d σ₂) else andThen (get x σ₂.1, σ₂) fun v σ₃ => some (.exn (L.un 0 v), σ₃)) σ₁)
  | .brk, σ => some (.brk, σ)
  | .cont, σ => some (.cont, σ)
  | .ret e, σ => andThen (eval L e σ) fun v σ' => some (.ret v, σ')
  | .throw e, σ => andThen (eval L e σ) fun v σ' => some (.exn v, σ')
  | .try_ b cs, σ => match leave σ (srcB L n b σ) with
    | some (.exn v, σ') => srcH L n cs v σ'
    | r => r
/-- A block. -/
def srcB {V W : Type} (L : Lib V W) (n : Nat) : Stmts V → St V W → Run V W Empty
  | .nil, σ => some (.norm, σ)
  | .cons s ss, σ => match src L n s σ with
    | some (.norm, σ') => srcB L n ss σ'
    | r => r
/-- The first case that matches, or the default. -/
def srcC {V W : Type} (L : Lib V W) (n : Nat) (x : Nat) : Cases V → (St V W → Run V W Empty) → St V W → Run V W Empty
  | .nil, d, σ => d σ
  | .cons es b cs, d, σ => andThen (matches_ L x es σ) fun v σ' => 
      if L.truth v then leave σ' (srcB L n b σ') else srcC L n x cs d σ'
/-- The first handler that matches. -/
def srcH {V W : Type} (L : Lib V W) (n : Nat) : Catches V → V → St V W → Run V W Empty
  | .nil, v, σ => some (.exn v, σ)
  | .cons none b _, _, σ => leave σ (srcB L n b σ)
  | .cons (some (t, x)) b cs, v, σ => if L.isA t v then leave σ (srcB L n b (bind x v σ)) else srcH L n cs v σ
end

/-! ### C++ -/

/-- `T x = e;`: the variable is in scope in `e`, without a value. It is gone if there is an exception. -/
def declare {V W G : Type} (L : Lib V W) (x : Nat) (e : Expr V) (σ : St V W) (k : St V W → Run V W G) : Run V W G :=
  match eval L e ((x, none) :: σ.1, σ.2) with
  | (.val v, σ') => k (put x v σ'.1, σ'.2)
  | (.exn v, σ') => some (.exn v, (σ'.1.drop 1, σ'.2))
  | (.ub, σ') => some (.ub, (σ'.1.drop 1, σ'.2))

/-- The test of `while ( T x = e )`. -/
def declTest {V W : Type} (L : Lib V W) (x : Nat) (e : Expr V) (σ : St V W) : R V × St V W :=
  match eval L e ((x, none) :: σ.1, σ.2) with
  | (.val v, σ') => (.val v, (put x v σ'.1, σ'.2))
  | (r, σ') => (r, (σ'.1.drop 1, σ'.2))

mutual
/-- A C++ statement. Not said: a `goto` to a label in a block that does not enclose it, or to one before it. -/
def cxx {V W : Type} (L : Lib V W) (n : Nat) : CS V → St V W → Run V W Nat
  | .expr e, σ => andThen (eval L e σ) fun _ σ' => some (.norm, σ')
  | .decl x e, σ => declare L x e σ fun σ' => some (.norm, σ')
  | .declOnly x, σ => some (.norm, ((x, none) :: σ.1, σ.2))
  | .block b, σ => leave σ (cxxB L n b σ)
  | .bare b, σ => cxxB L n b σ
  | .loc, σ => some (.norm, σ)
  | .ite none c t f, σ => andThen (eval L c σ) fun v σ' =>
      leave σ' (if L.truth v then cxxB L n t σ' else cxxB L n f σ')
  | .ite (some (x, e)) c t f, σ => leave σ (declare L x e σ fun σ₁ => andThen (eval L c σ₁) fun v σ' =>
      leave σ' (if L.truth v then cxxB L n t σ' else cxxB L n f σ'))
  | .while_ c b, σ => whileN L (eval L c) (cxxB L n b) (fun σ => some (.norm, σ)) n σ
  | .forever b, σ => whileN L (fun σ => (.val (L.bool true), σ)) (cxxB L n b) (fun σ => some (.norm, σ)) n σ
  | .whileDecl x e b, σ => whileN L (declTest L x e) (cxxB L n b) (fun σ => some (.norm, σ)) n σ
  | .for_ x e c b, σ => leave σ (declare L x e σ fun σ₁ => whileN L (eval L c) (cxxB L n b) (fun σ => some (.norm, σ)) n σ₁)
  | .range x e b, σ => andThen (eval L e σ) fun v σ' => eachN L x (cxxB L n b) n v σ'
  | .switch x e cs d, σ => match leave σ (declare L x e σ fun σ₁ => andThen (get x σ₁.1, σ₁) fun v σ₂ =>
      cxxC L n v cs (cxxB L n d) σ₂) with
    | some (.brk, σ') => some (.norm, σ')
    | r => r
  | .brk, σ => some (.brk, σ)
  | .cont, σ => some (.cont, σ)
  | .goto l, σ => some (.goto l, σ)
  | .label _, σ => some (.norm, σ)
  | .ret e, σ => andThen (eval L e σ) fun v σ' => some (.ret v, σ')
  | .throw e, σ => andThen (eval L e σ) fun v σ' => some (.exn v, σ')
  | .try_ b cs, σ => match leave σ (cxxB L n b σ) with
    | some (.exn v, σ') => cxxH L n cs v σ'
    | r => r
/-- The statements of a C++ block. -/
def cxxB {V W : Type} (L : Lib V W) (n : Nat) : CB V → St V W → Run V W Nat
  | .nil, σ => some (.norm, σ)
  | .cons s ss, σ => match cxx L n s σ with
    | some (.norm, σ') => cxxB L n ss σ'
    | some (.goto l, σ') => seek L n l ss σ'
    | r => r
/-- The rest of a block behind a label, if it is there. -/
def seek {V W : Type} (L : Lib V W) (n : Nat) (l : Nat) : CB V → St V W → Run V W Nat
  | .nil, σ => some (.goto l, σ)
  | .cons (.label l') ss, σ => if l = l' then cxxB L n ss σ else seek L n l ss σ
  | .cons _ ss, σ => seek L n l ss σ
/-- The first case with the value. -/
def cxxC {V W : Type} (L : Lib V W) (n : Nat) (v : V) : CC V → (St V W → Run V W Nat) → St V W → Run V W Nat
  | .nil, d, σ => leave σ (d σ)
  | .cons vs b cs, d, σ =>
    if vs.any (L.eqv v) then
      match leave σ (cxxB L n b σ) with
      | some (.norm, σ') => fall L n cs d σ'
      | r => r
    else cxxC L n v cs d σ
/-- The cases that are reached without a `break`. -/
def fall {V W : Type} (L : Lib V W) (n : Nat) : CC V → (St V W → Run V W Nat) → St V W → Run V W Nat
  | .nil, d, σ => leave σ (d σ)
  | .cons _ b cs, d, σ => match leave σ (cxxB L n b σ) with
    | some (.norm, σ') => fall L n cs d σ'
    | r => r
/-- The first handler that matches. -/
def cxxH {V W : Type} (L : Lib V W) (n : Nat) : CH V → V → St V W → Run V W Nat
  | .nil, v, σ => some (.exn v, σ)
  | .cons none b _, _, σ => leave σ (cxxB L n b σ)
  | .cons (some (t, x)) b cs, v, σ => if L.isA t v then leave σ (cxxB L n b (bind x v σ)) else cxxH L n cs v σ
end

/-- The same result of a function on both sides: neither `break` nor `goto` are left. -/
inductive Agree {V W : Type} : Run V W Empty → Run V W Nat → Prop
  /-- too many rounds -/
  | none : Agree none none
  | norm (σ) : Agree (some (.norm, σ)) (some (.norm, σ))
  | cont (σ) : Agree (some (.cont, σ)) (some (.cont, σ))
  | ret (v σ) : Agree (some (.ret v, σ)) (some (.ret v, σ))
  | exn (v σ) : Agree (some (.exn v, σ)) (some (.exn v, σ))
  | ub (σ) : Agree (some (.ub, σ)) (some (.ub, σ))

/-! ### Programs for which the C++ does what the statements say -/

mutual
/-- A `continue` for the loop around the statement. -/
def Stmt.conts {V : Type} : Stmt V → Bool
  | .cont => true
  | .block b => b.conts
  | .ite _ _ t f => t.conts || f.conts
  | .switch _ _ _ cs _ d => cs.conts || d.conts
  | .try_ b cs => b.conts || cs.conts
  | _ => false
def Stmts.conts {V : Type} : Stmts V → Bool
  | .nil => false
  | .cons s ss => s.conts || ss.conts
def Cases.conts {V : Type} : Cases V → Bool
  | .nil => false
  | .cons _ b cs => b.conts || cs.conts
def Catches.conts {V : Type} : Catches V → Bool
  | .nil => false
  | .cons _ b cs => b.conts || cs.conts
end

mutual
/-- Is there nothing but a declaration in the block? -/
def Stmt.lone {V : Type} : Stmt V → Bool
  | .decl _ _ => true
  | .block b => b.lone
  | _ => false
def Stmts.lone {V : Type} : Stmts V → Bool
  | .cons s .nil => s.lone
  | _ => false
end

/-- Do all the constants have the type of the control expression? -/
def Cases.allSame {V : Type} : Cases V → Bool
  | .nil => true
  | .cons es _ cs => es.all (fun | .const _ same => same | .dyn _ => false) && cs.allSame

/-- The initial value of a variable does not mention the variable. -/
def Head.Ok {V : Type} : Head V → Prop
  | .cond _ => True
  | .init x e => x ∉ e.names
  | .both x e _ => x ∉ e.names

mutual
/-- Every loop has an identity of its own, no initial value mentions the variable it is for, no block is a lone declaration (unless code for
locations is generated), a loop with an `else` has no `break`, and no `continue` in the `else`; the constants of a `switch` have the type
of its control expression, and if it is not for integers it does not just have a default. -/
def Ok {V : Type} (t : Bool) (cur : Nat) : Stmt V → Prop
  | .decl x e => x ∉ e.names
  | .block b => OkB t cur b ∧ (t = true ∨ b.lone = false)
  | .ite i _ a b => (∀ x e, i = some (x, e) → x ∉ e.names) ∧ OkB t cur a ∧ OkB t cur b
  | .loop id h body hasElse els => id ≠ cur ∧ h.Ok ∧ OkB t id body ∧
      (hasElse = true → OkB t id els ∧ body.breaks = false ∧ els.breaks = false ∧ els.conts = false)
  | .each id _ _ _ body => id ≠ cur ∧ OkB t id body
  | .switch x e i cs hasDefault d => x ∉ e.names ∧ OkC t cur cs ∧ (hasDefault = true → OkB t cur d) ∧
      (if i && cs.allConst then cs.allSame = true else cs = .nil → hasDefault = false)
  | .try_ b cs => OkB t cur b ∧ OkH t cur cs
  | _ => True
def OkB {V : Type} (t : Bool) (cur : Nat) : Stmts V → Prop
  | .nil => True
  | .cons s ss => Ok t cur s ∧ OkB t cur ss
def OkC {V : Type} (t : Bool) (cur : Nat) : Cases V → Prop
  | .nil => True
  | .cons es b cs => es ≠ [] ∧ OkB t cur b ∧ OkC t cur cs
def OkH {V : Type} (t : Bool) (cur : Nat) : Catches V → Prop
  | .nil => True
  | .cons _ b cs => OkB t cur b ∧ OkH t cur cs
end

end Verif.Front.Ctl
