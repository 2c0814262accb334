/-
Specification of the grammar module, independent of the code: symbols,
sentential forms and the textbook derivation relation.  A unit's grammar is a
finite set of right-hand sides for each nonterminal; the sets a look-ahead
decision may depend on (nullable, FIRST, FOLLOW) are defined by derivations
alone.
-/
namespace Verif.Grammar

/-- A grammar symbol: the empty production, a terminal or a nonterminal.
Terminals and nonterminals are named by number (the code names them by unique
strings). -/
inductive Sym where
  | eps
  | t (i : Nat)
  | n (i : Nat)
deriving DecidableEq, Repr

/-- One derivation step: erase an empty symbol, or replace a nonterminal by one
of its right-hand sides. -/
inductive Step (rhss : Nat → List (List Sym)) : List Sym → List Sym → Prop
  | eps (a b : List Sym) : Step rhss (a ++ Sym.eps :: b) (a ++ b)
  | nt (a b : List Sym) (p : Nat) (r : List Sym) (h : r ∈ rhss p) :
      Step rhss (a ++ Sym.n p :: b) (a ++ (r ++ b))

/-- Zero or more derivation steps. -/
inductive Derives (rhss : Nat → List (List Sym)) : List Sym → List Sym → Prop
  | refl (a : List Sym) : Derives rhss a a
  | head {a b c : List Sym} : Step rhss a b → Derives rhss b c → Derives rhss a c

/-- `a` can derive the empty string. -/
def CanVanish (rhss : Nat → List (List Sym)) (a : List Sym) : Prop :=
  Derives rhss a []

/-- `a` can derive something starting with terminal `t`. -/
def CanStart (rhss : Nat → List (List Sym)) (a : List Sym) (t : Nat) : Prop :=
  ∃ b, Derives rhss a (Sym.t t :: b)

/-- In some sentential form of `root`, terminal `t` follows directly after `p`. -/
def CanFollow (rhss : Nat → List (List Sym)) (root p t : Nat) : Prop :=
  ∃ a b, Derives rhss [Sym.n root] (a ++ Sym.n p :: Sym.t t :: b)

/-- `p` occurs in some sentential form of `root`. -/
def Reachable (rhss : Nat → List (List Sym)) (root p : Nat) : Prop :=
  ∃ a b, Derives rhss [Sym.n root] (a ++ Sym.n p :: b)

variable {rhss : Nat → List (List Sym)}

theorem Derives.one {a b : List Sym} (h : Step rhss a b) : Derives rhss a b :=
  .head h (.refl b)

theorem Derives.trans {a b c : List Sym} (h1 : Derives rhss a b) (h2 : Derives rhss b c) :
    Derives rhss a c := by
  induction h1 with
  | refl _ => exact h2
  | head s _ ih => exact .head s (ih h2)

/-- Steps are closed under context. -/
theorem Step.ctx {a b : List Sym} (x y : List Sym) (h : Step rhss a b) :
    Step rhss (x ++ a ++ y) (x ++ b ++ y) := by
  cases h with
  | eps a b =>
    have := Step.eps (rhss := rhss) (x ++ a) (b ++ y)
    simpa [List.append_assoc] using this
  | nt a b p r hr =>
    have := Step.nt (rhss := rhss) (x ++ a) (b ++ y) p r hr
    simpa [List.append_assoc] using this

theorem Derives.ctx {a b : List Sym} (x y : List Sym) (h : Derives rhss a b) :
    Derives rhss (x ++ a ++ y) (x ++ b ++ y) := by
  induction h with
  | refl _ => exact .refl _
  | head s _ ih => exact .head (s.ctx x y) ih

theorem Derives.append_left {a b : List Sym} (x : List Sym) (h : Derives rhss a b) :
    Derives rhss (x ++ a) (x ++ b) := by
  have := h.ctx x []
  simpa using this

theorem Derives.append_right {a b : List Sym} (y : List Sym) (h : Derives rhss a b) :
    Derives rhss (a ++ y) (b ++ y) := by
  have := h.ctx [] y
  simpa using this

theorem Derives.rhs {p : Nat} {r : List Sym} (h : r ∈ rhss p) :
    Derives rhss [Sym.n p] r := by
  have := Step.nt (rhss := rhss) [] [] p r h
  have h2 := Derives.one this
  simpa using h2

theorem Derives.epsilon : Derives rhss [Sym.eps] [] := by
  have := Step.eps (rhss := rhss) [] []
  exact Derives.one this

theorem CanVanish.append {a b : List Sym} (ha : CanVanish rhss a) (hb : CanVanish rhss b) :
    CanVanish rhss (a ++ b) := by
  have h1 : Derives rhss (a ++ b) ([] ++ b) := Derives.append_right b ha
  exact h1.trans hb

end Verif.Grammar
