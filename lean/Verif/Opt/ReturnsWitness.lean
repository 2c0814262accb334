import Verif.Opt.ReturnsThm

/-!
# C85: a program that is changed, and programs that are broken

`pGood` satisfies all assumptions of `propagate_keeps_partial`, and the pass changes it. Each further program violates one of them, and does something
else after the pass.
-/

namespace Verif.Opt.Ret.Witness

open Whole (Fn Kind)

/-- A list of statements. -/
def stmts : List Stmt → Stmts
  | [] => .nil
  | s :: r => .cons s (stmts r)

/-- A local variable or parameter. -/
def v (i : Nat) : Expr := .name (.loc ⟨i, 0⟩)

/-- It as a target. -/
def t (i : Nat) : Lhs := .name (.loc ⟨i, 0⟩)

/-- A number. -/
def k (i : Int) : Expr := .lit (.int i)

/-- A declaration. -/
def new (i : Nat) (e : Expr) : Stmt := .decl ⟨i, 0⟩ e

/-- A call. -/
def call (f : Fn) (as : List Expr) : Expr := .call f (.ofList as)

/-- `return` of a tuple. -/
def give (as : List Expr) : Stmt := .ret (some (.tup (.ofList as)))

/-- Operator 0 is addition. -/
def M0 : Sem where
  W := Unit
  op := fun _ vs => match vs with
    | [.int a, .int b] => some (.int (a + b))
    | _ => none
  ext := fun _ _ w => (none, [], w)

/-- Everything is 3 at first. -/
def s0 : St M0 := ⟨fun _ => .int 3, ()⟩

/-- The number a computation gives. -/
def num : Comp M0 Val → Option Int
  | some (.val (.int i) _) => some i
  | _ => none

/-- What the function 0 gives. -/
def gives (P : Prog) : Option Int := num (callN M0 P 5 0 [] 0 s0)

/-- What it gives after the pass. -/
def after (P : Prog) : Option Int := gives (propagate id P)

/-! ## A program that stays what it is -/

/-- `main() { local 30 = 5; local 31 = 1; local 32 = 0; (30, 31, 32) = f(30, 31); return 31 + 32; }` -/
def fMain : Fun where
  params := []
  kinds := []
  fixed := true
  body := stmts [new 30 (k 5), new 31 (k 1), new 32 (k 0), .tset [t 30, t 31, t 32] (call 1 [v 30, v 31]), .ret (some (.op 0 (.ofList [v 31, v 32])))]

/-- `f(copy 10, inout 11) { m(10, 11); return (10, 11, 7); }` -/
def fF : Fun where
  params := [10, 11]
  kinds := [.copy, .inout]
  res := some [0, 0, 0]
  body := stmts [.expr (call 2 [v 10, v 11]), give [v 10, v 11, k 7]]

/-- `m(in 20, inout 21) { 21 = 20 + 21; }` -/
def fM : Fun where
  params := [20, 21]
  kinds := [.in_, .inout]
  fixed := true
  method := true
  body := stmts [.set (t 21) (.op 0 (.ofList [v 20, v 21]))]

/-- All of them. -/
def pGood : Prog := [(0, fMain), (1, fF), (2, fM)]

theorem pGood_get {f : Fn} {F : Fun} (h : Prog.get pGood f = some F) : (f = 0 ∧ F = fMain) ∨ (f = 1 ∧ F = fF) ∨ (f = 2 ∧ F = fM) := by
  simp only [pGood, Prog.get] at h
  split at h
  · injection h with h; exact .inl ⟨‹_›, h.symm⟩
  · split at h
    · injection h with h; exact .inr (.inl ⟨‹_›, h.symm⟩)
    · split at h
      · injection h with h; exact .inr (.inr ⟨‹_›, h.symm⟩)
      · cases h

theorem pGood_always {f : Fn} {F : Fun} {i p : Nat} (hF : Prog.get pGood f = some F) (h : AlwaysReturns F i p) :
    f = 1 ∧ F = fF ∧ ((i = 0 ∧ p = 10) ∨ (i = 1 ∧ p = 11)) := by
  rcases pGood_get hF with ⟨rfl, rfl⟩ | ⟨rfl, rfl⟩ | ⟨rfl, rfl⟩
  · exact absurd h.1 (by decide)
  · refine ⟨rfl, rfl, ?_⟩
    obtain ⟨as, h1, h2⟩ := h.2.2 (some (.tup (.ofList [v 10, v 11, k 7]))) (by simp [fF, stmts, Stmts.returns, Stmt.returns, give])
    injection h1 with h1; injection h1 with h1; subst h1
    match i, h2 with
    | 0, h2 => simp [Exprs.ofList, Exprs.toList, v] at h2; exact .inl ⟨rfl, h2.symm⟩
    | 1, h2 => simp [Exprs.ofList, Exprs.toList, v] at h2; exact .inr ⟨rfl, h2.symm⟩
    | 2, h2 => simp [Exprs.ofList, Exprs.toList, k] at h2
    | i + 3, h2 => simp [Exprs.ofList, Exprs.toList] at h2
  · exact absurd h.1 (by decide)

theorem pGood_good : Good pGood where
  compiles := by
    intro f F hF
    rcases pGood_get hF with ⟨rfl, rfl⟩ | ⟨rfl, rfl⟩ | ⟨rfl, rfl⟩
    · exact ⟨rfl, by decide, by simp [fMain]⟩
    · exact ⟨rfl, by decide, by simp [fF]⟩
    · refine ⟨rfl, by decide, fun p hp => ?_⟩
      have : p = 20 := by simpa [fM] using hp
      subst this
      decide
  scopes := by
    intro f F hF
    rcases pGood_get hF with ⟨rfl, rfl⟩ | ⟨rfl, rfl⟩ | ⟨rfl, rfl⟩ <;> exact ⟨by decide, by decide⟩
  tails := by
    intro f F g G hF hx hr hm as h
    have hg : (g = 0 ∧ G = fMain) ∨ (g = 1 ∧ G = fF) ∨ (g = 2 ∧ G = fM) := by simpa [pGood] using hm
    rcases hg with ⟨rfl, rfl⟩ | ⟨rfl, rfl⟩ | ⟨rfl, rfl⟩
    · simp [fMain, stmts, Stmts.returns, Stmt.returns, new] at h
    · simp [fF, stmts, Stmts.returns, Stmt.returns, give] at h
    · simp [fM, stmts, Stmts.returns, Stmt.returns] at h
  steady := by
    intro f F i p hF h
    obtain ⟨rfl, rfl, h⟩ := pGood_always hF h
    refine ⟨fun hp => ?_, fun as has => ?_⟩
    · have hp : p = 10 := by simpa [fF] using hp
      subst hp
      decide
    · have : as = .ofList [v 10, v 11, k 7] := by simpa [fF, stmts, Stmts.returns, Stmt.returns, give] using has
      subst this
      simp [Exprs.ofList, Exprs.writes, Expr.writes, v, k]
  targets := by
    intro g G f F ts as i j p x hG hk hF ha hj haj hx
    obtain ⟨rfl, rfl, h⟩ := pGood_always hF ha
    rcases pGood_get hG with ⟨rfl, rfl⟩ | ⟨rfl, rfl⟩ | ⟨rfl, rfl⟩
    · have hk : ts = [t 30, t 31, t 32] ∧ as = .ofList [v 30, v 31] := by
        simpa [fMain, stmts, Stmts.unpacks, Stmt.unpacks, call, new] using hk
      obtain ⟨rfl, rfl⟩ := hk
      refine ⟨by simp [t], by decide, ?_, ?_⟩
      · intro q hq
        rcases h with ⟨rfl, rfl⟩ | ⟨rfl, rfl⟩
        · have hx' : x = .loc ⟨30, 0⟩ := by simpa [t] using hx.symm
          subst hx'
          match q, hq, j, haj with
          | 0, _, 0, _ => rfl
          | 1, hq, _, _ => simp [Exprs.ofList, Exprs.toList, v] at hq
          | q + 2, hq, _, _ => simp [Exprs.ofList, Exprs.toList] at hq
          | 0, _, 1, hh => simp [Exprs.ofList, Exprs.toList, v] at hh
          | 0, _, j + 2, hh => simp [Exprs.ofList, Exprs.toList] at hh
        · have hx' : x = .loc ⟨31, 0⟩ := by simpa [t] using hx.symm
          subst hx'
          match q, hq, j, haj with
          | 1, _, 1, _ => rfl
          | 0, hq, _, _ => simp [Exprs.ofList, Exprs.toList, v] at hq
          | q + 2, hq, _, _ => simp [Exprs.ofList, Exprs.toList] at hq
          | 1, _, 0, hh => simp [Exprs.ofList, Exprs.toList, v] at hh
          | 1, _, j + 2, hh => simp [Exprs.ofList, Exprs.toList] at hh
      · have hw : ∀ z, z ∉ (Exprs.ofList [v 30, v 31]).writes (Prog.kinds pGood) := by
          intro z; simp [Exprs.ofList, Exprs.writes, Expr.writes, v]
        rcases h with ⟨rfl, rfl⟩ | ⟨rfl, rfl⟩
        · exact ⟨⟨30, 0⟩, by simpa [t] using hx.symm, by simp [Own, fMain], hw _⟩
        · exact ⟨⟨31, 0⟩, by simpa [t] using hx.symm, by simp [Own, fMain], hw _⟩
    · simp [fF, stmts, Stmts.unpacks, Stmt.unpacks, give] at hk
    · simp [fM, stmts, Stmts.unpacks, Stmt.unpacks] at hk

/-- The pass changes it: `f` returns only the 7, and `main` has `32 = f(30, 31)`. -/
theorem pGood_changed : propagate id pGood =
    [(0, { fMain with body := stmts [new 30 (k 5), new 31 (k 1), new 32 (k 0), .set (t 32) (call 1 [v 30, v 31]),
        .ret (some (.op 0 (.ofList [v 31, v 32])))] }),
     (1, { fF with res := none, body := stmts [.expr (call 2 [v 10, v 11]), .ret (some (k 7))] }),
     (2, fM)] := by rfl

/-- It does something: 1 + 5 + 7. -/
theorem pGood_gives : gives pGood = some 13 := by decide

theorem pGood_meaning : ¬ Does M0 pGood 0 [] 0 s0 .ub := by
  rintro ⟨n, h⟩
  match n, h with
  | 0, h => cases h
  | 1, h => cases h
  | 2, h => cases h
  | n + 3, h =>
    have h13 : num (callN M0 pGood (n + 3) 0 [] 0 s0) = some 13 := rfl
    rw [h] at h13
    cases h13

/-- A case of `propagate_keeps_partial`. -/
theorem pGood_same (r : Res M0 Val) : Does M0 (propagate id pGood) 0 [] 0 s0 r ↔ Does M0 pGood 0 [] 0 s0 r :=
  propagate_keeps_partial pGood_good (fun _ _ h => h) (F := fMain) rfl rfl (fun j l h => by simp at h) pGood_meaning r

/-! ## Programs that are broken -/

/-- A function that other code can call, without parameters. -/
def main_ (b : List Stmt) : Fun where
  params := []
  kinds := []
  fixed := true
  body := stmts b

/-- A function with a pair as its result. -/
def pair (ps : List Nat) (ks : List Kind) (b : List Stmt) : Fun where
  params := ps
  kinds := ks
  res := some [0, 0]
  body := stmts b

/-- `m(inout 20) { 20 = 7; return 0; }`, a method. -/
def set7 : Fun where
  params := [20]
  kinds := [.inout]
  fixed := true
  method := true
  body := stmts [.set (t 20) (k 7), .ret (some (k 0))]

/-- `(self.a, 30) = f(30)`: the field is not assigned. -/
def pField : Prog := [
  (0, main_ [new 30 (k 1), .tset [.fld 0, t 30] (call 1 [v 30]), .ret (some (.fld 0))]),
  (1, pair [10] [.copy] [give [k 5, v 10]])]

theorem field_lost : gives pField = some 5 ∧ after pField = some 3 := by decide

/-- `(30, 31) = f(30)` here and `(30, 30) = f(30)` there: nothing is assigned there. -/
def pTwice : Prog := [
  (0, main_ [new 30 (k 1), new 31 (k 2), .tset [t 30, t 31] (call 1 [v 30]), .tset [t 30, t 30] (call 1 [v 30]), .ret (some (v 30))]),
  (1, pair [10] [.copy] [give [v 10, k 5]])]

theorem twice_lost : gives pTwice = some 5 ∧ after pTwice = some 1 := by decide

/-- `(30, 31) = f(30, 30)` where the first parameter is `inout` and changed, and the second is returned: the old value does not come back. -/
def pBoth : Prog := [
  (0, main_ [new 30 (k 1), new 31 (k 2), .tset [t 30, t 31] (call 1 [v 30, v 30]), .ret (some (v 30))]),
  (1, pair [10, 11] [.inout, .copy] [.expr (call 2 [v 10]), give [v 11, k 9]]),
  (2, set7)]

theorem both_lost : gives pBoth = some 1 ∧ after pBoth = some 7 := by decide

/-- `(G, 31) = f(G)` where `f` changes the global `G`: the old value does not come back. -/
def pGlob : Prog := [
  (0, main_ [new 31 (k 2), .set (.name (.glob 0)) (k 1), .tset [.name (.glob 0), t 31] (call 1 [.name (.glob 0)]), .ret (some (.name (.glob 0)))]),
  (1, pair [10] [.copy] [.set (.name (.glob 0)) (k 7), give [v 10, k 9]])]

theorem glob_lost : gives pGlob = some 1 ∧ after pGlob = some 7 := by decide

/-- `h(inout 40, inout 41) { (41, 40) = f(40); }`, called as `h(30, 30)`: the second assignment is missing. -/
def pAlias : Prog := [
  (0, main_ [new 30 (k 1), .expr (call 3 [v 30, v 30]), .ret (some (v 30))]),
  (1, pair [10] [.copy] [give [k 9, v 10]]),
  (3, { params := [40, 41], kinds := [.inout, .inout], fixed := true, body := stmts [.tset [t 41, t 40] (call 1 [v 40])] })]

theorem alias_lost : gives pAlias = some 1 ∧ after pAlias = some 9 := by decide

/-- `f(copy 10) { m(10); return (10, 9); }` where the method `m` changes its argument: the change does not come back. -/
def pPassed : Prog := [
  (0, main_ [new 30 (k 1), new 31 (k 2), .tset [t 30, t 31] (call 1 [v 30]), .ret (some (v 30))]),
  (1, pair [10] [.copy] [.expr (call 2 [v 10]), give [v 10, k 9]]),
  (2, set7)]

theorem passed_lost : gives pPassed = some 7 ∧ after pPassed = some 1 := by decide

/-- `f(copy 10) { { local 10 = 5; return (10, 9); } }`: the variable that has the ID of the parameter does not come back. -/
def pShadow : Prog := [
  (0, main_ [new 30 (k 1), new 31 (k 2), .tset [t 30, t 31] (call 1 [v 30]), .ret (some (v 30))]),
  (1, pair [10] [.copy] [.block (stmts [.decl ⟨10, 1⟩ (k 5), give [.name (.loc ⟨10, 1⟩), k 9]])])]

theorem shadow_lost : gives pShadow = some 5 ∧ after pShadow = some 1 := by decide

/-- `one(copy 10, copy 11) { return (10, 11); }`, `two(copy 10, copy 11) { return one(11, 10); }`, `(30, 31) = two(30, 31)`: nothing is swapped any more. -/
def pSwap : Prog := [
  (0, main_ [new 30 (k 1), new 31 (k 2), .tset [t 30, t 31] (call 2 [v 30, v 31]), .ret (some (v 30))]),
  (2, pair [10, 11] [.copy, .copy] [.ret (some (call 1 [v 11, v 10]))]),
  (1, pair [10, 11] [.copy, .copy] [give [v 10, v 11]])]

theorem swap_lost : gives pSwap = some 2 ∧ after pSwap = some 1 := by decide

/-- `two(copy 10, copy 11) { 10 = 5; return one(10, 11); }`: the 5 does not come back. -/
def pTail : Prog := [
  (0, main_ [new 30 (k 1), new 31 (k 2), .tset [t 30, t 31] (call 2 [v 30, v 31]), .ret (some (v 30))]),
  (2, pair [10, 11] [.copy, .copy] [.set (t 10) (k 5), .ret (some (call 1 [v 10, v 11]))]),
  (1, pair [10, 11] [.copy, .copy] [give [v 10, v 11]])]

theorem tail_lost : gives pTail = some 5 ∧ after pTail = some 1 := by decide

end Verif.Opt.Ret.Witness
