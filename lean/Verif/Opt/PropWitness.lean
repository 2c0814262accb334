import Verif.Opt.PropRounds
import Verif.Opt.Witness

/-!
# Where value propagation changes behaviour or does not end

Concrete bodies outside the premises of `value_propagation_partial` whose behaviour the pass changes or on which it never ends, and a
body inside them on which it does something.
-/

namespace Verif.Opt

/-- All nodes but the start node. -/
def workNodes (body : List Stmt) : List Node := (allNodes body).filter (· ≠ .start)

/-- One round of value propagation with parameter 50 (20 rounds of either analysis per node suffice for the bodies below). -/
def vpOnce (body : List Stmt) : List Stmt :=
  match dataflow body (allNodes body) 20 with
  | some D => match analyse [50] body D (workNodes body) 20 400 with
    | some S => propagate S body
    | none => body
  | none => body

/-- Does the assignment at `l` overwrite an update of `x`? The condition of `propagateFunctionReturn`, `value-propagation.cc:369-373`. -/
def overwritten (body : List Stmt) (l : Label) (x : Var) : Bool :=
  match dataflow body (allNodes body) 20 with
  | some D => (D.kill (.stmt l)).any fun f => f.1 = x
  | none => false

/-! ## Unsound cases -/

/-- ```
local x;
if ( p < 5 ) { x = 5; }
print(x);
```
A local without initializer has no entry before the assignment, which counts as agreement: 5 is printed, always. -/
def noInitBody : List Stmt :=
  [.decl 1 1 none, .ite 2 none (.bin 3 (v 50) (i 5)) [.assign 3 1 (i 5)] false [], print 4 (v 1)]

theorem vp_noInit_unsound : ¬ Preserved kindOf noInitBody (vpOnce noInitBody) s0 :=
  not_preserved (p := (.normal, [0], some 7, some 9)) (q := (.normal, [5], some 7, some 9)) (by decide +kernel) (by decide +kernel)
    (by decide)

/-- ```
if ( p < 5 ) { g = 5; }
print(g);
```
The same for a global. -/
def condGlobalBody : List Stmt :=
  [.ite 2 none (.bin 3 (v 50) (i 5)) [.assign 3 100 (i 5)] false [], print 4 (v 100)]

theorem vp_condGlobal_unsound : ¬ Preserved kindOf condGlobalBody (vpOnce condGlobalBody) s0 :=
  not_preserved (p := (.normal, [9], some 7, some 9)) (q := (.normal, [5], some 7, some 9)) (by decide +kernel) (by decide +kernel)
    (by decide)

/-- ```
g = 5;
f(6);
print(g);
```
`f` sets the global `g` to its argument, but 5 is printed. -/
def calleeBody : List Stmt := [.assign 1 100 (i 5), .expr 2 (.call 3 (i 6)), print 3 (v 100)]

theorem vp_callee_unsound : ¬ Preserved kindOf calleeBody (vpOnce calleeBody) s0 :=
  not_preserved (p := (.normal, [6], some 7, some 6)) (q := (.normal, [5], some 7, some 6)) (by decide +kernel) (by decide +kernel)
    (by decide)

/-- ```
local o = g;
f(6);
print(o);
```
The local that saves the old value of the global is replaced by the global. -/
def saveBody : List Stmt := [.decl 1 1 (some (v 100)), .expr 2 (.call 3 (i 6)), print 3 (v 1)]

theorem vp_save_unsound : ¬ Preserved kindOf saveBody (vpOnce saveBody) s0 :=
  not_preserved (p := (.normal, [9], some 7, some 6)) (q := (.normal, [6], some 7, some 6)) (by decide +kernel) (by decide +kernel)
    (by decide)

/-- ```
local x = 1;
while ( 1 ) { x = 2; if ( 1 ) { break; } x = 1; }
print(x);
```
The graph has no edge for `break`: `x` looks like 1 at every way out of the loop. -/
def vpBreakBody : List Stmt :=
  [.decl 1 1 (some (i 1)), .while_ 2 none (i 1) [.assign 3 1 (i 2), .ite 4 none (i 1) [.brk] false [], .assign 5 1 (i 1)] false [],
   print 6 (v 1)]

theorem vp_break_unsound : ¬ Preserved kindOf vpBreakBody (vpOnce vpBreakBody) s0 :=
  not_preserved (p := (.normal, [2], some 7, some 9)) (q := (.normal, [1], some 7, some 9)) (by decide +kernel) (by decide +kernel)
    (by decide)

/-- ```
local x = 1;
try { x = 2; f(); x = 1; } catch { }
print(x);
```
Only the end of the `try` block leads to the handler and beyond. -/
def vpTryBody : List Stmt :=
  [.decl 1 1 (some (i 1)), .try_ [.assign 2 1 (i 2), .expr 3 (.call 1 (i 0)), .assign 4 1 (i 1)] [print 5 (i 0)], print 6 (v 1)]

theorem vp_try_unsound : ¬ Preserved kindOf vpTryBody (vpOnce vpTryBody) s0 :=
  not_preserved (p := (.normal, [0, 2], some 7, some 9)) (q := (.normal, [0, 1], some 7, some 9)) (by decide +kernel)
    (by decide +kernel) (by decide)

/-- ```
local y = 0;
if ( local x = p; 1 ) { x = p + 1; y = x; } else { return; }
print(y);
```
The variable in the head of an `if` has no scope end, so `y` is replaced by it where it is not in scope any more: the result does not
compile. -/
def headBody : List Stmt :=
  [.decl 1 1 (some (i 0)), .ite 2 (some (3, 2, v 50)) (i 1) [.assign 4 2 (.bin 0 (v 50) (i 1)), .assign 5 1 (v 2)] true [.ret 6 none],
   print 7 (v 1)]

theorem vp_head_unsound : obs headBody s0 = some (.normal, [8], some 7, some 9) ∧ (itemsOf (vpOnce headBody)).getLast? = some (7, .expr (.call 0 (v 2))) ∧
    obs (vpOnce headBody) s0 = none := by
  decide +kernel

/-- ```
for ( x in 3 ) { print(x); x = 5; }
```
Nothing is recorded for the variable of a `for`, so only the assignment is seen, by way of the back edge. -/
def forBody : List Stmt := [.for_ 1 2 1 (i 3) [print 3 (v 1), .assign 4 1 (i 5)]]

theorem vp_for_unsound : ¬ Preserved kindOf forBody (vpOnce forBody) s0 :=
  not_preserved (p := (.normal, [0, 1, 2], some 7, some 9)) (q := (.normal, [5, 5, 5], some 7, some 9)) (by decide +kernel)
    (by decide +kernel) (by decide)

/-- ```
if ( p < 5 ) { p = 1; }
p = 5;
return p;
```
The assignment before the `return` goes away, although `p` is an `inout` parameter: the caller sees the old value. -/
def returnBody : List Stmt :=
  [.ite 1 none (.bin 3 (v 50) (i 5)) [.assign 2 50 (i 1)] false [], .assign 3 50 (i 5), .ret 4 (some (v 50))]

theorem vp_return_unsound : ¬ Preserved kindOf returnBody (propReturn (overwritten returnBody) returnBody) s0 :=
  not_preserved (p := (.ret (some 5), [], some 5, some 9)) (q := (.ret (some 5), [], some 7, some 9)) (by decide +kernel)
    (by decide +kernel) (by decide)

/-! ## Endless cases -/

/-- `resolveValue` never returns for a variable whose entry is a copy of itself. -/
theorem resolve_self_endless {m : PMap} {z : Var} {p : Nat} (h : m.get z = some (some (.name p z))) :
    ∀ k q, resolve k m (.name q z) = none := by
  intro k
  induction k with
  | zero => exact fun _ => rfl
  | succ k ih =>
    intro q
    unfold resolve
    simp only [h, ih]

/-- ```
p = p;
local y = p;
``` -/
def endlessBody : List Stmt := [.assign 1 50 (v 50), .decl 2 1 (some (v 50))]

/-- However deep the recursion and however many steps: the analysis of `endlessBody` does not end. -/
theorem vp_self_copy_endless (D : Flow) (order : List Node) (hv : Node.stmt 1 ∈ order ∧ Node.stmt 2 ∈ order)
    (hs : Node.start ∉ order) (depth k : Nat) : analyse [50] endlessBody D order depth k = none := by
  cases h : analyse [50] endlessBody D order depth k with
  | none => rfl
  | some S =>
    have hst : S.out .start = [(50, none)] := by
      rw [work_start (fun e he => build_noStart _ e (edge_sub he)) k order _ S h hs]; rfl
    have hb := work_balanced (fun n => n = .stmt 1 ∨ n = .stmt 2) k order _ S h (fun n hn => .inl (by
      rcases hn with rfl | rfl
      · exact hv.1
      · exact hv.2))
    obtain ⟨h1, h2⟩ := hb (.stmt 1) (.inl rfl)
    obtain ⟨h3, h4⟩ := hb (.stmt 2) (.inr rfl)
    have e1 : S.inn (.stmt 1) = [(50, none)] := by
      rw [h1]
      show meet [S.out .start] = _
      rw [hst]; rfl
    rw [e1] at h2
    cases depth with
    | zero => cases h2
    | succ depth =>
      have e2 : S.out (.stmt 1) = [(50, some (v 50))] := by
        have : some [(50, some (v 50))] = some (S.out (.stmt 1)) := h2
        exact (Option.some.inj this).symm
      have e3 : S.inn (.stmt 2) = [(50, some (v 50))] := by
        rw [h3]
        show meet [S.out (.stmt 1)] = _
        rw [e2]; rfl
      rw [e3] at h4
      have h5 : (resolve (depth + 1) [(50, some (v 50))] (v 50)).map (fun r => PMap.put [(50, some (v 50))] 1 r) =
        some (S.out (.stmt 2)) := h4
      rw [resolve_self_endless (p := 0) rfl] at h5
      cases h5

/-! ## The theorem applies -/

/-- ```
local x = 1;
local y = p;
local z = 0;
if ( x < y ) { z = x; } else { z = 1; p = y; }
while ( z < y ) { local w = y; z = z + x; print(w); }
p = z + x;
return z;
``` -/
def copyBody : List Stmt :=
  [.decl 1 1 (some (i 1)), .decl 2 2 (some (v 50)), .decl 3 3 (some (i 0)),
   .ite 4 none (.bin 3 (v 1) (v 2)) [.assign 5 3 (v 1)] true [.assign 6 3 (i 1), .assign 7 50 (v 2)],
   .while_ 8 none (.bin 3 (v 3) (v 2)) [.decl 9 4 (some (v 2)), .assign 10 3 (.bin 0 (v 3) (v 1)), print 11 (v 4)] false [],
   .assign 12 50 (.bin 0 (v 3) (v 1)), .ret 13 (some (v 3))]

/-- The work list has every node control can get to. -/
theorem workNodes_all (body : List Stmt) (n : Node) (hl : Live (build body).edges n) (hn : n ≠ .start) : n ∈ workNodes body := by
  cases hl with
  | start => exact absurd rfl hn
  | step hu he =>
    refine List.mem_filter.2 ⟨List.mem_append_left _ (List.mem_flatMap.2 ⟨_, live_edge hu he, List.mem_cons_of_mem _
      List.mem_cons_self⟩), ?_⟩
    simpa using hn

theorem workNodes_start (body : List Stmt) : Node.start ∉ workNodes body := by
  intro h
  have := (List.mem_filter.1 h).2
  simp at this

/-- Variables that are given a value. -/
def sources (b : List Stmt) : List (Var × Expr) := (itemsOf b).filterMap fun p => p.2.source

theorem sourced_iff {b : List Stmt} {x : Var} : Sourced b x ↔ x ∈ (sources b).map Prod.fst := by
  unfold sources
  rw [List.mem_map]
  constructor
  · rintro ⟨l, i, e, h1, h2⟩
    exact ⟨(x, e), List.mem_filterMap.2 ⟨_, h1, h2⟩, rfl⟩
  · rintro ⟨⟨y, e⟩, h1, rfl⟩
    obtain ⟨⟨l, i⟩, h2, h3⟩ := List.mem_filterMap.1 h1
    exact ⟨l, i, e, h2, h3⟩

/-- The name an expression is. -/
def Expr.asName : Expr → Option Var
  | .name _ z => some z
  | _ => none

theorem copied_of {b : List Stmt} {x : Var} (h : Copied b x) : x ∈ (sources b).filterMap fun p => p.2.asName := by
  obtain ⟨l, i, y, p, h1, h2⟩ := h
  exact List.mem_filterMap.2 ⟨_, List.mem_filterMap.2 ⟨_, h1, h2⟩, rfl⟩

theorem copyBody_tidy : Tidy sem [50] copyBody where
  labels := by decide +kernel
  owned := by
    intro x hx
    have h : ∀ x ∈ (sources copyBody).map Prod.fst, x ∈ [50] ∨ x ∈ declsOf copyBody := by decide +kernel
    exact h x (sourced_iff.1 hx)
  noInit := by
    intro l x h
    have : ∀ p ∈ itemsOf copyBody, ∀ y, p.2 ≠ .decl y none := by
      intro p hp y hh
      have h2 : (itemsOf copyBody).all (fun p => match p.2 with | .decl _ none => false | _ => true) = true := by decide +kernel
      have := List.all_eq_true.1 h2 p hp
      rw [hh] at this; cases this
    exact absurd rfl (this _ h x)
  loopVar := by
    intro l x h
    have h2 : (itemsOf copyBody).all (fun p => match p.2 with | .forVar _ => false | _ => true) = true := by decide +kernel
    exact absurd (List.all_eq_true.1 h2 _ h) (fun hh => by cases hh)
  head := by
    intro l x e h
    have h2 : (itemsOf copyBody).all (fun p => match p.2 with | .init .. => false | _ => true) = true := by decide +kernel
    exact absurd (List.all_eq_true.1 h2 _ h) (fun hh => by cases hh)
  quiet := by
    intro l i _ _ y hy
    have h1 : ∀ x ∈ (sources copyBody).map Prod.fst, sem.vis x = false := by decide +kernel
    have h2 : ∀ x ∈ (sources copyBody).filterMap (fun p => p.2.asName), sem.vis x = false := by decide +kernel
    have h3 : ∀ x ∈ declsOf copyBody, sem.vis x = false := by decide +kernel
    rcases hy with h | h | h
    · exact h1 y (sourced_iff.1 h)
    · exact h2 y (copied_of h)
    · exact h3 y h

/-- The premises of `value_propagation_partial` hold for `copyBody` in `s0`. -/
theorem copyBody_applies : plainAll false copyBody = true ∧ (declsOf copyBody).Nodup ∧ (∀ x ∈ declsOf copyBody, sem.vis x = false) ∧
    (∀ x ∈ declsOf copyBody, s0.env x = none) ∧
    (∃ D S, dataflow copyBody (allNodes copyBody) 20 = some D ∧ analyse [50] copyBody D (workNodes copyBody) 20 400 = some S ∧
      propagate S copyBody = vpOnce copyBody) := by
  refine ⟨by decide +kernel, by decide +kernel, by decide +kernel, by decide +kernel, ?_⟩
  unfold vpOnce
  cases hD : dataflow copyBody (allNodes copyBody) 20 with
  | none =>
    have : (dataflow copyBody (allNodes copyBody) 20).isSome = true := by decide +kernel
    rw [hD] at this; cases this
  | some D =>
    dsimp only
    cases hS : analyse [50] copyBody D (workNodes copyBody) 20 400 with
    | none =>
      have : (match dataflow copyBody (allNodes copyBody) 20 with
        | some D => (analyse [50] copyBody D (workNodes copyBody) 20 400).isSome
        | none => false) = true := by decide +kernel
      rw [hD] at this
      dsimp only at this
      rw [hS] at this; cases this
    | some S => exact ⟨D, S, rfl, hS, rfl⟩

/-- What it becomes: constants and copies are replaced, but not `z`, which the loop changes, nor `y` where `p` is assigned and after. -/
theorem copyBody_result : itemsOf (vpOnce copyBody) = itemsOf
    [.decl 1 1 (some (i 1)), .decl 2 2 (some (v 50)), .decl 3 3 (some (i 0)),
     .ite 4 none (.bin 3 (i 1) (v 50)) [.assign 5 3 (i 1)] true [.assign 6 3 (i 1), .assign 7 50 (v 2)],
     .while_ 8 none (.bin 3 (v 3) (v 2)) [.decl 9 4 (some (v 2)), .assign 10 3 (.bin 0 (v 3) (i 1)), print 11 (v 2)] false [],
     .assign 12 50 (.bin 0 (v 3) (i 1)), .ret 13 (some (v 3))] ∧
    obs copyBody s0 = obs (vpOnce copyBody) s0 ∧ obs copyBody s0 = some (.ret (some 7), [7, 7, 7, 7, 7, 7], some 8, some 9) := by
  decide +kernel

end Verif.Opt
