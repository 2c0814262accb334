import Verif.Opt.Rounds
import Verif.Opt.Interp

/-!
# Where the dead code pass changes behaviour

Concrete bodies outside the premises of `dead_code_pass_partial` and `unreachable_removal_partial` whose behaviour the pass changes, and
concrete bodies inside them on which it does something.
-/

namespace Verif.Opt

/-- An order that visits all nodes. -/
def allNodes (body : List Stmt) : List Node :=
  (edges body).flatMap (fun e => [e.1, e.2]) ++ (itemsOf body).map (fun p => .stmt p.1)

/-- There is an order for every body, so the theorems about the pass apply to every body. -/
theorem covers_allNodes (body : List Stmt) : Covers (edges body) (genAt (itemsOf body)) (allNodes body) := by
  refine ⟨fun u v h => ?_, fun n h => ?_⟩
  · exact ⟨List.mem_append_left _ (List.mem_flatMap.2 ⟨_, h, List.mem_cons_self⟩),
      List.mem_append_left _ (List.mem_flatMap.2 ⟨_, h, List.mem_cons_of_mem _ List.mem_cons_self⟩)⟩
  · cases n with
    | stmt l =>
      simp only [genAt] at h
      cases hi : itemAt (itemsOf body) l with
      | none => rw [hi] at h; exact absurd rfl h
      | some i => exact List.mem_append_right _ (List.mem_map.2 ⟨_, itemAt_mem hi, rfl⟩)
    | _ => exact absurd rfl h

/-- The dataflow of a body; `flow_ends` and `covers_allNodes` say that it exists. -/
theorem dataflow_exists (body : List Stmt) : ∃ k D, dataflow body (allNodes body) k = some D :=
  flow_ends _ _ _ _ (covers_allNodes body)

/-- One round of removing unused statements (20 dataflow rounds suffice for the bodies below). -/
def dceOnce (kind : Var → Kind) (body : List Stmt) : List Stmt :=
  match dataflow body (allNodes body) 20 with
  | some D => dce kind D body
  | none => body

/-- The behaviour of `b` from `s` is preserved in `b'`. -/
def Preserved {M : Sem} (kind : Var → Kind) (b b' : List Stmt) (s : State M) : Prop :=
  ∀ o s', Runs b s o s' → ∃ t', Runs b' s o t' ∧ SameOutside kind s' t'

/-- Variables below 50 are locals, 50 is an `inout` parameter, 100 a global. -/
def kindOf (x : Var) : Kind := if x < 50 then .local_ else if x < 100 then .inout_ else .global

/-- The world is the log of a program. Operators: 0 `+`, 1 `-`, 2 `/`, 3 `<`. Functions: 0 logs its argument, 1 throws, 2 logs the
    global, 3 sets the global. -/
def sem : Sem where
  W := List Int
  op f a b := match f with
    | 0 => some (a + b)
    | 1 => some (a - b)
    | 2 => if b = 0 then none else some (a / b)
    | _ => some (if a < b then 1 else 0)
  vis x := decide (100 ≤ x)
  call f a w g := match f with
    | 0 => (some a, w ++ [a], g)
    | 1 => (none, w, g)
    | 2 => (some 0, w ++ [(g 100).getD 0], g)
    | _ => (some 0, w, fun x => if x = 100 then some a else g x)
  cref _ v w g := (true, v + 1, w, g)
  elems n := (List.range n.toNat).map Int.ofNat

/-- The parameter is 7, the global 9. -/
def s0 : State sem := { w := ([] : List Int), env := fun x => if x = 50 then some 7 else if x = 100 then some 9 else none }

/-- Outcome, log and the two variables that outlive the function. -/
def obs (b : List Stmt) (s : State sem) : Option (Out × List Int × Option Int × Option Int) :=
  (interp 40 (.many b) s).map fun r => (r.1, r.2.w, r.2.env 50, r.2.env 100)

theorem not_preserved {b b' : List Stmt} {s : State sem} {p q : Out × List Int × Option Int × Option Int} (h : obs b s = some p)
    (h' : obs b' s = some q) (hne : p ≠ q) : ¬ Preserved kindOf b b' s := by
  intro hp
  unfold obs at h h'
  cases hb : interp 40 (.many b) s with
  | none => rw [hb] at h; cases h
  | some r =>
    cases hb' : interp 40 (.many b') s with
    | none => rw [hb'] at h'; cases h'
    | some r' =>
      rw [hb] at h; rw [hb'] at h'
      cases h; cases h'
      obtain ⟨o, s1⟩ := r
      obtain ⟨o', s2⟩ := r'
      obtain ⟨t', h1, h2, h3⟩ := hp o s1 (interp_exec _ _ _ _ _ hb)
      obtain ⟨rfl, rfl⟩ := exec_deterministic h1 (interp_exec _ _ _ _ _ hb')
      apply hne
      dsimp only
      have e1 : s1.w = t'.w := h2
      rw [e1, h3 50 rfl, h3 100 rfl]

/-- Literals and names. -/
abbrev i (n : Int) : Expr := .lit 0 n
abbrev v (x : Var) : Expr := .name 0 x
/-- `print(e)`. -/
abbrev print (l : Label) (e : Expr) : Stmt := .expr l (.call 0 e)

/-! ## Unsound cases -/

/-- ```
local x = 1;
while ( 1 ) { x = 2; if ( 1 ) { break; } x = 3; }
print(x);
```
The graph has no edge for `break`: `x = 2` looks overwritten, and 1 is printed. -/
def breakBody : List Stmt :=
  [.decl 1 1 (some (i 1)), .while_ 2 none (i 1) [.assign 3 1 (i 2), .ite 4 none (i 1) [.brk] false [], .assign 5 1 (i 3)] false [],
   print 6 (v 1)]

theorem dce_break_unsound : ¬ Preserved kindOf breakBody (dceOnce kindOf breakBody) s0 :=
  not_preserved (p := (.normal, [2], some 7, some 9)) (q := (.normal, [1], some 7, some 9)) (by decide +kernel) (by decide +kernel)
    (by decide)

/-- ```
local x = 1;
try { x = 2; f(); x = 3; } catch { print(x); }
```
Only the end of the `try` block leads to the handler: `x = 2` looks overwritten. -/
def tryBody : List Stmt :=
  [.decl 1 1 (some (i 1)), .try_ [.assign 2 1 (i 2), .expr 3 (.call 1 (i 0)), .assign 4 1 (i 3)] [print 5 (v 1)]]

theorem dce_try_unsound : ¬ Preserved kindOf tryBody (dceOnce kindOf tryBody) s0 :=
  not_preserved (p := (.normal, [2], some 7, some 9)) (q := (.normal, [1], some 7, some 9)) (by decide +kernel) (by decide +kernel)
    (by decide)

/-- ```
try { return f(); } catch { print(1); }
```
Nothing leads from the `return` to the handler: its body is removed as unreachable. -/
def catchBody : List Stmt := [.try_ [.ret 1 (some (.call 1 (i 0)))] [print 2 (i 1)]]

theorem unreach_try_unsound : ¬ Preserved kindOf catchBody (unreach catchBody) s0 :=
  not_preserved (p := (.normal, [1], some 7, some 9)) (q := (.normal, [], some 7, some 9)) (by decide +kernel) (by decide +kernel)
    (by decide)

/-- ```
g = 1; f(); g = 2;
```
`f` reads the global `g`, but the first assignment looks overwritten. -/
def globalBody : List Stmt := [.assign 1 100 (i 1), .expr 2 (.call 2 (i 0)), .assign 3 100 (i 2)]

theorem dce_global_unsound : ¬ Preserved kindOf globalBody (dceOnce kindOf globalBody) s0 :=
  not_preserved (p := (.normal, [1], some 7, some 2)) (q := (.normal, [9], some 7, some 2)) (by decide +kernel) (by decide +kernel)
    (by decide)

/-- ```
p = 1; f(); p = 2;
```
`f` throws; the caller of the function sees the old value of its `inout` argument instead of 1. -/
def inoutBody : List Stmt := [.assign 1 50 (i 1), .expr 2 (.call 1 (i 0)), .assign 3 50 (i 2)]

theorem dce_inout_unsound : ¬ Preserved kindOf inoutBody (dceOnce kindOf inoutBody) s0 :=
  not_preserved (p := (.exn false, [], some 1, some 9)) (q := (.exn false, [], some 7, some 9)) (by decide +kernel) (by decide +kernel)
    (by decide)

/-- ```
1 / 0;
```
The division by zero disappears. -/
def faultBody : List Stmt := [.expr 1 (.bin 2 (i 1) (i 0))]

theorem dce_fault_unsound : ¬ Preserved kindOf faultBody (dceOnce kindOf faultBody) s0 :=
  not_preserved (p := (.exn false, [], some 7, some 9)) (q := (.normal, [], some 7, some 9)) (by decide +kernel) (by decide +kernel)
    (by decide)

/-- ```
local x = 1;
for ( y in 2 ) { x = 10 / (x - y); }
```
The assignment is dead and becomes the expression `10 / (x - y)`, which now uses the value `x` had before the loop
and divides by zero in the second iteration. The original does not. -/
def selfBody : List Stmt :=
  [.decl 1 1 (some (i 1)), .for_ 2 3 2 (i 2) [.assign 4 1 (.bin 2 (i 10) (.bin 1 (v 1) (v 2)))]]

theorem dce_self_unsound : ¬ Preserved kindOf selfBody (dceOnce kindOf selfBody) s0 :=
  not_preserved (p := (.normal, [], some 7, some 9)) (q := (.exn false, [], some 7, some 9)) (by decide +kernel) (by decide +kernel)
    (by decide)

/-! ## The theorems apply -/

/-- ```
local x = 1;
local y = 2;
if ( p < 5 ) { x = 3; y = 4; } else { x = 5; }
x = p + 1;
y = 6;
while ( x < 12 ) { local z = x; x = x + 1; print(x); }
p = x;
return x;
print(p);
``` -/
def goodBody : List Stmt :=
  [.decl 1 1 (some (i 1)), .decl 2 2 (some (i 2)),
   .ite 3 none (.bin 3 (v 50) (i 5)) [.assign 4 1 (i 3), .assign 5 2 (i 4)] true [.assign 6 1 (i 5)],
   .assign 7 1 (.bin 0 (v 50) (i 1)), .assign 8 2 (i 6),
   .while_ 9 none (.bin 3 (v 1) (i 12)) [.decl 10 3 (some (v 1)), .assign 11 1 (.bin 0 (v 1) (i 1)), print 12 (v 1)] false [],
   .assign 13 50 (v 1), .ret 14 (some (v 1)), print 15 (v 50)]

/-- An initializer that uses its own variable. -/
def selfInit : Item → Bool
  | .decl x (some e) | .init x e => decide (x ∈ e.names)
  | _ => false

theorem noSelf_of {b : List Stmt} (h : (itemsOf b).all (fun p => !selfInit p.2) = true) (l : Label) (x : Var) (e : Expr)
    (hi : (l, Item.decl x (some e)) ∈ itemsOf b ∨ (l, Item.init x e) ∈ itemsOf b) : x ∉ e.names := by
  rw [List.all_eq_true] at h
  rcases hi with hi | hi
  · have := h _ hi
    simpa [selfInit] using this
  · have := h _ hi
    simpa [selfInit] using this

theorem goodBody_valid : Valid kindOf goodBody where
  labels := by decide +kernel
  once := by decide +kernel
  locals := by decide +kernel
  noSelf := noSelf_of (by decide +kernel)

theorem goodBody_tame : Tame sem goodBody where
  hidden := by
    have h : ∀ p ∈ itemsOf goodBody, ∀ x ∈ p.2.gen, sem.vis x = false := by decide +kernel
    exact fun _ l i hi x hx => h (l, i) hi x hx
  total := by
    intro l x e h hx
    have : e = .bin 0 (v 1) (i 1) := by
      have h' : ∀ p ∈ itemsOf goodBody, match p.2 with
          | .assign x e => decide (x ∈ e.names) = true → e = .bin 0 (v 1) (i 1)
          | _ => True := by
        intro p hp
        simp only [goodBody, itemsOf, Stmt.items, initItems, List.nil_append, List.append_nil, List.cons_append, if_true,
          Bool.false_eq_true, if_false, List.mem_cons, List.not_mem_nil, or_false] at hp
        rcases hp with rfl | rfl | rfl | rfl | rfl | rfl | rfl | rfl | rfl | rfl | rfl | rfl | rfl | rfl | rfl <;>
          first | trivial | (intro hh; first | rfl | exact absurd hh (by decide))
      exact h' _ h (decide_eq_true hx)
    subst this
    exact ⟨fun _ _ hh => (by cases hh), trivial, trivial⟩

/-- The premises of `dead_code_pass_partial` hold for `goodBody` in `s0`, which ends with a `return`; and the pass does shorten it: a
    round of each kind, checked on the behaviour and on the number of statements. -/
theorem goodBody_applies : plainAll false goodBody = true ∧ (∀ x ∈ declsOf goodBody, sem.vis x = false) ∧
    (∀ x ∈ declsOf goodBody, s0.env x = none) ∧
    obs goodBody s0 = some (.ret (some 12), [9, 10, 11, 12], some 12, some 9) ∧
    obs (unreach (dceOnce kindOf goodBody)) s0 = some (.ret (some 12), [9, 10, 11, 12], some 12, some 9) ∧
    weightOf goodBody = 25 ∧ weightOf (dceOnce kindOf goodBody) = 20 ∧ weightOf (unreach (dceOnce kindOf goodBody)) = 19 := by
  decide +kernel

/-- `break` is fine for the removal of unreachable code:
```
while ( p < 9 ) { p = p + 1; if ( p < 9 ) { continue; print(1); } break; p = 0; }
``` -/
def jumpBody : List Stmt :=
  [.while_ 1 none (.bin 3 (v 50) (i 9)) [.assign 2 50 (.bin 0 (v 50) (i 1)),
    .ite 3 none (.bin 3 (v 50) (i 9)) [.cont, print 4 (i 1)] false [], .brk, .assign 5 50 (i 0)] false []]

theorem jumpBody_applies : plainAll true jumpBody = true ∧ (∀ x ∈ declsOf jumpBody, sem.vis x = false) ∧
    obs jumpBody s0 = some (.normal, [], some 9, some 9) ∧
    obs (unreachLoop 4 jumpBody) s0 = some (.normal, [], some 9, some 9) ∧
    weightOf jumpBody = 9 ∧ weightOf (unreachLoop 4 jumpBody) = 6 := by
  decide +kernel

end Verif.Opt
