import Verif.Opt.MoveSound
import Verif.Opt.Witness

/-!
# Where moving last uses changes behaviour

Concrete bodies with `break` or `try` whose behaviour the pass changes, and a body without on which it does something.
-/

namespace Verif.Opt

/-- The functions of `sem`, and `1000 + x` to move the local `x`: 0 is left in it. -/
def callM (f : Nat) (a : Int) (w : List Int) (g : Var → Option Int) : Option Int × List Int × (Var → Option Int) :=
  if 1000 ≤ f ∧ f < 1050 then (some a, w, fun y => if y = f - 1000 then some 0 else g y)
  else match f with
    | 0 => (some a, w ++ [a], g)
    | 1 => (none, w, g)
    | 2 => (some 0, w ++ [(g 100).getD 0], g)
    | _ => (some 0, w, fun x => if x = 100 then some a else g x)

/-- `sem` with moves. -/
def msem : Sem where
  W := List Int
  op := sem.op
  vis x := decide (x < 50 ∨ 100 ≤ x)
  call := callM
  cref _ v w g := (true, v + 1, w, g)
  elems := sem.elems

def mvOf (x : Var) : Nat := 1000 + x

theorem local_lt {x : Var} (h : kindOf x = .local_) : x < 50 := by
  unfold kindOf at h
  split at h
  · assumption
  · split at h <;> cases h

theorem not_local {y : Var} (h : ¬ y < 50) : kindOf y ≠ .local_ := fun hh => h (local_lt hh)

theorem local_of {y : Var} (h : y < 50) : kindOf y = .local_ := by unfold kindOf; rw [if_pos h]

/-- The premise on what moves do is met. -/
theorem msem_moving : Moving msem kindOf mvOf where
  move := by
    intro x hx
    have hl := local_lt hx
    refine ⟨decide_eq_true (.inl hl), fun v w g => ⟨0, ?_⟩⟩
    have h1 : 1000 ≤ 1000 + x ∧ 1000 + x < 1050 := ⟨Nat.le_add_right _ _, Nat.add_lt_add_left hl 1000⟩
    have h2 : 1000 + x - 1000 = x := Nat.add_sub_cancel_left _ _
    show callM (1000 + x) v w g = _
    unfold callM
    rw [if_pos h1, h2]
    rfl
  call := by
    intro f hf v w g g' hg
    have hn : ¬ (1000 ≤ f ∧ f < 1050) := by
      rintro ⟨h1, h2⟩
      have h3 : (f - 1000 : Nat) < 50 := by omega
      have h4 : f = 1000 + (f - 1000) := by omega
      exact hf (f - 1000) (local_of h3) h4
    have h100 : g 100 = g' 100 := hg 100 (not_local (by decide))
    show (callM f v w g).1 = (callM f v w g').1 ∧ (callM f v w g).2.1 = (callM f v w g').2.1 ∧
      (∀ y, kindOf y ≠ .local_ → (callM f v w g).2.2 y = (callM f v w g').2.2 y) ∧
      ∀ y, kindOf y = .local_ → (callM f v w g).2.2 y = g y
    have hset : ∀ y, kindOf y ≠ .local_ → (if y = 100 then some v else g y) = (if y = 100 then some v else g' y) := by
      intro y hy
      split
      · rfl
      · exact hg y hy
    have hkeep : ∀ y, kindOf y = .local_ → (if y = 100 then some v else g y) = g y := by
      intro y hy
      have h1 : (y : Nat) < 50 := local_lt hy
      rw [if_neg (fun h2 => by subst h2; exact absurd h1 (by decide))]
    unfold callM
    rw [if_neg hn, if_neg hn]
    match f with
    | 0 => exact ⟨rfl, rfl, hg, fun _ _ => rfl⟩
    | 1 => exact ⟨rfl, rfl, hg, fun _ _ => rfl⟩
    | 2 => exact ⟨rfl, congrArg (fun o : Option Int => (show List Int from w) ++ [o.getD 0]) h100, hg, fun _ _ => rfl⟩
    | (n + 3) => exact ⟨rfl, rfl, hset, hkeep⟩
  cref := fun _ _ _ _ _ hg => ⟨rfl, rfl, rfl, hg, fun _ _ => rfl⟩

/-- The parameter is 7, the global 9. -/
def m0 : State msem := { w := ([] : List Int), env := fun x => if x = 50 then some 7 else if x = 100 then some 9 else none }

/-- Outcome, log and the two variables that outlive the function. -/
def mobs (b : List Stmt) (s : State msem) : Option (Out × List Int × Option Int × Option Int) :=
  (interp 40 (.many b) s).map fun r => (r.1, r.2.w, r.2.env 50, r.2.env 100)

theorem move_not_preserved {b b' : List Stmt} {s : State msem} {p q : Out × List Int × Option Int × Option Int} (h : mobs b s = some p)
    (h' : mobs b' s = some q) (hne : p ≠ q) : ¬ Preserved kindOf b b' s := by
  intro hp
  unfold mobs at h h'
  cases hb : interp 40 (.many b) s with
  | none => rw [hb] at h; cases h
  | some r =>
    cases hb' : interp 40 (.many b') s with
    | none => rw [hb'] at h'; cases h'
    | some r' =>
      rw [hb] at h; rw [hb'] at h'
      cases h; cases h'
      obtain ⟨o, s1⟩ := r
      obtain ⟨o', s2⟩ := r'
      obtain ⟨t', h1, h2, h3⟩ := hp o s1 (interp_exec _ _ _ _ _ hb)
      obtain ⟨rfl, rfl⟩ := exec_deterministic h1 (interp_exec _ _ _ _ _ hb')
      apply hne
      dsimp only
      have e1 : s1.w = t'.w := h2
      rw [e1, h3 50 rfl, h3 100 rfl]

/-- An order as the pass needs it. -/
def liveOrder (body : List Stmt) : List Node := (.start :: allNodes body).reverse.eraseDups

theorem liveOrder_all (body : List Stmt) (n : Node) (h : Live (build body).edges n) : n ∈ liveOrder body := by
  unfold liveOrder
  rw [List.mem_eraseDups, List.mem_reverse]
  cases h with
  | start => exact List.mem_cons_self
  | step h he =>
    refine List.mem_cons_of_mem _ (List.mem_append_left _ (List.mem_flatMap.2 ⟨_, live_edge h he, ?_⟩))
    exact List.mem_cons_of_mem _ List.mem_cons_self

theorem liveOrder_closed (body : List Stmt) (n m : Node) (_ : n ∈ liveOrder body) (he : (n, m) ∈ edges body) : m ∈ liveOrder body := by
  unfold liveOrder
  rw [List.mem_eraseDups, List.mem_reverse]
  exact List.mem_cons_of_mem _ (List.mem_append_left _ (List.mem_flatMap.2 ⟨_, he, List.mem_cons_of_mem _ List.mem_cons_self⟩))

/-- The pass (200 steps of the analysis suffice for the bodies below). -/
def moveOnce (body : List Stmt) : List Stmt :=
  match liveness body (liveOrder body) 200 with
  | some S => moveLast kindOf mvOf S body
  | none => body

/-! ## Unsound cases -/

/-- ```
local x = 1;
while ( 1 ) { print(x); if ( 1 ) { break; } x = 3; }
print(x);
```
The graph has no edge for `break`: `x` looks overwritten after the first `print`, which moves it. -/
def mvBreakBody : List Stmt :=
  [.decl 1 1 (some (i 1)), .while_ 2 none (i 1) [print 3 (v 1), .ite 4 none (i 1) [.brk] false [], .assign 5 1 (i 3)] true [.ret 7 none],
   print 6 (v 1)]

theorem move_break_unsound : ¬ Preserved kindOf mvBreakBody (moveOnce mvBreakBody) m0 :=
  move_not_preserved (p := (.normal, [1, 1], some 7, some 9)) (q := (.normal, [1, 0], some 7, some 9)) (by decide +kernel)
    (by decide +kernel) (by decide)

/-- ```
local x = 1;
try { print(x); f(); x = 3; } catch { print(x); }
```
Only the end of the `try` block leads to the handler: the first `print` moves `x`. -/
def mvTryBody : List Stmt :=
  [.decl 1 1 (some (i 1)), .try_ [print 2 (v 1), .expr 3 (.call 1 (i 0)), .assign 4 1 (i 3)] [print 5 (v 1)]]

theorem move_try_unsound : ¬ Preserved kindOf mvTryBody (moveOnce mvTryBody) m0 :=
  move_not_preserved (p := (.normal, [1, 1], some 7, some 9)) (q := (.normal, [1, 0], some 7, some 9)) (by decide +kernel)
    (by decide +kernel) (by decide)

/-! ## The theorem applies -/

/-- ```
local x = 1;
local y = x + 4;
while ( y < 7 ) { local z = y; print(z); y = z + 1; }
p = y + y;
if ( y < 9 ) { print(y); } else { x = 2; print(x); }
return;
``` -/
def mvGoodBody : List Stmt :=
  [.decl 1 1 (some (i 1)), .decl 2 2 (some (.bin 0 (v 1) (i 4))),
   .while_ 3 none (.bin 3 (v 2) (i 7)) [.decl 4 3 (some (v 2)), print 5 (v 3), .assign 6 2 (.bin 0 (v 3) (i 1))] false [],
   .assign 7 50 (.bin 0 (v 2) (v 2)),
   .ite 8 none (.bin 3 (v 2) (i 9)) [print 9 (v 2)] true [.assign 10 1 (i 2), print 11 (v 1)], .ret 12 none]

theorem mvGoodBody_valid : Valid kindOf mvGoodBody where
  labels := by decide +kernel
  once := by decide +kernel
  locals := by decide +kernel
  noSelf := noSelf_of (by decide +kernel)

/-- Every function called has a small number. -/
theorem noMoves_of {b : List Stmt} (h : (itemsOf b).all (fun p => match p.2.expr? with
    | some e => e.callees.all (fun f => decide (f < 1000))
    | none => true) = true) : NoMoves kindOf mvOf b := by
  rw [List.all_eq_true] at h
  intro l it e hi he f hf x _
  have h1 := h _ hi
  dsimp only at h1
  rw [he] at h1
  dsimp only at h1
  rw [List.all_eq_true] at h1
  have h2 := of_decide_eq_true (h1 f hf)
  intro h3
  unfold mvOf at h3
  rw [h3] at h2
  exact absurd h2 (Nat.not_lt.2 (Nat.le_add_right _ _))

theorem mvGoodBody_noMoves : NoMoves kindOf mvOf mvGoodBody := noMoves_of (by decide +kernel)

/-- The premises of `move_last_uses_partial` hold for `mvGoodBody`; the pass moves `x` at its first use and in the second
    branch and `y` where it enters `z` and in the first branch (but not `z`: declarations do not count as writes, so it is live around the loop); and the behaviour is the same. -/
theorem mvGoodBody_applies : plainAll false mvGoodBody = true ∧
    (itemsOf (moveOnce mvGoodBody)).map (fun p => (p.1, match p.2.expr? with | some e => e.callees | none => [])) =
      [(1, []), (2, [1001]), (3, []), (4, [1002]), (5, [0]), (6, []), (7, []), (8, []), (9, [0, 1002]), (10, []), (11, [0, 1001]),
        (12, [])] ∧
    mobs mvGoodBody m0 = some (.ret none, [5, 6, 7], some 14, some 9) ∧
    mobs (moveOnce mvGoodBody) m0 = some (.ret none, [5, 6, 7], some 14, some 9) := by
  decide +kernel

/-- Its conclusion for this body: the analysis ends, and the runs are the same from every state. -/
theorem mvGoodBody_conclusion : ∃ k S, liveness mvGoodBody (liveOrder mvGoodBody) k = some S ∧
    ∀ (s s' : State msem) o, Runs mvGoodBody s o s' → ∃ t', Runs (moveLast kindOf mvOf S mvGoodBody) s o t' ∧ SameOutside kindOf s' t' := by
  obtain ⟨k, S, h⟩ := liveness_ends mvGoodBody (liveOrder mvGoodBody)
  exact ⟨k, S, h, fun s s' o hr => move_last_uses_partial mvGoodBody_valid (by decide +kernel) msem_moving mvGoodBody_noMoves _
    (liveOrder_all _) k h s s' o hr⟩

end Verif.Opt
