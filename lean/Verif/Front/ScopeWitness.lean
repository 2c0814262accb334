import Verif.Front.ScopeMain
/-! # Examples of names -/

namespace Verif.Front.Scope

def v (n : Name) (id : Nat) : Decl := ⟨n, id, .var, [], false⟩

def other (n : Name) (id : Nat) (pub : Bool) : Decl := ⟨n, id, .other, [], pub⟩

def enumT (n : Name) (id : Nat) (ls : List Name) : Decl := ⟨n, id, .type, ls, false⟩

/-- `module A; import B; global x; type T = enum { P, Q };` and `module B; public global y; global z; import A`. -/
def mods : List Module := [⟨"A", [1], [other "x" 1 false, enumT "T" 2 ["P", "Q"]]⟩, ⟨"B", [0], [other "y" 3 true, other "z" 4 false]⟩]

def ctx : Context := ⟨[[other "self" 5 false]], some [other "q" 6 false], [[other "x" 7 false]], 0⟩

def use (p : Path) : Stmt := .expr (.use p)

/-- In a hook of a unit with a parameter `q`:
`print x; local x; print x; { print x; local x; print x, ::x; for (y in x) { print y; } } print x, q, T::Q, B::y, K, A::T::P; const K; if (local x = q) { print x; }`. -/
def body : Stmts :=
  .cons (use ["x"]) (.cons (.decl (v "x" 10) .lit) (.cons (use ["x"])
    (.cons (.block (.cons (use ["x"]) (.cons (.decl (v "x" 11) .lit) (.cons (.expr (.pair (.use ["x"]) (.use ["", "x"])))
      (.cons (.for_ (v "y" 12) (.use ["x"]) (.cons (use ["y"]) .nil)) .nil)))))
    (.cons (.expr (.pair (.use ["x"]) (.pair (.use ["q"]) (.pair (.use ["T", "Q"]) (.pair (.use ["B", "y"]) (.pair (.use ["K"])
      (.use ["A", "T", "P"])))))))
    (.cons (.decl ⟨"K", 13, .const, [], false⟩ .lit)
    (.cons (.ifInit (v "x" 14) (.use ["q"]) .lit (.cons (use ["x"]) .nil) .nil) .nil))))))

/-- The example meets the hypotheses. -/
theorem body_ok : Declared mods ctx [] ∧ body.Ok ∧ validated mods ctx [] body = true := by
  refine ⟨⟨?_, ?_, ?_⟩, ?_, by decide +kernel⟩
  · simp [mods, DeclOk, other, enumT]
  · intro d h; cases h
  · simp [ctx, DeclOk, other]
  · simp [body, use, Stmts.Ok, Stmt.Ok, Expr.Ok, IdOk, DeclOk, v]

/-- What its names mean: the declarations by their numbers. -/
theorem body_means : (resolveAll mods ctx [] [] body).map (fun r => (r.1, toOption r.2)) =
    [(["x"], some (.decl (other "x" 1 false))), (["x"], some (.decl (v "x" 10))), (["x"], some (.decl (v "x" 10))),
     (["x"], some (.decl (v "x" 11))), (["", "x"], some (.decl (other "x" 1 false))), (["x"], some (.decl (v "x" 11))),
     (["y"], some (.decl (v "y" 12))), (["x"], some (.decl (v "x" 10))), (["q"], some (.decl (other "q" 6 false))),
     (["T", "Q"], some (.label (enumT "T" 2 ["P", "Q"]) "Q")), (["B", "y"], some (.decl (other "y" 3 true))),
     (["K"], some (.decl ⟨"K", 13, .const, [], false⟩)), (["A", "T", "P"], some (.label (enumT "T" 2 ["P", "Q"]) "P")),
     (["q"], some (.decl (other "q" 6 false))), (["x"], some (.decl (v "x" 14)))] := by decide +kernel

/-- **Declarations that are not public are found in other modules**: `print B::z`. -/
theorem private_is_found : (other "z" 4 false).isPublic = false ∧
    (resolveAll mods ⟨[], none, [], 0⟩ [] [] (.cons (use ["B", "z"]) .nil)).map (fun r => (r.1, toOption r.2)) =
      [(["B", "z"], some (.decl (other "z" 4 false)))] := by
  decide +kernel

/-- No lookup gives the error for them. -/
theorem never_external (ms : List Module) : ∀ (n : Nat) (s : Scope) (p : Path), (∀ e ∈ s, isImported e.ref = false) →
    ∀ r ∈ findID ms n s p false, r.2 = false ∧ isImported r.1 = false := by
  have hsub : ∀ r, isImported r = false → ∀ e ∈ refScope ms r, isImported e.ref = false := by
    intro r _ e he
    cases r with
    | decl d j => obtain ⟨l, _, rfl⟩ := List.mem_map.mp he; rfl
    | label d l => cases he
    | imported m => cases he
    | module m =>
      simp only [refScope, moduleScope] at he
      cases h : ms[m]? with
      | none => rw [h] at he; cases he
      | some M =>
        rw [h] at he
        simp only [List.mem_cons, List.mem_append, List.mem_filterMap, List.mem_map, Option.map_eq_some_iff] at he
        rcases he with rfl | ⟨j, _, I, _, rfl⟩ | ⟨d, _, rfl⟩ <;> rfl
  intro n
  induction n with
  | zero => intro s p _ r hr; cases hr
  | succ n ih =>
    intro s p hs r hr
    simp only [findID] at hr
    split at hr
    · cases hr
    · obtain ⟨e, he, rfl⟩ := List.mem_map.mp hr
      exact ⟨rfl, hs e (List.mem_filter.mp he).1⟩
    · have first : ∀ (l : List (List (Ref × Bool))), r ∈ firstResult l → ∃ q ∈ l, r ∈ q := by
        intro l
        induction l with
        | nil => intro h; cases h
        | cons a l ihl =>
          intro h
          cases a with
          | nil =>
            obtain ⟨q, hq, h⟩ := ihl h
            exact ⟨q, List.mem_cons_of_mem _ hq, h⟩
          | cons b a => exact ⟨_, List.mem_cons_self .., h⟩
      obtain ⟨q, hq, hr⟩ := first _ hr
      obtain ⟨e, he, rfl⟩ := List.mem_map.mp hq
      have hi := hs e (List.mem_filter.mp he).1
      rw [hi, Bool.or_false] at hr
      exact ih _ _ (hsub e.ref hi) r hr

/-- **Initial values**: in `local x; { local x = x; }` the `x` is the new variable. -/
theorem own_value :
    (resolveAll mods ⟨[], none, [], 0⟩ [] [] (.cons (.decl (v "x" 10) .lit) (.cons (.block (.cons (.decl (v "x" 11) (.use ["x"])) .nil)) .nil))).map (fun r => (r.1, toOption r.2)) =
      [(["x"], some (.decl (v "x" 11)))] ∧
    meanAll mods ⟨[], none, [], 0⟩ [] (.cons (.decl (v "x" 10) .lit) (.cons (.block (.cons (.decl (v "x" 11) (.use ["x"])) .nil)) .nil)) =
      [(["x"], some (.decl (v "x" 10)))] := by decide +kernel

/-- **Sequences**: in `local x; for (x in x) {}`, too. -/
theorem own_sequence :
    (resolveAll mods ⟨[], none, [], 0⟩ [] [] (.cons (.decl (v "x" 10) .lit) (.cons (.for_ (v "x" 11) (.use ["x"]) .nil) .nil))).map (fun r => (r.1, toOption r.2)) =
      [(["x"], some (.decl (v "x" 11)))] ∧
    meanAll mods ⟨[], none, [], 0⟩ [] (.cons (.decl (v "x" 10) .lit) (.cons (.for_ (v "x" 11) (.use ["x"]) .nil) .nil)) =
      [(["x"], some (.decl (v "x" 10)))] := by decide +kernel

/-- A name is rejected if it is declared twice in a block, or in the block of a `for` with that variable, but not in a block within. -/
theorem redefinitions :
    validated mods ctx [] (.cons (.decl (v "a" 1) .lit) (.cons (.decl (v "a" 2) .lit) .nil)) = false ∧
    validated mods ctx [v "a" 1] (.cons (.decl (v "a" 2) .lit) .nil) = false ∧
    validated mods ctx [] (.cons (.for_ (v "a" 1) .lit (.cons (.decl (v "a" 2) .lit) .nil)) .nil) = false ∧
    validated mods ctx [] (.cons (.for_ (v "a" 1) .lit (.cons (.block (.cons (.decl (v "a" 2) .lit) .nil)) .nil)) .nil) = true := by
  decide +kernel

end Verif.Front.Scope
