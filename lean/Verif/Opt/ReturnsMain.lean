import Verif.Opt.ReturnsBack
import Verif.Opt.ReturnsCollect

/-!
# C85: programs do the same after the pass
-/

namespace Verif.Opt.Ret

open Whole (Fn Kind)

set_option linter.unusedSectionVars false

/-! ## Lists -/

theorem left_none {α : Type} : ∀ (pl : List (Option Nat)) (l : List α), (∀ (i p : Nat), pl[i]? ≠ some (some p)) → l.length ≤ pl.length → left pl l = l
  | [], l, _, _ => by rw [left]
  | none :: pl, [], _, _ => by simp [left]
  | some q :: pl, l, h, _ => absurd rfl (h 0 q)
  | none :: pl, x :: l, h, hl => by
    rw [left, left_none pl l (fun i p => by simpa using h (i + 1) p) (by simpa using hl)]

theorem left_length {α β : Type} : ∀ (pl : List (Option Nat)) (l : List α) (l' : List β), l.length = l'.length → (left pl l).length = (left pl l').length
  | [], l, l', h => by rw [left, left]; exact h
  | x :: pl, [], [], h => by cases x <;> simp [left]
  | x :: pl, [], b :: l', h => by simp at h
  | x :: pl, a :: l, [], h => by simp at h
  | none :: pl, a :: l, b :: l', h => by
    simp only [left, List.length_cons]; rw [left_length pl l l' (by simpa using h)]
  | some p :: pl, a :: l, b :: l', h => by
    simp only [left]; exact left_length pl l l' (by simpa using h)

theorem left_map {α β : Type} (g : α → β) : ∀ (pl : List (Option Nat)) (l : List α), left pl (l.map g) = (left pl l).map g
  | [], l => by rw [left, left]
  | x :: pl, [] => by cases x <;> simp [left]
  | none :: pl, a :: l => by simp only [List.map_cons, left, left_map g pl l]
  | some p :: pl, a :: l => by simp only [List.map_cons, left, left_map g pl l]

theorem left_le {α : Type} : ∀ (pl : List (Option Nat)) (l : List α), (left pl l).length ≤ l.length
  | [], l => by rw [left]; omega
  | x :: pl, [] => by cases x <;> simp [left]
  | none :: pl, a :: l => by simp only [left, List.length_cons]; have := left_le pl l; omega
  | some p :: pl, a :: l => by simp only [left, List.length_cons]; have := left_le pl l; omega

theorem left_lt {α : Type} : ∀ (pl : List (Option Nat)) (l : List α) (i p : Nat), pl[i]? = some (some p) → i < l.length → (left pl l).length < l.length
  | [], l, i, p, h, _ => by cases h
  | x :: pl, [], i, p, h, hl => by simp at hl
  | none :: pl, a :: l, 0, p, h, hl => by simp at h
  | some q :: pl, a :: l, 0, p, h, hl => by simp only [left, List.length_cons]; have := left_le pl l; omega
  | none :: pl, a :: l, i + 1, p, h, hl => by
    simp only [left, List.length_cons]
    have := left_lt pl l i p (by simpa using h) (by simpa using hl); omega
  | some q :: pl, a :: l, i + 1, p, h, hl => by
    simp only [left, List.length_cons]
    have := left_lt pl l i p (by simpa using h) (by simpa using hl); omega

theorem staying_left : ∀ (pl : List (Option Nat)) (l : List Expr), (∀ (i p : Nat), pl[i]? = some (some p) → ∀ e, l[i]? = some e → e.isId p = true) →
    staying pl l = left pl l
  | [], l, _ => by cases l <;> simp [staying, left]
  | x :: pl, [], _ => by cases x <;> simp [staying, left]
  | none :: pl, e :: l, h => by
    simp only [staying, left]; rw [staying_left pl l fun i p hi e he => h (i + 1) p (by simpa using hi) e (by simpa using he)]
  | some p :: pl, e :: l, h => by
    simp only [staying, left]
    rw [if_pos (h 0 p rfl e rfl), staying_left pl l fun i p hi e he => h (i + 1) p (by simpa using hi) e (by simpa using he)]

theorem staying_all : ∀ (pl : List (Option Nat)) (l : List Expr), (∀ (i p : Nat), pl[i]? ≠ some (some p)) → staying pl l = l
  | [], l, _ => by cases l <;> simp [staying]
  | none :: pl, [], _ => by simp [staying]
  | some q :: pl, l, h => absurd rfl (h 0 q)
  | none :: pl, e :: l, h => by
    simp only [staying]; rw [staying_all pl l fun i p => by simpa using h (i + 1) p]

theorem filter_left {α : Type} (k : α → Bool) : ∀ (pl : List (Option Nat)) (l : List α), pl.length = l.length →
    (∀ (i p : Nat) a, pl[i]? = some (some p) → l[i]? = some a → k a = false) → (∀ (i : Nat) a, pl[i]? = some none → l[i]? = some a → k a = true) →
    l.filter k = left pl l
  | [], [], _, _, _ => by simp [left]
  | [], a :: l, h, _, _ => by simp at h
  | x :: pl, [], h, _, _ => by simp at h
  | none :: pl, a :: l, h, h1, h2 => by
    rw [left, List.filter_cons, if_pos (h2 0 a rfl rfl), filter_left k pl l (by simpa using h)
      (fun i p b hi hb => h1 (i + 1) p b (by simpa using hi) (by simpa using hb)) (fun i b hi hb => h2 (i + 1) b (by simpa using hi) (by simpa using hb))]
  | some p :: pl, a :: l, h, h1, h2 => by
    rw [left, List.filter_cons, if_neg (by simp [h1 0 p a rfl rfl]), filter_left k pl l (by simpa using h)
      (fun i p b hi hb => h1 (i + 1) p b (by simpa using hi) (by simpa using hb)) (fun i b hi hb => h2 (i + 1) b (by simpa using hi) (by simpa using hb))]

theorem ofList_toList : (as : Exprs) → Exprs.ofList as.toList = as
  | .nil => rfl
  | .cons e r => by rw [Exprs.toList, Exprs.ofList, ofList_toList r]

/-! ## Relations -/

variable {M : Sem}

/-- Change the result of a computation. -/
def mapR {α β : Type} (φ : α → β) : Comp M α → Comp M β
  | none => none
  | some (.val a s) => some (.val (φ a) s)
  | some (.exn s) => some (.exn s)
  | some .ub => some .ub

/-- The same, unless the first has no meaning; results are related by a function. -/
def Same {α β : Type} (φ : α → β) (x : Comp M α) (y : Comp M β) : Prop := x = some .ub ∨ y = mapR φ x

theorem mapR_id {α : Type} (x : Comp M α) : mapR (fun a => a) x = x := by
  cases x with
  | none => rfl
  | some r => cases r <;> rfl

theorem mapR_val {α β : Type} {φ : α → β} {x : Comp M α} {b : β} {s : St M} (h : some (.val b s) = mapR φ x) : ∃ a, x = some (.val a s) ∧ φ a = b := by
  cases x with
  | none => cases h
  | some r =>
    cases r with
    | val a s1 => injection h with h; injection h with h1 h2; exact ⟨a, by rw [h2], h1.symm⟩
    | exn s1 => injection h with h; cases h
    | ub => injection h with h; cases h

theorem same_rfl {α : Type} {x : Comp M α} : Same (fun a => a) x x := .inr (mapR_id x).symm

theorem same_eq {α : Type} {x y : Comp M α} (h : Same (fun a => a) x y) : x = some .ub ∨ y = x := by
  rcases h with h | h
  · exact .inl h
  · exact .inr (by rw [h, mapR_id])

theorem same_bind {α β γ : Type} {φ : β → γ} {x x' : Comp M α} {k : α → St M → Comp M β} {k' : α → St M → Comp M γ}
    (hx : Same (fun a => a) x x') (hk : ∀ a s1, x = some (.val a s1) → Same φ (k a s1) (k' a s1)) : Same φ (x.bind k) (x'.bind k') := by
  rcases same_eq hx with h | h
  · exact .inl (by rw [h]; rfl)
  · subst h
    cases x' with
    | none => exact .inr rfl
    | some r =>
      cases r with
      | val a s1 => exact hk a s1 rfl
      | exn s1 => exact .inr rfl
      | ub => exact .inl rfl

theorem same_val {α β : Type} {φ : α → β} {a : α} {b : β} {s : St M} (h : b = φ a) : Same φ (some (.val a s)) (some (.val b s)) :=
  .inr (by rw [h]; rfl)

/-! ## What is left of a result -/

section
variable (P : Prog) (D : Fn → Placements)

/-- What is left of a tuple. -/
def shrink (pl : List (Option Nat)) : Val → Val
  | .tup vs => match left pl vs with
    | [] => .void
    | [v] => v
    | l => .tup l
  | v => v

/-- What is left of the result of a function. -/
def leftOf (f : Fn) (v : Val) : Val := if changed P D f then shrink (D f).pl v else v

/-- What is left of what a `return` gives. -/
def shrinkF (pl : List (Option Nat)) : Val → Flow
  | .tup vs => match left pl vs with
    | [] => .ret none
    | [v] => .ret (some v)
    | l => .ret (some (.tup l))
  | v => .ret (some v)

/-- The same for how a statement of a function ends. -/
def leftF (g : Fn) : Flow → Flow
  | .ret (some v) => if changed P D g then shrinkF (D g).pl v else .ret (some v)
  | o => o

/-- Calls before and after. -/
def CSame (c c' : Calls M) : Prop := ∀ f args d s, Fits d (Prog.kinds P f) args → Same (leftOf P D f) (c f args d s) (c' f args d s)
end

/-! ## Placements by which functions are changed -/

/-- What the pass has found out, if there are no tail calls. -/
def Found (P : Prog) (D : Fn → Placements) : Prop := ∀ f F, Prog.get P f = some F → D f = { pl := prune P.meth F.body (rawPl P f F) }

section
variable {P : Prog} {D : Fn → Placements} (hD : Found P D)

include hD in
theorem found_ids {f : Fn} {F : Fun} (hF : Prog.get P f = some F) : idsOf D f = (D f).pl := by simp [idsOf, hD f F hF]

include hD in
theorem found_placed {f : Fn} {F : Fun} (hF : Prog.get P f = some F) {i p : Nat} (h : (D f).pl[i]? = some (some p)) : Placed P f F (D f).pl i p := by
  rw [hD f F hF] at h ⊢; exact placed h

include hD in
theorem changed_of {f : Fn} {F : Fun} (hF : Prog.get P f = some F) {i p : Nat} (h : (D f).pl[i]? = some (some p)) : changed P D f = true := by
  obtain ⟨ts, h1, h2⟩ := (found_placed hD hF h).res
  simp only [changed, hF, found_ids hD hF, h1, Bool.and_eq_true, List.any_eq_true, beq_iff_eq]
  exact ⟨⟨_, List.mem_of_getElem? h, rfl⟩, h2⟩

include hD in
theorem of_changed {f : Fn} (h : changed P D f = true) : ∃ F, Prog.get P f = some F ∧ ∃ i p, (D f).pl[(i : Nat)]? = some (some p) := by
  cases hF : Prog.get P f with
  | none => simp [changed, hF] at h
  | some F =>
    simp only [changed, hF, found_ids hD hF, Bool.and_eq_true, List.any_eq_true] at h
    obtain ⟨⟨x, hx, hs⟩, _⟩ := h
    obtain ⟨i, hi⟩ := List.mem_iff_getElem?.mp hx
    cases x with
    | none => cases hs
    | some p => exact ⟨F, rfl, i, p, hi⟩

include hD in
theorem unchanged_none {f : Fn} {F : Fun} (hF : Prog.get P f = some F) (h : changed P D f = false) (i p : Nat) : (D f).pl[i]? ≠ some (some p) := by
  intro hi; rw [changed_of hD hF hi] at h; cases h

include hD in
/-- Only functions whose calls are all tuple assignments are changed. -/
theorem unchanged_of_use {f : Fn} {u : Use} (hu : u ∈ P.uses f) (hn : ∀ ts as, u ≠ .asg ts as) : changed P D f = false := by
  cases h : changed P D f with
  | false => rfl
  | true =>
    obtain ⟨F, hF, i, p, hi⟩ := of_changed hD h
    obtain ⟨ts, as, hu', _⟩ := (found_placed hD hF hi).uses u hu
    exact absurd hu' (hn ts as)

theorem leftOf_unchanged {f : Fn} (h : changed P D f = false) : leftOf P D f = fun v => v := by
  funext v; simp [leftOf, h]

end

/-! ## Expressions -/

section
variable {P : Prog} {D : Fn → Placements} (hD : Found P D) {c c' : Calls M} (hc : CSame P D c c') {env : Var → Loc} {d : Nat}
  (henv : ∀ y d' x, env y = .slot d' x → d' ≤ d)

include henv in
theorem evalArgs_fits {ks : List Kind} {as : Exprs} {K : Fn → List Kind} {s s1 : St M} {args : List Arg}
    (h : evalArgs c K env d ks as s = some (.val args s1)) : Fits d ks args := by
  intro j l hj
  obtain ⟨e, k, h1, h2, h3⟩ := evalArgs_ref as ks s s1 args h j l hj
  refine ⟨⟨k, h2, fun hk => by subst hk; cases h3⟩, fun d' x hl => ?_⟩
  subst hl
  obtain ⟨y, _, h4, _⟩ := byRef_slot h3
  exact henv y d' x h4

include hD hc henv in
mutual
theorem eval_same : (e : Expr) → (∀ f u, u ∈ e.uses f → u ∈ P.uses f) → ∀ s,
    Same (fun a => a) (eval c (Prog.kinds P) env d e s) (eval c' (Prog.kinds P) env d e s)
  | .lit v, _, s => by simp only [eval]; exact same_rfl
  | .name x, _, s => by simp only [eval]; exact same_rfl
  | .fld k, _, s => by simp only [eval]; exact same_rfl
  | .op o as, h, s => by
    simp only [eval]
    exact same_bind (evalArgs_same as (by simpa only [Expr.uses] using h) [] s) fun a s1 _ => same_rfl
  | .tup as, h, s => by
    simp only [eval]
    exact same_bind (evalArgs_same as (by simpa only [Expr.uses] using h) [] s) fun a s1 _ => same_rfl
  | .call f as, h, s => by
    simp only [Expr.uses] at h
    simp only [eval]
    refine same_bind (evalArgs_same as (fun g u hu => h g u (by simp [hu])) _ s) fun args s1 hargs => ?_
    have hun : changed P D f = false := unchanged_of_use hD (u := .other) (h f .other (by simp)) (fun _ _ h => by cases h)
    have := hc f args d s1 (evalArgs_fits henv hargs)
    rwa [leftOf_unchanged hun] at this
theorem evalArgs_same : (as : Exprs) → (∀ f u, u ∈ as.uses f → u ∈ P.uses f) → ∀ ks s,
    Same (fun a => a) (evalArgs c (Prog.kinds P) env d ks as s) (evalArgs c' (Prog.kinds P) env d ks as s)
  | .nil, _, ks, s => by simp only [evalArgs]; exact same_rfl
  | .cons e r, h, ks, s => by
    simp only [Exprs.uses] at h
    have he := eval_same e (fun g u hu => h g u (by simp [hu]))
    have hr := evalArgs_same r (fun g u hu => h g u (by simp [hu]))
    cases hb : byRef env (ks.headD .copy) e with
    | some l =>
      rw [evalArgs_cons_ref hb, evalArgs_cons_ref hb]
      exact same_bind (hr _ s) fun a s1 _ => same_rfl
    | none =>
      rw [evalArgs_cons_val hb, evalArgs_cons_val hb]
      exact same_bind (he s) fun v s1 _ => same_bind (hr _ s1) fun a s2 _ => same_rfl
end

include hD hc henv in
theorem call_same {f : Fn} {as : Exprs} (h : ∀ g u, u ∈ as.uses g → u ∈ P.uses g) (hun : changed P D f = false) (s : St M) :
    Same (fun a => a) (eval c (Prog.kinds P) env d (.call f as) s) (eval c' (Prog.kinds P) env d (.call f as) s) := by
  simp only [eval]
  refine same_bind (evalArgs_same hD hc henv as h _ s) fun args s1 hargs => ?_
  have := hc f args d s1 (evalArgs_fits henv hargs)
  rwa [leftOf_unchanged hun] at this

end

/-! ## Returned tuples -/

theorem evalArgs_left {c : Calls M} {K : Fn → List Kind} {env : Var → Loc} {d : Nat} : ∀ (pl : List (Option Nat)) (l : List Expr),
    (∀ (i p : Nat), pl[i]? = some (some p) → ∀ e, l[i]? = some e → ∃ x, e = .name x) → ∀ s : St M,
    evalArgs c K env d [] (Exprs.ofList (left pl l)) s = mapR (left pl) (evalArgs c K env d [] (Exprs.ofList l) s)
  | [], l, _, s => by
    have hid : (left [] : List Arg → List Arg) = fun a => a := by funext a; rw [left]
    rw [left, hid, mapR_id]
  | x :: pl, [], _, s => by cases x <;> simp [left, Exprs.ofList, evalArgs, mapR]
  | none :: pl, e :: l, h, s => by
    have ih := evalArgs_left (c := c) (K := K) (env := env) (d := d) pl l
      (fun i p hi e he => h (i + 1) p (by simpa using hi) e (by simpa using he))
    have hb : byRef env (([] : List Kind).headD .copy) e = none := rfl
    simp only [left, Exprs.ofList]
    rw [evalArgs_cons_val hb, evalArgs_cons_val hb]
    cases eval c K env d e s with
    | none => rfl
    | some r =>
      cases r with
      | exn s1 => rfl
      | ub => rfl
      | val v s1 =>
        show Comp.bind (evalArgs c K env d [] (Exprs.ofList (left pl l)) s1) _ = mapR _ (Comp.bind (evalArgs c K env d [] (Exprs.ofList l) s1) _)
        rw [ih s1]
        cases evalArgs c K env d [] (Exprs.ofList l) s1 with
        | none => rfl
        | some r => cases r <;> rfl
  | some p :: pl, e :: l, h, s => by
    have ih := evalArgs_left (c := c) (K := K) (env := env) (d := d) pl l
      (fun i p hi e he => h (i + 1) p (by simpa using hi) e (by simpa using he))
    obtain ⟨x, rfl⟩ := h 0 p rfl e rfl
    have hb : byRef env (([] : List Kind).headD .copy) (.name x) = none := rfl
    simp only [left, Exprs.ofList]
    rw [evalArgs_cons_val hb, ih s, eval]
    show _ = mapR _ (Comp.bind (evalArgs c K env d [] (Exprs.ofList l) s) _)
    cases evalArgs c K env d [] (Exprs.ofList l) s with
    | none => rfl
    | some r => cases r <;> rfl

theorem isId_name {e : Expr} {p : Nat} (h : e.isId p = true) : ∃ x, e = .name x := by
  cases e with
  | name x => exact ⟨x, rfl⟩
  | _ => cases h

/-- What is left of a returned tuple. -/
def shrinkE : List Expr → Option Expr
  | [] => none
  | [e] => some e
  | es => some (.tup (Exprs.ofList es))

/-- A returned tuple without the elements placed. -/
theorem evalRet_left {c : Calls M} {K : Fn → List Kind} {env : Var → Loc} {d : Nat} {pl : List (Option Nat)} {as : Exprs} {i0 p0 : Nat}
    (h0 : pl[i0]? = some (some p0)) (hl0 : i0 < as.toList.length)
    (h : ∀ (i p : Nat), pl[i]? = some (some p) → ∀ e, as.toList[i]? = some e → e.isId p = true) (s : St M) :
    (evalRet c K env d (newRet pl as) s).bind (fun v s1 => some (.val (Flow.ret v) s1)) =
      (evalArgs c K env d [] as s).bind fun vs s1 => some (.val (shrinkF pl (.tup (vs.map (Arg.get s1)))) s1) := by
  have hst := staying_left pl as.toList h
  have hlt := left_lt pl as.toList i0 p0 h0 hl0
  have hev := evalArgs_left (c := c) (K := K) (env := env) (d := d) pl as.toList (fun i p hi e he => isId_name (h i p hi e he)) s
  rw [ofList_toList] at hev
  have hnr : newRet pl as = shrinkE (left pl as.toList) := by
    simp only [newRet, hst]
    rw [if_neg (by omega)]
    cases left pl as.toList with
    | nil => rfl
    | cons e es => cases es <;> rfl
  rw [hnr]
  have hmap : ∀ (a : List Arg) (s1 : St M), left pl (a.map (Arg.get s1)) = (left pl a).map (Arg.get s1) := fun a s1 => left_map _ pl a
  cases hl : left pl as.toList with
  | nil =>
    rw [hl] at hev
    simp only [Exprs.ofList, evalArgs] at hev
    obtain ⟨a, ha, hla⟩ := mapR_val hev
    rw [ha]
    simp only [shrinkE, evalRet, Comp.bind, shrinkF, hmap, hla, List.map_nil]
  | cons e es =>
    cases es with
    | nil =>
      rw [hl] at hev
      simp only [Exprs.ofList] at hev
      rw [evalArgs_cons_val (by rfl)] at hev
      simp only [shrinkE, evalRet]
      cases hq : eval c K env d e s with
      | none =>
        rw [hq] at hev
        cases ha : evalArgs c K env d [] as s with
        | none => rfl
        | some r => rw [ha] at hev; cases r <;> cases hev
      | some r =>
        rw [hq] at hev
        cases r with
        | exn s1 =>
          cases ha : evalArgs c K env d [] as s with
          | none => rw [ha] at hev; cases hev
          | some r =>
            rw [ha] at hev
            cases r with
            | exn s2 => injection hev with hev; injection hev with hev; subst hev; rfl
            | val a s2 => injection hev with hev; cases hev
            | ub => injection hev with hev; cases hev
        | ub =>
          cases ha : evalArgs c K env d [] as s with
          | none => rw [ha] at hev; cases hev
          | some r =>
            rw [ha] at hev
            cases r with
            | exn s2 => injection hev with hev; cases hev
            | val a s2 => injection hev with hev; cases hev
            | ub => rfl
        | val v s1 =>
          simp only [Comp.bind, evalArgs] at hev
          obtain ⟨a, ha, hla⟩ := mapR_val hev
          rw [ha]
          simp only [Comp.bind, shrinkF, hmap, hla, List.map_cons, List.map_nil, Arg.get]
    | cons e' es =>
      have hlen : ∀ a s1, evalArgs c K env d [] as s = some (.val a s1) → ∃ x y r, left pl a = x :: y :: r := by
        intro a s1 ha
        have h1 := left_length pl a as.toList (evalArgs_length as _ _ _ _ ha)
        rw [hl] at h1
        cases hq : left pl a with
        | nil => rw [hq] at h1; simp at h1
        | cons x r =>
          cases r with
          | nil => rw [hq] at h1; simp at h1
          | cons y r => exact ⟨x, y, r, rfl⟩
      rw [hl] at hev
      simp only [shrinkE, evalRet, eval]
      rw [hev]
      cases ha : evalArgs c K env d [] as s with
      | none => rfl
      | some r =>
        cases r with
        | exn s1 => rfl
        | ub => rfl
        | val a s1 =>
          obtain ⟨x, y, r, hxy⟩ := hlen a s1 ha
          simp only [mapR, Comp.bind, shrinkF, hmap, hxy, List.map_cons]

/-! ## Tuple assignments -/

/-- What follows a call in the new assignment. -/
def asgK (env : Var → Loc) : List Lhs → Val → St M → Comp M Flow
  | [], _, s => some (.val .norm s)
  | [t], v, s => some (.val .norm (s.set (lhsLoc env t) v))
  | ts, .tup vs, s => if vs.length = ts.length then some (.val .norm (assignAll env ts vs s)) else some .ub
  | _, _, _ => some .ub

theorem exec_newAsg {c : Calls M} {K : Fn → List Kind} {env : Var → Loc} {d n : Nat} (ts : List Lhs) (e : Expr) (s : St M) :
    exec c K env d n (newAsg ts e) s = (eval c K env d e s).bind (asgK env ts) := by
  cases ts with
  | nil => simp only [newAsg, exec]; rfl
  | cons t ts =>
    cases ts with
    | nil => simp only [newAsg, exec]; rfl
    | cons t' ts =>
      simp only [newAsg, exec]
      congr 1
      funext v s1
      cases v <;> rfl

theorem set_id {s : St M} {l : Loc} {v : Val} (h : v = s.mem l) : s.set l v = s := by
  cases s with
  | mk mem w =>
    simp only [St.set, St.mk.injEq, and_true]
    funext l'
    split
    · rename_i hl; rw [hl, h]
    · rfl

/-- Assigning what is there already changes nothing. -/
theorem assign_left {env : Var → Loc} : ∀ (pl : List (Option Nat)) (ts : List Lhs) (vs : List Val) (s : St M), pl.length = ts.length → vs.length = ts.length →
    (∀ (i p : Nat), pl[i]? = some (some p) → ∃ t, ts[i]? = some t ∧ vs[i]? = some (s.mem (lhsLoc env t)) ∧
      ∀ (k : Nat) t', k ≠ i → ts[k]? = some t' → lhsLoc env t' ≠ lhsLoc env t) →
    assignAll env ts vs s = assignAll env (left pl ts) (left pl vs) s
  | [], [], [], s, _, _, _ => by simp [left]
  | [], t :: ts, vs, s, h, _, _ => by simp at h
  | x :: pl, [], vs, s, h, _, _ => by simp at h
  | x, t :: ts, [], s, _, h, _ => by simp at h
  | x, [], v :: vs, s, _, h, _ => by simp at h
  | none :: pl, t :: ts, v :: vs, s, h1, h2, h => by
    simp only [left, assignAll]
    refine assign_left pl ts vs _ (by simpa using h1) (by simpa using h2) fun i p hi => ?_
    obtain ⟨t', ht, hv, hn⟩ := h (i + 1) p (by simpa using hi)
    refine ⟨t', by simpa using ht, ?_, fun k t'' hk hk' => hn (k + 1) t'' (by omega) (by simpa using hk')⟩
    have hne := hn 0 t (by omega) rfl
    rw [set_other (fun hh => hne hh.symm)]
    simpa using hv
  | some p :: pl, t :: ts, v :: vs, s, h1, h2, h => by
    simp only [left, assignAll]
    obtain ⟨t0, ht0, hv0, _⟩ := h 0 p rfl
    have ht0 : t = t0 := by simpa using ht0
    subst ht0
    have hv0 : v = s.mem (lhsLoc env t) := by simpa using hv0
    rw [set_id hv0]
    refine assign_left pl ts vs s (by simpa using h1) (by simpa using h2) fun i p hi => ?_
    obtain ⟨t', ht, hv, hn⟩ := h (i + 1) p (by simpa using hi)
    exact ⟨t', by simpa using ht, by simpa using hv, fun k t'' hk hk' => hn (k + 1) t'' (by omega) (by simpa using hk')⟩

theorem asgK_left {env : Var → Loc} {ts : List Lhs} {vs : List Val} {pl : List (Option Nat)} (hl : vs.length = ts.length) (s : St M) :
    asgK env (left pl ts) (shrink pl (.tup vs)) s = some (.val .norm (assignAll env (left pl ts) (left pl vs) s)) := by
  have hlen := left_length pl vs ts hl
  simp only [shrink]
  cases h1 : left pl ts with
  | nil =>
    cases h2 : left pl vs with
    | nil => simp [asgK, assignAll]
    | cons v r => rw [h1, h2] at hlen; simp at hlen
  | cons t r =>
    cases h2 : left pl vs with
    | nil => rw [h1, h2] at hlen; simp at hlen
    | cons v q =>
      rw [h1, h2] at hlen
      cases r with
      | nil =>
        cases q with
        | nil => simp [asgK, assignAll]
        | cons v' q => simp at hlen
      | cons t' r =>
        cases q with
        | nil => simp at hlen
        | cons v' q => simp only [asgK]; rw [if_pos hlen]

theorem nodup_inj {α : Type} {a : α} : ∀ {l : List α}, l.Nodup → ∀ {i j : Nat}, l[i]? = some a → l[j]? = some a → i = j
  | [], _, i, j, hi, hj => by cases hi
  | x :: l, h, 0, 0, hi, hj => rfl
  | x :: l, h, i + 1, j + 1, hi, hj => by rw [nodup_inj (List.nodup_cons.mp h).2 (i := i) (j := j) (by simpa using hi) (by simpa using hj)]
  | x :: l, h, 0, j + 1, hi, hj => by
    have hx : x = a := by simpa using hi
    subst hx
    exact absurd (List.mem_of_getElem? (i := j) (by simpa using hj)) (List.nodup_cons.mp h).1
  | x :: l, h, i + 1, 0, hi, hj => by
    have hx : x = a := by simpa using hj
    subst hx
    exact absurd (List.mem_of_getElem? (i := i) (by simpa using hi)) (List.nodup_cons.mp h).1

/-! ## Statements -/

/-- Where the variables of a function running at depth `d` are. -/
structure EnvOk (G : Fun) (env : Var → Loc) (d : Nat) : Prop where
  low : ∀ y d' x, env y = .slot d' x → d' ≤ d
  own : ∀ v, Own G v → env v = .slot d v
  only : ∀ y x, env y = .slot d x → y = x

section
variable {P : Prog} {D : Fn → Placements} (hD : Found P D) (hP : Good P) {m : Nat} {c' : Calls M} (hc : CSame P D (callN M P m) c')
  {g : Fn} {G : Fun} (hG : Prog.get P g = some G) {env : Var → Loc} {d : Nat} (henv : EnvOk G env d)

include hD hP in
theorem placed_always {f : Fn} {F : Fun} (hF : Prog.get P f = some F) {i p : Nat} (h : (D f).pl[i]? = some (some p)) :
    AlwaysReturns F i p := (found_placed hD hF h).always hP.scopes hF

include hD hP hG henv hc in
theorem tset_same {ts : List Lhs} {f : Fn} {as : Exprs} (hu : ∀ k u, u ∈ asgUses k ts (.call f as) → u ∈ P.uses k)
    (hk : (ts, Expr.call f as) ∈ G.body.unpacks) (n : Nat) (s : St M) (hch : changed P D f = true) :
    Same (leftF P D g) (exec (callN M P m) (Prog.kinds P) env d n (.tset ts (.call f as)) s)
      (exec c' (Prog.kinds P) env d n (mutAsg P D ts (.call f as)) s) := by
  obtain ⟨F, hF, i0, p0, hi0⟩ := of_changed hD hch
  have hpl0 := found_placed hD hF hi0
  have hids := found_ids hD hF
  have huse : Use.asg ts as ∈ P.uses f := hu f _ (by simp [asgUses])
  obtain ⟨ts', as', hq, hlen, hat⟩ := hpl0.uses _ huse
  injection hq with h1 h2; subst h1; subst h2
  have hmut : mutAsg P D ts (.call f as) = newAsg (ts.filter (keeps F.params as (D f).pl)) (.call f as) := by
    simp only [mutAsg, hch, hF, hids]
    rw [if_pos ⟨trivial, by rw [hD f F hF]⟩]
  obtain ⟨hplen, hpnd, hpin⟩ := hP.compiles f F hF
  have hfr := callN_frame (M := M) hP.compiles m
  rw [hmut, exec_newAsg, exec]
  simp only [eval]
  have hargs := evalArgs_same hD hc henv.low as (fun k u hk => hu k u (by simp [asgUses, hk])) (Prog.kinds P f) s
  rcases same_eq hargs with h | h
  · exact .inl (by rw [h]; rfl)
  rw [h]
  clear hargs h
  cases ha : evalArgs (callN M P m) (Prog.kinds P) env d (Prog.kinds P f) as s with
  | none => exact .inr rfl
  | some r =>
    cases r with
    | exn s1 => exact .inr rfl
    | ub => exact .inl rfl
    | val args s1 =>
      have hfit := evalArgs_fits henv.low ha
      have hcall := hc f args d s1 hfit
      show Same _ (Comp.bind (callN M P m f args d s1) _) (Comp.bind (c' f args d s1) _)
      rcases hcall with hcall | hcall
      · exact .inl (by rw [hcall]; rfl)
      rw [hcall]
      clear hcall
      cases hr : callN M P m f args d s1 with
      | none => exact .inr rfl
      | some r =>
        cases r with
        | exn s2 => exact .inr rfl
        | ub => exact .inl rfl
        | val v s2 =>
          rw [kinds_of_get hF] at hfit
          obtain ⟨rts, hres, hrl⟩ := hpl0.res
          -- what is known about one placed parameter
          have hback : ∀ i p j, (D f).pl[(i : Nat)]? = some (some p) → F.params[(j : Nat)]? = some p → _ := fun i p j hi hj =>
            comes_back hP.compiles hF hres hpl0.body hj (i := i)
              (fun e he => by
                obtain ⟨as', h1, h2⟩ := (placed_always hD hP hF hi).2.2 e he
                exact ⟨as', h1, h2, (hP.steady f F i p hF (placed_always hD hP hF hi)).2 as' (h1 ▸ he)⟩)
              (fun hcp hw => by
                rcases writess_sub (meth := P.meth) F.body hw with hw | hw | hw
                · exact (hP.steady f F i p hF (placed_always hD hP hF hi)).1 (mem_zip_of_get hj hcp) hw
                · exact (hP.scopes f F hF).1 _ hw (List.mem_of_getElem? hj)
                · exact (found_placed hD hF hi).nowhere hw)
              hfit hr
          obtain ⟨j0, hj0⟩ := List.mem_iff_getElem?.mp hpl0.param
          obtain ⟨vs, rfl, hvl, _, _⟩ := hback i0 p0 j0 hi0 hj0
          show Same _ (if vs.length = ts.length then some (.val Flow.norm (assignAll env ts vs s2)) else some .ub)
            (asgK env _ (leftOf P D f (.tup vs)) s2)
          by_cases hlv : vs.length = ts.length
          · rw [if_pos hlv]
            have htl : (D f).pl.length = ts.length := by omega
            -- all placed positions
            have hfact : ∀ (i p : Nat), (D f).pl[i]? = some (some p) → ∃ x, ts[i]? = some (.name x) ∧ paramOf F.params as x = some p ∧
                (∀ t ∈ ts, ∃ y, t = Lhs.name y) ∧ ts.Nodup ∧ vs[i]? = some (s2.mem (lhsLoc env (.name x))) ∧
                ∀ (k : Nat) t', k ≠ i → ts[k]? = some t' → lhsLoc env t' ≠ lhsLoc env (.name x) := by
              intro i p hi
              have hil : i < ts.length := by
                rw [← htl]; exact (List.getElem?_eq_some_iff.mp hi).1
              obtain ⟨x, hx, hpx⟩ := hat i p hi hil
              obtain ⟨j, hj, haj⟩ := paramOf_spec F.params as x p hpx
              obtain ⟨hnames, hnd, honce, v, rfl, hown, hnw⟩ :=
                hP.targets g G f F ts as i j p x hG hk hF (placed_always hD hP hF hi) hj haj hx
              have hev := henv.own v hown
              refine ⟨.loc v, hx, hpx, hnames, hnd, ?_, ?_⟩
              · show vs[i]? = some (s2.mem (env v))
                rw [hev]
                have hsrc : ∀ k : Nat, args[k]? = some (.ref (.slot d v)) → k = j := by
                  intro k hkk
                  obtain ⟨e, kk, he, hkd, hb⟩ := evalArgs_ref as _ s s1 args ha k _ hkk
                  obtain ⟨y, hy, hye, _⟩ := byRef_slot hb
                  have := henv.only y v hye
                  subst this
                  refine honce k ?_
                  rw [he]
                  cases e with
                  | name n =>
                    cases n with
                    | loc z => injection hy with hy; subst hy; rfl
                    | glob q => cases hy
                  | _ => cases hy
                obtain ⟨vs', hvs', _, hb1, hb2⟩ := hback i p j hi hj
                injection hvs' with hvs'; subst hvs'
                rcases evalArgs_name hfr (Nat.le_refl d) hev as _ s s1 args ha (fun y hy hye => hnw (henv.only y v hye ▸ hy)) j haj with
                  ⟨kk, hkk, hkne, har⟩ | ⟨hkk, hav⟩
                · exact hb2 d v (Nat.le_refl d) har hsrc
                · rw [kinds_of_get hF] at hkk
                  have hcp : F.kinds[j]? = some Kind.copy := by
                    rcases hkk with hkk | hkk
                    · have h1 := (List.getElem?_eq_some_iff.mp hj).1
                      have h2 := List.getElem?_eq_none_iff.mp hkk
                      omega
                    · exact hkk
                  rw [hb1 _ hcp hav]
                  have hkeep := hfr f args d s1 d v (Nat.le_refl d) (fun k hkk' => by
                    have := hsrc k hkk'; subst this; rw [hav] at hkk'; injection hkk' with hkk'; cases hkk') _ hr
                  have hkeep : s2.mem (.slot d v) = s1.mem (.slot d v) := hkeep
                  rw [hkeep]
              · intro k t' hki hkt
                obtain ⟨y, rfl⟩ := hnames t' (List.mem_of_getElem? hkt)
                show locOf env y ≠ env v
                rw [hev]
                cases y with
                | glob q => exact (fun h => by cases h)
                | loc w =>
                  intro hw
                  have := henv.only w v hw
                  subst this
                  exact hki (nodup_inj hnd hkt hx)
            have hfilter : ts.filter (keeps F.params as (D f).pl) = left (D f).pl ts := by
              refine filter_left _ _ _ htl (fun i p a hi hia => ?_) (fun i a hi hia => ?_)
              · obtain ⟨x, hx, hpx, _⟩ := hfact i p hi
                rw [hx] at hia; injection hia with hia; subst hia
                simp only [keeps, hpx, List.contains_eq_mem, Bool.not_eq_false', decide_eq_true_eq]
                exact List.mem_of_getElem? hi
              · obtain ⟨_, _, _, hnames, hnd, _⟩ := hfact i0 p0 hi0
                obtain ⟨y, rfl⟩ := hnames a (List.mem_of_getElem? hia)
                simp only [keeps]
                cases hpy : paramOf F.params as y with
                | none => rfl
                | some q =>
                  simp only [List.contains_eq_mem, Bool.not_eq_true', decide_eq_false_iff_not]
                  intro hq
                  obtain ⟨i', hi'⟩ := List.mem_iff_getElem?.mp hq
                  obtain ⟨x', hx', hpx', _⟩ := hfact i' q hi'
                  obtain ⟨j1, hj1, ha1⟩ := paramOf_spec F.params as y q hpy
                  obtain ⟨j2, hj2, ha2⟩ := paramOf_spec F.params as x' q hpx'
                  have := nodup_inj hpnd hj1 hj2
                  subst this
                  rw [ha1] at ha2; injection ha2 with ha2; injection ha2 with ha2; subst ha2
                  have := nodup_inj hnd hia hx'
                  subst this
                  rw [hi] at hi'; injection hi' with hi'; cases hi'
            rw [hfilter]
            have hlo : leftOf P D f (.tup vs) = shrink (D f).pl (.tup vs) := by simp [leftOf, hch]
            rw [hlo, asgK_left hlv, assign_left (D f).pl ts vs s2 htl hlv (fun i p hi => by
              obtain ⟨x, hx, _, _, _, hv, hn⟩ := hfact i p hi
              exact ⟨_, hx, hv, hn⟩)]
            exact same_val rfl
          · rw [if_neg hlv]; exact .inl rfl

end

end Verif.Opt.Ret
