import Verif.Opt.Dce

/-!
# Removal of unreachable code

Model of `unreachableNodes` and its use in `visitBlock`, `hilti/toolchain/src/compiler/optimizer/passes/dead-code-cfg.cc:31-43`
and `:201-224`, and the proof that it preserves behaviour, exceptions included, for bodies without `try`.
-/

namespace Verif.Opt

/-! ## Model -/

/-- `unreachableNodes`, `dead-code-cfg.cc:31-43`: AST nodes without incoming edge. -/
def unreachable (body : List Stmt) (l : Label) : Bool := !entered (edges body) (.stmt l)

/-- `remove` applied to the unreachable nodes, `:139-199`: an assignment leaves its right-hand side and a declaration its
    initializer (to be removed in the next round); the node of a compound statement, a `return` or a `throw` takes the whole
    statement along; the variable of a `for` stays, a head declaration goes if its initializer is harmless. -/
def unreachRw (un : Label → Bool) : Rw where
  atom
    | .decl l x i => if un l then i.map (fun e => .expr l e) else some (.decl l x i)
    | .assign l x e => if un l then some (.expr l e) else some (.assign l x e)
    | .expr l e => if un l then none else some (.expr l e)
    | .callRef l f x => if un l then none else some (.callRef l f x)
    | st => some st
  expr _ e := e
  init i := if un i.1 && i.2.2.harmless then none else some i
  gone l := un l

/-- The body after one round of removing unreachable code. -/
def unreach (body : List Stmt) : List Stmt := (unreachRw (unreachable body)).list body

/-- The loop of `visitBlock` over the unreachable nodes, `:216-222`: a new graph in every round. -/
def unreachLoop : Nat → List Stmt → List Stmt
  | 0, body => body
  | n + 1, body => unreachLoop n (unreach body)

section
variable {M : Sem}

/-! ## A state with more variables in scope -/

/-- The second state has all variables of the first one, and possibly some more of `N` in scope. -/
structure Sub (N : List Var) (s t : State M) : Prop where
  w : s.w = t.w
  le : ∀ x v, s.env x = some v → t.env x = some v
  eq : ∀ x, x ∉ N → s.env x = t.env x

/-- Same world, and the same variables apart from those in `N`. -/
def Apart (N : List Var) (s t : State M) : Prop := s.w = t.w ∧ ∀ x, x ∉ N → s.env x = t.env x

theorem Sub.apart {N : List Var} {s t : State M} (h : Sub N s t) : Apart N s t := ⟨h.w, h.eq⟩

theorem Sub.refl (N : List Var) (s : State M) : Sub N s s := ⟨rfl, fun _ _ h => h, fun _ _ => rfl⟩

theorem Sub.set {N : List Var} {s t : State M} (h : Sub N s t) (x : Var) (v : Int) : Sub N (s.set x v) (t.set x v) := by
  refine ⟨h.w, fun y u hy => ?_, fun y hy => ?_⟩
  · simp only [State.set] at hy ⊢
    split at hy
    · rename_i hc; rw [if_pos hc]; exact hy
    · rename_i hc; rw [if_neg hc]; exact h.le y u hy
  · simp only [State.set]
    split
    · rfl
    · exact h.eq y hy

theorem Sub.drop {N : List Var} {s t : State M} (h : Sub N s t) (vs ws : List Var) (h1 : ∀ x ∈ ws, x ∈ vs)
    (h2 : ∀ x ∈ vs, x ∈ N) : Sub N (s.drop vs) (t.drop ws) := by
  refine ⟨h.w, fun y u hy => ?_, fun y hy => ?_⟩
  · simp only [State.drop] at hy ⊢
    split at hy
    · cases hy
    · rename_i hv
      rw [if_neg (fun hh => hv (h1 y hh))]; exact h.le y u hy
  · simp only [State.drop]
    rw [if_neg (fun hh => hy (h2 y hh)), if_neg (fun hh => hy (h2 y (h1 y hh)))]
    exact h.eq y hy

theorem Sub.seen {N : List Var} {s t : State M} (h : Sub N s t) (hN : ∀ x ∈ N, M.vis x = false) : s.seen = t.seen := by
  funext y
  unfold State.seen
  split
  · rename_i hv
    exact h.eq y (fun hy => by rw [hN y hy] at hv; cases hv)
  · rfl

theorem Sub.back {N : List Var} {s t : State M} (h : Sub N s t) (w : M.W) (g : Var → Option Int) :
    Sub N (s.back w g) (t.back w g) := by
  refine ⟨rfl, fun y u hy => ?_, fun y hy => ?_⟩
  · simp only [State.back] at hy ⊢
    split at hy
    · rename_i hc; rw [if_pos hc]; exact hy
    · rename_i hc; rw [if_neg hc]; exact h.le y u hy
  · simp only [State.back]
    split
    · rfl
    · exact h.eq y hy

/-- The outcome of an evaluation in the larger state. -/
def Ev.sub (N : List Var) : Ev M → Ev M → Prop
  | .val v s, .val u t => v = u ∧ Sub N s t
  | .exn s, .exn t => Sub N s t
  | .stuck, _ => True
  | _, _ => False

theorem Ev.sub.then {N : List Var} {r q : Ev M} {k j : Int → State M → Ev M} (h : r.sub N q)
    (hk : ∀ v s t, Sub N s t → (k v s).sub N (j v t)) : (r.then k).sub N (q.then j) := by
  cases r with
  | stuck => trivial
  | val v s =>
    cases q with
    | val u t => obtain ⟨rfl, h⟩ := h; exact hk _ _ _ h
    | exn _ => exact h.elim
    | stuck => exact h.elim
  | exn s =>
    cases q with
    | exn t => exact h
    | val _ _ => exact h.elim
    | stuck => exact h.elim

theorem eval_sub {N : List Var} (hN : ∀ x ∈ N, M.vis x = false) : ∀ (e : Expr) {s t : State M}, Sub N s t →
    (eval e s).sub N (eval e t)
  | .lit _ n, s, t, h => ⟨rfl, h⟩
  | .name _ x, s, t, h => by
    simp only [eval]
    cases hx : s.env x with
    | none => trivial
    | some v => rw [h.le x v hx]; exact ⟨rfl, h⟩
  | .bin f a b, s, t, h => by
    simp only [eval]
    refine (eval_sub hN a h).then fun va s1 t1 h1 => (eval_sub hN b h1).then fun vb s2 t2 h2 => ?_
    cases M.op f va vb with
    | none => exact h2
    | some v => exact ⟨rfl, h2⟩
  | .logic k a b, s, t, h => by
    simp only [eval]
    refine (eval_sub hN a h).then fun va s1 t1 h1 => ?_
    have hb := (eval_sub hN b h1).then (k := fun vb s2 => .val (if vb = 0 then 0 else 1) s2)
      (j := fun vb s2 => .val (if vb = 0 then 0 else 1) s2) fun vb s2 t2 h2 => ⟨rfl, h2⟩
    cases k with
    | true =>
      simp only [if_true]
      split
      · exact ⟨rfl, h1⟩
      · exact hb
    | false =>
      simp only [Bool.false_eq_true, if_false]
      split
      · exact hb
      · exact ⟨rfl, h1⟩
  | .call f a, s, t, h => by
    simp only [eval]
    refine (eval_sub hN a h).then fun va s1 t1 h1 => ?_
    rw [← h1.w, ← h1.seen hN]
    cases (M.call f va s1.w s1.seen).1 with
    | none => exact h1.back _ _
    | some v => exact ⟨rfl, h1.back _ _⟩

theorem init_sub {N : List Var} (hN : ∀ x ∈ N, M.vis x = false) (i : Option (Label × Var × Expr)) {s t : State M}
    (h : Sub N s t) : (initStep i s).sub N (initStep i t) := by
  cases i with
  | none => exact ⟨rfl, h⟩
  | some i =>
    obtain ⟨l, x, e⟩ := i
    exact (eval_sub hN e h).then fun v s1 t1 h1 => ⟨rfl, h1.set x v⟩

theorem atom_sub {N : List Var} (hN : ∀ x ∈ N, M.vis x = false) (st : Stmt) {s t : State M} (h : Sub N s t) :
    (atom st s).sub N (atom st t) := by
  cases st with
  | decl l x i =>
    cases i with
    | none => exact ⟨rfl, h.set x 0⟩
    | some e => exact (eval_sub hN e h).then fun v s1 t1 h1 => ⟨rfl, h1.set x v⟩
  | assign l x e =>
    refine (eval_sub hN e h).then fun v s1 t1 h1 => ?_
    cases hx : s1.env x with
    | none => trivial
    | some o => rw [h1.le x o hx]; exact ⟨rfl, h1.set x v⟩
  | expr l e => exact eval_sub hN e h
  | callRef l f x =>
    simp only [atom]
    cases hx : s.env x with
    | none => trivial
    | some o =>
      rw [h.le x o hx, ← h.w, ← h.seen hN]
      dsimp only
      split
      · exact ⟨rfl, (h.back _ _).set _ _⟩
      · exact (h.back _ _).set _ _
  | _ => trivial

theorem Ev.sub_val {N : List Var} {r q : Ev M} (h : r.sub N q) {v : Int} {s : State M} (hr : r = .val v s) :
    ∃ t, q = .val v t ∧ Sub N s t := by
  subst hr
  cases q with
  | val u t => obtain ⟨rfl, h⟩ := h; exact ⟨t, rfl, h⟩
  | exn _ => exact h.elim
  | stuck => exact h.elim

theorem Ev.sub_exn {N : List Var} {r q : Ev M} (h : r.sub N q) {s : State M} (hr : r = .exn s) :
    ∃ t, q = .exn t ∧ Sub N s t := by
  subst hr
  cases q with
  | exn t => exact ⟨t, rfl, h⟩
  | val _ _ => exact h.elim
  | stuck => exact h.elim

/-! ## The proof -/

variable {body : List Stmt}

/-- States of the two bodies after node `u`. -/
def UR (body : List Stmt) (u : Node) (s t : State M) : Prop := Live (build body).edges u ∧ Sub (declsOf body) s t

theorem UR.reach {v : Node} {s t : State M} (h : Arrives (build body) (UR body) v s t) :
    Live (build body).edges v ∧ entered (edges body) v = true ∧ Sub (declsOf body) s t := by
  obtain ⟨u, -, he, hl, hs⟩ := h
  exact ⟨.step hl he, entered_iff.2 ⟨u, live_edge hl he⟩, hs⟩

theorem UR.stays {l : Label} {s t : State M} (h : Arrives (build body) (UR body) (.stmt l) s t) : unreachable body l = false := by
  unfold unreachable
  rw [(UR.reach h).2.1]; rfl

theorem unreach_atom_id {st : Stmt} (ha : st.isAtom = true) (h : unreachable body st.label = false) :
    (unreachRw (unreachable body)).atom st = some st := by
  cases st with
  | decl l x i => simp only [Stmt.label] at h; simp only [unreachRw, h, Bool.false_eq_true, if_false]
  | assign l x e => simp only [Stmt.label] at h; simp only [unreachRw, h, Bool.false_eq_true, if_false]
  | expr l e => simp only [Stmt.label] at h; simp only [unreachRw, h, Bool.false_eq_true, if_false]
  | callRef l f x => simp only [Stmt.label] at h; simp only [unreachRw, h, Bool.false_eq_true, if_false]
  | _ => cases ha

theorem unreach_init_id {i : Label × Var × Expr} (h : unreachable body i.1 = false) :
    (unreachRw (unreachable body)).init i = some i := by
  simp only [unreachRw, h, Bool.false_and, Bool.false_eq_true, if_false]

theorem unreach_decls (un : Label → Bool) (st st' : Stmt) (h : (unreachRw un).atom st = some st') : ∀ x ∈ st'.decls, x ∈ st.decls := by
  intro x hx
  cases st with
  | decl l y i =>
    simp only [unreachRw] at h
    split at h
    · cases i with
      | none => cases h
      | some e => cases h; simp [Stmt.decls] at hx
    · cases h; exact hx
  | assign l y e =>
    simp only [unreachRw] at h
    split at h <;> cases h
    · simp [Stmt.decls] at hx
    · exact hx
  | expr l e =>
    simp only [unreachRw] at h
    split at h <;> cases h
    exact hx
  | callRef l f y =>
    simp only [unreachRw] at h
    split at h <;> cases h
    exact hx
  | _ => simp only [unreachRw] at h; cases h; exact hx

theorem unreach_decls_init (un : Label → Bool) (i : Label × Var × Expr) :
    ∀ x ∈ initVars ((unreachRw un).init i), x ∈ initVars (some i) := by
  intro x hx
  simp only [unreachRw] at hx
  split at hx
  · cases hx
  · exact hx

theorem scope_decls {k : Node} {sc : List Stmt} (h : (k, sc) ∈ (build body).scopes) : ∀ x ∈ declsOf sc, x ∈ declsOf body := by
  intro x hx
  obtain ⟨l, i, hi, hd⟩ := mem_decls.1 hx
  exact mem_decls.2 ⟨l, i, (build_sc body).items _ h _ hi, hd⟩

theorem unreach_simulates (hN : ∀ x ∈ declsOf body, M.vis x = false) :
    Simulates true true false body (build body) (unreachRw (unreachable body)) (UR (M := M) body) (Apart (declsOf body))
      (Sub (declsOf body)) where
  atom := by
    intro st v s s' t ha _ harr _ h
    rw [unreach_atom_id ha (UR.stays harr)]
    obtain ⟨t', h1, h2⟩ := Ev.sub_val (atom_sub hN st (UR.reach harr).2.2) h
    exact ⟨ha, v, t', h1, (UR.reach harr).1, h2⟩
  cond := by
    intro l c v s s' t _ harr h
    obtain ⟨t', h1, h2⟩ := Ev.sub_val (eval_sub hN c (UR.reach harr).2.2) h
    exact ⟨t', h1, (UR.reach harr).1, h2⟩
  ret := by
    intro l c v s s' t _ harr h
    obtain ⟨t', h1, h2⟩ := Ev.sub_val (eval_sub hN c (UR.reach harr).2.2) h
    exact ⟨t', h1, (UR.reach harr).1, h2⟩
  retNone := fun l s t _ harr => ⟨(UR.reach harr).1, (UR.reach harr).2.2⟩
  gone := fun l s t harr => UR.stays harr
  init := by
    intro l x e v s s' t _ harr h
    rw [unreach_init_id (UR.stays harr)]
    obtain ⟨t', h1, h2⟩ := Ev.sub_val (init_sub hN (some (l, x, e)) (UR.reach harr).2.2) h
    exact ⟨v, t', h1, (UR.reach harr).1, h2⟩
  initDrop := by
    rintro u l x e s t hi ⟨hl, hs⟩
    refine ⟨hl, hs.drop _ _ (unreach_decls_init _ (l, x, e)) fun y hy => ?_⟩
    exact mem_decls.2 ⟨l, _, hi, by cases List.mem_singleton.1 hy; rfl⟩
  forVar := fun l x v s t _ harr => ⟨(UR.reach harr).1, (UR.reach harr).2.2.set x v⟩
  pass := fun l c s t _ harr => ⟨(UR.reach harr).1, (UR.reach harr).2.2⟩
  scopeEnd := fun k sc s t hk harr => ⟨(UR.reach harr).1,
    (UR.reach harr).2.2.drop _ _ (Rw.list_decls _ (unreach_decls _) (unreach_decls_init _) sc) (scope_decls hk)⟩
  flow := fun k s t harr => ⟨(UR.reach harr).1, (UR.reach harr).2.2⟩
  obsFin := fun s t harr => (UR.reach harr).2.2.apart
  obsThrow := fun k sc s t _ harr => (UR.reach harr).2.2.apart
  obsDrop := by
    intro vs ws s t h1 h2 h
    refine ⟨h.1, fun x hx => ?_⟩
    simp only [State.drop]
    rw [if_neg (fun hh => hx (h1 x hh)), if_neg (fun hh => hx (h2 x hh))]
    exact h.2 x hx
  atomDecls := unreach_decls _
  initDecls := unreach_decls_init _
  esc := fun _ u s t h => h.2
  escScope := fun k sc s t hk h => h.drop _ _ (Rw.list_decls _ (unreach_decls _) (unreach_decls_init _) sc) (scope_decls hk)
  escInit := by
    intro l x e s t hi hs
    refine hs.drop _ _ (unreach_decls_init _ (l, x, e)) fun y hy => ?_
    exact mem_decls.2 ⟨l, _, hi, by cases List.mem_singleton.1 hy; rfl⟩
  jump := fun u s0 t0 s t h hs => ⟨h.1, hs⟩
  atomX := by
    intro _ st s s' t ha _ harr h
    obtain ⟨t', h1, h2⟩ := Ev.sub_exn (atom_sub hN st (UR.reach harr).2.2) h
    exact ⟨st, t', unreach_atom_id ha (UR.stays harr), ha, h1, h2.apart⟩
  condX := by
    intro _ l c s s' t _ harr h
    obtain ⟨t', h1, h2⟩ := Ev.sub_exn (eval_sub hN c (UR.reach harr).2.2) h
    exact ⟨t', h1, h2.apart⟩
  retX := by
    intro _ l c s s' t _ harr h
    obtain ⟨t', h1, h2⟩ := Ev.sub_exn (eval_sub hN c (UR.reach harr).2.2) h
    exact ⟨t', h1, h2.apart⟩
  initX := by
    intro _ l x e s s' t _ harr h
    obtain ⟨t', h1, h2⟩ := Ev.sub_exn (init_sub hN (some (l, x, e)) (UR.reach harr).2.2) h
    exact ⟨t', _, unreach_init_id (UR.stays harr), h1, h2.apart⟩
  goneX := by
    intro _ k l s t harr he
    refine UR.stays (s := s) (t := t) ⟨.stmt k, (by intro h; cases h), he, (UR.reach harr).1, (UR.reach harr).2.2⟩

/-- One round. -/
theorem unreach_round (hN : ∀ x ∈ declsOf body, M.vis x = false) (hp : plainAll true body = true) {s s' : State M} {o : Out}
    (h : Runs body s o s') : ∃ t', Runs (unreach body) s o t' ∧ Apart (declsOf body) s' t' := by
  obtain ⟨t', h1, h2⟩ := simulation_run (t := s) (unreach_simulates hN) hp h (fun _ => rfl) ⟨.start, Sub.refl _ _⟩ (NewC.off _ _)
  refine ⟨t', h1, ?_⟩
  cases o with
  | brk => exact h2.apart
  | cont => exact h2.apart
  | normal => exact h2
  | ret v => exact h2
  | exn v => exact h2

theorem plainAll_append (j : Bool) (a b : List Stmt) : plainAll j (a ++ b) = (plainAll j a && plainAll j b) := by
  induction a with
  | nil => rfl
  | cons x a ih => simp only [List.cons_append, plainAll, ih, Bool.and_assoc]

mutual
theorem Rw.stmt_plain (rw : Rw) (j : Bool) (ha : ∀ st st', rw.atom st = some st' → st.plain j = true → st'.plain j = true) :
    ∀ st : Stmt, st.plain j = true → plainAll j (rw.stmt st) = true
  | .decl l x i => fun h => by
    unfold Rw.stmt
    cases hr : rw.atom (.decl l x i) with
    | none => rfl
    | some st' => simp only [Option.toList, plainAll, ha _ _ hr h, Bool.and_self]
  | .assign l x i => fun h => by
    unfold Rw.stmt
    cases hr : rw.atom (.assign l x i) with
    | none => rfl
    | some st' => simp only [Option.toList, plainAll, ha _ _ hr h, Bool.and_self]
  | .expr l x => fun h => by
    unfold Rw.stmt
    cases hr : rw.atom (.expr l x) with
    | none => rfl
    | some st' => simp only [Option.toList, plainAll, ha _ _ hr h, Bool.and_self]
  | .callRef l x i => fun h => by
    unfold Rw.stmt
    cases hr : rw.atom (.callRef l x i) with
    | none => rfl
    | some st' => simp only [Option.toList, plainAll, ha _ _ hr h, Bool.and_self]
  | .ret l e => fun _ => by unfold Rw.stmt; split <;> rfl
  | .throw_ l e => fun _ => by unfold Rw.stmt; split <;> rfl
  | .brk => fun h => by unfold Rw.stmt; simp only [plainAll, h, Bool.and_self]
  | .cont => fun h => by unfold Rw.stmt; simp only [plainAll, h, Bool.and_self]
  | .block b => fun h => by
    unfold Rw.stmt
    simp only [plainAll, Stmt.plain, Bool.and_true] at h ⊢
    exact Rw.list_plain rw j ha b h
  | .ite l i c t h e => fun hp => by
    unfold Rw.stmt
    split
    · rfl
    · simp only [plainAll, Stmt.plain, Bool.and_true, Bool.and_eq_true] at hp ⊢
      exact ⟨Rw.list_plain rw j ha t hp.1, Rw.list_plain rw j ha e hp.2⟩
  | .while_ l i c t h e => fun hp => by
    unfold Rw.stmt
    split
    · rfl
    · simp only [plainAll, Stmt.plain, Bool.and_true, Bool.and_eq_true] at hp ⊢
      exact ⟨Rw.list_plain rw j ha t hp.1, Rw.list_plain rw j ha e hp.2⟩
  | .for_ l lx x q b => fun h => by
    unfold Rw.stmt
    split
    · rfl
    · simp only [plainAll, Stmt.plain, Bool.and_true] at h ⊢
      exact Rw.list_plain rw j ha b h
  | .try_ b c => fun h => by cases h
theorem Rw.list_plain (rw : Rw) (j : Bool) (ha : ∀ st st', rw.atom st = some st' → st.plain j = true → st'.plain j = true) :
    ∀ b : List Stmt, plainAll j b = true → plainAll j (rw.list b) = true
  | [] => fun _ => by unfold Rw.list; rfl
  | s :: r => fun h => by
    unfold Rw.list
    simp only [plainAll, Bool.and_eq_true] at h
    rw [plainAll_append, Rw.stmt_plain rw j ha s h.1, Rw.list_plain rw j ha r h.2]; rfl
end

theorem unreach_plain_atom (un : Label → Bool) (j : Bool) (st st' : Stmt) (h : (unreachRw un).atom st = some st')
    (hp : st.plain j = true) : st'.plain j = true := by
  cases st with
  | decl l y i =>
    simp only [unreachRw] at h
    split at h
    · cases i with
      | none => cases h
      | some e => cases h; rfl
    · cases h; rfl
  | assign l y e => simp only [unreachRw] at h; split at h <;> cases h <;> rfl
  | expr l e => simp only [unreachRw] at h; split at h <;> cases h; rfl
  | callRef l f y => simp only [unreachRw] at h; split at h <;> cases h; rfl
  | _ => simp only [unreachRw] at h; cases h; exact hp

/-- **Removing unreachable code preserves behaviour**, over any number of rounds: whatever a body without `try` does - end
    normally, `return`, throw, fail in an operator or a callee - the reduced body does the same, and leaves the same world and the
    same values of all variables that are not declared in the body. -/
theorem unreachable_removal_partial (n : Nat) (body : List Stmt) (hN : ∀ x ∈ declsOf body, M.vis x = false)
    (hp : plainAll true body = true) (s s' : State M) (o : Out) (h : Runs body s o s') :
    ∃ t', Runs (unreachLoop n body) s o t' ∧ s'.w = t'.w ∧ ∀ x, x ∉ declsOf body → s'.env x = t'.env x := by
  induction n generalizing body s' with
  | zero => exact ⟨s', h, rfl, fun _ _ => rfl⟩
  | succ n ih =>
    obtain ⟨t1, h1, h2⟩ := unreach_round hN hp h
    have hd : ∀ x ∈ declsOf (unreach body), x ∈ declsOf body :=
      Rw.list_decls _ (unreach_decls _) (unreach_decls_init _) body
    obtain ⟨t2, h3, h4, h5⟩ := ih (unreach body) (fun x hx => hN x (hd x hx))
      (Rw.list_plain _ _ (unreach_plain_atom _ _) body hp) t1 h1
    exact ⟨t2, h3, h2.1.trans h4, fun x hx => (h2.2 x hx).trans (h5 x (fun hh => hx (hd x hh)))⟩

end
end Verif.Opt
