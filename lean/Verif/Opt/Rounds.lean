import Verif.Opt.DceSound
import Verif.Opt.Unreach

/-!
# The dead code pass, round after round

`visitBlock` of `hilti/toolchain/src/compiler/optimizer/passes/dead-code-cfg.cc:201-224` alternates between removing unused
statements and removing unreachable code, each time on a new graph, and the optimizer repeats the pass as long as something
changes. Here: the premises of the two soundness theorems survive every round, so they hold for any number of rounds in any
order; and there can only be finitely many rounds that change something.
-/

namespace Verif.Opt

/-! ## What a round can do -/

/-- A plain statement shrinks: it goes, it stays, or its expression stays. -/
inductive Shrunk : Stmt → Option Stmt → Prop where
  | gone {st} : Shrunk st none
  | same {st} : Shrunk st (some st)
  | decl {l x e} : Shrunk (.decl l x (some e)) (some (.expr l e))
  | assign {l x e} : Shrunk (.assign l x e) (some (.expr l e))

/-- The rewriting only removes. -/
structure Shrinks (rw : Rw) : Prop where
  atom : ∀ st, Shrunk st (rw.atom st)
  expr : ∀ l e, rw.expr l e = e
  init : ∀ i, rw.init i = none ∨ rw.init i = some i

theorem dce_shrinks (un : Label → Bool) : Shrinks (dceRw un) where
  atom st := by
    cases st with
    | decl l x i =>
      simp only [dceRw]
      split
      · cases i with
        | none => exact .gone
        | some e => exact .decl
      · exact .same
    | assign l x e =>
      simp only [dceRw]
      split
      · exact .assign
      · exact .same
    | expr l e =>
      simp only [dceRw]
      split
      · exact .gone
      · exact .same
    | _ => exact .same
  expr _ _ := rfl
  init i := by
    simp only [dceRw]
    split
    · exact .inl rfl
    · exact .inr rfl

theorem unreach_shrinks (un : Label → Bool) : Shrinks (unreachRw un) where
  atom st := by
    cases st with
    | decl l x i =>
      simp only [unreachRw]
      split
      · cases i with
        | none => exact .gone
        | some e => exact .decl
      · exact .same
    | assign l x e =>
      simp only [unreachRw]
      split
      · exact .assign
      · exact .same
    | expr l e =>
      simp only [unreachRw]
      split
      · exact .gone
      · exact .same
    | callRef l f x =>
      simp only [unreachRw]
      split
      · exact .gone
      · exact .same
    | _ => exact .same
  expr _ _ := rfl
  init i := by
    simp only [unreachRw]
    split
    · exact .inl rfl
    · exact .inr rfl

/-! ## Graph nodes after a round -/

/-- What a node can become. -/
inductive Item.Less : Item → Item → Prop where
  | same {i} : Item.Less i i
  | decl {x e} : Item.Less (.decl x (some e)) (.expr e)
  | assign {x e} : Item.Less (.assign x e) (.expr e)

/-- The nodes of the second list are nodes of the first list, in the same order. -/
inductive Fewer : List (Label × Item) → List (Label × Item) → Prop where
  | nil : Fewer [] []
  | skip {p a b} : Fewer a b → Fewer (p :: a) b
  | keep {l i j a b} : Item.Less i j → Fewer a b → Fewer ((l, i) :: a) ((l, j) :: b)

theorem Fewer.refl : ∀ a, Fewer a a
  | [] => .nil
  | (_, _) :: a => .keep .same (Fewer.refl a)

theorem Fewer.none : ∀ a, Fewer a []
  | [] => .nil
  | _ :: a => .skip (Fewer.none a)

theorem Fewer.append {a b c d : List (Label × Item)} (h : Fewer a b) (h' : Fewer c d) : Fewer (a ++ c) (b ++ d) := by
  induction h with
  | nil => exact h'
  | skip _ ih => exact .skip ih
  | keep hl _ ih => exact .keep hl ih

theorem itemsOf_append (a b : List Stmt) : itemsOf (a ++ b) = itemsOf a ++ itemsOf b := by
  induction a with
  | nil => rfl
  | cons x a ih => simp only [List.cons_append, itemsOf, ih, List.append_assoc]

theorem Shrunk.items {st : Stmt} {o : Option Stmt} (h : Shrunk st o) : Fewer st.items (itemsOf o.toList) := by
  cases h with
  | gone => exact Fewer.none _
  | same => simp only [Option.toList, itemsOf, List.append_nil]; exact Fewer.refl _
  | decl => exact .keep .decl .nil
  | assign => exact .keep .assign .nil

theorem Shrinks.initItems {rw : Rw} (h : Shrinks rw) (i : Option (Label × Var × Expr)) :
    Fewer (initItems i) (initItems (i.bind rw.init)) := by
  cases i with
  | none => exact .nil
  | some i =>
    rcases h.init i with hi | hi
    · simp only [Option.bind, hi]; exact Fewer.none _
    · simp only [Option.bind, hi]; exact Fewer.refl _

mutual
theorem Shrinks.stmt {rw : Rw} (h : Shrinks rw) : ∀ st : Stmt, Fewer st.items (itemsOf (rw.stmt st))
  | .decl l x i => by unfold Rw.stmt; exact (h.atom _).items
  | .assign l x i => by unfold Rw.stmt; exact (h.atom _).items
  | .expr l x => by unfold Rw.stmt; exact (h.atom _).items
  | .callRef l x i => by unfold Rw.stmt; exact (h.atom _).items
  | .ret l e => by
    unfold Rw.stmt
    split
    · exact Fewer.none _
    · have : e.map (rw.expr l) = e := by
        cases e with
        | none => rfl
        | some e => simp only [Option.map, h.expr]
      rw [this]; exact Fewer.refl _
  | .throw_ l e => by
    unfold Rw.stmt
    split
    · exact Fewer.none _
    · rw [h.expr]; exact Fewer.refl _
  | .brk => by unfold Rw.stmt; exact .nil
  | .cont => by unfold Rw.stmt; exact .nil
  | .block b => by
    unfold Rw.stmt
    simp only [Stmt.items, itemsOf, List.append_nil]
    exact h.list b
  | .ite l i c t hh e => by
    unfold Rw.stmt
    split
    · exact Fewer.none _
    · simp only [Stmt.items, itemsOf, List.append_nil, h.expr]
      refine (h.initItems i).append (.keep .same ((h.list t).append ?_))
      cases hh with
      | true => exact h.list e
      | false => exact .nil
  | .while_ l i c t hh e => by
    unfold Rw.stmt
    split
    · exact Fewer.none _
    · simp only [Stmt.items, itemsOf, List.append_nil, h.expr]
      refine (h.initItems i).append (.keep .same ((h.list t).append ?_))
      cases hh with
      | true => exact h.list e
      | false => exact .nil
  | .for_ l lx x q b => by
    unfold Rw.stmt
    split
    · exact Fewer.none _
    · simp only [Stmt.items, itemsOf, List.append_nil, h.expr]
      exact .keep .same (.keep .same (h.list b))
  | .try_ b c => by
    unfold Rw.stmt
    simp only [Stmt.items, itemsOf, List.append_nil]
    exact (h.list b).append (h.list c)
theorem Shrinks.list {rw : Rw} (h : Shrinks rw) : ∀ b : List Stmt, Fewer (itemsOf b) (itemsOf (rw.list b))
  | [] => by unfold Rw.list; exact .nil
  | s :: r => by
    unfold Rw.list
    rw [itemsOf_append]
    exact (h.stmt s).append (h.list r)
end

theorem Fewer.mem {a b : List (Label × Item)} (h : Fewer a b) {l : Label} {j : Item} (hj : (l, j) ∈ b) :
    ∃ i, (l, i) ∈ a ∧ Item.Less i j := by
  induction h with
  | nil => cases hj
  | skip _ ih =>
    obtain ⟨i, hi, hl⟩ := ih hj
    exact ⟨i, List.mem_cons_of_mem _ hi, hl⟩
  | keep hl _ ih =>
    rcases List.mem_cons.1 hj with hh | hh
    · cases hh; exact ⟨_, List.mem_cons_self, hl⟩
    · obtain ⟨i, hi, hl'⟩ := ih hh
      exact ⟨i, List.mem_cons_of_mem _ hi, hl'⟩

theorem Fewer.labels {a b : List (Label × Item)} (h : Fewer a b) : (b.map Prod.fst).Sublist (a.map Prod.fst) := by
  induction h with
  | nil => exact .slnil
  | skip _ ih => exact .cons _ ih
  | keep _ _ ih => exact .cons_cons _ ih

theorem Fewer.decls {a b : List (Label × Item)} (h : Fewer a b) : (b.filterMap declares).Sublist (a.filterMap declares) := by
  induction h with
  | nil => exact .slnil
  | @skip p a b _ ih =>
    rw [List.filterMap_cons]
    cases declares p with
    | none => exact ih
    | some x => exact .cons _ ih
  | @keep l i j a b hl _ ih =>
    rw [List.filterMap_cons, List.filterMap_cons]
    cases hl with
    | same =>
      cases declares (l, i) with
      | none => exact ih
      | some x => exact .cons_cons _ ih
    | decl => exact .cons _ ih
    | assign => exact ih

theorem Item.Less.gen {i j : Item} (h : Item.Less i j) : ∀ x ∈ j.gen, x ∈ i.gen := by
  cases h with
  | same => exact fun _ h => h
  | decl => intro x hx; cases hx
  | assign => intro x hx; cases hx

theorem Item.Less.calls {i j : Item} (h : Item.Less i j) (hj : j.calls = true) : i.calls = true := by
  cases h with
  | same => exact hj
  | decl => exact hj
  | assign => exact hj

theorem Valid.shrink {kind : Var → Kind} {body body' : List Stmt} (hv : Valid kind body)
    (h : Fewer (itemsOf body) (itemsOf body')) : Valid kind body' where
  labels := List.Nodup.sublist h.labels hv.labels
  once := by
    have := h.decls
    rw [itemsOf_decls, itemsOf_decls] at this
    exact List.Nodup.sublist this hv.once
  locals := by
    have hd := h.decls
    rw [itemsOf_decls, itemsOf_decls] at hd
    exact fun x hx => hv.locals x (hd.subset hx)
  noSelf := by
    intro l x e hi
    rcases hi with hi | hi
    · obtain ⟨i, hi', hl⟩ := h.mem hi
      cases hl; exact hv.noSelf l x e (.inl hi')
    · obtain ⟨i, hi', hl⟩ := h.mem hi
      cases hl; exact hv.noSelf l x e (.inr hi')

theorem Tame.shrink {M : Sem} {body body' : List Stmt} (ht : Tame M body)
    (h : Fewer (itemsOf body) (itemsOf body')) : Tame M body' where
  hidden := by
    rintro ⟨l, j, hj, hc⟩ l' j' hj' x hx
    obtain ⟨i, hi, hl⟩ := h.mem hj
    obtain ⟨i', hi', hl'⟩ := h.mem hj'
    exact ht.hidden ⟨l, i, hi, hl.calls hc⟩ l' i' hi' x (hl'.gen x hx)
  total := by
    intro l x e hj hx
    obtain ⟨i, hi, hl⟩ := h.mem hj
    cases hl; exact ht.total l x e hi hx

theorem shrink_plain {rw : Rw} (h : Shrinks rw) (j : Bool) {b : List Stmt} (hp : plainAll j b = true) :
    plainAll j (rw.list b) = true := by
  refine Rw.list_plain rw j (fun st st' hs hst => ?_) b hp
  have := h.atom st
  rw [hs] at this
  cases this with
  | same => exact hst
  | decl => rfl
  | assign => rfl

mutual
theorem Stmt.plain_weaken : ∀ st : Stmt, st.plain false = true → st.plain true = true
  | .decl .. => fun _ => rfl
  | .assign .. => fun _ => rfl
  | .expr .. => fun _ => rfl
  | .callRef .. => fun _ => rfl
  | .ret .. => fun _ => rfl
  | .throw_ .. => fun _ => rfl
  | .brk => fun _ => rfl
  | .cont => fun _ => rfl
  | .block b => fun h => by simp only [Stmt.plain] at h ⊢; exact Opt.plain_weaken b h
  | .ite _ _ _ t _ e => fun h => by
    simp only [Stmt.plain, Bool.and_eq_true] at h ⊢; exact ⟨Opt.plain_weaken t h.1, Opt.plain_weaken e h.2⟩
  | .while_ _ _ _ t _ e => fun h => by
    simp only [Stmt.plain, Bool.and_eq_true] at h ⊢; exact ⟨Opt.plain_weaken t h.1, Opt.plain_weaken e h.2⟩
  | .for_ _ _ _ _ b => fun h => by simp only [Stmt.plain] at h ⊢; exact Opt.plain_weaken b h
  | .try_ .. => fun h => by cases h
theorem plain_weaken : ∀ b : List Stmt, plainAll false b = true → plainAll true b = true
  | [] => fun _ => rfl
  | s :: r => fun h => by
    simp only [plainAll, Bool.and_eq_true] at h ⊢; exact ⟨Stmt.plain_weaken s h.1, plain_weaken r h.2⟩
end

/-! ## Any number of rounds -/

/-- What the dead code pass may turn a body into: rounds of either kind, the dataflow computed in any order. -/
inductive DeadCode (kind : Var → Kind) : List Stmt → List Stmt → Prop where
  | done {b} : DeadCode kind b b
  | unusedRound {b c : List Stmt} (order : List Node) (k : Nat) (D : Flow) :
      Covers (edges b) (genAt (itemsOf b)) order → dataflow b order k = some D → DeadCode kind (dce kind D b) c → DeadCode kind b c
  | unreachableRound {b c : List Stmt} : DeadCode kind (unreach b) c → DeadCode kind b c

theorem SameOutside.trans {M : Sem} {kind : Var → Kind} {a b c : State M} (h : SameOutside kind a b) (h' : SameOutside kind b c) :
    SameOutside kind a c := ⟨h.1.trans h'.1, fun x hx => (h.2 x hx).trans (h'.2 x hx)⟩

/-- **Dead code removal preserves behaviour**: for every number and order of rounds. -/
theorem dead_code_pass_partial {M : Sem} (kind : Var → Kind) {body body' : List Stmt} (hr : DeadCode kind body body')
    (hv : Valid kind body) (hp : plainAll false body = true) (ht : Tame M body) (hloc : ∀ x ∈ declsOf body, M.vis x = false)
    (s s' : State M) (o : Out) (hs : ∀ x ∈ declsOf body, s.env x = none) (h : Runs body s o s') (ho : o ≠ .exn false) :
    ∃ t', Runs body' s o t' ∧ SameOutside kind s' t' := by
  induction hr generalizing s' with
  | done => exact ⟨s', h, rfl, fun _ _ => rfl⟩
  | @unusedRound b c order k D hc hD _ ih =>
    obtain ⟨t1, h1, h2⟩ := dead_store_removal_partial hv hp ht order hc k hD s s' o hs h ho
    have hf := (dce_shrinks (unused kind (itemsOf b) ((build b).scopes.map Prod.fst) D)).list b
    have hd := hf.decls
    rw [itemsOf_decls, itemsOf_decls] at hd
    obtain ⟨t2, h3, h4⟩ := ih (hv.shrink hf) (shrink_plain (dce_shrinks _) _ hp) (ht.shrink hf)
      (fun x hx => hloc x (hd.subset hx)) t1 (fun x hx => hs x (hd.subset hx)) h1
    exact ⟨t2, h3, h2.trans h4⟩
  | @unreachableRound b c _ ih =>
    have hp' : ∀ b, plainAll false b = true → plainAll true b = true := plain_weaken
    obtain ⟨t1, h1, h2⟩ := unreach_round hloc (hp' _ hp) h
    have hf := (unreach_shrinks (unreachable b)).list b
    have hd := hf.decls
    rw [itemsOf_decls, itemsOf_decls] at hd
    obtain ⟨t2, h3, h4⟩ := ih (hv.shrink hf) (shrink_plain (unreach_shrinks _) _ hp) (ht.shrink hf)
      (fun x hx => hloc x (hd.subset hx)) t1 (fun x hx => hs x (hd.subset hx)) h1
    refine ⟨t2, h3, SameOutside.trans ⟨h2.1, fun x hx => h2.2 x fun hh => ?_⟩ h4⟩
    rw [hv.locals x hh] at hx; cases hx

/-! ## The rounds end -/

mutual
/-- Size of a statement. -/
def Stmt.weight : Stmt → Nat
  | .decl _ _ none => 1
  | .decl _ _ (some _) => 2
  | .assign .. => 2
  | .expr .. | .callRef .. | .ret .. | .throw_ .. | .brk | .cont => 1
  | .block b => 1 + weightOf b
  | .ite _ i _ t _ e => 1 + i.toList.length + weightOf t + weightOf e
  | .while_ _ i _ b _ e => 1 + i.toList.length + weightOf b + weightOf e
  | .for_ _ _ _ _ b => 1 + weightOf b
  | .try_ b c => 1 + weightOf b + weightOf c
/-- Size of a statement list. -/
def weightOf : List Stmt → Nat
  | [] => 0
  | s :: r => s.weight + weightOf r
end

theorem weightOf_append (a b : List Stmt) : weightOf (a ++ b) = weightOf a + weightOf b := by
  induction a with
  | nil => simp [weightOf]
  | cons x a ih => simp only [List.cons_append, weightOf, ih, Nat.add_assoc]

theorem Stmt.weight_pos (st : Stmt) : 0 < st.weight := by
  cases st with
  | decl l x i => cases i <;> simp [Stmt.weight]
  | _ => simp only [Stmt.weight] <;> omega

theorem Shrunk.smaller {st : Stmt} {o : Option Stmt} (h : Shrunk st o) : weightOf o.toList < st.weight ∨ o.toList = [st] := by
  cases h with
  | gone => exact .inl st.weight_pos
  | same => exact .inr rfl
  | decl => left; simp [weightOf, Stmt.weight]
  | assign => left; simp [weightOf, Stmt.weight]

theorem Shrinks.initSmaller {rw : Rw} (h : Shrinks rw) (i : Option (Label × Var × Expr)) :
    (i.bind rw.init).toList.length < i.toList.length ∨ i.bind rw.init = i := by
  cases i with
  | none => exact .inr rfl
  | some i =>
    rcases h.init i with hi | hi
    · left; simp [hi]
    · right; simp [hi]

mutual
theorem Shrinks.smaller {rw : Rw} (h : Shrinks rw) : ∀ st : Stmt, weightOf (rw.stmt st) < st.weight ∨ rw.stmt st = [st]
  | .decl l x i => by unfold Rw.stmt; exact (h.atom _).smaller
  | .assign l x i => by unfold Rw.stmt; exact (h.atom _).smaller
  | .expr l x => by unfold Rw.stmt; exact (h.atom _).smaller
  | .callRef l x i => by unfold Rw.stmt; exact (h.atom _).smaller
  | .ret l e => by
    unfold Rw.stmt
    split
    · left; simp [weightOf, Stmt.weight]
    · have : e.map (rw.expr l) = e := by
        cases e with
        | none => rfl
        | some e => simp only [Option.map, h.expr]
      rw [this]; exact .inr rfl
  | .throw_ l e => by
    unfold Rw.stmt
    split
    · left; simp [weightOf, Stmt.weight]
    · rw [h.expr]; exact .inr rfl
  | .brk => by unfold Rw.stmt; exact .inr rfl
  | .cont => by unfold Rw.stmt; exact .inr rfl
  | .block b => by
    unfold Rw.stmt
    simp only [weightOf, Stmt.weight]
    rcases h.smallerList b with hb | hb
    · left; omega
    · right; rw [hb]
  | .ite l i c t hh e => by
    unfold Rw.stmt
    split
    · left; simp only [weightOf, Stmt.weight]; omega
    · simp only [weightOf, Stmt.weight, h.expr]
      rcases h.initSmaller i with hi | hi <;> rcases h.smallerList t with ht | ht <;> rcases h.smallerList e with he | he <;>
        (try simp only [hi, ht, he]) <;> first | exact .inr trivial | (left; omega)
  | .while_ l i c t hh e => by
    unfold Rw.stmt
    split
    · left; simp only [weightOf, Stmt.weight]; omega
    · simp only [weightOf, Stmt.weight, h.expr]
      rcases h.initSmaller i with hi | hi <;> rcases h.smallerList t with ht | ht <;> rcases h.smallerList e with he | he <;>
        (try simp only [hi, ht, he]) <;> first | exact .inr trivial | (left; omega)
  | .for_ l lx x q b => by
    unfold Rw.stmt
    split
    · left; simp only [weightOf, Stmt.weight]; omega
    · simp only [weightOf, Stmt.weight, h.expr]
      rcases h.smallerList b with hb | hb
      · left; omega
      · right; rw [hb]
  | .try_ b c => by
    unfold Rw.stmt
    simp only [weightOf, Stmt.weight]
    rcases h.smallerList b with hb | hb <;> rcases h.smallerList c with hc | hc <;>
      (try simp only [hb, hc]) <;> first | exact .inr trivial | (left; omega)
theorem Shrinks.smallerList {rw : Rw} (h : Shrinks rw) : ∀ b : List Stmt, weightOf (rw.list b) < weightOf b ∨ rw.list b = b
  | [] => by unfold Rw.list; exact .inr rfl
  | s :: r => by
    unfold Rw.list
    rw [weightOf_append]
    simp only [weightOf]
    rcases h.smaller s with hs | hs <;> rcases h.smallerList r with hr | hr
    · left; omega
    · left; rw [hr]; omega
    · left; rw [hs]; simp only [weightOf]; omega
    · right; rw [hs, hr]; rfl
end

/-- **Removing unreachable code ends**: after as many rounds as the body is large, another round changes nothing. -/
theorem unreachable_removal_ends (n : Nat) (body : List Stmt) (h : weightOf body ≤ n) :
    unreach (unreachLoop n body) = unreachLoop n body := by
  induction n generalizing body with
  | zero =>
    simp only [unreachLoop]
    rcases (unreach_shrinks (unreachable body)).smallerList body with hb | hb
    · omega
    · exact hb
  | succ n ih =>
    simp only [unreachLoop]
    rcases (unreach_shrinks (unreachable body)).smallerList body with hb | hb
    · exact ih (unreach body) (by show weightOf (unreach body) ≤ n; unfold unreach; omega)
    · have hb' : unreach body = body := hb
      rw [hb']
      have : ∀ m, unreachLoop m body = body := by
        intro m
        induction m with
        | zero => rfl
        | succ m ih => simp only [unreachLoop, hb', ih]
      rw [this]; exact hb'

/-- A round of either kind changes nothing or makes the body smaller, so only finitely many rounds change something. -/
theorem dead_code_rounds_shrink (kind : Var → Kind) (D : Flow) (body : List Stmt) :
    (dce kind D body = body ∨ weightOf (dce kind D body) < weightOf body) ∧
    (unreach body = body ∨ weightOf (unreach body) < weightOf body) :=
  ⟨((dce_shrinks _).smallerList body).symm, ((unreach_shrinks _).smallerList body).symm⟩

end Verif.Opt
