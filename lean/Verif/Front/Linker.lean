import Verif.Base
/-!
# Model of joining hook implementations

Sources: `hilti/toolchain/src/compiler/cxx/linker.cc` (`linker.cc`), `hilti/toolchain/include/compiler/detail/cxx/unit.h` (`unit.h`),
`hilti/toolchain/src/compiler/cxx/unit.cc` (`unit.cc`), `hilti/toolchain/src/compiler/codegen/codegen.cc` (`codegen.cc`).

The C++ names of hooks and of their implementations are numbers. What implementations do is a parameter. Auxiliary types and the
text of the generated C++ code are not modelled: the generated function is modelled by the list of the functions it calls.
-/

namespace Verif.Front.Hooks

/-- `unit.h` 41-54 `Join`. -/
structure Join where
  /-- name of the hook -/
  id : Nat
  /-- name of the implementation -/
  callee : Nat
  priority : Int
  declareOnly : Bool
  deriving DecidableEq

/-- `unit.h` 51-53 `operator<`. -/
def Join.lt (a b : Join) : Prop :=
  a.id < b.id ∨ (a.id = b.id ∧ (a.priority < b.priority ∨ (a.priority = b.priority ∧ a.callee < b.callee)))

instance (a b : Join) : Decidable (a.lt b) := by unfold Join.lt; infer_instance

/-- `std::set<Join>::insert`: an element that is neither smaller nor larger is there already. -/
def setInsert (j : Join) : List Join → List Join
  | [] => [j]
  | x :: xs => if j.lt x then j :: x :: xs else if x.lt j then x :: setInsert j xs else x :: xs

/-- A hook implementation in the source: `codegen.cc` 365-503. `body` is false for a mere declaration of a function hook. -/
structure Impl where
  hook : Nat
  name : Nat
  priority : Int
  body : Bool
  deriving DecidableEq

/-- `codegen.cc` 434-440, 496-503. -/
def Impl.join (i : Impl) : Join := { id := i.hook, callee := i.name, priority := i.priority, declareOnly := !i.body }

/-- `unit.cc` 27-36 `Unit::add`, 339: the joins of one module. -/
def moduleJoins (impls : List Impl) : List Join := impls.foldl (fun s i => setInsert i.join s) []

/-- `linker.cc` 22-36 `Linker::add` for all modules: the entry of `_joins` for an ID. -/
def joinsFor (modules : List (List Impl)) (id : Nat) : List Join := modules.flatMap (fun m => (moduleJoins m).filter (·.id = id))

/-- `linker.cc` 93-94 `std::ranges::sort` with `x.priority > y.priority`: any permutation in which nothing comes after something it
    should come before. -/
def Sorted (l l' : List Join) : Prop := l.Perm l' ∧ l'.Pairwise (fun x y => ¬ y.priority > x.priority)

/-- `linker.cc` 89-121: the functions the generated function calls. -/
def calls (sorted : List Join) : List Nat := (sorted.filter (fun c => !c.declareOnly)).map (·.callee)

/-- What calling an implementation leads to: nothing, a value (for hooks with a result), or an exception. `W` is the state of the
    world, `V` the values. -/
inductive Out (W V : Type) where
  | next (w : W)
  | value (v : V) (w : W)
  | exn (w : W)

/-- `linker.cc` 106-118: running the generated function: `if ( auto x = callee(args) ) return x;` for each callee, and `return {}`. -/
def run {W V : Type} (call : Nat → W → Out W V) : List Nat → W → Out W V
  | [], w => .next w
  | c :: cs, w => match call c w with
    | .next w => run call cs w
    | .value v w => .value v w
    | .exn w => .exn w

/-- What running a hook may lead to, once modules are linked. -/
def Linked {W V : Type} (modules : List (List Impl)) (hook : Nat) (call : Nat → W → Out W V) (w : W) (o : Out W V) : Prop :=
  ∃ sorted, Sorted (joinsFor modules hook) sorted ∧ run call (calls sorted) w = o

/-! ## Specification -/

/-- The implementations of a hook. -/
def implementations (modules : List (List Impl)) (hook : Nat) : List Impl :=
  modules.flatten.filter (fun i => decide (i.hook = hook) && i.body)

/-- Each of them once, higher priorities first. -/
def InOrder (l seq : List Impl) : Prop := l.Perm seq ∧ seq.Pairwise (fun x y => y.priority ≤ x.priority)

/-- Running implementations one after the other, until one returns a value or throws. -/
inductive Runs {W V : Type} (call : Nat → W → Out W V) : List Impl → W → Out W V → Prop
  | done {w} : Runs call [] w (.next w)
  | next {i is w w' o} : call i.name w = .next w' → Runs call is w' o → Runs call (i :: is) w o
  | value {i is w v w'} : call i.name w = .value v w' → Runs call (i :: is) w (.value v w')
  | exn {i is w w'} : call i.name w = .exn w' → Runs call (i :: is) w (.exn w')

/-! ## Proofs -/

theorem Join.lt_irrefl (a : Join) : ¬ a.lt a := by unfold Join.lt; omega

theorem setInsert_perm (j : Join) (s : List Join) (h : ∀ x ∈ s, x.callee ≠ j.callee) : (setInsert j s).Perm (j :: s) := by
  induction s with
  | nil => exact .refl _
  | cons x xs ih =>
    simp only [setInsert]
    split
    · exact .refl _
    · split
      · exact ((ih (fun y hy => h y (List.mem_cons_of_mem _ hy))).cons x).trans (.swap j x xs)
      · rename_i h1 h2
        have := h x (by simp)
        unfold Join.lt at h1 h2
        omega

theorem moduleJoins_perm (impls : List Impl) (s : List Join) (hd : (impls.map (·.name)).Nodup)
    (h : ∀ x ∈ s, x.callee ∉ impls.map (·.name)) :
    (impls.foldl (fun s i => setInsert i.join s) s).Perm (impls.map Impl.join ++ s) := by
  induction impls generalizing s with
  | nil => exact .refl _
  | cons i is ih =>
    rw [List.map_cons, List.nodup_cons] at hd
    have hp := setInsert_perm i.join s (fun x hx e => h x hx (by rw [e]; simp [Impl.join]))
    rw [List.foldl_cons]
    refine (ih (setInsert i.join s) hd.2 ?_).trans ?_
    · intro x hx
      rcases List.mem_cons.1 (hp.mem_iff.1 hx) with rfl | hx
      · exact hd.1
      · exact fun hm => h x hx (by rw [List.map_cons]; exact List.mem_cons_of_mem _ hm)
    · refine (List.Perm.append_left _ hp).trans ?_
      rw [List.map_cons, List.cons_append]
      exact List.perm_middle

theorem joinsFor_perm (modules : List (List Impl)) (hook : Nat) (hd : ∀ m ∈ modules, (m.map (·.name)).Nodup) :
    (joinsFor modules hook).Perm ((modules.flatten.filter (fun i => decide (i.hook = hook))).map Impl.join) := by
  induction modules with
  | nil => exact .refl _
  | cons m ms ih =>
    rw [List.flatten_cons, List.filter_append, List.map_append]
    have h1 := moduleJoins_perm m [] (hd m (by simp)) (by simp)
    rw [List.append_nil] at h1
    have h2 := (h1.filter (fun j => decide (j.id = hook)))
    rw [List.filter_map] at h2
    exact h2.append (ih (fun x hx => hd x (by simp [hx])))

/-- A permutation of what a map gives is what it gives for a permutation. -/
theorem perm_of_map {α β : Type} (f : α → β) {l : List α} {m : List β} (h : (l.map f).Perm m) : ∃ l', l.Perm l' ∧ l'.map f = m := by
  generalize hm : l.map f = k at h
  induction h generalizing l with
  | nil => exact ⟨l, .refl _, hm⟩
  | cons x _ ih =>
    cases l with
    | nil => cases hm
    | cons a l =>
      rw [List.map_cons] at hm
      injection hm with h1 h2
      obtain ⟨l', h3, h4⟩ := ih h2
      exact ⟨a :: l', h3.cons a, by rw [List.map_cons, h1, h4]⟩
  | swap x y k =>
    match l, hm with
    | a :: b :: l, hm =>
      simp only [List.map_cons, List.cons.injEq] at hm
      obtain ⟨h1, h2, h3⟩ := hm
      exact ⟨b :: a :: l, .swap _ _ _, by simp [h1, h2, h3]⟩
  | trans _ _ ih1 ih2 =>
    obtain ⟨l1, h1, h2⟩ := ih1 hm
    obtain ⟨l2, h3, h4⟩ := ih2 h2
    exact ⟨l2, h1.trans h3, h4⟩

theorem runs_iff {W V : Type} (call : Nat → W → Out W V) (seq : List Impl) (w : W) (o : Out W V) :
    run call (seq.map (·.name)) w = o ↔ Runs call seq w o := by
  induction seq generalizing w with
  | nil =>
    constructor
    · intro h; rw [← h]; exact .done
    · intro h; cases h; rfl
  | cons i is ih =>
    simp only [List.map_cons, run]
    constructor
    · intro h
      cases hc : call i.name w with
      | next w' => rw [hc] at h; exact .next hc ((ih w').1 h)
      | value v w' => rw [hc] at h; rw [← h]; exact .value hc
      | exn w' => rw [hc] at h; rw [← h]; exact .exn hc
    · intro h
      cases h with
      | next hc h => rw [hc]; exact (ih _).2 h
      | value hc => rw [hc]
      | exn hc => rw [hc]

theorem calls_map (l : List Impl) : calls (l.map Impl.join) = (l.filter (·.body)).map (·.name) := by
  unfold calls
  rw [List.filter_map, List.map_map]
  have : (fun c : Join => !c.declareOnly) ∘ Impl.join = (fun i : Impl => i.body) := by
    funext i; simp [Impl.join]
  rw [this]
  rfl

/-- C74: running a hook runs each of its implementations from all modules once, higher priorities first, until one returns a value
    or throws. -/
theorem C74_hook_runs_in_order {W V : Type} (modules : List (List Impl)) (hook : Nat) (hd : ∀ m ∈ modules, (m.map (·.name)).Nodup)
    (call : Nat → W → Out W V) (w : W) (o : Out W V) (h : Linked modules hook call w o) :
    ∃ seq, InOrder (implementations modules hook) seq ∧ Runs call seq w o := by
  obtain ⟨sorted, ⟨h1, h2⟩, h3⟩ := h
  obtain ⟨l, h4, rfl⟩ := perm_of_map Impl.join ((joinsFor_perm modules hook hd).symm.trans h1)
  refine ⟨l.filter (·.body), ⟨?_, ?_⟩, ?_⟩
  · have := h4.filter (·.body)
    rw [List.filter_filter] at this
    unfold implementations
    refine List.Perm.trans (.of_eq ?_) this
    congr 1
    funext i
    exact Bool.and_comm _ _
  · rw [List.pairwise_map] at h2
    refine (h2.filter _).imp (fun h => ?_)
    simp only [Impl.join] at h
    omega
  · rw [calls_map] at h3
    exact (runs_iff call _ w o).1 h3

/-- Adding what was filtered out to a sequence with descending priorities. -/
def place (i : Impl) : List Impl → List Impl
  | [] => [i]
  | x :: xs => if x.priority ≤ i.priority then i :: x :: xs else x :: place i xs

theorem place_perm (i : Impl) (l : List Impl) : (place i l).Perm (i :: l) := by
  induction l with
  | nil => exact .refl _
  | cons x xs ih =>
    simp only [place]
    split
    · exact .refl _
    · exact (ih.cons x).trans (.swap _ _ _)

theorem place_sorted (i : Impl) {l : List Impl} (h : l.Pairwise (fun x y => y.priority ≤ x.priority)) :
    (place i l).Pairwise (fun x y => y.priority ≤ x.priority) := by
  induction l with
  | nil => simp [place]
  | cons x xs ih =>
    rw [List.pairwise_cons] at h
    simp only [place]
    split
    · rename_i hx
      rw [List.pairwise_cons]
      refine ⟨?_, List.pairwise_cons.2 h⟩
      intro y hy
      rcases List.mem_cons.1 hy with rfl | hy
      · exact hx
      · have := h.1 y hy; omega
    · rw [List.pairwise_cons]
      refine ⟨?_, ih h.2⟩
      intro y hy
      rcases List.mem_cons.1 ((place_perm i xs).mem_iff.1 hy) with rfl | hy
      · omega
      · exact h.1 y hy

theorem place_filter (i : Impl) (hi : i.body = false) (l : List Impl) : (place i l).filter (·.body) = l.filter (·.body) := by
  induction l with
  | nil => simp [place, hi]
  | cons x xs ih =>
    simp only [place]
    split
    · rw [List.filter_cons]; simp [hi]
    · rw [List.filter_cons, List.filter_cons, ih]

/-- Declarations can be put among the implementations without changing their order. -/
theorem place_all (l : List Impl) (seq : List Impl) (h : InOrder (l.filter (·.body)) seq) :
    ∃ full, l.Perm full ∧ full.Pairwise (fun x y => y.priority ≤ x.priority) ∧ full.filter (·.body) = seq := by
  have hseq : seq.filter (·.body) = seq := by
    rw [List.filter_eq_self]
    intro i hi
    have := h.1.mem_iff.2 hi
    simp at this
    exact this.2
  refine ⟨(l.filter (fun i => !i.body)).foldr place seq, ?_, ?_, ?_⟩
  · have hp : ∀ (d : List Impl), (d.foldr place seq).Perm (d ++ seq) := by
      intro d
      induction d with
      | nil => exact .refl _
      | cons x xs ih => exact (place_perm x _).trans (ih.cons x)
    refine List.Perm.trans ?_ (hp _).symm
    refine (List.filter_append_perm (·.body) l).symm.trans ?_
    exact List.perm_append_comm.trans (List.Perm.append_left _ h.1)
  · generalize l.filter (fun i => !i.body) = d
    induction d with
    | nil => exact h.2
    | cons x xs ih => exact place_sorted x ih
  · have hall : ∀ i ∈ l.filter (fun i => !i.body), i.body = false := by intro i hi; simpa using (List.mem_filter.1 hi).2
    generalize l.filter (fun i => !i.body) = d at hall
    induction d with
    | nil => exact hseq
    | cons x xs ih =>
      rw [List.foldr_cons, place_filter x (hall x (by simp))]
      exact ih (fun i hi => hall i (by simp [hi]))

/-- C74: every such order is possible; in particular the hook can always be linked. -/
theorem C74_any_order {W V : Type} (modules : List (List Impl)) (hook : Nat) (hd : ∀ m ∈ modules, (m.map (·.name)).Nodup)
    (call : Nat → W → Out W V) (w : W) (o : Out W V) {seq : List Impl} (hs : InOrder (implementations modules hook) seq)
    (hr : Runs call seq w o) : Linked modules hook call w o := by
  have e : implementations modules hook = (modules.flatten.filter (fun i => decide (i.hook = hook))).filter (·.body) := by
    unfold implementations
    rw [List.filter_filter]
    congr 1
    funext i
    exact Bool.and_comm _ _
  rw [e] at hs
  obtain ⟨full, h1, h2, h3⟩ := place_all _ _ hs
  refine ⟨full.map Impl.join, ⟨(joinsFor_perm modules hook hd).trans (h1.map _), ?_⟩, ?_⟩
  · rw [List.pairwise_map]
    exact h2.imp (fun h => by simp only [Impl.join]; omega)
  · rw [calls_map, h3]
    exact (runs_iff call _ w o).2 hr

theorem sorted_unique {a b : List Impl} (hp : a.Perm b) (ha : a.Pairwise (fun x y => y.priority ≤ x.priority))
    (hb : b.Pairwise (fun x y => y.priority ≤ x.priority)) (hd : (a.map (·.priority)).Nodup) : a = b := by
  refine hp.eq_of_pairwise (le := fun x y => y.priority ≤ x.priority) ?_ ha hb
  intro x y hx hy h1 h2
  rw [List.Nodup, List.pairwise_map] at hd
  have he : x.priority = y.priority := by omega
  have hy' := hp.mem_iff.2 hy
  rcases Classical.em (x = y) with h | h
  · exact h
  · exfalso
    clear hp ha hb
    induction a with
    | nil => cases hx
    | cons z zs ih =>
      rw [List.pairwise_cons] at hd
      rcases List.mem_cons.1 hx with e1 | hx'
      · rcases List.mem_cons.1 hy' with e2 | hy2
        · exact h (e1.trans e2.symm)
        · exact hd.1 _ hy2 (by rw [← e1]; exact he)
      · rcases List.mem_cons.1 hy' with e2 | hy2
        · exact hd.1 _ hx' (by rw [← e2]; exact he.symm)
        · exact ih hd.2 hx' hy2

/-- C74: if the implementations of a hook have different priorities, what running it does is determined, and neither the order in
    which modules are linked nor how the implementations are spread over modules and files matters. -/
theorem C74_order_of_modules_irrelevant {W V : Type} {modules modules' : List (List Impl)} (hook : Nat)
    (hd : ∀ m ∈ modules, (m.map (·.name)).Nodup) (hd' : ∀ m ∈ modules', (m.map (·.name)).Nodup)
    (hp : modules.flatten.Perm modules'.flatten) (hprio : ((implementations modules hook).map (·.priority)).Nodup)
    (call : Nat → W → Out W V) {w : W} {o o' : Out W V} (h : Linked modules hook call w o) (h' : Linked modules' hook call w o') :
    o = o' := by
  obtain ⟨seq, ⟨h1, h2⟩, h3⟩ := C74_hook_runs_in_order modules hook hd call w o h
  obtain ⟨seq', ⟨h1', h2'⟩, h3'⟩ := C74_hook_runs_in_order modules' hook hd' call w o' h'
  have hpi : (implementations modules hook).Perm (implementations modules' hook) := hp.filter _
  have : seq = seq' := sorted_unique (h1.symm.trans (hpi.trans h1')) h2 h2' ((h1.map _).nodup_iff.1 hprio)
  subst this
  rw [← (runs_iff call _ w o).2 h3, ← (runs_iff call _ w o').2 h3']

/-! ## Cases -/

/-- Two modules: implementations 10 (priority 5) and 11 of hook 1, and 20 of hook 2; 12 (priority -5) of hook 1, and a
    declaration. -/
def sampleModules : List (List Impl) :=
  [[⟨1, 10, 5, true⟩, ⟨1, 11, 0, true⟩, ⟨2, 20, 0, true⟩], [⟨1, 12, -5, true⟩, ⟨1, 13, 0, false⟩]]

/-- Implementations append their names to a log; 99 throws. -/
def log : Nat → List Nat → Out (List Nat) Nat := fun c w => if c = 99 then .exn w else .next (w ++ [c])

theorem sample_modules_distinct : ∀ m ∈ sampleModules, (m.map (·.name)).Nodup := by decide

example : Linked sampleModules 1 log [] (.next [10, 11, 12]) :=
  C74_any_order sampleModules 1 sample_modules_distinct log [] _
    (seq := [⟨1, 10, 5, true⟩, ⟨1, 11, 0, true⟩, ⟨1, 12, -5, true⟩]) ⟨by decide, by decide⟩ (.next rfl (.next rfl (.next rfl .done)))

/-- Nothing else can happen, whatever the order of the modules. -/
example (o : Out (List Nat) Nat) (h : Linked sampleModules.reverse 1 log [] o) : o = .next [10, 11, 12] :=
  C74_order_of_modules_irrelevant 1 (by decide) sample_modules_distinct (by decide) (by decide) log h
    (C74_any_order sampleModules 1 sample_modules_distinct log [] _
      (seq := [⟨1, 10, 5, true⟩, ⟨1, 11, 0, true⟩, ⟨1, 12, -5, true⟩]) ⟨by decide, by decide⟩ (.next rfl (.next rfl (.next rfl .done))))

/-- With equal priorities both orders are possible: the exclusion is needed. -/
theorem C74_equal_priorities :
    Linked [[⟨1, 10, 0, true⟩], [⟨1, 11, 0, true⟩]] 1 log [] (.next [10, 11]) ∧
      Linked [[⟨1, 10, 0, true⟩], [⟨1, 11, 0, true⟩]] 1 log [] (.next [11, 10]) :=
  ⟨C74_any_order _ 1 (by decide) log [] _ (seq := [⟨1, 10, 0, true⟩, ⟨1, 11, 0, true⟩]) ⟨by decide, by decide⟩
      (.next rfl (.next rfl .done)),
    C74_any_order _ 1 (by decide) log [] _ (seq := [⟨1, 11, 0, true⟩, ⟨1, 10, 0, true⟩]) ⟨by decide, by decide⟩
      (.next rfl (.next rfl .done))⟩

/-- An exception keeps the implementations of lower priority from running. -/
theorem C74_exception_ends : Linked [[⟨1, 10, 0, true⟩, ⟨1, 99, 1, true⟩]] 1 log [] (.exn []) :=
  C74_any_order _ 1 (by decide) log [] _ (seq := [⟨1, 99, 1, true⟩, ⟨1, 10, 0, true⟩]) ⟨by decide, by decide⟩ (.exn rfl)

end Verif.Front.Hooks
