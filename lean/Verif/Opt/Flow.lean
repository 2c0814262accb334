import Verif.Opt.Cfg

/-!
# Reaching definitions

Model of the fixed-point loop at the end of `CFG::_populateDataflow`, `hilti/toolchain/src/compiler/cfg.cc:1120-1210`, which
computes for every node which updates of which declarations may still be in effect there. The loop goes over the nodes in the
order of a `std::map` keyed by node *addresses*, so the order is arbitrary and differs from run to run.

The theorems: the loop ends for every graph and every order, and what it computes is exactly the set of updates that reach the
node along some path without being overwritten or leaving their scope, whatever the order.
-/

namespace Verif.Opt

/-- An update: the declaration and the node that updates it. -/
abbrev Fact := Var × Node

section
variable (E : List (Node × Node)) (gen : Node → List Var) (cut : Node → Var → Bool)

/-! ## Specification -/

/-- The update `f` is in effect after node `n`: `n` makes it, or it was in effect before and `n` neither updates the declaration
    nor ends its scope. -/
inductive ReachOut : Node → Fact → Prop where
  | here {n x} : x ∈ gen n → ReachOut n (x, n)
  | through {u n f} : (u, n) ∈ E → ReachOut u f → f.1 ∉ gen n → cut n f.1 = false → ReachOut n f

/-- The update `f` may be in effect when control arrives at `n`. -/
def ReachIn (n : Node) (f : Fact) : Prop := ∃ u, (u, n) ∈ E ∧ ReachOut E gen cut u f

/-! ## Model -/

/-- `Transfer::in`, `::out` and `::kill` of every node. -/
structure Flow where
  inn : Node → List Fact
  out : Node → List Fact
  kill : Node → List Fact

/-- Insert into a `std::set`. -/
def addAll : List Fact → List Fact → List Fact
  | [], b => b
  | f :: a, b => if f ∈ addAll a b then addAll a b else f :: addAll a b

/-- Equality of sets. -/
def same (a b : List Fact) : Bool := a.all (fun f => decide (f ∈ b)) && b.all (fun f => decide (f ∈ a))

/-- Replace the facts of one node. -/
def putAt (m : Node → List Fact) (n : Node) (v : List Fact) : Node → List Fact := fun k => if k = n then v else m k

/-- The union of the `out` sets of the upstream nodes, `cfg.cc:1131-1149`. -/
def newIn (D : Flow) (n : Node) : List Fact := addAll ((E.filter (fun e => e.2 = n)).flatMap (fun e => D.out e.1)) []

/-- Does the node end the life of this declaration's previous updates? -/
def kills (n : Node) (x : Var) : Bool := decide (x ∈ gen n) || cut n x

/-- The new `kill` set: the old one and the incoming updates of declarations the node updates or whose scope it ends,
    `cfg.cc:1156-1189`. -/
def newKill (D : Flow) (n : Node) : List Fact :=
  addAll ((newIn E D n).filter (fun f => kills gen cut n f.1)) (D.kill n)

/-- The new `out` set, `cfg.cc:1191-1206`. -/
def newOut (D : Flow) (n : Node) : List Fact :=
  addAll ((gen n).map (fun x => (x, n)))
    ((newIn E D n).filter (fun f => decide (f ∉ newKill E gen cut D n)))

/-- The state after visiting one node. -/
def visit (D : Flow) (n : Node) : Flow :=
  { inn := putAt D.inn n (newIn E D n), out := putAt D.out n (newOut E gen cut D n),
    kill := putAt D.kill n (newKill E gen cut D n) }

/-- Did visiting the node change anything? -/
def changed (D : Flow) (n : Node) : Bool :=
  !(same (newIn E D n) (D.inn n) && same (newKill E gen cut D n) (D.kill n) && same (newOut E gen cut D n) (D.out n))

/-- One round over all nodes. -/
def pass : List Node → Flow → Flow × Bool
  | [], D => (D, false)
  | n :: r, D =>
    let t := pass r (visit E gen cut D n)
    (t.1, changed E gen cut D n || t.2)

/-- `do ... while ( changed )`, with a bound on the number of rounds; `none` when the bound is too small. -/
def rounds (order : List Node) : Nat → Flow → Option Flow
  | 0, _ => none
  | k + 1, D => if (pass E gen cut order D).2 then rounds order k (pass E gen cut order D).1 else some (pass E gen cut order D).1

/-- All sets are empty when the loop starts. -/
def Flow.empty : Flow := ⟨fun _ => [], fun _ => [], fun _ => []⟩

/-! ## Sets -/

theorem mem_addAll {a b : List Fact} {f : Fact} : f ∈ addAll a b ↔ f ∈ a ∨ f ∈ b := by
  induction a with
  | nil => simp [addAll]
  | cons g a ih =>
    unfold addAll
    split
    · rename_i h
      rw [ih, List.mem_cons]
      constructor
      · rintro (h | h)
        · exact .inl (.inr h)
        · exact .inr h
      · rintro ((h' | h') | h')
        · subst h'; exact ih.1 h
        · exact .inl h'
        · exact .inr h'
    · rw [List.mem_cons, ih, List.mem_cons]
      constructor
      · rintro (h | h | h)
        · exact .inl (.inl h)
        · exact .inl (.inr h)
        · exact .inr h
      · rintro ((h | h) | h)
        · exact .inl h
        · exact .inr (.inl h)
        · exact .inr (.inr h)

theorem nodup_addAll {a b : List Fact} (hb : b.Nodup) : (addAll a b).Nodup := by
  induction a with
  | nil => exact hb
  | cons g a ih =>
    unfold addAll
    split
    · exact ih
    · rename_i h; exact List.nodup_cons.2 ⟨h, ih⟩

theorem same_iff {a b : List Fact} : same a b = true ↔ ∀ f, f ∈ a ↔ f ∈ b := by
  unfold same
  simp only [Bool.and_eq_true, List.all_eq_true, decide_eq_true_eq]
  constructor
  · rintro ⟨h1, h2⟩ f; exact ⟨h1 f, h2 f⟩
  · intro h; exact ⟨fun f hf => (h f).1 hf, fun f hf => (h f).2 hf⟩

theorem mem_newIn {D : Flow} {n : Node} {f : Fact} : f ∈ newIn E D n ↔ ∃ u, (u, n) ∈ E ∧ f ∈ D.out u := by
  unfold newIn
  rw [mem_addAll]
  simp only [List.mem_flatMap, List.mem_filter, decide_eq_true_eq, List.not_mem_nil, or_false]
  constructor
  · rintro ⟨⟨u, v⟩, ⟨he, rfl⟩, hf⟩; exact ⟨u, he, hf⟩
  · rintro ⟨u, he, hf⟩; exact ⟨(u, n), ⟨he, rfl⟩, hf⟩

theorem mem_newKill {D : Flow} {n : Node} {f : Fact} :
    f ∈ newKill E gen cut D n ↔ (f ∈ newIn E D n ∧ kills gen cut n f.1 = true) ∨ f ∈ D.kill n := by
  unfold newKill; rw [mem_addAll, List.mem_filter]

/-- The `kill` sets only hold updates that the node really ends. -/
def KillOk (D : Flow) : Prop := ∀ n f, f ∈ D.kill n → kills gen cut n f.1 = true

theorem mem_newOut {D : Flow} (hk : KillOk gen cut D) {n : Node} {f : Fact} :
    f ∈ newOut E gen cut D n ↔ (f.2 = n ∧ f.1 ∈ gen n) ∨ (f ∈ newIn E D n ∧ kills gen cut n f.1 = false) := by
  unfold newOut
  rw [mem_addAll, List.mem_filter, List.mem_map, decide_eq_true_eq, mem_newKill]
  constructor
  · rintro (⟨x, hx, rfl⟩ | ⟨hi, hn⟩)
    · exact .inl ⟨rfl, hx⟩
    · refine .inr ⟨hi, ?_⟩
      cases hc : kills gen cut n f.1 with
      | false => rfl
      | true => exact absurd (.inl ⟨hi, hc⟩) hn
  · rintro (⟨h1, h2⟩ | ⟨hi, hc⟩)
    · refine .inl ⟨f.1, h2, ?_⟩; rw [← h1]
    · refine .inr ⟨hi, ?_⟩
      rintro (⟨_, h⟩ | h)
      · rw [hc] at h; cases h
      · rw [hk n f h] at hc; cases hc

theorem killOk_visit {D : Flow} (hk : KillOk gen cut D) (n : Node) : KillOk gen cut (visit E gen cut D n) := by
  intro m f hf
  unfold visit putAt at hf
  dsimp only at hf
  split at hf
  · rename_i h; subst h
    rcases (mem_newKill E gen cut).1 hf with h | h
    · exact h.2
    · exact hk _ _ h
  · exact hk _ _ hf

/-! ## What the loop computes is justified -/

/-- Everything computed so far is justified by a path. -/
def Sound (D : Flow) : Prop :=
  (∀ n f, f ∈ D.inn n → ReachIn E gen cut n f) ∧ (∀ n f, f ∈ D.out n → ReachOut E gen cut n f) ∧ KillOk gen cut D

theorem sound_visit {D : Flow} (h : Sound E gen cut D) (n : Node) : Sound E gen cut (visit E gen cut D n) := by
  obtain ⟨h1, h2, h3⟩ := h
  have hin : ∀ f, f ∈ newIn E D n → ReachIn E gen cut n f := by
    intro f hf
    obtain ⟨u, hu, hf⟩ := (mem_newIn E).1 hf
    exact ⟨u, hu, h2 _ _ hf⟩
  refine ⟨?_, ?_, killOk_visit E gen cut h3 n⟩
  · intro m f hf
    unfold visit putAt at hf
    dsimp only at hf
    split at hf
    · rename_i h; subst h; exact hin f hf
    · exact h1 _ _ hf
  · intro m f hf
    unfold visit putAt at hf
    dsimp only at hf
    split at hf
    · rename_i h; subst h
      rcases (mem_newOut E gen cut h3).1 hf with ⟨ha, hb⟩ | ⟨ha, hb⟩
      · obtain ⟨x, k⟩ := f
        dsimp only at ha hb
        subst ha
        exact .here hb
      · obtain ⟨u, hu, hr⟩ := hin f ha
        unfold kills at hb
        rw [Bool.or_eq_false_iff, decide_eq_false_iff_not] at hb
        exact .through hu hr hb.1 hb.2
    · exact h2 _ _ hf

theorem sound_pass (order : List Node) {D : Flow} (h : Sound E gen cut D) : Sound E gen cut (pass E gen cut order D).1 := by
  induction order generalizing D with
  | nil => exact h
  | cons n r ih => exact ih (sound_visit E gen cut h n)

theorem sound_rounds (order : List Node) (k : Nat) {D D' : Flow} (h : Sound E gen cut D)
    (hr : rounds E gen cut order k D = some D') : Sound E gen cut D' := by
  induction k generalizing D with
  | zero => cases hr
  | succ k ih =>
    unfold rounds at hr
    split at hr
    · exact ih (sound_pass E gen cut order h) hr
    · injection hr with hr; rw [← hr]; exact sound_pass E gen cut order h

theorem sound_empty : Sound E gen cut Flow.empty :=
  ⟨fun _ _ h => (by cases h), fun _ _ h => (by cases h), fun _ _ h => (by cases h)⟩

/-! ## When the loop ends, every equation holds -/

/-- The equations hold at a node. -/
def Solved (D : Flow) (n : Node) : Prop :=
  (∀ f, f ∈ newIn E D n ↔ f ∈ D.inn n) ∧ (∀ f, f ∈ newOut E gen cut D n ↔ f ∈ D.out n)

/-- Same sets everywhere. -/
def Same (D D' : Flow) : Prop :=
  ∀ n f, (f ∈ D.inn n ↔ f ∈ D'.inn n) ∧ (f ∈ D.out n ↔ f ∈ D'.out n) ∧ (f ∈ D.kill n ↔ f ∈ D'.kill n)

theorem same_newIn {D D' : Flow} (h : Same D D') (n : Node) (f : Fact) : f ∈ newIn E D n ↔ f ∈ newIn E D' n := by
  rw [mem_newIn, mem_newIn]
  constructor
  · rintro ⟨u, hu, hf⟩; exact ⟨u, hu, ((h u f).2.1).1 hf⟩
  · rintro ⟨u, hu, hf⟩; exact ⟨u, hu, ((h u f).2.1).2 hf⟩

theorem same_newOut {D D' : Flow} (h : Same D D') (hk : KillOk gen cut D) (hk' : KillOk gen cut D') (n : Node) (f : Fact) :
    f ∈ newOut E gen cut D n ↔ f ∈ newOut E gen cut D' n := by
  rw [mem_newOut E gen cut hk, mem_newOut E gen cut hk', same_newIn E h n f]

theorem same_visit {D : Flow} {n : Node} (hc : changed E gen cut D n = false) : Same D (visit E gen cut D n) := by
  unfold changed at hc
  rw [Bool.not_eq_false', Bool.and_eq_true, Bool.and_eq_true, same_iff, same_iff, same_iff] at hc
  obtain ⟨⟨h1, h2⟩, h3⟩ := hc
  intro m f
  unfold visit putAt
  dsimp only
  refine ⟨?_, ?_, ?_⟩
  · split
    · rename_i h; subst h; exact (h1 f).symm
    · exact Iff.rfl
  · split
    · rename_i h; subst h; exact (h3 f).symm
    · exact Iff.rfl
  · split
    · rename_i h; subst h; exact (h2 f).symm
    · exact Iff.rfl

theorem same_trans {D D' D'' : Flow} (h : Same D D') (h' : Same D' D'') : Same D D'' := fun n f =>
  ⟨(h n f).1.trans (h' n f).1, (h n f).2.1.trans (h' n f).2.1, (h n f).2.2.trans (h' n f).2.2⟩

theorem same_refl (D : Flow) : Same D D := fun _ _ => ⟨Iff.rfl, Iff.rfl, Iff.rfl⟩

theorem solved_of_unchanged {D : Flow} {n : Node} (hc : changed E gen cut D n = false) : Solved E gen cut D n := by
  unfold changed at hc
  rw [Bool.not_eq_false', Bool.and_eq_true, Bool.and_eq_true, same_iff, same_iff, same_iff] at hc
  exact ⟨hc.1.1, hc.2⟩

theorem solved_same {D D' : Flow} (hs : Same D D') (hk : KillOk gen cut D) (hk' : KillOk gen cut D') {n : Node}
    (h : Solved E gen cut D n) : Solved E gen cut D' n :=
  ⟨fun f => (same_newIn E hs n f).symm.trans ((h.1 f).trans (hs n f).1),
   fun f => (same_newOut E gen cut hs hk hk' n f).symm.trans ((h.2 f).trans (hs n f).2.1)⟩

theorem pass_unchanged (order : List Node) {D : Flow} (hk : KillOk gen cut D) (h : (pass E gen cut order D).2 = false) :
    Same D (pass E gen cut order D).1 ∧ KillOk gen cut (pass E gen cut order D).1 ∧
    ∀ n ∈ order, Solved E gen cut (pass E gen cut order D).1 n := by
  induction order generalizing D with
  | nil => exact ⟨same_refl D, hk, fun _ h => nomatch h⟩
  | cons n r ih =>
    unfold pass at h ⊢
    dsimp only at h ⊢
    rw [Bool.or_eq_false_iff] at h
    have hv := same_visit E gen cut h.1
    obtain ⟨i1, i2, i3⟩ := ih (killOk_visit E gen cut hk n) h.2
    have hs := same_trans hv i1
    refine ⟨hs, i2, ?_⟩
    intro m hm
    rcases List.mem_cons.1 hm with rfl | hm
    · exact solved_same E gen cut hs hk i2 (solved_of_unchanged E gen cut h.1)
    · exact i3 m hm

theorem solved_rounds (order : List Node) (k : Nat) {D D' : Flow} (hs : Sound E gen cut D)
    (hr : rounds E gen cut order k D = some D') : ∀ n ∈ order, Solved E gen cut D' n := by
  induction k generalizing D with
  | zero => cases hr
  | succ k ih =>
    unfold rounds at hr
    split at hr
    · exact ih (sound_pass E gen cut order hs) hr
    · rename_i hc
      injection hr with hr; rw [← hr]
      exact (pass_unchanged E gen cut order hs.2.2 (by simpa using hc)).2.2

/-- The order visits every node of the graph. -/
def Covers (order : List Node) : Prop :=
  (∀ u v, (u, v) ∈ E → u ∈ order ∧ v ∈ order) ∧ ∀ n, gen n ≠ [] → n ∈ order

theorem reachOut_mem {order : List Node} (hc : Covers E gen order) {n : Node} {f : Fact} (h : ReachOut E gen cut n f) :
    n ∈ order := by
  cases h with
  | here hx => exact hc.2 _ (fun h0 => by rw [h0] at hx; cases hx)
  | through he _ _ _ => exact (hc.1 _ _ he).2

/-- **The dataflow result is exact, whatever the order of the nodes**: when the loop ends, the `in` and `out` sets of every node
    are the updates in effect before and after it along some path of the graph. -/
theorem flow_exact (order : List Node) (hc : Covers E gen order) (k : Nat) (D : Flow)
    (hr : rounds E gen cut order k Flow.empty = some D) (n : Node) (f : Fact) :
    (n ∈ order → (f ∈ D.inn n ↔ ReachIn E gen cut n f)) ∧ (n ∈ order → (f ∈ D.out n ↔ ReachOut E gen cut n f)) := by
  have hs := sound_rounds E gen cut order k (sound_empty E gen cut) hr
  have he := solved_rounds E gen cut order k (sound_empty E gen cut) hr
  have hout : ∀ n f, ReachOut E gen cut n f → f ∈ D.out n := by
    intro n f h
    induction h with
    | @here n x hx =>
      have hn := reachOut_mem E gen cut hc (.here hx)
      exact ((he n hn).2 _).1 ((mem_newOut E gen cut hs.2.2).2 (.inl ⟨rfl, hx⟩))
    | @through u n f hu _ hg hcut ih =>
      have hn := (hc.1 _ _ hu).2
      refine ((he n hn).2 _).1 ((mem_newOut E gen cut hs.2.2).2 (.inr ⟨(mem_newIn E).2 ⟨u, hu, ih⟩, ?_⟩))
      unfold kills
      rw [Bool.or_eq_false_iff, decide_eq_false_iff_not]
      exact ⟨hg, hcut⟩
  refine ⟨fun hn => ⟨hs.1 n f, ?_⟩, fun _ => ⟨hs.2.1 n f, hout n f⟩⟩
  rintro ⟨u, hu, hf⟩
  exact ((he n hn).1 _).1 ((mem_newIn E).2 ⟨u, hu, hout u f hf⟩)

/-- Every incoming update the node ends is in its `kill` set. -/
def KillFull (D : Flow) : Prop := ∀ n f, f ∈ D.inn n → kills gen cut n f.1 = true → f ∈ D.kill n

theorem killFull_visit {D : Flow} (h : KillFull gen cut D) (n : Node) : KillFull gen cut (visit E gen cut D n) := by
  intro m f hf hk
  unfold visit putAt at hf ⊢
  dsimp only at hf ⊢
  split at hf
  · rename_i hm
    subst hm
    rw [if_pos rfl]
    exact (mem_newKill E gen cut).2 (.inl ⟨hf, hk⟩)
  · rename_i hm
    rw [if_neg hm]
    exact h m f hf hk

theorem killFull_pass (order : List Node) {D : Flow} (h : KillFull gen cut D) : KillFull gen cut (pass E gen cut order D).1 := by
  induction order generalizing D with
  | nil => exact h
  | cons n r ih => exact ih (killFull_visit E gen cut h n)

theorem killFull_rounds (order : List Node) (k : Nat) {D D' : Flow} (h : KillFull gen cut D)
    (hr : rounds E gen cut order k D = some D') : KillFull gen cut D' := by
  induction k generalizing D with
  | zero => cases hr
  | succ k ih =>
    unfold rounds at hr
    split at hr
    · exact ih (killFull_pass E gen cut order h) hr
    · injection hr with hr; rw [← hr]; exact killFull_pass E gen cut order h

/-- **The `kill` sets are complete**: at the end of a scope they hold all updates that reach it and whose variable dies
    there. -/
theorem flow_kill (order : List Node) (hc : Covers E gen order) (k : Nat) (D : Flow)
    (hr : rounds E gen cut order k Flow.empty = some D) (n : Node) (hn : n ∈ order) (f : Fact)
    (h : ReachIn E gen cut n f) (hk : kills gen cut n f.1 = true) : f ∈ D.kill n :=
  killFull_rounds E gen cut order k (fun _ _ h => by cases h) hr n f (((flow_exact E gen cut order hc k D hr n f).1 hn).2 h) hk

/-- **Two runs with nodes at different addresses agree.** -/
theorem flow_order_irrelevant (o1 o2 : List Node) (h1 : Covers E gen o1) (h2 : Covers E gen o2) (k1 k2 : Nat) (D1 D2 : Flow)
    (r1 : rounds E gen cut o1 k1 Flow.empty = some D1) (r2 : rounds E gen cut o2 k2 Flow.empty = some D2)
    (n : Node) (hn1 : n ∈ o1) (hn2 : n ∈ o2) (f : Fact) :
    (f ∈ D1.inn n ↔ f ∈ D2.inn n) ∧ (f ∈ D1.out n ↔ f ∈ D2.out n) := by
  obtain ⟨a1, b1⟩ := flow_exact E gen cut o1 h1 k1 D1 r1 n f
  obtain ⟨a2, b2⟩ := flow_exact E gen cut o2 h2 k2 D2 r2 n f
  exact ⟨(a1 hn1).trans (a2 hn2).symm, (b1 hn1).trans (b2 hn2).symm⟩

/-! ## The loop ends -/

theorem facts_length_le : ∀ (a u : List Fact), a.Nodup → (∀ x ∈ a, x ∈ u) → a.length ≤ u.length
  | [], _, _, _ => Nat.zero_le _
  | x :: a, u, hn, hs => by
    have hx : x ∈ u := hs x (List.mem_cons_self ..)
    have hn' := List.nodup_cons.1 hn
    have := facts_length_le a (u.erase x) hn'.2 (fun y hy => by
      refine (List.mem_erase_of_ne ?_).2 (hs y (List.mem_cons_of_mem _ hy))
      intro h; subst h; exact hn'.1 hy)
    rw [List.length_erase_of_mem hx] at this
    have hpos : 0 < u.length := List.length_pos_of_mem hx
    rw [List.length_cons]
    omega

/-- A set that grows properly has more elements. -/
theorem facts_length_lt {a b : List Fact} (ha : a.Nodup) (hs : ∀ x ∈ a, x ∈ b) (hd : same b a = false) :
    a.length < b.length := by
  have hex : ∃ y ∈ b, y ∉ a := by
    refine Classical.byContradiction fun h => ?_
    have : same b a = true := same_iff.2 fun f => ⟨fun hf => Classical.byContradiction fun hf' => h ⟨f, hf, hf'⟩, hs f⟩
    rw [this] at hd; cases hd
  obtain ⟨y, hy, hya⟩ := hex
  have := facts_length_le (y :: a) b (List.nodup_cons.2 ⟨hya, ha⟩) (fun x hx => by
    rcases List.mem_cons.1 hx with rfl | hx
    · exact hy
    · exact hs x hx)
  rw [List.length_cons] at this
  omega

/-- The sets only ever grow. -/
structure Growing (D : Flow) : Prop where
  kok : KillOk gen cut D
  inn : ∀ n f, f ∈ D.inn n → f ∈ newIn E D n
  out : ∀ n f, f ∈ D.out n → (f.2 = n ∧ f.1 ∈ gen n) ∨ (f ∈ D.inn n ∧ kills gen cut n f.1 = false)
  nd : ∀ n, (D.inn n).Nodup ∧ (D.kill n).Nodup ∧ (D.out n).Nodup

theorem grows {D : Flow} (h : Growing E gen cut D) (n : Node) :
    (∀ f, f ∈ D.inn n → f ∈ newIn E D n) ∧ (∀ f, f ∈ D.kill n → f ∈ newKill E gen cut D n) ∧
    (∀ f, f ∈ D.out n → f ∈ newOut E gen cut D n) := by
  refine ⟨h.inn n, fun f hf => (mem_newKill E gen cut).2 (.inr hf), fun f hf => ?_⟩
  rw [mem_newOut E gen cut h.kok]
  rcases h.out n f hf with h' | h'
  · exact .inl h'
  · exact .inr ⟨h.inn n f h'.1, h'.2⟩

theorem growing_visit {D : Flow} (h : Growing E gen cut D) (n : Node) :
    Growing E gen cut (visit E gen cut D n) := by
  have hgr := grows E gen cut h n
  have hout : ∀ m f, f ∈ D.out m → f ∈ (visit E gen cut D n).out m := by
    intro m f hf
    unfold visit putAt
    dsimp only
    split
    · rename_i hm; subst hm; exact hgr.2.2 f hf
    · exact hf
  have hnew : ∀ m f, f ∈ newIn E D m → f ∈ newIn E (visit E gen cut D n) m := by
    intro m f hf
    obtain ⟨u, hu, hf⟩ := (mem_newIn E).1 hf
    exact (mem_newIn E).2 ⟨u, hu, hout u f hf⟩
  have hndin : (newIn E D n).Nodup := nodup_addAll List.nodup_nil
  refine ⟨killOk_visit E gen cut h.kok n, ?_, ?_, ?_⟩
  · intro m f hf
    refine hnew m f ?_
    unfold visit putAt at hf
    dsimp only at hf
    split at hf
    · rename_i hm; subst hm; exact hf
    · exact h.inn m f hf
  · intro m f hf
    unfold visit putAt at hf ⊢
    dsimp only at hf ⊢
    split at hf
    · rename_i hm
      subst hm
      rw [if_pos rfl]
      exact (mem_newOut E gen cut h.kok).1 hf
    · rename_i hm
      rw [if_neg hm]
      exact h.out m f hf
  · intro m
    unfold visit putAt
    dsimp only
    split
    · exact ⟨hndin, nodup_addAll (h.nd n).2.1, nodup_addAll (hndin.filter _)⟩
    · exact h.nd m

/-- Total size of the sets of the given nodes. -/
def total (order : List Node) (D : Flow) : Nat :=
  (order.map fun n => (D.inn n).length + (D.kill n).length + (D.out n).length).sum

theorem sum_le_of (order : List Node) (a b : Node → Nat) (h : ∀ n ∈ order, a n ≤ b n) :
    (order.map a).sum ≤ (order.map b).sum := by
  induction order with
  | nil => exact Nat.le_refl _
  | cons n r ih =>
    simp only [List.map_cons, List.sum_cons]
    have := h n (List.mem_cons_self ..)
    have := ih (fun m hm => h m (List.mem_cons_of_mem _ hm))
    omega

theorem sum_lt_of (order : List Node) (a b : Node → Nat) (h : ∀ n ∈ order, a n ≤ b n) {m : Node} (hm : m ∈ order)
    (hlt : a m < b m) : (order.map a).sum < (order.map b).sum := by
  induction order with
  | nil => cases hm
  | cons n r ih =>
    simp only [List.map_cons, List.sum_cons]
    have h0 := h n (List.mem_cons_self ..)
    have hr := sum_le_of r a b (fun m hm => h m (List.mem_cons_of_mem _ hm))
    rcases List.mem_cons.1 hm with rfl | hm
    · omega
    · have := ih (fun m hm => h m (List.mem_cons_of_mem _ hm)) hm
      omega

theorem visit_sizes {D : Flow} (h : Growing E gen cut D) (n m : Node) :
    (D.inn m).length + (D.kill m).length + (D.out m).length ≤
    ((visit E gen cut D n).inn m).length + ((visit E gen cut D n).kill m).length + ((visit E gen cut D n).out m).length := by
  have hgr := grows E gen cut h n
  unfold visit putAt
  dsimp only
  split
  · rename_i hm; subst hm
    have h1 := facts_length_le _ _ (h.nd m).1 hgr.1
    have h2 := facts_length_le _ _ (h.nd m).2.1 hgr.2.1
    have h3 := facts_length_le _ _ (h.nd m).2.2 hgr.2.2
    omega
  · exact Nat.le_refl _

theorem total_visit_le {D : Flow} (h : Growing E gen cut D) (n : Node) (order : List Node) :
    total order D ≤ total order (visit E gen cut D n) :=
  sum_le_of order _ _ fun m _ => visit_sizes E gen cut h n m

theorem total_visit_lt {D : Flow} (h : Growing E gen cut D) {n : Node} {order : List Node}
    (hn : n ∈ order) (hc : changed E gen cut D n = true) : total order D < total order (visit E gen cut D n) := by
  refine sum_lt_of order _ _ (fun m _ => visit_sizes E gen cut h n m) hn ?_
  have hgr := grows E gen cut h n
  have hndin : (newIn E D n).Nodup := nodup_addAll List.nodup_nil
  have h1 := facts_length_le _ _ (h.nd n).1 hgr.1
  have h2 := facts_length_le _ _ (h.nd n).2.1 hgr.2.1
  have h3 := facts_length_le _ _ (h.nd n).2.2 hgr.2.2
  unfold visit putAt
  dsimp only
  rw [if_pos rfl, if_pos rfl, if_pos rfl]
  unfold changed at hc
  rw [Bool.not_eq_true', Bool.and_eq_false_iff, Bool.and_eq_false_iff] at hc
  rcases hc with (hc | hc) | hc
  · have := facts_length_lt (h.nd n).1 hgr.1 hc; omega
  · have := facts_length_lt (h.nd n).2.1 hgr.2.1 hc; omega
  · have := facts_length_lt (h.nd n).2.2 hgr.2.2 hc; omega

theorem growing_pass (order : List Node) {D : Flow} (h : Growing E gen cut D) :
    Growing E gen cut (pass E gen cut order D).1 := by
  induction order generalizing D with
  | nil => exact h
  | cons n r ih => exact ih (growing_visit E gen cut h n)

theorem total_pass (all order : List Node) {D : Flow} (h : Growing E gen cut D)
    (hsub : ∀ n ∈ order, n ∈ all) :
    total all D ≤ total all (pass E gen cut order D).1 ∧
    ((pass E gen cut order D).2 = true → total all D < total all (pass E gen cut order D).1) := by
  induction order generalizing D with
  | nil => exact ⟨Nat.le_refl _, fun h => by cases h⟩
  | cons n r ih =>
    obtain ⟨i1, i2⟩ := ih (growing_visit E gen cut h n) (fun m hm => hsub m (List.mem_cons_of_mem _ hm))
    have hv := total_visit_le E gen cut h n all
    refine ⟨Nat.le_trans hv i1, ?_⟩
    intro hc
    change (changed E gen cut D n || (pass E gen cut r (visit E gen cut D n)).2) = true at hc
    rw [Bool.or_eq_true] at hc
    rcases hc with hc | hc
    · exact Nat.lt_of_lt_of_le (total_visit_lt E gen cut h (hsub n (List.mem_cons_self ..)) hc) i1
    · exact Nat.lt_of_le_of_lt hv (i2 hc)

/-- All updates there are. -/
def allFacts (order : List Node) : List Fact := order.flatMap fun n => (gen n).map fun x => (x, n)

theorem reachOut_allFacts {order : List Node} (hc : Covers E gen order) {n : Node} {f : Fact} (h : ReachOut E gen cut n f) :
    f ∈ allFacts gen order := by
  induction h with
  | @here n x hx =>
    refine List.mem_flatMap.2 ⟨n, hc.2 n (fun h0 => by rw [h0] at hx; cases hx), List.mem_map.2 ⟨x, hx, rfl⟩⟩
  | through _ _ _ _ ih => exact ih

/-- Bounded sets: everything in them is one of the updates there are. -/
def Bounded (order : List Node) (D : Flow) : Prop :=
  ∀ n f, (f ∈ D.inn n ∨ f ∈ D.kill n ∨ f ∈ D.out n) → f ∈ allFacts gen order

theorem bounded_visit {order : List Node} (hc : Covers E gen order) {D : Flow} (hk : KillOk gen cut D)
    (h : Bounded gen order D) (n : Node) : Bounded gen order (visit E gen cut D n) := by
  have hin : ∀ f, f ∈ newIn E D n → f ∈ allFacts gen order := by
    intro f hf
    obtain ⟨u, _, hf⟩ := (mem_newIn E).1 hf
    exact h u f (.inr (.inr hf))
  intro m f hf
  unfold visit putAt at hf
  dsimp only at hf
  by_cases hm : m = n
  · subst hm
    rw [if_pos rfl, if_pos rfl, if_pos rfl] at hf
    rcases hf with hf | hf | hf
    · exact hin f hf
    · rcases (mem_newKill E gen cut).1 hf with hf | hf
      · exact hin f hf.1
      · exact h m f (.inr (.inl hf))
    · rcases (mem_newOut E gen cut hk).1 hf with ⟨h1, h2⟩ | ⟨h1, _⟩
      · refine List.mem_flatMap.2 ⟨m, hc.2 m (fun h0 => by rw [h0] at h2; cases h2), List.mem_map.2 ⟨f.1, h2, ?_⟩⟩
        rw [← h1]
      · exact hin f h1
  · rw [if_neg hm, if_neg hm, if_neg hm] at hf
    exact h m f hf

theorem bounded_pass {all : List Node} (hc : Covers E gen all) (order : List Node) {D : Flow} (hk : KillOk gen cut D)
    (h : Bounded gen all D) : Bounded gen all (pass E gen cut order D).1 := by
  induction order generalizing D with
  | nil => exact h
  | cons n r ih => exact ih (killOk_visit E gen cut hk n) (bounded_visit E gen cut hc hk h n)

theorem total_bound {order all : List Node} {D : Flow} (hg : Growing E gen cut D) (hb : Bounded gen all D) :
    total order D ≤ order.length * (3 * (allFacts gen all).length) := by
  unfold total
  induction order with
  | nil => simp
  | cons n r ih =>
    simp only [List.map_cons, List.sum_cons, List.length_cons]
    have h1 := facts_length_le _ (allFacts gen all) (hg.nd n).1 (fun f hf => hb n f (.inl hf))
    have h2 := facts_length_le _ (allFacts gen all) (hg.nd n).2.1 (fun f hf => hb n f (.inr (.inl hf)))
    have h3 := facts_length_le _ (allFacts gen all) (hg.nd n).2.2 (fun f hf => hb n f (.inr (.inr hf)))
    rw [Nat.add_mul, Nat.one_mul]
    omega

theorem growing_empty : Growing E gen cut Flow.empty :=
  ⟨fun _ _ h => (by cases h), fun _ _ h => (by cases h), fun _ _ h => (by cases h),
   fun _ => ⟨List.nodup_nil, List.nodup_nil, List.nodup_nil⟩⟩

theorem rounds_end {order : List Node} (hc : Covers E gen order) :
    ∀ (d : Nat) (D : Flow), Growing E gen cut D → Bounded gen order D →
      order.length * (3 * (allFacts gen order).length) - total order D ≤ d →
      ∃ D', rounds E gen cut order (d + 1) D = some D' := by
  intro d
  induction d with
  | zero =>
    intro D hD hb hd
    have hb' := bounded_pass E gen cut hc order hD.kok hb
    have hD' := growing_pass E gen cut order hD
    have ht := total_pass E gen cut order order hD (fun n hn => hn)
    have hbound := total_bound E gen cut (order := order) hD' hb'
    unfold rounds
    split
    · rename_i hch
      have := ht.2 hch
      omega
    · exact ⟨_, rfl⟩
  | succ d ih =>
    intro D hD hb hd
    have hb' := bounded_pass E gen cut hc order hD.kok hb
    have hD' := growing_pass E gen cut order hD
    have ht := total_pass E gen cut order order hD (fun n hn => hn)
    unfold rounds
    split
    · rename_i hch
      have := ht.2 hch
      exact ih _ hD' hb' (by omega)
    · exact ⟨_, rfl⟩

/-- **The dataflow loop ends**, for every graph and every order of its nodes. -/
theorem flow_ends (order : List Node) (hc : Covers E gen order) :
    ∃ k D, rounds E gen cut order k Flow.empty = some D := by
  obtain ⟨D, h⟩ := rounds_end E gen cut hc _ Flow.empty (growing_empty E gen cut)
    (fun _ _ h => by rcases h with h | h | h <;> cases h) (Nat.le_refl _)
  exact ⟨_, D, h⟩

end
end Verif.Opt
