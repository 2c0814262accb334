import Verif.Grammar.Findings
/-
How a grammar comes to be: `_addProduction` and `_simplify`.  What the other
theorems assume about grammars (`Gram.WF`) is what these establish.
-/
namespace Verif.Grammar

/-- Depth-first search with a visited list, as `_addProduction` (grammar.cc
94-115) and `_closureRecurse` (grammar.cc 139-156) do it; `succ` are the
nonterminals a production refers to.  Terminals are left out. -/
def dfs (succ : Nat → List Nat) : Nat → List Nat → Nat → List Nat
  | 0, c, _ => c
  | f + 1, c, p =>
    if p ∈ c then c else (succ p).foldl (fun c q => dfs succ f c q) (c ++ [p])

/-- `q` can be reached from `p`. -/
inductive Path (succ : Nat → List Nat) : Nat → Nat → Prop
  | refl (p : Nat) : Path succ p p
  | head {p q r : Nat} : q ∈ succ p → Path succ q r → Path succ p r

/-- What a search started at `ps` with `c` visited leaves behind. -/
structure Found (succ : Nat → List Nat) (u c : List Nat) (ps : List Nat) (c' : List Nat) : Prop where
  sub : ∀ x ∈ c, x ∈ c'
  univ : ∀ x ∈ c', x ∈ u
  nd : c'.Nodup
  start : ∀ p ∈ ps, p ∈ c'
  closed : ∀ x ∈ c', x ∉ c → ∀ y ∈ succ x, y ∈ c'
  path : ∀ x ∈ c', x ∉ c → ∃ p ∈ ps, Path succ p x

theorem dfs_found {succ : Nat → List Nat} {u : List Nat} (hu : ∀ p ∈ u, ∀ q ∈ succ p, q ∈ u) :
    ∀ (f : Nat) (c : List Nat) (p : Nat), c.Nodup → (∀ x ∈ c, x ∈ u) → p ∈ u →
      u.length < f + c.length → Found succ u c [p] (dfs succ f c p) := by
  intro f
  induction f with
  | zero =>
    intro c p hn hs _ hf
    have := nodup_length_le _ _ hn hs
    omega
  | succ f ih =>
    intro c p hn hs hp hf
    simp only [dfs]
    by_cases hpc : p ∈ c
    · rw [if_pos hpc]
      exact ⟨fun x h => h, hs, hn, fun q hq => by rw [List.mem_singleton.mp hq]; exact hpc,
        fun x h1 h2 => absurd h1 h2, fun x h1 h2 => absurd h1 h2⟩
    · rw [if_neg hpc]
      -- the loop over the successors
      have loop : ∀ (qs : List Nat) (c1 : List Nat), c1.Nodup → (∀ x ∈ c1, x ∈ u) → (∀ q ∈ qs, q ∈ u) →
          u.length < f + c1.length →
          Found succ u c1 qs (qs.foldl (fun c q => dfs succ f c q) c1) := by
        intro qs
        induction qs with
        | nil =>
          intro c1 h1 h2 _ _
          exact ⟨fun x h => h, h2, h1, fun q hq => absurd hq (by simp), fun x h1 h2 => absurd h1 h2,
            fun x h1 h2 => absurd h1 h2⟩
        | cons q qs ihq =>
          intro c1 h1 h2 h3 h4
          have hq := ih c1 q h1 h2 (h3 q (by simp)) h4
          have hlen : c1.length ≤ (dfs succ f c1 q).length := nodup_length_le _ _ h1 hq.sub
          have hr := ihq (dfs succ f c1 q) hq.nd hq.univ (fun x hx => h3 x (List.mem_cons_of_mem _ hx))
            (by omega)
          simp only [List.foldl_cons]
          refine ⟨fun x hx => hr.sub x (hq.sub x hx), hr.univ, hr.nd, ?_, ?_, ?_⟩
          · intro x hx
            rcases List.mem_cons.mp hx with rfl | hx
            · exact hr.sub _ (hq.start _ (by simp))
            · exact hr.start x hx
          · intro x hx hxc y hy
            by_cases hx1 : x ∈ dfs succ f c1 q
            · exact hr.sub y (hq.closed x hx1 hxc y hy)
            · exact hr.closed x hx hx1 y hy
          · intro x hx hxc
            by_cases hx1 : x ∈ dfs succ f c1 q
            · obtain ⟨z, hz, hp⟩ := hq.path x hx1 hxc
              rw [List.mem_singleton.mp hz] at hp
              exact ⟨q, by simp, hp⟩
            · obtain ⟨z, hz, hp⟩ := hr.path x hx hx1
              exact ⟨z, List.mem_cons_of_mem _ hz, hp⟩
      have hn1 : (c ++ [p]).Nodup := by
        rw [List.nodup_append]
        refine ⟨hn, by simp, ?_⟩
        intro x hx y hy hxy
        rw [List.mem_singleton.mp hy] at hxy
        exact hpc (hxy ▸ hx)
      have hs1 : ∀ x ∈ c ++ [p], x ∈ u := by
        intro x hx
        rcases List.mem_append.mp hx with h | h
        · exact hs x h
        · rw [List.mem_singleton.mp h]; exact hp
      have hl := loop (succ p) (c ++ [p]) hn1 hs1 (hu p hp) (by simp; omega)
      refine ⟨fun x hx => hl.sub x (List.mem_append.mpr (.inl hx)), hl.univ, hl.nd, ?_, ?_, ?_⟩
      · intro q hq
        rw [List.mem_singleton.mp hq]
        exact hl.sub p (by simp)
      · intro x hx hxc y hy
        by_cases hxp : x = p
        · subst hxp
          exact hl.start y hy
        · refine hl.closed x hx ?_ y hy
          intro h
          rcases List.mem_append.mp h with h | h
          · exact hxc h
          · exact hxp (List.mem_singleton.mp h)
      · intro x hx hxc
        by_cases hxp : x = p
        · subst hxp
          exact ⟨x, by simp, .refl _⟩
        · obtain ⟨z, hz, hpth⟩ := hl.path x hx (by
            intro h
            rcases List.mem_append.mp h with h | h
            · exact hxc h
            · exact hxp (List.mem_singleton.mp h))
          exact ⟨p, by simp, .head hz hpth⟩

/-- Several searches in a row. -/
theorem dfs_all_found {succ : Nat → List Nat} {u : List Nat} (hu : ∀ p ∈ u, ∀ q ∈ succ p, q ∈ u)
    {f : Nat} (hf : u.length < f) : ∀ (qs : List Nat) (c : List Nat), c.Nodup → (∀ x ∈ c, x ∈ u) →
      (∀ q ∈ qs, q ∈ u) → Found succ u c qs (qs.foldl (fun c q => dfs succ f c q) c) := by
  intro qs
  induction qs with
  | nil =>
    intro c1 h1 h2 _
    exact ⟨fun x h => h, h2, h1, fun q hq => absurd hq (by simp), fun x h1 h2 => absurd h1 h2,
      fun x h1 h2 => absurd h1 h2⟩
  | cons q qs ihq =>
    intro c1 h1 h2 h3
    have hq := dfs_found hu f c1 q h1 h2 (h3 q (by simp)) (by omega)
    have hr := ihq (dfs succ f c1 q) hq.nd hq.univ (fun x hx => h3 x (List.mem_cons_of_mem _ hx))
    simp only [List.foldl_cons]
    refine ⟨fun x hx => hr.sub x (hq.sub x hx), hr.univ, hr.nd, ?_, ?_, ?_⟩
    · intro x hx
      rcases List.mem_cons.mp hx with rfl | hx
      · exact hr.sub _ (hq.start _ (by simp))
      · exact hr.start x hx
    · intro x hx hxc y hy
      by_cases hx1 : x ∈ dfs succ f c1 q
      · exact hr.sub y (hq.closed x hx1 hxc y hy)
      · exact hr.closed x hx hx1 y hy
    · intro x hx hxc
      by_cases hx1 : x ∈ dfs succ f c1 q
      · obtain ⟨z, hz, hp⟩ := hq.path x hx1 hxc
        rw [List.mem_singleton.mp hz] at hp
        exact ⟨q, by simp, hp⟩
      · obtain ⟨z, hz, hp⟩ := hr.path x hx hx1
        exact ⟨z, List.mem_cons_of_mem _ hz, hp⟩

/-- The productions a `GrammarBuilder` run creates (grammar-builder.cc 377-405):
all nonterminals `u`; for each the nonterminals it holds directly and those it
refers to through `Deferred`/`Reference` (units); and the `_addProduction` calls in
order, one per unit through `Grammar::resolve` and one for the root. -/
structure Raw where
  u : List Nat
  prod : Nat → Prod
  direct : Nat → List Nat
  deferred : Nat → List Nat
  calls : List Nat
  root : Nat

/-- The nonterminals in the right-hand sides of a production. -/
def rhsNts (r : List (List Sym)) : List Nat :=
  r.flatMap fun ss => ss.flatMap fun | .n q => [q] | _ => []

theorem mem_rhsNts {r : List (List Sym)} {q : Nat} :
    q ∈ rhsNts r ↔ ∃ ss ∈ r, Sym.n q ∈ ss := by
  simp only [rhsNts, List.mem_flatMap]
  constructor
  · rintro ⟨ss, h1, s, h2, h3⟩
    refine ⟨ss, h1, ?_⟩
    cases s with
    | n p => simp at h3; rw [h3]; exact h2
    | t i => simp at h3
    | eps => simp at h3
  · rintro ⟨ss, h1, h2⟩
    exact ⟨ss, h1, Sym.n q, h2, by simp⟩

/-- `setRoot`, `resolve`, `_addProduction` (grammar.cc 58-115) and `_simplify`
(grammar.cc 117-137): collect what the calls reach directly, then drop what
cannot be reached from the root.  The loop in `_simplify` runs a second time
without effect, since the closure depends on productions only. -/
def Raw.build (R : Raw) : Gram where
  nterms :=
    (R.calls.foldl (fun c q => dfs R.direct (R.u.length + 1) c q) []).filter fun p =>
      (dfs (fun p => rhsNts (R.prod p).rhss) (R.u.length + 1) [] R.root).contains p
  prod := R.prod
  root := R.root

/-- What the builder sees to: every production created is accounted for, and every
unit referred to has been resolved. -/
structure Raw.Ok (R : Raw) : Prop where
  univ : ∀ p ∈ R.u, ∀ q ∈ rhsNts (R.prod p).rhss, q ∈ R.u
  edges : ∀ p ∈ R.u, ∀ q, q ∈ rhsNts (R.prod p).rhss ↔ q ∈ R.direct p ∨ q ∈ R.deferred p
  calls : ∀ p ∈ R.calls, p ∈ R.u
  root : R.root ∈ R.calls
  resolved : ∀ p ∈ R.u, ∀ q ∈ R.deferred p, q ∈ R.calls

theorem path_reachable {g : Gram} {p : Nat} (h : Path (fun p => rhsNts (g.prod p).rhss) g.root p) :
    Reachable g.rhss g.root p := by
  have key : ∀ {a b : Nat}, Path (fun p => rhsNts (g.prod p).rhss) a b →
      Reachable g.rhss g.root a → Reachable g.rhss g.root b := by
    intro a b hab
    induction hab with
    | refl _ => exact id
    | head hq _ ih =>
      intro ha
      refine ih ?_
      obtain ⟨ss, h1, h2⟩ := mem_rhsNts.mp hq
      obtain ⟨x, y, rfl⟩ := List.append_of_mem h2
      exact reach_step ha h1
  exact key h (reach_root g)

/-- **C47** The grammar a builder run ends up with is well-formed: it has the root,
everything its productions refer to, and nothing that the root cannot reach. -/
theorem C47_built_grammar_wf (R : Raw) (h : R.Ok) : R.build.WF := by
  have hdir : ∀ p ∈ R.u, ∀ q ∈ R.direct p, q ∈ R.u :=
    fun p hp q hq => h.univ p hp q ((h.edges p hp q).mpr (.inl hq))
  have hA := dfs_all_found hdir (f := R.u.length + 1) (by omega) R.calls [] (by simp) (by simp) h.calls
  have hC := dfs_found (succ := fun p => rhsNts (R.prod p).rhss) h.univ (R.u.length + 1) [] R.root
    (by simp) (by simp) (h.calls _ h.root) (by simp)
  have hmem : ∀ p, p ∈ R.build.nterms ↔
      p ∈ R.calls.foldl (fun c q => dfs R.direct (R.u.length + 1) c q) [] ∧
      p ∈ dfs (fun p => rhsNts (R.prod p).rhss) (R.u.length + 1) [] R.root := by
    intro p
    simp only [Raw.build, List.mem_filter, List.contains_iff_mem]
  refine ⟨?_, ?_, ?_⟩
  · exact (hmem _).mpr ⟨hA.start _ h.root, hC.start _ (List.mem_singleton.mpr rfl)⟩
  · intro p hp r hr q hq
    obtain ⟨h1, h2⟩ := (hmem p).mp hp
    have hpu := hA.univ p h1
    have he : q ∈ rhsNts (R.prod p).rhss := mem_rhsNts.mpr ⟨r, hr, hq⟩
    refine (hmem q).mpr ⟨?_, hC.closed p h2 (by simp) q he⟩
    rcases (h.edges p hpu q).mp he with hd | hd
    · exact hA.closed p h1 (by simp) q hd
    · exact hA.start q (h.resolved p hpu q hd)
  · intro p hp
    obtain ⟨_, h2⟩ := (hmem p).mp hp
    obtain ⟨z, hz, hpth⟩ := hC.path p h2 (by simp)
    rw [List.mem_singleton.mp hz] at hpth
    exact path_reachable hpth

/-- **C47** Tables are computed for everything a builder run produces. -/
theorem C47_built_grammar_tables (R : Raw) (h : R.Ok) : ∃ T, computeTables R.build = some T :=
  C47_tables_terminate _ (C47_built_grammar_wf R h)

/-- The demo program's outer unit as the builder sees it, with a production (6)
that nothing refers to. -/
def demoRaw : Raw where
  u := [0, 1, 2, 3, 4, 5, 6]
  prod := demoProd
  direct := fun | 0 => [1] | 1 => [2] | 2 => [3] | 3 => [2] | 5 => [4] | _ => []
  deferred := fun | 0 => [5] | _ => []
  calls := [5, 6, 0]
  root := 0

example : demoRaw.Ok := by
  refine ⟨by decide, ?_, by decide, by decide, by decide⟩
  intro p hp q
  simp [demoRaw] at hp
  rcases hp with rfl | rfl | rfl | rfl | rfl | rfl | rfl <;>
    simp [demoRaw, demoProd, Prod.rhss, rhsNts]

example : demoRaw.build.nterms = [5, 4, 0, 1, 2, 3] := by decide

end Verif.Grammar
