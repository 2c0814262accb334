import Verif.Grammar.Exact
/-
Look-ahead switches: how `switch { -> ...; -> ...; }` in a unit is turned into a
chain of look-ahead productions, and which case the parser takes.
-/
namespace Verif.Grammar

/-- The loop building the chain (grammar-builder.cc 276-315): `prev` is what has
been built so far, `fresh` numbers the next `_lha_` production, `d` is the
variable of that name.  A case is a flag `isDefault()` and its production. -/
def switchChain (fresh : Nat) (prev : Sym) (d : Default) :
    List (Bool × Sym) → List (Nat × Prod) × Sym
  | [] => ([], prev)
  | (isD, s) :: cs =>
    let d' := if isD then Default.second else d
    let r := switchChain (fresh + 1) (Sym.n fresh) d' cs
    ((fresh, Prod.lookAhead prev s d' Option.none) :: r.1, r.2)

/-- `switch { ... }` without expression (grammar-builder.cc 274-318); a switch
needs at least one case. -/
def switchProds (fresh : Nat) : List (Bool × Sym) → List (Nat × Prod) × Sym
  | [] => ([], Sym.eps)
  | (isD, s) :: cs => switchChain fresh s (if isD then .first else .none) cs

/-- `d` after the given cases. -/
def dAfter (d : Default) : List (Bool × Sym) → Default
  | [] => d
  | (isD, _) :: cs => dAfter (if isD then .second else d) cs

theorem dAfter_append (d : Default) : ∀ (a b : List (Bool × Sym)),
    dAfter d (a ++ b) = dAfter (dAfter d a) b
  | [], _ => rfl
  | (_, _) :: a, b => by
    simp only [List.cons_append, dAfter]
    exact dAfter_append _ a b

theorem switchChain_append (fresh : Nat) (prev : Sym) (d : Default) :
    ∀ (a b : List (Bool × Sym)), switchChain fresh prev d (a ++ b) =
      ((switchChain fresh prev d a).1 ++
        (switchChain (fresh + a.length) (switchChain fresh prev d a).2 (dAfter d a) b).1,
       (switchChain (fresh + a.length) (switchChain fresh prev d a).2 (dAfter d a) b).2) := by
  intro a
  induction a generalizing fresh prev d with
  | nil => intro b; simp [switchChain, dAfter]
  | cons x a ih =>
    intro b
    obtain ⟨isD, s⟩ := x
    simp only [List.cons_append, switchChain, dAfter, List.length_cons]
    rw [ih (fresh + 1) _ _ b]
    have : fresh + 1 + a.length = fresh + (a.length + 1) := by omega
    simp [this]

/-- Splitting off the last case. -/
theorem switchProds_snoc (fresh : Nat) (c0 : Bool × Sym) (cs : List (Bool × Sym)) (x : Bool × Sym) :
    switchProds fresh (c0 :: (cs ++ [x])) =
      ((switchProds fresh (c0 :: cs)).1 ++
        [(fresh + cs.length, Prod.lookAhead (switchProds fresh (c0 :: cs)).2 x.2
          (if x.1 then Default.second else dAfter (if c0.1 then .first else .none) cs) Option.none)],
       Sym.n (fresh + cs.length)) := by
  obtain ⟨b0, s0⟩ := c0
  obtain ⟨b, s⟩ := x
  simp only [switchProds]
  rw [switchChain_append]
  simp [switchChain]

theorem exists_snoc {α : Type} : ∀ {l : List α}, l ≠ [] → ∃ a x, l = a ++ [x]
  | [], h => absurd rfl h
  | [x], _ => ⟨[], x, rfl⟩
  | x :: y :: l, _ => by
    obtain ⟨a, z, h⟩ := exists_snoc (l := y :: l) (by simp)
    exact ⟨x :: a, z, by rw [h]; rfl⟩

/-- A terminal announces production `s` at the place where `q` stands: `s` can
start with it, or `s` can be empty and the terminal can come right after `q`. -/
def Announces (g : Gram) (q : Nat) (s : Sym) (i : Nat) : Prop :=
  CanStart g.rhss [s] i ∨ (CanVanish g.rhss [s] ∧ CanFollow g.rhss g.root q i)

/-- A grammar that has a given switch. -/
def HasSwitch (g : Gram) (fresh : Nat) (cases : List (Bool × Sym)) : Prop :=
  ∀ q pr, (q, pr) ∈ (switchProds fresh cases).1 → g.prod q = pr ∧ q ∈ g.nterms

theorem HasSwitch.init {g : Gram} {fresh : Nat} {c0 : Bool × Sym} {cs : List (Bool × Sym)}
    {x : Bool × Sym} (h : HasSwitch g fresh (c0 :: (cs ++ [x]))) : HasSwitch g fresh (c0 :: cs) := by
  intro q pr hq
  refine h q pr ?_
  rw [switchProds_snoc]
  exact List.mem_append.mpr (.inl hq)

theorem HasSwitch.last {g : Gram} {fresh : Nat} {c0 : Bool × Sym} {cs : List (Bool × Sym)}
    {x : Bool × Sym} (h : HasSwitch g fresh (c0 :: (cs ++ [x]))) :
    g.prod (fresh + cs.length) = Prod.lookAhead (switchProds fresh (c0 :: cs)).2 x.2
      (if x.1 then Default.second else dAfter (if c0.1 then .first else .none) cs) Option.none ∧
    fresh + cs.length ∈ g.nterms := by
  refine h _ _ ?_
  rw [switchProds_snoc]
  simp

/-- The production of a switch derives each of its cases. -/
theorem switch_derives {g : Gram} {fresh : Nat} {c0 : Bool × Sym} :
    ∀ {n : Nat} {cs : List (Bool × Sym)}, cs.length = n → HasSwitch g fresh (c0 :: cs) →
      ∀ c ∈ c0 :: cs, Derives g.rhss [(switchProds fresh (c0 :: cs)).2] [c.2] := by
  intro n
  induction n with
  | zero =>
    intro cs hn _ c hc
    have : cs = [] := List.length_eq_zero_iff.mp hn
    subst this
    obtain ⟨b0, s0⟩ := c0
    simp at hc
    subst hc
    exact .refl _
  | succ n ih =>
    intro cs hn h c hc
    have hne : cs ≠ [] := by intro h0; subst h0; simp at hn
    obtain ⟨cs', x, rfl⟩ : ∃ cs' x, cs = cs' ++ [x] := exists_snoc hne
    have hlen : cs'.length = n := by simpa using hn
    obtain ⟨hp, _⟩ := h.last
    rw [switchProds_snoc]
    have rh : g.rhss (fresh + cs'.length) = [[(switchProds fresh (c0 :: cs')).2], [x.2]] := by
      show (g.prod _).rhss = _
      rw [hp]; rfl
    have hc' : c ∈ c0 :: cs' ∨ c = x := by
      simp only [List.mem_cons, List.mem_append, List.not_mem_nil, or_false] at hc ⊢
      rcases hc with h | h | h
      · exact .inl (.inl h)
      · exact .inl (.inr h)
      · exact .inr h
    rcases hc' with h1 | rfl
    · exact (Derives.rhs (by rw [rh]; simp)).trans (ih hlen h.init c h1)
    · exact Derives.rhs (by rw [rh]; simp)

theorem Announces.up {g : Gram} {q : Nat} {s s' : Sym} {i : Nat} (h : Announces g q s i)
    (hd : Derives g.rhss [s'] [s]) : Announces g q s' i := by
  rcases h with ⟨b, hb⟩ | ⟨h1, h2⟩
  · exact .inl ⟨b, hd.trans hb⟩
  · exact .inr ⟨hd.trans h1, h2⟩

theorem Announces.inner {g : Gram} {q q' : Nat} {s : Sym} {i : Nat} (h : Announces g q s i)
    (hq : [Sym.n q'] ∈ g.rhss q) : Announces g q' s i := by
  rcases h with h | ⟨h1, a, b, hab⟩
  · exact .inl h
  · refine .inr ⟨h1, a, b, hab.trans ?_⟩
    have := Step.nt (rhss := g.rhss) a (Sym.t i :: b) q _ hq
    exact Derives.one (by simpa using this)

section
variable {g : Gram} {tm : Nat → Tm} {T : Tab}

theorem la_of (p : Nat) {a b : Sym} {d : Default} {loop : Option Sym}
    (hprod : g.prod p = .lookAhead a b d loop) :
    (Env.of g tm T).la p = (T.lookAheads a p, T.lookAheads b p) := by
  show (T.lahs g p).getD ([], []) = _
  rw [lahs_eq (T := T) hprod]
  rfl

theorem announces_iff (wf : g.WF) (hT : computeTables g = some T) {p : Nat} (hp : p ∈ g.nterms)
    {a b : Sym} {d : Default} {loop : Option Sym} (hprod : g.prod p = .lookAhead a b d loop) (i : Nat) :
    (i ∈ T.lookAheads a p ↔ Announces g p a i) ∧ (i ∈ T.lookAheads b p ↔ Announces g p b i) := by
  have ha : [a] ∈ g.rhss p := by
    show [a] ∈ (g.prod p).rhss
    rw [hprod]; simp [Prod.rhss]
  have hb : [b] ∈ g.rhss p := by
    show [b] ∈ (g.prod p).rhss
    rw [hprod]; simp [Prod.rhss]
  exact ⟨C47_lookAheads_exact g wf T hT p hp a ha i, C47_lookAheads_exact g wf T hT p hp b hb i⟩

/-- **C49** Look-ahead switch, token known: if the look-ahead token is one that
announces a case, the parser goes on with exactly that case, wherever in the
switch it stands, and leaves the rest of the state alone. -/
theorem C49_switch_takes_announced_case (wf : g.WF) (hT : computeTables g = some T)
    (dump : Nat → Nat) (hc : T.check g dump = true)
    (hdump : ∀ i j b s s', tm i = .lit b s → tm j = .lit b s' → dump i = dump j)
    (fresh : Nat) (c0 : Bool × Sym) :
    ∀ (n : Nat) (cs : List (Bool × Sym)) (q : Nat), cs.length = n →
      HasSwitch g fresh (c0 :: cs) → (switchProds fresh (c0 :: cs)).2 = Sym.n q →
      cs ≠ [] → ∀ c ∈ c0 :: cs, ∀ i b s, Announces g q c.2 i → tm i = .lit b s →
      ∀ (k : List K) (st : St) (ds : List Nat), st.lah = .tok b →
      Reaches (Env.of g tm T) ⟨K.sym (Sym.n q) :: k, st, ds⟩ ⟨K.sym c.2 :: k, st, ds⟩ := by
  intro n
  induction n with
  | zero =>
    intro cs q hn _ _ hne
    exact absurd (List.length_eq_zero_iff.mp hn) hne
  | succ n ih =>
    intro cs q hn h hq hne c hcm i b s han htm k st ds hlah
    obtain ⟨cs', x, rfl⟩ : ∃ cs' x, cs = cs' ++ [x] := exists_snoc hne
    have hlen : cs'.length = n := by simpa using hn
    obtain ⟨hp, hmem⟩ := h.last
    rw [switchProds_snoc] at hq
    simp at hq
    subst hq
    have hla := la_of (tm := tm) (T := T) _ hp
    have hx := announces_iff wf hT hmem hp
    have hdis := (check_disjoint' hc hmem (lahs_eq (T := T) hp)).1
    have hc' : c ∈ c0 :: cs' ∨ c = x := by
      simp only [List.mem_cons, List.mem_append, List.not_mem_nil, or_false] at hcm ⊢
      rcases hcm with h | h | h
      · exact .inl (.inl h)
      · exact .inl (.inr h)
      · exact .inr h
    rcases hc' with hc1 | rfl
    · -- an earlier case: take the first alternative and go on inside
      have hup := han.up (switch_derives rfl h.init c hc1)
      have hm : b ∈ lits tm (T.lookAheads (switchProds fresh (c0 :: cs')).2 (fresh + cs'.length)) :=
        mem_lits.mpr ⟨i, ((hx i).1).mpr hup, s, htm⟩
      have hstep : mstep (Env.of g tm T) ⟨K.sym (Sym.n (fresh + cs'.length)) :: k, st, ds⟩ =
          some ⟨K.sym (switchProds fresh (c0 :: cs')).2 :: k, st, ds⟩ := by
        simp only [mstep, stepNt]
        rw [hla]
        have hg : (Env.of g tm T).g.prod (fresh + cs'.length) = _ := hp
        rw [hg]
        have htm' : (Env.of g tm T).tm = tm := rfl
        simp only [parseLookAhead, htm']
        rw [if_neg (by rw [hlah]; simp), hlah]
        simp only [branch]
        rw [if_pos hm]
      refine .head hstep ?_
      by_cases hne' : cs' = []
      · subst hne'
        simp at hc1
        subst hc1
        exact .refl _
      · obtain ⟨cs2, y, rfl⟩ : ∃ cs2 y, cs' = cs2 ++ [y] :=
          exists_snoc hne'
        have hq' : (switchProds fresh (c0 :: (cs2 ++ [y]))).2 = Sym.n (fresh + cs2.length) := by
          rw [switchProds_snoc]
        have hrhs : [Sym.n (fresh + cs2.length)] ∈ g.rhss (fresh + (cs2 ++ [y]).length) := by
          show _ ∈ (g.prod _).rhss
          rw [hp, hq']; simp [Prod.rhss]
        rw [hq']
        exact ih (cs2 ++ [y]) (fresh + cs2.length) hlen h.init hq' hne' c hc1 i b s
          (han.inner hrhs) htm k st ds hlah
    · -- the last case
      have hm2 : i ∈ T.lookAheads c.2 (fresh + cs'.length) := ((hx i).2).mpr han
      have hm1 : b ∉ lits tm (T.lookAheads (switchProds fresh (c0 :: cs')).2 (fresh + cs'.length)) := by
        intro hm
        obtain ⟨j, hj, s', hjt⟩ := mem_lits.mp hm
        exact hdis j i hj hm2 (hdump j i b s' s hjt htm)
      have hm : b ∈ lits tm (T.lookAheads c.2 (fresh + cs'.length)) := mem_lits.mpr ⟨i, hm2, s, htm⟩
      have hstep : mstep (Env.of g tm T) ⟨K.sym (Sym.n (fresh + cs'.length)) :: k, st, ds⟩ =
          some ⟨K.sym c.2 :: k, st, ds⟩ := by
        simp only [mstep, stepNt]
        rw [hla]
        have hg : (Env.of g tm T).g.prod (fresh + cs'.length) = _ := hp
        rw [hg]
        have htm' : (Env.of g tm T).tm = tm := rfl
        simp only [parseLookAhead, htm']
        rw [if_neg (by rw [hlah]; simp), hlah]
        simp only [branch]
        rw [if_neg hm1, if_pos hm]
      exact .head hstep (.refl _)

/-! ### No token matches -/

/-- No literal of terminal `i` at the current position. -/
def Absent (tm : Nat → Tm) (st : St) (i : Nat) : Prop :=
  ∀ b s, tm i = .lit b s → b.isPrefixOf st.rest = false

theorem tryTokens_absent {st : St} : ∀ (l : List Nat) (first : Bool),
    (∀ j ∈ l, Absent tm st j) → tryTokens tm st first l = some st
  | [], _, _ => rfl
  | j :: l, first, h => by
    have hj := h j (by simp)
    have hl : ∀ i ∈ l, Absent tm st i := fun i hi => h i (List.mem_cons_of_mem _ hi)
    cases htm : tm j with
    | lit b s =>
      have hb := hj b s htm
      have ih := tryTokens_absent (st := st) l false hl
      simp only [tryTokens, tryToken, htm, Tm.lit?, hb]
      cases first <;> simp [ih]
    | var m =>
      have ih := tryTokens_absent (st := st) l first hl
      simp only [tryTokens, tryToken, htm, Tm.lit?]
      exact ih

theorem vanish_nt {rhss : Nat → List (List Sym)} {p : Nat} (h : CanVanish rhss [Sym.n p]) :
    ∃ r ∈ rhss p, CanVanish rhss r := by
  obtain ⟨k, hk⟩ := LDer.of_derives h (k := 0) (w := []) .nil
  cases hk with
  | nt hr hd => exact ⟨_, hr, show Derives rhss _ [] by simpa using hd.derives⟩

theorem start_nt {rhss : Nat → List (List Sym)} {p i : Nat} (h : CanStart rhss [Sym.n p] i) :
    ∃ r ∈ rhss p, CanStart rhss r i := by
  obtain ⟨b, hb⟩ := h
  cases hb with
  | head hs hd =>
    generalize hx : [Sym.n p] = y at hs
    cases hs with
    | eps a c =>
      cases a with
      | nil => cases hx
      | cons z a => cases a <;> simp at hx
    | nt a c q r hr =>
      cases a with
      | nil =>
        simp at hx
        obtain ⟨rfl, rfl⟩ := hx
        exact ⟨r, hr, b, by simpa using hd⟩
      | cons z a => cases a <;> simp at hx

/-- What announces the production of a switch announces one of its cases. -/
theorem switch_announces {fresh : Nat} {c0 : Bool × Sym} {q i : Nat} :
    ∀ {n : Nat} {cs : List (Bool × Sym)}, cs.length = n → HasSwitch g fresh (c0 :: cs) →
      Announces g q (switchProds fresh (c0 :: cs)).2 i → ∃ c ∈ c0 :: cs, Announces g q c.2 i := by
  intro n
  induction n with
  | zero =>
    intro cs hn _ h
    have : cs = [] := List.length_eq_zero_iff.mp hn
    subst this
    exact ⟨c0, by simp, h⟩
  | succ n ih =>
    intro cs hn h han
    have hne : cs ≠ [] := by intro h0; subst h0; simp at hn
    obtain ⟨cs', x, rfl⟩ : ∃ cs' x, cs = cs' ++ [x] := exists_snoc hne
    have hlen : cs'.length = n := by simpa using hn
    obtain ⟨hp, _⟩ := h.last
    rw [switchProds_snoc] at han
    have rh : g.rhss (fresh + cs'.length) = [[(switchProds fresh (c0 :: cs')).2], [x.2]] := by
      show (g.prod _).rhss = _
      rw [hp]; rfl
    have key : Announces g q (switchProds fresh (c0 :: cs')).2 i ∨ Announces g q x.2 i := by
      rcases han with h1 | ⟨h1, h2⟩
      · obtain ⟨r, hr, hs⟩ := start_nt h1
        rw [rh] at hr
        simp at hr
        rcases hr with rfl | rfl
        · exact .inl (.inl hs)
        · exact .inr (.inl hs)
      · obtain ⟨r, hr, hs⟩ := vanish_nt h1
        rw [rh] at hr
        simp at hr
        rcases hr with rfl | rfl
        · exact .inl (.inr ⟨hs, h2⟩)
        · exact .inr (.inr ⟨hs, h2⟩)
    rcases key with hk | hk
    · obtain ⟨c, hc, hx⟩ := ih hlen h.init hk
      refine ⟨c, ?_, hx⟩
      simp only [List.mem_cons, List.mem_append] at hc ⊢
      rcases hc with h | h
      · exact .inl h
      · exact .inr (.inl h)
    · exact ⟨x, by simp, hk⟩

/-- No terminal that announces a case of the switch is next in the input, of which
there is some left, and no look-ahead is pending. -/
structure NoMatch (g : Gram) (tm : Nat → Tm) (fresh : Nat) (cases : List (Bool × Sym)) (st : St) :
    Prop where
  lah : st.lah = .none
  some : st.rest ≠ []
  absent : ∀ q pr, (q, pr) ∈ (switchProds fresh cases).1 → ∀ c ∈ cases, ∀ i,
    Announces g q c.2 i → Absent tm st i

theorem NoMatch.init {fresh : Nat} {c0 : Bool × Sym} {cs : List (Bool × Sym)}
    {x : Bool × Sym} {st : St} (h : NoMatch g tm fresh (c0 :: (cs ++ [x])) st) :
    NoMatch g tm fresh (c0 :: cs) st := by
  refine ⟨h.lah, h.some, fun q pr hq c hc i han => h.absent q pr ?_ c ?_ i han⟩
  · rw [switchProds_snoc]
    exact List.mem_append.mpr (.inl hq)
  · simp only [List.mem_cons, List.mem_append] at hc ⊢
    rcases hc with h | h
    · exact .inl h
    · exact .inr (.inl h)

/-- One look-ahead production of the switch when nothing matches. -/
theorem switch_step_nomatch (wf : g.WF) (hT : computeTables g = some T) {fresh : Nat}
    {c0 : Bool × Sym} {cs : List (Bool × Sym)} {x : Bool × Sym} {st : St}
    (h : HasSwitch g fresh (c0 :: (cs ++ [x])))
    (hn : NoMatch g tm fresh (c0 :: (cs ++ [x])) st) (k : List K) (ds : List Nat) :
    mstep (Env.of g tm T) ⟨K.sym (Sym.n (fresh + cs.length)) :: k, st, ds⟩ =
      match (if x.1 then Default.second else dAfter (if c0.1 then .first else .none) cs) with
      | .first => some ⟨K.sym (switchProds fresh (c0 :: cs)).2 :: k, st, ds⟩
      | .second => some ⟨K.sym x.2 :: k, st, ds⟩
      | .none => Option.none := by
  obtain ⟨hp, hmem⟩ := h.last
  have hla := la_of (tm := tm) (T := T) _ hp
  have hx := announces_iff wf hT hmem hp
  have hq : ∃ pr, (fresh + cs.length, pr) ∈ (switchProds fresh (c0 :: (cs ++ [x]))).1 := by
    rw [switchProds_snoc]
    exact ⟨_, List.mem_append.mpr (.inr (List.mem_singleton.mpr rfl))⟩
  obtain ⟨pr, hq⟩ := hq
  have habs : ∀ j ∈ sortSyms (union (T.lookAheads (switchProds fresh (c0 :: cs)).2 (fresh + cs.length))
      (T.lookAheads x.2 (fresh + cs.length))), Absent tm st j := by
    intro j hj
    rw [mem_sortSyms, mem_union] at hj
    rcases hj with hj | hj
    · obtain ⟨c, hc, han⟩ := switch_announces rfl h.init ((hx j).1.mp hj)
      refine hn.absent _ _ hq c ?_ j han
      simp only [List.mem_cons, List.mem_append] at hc ⊢
      rcases hc with h | h
      · exact .inl h
      · exact .inr (.inl h)
    · exact hn.absent _ _ hq x (by simp) j ((hx j).2.mp hj)
  have htr := tryTokens_absent _ true habs
  simp only [mstep, stepNt]
  rw [hla]
  have hg : (Env.of g tm T).g.prod (fresh + cs.length) = _ := hp
  rw [hg]
  have htm : (Env.of g tm T).tm = tm := rfl
  simp only [parseLookAhead, getLookAhead, htm]
  rw [if_pos hn.lah, if_neg hn.some, htr]
  simp only [branch, hn.lah]
  generalize (if x.1 = true then Default.second else dAfter (if c0.1 = true then .first else .none) cs) = d
  cases d <;> rfl

theorem dAfter_none {d : Default} : ∀ {cs : List (Bool × Sym)}, (∀ c ∈ cs, c.1 = false) →
    dAfter d cs = d
  | [], _ => rfl
  | (b, s) :: cs, h => by
    have hb : b = false := h (b, s) (by simp)
    subst hb
    simp only [dAfter]
    exact dAfter_none fun c hc => h c (List.mem_cons_of_mem _ hc)

theorem dAfter_second : ∀ {cs : List (Bool × Sym)} (d : Default), (∃ c ∈ cs, c.1 = true) →
    dAfter d cs = .second
  | [], _, h => by
    obtain ⟨c, hc, _⟩ := h
    cases hc
  | (b, s) :: cs, d, h => by
    simp only [dAfter]
    by_cases hr : ∃ c ∈ cs, c.1 = true
    · exact dAfter_second _ hr
    · have hnone : ∀ c ∈ cs, c.1 = false := by
        intro c hc
        cases hcb : c.1 with
        | false => rfl
        | true => exact absurd ⟨c, hc, hcb⟩ hr
      rw [dAfter_none hnone]
      obtain ⟨c, hc, hcb⟩ := h
      rcases List.mem_cons.mp hc with rfl | hc
      · simp only at hcb
        rw [hcb]; rfl
      · rw [hnone c hc] at hcb; cases hcb

/-- **C49** Look-ahead switch, nothing matches, default case first: the parser goes
on with the default case. -/
theorem C49_switch_default_first (wf : g.WF) (hT : computeTables g = some T) (fresh : Nat) (s0 : Sym) :
    ∀ (n : Nat) (cs : List (Bool × Sym)) (q : Nat), cs.length = n →
      HasSwitch g fresh ((true, s0) :: cs) → (switchProds fresh ((true, s0) :: cs)).2 = Sym.n q →
      cs ≠ [] → (∀ c ∈ cs, c.1 = false) →
      ∀ (k : List K) (st : St) (ds : List Nat), NoMatch g tm fresh ((true, s0) :: cs) st →
      Reaches (Env.of g tm T) ⟨K.sym (Sym.n q) :: k, st, ds⟩ ⟨K.sym s0 :: k, st, ds⟩ := by
  intro n
  induction n with
  | zero =>
    intro cs q hn _ _ hne
    exact absurd (List.length_eq_zero_iff.mp hn) hne
  | succ n ih =>
    intro cs q hn h hq hne hno k st ds hnm
    obtain ⟨cs', x, rfl⟩ : ∃ cs' x, cs = cs' ++ [x] := exists_snoc hne
    have hlen : cs'.length = n := by simpa using hn
    rw [switchProds_snoc] at hq
    simp at hq
    subst hq
    have hx : x.1 = false := hno x (by simp)
    have hno' : ∀ c ∈ cs', c.1 = false := fun c hc => hno c (List.mem_append.mpr (.inl hc))
    have hst := switch_step_nomatch (T := T) wf hT h hnm k ds
    rw [hx, dAfter_none hno'] at hst
    refine .head hst ?_
    by_cases hne' : cs' = []
    · subst hne'
      exact .refl _
    · obtain ⟨cs2, y, rfl⟩ : ∃ cs2 y, cs' = cs2 ++ [y] :=
        exists_snoc hne'
      have hq' : (switchProds fresh ((true, s0) :: (cs2 ++ [y]))).2 = Sym.n (fresh + cs2.length) := by
        rw [switchProds_snoc]
      rw [hq']
      exact ih (cs2 ++ [y]) (fresh + cs2.length) hlen h.init hq' hne' hno' k st ds hnm.init

/-- **C49** Look-ahead switch, nothing matches, default case last: the parser goes
on with the default case. -/
theorem C49_switch_default_last (wf : g.WF) (hT : computeTables g = some T) (fresh : Nat)
    (c0 : Bool × Sym) (cs : List (Bool × Sym)) (s : Sym) (q : Nat)
    (h : HasSwitch g fresh (c0 :: (cs ++ [(true, s)])))
    (hq : (switchProds fresh (c0 :: (cs ++ [(true, s)]))).2 = Sym.n q)
    (k : List K) (st : St) (ds : List Nat) (hnm : NoMatch g tm fresh (c0 :: (cs ++ [(true, s)])) st) :
    Reaches (Env.of g tm T) ⟨K.sym (Sym.n q) :: k, st, ds⟩ ⟨K.sym s :: k, st, ds⟩ := by
  rw [switchProds_snoc] at hq
  simp at hq
  subst hq
  have hst := switch_step_nomatch (T := T) wf hT h hnm k ds
  exact .head hst (.refl _)

/-- **C49** Look-ahead switch, nothing matches, no default case: parse error. -/
theorem C49_switch_no_default (wf : g.WF) (hT : computeTables g = some T) (fresh : Nat)
    (c0 : Bool × Sym) (cs : List (Bool × Sym)) (q : Nat)
    (h : HasSwitch g fresh (c0 :: cs)) (hq : (switchProds fresh (c0 :: cs)).2 = Sym.n q)
    (hne : cs ≠ []) (hno : ∀ c ∈ c0 :: cs, c.1 = false)
    (k : List K) (st : St) (ds : List Nat) (hnm : NoMatch g tm fresh (c0 :: cs) st) :
    mstep (Env.of g tm T) ⟨K.sym (Sym.n q) :: k, st, ds⟩ = Option.none := by
  obtain ⟨cs', x, rfl⟩ : ∃ cs' x, cs = cs' ++ [x] := exists_snoc hne
  rw [switchProds_snoc] at hq
  simp at hq
  subst hq
  have hst := switch_step_nomatch (T := T) wf hT h hnm k ds
  rw [hno x (by simp), hno c0 (by simp), dAfter_none fun c hc => hno c (by simp [hc])] at hst
  exact hst

/-- **C49** (finding) Look-ahead switch, nothing matches, default case somewhere in
the middle: the parser goes on with the *last* case, which is not the default. -/
theorem C49_switch_default_middle_takes_last (wf : g.WF) (hT : computeTables g = some T) (fresh : Nat)
    (c0 : Bool × Sym) (cs : List (Bool × Sym)) (x : Bool × Sym) (q : Nat)
    (h : HasSwitch g fresh (c0 :: (cs ++ [x])))
    (hq : (switchProds fresh (c0 :: (cs ++ [x]))).2 = Sym.n q)
    (hd : ∃ c ∈ cs, c.1 = true)
    (k : List K) (st : St) (ds : List Nat) (hnm : NoMatch g tm fresh (c0 :: (cs ++ [x])) st) :
    Reaches (Env.of g tm T) ⟨K.sym (Sym.n q) :: k, st, ds⟩ ⟨K.sym x.2 :: k, st, ds⟩ := by
  rw [switchProds_snoc] at hq
  simp at hq
  subst hq
  have hst := switch_step_nomatch (T := T) wf hT h hnm k ds
  rw [dAfter_second _ hd] at hst
  cases hx : x.1 with
  | true => rw [hx] at hst; exact .head hst (.refl _)
  | false => rw [hx] at hst; exact .head hst (.refl _)

end
end Verif.Grammar
