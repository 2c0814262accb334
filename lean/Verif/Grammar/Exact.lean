import Verif.Grammar.Complete
/-
The language a program's parsers accept, for programs of one or several units,
and the look-ahead check.
-/
namespace Verif.Grammar

/-! ### The grammar check -/

/-- **C49** `_check` lets a grammar pass exactly if, for every look-ahead
production, at least one alternative has a terminal announcing it and no two
terminals that look the same announce different alternatives.  A terminal
announces an alternative if the alternative can start with it, or if the
alternative can be empty and the terminal can come right after. -/
theorem C49_check_exact (g : Gram) (wf : g.WF) (T : Tab) (hT : computeTables g = some T)
    (dump : Nat → Nat) :
    T.check g dump = true ↔
      ∀ p ∈ g.nterms, ∀ a b d loop, g.prod p = .lookAhead a b d loop →
        (∃ i, (CanStart g.rhss [a] i ∨ (CanVanish g.rhss [a] ∧ CanFollow g.rhss g.root p i)) ∨
          (CanStart g.rhss [b] i ∨ (CanVanish g.rhss [b] ∧ CanFollow g.rhss g.root p i))) ∧
        ∀ i j, (CanStart g.rhss [a] i ∨ (CanVanish g.rhss [a] ∧ CanFollow g.rhss g.root p i)) →
          (CanStart g.rhss [b] j ∨ (CanVanish g.rhss [b] ∧ CanFollow g.rhss g.root p j)) →
          dump i ≠ dump j := by
  have ex : ∀ p ∈ g.nterms, ∀ a b d loop, g.prod p = .lookAhead a b d loop →
      (∀ i, i ∈ T.lookAheads a p ↔
        CanStart g.rhss [a] i ∨ (CanVanish g.rhss [a] ∧ CanFollow g.rhss g.root p i)) ∧
      (∀ i, i ∈ T.lookAheads b p ↔
        CanStart g.rhss [b] i ∨ (CanVanish g.rhss [b] ∧ CanFollow g.rhss g.root p i)) := by
    intro p hp a b d loop hprod
    have ha : [a] ∈ g.rhss p := by
      show [a] ∈ (g.prod p).rhss
      rw [hprod]; simp [Prod.rhss]
    have hb : [b] ∈ g.rhss p := by
      show [b] ∈ (g.prod p).rhss
      rw [hprod]; simp [Prod.rhss]
    exact ⟨C47_lookAheads_exact g wf T hT p hp a ha, C47_lookAheads_exact g wf T hT p hp b hb⟩
  constructor
  · intro hc p hp a b d loop hprod
    obtain ⟨ea, eb⟩ := ex p hp a b d loop hprod
    obtain ⟨h1, h2⟩ := check_disjoint' hc hp (lahs_eq (T := T) hprod)
    refine ⟨?_, fun i j hi hj => h1 i j ((ea i).mpr hi) ((eb j).mpr hj)⟩
    cases hla : T.lookAheads a p with
    | cons i l => exact ⟨i, .inl ((ea i).mp (by rw [hla]; simp))⟩
    | nil =>
      cases hlb : T.lookAheads b p with
      | cons i l => exact ⟨i, .inr ((eb i).mp (by rw [hlb]; simp))⟩
      | nil => exact absurd ⟨hla, hlb⟩ h2
  · intro h
    simp only [Tab.check, List.all_eq_true]
    intro p hp
    unfold Tab.checkOne
    cases hprod : g.prod p with
    | lookAhead a b d loop =>
      obtain ⟨ea, eb⟩ := ex p hp a b d loop hprod
      obtain ⟨⟨i, hi⟩, h2⟩ := h p hp a b d loop hprod
      rw [lahs_eq (T := T) hprod]
      dsimp only
      rw [if_neg]
      · have : ((T.lookAheads a p).any fun x => (T.lookAheads b p).any fun y => dump x == dump y) ≠ true := by
          intro hany
          rw [List.any_eq_true] at hany
          obtain ⟨x, hx, hany⟩ := hany
          rw [List.any_eq_true] at hany
          obtain ⟨y, hy, hxy⟩ := hany
          exact h2 x y ((ea x).mp hx) ((eb y).mp hy) (by simpa using hxy)
        simp only [Bool.not_eq_true', Bool.eq_false_iff]
        exact this
      · rintro ⟨h3, h4⟩
        rcases hi with hi | hi
        · have := (ea i).mpr hi
          rw [h3] at this
          cases this
        · have := (eb i).mpr hi
          rw [h4] at this
          cases this
    | _ => simp [Tab.lahs, hprod]

/-! ### Programs -/

/-- A program: the grammar `main` of the unit parsing starts with, which includes
the productions of all units it refers to (grammar-builder.cc 318-375), and for
each production the grammar `own` of the unit that declares it.  Every unit's
parser is generated from that unit's own grammar (parser-builder.cc 1040-1100:
a `production::Unit` turns into a call of the unit's own parse function), so the
look-ahead sets in effect are those of `own`. -/
structure Prog where
  main : Gram
  T : Tab
  tm : Nat → Tm
  own : Nat → Gram
  ownT : Nat → Tab

/-- The generated parsers of a program.  `inUse` collects the look-ahead tokens of
all units (codegen.cc 70-80). -/
def Prog.env (P : Prog) : Env where
  g := P.main
  tm := P.tm
  la := fun p => ((P.ownT p).lahs (P.own p) p).getD ([], [])
  inUse := fun b => P.main.nterms.any fun p =>
    let own := ((P.ownT p).lahs (P.own p) p).getD ([], [])
    let all := (P.T.lahs P.main p).getD ([], [])
    (lits P.tm own.1).contains b || (lits P.tm own.2).contains b ||
    (lits P.tm all.1).contains b || (lits P.tm all.2).contains b

/-- The program compiles: the grammars of all its units pass. -/
structure Prog.Compiles (P : Prog) (dump : Nat → Nat) : Prop where
  wf : P.main.WF
  tables : computeTables P.main = some P.T
  check : P.T.check P.main dump = true
  ownWF : ∀ p ∈ P.main.nterms, (P.own p).WF
  ownProd : ∀ p ∈ P.main.nterms, (P.own p).prod = P.main.prod
  ownMem : ∀ p ∈ P.main.nterms, p ∈ (P.own p).nterms
  ownRoot : ∀ p ∈ P.main.nterms, (P.own p).root ∈ P.main.nterms
  ownTables : ∀ p ∈ P.main.nterms, computeTables (P.own p) = some (P.ownT p)
  ownCheck : ∀ p ∈ P.main.nterms, (P.ownT p).check (P.own p) dump = true

/-- The part of the language covered, besides what `Plain` says. -/
structure Prog.Covered (P : Prog) (tail : List Byte) : Prop where
  plain : Plain P.main
  /-- look-ahead tokens are literals, none a prefix of another one -/
  prefixFree : ∀ p ∈ P.main.nterms, ∀ l1 l2, P.T.lahs P.main p = some (l1, l2) →
    PrefixFree P.tm (union l1 l2)
  /-- terminals are not empty -/
  solid : ∀ i b, TermYields (P.tm i) b → b ≠ []
  /-- loop bodies are not empty -/
  bodies : ∀ p ∈ P.main.nterms, ∀ a b d body, P.main.prod p = .lookAhead a b d (some body) →
    ¬ CanVanish P.main.rhss [body]
  /-- where a `switch` alternative can be empty, whatever may follow the switch does
  so already inside the unit that declares it -/
  inside : ∀ p ∈ P.main.nterms, ∀ a b d, P.main.prod p = .lookAhead a b d Option.none →
    (CanVanish P.main.rhss [a] ∨ CanVanish P.main.rhss [b]) →
    ∀ i, CanFollow P.main.rhss P.main.root p i → CanFollow P.main.rhss (P.own p).root p i
  /-- where a look-ahead decision may have to be taken at the end of the sentence,
  input ends there too, and an alternative that can be empty is the empty one and
  has no look-ahead symbols -/
  ends : ∀ p ∈ P.main.nterms, ∀ a b d loop, P.main.prod p = .lookAhead a b d loop →
    (∃ x, Derives P.main.rhss [Sym.n P.main.root] (x ++ [Sym.n p])) →
    tail = [] ∧ (CanVanish P.main.rhss [a] → a = Sym.eps ∧ (P.env.la p).1 = []) ∧
      (CanVanish P.main.rhss [b] → b = Sym.eps ∧ (P.env.la p).2 = [])

/-- What can follow inside a unit can follow in the whole. -/
theorem follow_lift {rhss : Nat → List (List Sym)} {root q p i : Nat}
    (hr : Reachable rhss root q) (h : CanFollow rhss q p i) : CanFollow rhss root p i := by
  obtain ⟨a, b, hab⟩ := hr
  obtain ⟨c, d, hcd⟩ := h
  refine ⟨a ++ c, d ++ b, hab.trans ?_⟩
  have := Derives.ctx a b hcd
  simpa [List.append_assoc] using this

theorem setup_of_program {P : Prog} {dump : Nat → Nat} {tail : List Byte} (hc : P.Compiles dump)
    (hv : P.Covered tail) : Setup P.env P.T dump tail := by
  have own : ∀ p ∈ P.main.nterms, ∀ a b d loop, P.main.prod p = .lookAhead a b d loop →
      P.env.la p = ((P.ownT p).lookAheads a p, (P.ownT p).lookAheads b p) := by
    intro p hp a b d loop hprod
    have hprod' : (P.own p).prod p = .lookAhead a b d loop := by rw [hc.ownProd p hp]; exact hprod
    show ((P.ownT p).lahs (P.own p) p).getD ([], []) = _
    rw [lahs_eq (T := P.ownT p) hprod']
    rfl
  have rh : ∀ p ∈ P.main.nterms, (P.own p).rhss = P.main.rhss := by
    intro p hp
    funext q
    show ((P.own p).prod q).rhss = (P.main.prod q).rhss
    rw [hc.ownProd p hp]
  have exo : ∀ p ∈ P.main.nterms, ∀ s, [s] ∈ P.main.rhss p → ∀ i, i ∈ (P.ownT p).lookAheads s p ↔
      CanStart P.main.rhss [s] i ∨
        (CanVanish P.main.rhss [s] ∧ CanFollow P.main.rhss (P.own p).root p i) := by
    intro p hp s hs i
    have := C47_lookAheads_exact (P.own p) (hc.ownWF p hp) (P.ownT p) (hc.ownTables p hp) p
      (hc.ownMem p hp) s (by rw [rh p hp]; exact hs) i
    rw [rh p hp] at this
    exact this
  have exm : ∀ p ∈ P.main.nterms, ∀ s, [s] ∈ P.main.rhss p → ∀ i, i ∈ P.T.lookAheads s p ↔
      CanStart P.main.rhss [s] i ∨
        (CanVanish P.main.rhss [s] ∧ CanFollow P.main.rhss P.main.root p i) :=
    fun p hp s hs i => C47_lookAheads_exact P.main hc.wf P.T hc.tables p hp s hs i
  have lift : ∀ p ∈ P.main.nterms, ∀ s, [s] ∈ P.main.rhss p → ∀ i,
      i ∈ (P.ownT p).lookAheads s p → i ∈ P.T.lookAheads s p := by
    intro p hp s hs i hi
    rcases (exo p hp s hs i).mp hi with h | ⟨h1, h2⟩
    · exact (exm p hp s hs i).mpr (.inl h)
    · exact (exm p hp s hs i).mpr
        (.inr ⟨h1, follow_lift (hc.wf.reach _ (hc.ownRoot p hp)) h2⟩)
  have mems : ∀ p a b d loop, P.main.prod p = .lookAhead a b d loop →
      [a] ∈ P.main.rhss p ∧ [b] ∈ P.main.rhss p := by
    intro p a b d loop hprod
    constructor
    · show [a] ∈ (P.main.prod p).rhss
      rw [hprod]; simp [Prod.rhss]
    · show [b] ∈ (P.main.prod p).rhss
      rw [hprod]; simp [Prod.rhss]
  exact
    { wf := hc.wf
      plain := hv.plain
      tables := hc.tables
      check := hc.check
      prefixFree := hv.prefixFree
      solid := hv.solid
      bodies := hv.bodies
      ends := hv.ends
      sub := by
        intro p hp a b d loop hprod
        obtain ⟨ha, hb⟩ := mems p a b d loop hprod
        have hprod' : (P.own p).prod p = .lookAhead a b d loop := by
          rw [hc.ownProd p hp]; exact hprod
        rw [own p hp a b d loop hprod]
        refine ⟨lift p hp a ha, lift p hp b hb, ?_, ?_⟩
        · exact lookAheads_nodup (tables_good (hc.ownWF p hp) (hc.ownTables p hp)).1 a p
        · exact (check_disjoint' (hc.ownCheck p hp) (hc.ownMem p hp)
            (lahs_eq (T := P.ownT p) hprod')).2
      starts := by
        intro p hp a b d loop hprod
        obtain ⟨ha, hb⟩ := mems p a b d loop hprod
        rw [own p hp a b d loop hprod]
        exact ⟨fun i h => (exo p hp a ha i).mpr (.inl h), fun i h => (exo p hp b hb i).mpr (.inl h)⟩
      follows := by
        intro p hp a b d hprod i hf
        obtain ⟨ha, hb⟩ := mems p a b d Option.none hprod
        rw [own p hp a b d Option.none hprod]
        exact ⟨fun h => (exo p hp a ha i).mpr (.inr ⟨h, hv.inside p hp a b d hprod (.inl h) i hf⟩),
          fun h => (exo p hp b hb i).mpr (.inr ⟨h, hv.inside p hp a b d hprod (.inr h) i hf⟩)⟩
      inUse := by
        intro p hp b hb
        show (P.main.nterms.any _) = true
        rw [List.any_eq_true]
        refine ⟨p, hp, ?_⟩
        have hb' : b ∈ lits P.tm (((P.ownT p).lahs (P.own p) p).getD ([], [])).1 ∨
            b ∈ lits P.tm (((P.ownT p).lahs (P.own p) p).getD ([], [])).2 := hb
        simp only [Bool.or_eq_true, List.contains_iff_mem]
        rcases hb' with h | h
        · exact .inl (.inl (.inl h))
        · exact .inl (.inl (.inr h)) }

/-- No user expression decides how parsing goes on. -/
structure Fixed (g : Gram) : Prop where
  noCounter : ∀ p, ∀ s, g.prod p ≠ .counter s
  noForEach : ∀ p, ∀ s, g.prod p ≠ .forEach s
  noIf : ∀ p, ∀ ss els, g.prod p ≠ .block true ss els
  noSwitch : ∀ p, ∀ cs d, g.prod p ≠ .switch cs d

theorem fixed_step {e : Env} (hf : Fixed e.g) {c c' : Cfg} (h : mstep e c = some c') :
    c'.ds = c.ds := by
  obtain ⟨stack, st, ds⟩ := c
  cases stack with
  | nil => simp [mstep] at h
  | cons x k =>
    cases x with
    | sym s =>
      cases s with
      | eps =>
        simp only [mstep] at h
        cases h; rfl
      | t i =>
        simp only [mstep] at h
        split at h
        · cases h
        · cases h; rfl
      | n p =>
        simp only [mstep, stepNt] at h
        split at h
        · cases h; rfl
        · rename_i cond ss els hprod
          cases cond with
          | true => exact absurd hprod (hf.noIf p ss els)
          | false =>
            simp at h
            rw [← h]
        · cases h; rfl
        · rename_i s hprod
          exact absurd hprod (hf.noCounter p s)
        · rename_i s hprod
          exact absurd hprod (hf.noForEach p s)
        · cases h; rfl
        · split at h
          · cases h
          · split at h
            · split at h
              · cases h; rfl
              · cases h; rfl
              · cases h
            · split at h
              · cases h; rfl
              · cases h; rfl
              · cases h; rfl
              · cases h
        · rename_i cs d hprod
          exact absurd hprod (hf.noSwitch p cs d)
    | times chk s m =>
      cases m with
      | zero =>
        simp only [mstep] at h
        cases h; rfl
      | succ m =>
        cases chk with
        | true => simp only [mstep] at h; cases h; rfl
        | false => simp only [mstep] at h; cases h; rfl
    | finish q =>
      simp only [mstep] at h
      split at h
      · cases h
      · cases h; rfl

theorem fixed_reaches {e : Env} (hf : Fixed e.g) {c c' : Cfg} (h : Reaches e c c') :
    c'.ds = c.ds := by
  induction h with
  | refl _ => rfl
  | head hs _ ih => rw [ih, fixed_step hf hs]

/-- **C48** The whole story for a program that compiles, whose look-ahead tokens
are not prefixes of each other and where no user expression decides how to
parse: the parser accepts the input up to `tail` if and only if the input is a
sentence of the grammar followed by `tail`. -/
theorem C48_language_exact (P : Prog) (dump : Nat → Nat) (tail : List Byte)
    (hc : P.Compiles dump) (hv : P.Covered tail) (hf : Fixed P.main) (input : List Byte) :
    Accepts P.env input tail [] ↔
      ∃ w bs, Derives P.main.rhss [Sym.n P.main.root] (w.map Sym.t) ∧ Yields P.tm w bs ∧
        input = bs ++ tail := by
  constructor
  · exact C48_accepted_is_sentence P.env hc.wf hv.plain input tail []
  · rintro ⟨w, bs, hd, hy, rfl⟩
    obtain ⟨ds, c, h1, h2, h3, h4⟩ := C48_sentence_is_accepted P.env P.T dump tail
      (setup_of_program hc hv) w bs hd hy
    have := fixed_reaches hf h1
    rw [h4] at this
    have hds : ds = [] := this.symm
    subst hds
    exact ⟨c, h1, h2, h3, h4⟩

/-- **C48** With conditions and `switch ( expr )` in the grammar: every sentence is
accepted for some values of the conditions and switch expressions. -/
theorem C48_language_complete (P : Prog) (dump : Nat → Nat) (tail : List Byte)
    (hc : P.Compiles dump) (hv : P.Covered tail) (input : List Byte) :
    (∃ ds, Accepts P.env input tail ds) ↔
      ∃ w bs, Derives P.main.rhss [Sym.n P.main.root] (w.map Sym.t) ∧ Yields P.tm w bs ∧
        input = bs ++ tail := by
  constructor
  · rintro ⟨ds, h⟩
    exact C48_accepted_is_sentence P.env hc.wf hv.plain input tail ds h
  · rintro ⟨w, bs, hd, hy, rfl⟩
    exact C48_sentence_is_accepted P.env P.T dump tail (setup_of_program hc hv) w bs hd hy

end Verif.Grammar
