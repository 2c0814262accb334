import Verif.Grammar.Witness
/-
Findings: programs that compile and whose parsers nevertheless reject input they
should accept.  Each shows that a hypothesis of the completeness theorem cannot
be dropped.
-/
namespace Verif.Grammar

/-- The tables of a grammar. -/
def tabs (g : Gram) : Tab := (computeTables g).getD Tab.init


/-! #### W1: two switch cases starting with the same literal after a list -/

/-- `unit { l: (b"A")[]; switch ( self.x ) { 0 -> p: b"B"; 1 -> q: b"B"; }; }` -/
def w1Prod : Nat → Prod
  | 0 => .seq [Sym.n 1, Sym.n 4]
  | 1 => .while_ 2
  | 2 => .lookAhead Sym.eps (Sym.n 3) .none (some (Sym.t 0))
  | 3 => .seq [Sym.t 0, Sym.n 2]
  | 4 => .switch [Sym.t 1, Sym.t 2] Option.none
  | _ => .seq []
def w1 : Gram := ⟨[0, 1, 2, 3, 4], w1Prod, 0⟩
def w1Tm : Nat → Tm
  | 0 => .lit [65] false
  | _ => .lit [66] false
/-- What `dump()` shows: terminals with the same literal look the same. -/
def w1Dump : Nat → Nat
  | 0 => 0
  | _ => 1

/-- The grammar passes the check, but no input whatsoever that has the literal next
gets past the list: the look-ahead for the list's end is "ambiguous" with itself. -/
theorem C48_finding_same_literal_twice :
    (tabs w1).check w1 w1Dump = true ∧
    ∀ tail ds, ¬ Accepts (Env.of w1 w1Tm (tabs w1)) [66] tail ds := by
  refine ⟨by decide +kernel, fun tail ds => not_accepts_of_fail (n := 4) ?_ tail⟩
  rfl

/-! #### W2: an alternative that can be empty, at the end of input -/

/-- `unit { switch { -> l: (b"A")[]; -> b: b"B"; }; }` -/
def w2Prod : Nat → Prod
  | 0 => .seq [Sym.n 1]
  | 1 => .lookAhead (Sym.n 2) (Sym.t 1) .none Option.none
  | 2 => .while_ 3
  | 3 => .lookAhead Sym.eps (Sym.n 4) .none (some (Sym.t 0))
  | 4 => .seq [Sym.t 0, Sym.n 3]
  | _ => .seq []
def w2 : Gram := ⟨[0, 1, 2, 3, 4], w2Prod, 0⟩
def w2Tm : Nat → Tm
  | 0 => .lit [65] false
  | _ => .lit [66] false

/-- The empty input is a sentence, the grammar passes the check, and the parser
rejects the empty input. -/
theorem C48_finding_empty_alternative_at_end :
    (tabs w2).check w2 id = true ∧ Derives w2.rhss [Sym.n 0] [] ∧
    (∀ tail ds, ¬ Accepts (Env.of w2 w2Tm (tabs w2)) [] tail ds) ∧
    Accepts (Env.of w2 w2Tm (tabs w2)) [65] [] [] := by
  refine ⟨by decide +kernel, ?_, fun tail ds => not_accepts_of_fail (n := 4) ?_ tail, ?_⟩
  · have s (p : Nat) (r : List Sym) (h : r ∈ w2.rhss p) := Derives.rhs (rhss := w2.rhss) h
    exact (s 0 [Sym.n 1] (by decide)).trans ((s 1 [Sym.n 2] (by decide)).trans
      ((s 2 [Sym.n 3] (by decide)).trans ((s 3 [Sym.eps] (by decide)).trans .epsilon)))
  · rfl
  · exact accepts_of_run (n := 20) (c := ⟨[], ⟨1, [], .eod, 1⟩, []⟩) rfl rfl rfl rfl

/-! #### W3: a counted list of length zero as switch alternative -/

/-- `unit { switch { -> a: (b"A")[self.n]; -> b: b"B"; }; c: b"C"; }` -/
def w3Prod : Nat → Prod
  | 0 => .seq [Sym.n 1, Sym.t 2]
  | 1 => .lookAhead (Sym.n 2) (Sym.t 1) .none Option.none
  | 2 => .counter (Sym.t 0)
  | _ => .seq []
def w3 : Gram := ⟨[0, 1, 2], w3Prod, 0⟩
def w3Tm : Nat → Tm
  | 0 => .lit [65] false
  | 1 => .lit [66] false
  | _ => .lit [67] false

/-- With a count of 2 the list is parsed as it should be, with a count of 0 the
parser rejects the input: counted lists are taken as never empty. -/
theorem C48_finding_counter_zero :
    (tabs w3).check w3 id = true ∧
    Accepts (Env.of w3 w3Tm (tabs w3)) [65, 65, 67] [] [2] ∧
    (∀ tail, ¬ Accepts (Env.of w3 w3Tm (tabs w3)) [67] tail [0]) := by
  refine ⟨by decide +kernel, ?_, fun tail => not_accepts_of_fail (n := 4) ?_ tail⟩
  · exact accepts_of_run (n := 20) (c := ⟨[], ⟨3, [], .none, 1⟩, []⟩) rfl rfl rfl rfl
  · rfl

/-! #### W4: an ambiguity the check does not see -/

/-- `unit { l: (b"A")[]; b: (b"B")[self.n]; c: b"A"; }` -/
def w4Prod : Nat → Prod
  | 0 => .seq [Sym.n 1, Sym.n 4, Sym.t 2]
  | 1 => .while_ 2
  | 2 => .lookAhead Sym.eps (Sym.n 3) .none (some (Sym.t 0))
  | 3 => .seq [Sym.t 0, Sym.n 2]
  | 4 => .counter (Sym.t 1)
  | _ => .seq []
def w4 : Gram := ⟨[0, 1, 2, 3, 4], w4Prod, 0⟩
def w4Tm : Nat → Tm
  | 0 => .lit [65] false
  | 1 => .lit [66] false
  | _ => .lit [65] false
def w4Dump : Nat → Nat
  | 0 => 0
  | 1 => 1
  | _ => 0

/-- With a count of 0 it cannot be told from one token whether the list goes on;
the check does not notice, and the parser then rejects valid input. -/
theorem C49_finding_missed_ambiguity :
    (tabs w4).check w4 w4Dump = true ∧
    (∀ tail, ¬ Accepts (Env.of w4 w4Tm (tabs w4)) [65] tail [0]) := by
  refine ⟨by decide +kernel, fun tail => not_accepts_of_fail (n := 12) ?_ tail⟩
  rfl

/-! #### W5: the same literal with and without `skip` -/

/-- `unit { switch { -> : skip b"X"; -> x: b"X"; }; }` -/
def w5Prod : Nat → Prod
  | 0 => .seq [Sym.n 1]
  | 1 => .lookAhead (Sym.t 0) (Sym.t 1) .none Option.none
  | _ => .seq []
def w5 : Gram := ⟨[0, 1], w5Prod, 0⟩
def w5Tm : Nat → Tm
  | 0 => .lit [88] true
  | _ => .lit [88] false

/-- `dump()` of a skip production differs from that of the literal (skip.h), so the
check passes; the parser then rejects the only input there is. -/
theorem C49_finding_skip_not_compared :
    (tabs w5).check w5 id = true ∧
    (∀ tail ds, ¬ Accepts (Env.of w5 w5Tm (tabs w5)) [88] tail ds) := by
  refine ⟨by decide +kernel, fun tail ds => not_accepts_of_fail (n := 4) ?_ tail⟩
  rfl

/-! #### W6: a sub-unit's look-ahead does not know what follows the sub-unit -/

/-- `type U = unit { switch { -> a: b"A"; -> l: (b"B")[]; }; };`
`type P = unit { u: U; x: b"X"; };` -/
def w6Prod : Nat → Prod
  | 0 => .seq [Sym.n 1, Sym.t 2]
  | 1 => .seq [Sym.n 2]
  | 2 => .lookAhead (Sym.t 0) (Sym.n 3) .none Option.none
  | 3 => .while_ 4
  | 4 => .lookAhead Sym.eps (Sym.n 5) .none (some (Sym.t 1))
  | 5 => .seq [Sym.t 1, Sym.n 4]
  | _ => .seq []
def w6Main : Gram := ⟨[0, 1, 2, 3, 4, 5], w6Prod, 0⟩
def w6Sub : Gram := ⟨[1, 2, 3, 4, 5], w6Prod, 1⟩
def w6Tm : Nat → Tm
  | 0 => .lit [65] false
  | 1 => .lit [66] false
  | _ => .lit [88] false
def w6 : Prog where
  main := w6Main
  T := tabs w6Main
  tm := w6Tm
  own := fun p => if p = 0 then w6Main else w6Sub
  ownT := fun p => tabs (if p = 0 then w6Main else w6Sub)

set_option maxRecDepth 20000 in
/-- Both units compile and "X" is a sentence, but the parser rejects it.  If the
sub-unit's items are written directly into the outer unit, it is accepted. -/
theorem C48_finding_subunit_follow :
    w6.T.check w6.main id = true ∧ (tabs w6Sub).check w6Sub id = true ∧
    Derives w6.main.rhss [Sym.n 0] [Sym.t 2] ∧
    (∀ tail ds, ¬ Accepts w6.env [88] tail ds) ∧
    Accepts (Env.of w6Main w6Tm (tabs w6Main)) [88] [] [] := by
  refine ⟨by decide +kernel, by decide +kernel, ?_, fun tail ds => not_accepts_of_fail (n := 5) ?_ tail, ?_⟩
  · have s (p : Nat) (r : List Sym) (h : r ∈ w6.main.rhss p) := Derives.rhs (rhss := w6.main.rhss) h
    have h1 : Derives w6.main.rhss [Sym.n 1] [] :=
      (s 1 [Sym.n 2] (by decide)).trans ((s 2 [Sym.n 3] (by decide)).trans
      ((s 3 [Sym.n 4] (by decide)).trans ((s 4 [Sym.eps] (by decide)).trans .epsilon)))
    exact (s 0 [Sym.n 1, Sym.t 2] (by decide)).trans (Derives.append_right [Sym.t 2] h1)
  · rfl
  · exact accepts_of_run (n := 20) (c := ⟨[], ⟨1, [], .none, 1⟩, []⟩) rfl rfl rfl rfl

/-! #### Prefixes -/

/-- `unit { switch { -> a: b"a"; -> b: b"ab"; }; c: b"bc"; }` -/
def w7Prod : Nat → Prod
  | 0 => .seq [Sym.n 1, Sym.t 2]
  | 1 => .lookAhead (Sym.t 0) (Sym.t 1) .none Option.none
  | _ => .seq []
def w7 : Gram := ⟨[0, 1], w7Prod, 0⟩
def w7Tm : Nat → Tm
  | 0 => .lit [97] false
  | 1 => .lit [97, 98] false
  | _ => .lit [98, 99] false

/-- The longest token wins, so "abc", which is a sentence (`a`, `bc`), is
rejected: this is why tokens must not be prefixes of each other. -/
theorem C48_prefix_tokens :
    (tabs w7).check w7 id = true ∧
    (∀ tail ds, ¬ Accepts (Env.of w7 w7Tm (tabs w7)) [97, 98, 99] tail ds) ∧
    Accepts (Env.of w7 w7Tm (tabs w7)) [97, 98, 98, 99] [] [] := by
  refine ⟨by decide +kernel, fun tail ds => not_accepts_of_fail (n := 6) ?_ tail, ?_⟩
  · rfl
  · exact accepts_of_run (n := 20) (c := ⟨[], ⟨4, [], .none, 2⟩, []⟩) rfl rfl rfl rfl

/-! #### A three-way look-ahead switch, default in the middle -/

/-- `unit { switch { -> : b"A"; * -> : b"D"; -> : b"C"; }; }` (the cases' productions
are `t 0`, `t 1`, `t 2`) -/
def w8Cases : List (Bool × Sym) := [(false, Sym.t 0), (true, Sym.t 1), (false, Sym.t 2)]
def w8Prod : Nat → Prod
  | 0 => .seq [Sym.n 2]
  | 1 => .lookAhead (Sym.t 0) (Sym.t 1) .second Option.none
  | 2 => .lookAhead (Sym.n 1) (Sym.t 2) .second Option.none
  | _ => .seq []
def w8 : Gram := ⟨[0, 2, 1], w8Prod, 0⟩
def w8Tm : Nat → Tm
  | 0 => .lit [65] false
  | 1 => .var 1
  | _ => .lit [67] false

theorem w8_has : HasSwitch w8 1 w8Cases := by
  intro q pr h
  simp [w8Cases, switchProds, switchChain] at h
  rcases h with ⟨rfl, rfl⟩ | ⟨rfl, rfl⟩
  · exact ⟨rfl, by decide⟩
  · exact ⟨rfl, by decide⟩

theorem w8_wf : w8.WF := by
  have r0 := reach_root w8
  have r2 : Reachable w8.rhss 0 2 := reach_step (a := []) (b := []) r0 (by decide)
  have r1 : Reachable w8.rhss 0 1 := reach_step (a := []) (b := []) r2 (by decide)
  refine ⟨by decide, ?_, ?_⟩
  · intro p hp r hr q hq
    simp [w8] at hp
    rcases hp with rfl | rfl | rfl <;>
      simp [w8, Gram.rhss, w8Prod, Prod.rhss] at hr ⊢ <;> (try rcases hr with rfl | rfl) <;>
      (try subst hr) <;> simp at hq <;> omega
  · intro p hp
    simp [w8] at hp
    rcases hp with rfl | rfl | rfl
    · exact r0
    · exact r2
    · exact r1

theorem start_term {rhss : Nat → List (List Sym)} {i j : Nat} (h : CanStart rhss [Sym.t i] j) : j = i := by
  obtain ⟨b, hb⟩ := h
  cases hb with
  | refl => rfl
  | head hs _ =>
    generalize hx : [Sym.t i] = z at hs
    cases hs with
    | eps u v =>
      cases u with
      | nil => cases hx
      | cons z u => cases u <;> simp at hx
    | nt u v q r hr =>
      cases u with
      | nil => simp at hx
      | cons z u => cases u <;> simp at hx

/-- The hypotheses of the switch theorems hold here, with input "D" next. -/
theorem w8_nomatch : NoMatch w8 w8Tm 1 w8Cases ⟨0, [68], .none, 0⟩ := by
  refine ⟨rfl, by simp, ?_⟩
  intro q pr _ c hc i han b s htm
  have hi : ∀ j, c.2 = Sym.t j → i = j := by
    intro j hj
    rw [hj] at han
    rcases han with h | ⟨h, _⟩
    · exact start_term h
    · exact absurd h (not_vanish_term j)
  simp [w8Cases] at hc
  rcases hc with rfl | rfl | rfl
  · rw [hi 0 rfl] at htm
    simp [w8Tm] at htm
    rw [← htm.1]; rfl
  · rw [hi 1 rfl] at htm
    simp [w8Tm] at htm
  · rw [hi 2 rfl] at htm
    simp [w8Tm] at htm
    rw [← htm.1]; rfl

/-- So, reading "D", the parser does not take the default case but the last one,
and then fails. -/
theorem C49_finding_default_in_the_middle (ds : List Nat) (k : List K) :
    Reaches (Env.of w8 w8Tm (tabs w8)) ⟨K.sym (Sym.n 2) :: k, ⟨0, [68], .none, 0⟩, ds⟩
      ⟨K.sym (Sym.t 2) :: k, ⟨0, [68], .none, 0⟩, ds⟩ ∧
    ∀ tail, ¬ Accepts (Env.of w8 w8Tm (tabs w8)) [68] tail ds := by
  refine ⟨?_, fun tail => not_accepts_of_fail (n := 4) rfl tail⟩
  exact C49_switch_default_middle_takes_last w8_wf (tables_getD w8_wf) 1 (false, Sym.t 0)
    [(true, Sym.t 1)] (false, Sym.t 2) 2 w8_has rfl ⟨(true, Sym.t 1), by simp, rfl⟩ k _ ds w8_nomatch

/-- With the default moved to the end, it is taken. -/
def w9Prod : Nat → Prod
  | 0 => .seq [Sym.n 2]
  | 1 => .lookAhead (Sym.t 0) (Sym.t 2) .none Option.none
  | 2 => .lookAhead (Sym.n 1) (Sym.t 1) .second Option.none
  | _ => .seq []
def w9 : Gram := ⟨[0, 2, 1], w9Prod, 0⟩

example : Accepts (Env.of w9 w8Tm (tabs w9)) [68] [] [] :=
  accepts_of_run (n := 20) (c := ⟨[], ⟨1, [], .none, 0⟩, []⟩) rfl rfl rfl rfl

example : HasSwitch w9 1 [(false, Sym.t 0), (false, Sym.t 2), (true, Sym.t 1)] := by
  intro q pr h
  simp [switchProds, switchChain] at h
  rcases h with ⟨rfl, rfl⟩ | ⟨rfl, rfl⟩
  · exact ⟨rfl, by decide⟩
  · exact ⟨rfl, by decide⟩

end Verif.Grammar
