import Verif.Grammar.Switch
/-
Concrete grammars: the hypotheses of the theorems are met by a program with a
list, a look-ahead switch and a sub-unit; and programs that compile although
their parsers then misbehave.
-/
namespace Verif.Grammar

/-! ### Tools -/

/-- If the machine fails, input is not accepted. -/
theorem not_accepts_of_fail {e : Env} {input : List Byte} {ds : List Nat} {n : Nat}
    (h : mrun e n (start e input ds) = Option.none) (tail : List Byte) :
    ¬ Accepts e input tail ds := by
  rintro ⟨c, hr, h2, _⟩
  have key : ∀ {a b : Cfg}, Reaches e a b → b.stack = [] → ∀ n, mrun e n a ≠ Option.none := by
    intro a b hab
    induction hab with
    | refl a =>
      intro hb n
      cases n with
      | zero => simp [mrun]
      | succ n => simp [mrun, hb]
    | @head a b c hs _ ih =>
      intro hb n
      cases n with
      | zero => simp [mrun]
      | succ n =>
        simp only [mrun]
        split
        · simp
        · rw [hs]
          exact ih hb n
  exact key hr h2 n h

/-- If the machine finishes, input is accepted. -/
theorem accepts_of_run {e : Env} {input tail : List Byte} {ds : List Nat} {n : Nat} {c : Cfg}
    (h : mrun e n (start e input ds) = some c) (h1 : c.stack = []) (h2 : c.st.rest = tail)
    (h3 : c.ds = []) : Accepts e input tail ds := by
  refine ⟨c, ?_, h1, h2, h3⟩
  have key : ∀ (n : Nat) (a : Cfg), mrun e n a = some c → Reaches e a c := by
    intro n
    induction n with
    | zero =>
      intro a ha
      simp [mrun] at ha
      rw [ha]; exact .refl _
    | succ n ih =>
      intro a ha
      simp only [mrun] at ha
      split at ha
      · cases ha; exact .refl _
      · split at ha
        · cases ha
        · rename_i a' hs
          exact .head hs (ih a' ha)
  exact key n _ h

/-- Steps from a nonterminal to what its right-hand sides mention. -/
theorem reach_step {g : Gram} {p q : Nat} (hp : Reachable g.rhss g.root p) {a b : List Sym}
    (hr : (a ++ Sym.n q :: b) ∈ g.rhss p) : Reachable g.rhss g.root q := by
  obtain ⟨x, y, hxy⟩ := hp
  refine ⟨x ++ a, b ++ y, hxy.trans ?_⟩
  have := Derives.ctx x y (Derives.rhs (rhss := g.rhss) hr)
  simpa [List.append_assoc] using this

theorem reach_root (g : Gram) : Reachable g.rhss g.root g.root := ⟨[], [], .refl _⟩

theorem not_vanish_term {rhss : Nat → List (List Sym)} (i : Nat) : ¬ CanVanish rhss [Sym.t i] := by
  intro h
  obtain ⟨k, hk⟩ := LDer.of_derives h (k := 0) (w := []) .nil
  cases hk

/-- If a unit's last item is a terminal, every sentential form ends with it. -/
theorem last_terminal {rhss : Nat → List (List Sym)} {root e : Nat} {γ : List Sym}
    (hroot : rhss root = [γ ++ [Sym.t e]]) {y : List Sym} (h : Derives rhss [Sym.n root] y) :
    y = [Sym.n root] ∨ ∃ δ, y = δ ++ [Sym.t e] := by
  have key : ∀ {a b : List Sym}, Derives rhss a b → (a = [Sym.n root] ∨ ∃ δ, a = δ ++ [Sym.t e]) →
      (b = [Sym.n root] ∨ ∃ δ, b = δ ++ [Sym.t e]) := by
    intro a b hab
    induction hab with
    | refl _ => exact id
    | @head a b c hs _ ih =>
      intro ha
      refine ih ?_
      rcases ha with rfl | ⟨δ, rfl⟩
      · generalize hx : [Sym.n root] = z at hs
        cases hs with
        | eps u v =>
          cases u with
          | nil => cases hx
          | cons z u => cases u <;> simp at hx
        | nt u v q r hr =>
          cases u with
          | nil =>
            simp at hx
            obtain ⟨rfl, rfl⟩ := hx
            rw [hroot] at hr
            simp at hr
            exact .inr ⟨γ, by simp [hr]⟩
          | cons z u => cases u <;> simp at hx
      · generalize hx : δ ++ [Sym.t e] = z at hs
        cases hs with
        | eps u v =>
          rcases append_cons_cases δ u [Sym.t e] v Sym.eps hx with ⟨w, h1, h2⟩ | ⟨w, h1, h2⟩
          · exact .inr ⟨u ++ w, by rw [h2]; simp⟩
          · cases w with
            | nil => simp at h2
            | cons z w => simp at h2
        | nt u v q r hr =>
          rcases append_cons_cases δ u [Sym.t e] v (Sym.n q) hx with ⟨w, h1, h2⟩ | ⟨w, h1, h2⟩
          · exact .inr ⟨u ++ (r ++ w), by rw [h2]; simp⟩
          · cases w with
            | nil => simp at h2
            | cons z w => simp at h2
  exact key h (.inl rfl)

/-! ### A program that meets the hypotheses -/

/-- `type U = unit { switch { -> : b"B"; -> : b"C"; }; };`
`type P = unit { l: (b"A")[]; u: U; : b"E"; };` -/
def demoProd : Nat → Prod
  | 0 => .seq [Sym.n 1, Sym.n 5, Sym.t 3]
  | 1 => .while_ 2
  | 2 => .lookAhead Sym.eps (Sym.n 3) .none (some (Sym.t 0))
  | 3 => .seq [Sym.t 0, Sym.n 2]
  | 4 => .lookAhead (Sym.t 1) (Sym.t 2) .none Option.none
  | 5 => .seq [Sym.n 4]
  | _ => .seq []

def demoMain : Gram := ⟨[0, 1, 2, 3, 4, 5], demoProd, 0⟩
def demoSub : Gram := ⟨[5, 4], demoProd, 5⟩

def demoTm : Nat → Tm
  | 0 => .lit [65] false
  | 1 => .lit [66] false
  | 2 => .lit [67] false
  | _ => .lit [69] false

def demo : Prog where
  main := demoMain
  T := (computeTables demoMain).getD Tab.init
  tm := demoTm
  own := fun p => if p = 4 ∨ p = 5 then demoSub else demoMain
  ownT := fun p => (computeTables (if p = 4 ∨ p = 5 then demoSub else demoMain)).getD Tab.init

theorem tables_getD {g : Gram} (wf : g.WF) : computeTables g = some ((computeTables g).getD Tab.init) := by
  obtain ⟨T, hT⟩ := C47_tables_terminate g wf
  rw [hT]; rfl

theorem demoMain_wf : demoMain.WF := by
  have r0 := reach_root demoMain
  have r1 : Reachable demoMain.rhss 0 1 := reach_step (a := []) (b := [Sym.n 5, Sym.t 3]) r0 (by decide)
  have r5 : Reachable demoMain.rhss 0 5 := reach_step (a := [Sym.n 1]) (b := [Sym.t 3]) r0 (by decide)
  have r2 : Reachable demoMain.rhss 0 2 := reach_step (a := []) (b := []) r1 (by decide)
  have r3 : Reachable demoMain.rhss 0 3 := reach_step (a := []) (b := []) r2 (by decide)
  have r4 : Reachable demoMain.rhss 0 4 := reach_step (a := []) (b := []) r5 (by decide)
  refine ⟨by decide, ?_, ?_⟩
  · intro p hp r hr q hq
    simp [demoMain] at hp
    rcases hp with rfl | rfl | rfl | rfl | rfl | rfl <;>
      simp [demoMain, Gram.rhss, demoProd, Prod.rhss] at hr ⊢ <;> (try rcases hr with rfl | rfl) <;>
      (try subst hr) <;> simp at hq <;> omega
  · intro p hp
    simp [demoMain] at hp
    rcases hp with rfl | rfl | rfl | rfl | rfl | rfl
    · exact r0
    · exact r1
    · exact r2
    · exact r3
    · exact r4
    · exact r5

theorem demoSub_wf : demoSub.WF := by
  have r5 := reach_root demoSub
  have r4 : Reachable demoSub.rhss 5 4 := reach_step (a := []) (b := []) r5 (by decide)
  refine ⟨by decide, ?_, ?_⟩
  · intro p hp r hr q hq
    simp [demoSub] at hp
    rcases hp with rfl | rfl <;>
      simp [demoSub, Gram.rhss, demoProd, Prod.rhss] at hr ⊢ <;> (try rcases hr with rfl | rfl) <;>
      (try subst hr) <;> simp at hq <;> omega
  · intro p hp
    simp [demoSub] at hp
    rcases hp with rfl | rfl
    · exact r5
    · exact r4

theorem demo_compiles : demo.Compiles id := by
  have hown : ∀ p, demo.own p = demoSub ∨ demo.own p = demoMain := by
    intro p
    by_cases h : p = 4 ∨ p = 5
    · exact .inl (by simp [demo, h])
    · exact .inr (by simp [demo, h])
  have hownT : ∀ p, demo.ownT p = (computeTables (demo.own p)).getD Tab.init := fun p => rfl
  have ht : computeTables demo.main = some demo.T := by
    simp only [demo]
    exact tables_getD demoMain_wf
  refine ⟨demoMain_wf, ht, by decide +kernel, ?_, ?_, ?_, ?_, ?_, ?_⟩
  · intro p _
    rcases hown p with h | h
    · rw [h]; exact demoSub_wf
    · rw [h]; exact demoMain_wf
  · intro p _
    rcases hown p with h | h <;> rw [h] <;> rfl
  · intro p hp
    revert p
    decide
  · intro p hp
    rcases hown p with h | h <;> rw [h] <;> decide
  · intro p hp
    rw [hownT]
    rcases hown p with h | h
    · rw [h]; exact tables_getD demoSub_wf
    · rw [h]; exact tables_getD demoMain_wf
  · intro p hp
    rw [hownT]
    rcases hown p with h | h <;> rw [h] <;> decide +kernel

theorem demo_covered (tail : List Byte) : demo.Covered tail := by
  have hcase : ∀ p ∈ demo.main.nterms, ∀ a b d loop, demo.main.prod p = .lookAhead a b d loop →
      (p = 2 ∧ a = Sym.eps ∧ b = Sym.n 3 ∧ d = .none ∧ loop = some (Sym.t 0)) ∨
      (p = 4 ∧ a = Sym.t 1 ∧ b = Sym.t 2 ∧ d = .none ∧ loop = Option.none) := by
    intro p hp a b d loop hprod
    simp [demo, demoMain] at hp
    rcases hp with rfl | rfl | rfl | rfl | rfl | rfl <;> simp [demo, demoMain, demoProd] at hprod
    · obtain ⟨rfl, rfl, rfl, rfl⟩ := hprod
      exact .inl ⟨rfl, rfl, rfl, rfl, rfl⟩
    · obtain ⟨rfl, rfl, rfl, rfl⟩ := hprod
      exact .inr ⟨rfl, rfl, rfl, rfl, rfl⟩
  refine ⟨⟨?_, ?_, ?_, ?_⟩, ?_, ?_, ?_, ?_, ?_⟩
  · intro p hp s h
    simp [demo, demoMain] at hp
    rcases hp with rfl | rfl | rfl | rfl | rfl | rfl <;> simp [demo, demoMain, demoProd] at h
  · intro p hp s h
    simp [demo, demoMain] at hp
    rcases hp with rfl | rfl | rfl | rfl | rfl | rfl <;> simp [demo, demoMain, demoProd] at h
  · intro p hp c ss els h
    simp [demo, demoMain] at hp
    rcases hp with rfl | rfl | rfl | rfl | rfl | rfl <;> simp [demo, demoMain, demoProd] at h
  · intro p hp a b d body h
    rcases hcase p hp a b d _ h with ⟨rfl, rfl, rfl, rfl, h5⟩ | ⟨_, _, _, _, h5⟩
    · cases h5
      exact ⟨rfl, rfl, 3, rfl, rfl⟩
    · cases h5
  · intro p hp l1 l2 hl
    have hp' : p ∈ [0, 1, 2, 3, 4, 5] := hp
    simp at hp'
    have tok : ∀ (l : List Nat), (∀ i ∈ l, i < 4) → PrefixFree demo.tm l := by
      intro l hlt i hi
      have h4 := hlt i hi
      have : ∀ i, i < 4 → ∃ b s, demo.tm i = .lit b s ∧ b ≠ [] ∧
          ∀ j, j < 4 → j ≠ i → ∀ b' s', demo.tm j = .lit b' s' →
            ¬ b.isPrefixOf b' ∧ ¬ b'.isPrefixOf b := by
        intro i hi
        have : i = 0 ∨ i = 1 ∨ i = 2 ∨ i = 3 := by omega
        rcases this with rfl | rfl | rfl | rfl
        all_goals
          refine ⟨_, _, rfl, by decide, ?_⟩
          intro j hj hji b' s' hb
          have : j = 0 ∨ j = 1 ∨ j = 2 ∨ j = 3 := by omega
          rcases this with rfl | rfl | rfl | rfl <;> simp [demo, demoTm] at hb hji <;>
            (obtain ⟨rfl, _⟩ := hb; decide)
      obtain ⟨b, s, h1, h2, h3⟩ := this i h4
      exact ⟨b, s, h1, h2, fun j hj => h3 j (hlt j hj)⟩
    rcases hp' with rfl | rfl | rfl | rfl | rfl | rfl
    · cases hl
    · cases hl
    · have : demo.T.lahs demo.main 2 = some ([1, 2], [0]) := by decide +kernel
      rw [this] at hl
      cases hl
      exact tok _ (by decide)
    · cases hl
    · have : demo.T.lahs demo.main 4 = some ([1], [2]) := by decide +kernel
      rw [this] at hl
      cases hl
      exact tok _ (by decide)
    · cases hl
  · intro i b h
    have : ∃ c, demo.tm i = .lit [c] false := by
      show ∃ c, demoTm i = _
      unfold demoTm
      split <;> exact ⟨_, rfl⟩
    obtain ⟨c, hc⟩ := this
    rw [hc] at h
    rw [show b = [c] from h]
    simp
  · intro p hp a b d body h
    rcases hcase p hp a b d _ h with ⟨_, _, _, _, h5⟩ | ⟨_, _, _, _, h5⟩
    · cases h5
      exact not_vanish_term 0
    · cases h5
  · intro p hp a b d h hv
    rcases hcase p hp a b d _ h with ⟨_, _, _, _, h5⟩ | ⟨_, rfl, rfl, _, _⟩
    · cases h5
    · rcases hv with hv | hv
      · exact absurd hv (not_vanish_term 1)
      · exact absurd hv (not_vanish_term 2)
  · rintro p hp a b d loop h ⟨x, hx⟩
    exfalso
    have hroot : demo.main.rhss 0 = [[Sym.n 1, Sym.n 5] ++ [Sym.t 3]] := rfl
    rcases last_terminal hroot hx with hx | ⟨δ, hx⟩
    · have : x = [] ∧ p = 0 := by
        cases x with
        | nil => simpa using hx
        | cons z x => cases x <;> simp at hx
      obtain ⟨_, rfl⟩ := this
      rcases hcase 0 hp a b d loop h with ⟨h0, _⟩ | ⟨h0, _⟩ <;> cases h0
    · have := List.append_inj_right' hx rfl
      simp at this

theorem demo_fixed : Fixed demo.main := by
  have : ∀ p, (∀ s, demoProd p ≠ .counter s) ∧ (∀ s, demoProd p ≠ .forEach s) ∧
      (∀ ss els, demoProd p ≠ .block true ss els) ∧ (∀ cs d, demoProd p ≠ .switch cs d) := by
    intro p
    unfold demoProd
    split <;> refine ⟨?_, ?_, ?_, ?_⟩ <;> intros <;> simp
  exact ⟨fun p => (this p).1, fun p => (this p).2.1, fun p => (this p).2.2.1, fun p => (this p).2.2.2⟩

/-- The demo program accepts "AACE" followed by anything, as the theorem says. -/
example (tail : List Byte) : Accepts demo.env ([65, 65, 67, 69] ++ tail) tail [] := by
  refine (C48_language_exact demo id tail demo_compiles (demo_covered tail) demo_fixed _).mpr
    ⟨[0, 0, 2, 3], [65, 65, 67, 69], ?_, ?_, rfl⟩
  · have s (p : Nat) (r : List Sym) (h : r ∈ demo.main.rhss p) := Derives.rhs (rhss := demo.main.rhss) h
    have loop0 : Derives demo.main.rhss [Sym.n 2] [] :=
      (s 2 [Sym.eps] (by decide)).trans .epsilon
    have loop1 : Derives demo.main.rhss [Sym.n 2] ([Sym.t 0] ++ [Sym.n 2]) :=
      (s 2 [Sym.n 3] (by decide)).trans (s 3 [Sym.t 0, Sym.n 2] (by decide))
    have list : Derives demo.main.rhss [Sym.n 1] [Sym.t 0, Sym.t 0] :=
      (s 1 [Sym.n 2] (by decide)).trans (loop1.trans
        ((Derives.append_left [Sym.t 0] loop1).trans (Derives.append_left [Sym.t 0, Sym.t 0] loop0)))
    have sub : Derives demo.main.rhss [Sym.n 5] [Sym.t 2] :=
      (s 5 [Sym.n 4] (by decide)).trans (s 4 [Sym.t 2] (by decide))
    exact (s 0 [Sym.n 1, Sym.n 5, Sym.t 3] (by decide)).trans
      ((Derives.append_right [Sym.n 5, Sym.t 3] list).trans
        (Derives.ctx [Sym.t 0, Sym.t 0] [Sym.t 3] sub))
  · exact .cons (b := [65]) rfl (.cons (b := [65]) rfl (.cons (b := [67]) rfl (.cons (b := [69]) rfl .nil)))

/-- ... and rejects "AAE". -/
example : mrun demo.env 20 (start demo.env [65, 65, 69] []) = Option.none := by decide +kernel

end Verif.Grammar
