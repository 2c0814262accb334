import Verif.Opt.Params

/-!
# Optimizing parameters: the relations between two runs
-/

namespace Verif.Opt.Whole

variable {M : Sem}

/-- All of these places are variables of frames down to depth `d`. -/
def Low (d : Nat) (B : Loc → Prop) : Prop := ∀ l, B l → ∃ e x, l = .slot e x ∧ e ≤ d

/-- Two states are the same but for some places. -/
structure Agree (B : Loc → Prop) (s s' : St M) : Prop where
  mem : ∀ l, ¬ B l → s.mem l = s'.mem l
  w : s.w = s'.w

/-- Some places have not changed. -/
def Same (R : Loc → Prop) (s s1 : St M) : Prop := ∀ l, R l → s1.mem l = s.mem l

theorem Same.refl {R : Loc → Prop} {s : St M} : Same R s s := fun _ _ => rfl
theorem Same.trans {R : Loc → Prop} {s s1 s2 : St M} (h : Same R s s1) (h' : Same R s1 s2) : Same R s s2 :=
  fun l hl => (h' l hl).trans (h l hl)

theorem Agree.set {B : Loc → Prop} {s s' : St M} (h : Agree B s s') (l : Loc) (v : Val) : Agree B (s.set l v) (s'.set l v) :=
  ⟨fun l' hl => by
    simp only [St.set]
    by_cases he : l' = l
    · simp [he]
    · simp only [if_neg he]; exact h.mem l' hl, h.w⟩

theorem Same.set {R : Loc → Prop} {s : St M} {l : Loc} (h : ¬ R l) (v : Val) : Same R s (s.set l v) := by
  intro l' hl
  simp only [St.set]
  rw [if_neg]
  intro he
  subst he
  exact h hl

theorem Agree.back {B B' : Loc → Prop} {s s' s1 s1' : St M} {d : Nat} (h : Agree B s s') (h1 : Agree B' s1 s1')
    (hB : ∀ l, (∀ e x, l = .slot e x → e ≤ d) → B' l → B l) : Agree B (s.back d s1) (s'.back d s1') := by
  refine ⟨fun l hl => ?_, h1.w⟩
  cases l with
  | glob g => exact h1.mem _ fun hb => hl (hB _ (fun e x he => by cases he) hb)
  | slot e x =>
    simp only [St.back]
    by_cases he : d < e
    · simp only [if_pos he]; exact h.mem _ hl
    · simp only [if_neg he]
      exact h1.mem _ fun hb => hl (hB _ (fun e' x' he' => by cases he'; omega) hb)

theorem Same.back {R R' : Loc → Prop} {s s0 s1 : St M} {d : Nat} (h1 : Same R' s0 s1) (hR : ∀ l, R l → R' l)
    (h0 : ∀ l, R l → s0.mem l = s.mem l) : Same R s (s.back d s1) := by
  intro l hl
  cases l with
  | glob g => exact (h1 _ (hR _ hl)).trans (h0 _ hl)
  | slot e x =>
    simp only [St.back]
    by_cases he : d < e
    · simp only [if_pos he]
    · simp only [if_neg he]; exact (h1 _ (hR _ hl)).trans (h0 _ hl)

/-- Outcomes of expressions. -/
inductive EvR (B R : Loc → Prop) (s s' : St M) : Option (Ev M) → Option (Ev M) → Prop
  | none : EvR B R s s' none none
  | val {v s1 s1'} : Agree B s1 s1' → Same R s s1 → Same R s' s1' → EvR B R s s' (some (.val v s1)) (some (.val v s1'))
  | exn {s1 s1'} : Agree B s1 s1' → Same R s s1 → Same R s' s1' → EvR B R s s' (some (.exn s1)) (some (.exn s1'))

/-- Outcomes of statements. -/
inductive OutR (B R : Loc → Prop) (s s' : St M) : Option (Out M) → Option (Out M) → Prop
  | none : OutR B R s s' none none
  | norm {s1 s1'} : Agree B s1 s1' → Same R s s1 → Same R s' s1' → OutR B R s s' (some (.norm s1)) (some (.norm s1'))
  | brk {s1 s1'} : Agree B s1 s1' → Same R s s1 → Same R s' s1' → OutR B R s s' (some (.brk s1)) (some (.brk s1'))
  | cont {s1 s1'} : Agree B s1 s1' → Same R s s1 → Same R s' s1' → OutR B R s s' (some (.cont s1)) (some (.cont s1'))
  | ret {v s1 s1'} : Agree B s1 s1' → Same R s s1 → Same R s' s1' → OutR B R s s' (some (.ret v s1)) (some (.ret v s1'))
  | exn {s1 s1'} : Agree B s1 s1' → Same R s s1 → Same R s' s1' → OutR B R s s' (some (.exn s1)) (some (.exn s1'))

theorem EvR.mono {B R R0 : Loc → Prop} {s s' t t' : St M} {o o' : Option (Ev M)} (h : EvR B R s s' o o')
    (hR : ∀ l, R0 l → R l) (h1 : Same R0 t s) (h2 : Same R0 t' s') : EvR B R0 t t' o o' := by
  cases h with
  | none => exact .none
  | val ha h3 h4 => exact .val ha (h1.trans fun l hl => h3 l (hR l hl)) (h2.trans fun l hl => h4 l (hR l hl))
  | exn ha h3 h4 => exact .exn ha (h1.trans fun l hl => h3 l (hR l hl)) (h2.trans fun l hl => h4 l (hR l hl))

theorem OutR.mono {B R : Loc → Prop} {s s' t t' : St M} {o o' : Option (Out M)} (h : OutR B R s s' o o')
    (h1 : Same R t s) (h2 : Same R t' s') : OutR B R t t' o o' := by
  cases h with
  | none => exact .none
  | norm ha h3 h4 => exact .norm ha (h1.trans h3) (h2.trans h4)
  | brk ha h3 h4 => exact .brk ha (h1.trans h3) (h2.trans h4)
  | cont ha h3 h4 => exact .cont ha (h1.trans h3) (h2.trans h4)
  | ret ha h3 h4 => exact .ret ha (h1.trans h3) (h2.trans h4)
  | exn ha h3 h4 => exact .exn ha (h1.trans h3) (h2.trans h4)

end Verif.Opt.Whole
