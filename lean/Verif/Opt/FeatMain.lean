import Verif.Opt.FeatSpec

/-!
# Turning off features: the program behaves the same
-/

namespace Verif.Opt.Feat

theorem sub_iff {a b : List Nat} : sub a b = true ↔ ∀ f ∈ a, f ∈ b := by simp [sub]

theorem meets_iff {a b : List Nat} : meets a b = true ↔ ∃ f ∈ a, f ∈ b := by simp [meets]

theorem within_iff {a b : List Nat} : within a b = true ↔ a ≠ [] ∧ ∀ f ∈ a, f ∈ b := by
  simp [within, sub_iff]

theorem feats_eq (c : Ex) : feats c = flagsOf c := by
  induction c with
  | or a b iha ihb => simp only [feats, flagsOf, iha, ihb]
  | _ => rfl

theorem pure_value (V : Env) (σ : Nat → Bool) (c : Ex) (h : pure c = true) (s : St) :
    evalE V σ c s ≠ 0 ↔ ∃ f ∈ feats c, σ f = true := by
  induction c with
  | flag f => simp [evalE, feats]
  | or a b iha ihb =>
    simp only [pure, Bool.and_eq_true] at h
    have ha := iha h.1
    have hb := ihb h.2
    simp only [evalE, feats, List.mem_append]
    by_cases h1 : evalE V σ a s ≠ 0
    · rw [if_pos h1]
      obtain ⟨f, hf, ho⟩ := ha.mp h1
      exact ⟨fun _ => ⟨f, .inl hf, ho⟩, fun _ => by decide⟩
    · rw [if_neg h1]
      by_cases h2 : evalE V σ b s ≠ 0
      · rw [if_pos h2]
        obtain ⟨f, hf, ho⟩ := hb.mp h2
        exact ⟨fun _ => ⟨f, .inr hf, ho⟩, fun _ => by decide⟩
      · rw [if_neg h2]
        refine ⟨fun h => absurd rfl h, ?_⟩
        rintro ⟨f, hf | hf, ho⟩
        · exact absurd (ha.mpr ⟨f, hf, ho⟩) h1
        · exact absurd (hb.mpr ⟨f, hf, ho⟩) h2
  | _ => simp [pure] at h

theorem okE_flags (V : Env) (W : Own) (G : List (List Nat)) (c : Ex) (h : okE V W G c = true) : flagsOf c = [] := by
  induction c with
  | flag f => simp [okE] at h
  | or a b iha ihb =>
    simp only [okE, Bool.and_eq_true] at h
    simp [flagsOf, iha h.1, ihb h.2]
  | _ => rfl

theorem mem_without {fs G : List Nat} {f : Nat} : f ∈ without fs G ↔ f ∈ fs ∧ f ∉ G := by
  simp [without]

/-- All features of a condition are off. -/
def Dead (σ : Nat → Bool) (F : List Nat) : Prop := ∀ f ∈ F, σ f = false

theorem within_gone {σ : Nat → Bool} {a F : List Nat} (h : within a F = true) (hd : Dead σ F) : gone a σ := by
  rw [within_iff] at h
  exact ⟨h.1, fun f hf => hd f (h.2 f hf)⟩

section
variable (V : Env) (W : Own) (σ : Nat → Bool)

/-- Idle fields of features that are off are not set. -/
def Idle (s : St) : Prop := ∀ x, W.idle x = true → gone (V.needs x) σ → s.flds x = 0

theorem Same.refl (s : St) : Same V W σ s s := ⟨rfl, fun _ _ => rfl, fun _ _ => rfl⟩

variable {V W σ}

theorem Same.symm {s s' : St} (h : Same V W σ s s') : Same V W σ s' s :=
  ⟨h.out.symm, fun x hx => (h.vars x hx).symm, fun x hx => (h.flds x hx).symm⟩

theorem Same.trans {s s' s'' : St} (h : Same V W σ s s') (h' : Same V W σ s' s'') : Same V W σ s s'' :=
  ⟨h'.out.trans h.out, fun x hx => (h'.vars x hx).trans (h.vars x hx),
    fun x hx => (h'.flds x hx).trans (h.flds x hx)⟩

/-- Setting an idle field. -/
theorem idle_setFld {G : List (List Nat)} {x : Nat} {e : Ex} {τ : Nat → Bool} {s : St} (hI : Idle V W σ s)
    (hr : ∀ f ∈ without (V.needs x) G.flatten, σ f = true)
    (ho : (! W.idle x || e == .lit 0 || (V.needs x).any fun f => ! G.flatten.contains f) = true) :
    Idle V W σ { s with flds := fun y => if y = x then evalE V τ e s else s.flds y } := by
  intro y hy hg
  dsimp only
  split
  · rename_i h
    subst h
    simp only [hy, Bool.not_true, Bool.false_or, Bool.or_eq_true, beq_iff_eq, List.any_eq_true, Bool.not_eq_true',
      List.contains_eq_mem, decide_eq_false_iff_not] at ho
    rcases ho with rfl | ⟨f, hf, hn⟩
    · rfl
    · have := hr f (mem_without.mpr ⟨hf, hn⟩)
      rw [hg.2 f hf] at this
      cases this
  · exact hI y hy hg

/-- A call and the idle fields. -/
theorem idle_call {G : List (List Nat)} {k : Nat} {v : Int} {s : St} (hI : Idle V W σ s)
    (hr : ∀ f ∈ without (V.req k) G.flatten, σ f = true)
    (ho : ((V.uses k).all fun x => ! W.idle x ||
      (V.needs x).any fun f => (V.req k).contains f && ! G.flatten.contains f) = true) :
    Idle V W σ (runCall V k v s) := by
  intro y hy hg
  simp only [runCall]
  split
  · rename_i h
    simp only [List.contains_eq_mem, decide_eq_true_eq] at h
    have := List.all_eq_true.mp ho y h
    simp only [hy, Bool.not_true, Bool.false_or, List.any_eq_true, Bool.and_eq_true, Bool.not_eq_true',
      List.contains_eq_mem, decide_eq_true_eq, decide_eq_false_iff_not] at this
    obtain ⟨f, hf, hq, hn⟩ := this
    have := hr f (mem_without.mpr ⟨hq, hn⟩)
    rw [hg.2 f hf] at this
    cases this
  · exact hI y hy hg

/-- Code for features that are off does nothing of interest, whatever the constants are when it runs. -/
theorem silent (τ : Nat → Bool) (n : Nat) (p : Sm) (G E : List (List Nat)) (ho : okS V W G E p = true)
    (hr : ∀ f ∈ reqS V G.flatten p, σ f = true) (F : List Nat) (hF : F ∈ E) (hd : Dead σ F) (s : St)
    (hI : Idle V W σ s) :
    ∃ s1, evalS V τ n p s = some s1 ∧ Same V W σ s s1 ∧ Idle V W σ s1 := by
  induction p generalizing G E F s with
  | skip => exact ⟨s, rfl, .refl V W σ s, hI⟩
  | setVar x e =>
    simp only [okS, Bool.and_eq_true, List.all_eq_true] at ho
    refine ⟨_, rfl, ⟨rfl, ?_, fun _ _ => rfl⟩, hI⟩
    intro y hy
    dsimp only
    split
    · rename_i h
      subst h
      exact absurd (within_gone (ho.2 F (List.mem_append_left _ hF)) hd) hy
    · rfl
  | setFld x e =>
    simp only [okS, Bool.and_eq_true, List.all_eq_true] at ho
    simp only [reqS, List.mem_append] at hr
    refine ⟨_, rfl, ⟨rfl, fun _ _ => rfl, ?_⟩, idle_setFld hI (fun f hf => hr f (.inl hf)) ho.2⟩
    intro y hy
    dsimp only
    split
    · rename_i h
      subst h
      exact absurd (within_gone (ho.1.2 F (List.mem_append_left _ hF)) hd) hy
    · rfl
  | print e =>
    simp only [okS, Bool.and_eq_true, List.isEmpty_iff, List.append_eq_nil_iff] at ho
    rw [ho.2.1] at hF
    cases hF
  | call k e =>
    simp only [okS, Bool.and_eq_true] at ho
    simp only [reqS, List.mem_append] at hr
    have h1 := List.all_eq_true.mp ho.1.1.2 F (List.mem_append_left _ hF)
    simp only [Bool.and_eq_true, List.all_eq_true] at h1
    refine ⟨_, rfl, ⟨?_, fun _ _ => rfl, ?_⟩, idle_call hI (fun f hf => hr f (.inl hf)) ho.2⟩
    · simp only [runCall, h1.1, if_true]
    · intro y hy
      simp only [runCall]
      split
      · rename_i h
        simp only [List.contains_eq_mem, decide_eq_true_eq] at h
        exact absurd (within_gone (h1.2 y h) hd) hy
      · rfl
  | seq a b iha ihb =>
    simp only [okS, Bool.and_eq_true] at ho
    simp only [reqS, List.mem_append] at hr
    obtain ⟨s1, e1, h1, i1⟩ := iha G E ho.1 (fun f hf => hr f (.inl hf)) F hF hd s hI
    obtain ⟨s2, e2, h2, i2⟩ := ihb G E ho.2 (fun f hf => hr f (.inr hf)) F hF hd s1 i1
    exact ⟨s2, by simp only [evalS, e1, Option.bind_some, e2], h1.trans h2, i2⟩
  | ite c a b iha ihb =>
    simp only [okS] at ho
    simp only [reqS, List.mem_append] at hr
    split at ho
    · rename_i hp
      simp only [Bool.and_eq_true] at ho
      rw [feats_eq] at ho
      simp only [evalS]
      split
      · exact iha _ _ ho.1 (fun f hf => hr f (.inl (.inr hf))) F (List.mem_cons_of_mem _ hF) hd s hI
      · exact ihb _ _ ho.2 (fun f hf => hr f (.inr hf)) F (List.mem_cons_of_mem _ hF) hd s hI
    · simp only [Bool.and_eq_true] at ho
      rw [okE_flags V W G c ho.1.1, List.nil_append] at hr
      simp only [evalS]
      split
      · rename_i hc
        refine iha G _ ho.1.2 (fun f hf => hr f (.inl (.inr hf))) F ?_ hd s hI
        cases c with
        | fld x =>
          simp only [ifSet]
          split
          · rename_i hi
            refine List.mem_filter.mpr ⟨List.mem_append_right _ hF, ?_⟩
            cases hw : within (V.needs x) F with
            | false => rfl
            | true => exact absurd (hI x hi (within_gone hw hd)) hc
          · exact List.mem_append_right _ hF
        | _ => exact List.mem_append_right _ hF
      · exact ihb G _ ho.2 (fun f hf => hr f (.inr hf)) F (List.mem_append_right _ hF) hd s hI
  | loop c b ih =>
    simp only [okS, Bool.and_eq_true, List.isEmpty_iff, List.append_eq_nil_iff] at ho
    rw [ho.1.2.1] at hF
    cases hF

/-- What may be looked at in code that runs is the same. -/
theorem field_same {G : List (List Nat)} {x : Nat} (hG : ∀ F ∈ G, ¬ Dead σ F) {fs : List Nat}
    (hm : ∃ f ∈ V.needs x, f ∈ fs) (hr : ∀ f ∈ without fs G.flatten, σ f = true)
    (ho : ∀ F ∈ G, (! meets (V.needs x) F || sub F (V.needs x)) = true) : ¬ gone (V.needs x) σ := by
  intro hg
  obtain ⟨f, hf, hfs⟩ := hm
  have hin : f ∈ G.flatten := by
    apply Classical.byContradiction
    intro hn
    have := hr f (mem_without.mpr ⟨hfs, hn⟩)
    rw [hg.2 f hf] at this
    cases this
  obtain ⟨F, hF, hfF⟩ := List.mem_flatten.mp hin
  have := ho F hF
  rw [meets_iff.mpr ⟨f, hf, hfF⟩] at this
  simp only [Bool.not_true, Bool.false_or] at this
  exact hG F hF fun g hgF => hg.2 g (sub_iff.mp this g hgF)

/-- Expressions in code that runs. -/
theorem exprSame {τ : Nat → Bool} (hle : ∀ f, σ f = true → τ f = true) (e : Ex) (G : List (List Nat))
    (ho : okE V W G e = true) (hr : ∀ f ∈ reqE V G.flatten e, σ f = true) (hG : ∀ F ∈ G, ¬ Dead σ F)
    (hin : ∀ F ∈ inner e, ¬ Dead σ F) {s s' : St} (h : Same V W σ s s') (hI : Idle V W σ s) (hI' : Idle V W σ s') :
    evalE V σ e s' = evalE V τ e s := by
  induction e generalizing G with
  | lit v => rfl
  | var x =>
    simp only [okE, Bool.or_eq_true, List.isEmpty_iff, List.any_eq_true] at ho
    refine h.vars x fun hg => ?_
    rcases ho with h0 | ⟨F, hF, hs⟩
    · exact hg.1 h0
    · exact hG F hF fun f hf => hg.2 f (sub_iff.mp hs f hf)
  | fld x =>
    simp only [okE, Bool.or_eq_true] at ho
    simp only [evalE]
    by_cases hg : gone (V.needs x) σ
    · rcases ho with hi | ha
      · rw [hI x hi hg, hI' x hi hg]
      · obtain ⟨f, hf⟩ := List.exists_mem_of_ne_nil _ hg.1
        exact absurd hg (field_same hG ⟨f, hf, hf⟩ hr (List.all_eq_true.mp ha))
    · exact h.flds x hg
  | flag f => simp [okE] at ho
  | or a b iha ihb =>
    simp only [okE, Bool.and_eq_true] at ho
    simp only [reqE, List.mem_append] at hr
    simp only [inner, List.mem_append] at hin
    simp only [evalE, iha G ho.1 (fun f hf => hr f (.inl hf)) hG (fun F hF => hin F (.inl hF)),
      ihb G ho.2 (fun f hf => hr f (.inr hf)) hG (fun F hF => hin F (.inr hF))]
  | op k a b iha ihb =>
    simp only [okE, Bool.and_eq_true] at ho
    simp only [reqE, List.mem_append] at hr
    simp only [inner, List.mem_append] at hin
    simp only [evalE, iha G ho.1 (fun f hf => hr f (.inl hf)) hG (fun F hF => hin F (.inl hF)),
      ihb G ho.2 (fun f hf => hr f (.inr hf)) hG (fun F hF => hin F (.inr hF))]
  | tern c a b ihc iha ihb =>
    simp only [okE] at ho
    simp only [reqE, List.mem_append] at hr
    simp only [inner, List.mem_append] at hin
    split at ho
    · rename_i hp
      simp only [Bool.and_eq_true] at ho
      have hl : ¬ Dead σ (feats c) := hin _ (.inl (.inl (by rw [if_pos hp]; exact List.mem_cons_self)))
      have hon : ∃ f ∈ feats c, σ f = true := by
        apply Classical.byContradiction
        intro hn
        refine hl fun f hf => ?_
        cases hs : σ f with
        | false => rfl
        | true => exact absurd ⟨f, hf, hs⟩ hn
      have h1 := (pure_value V σ c hp s').mpr hon
      obtain ⟨f, hf, hs⟩ := hon
      have h2 := (pure_value V τ c hp s).mpr ⟨f, hf, hle f hs⟩
      simp only [evalE, if_pos h1, if_pos h2]
      rw [feats_eq] at ho hl
      refine iha _ ho.1 (fun f hf => hr f (.inl (.inr hf))) ?_ (fun F hF => hin F (.inl (.inr hF)))
      intro F hF
      rcases List.mem_cons.mp hF with rfl | hF
      · exact hl
      · exact hG F hF
    · rename_i hp
      simp only [Bool.and_eq_true] at ho
      rw [okE_flags V W G c ho.1.1, List.nil_append] at hr
      simp only [if_neg hp] at hin
      simp only [evalE, ihc G ho.1.1 (fun f hf => hr f (.inl (.inl hf))) hG (fun F hF => hin F (.inl (.inl hF))),
        iha G ho.1.2 (fun f hf => hr f (.inl (.inr hf))) hG (fun F hF => hin F (.inl (.inr hF))),
        ihb G ho.2 (fun f hf => hr f (.inr hf)) hG (fun F hF => hin F (.inr hF))]

/-- Both runs go on, or both end in states that are the same and have no idle field set. -/
def End (V : Env) (W : Own) (σ : Nat → Bool) : Option St → Option St → Prop
  | some s, some s' => Same V W σ s s' ∧ Idle V W σ s ∧ Idle V W σ s'
  | none, none => True
  | _, _ => False

theorem End.bind {r r' : Option St} {k k' : St → Option St} (h : End V W σ r r')
    (hk : ∀ s s', Same V W σ s s' → Idle V W σ s → Idle V W σ s' → End V W σ (k s) (k' s')) :
    End V W σ (r.bind k) (r'.bind k') := by
  cases r with
  | none =>
    cases r' with
    | none => trivial
    | some s' => exact h.elim
  | some s =>
    cases r' with
    | none => exact h.elim
    | some s' => exact hk s s' h.1 h.2.1 h.2.2

/-- Some condition inside is off, or none is. -/
theorem dead_or (L : List (List Nat)) : (∃ F ∈ L, Dead σ F) ∨ ∀ F ∈ L, ¬ Dead σ F := by
  by_cases h : ∃ F ∈ L, Dead σ F
  · exact .inl h
  · exact .inr fun F hF hd => h ⟨F, hF, hd⟩

/-- Two runs of code that does nothing of interest. -/
theorem silent_both (τ : Nat → Bool) (n : Nat) (p q : Sm) {s s' : St} (h : Same V W σ s s')
    (hp : ∃ s1, evalS V τ n p s = some s1 ∧ Same V W σ s s1 ∧ Idle V W σ s1)
    (hq : ∃ s1, evalS V σ n q s' = some s1 ∧ Same V W σ s' s1 ∧ Idle V W σ s1) :
    End V W σ (evalS V τ n p s) (evalS V σ n q s') := by
  obtain ⟨s1, e1, h1, i1⟩ := hp
  obtain ⟨s2, e2, h2, i2⟩ := hq
  rw [e1, e2]
  exact ⟨h1.symm.trans (h.trans h2), i1, i2⟩

/-- Code that runs. -/
theorem sync {τ : Nat → Bool} (hle : ∀ f, σ f = true → τ f = true) (n : Nat) (p : Sm) (G E : List (List Nat))
    (ho : okS V W G E p = true) (hr : ∀ f ∈ reqS V G.flatten p, σ f = true) (hG : ∀ F ∈ G, ¬ Dead σ F)
    (s s' : St) (h : Same V W σ s s') (hI : Idle V W σ s) (hI' : Idle V W σ s') :
    End V W σ (evalS V τ n p s) (evalS V σ n p s') := by
  induction p generalizing G E s s' with
  | skip => exact ⟨h, hI, hI'⟩
  | setVar x e =>
    simp only [okS, Bool.and_eq_true] at ho
    refine ⟨⟨h.out, ?_, h.flds⟩, hI, hI'⟩
    intro y hy
    dsimp only
    split
    · rename_i hyx
      subst hyx
      refine exprSame hle e G ho.1 hr hG (fun F hF hd => hy ?_) h hI hI'
      exact within_gone (List.all_eq_true.mp ho.2 F (List.mem_append_right _ hF)) hd
    · exact h.vars y hy
  | setFld x e =>
    simp only [okS, Bool.and_eq_true] at ho
    simp only [reqS, List.mem_append] at hr
    have hx := fun f hf => hr f (.inl hf)
    refine ⟨⟨h.out, h.vars, ?_⟩, idle_setFld hI hx ho.2, idle_setFld hI' hx ho.2⟩
    intro y hy
    dsimp only
    split
    · rename_i hyx
      subst hyx
      refine exprSame hle e G ho.1.1 (fun f hf => hr f (.inr hf)) hG (fun F hF hd => hy ?_) h hI hI'
      exact within_gone (List.all_eq_true.mp ho.1.2 F (List.mem_append_right _ hF)) hd
    · exact h.flds y hy
  | print e =>
    simp only [okS, Bool.and_eq_true, List.isEmpty_iff, List.append_eq_nil_iff] at ho
    refine ⟨⟨?_, h.vars, h.flds⟩, hI, hI'⟩
    dsimp only
    rw [h.out, exprSame hle e G ho.1 hr hG (fun F hF => by rw [ho.2.2] at hF; cases hF) h hI hI']
  | call k e =>
    simp only [okS, Bool.and_eq_true] at ho
    simp only [reqS, List.mem_append] at hr
    have hx := fun f hf => hr f (.inl hf)
    refine ⟨?_, idle_call hI hx ho.2, idle_call hI' hx ho.2⟩
    have hm : (V.uses k).map s'.flds = (V.uses k).map s.flds := by
      apply List.map_congr_left
      intro x hxu
      refine h.flds x fun hg => ?_
      have := List.all_eq_true.mp ho.1.2 x hxu
      simp only [Bool.or_eq_true, List.isEmpty_iff, Bool.and_eq_true] at this
      rcases this with h0 | ⟨h1, h2⟩
      · exact hg.1 h0
      · exact field_same hG (meets_iff.mp h1) hx (List.all_eq_true.mp h2) hg
    rcases dead_or (σ := σ) (inner e) with ⟨F, hF, hd⟩ | hlive
    · have hq := List.all_eq_true.mp ho.1.1.2 F (List.mem_append_right _ hF)
      simp only [Bool.and_eq_true, List.all_eq_true] at hq
      refine ⟨by simp only [runCall, hq.1, if_true]; exact h.out, h.vars, ?_⟩
      intro y hy
      simp only [runCall]
      split
      · rename_i hu
        simp only [List.contains_eq_mem, decide_eq_true_eq] at hu
        exact absurd (within_gone (hq.2 y hu) hd) hy
      · exact h.flds y hy
    · have he := exprSame hle e G ho.1.1.1 (fun f hf => hr f (.inr hf)) hG hlive h hI hI'
      refine ⟨?_, h.vars, ?_⟩
      · simp only [runCall, hm, he, h.out]
      · intro y hy
        simp only [runCall, hm, he, h.out]
        split
        · rfl
        · exact h.flds y hy
  | seq a b iha ihb =>
    simp only [okS, Bool.and_eq_true] at ho
    simp only [reqS, List.mem_append] at hr
    simp only [evalS]
    exact (iha G E ho.1 (fun f hf => hr f (.inl hf)) hG s s' h hI hI').bind fun s s' h hI hI' =>
      ihb G E ho.2 (fun f hf => hr f (.inr hf)) hG s s' h hI hI'
  | ite c a b iha ihb =>
    simp only [okS] at ho
    simp only [reqS, List.mem_append] at hr
    split at ho
    · rename_i hp
      simp only [Bool.and_eq_true] at ho
      rw [feats_eq] at ho
      by_cases hd : Dead σ (flagsOf c)
      · have sa := fun (ρ : Nat → Bool) t (ht : Idle V W σ t) => silent ρ n a _ _ ho.1
          (fun f hf => hr f (.inl (.inr hf))) _ List.mem_cons_self hd t ht
        have sb := fun (ρ : Nat → Bool) t (ht : Idle V W σ t) => silent ρ n b _ _ ho.2
          (fun f hf => hr f (.inr hf)) _ List.mem_cons_self hd t ht
        simp only [evalS]
        split <;> split <;> apply silent_both τ n _ _ h <;> first | exact sa _ _ hI | exact sb _ _ hI | exact sa _ _ hI' | exact sb _ _ hI'
      · have hon : ∃ f ∈ feats c, σ f = true := by
          rw [feats_eq]
          apply Classical.byContradiction
          intro hn
          refine hd fun f hf => ?_
          cases hs : σ f with
          | false => rfl
          | true => exact absurd ⟨f, hf, hs⟩ hn
        have h1 := (pure_value V σ c hp s').mpr hon
        obtain ⟨f, hf, hs⟩ := hon
        have h2 := (pure_value V τ c hp s).mpr ⟨f, hf, hle f hs⟩
        simp only [evalS, if_pos h1, if_pos h2]
        refine iha _ _ ho.1 (fun f hf => hr f (.inl (.inr hf))) ?_ s s' h hI hI'
        intro F hF
        rcases List.mem_cons.mp hF with rfl | hF
        · exact hd
        · exact hG F hF
    · simp only [Bool.and_eq_true] at ho
      rw [okE_flags V W G c ho.1.1, List.nil_append] at hr
      rcases dead_or (σ := σ) (inner c) with ⟨F, hF, hd⟩ | hlive
      · have hF' : F ∈ ifSet V W (inner c ++ E) c := by
          cases c with
          | fld x => cases hF
          | _ => exact List.mem_append_left _ hF
        have sa := fun (ρ : Nat → Bool) t (ht : Idle V W σ t) => silent ρ n a _ _ ho.1.2
          (fun f hf => hr f (.inl (.inr hf))) _ hF' hd t ht
        have sb := fun (ρ : Nat → Bool) t (ht : Idle V W σ t) => silent ρ n b _ _ ho.2
          (fun f hf => hr f (.inr hf)) _ (List.mem_append_left _ hF) hd t ht
        simp only [evalS]
        split <;> split <;> apply silent_both τ n _ _ h <;> first | exact sa _ _ hI | exact sb _ _ hI | exact sa _ _ hI' | exact sb _ _ hI'
      · have he := exprSame hle c G ho.1.1 (fun f hf => hr f (.inl (.inl hf))) hG hlive h hI hI'
        simp only [evalS, he]
        split
        · exact iha G _ ho.1.2 (fun f hf => hr f (.inl (.inr hf))) hG s s' h hI hI'
        · exact ihb G _ ho.2 (fun f hf => hr f (.inr hf)) hG s s' h hI hI'
  | loop c b ih =>
    simp only [okS, Bool.and_eq_true, List.isEmpty_iff, List.append_eq_nil_iff] at ho
    simp only [reqS, List.mem_append] at hr
    simp only [evalS]
    have key : ∀ m s s', Same V W σ s s' → Idle V W σ s → Idle V W σ s' →
        End V W σ (loopN m (fun s => evalE V τ c s) (fun s => evalS V τ n b s) s)
          (loopN m (fun s => evalE V σ c s) (fun s => evalS V σ n b s) s') := by
      intro m
      induction m with
      | zero => intro _ _ _ _ _; trivial
      | succ m ihm =>
        intro s s' h hI hI'
        have he := exprSame hle c G ho.1.1 (fun f hf => hr f (.inl hf)) hG
          (fun F hF => by rw [ho.1.2.2] at hF; cases hF) h hI hI'
        simp only [loopN, he]
        split
        · exact (ih G [] ho.2 (fun f hf => hr f (.inr hf)) hG s s' h hI hI').bind fun s s' h hI hI' => ihm s s' h hI hI'
        · exact ⟨h, hI, hI'⟩
    exact key n s s' h hI hI'

end

/-- **Turning off features that are not needed changes nothing of interest**: the same output, and the same values of
all variables and fields but those that are only for features that are off; or both runs go on. -/
theorem pass_keeps_partial (V : Env) (W : Own) (p : Sm) (ho : okS V W [] [] p = true) (σ : Nat → Bool)
    (hσ : ∀ f, required V p f = true → σ f = true) (n : Nat) (s : St) (hs : ∀ x, W.idle x = true → s.flds x = 0) :
    SameEnd V W (pass V p σ) (evalS V σ n p s) (evalS V (pass V p σ) n p s) := by
  have hI : Idle V W (pass V p σ) s := fun x hx _ => hs x hx
  have hle : ∀ f, pass V p σ f = true → σ f = true := by
    intro f hf
    unfold pass at hf
    split at hf
    · cases hf
    · exact hf
  have hr : ∀ f ∈ reqS V [] p, pass V p σ f = true := by
    intro f hf
    have hq : required V p f = true := by simp [required, hf]
    unfold pass
    rw [hq, hσ f hq]
    rfl
  have key := sync hle n p [] [] ho hr (fun F hF => by cases hF) s s (.refl V W _ s) hI hI
  generalize evalS V σ n p s = r at key ⊢
  generalize evalS V (pass V p σ) n p s = r' at key ⊢
  cases r with
  | none =>
    cases r' with
    | none => trivial
    | some s' => exact key.elim
  | some s =>
    cases r' with
    | none => exact key.elim
    | some s' => exact key.1

end Verif.Opt.Feat
