import Verif.Opt.FeatMain

/-!
# Turning off features: which ones
-/

namespace Verif.Opt.Feat

/-- A feature is in a condition: it is the condition, or one of several alternatives. -/
inductive Ment (f : Nat) : Ex → Prop
  | flag : Ment f (.flag f)
  | left : Ment f a → Ment f (.or a b)
  | right : Ment f b → Ment f (.or a b)

/-- Somewhere in the expression, inside ternaries with the conditions `cs`, a field is accessed that is for the feature. -/
inductive NeedE (V : Env) (f : Nat) : Ex → List Ex → Prop
  | fld : f ∈ V.needs x → NeedE V f (.fld x) []
  | orL : NeedE V f a cs → NeedE V f (.or a b) cs
  | orR : NeedE V f b cs → NeedE V f (.or a b) cs
  | opL : NeedE V f a cs → NeedE V f (.op k a b) cs
  | opR : NeedE V f b cs → NeedE V f (.op k a b) cs
  | ternC : NeedE V f c cs → NeedE V f (.tern c a b) (c :: cs)
  | ternA : NeedE V f a cs → NeedE V f (.tern c a b) (c :: cs)
  | ternB : NeedE V f b cs → NeedE V f (.tern c a b) (c :: cs)

/-- Somewhere in the program, inside conditions `cs`, a field is accessed that is for the feature, or a function is
called that requires it. -/
inductive NeedS (V : Env) (f : Nat) : Sm → List Ex → Prop
  | setVar : NeedE V f e cs → NeedS V f (.setVar x e) cs
  | setFld : NeedE V f e cs → NeedS V f (.setFld x e) cs
  | field : f ∈ V.needs x → NeedS V f (.setFld x e) []
  | print : NeedE V f e cs → NeedS V f (.print e) cs
  | arg : NeedE V f e cs → NeedS V f (.call k e) cs
  | call : f ∈ V.req k → NeedS V f (.call k e) []
  | seqL : NeedS V f a cs → NeedS V f (.seq a b) cs
  | seqR : NeedS V f b cs → NeedS V f (.seq a b) cs
  | iteC : NeedE V f c cs → NeedS V f (.ite c a b) (c :: cs)
  | iteA : NeedS V f a cs → NeedS V f (.ite c a b) (c :: cs)
  | iteB : NeedS V f b cs → NeedS V f (.ite c a b) (c :: cs)
  | loopC : NeedE V f c cs → NeedS V f (.loop c b) cs
  | loopB : NeedS V f b cs → NeedS V f (.loop c b) cs

theorem ment_iff (f : Nat) (c : Ex) : Ment f c ↔ f ∈ flagsOf c := by
  constructor
  · intro h
    induction h with
    | flag => exact List.mem_cons_self
    | left _ ih => exact List.mem_append_left _ ih
    | right _ ih => exact List.mem_append_right _ ih
  · intro h
    induction c with
    | flag g => simp only [flagsOf, List.mem_singleton] at h; subst h; exact .flag
    | or a b iha ihb =>
      rcases List.mem_append.mp h with h | h
      · exact .left (iha h)
      · exact .right (ihb h)
    | _ => cases h

theorem reqE_sound (V : Env) (f : Nat) (e : Ex) (G : List Nat) (h : f ∈ reqE V G e) :
    f ∉ G ∧ ∃ cs, NeedE V f e cs ∧ ∀ c ∈ cs, ¬ Ment f c := by
  induction e generalizing G with
  | fld x =>
    have := mem_without.mp h
    exact ⟨this.2, [], .fld this.1, fun c hc => by cases hc⟩
  | or a b iha ihb =>
    rcases List.mem_append.mp h with h | h
    · obtain ⟨hg, cs, hn, hm⟩ := iha G h; exact ⟨hg, cs, .orL hn, hm⟩
    · obtain ⟨hg, cs, hn, hm⟩ := ihb G h; exact ⟨hg, cs, .orR hn, hm⟩
  | op k a b iha ihb =>
    rcases List.mem_append.mp h with h | h
    · obtain ⟨hg, cs, hn, hm⟩ := iha G h; exact ⟨hg, cs, .opL hn, hm⟩
    · obtain ⟨hg, cs, hn, hm⟩ := ihb G h; exact ⟨hg, cs, .opR hn, hm⟩
  | tern c a b ihc iha ihb =>
    have fin : ∀ e', (∀ {cs}, NeedE V f e' cs → NeedE V f (.tern c a b) (c :: cs)) →
        (f ∉ flagsOf c ++ G ∧ ∃ cs, NeedE V f e' cs ∧ ∀ c ∈ cs, ¬ Ment f c) →
        f ∉ G ∧ ∃ cs, NeedE V f (.tern c a b) cs ∧ ∀ c ∈ cs, ¬ Ment f c := by
      rintro e' he ⟨hg, cs, hn, hm⟩
      refine ⟨fun h => hg (List.mem_append_right _ h), c :: cs, he hn, ?_⟩
      intro d hd
      rcases List.mem_cons.mp hd with rfl | hd
      · rw [ment_iff]; exact fun h => hg (List.mem_append_left _ h)
      · exact hm d hd
    rcases List.mem_append.mp h with h | h
    · rcases List.mem_append.mp h with h | h
      · exact fin c .ternC (ihc _ h)
      · exact fin a .ternA (iha _ h)
    · exact fin b .ternB (ihb _ h)
  | _ => cases h

theorem reqE_complete (V : Env) (f : Nat) {e : Ex} {cs : List Ex} (h : NeedE V f e cs) (G : List Nat) (hg : f ∉ G)
    (hm : ∀ c ∈ cs, ¬ Ment f c) : f ∈ reqE V G e := by
  induction h generalizing G with
  | fld h => exact mem_without.mpr ⟨h, hg⟩
  | orL _ ih => exact List.mem_append_left _ (ih G hg hm)
  | orR _ ih => exact List.mem_append_right _ (ih G hg hm)
  | opL _ ih => exact List.mem_append_left _ (ih G hg hm)
  | opR _ ih => exact List.mem_append_right _ (ih G hg hm)
  | @ternC c cs a b _ ih =>
    have hg' : f ∉ flagsOf c ++ G := by
      rw [List.mem_append, not_or, ← ment_iff]; exact ⟨hm c List.mem_cons_self, hg⟩
    exact List.mem_append_left _ (List.mem_append_left _ (ih _ hg' fun d hd => hm d (List.mem_cons_of_mem _ hd)))
  | @ternA a cs c b _ ih =>
    have hg' : f ∉ flagsOf c ++ G := by
      rw [List.mem_append, not_or, ← ment_iff]; exact ⟨hm c List.mem_cons_self, hg⟩
    exact List.mem_append_left _ (List.mem_append_right _ (ih _ hg' fun d hd => hm d (List.mem_cons_of_mem _ hd)))
  | @ternB b cs c a _ ih =>
    have hg' : f ∉ flagsOf c ++ G := by
      rw [List.mem_append, not_or, ← ment_iff]; exact ⟨hm c List.mem_cons_self, hg⟩
    exact List.mem_append_right _ (ih _ hg' fun d hd => hm d (List.mem_cons_of_mem _ hd))

theorem reqS_sound (V : Env) (f : Nat) (p : Sm) (G : List Nat) (h : f ∈ reqS V G p) :
    f ∉ G ∧ ∃ cs, NeedS V f p cs ∧ ∀ c ∈ cs, ¬ Ment f c := by
  induction p generalizing G with
  | skip => cases h
  | setVar x e => obtain ⟨hg, cs, hn, hm⟩ := reqE_sound V f e G h; exact ⟨hg, cs, .setVar hn, hm⟩
  | setFld x e =>
    rcases List.mem_append.mp h with h | h
    · have := mem_without.mp h
      exact ⟨this.2, [], .field this.1, fun c hc => by cases hc⟩
    · obtain ⟨hg, cs, hn, hm⟩ := reqE_sound V f e G h; exact ⟨hg, cs, .setFld hn, hm⟩
  | print e => obtain ⟨hg, cs, hn, hm⟩ := reqE_sound V f e G h; exact ⟨hg, cs, .print hn, hm⟩
  | call k e =>
    rcases List.mem_append.mp h with h | h
    · have := mem_without.mp h
      exact ⟨this.2, [], .call this.1, fun c hc => by cases hc⟩
    · obtain ⟨hg, cs, hn, hm⟩ := reqE_sound V f e G h; exact ⟨hg, cs, .arg hn, hm⟩
  | seq a b iha ihb =>
    rcases List.mem_append.mp h with h | h
    · obtain ⟨hg, cs, hn, hm⟩ := iha G h; exact ⟨hg, cs, .seqL hn, hm⟩
    · obtain ⟨hg, cs, hn, hm⟩ := ihb G h; exact ⟨hg, cs, .seqR hn, hm⟩
  | ite c a b iha ihb =>
    have fin : (f ∉ flagsOf c ++ G ∧ ∃ cs, NeedS V f (.ite c a b) (c :: cs) ∧ ∀ c ∈ cs, ¬ Ment f c) →
        f ∉ G ∧ ∃ cs, NeedS V f (.ite c a b) cs ∧ ∀ c ∈ cs, ¬ Ment f c := by
      rintro ⟨hg, cs, hn, hm⟩
      refine ⟨fun h => hg (List.mem_append_right _ h), c :: cs, hn, ?_⟩
      intro d hd
      rcases List.mem_cons.mp hd with rfl | hd
      · rw [ment_iff]; exact fun h => hg (List.mem_append_left _ h)
      · exact hm d hd
    rcases List.mem_append.mp h with h | h
    · rcases List.mem_append.mp h with h | h
      · obtain ⟨hg, cs, hn, hm⟩ := reqE_sound V f c _ h; exact fin ⟨hg, cs, .iteC hn, hm⟩
      · obtain ⟨hg, cs, hn, hm⟩ := iha _ h; exact fin ⟨hg, cs, .iteA hn, hm⟩
    · obtain ⟨hg, cs, hn, hm⟩ := ihb _ h; exact fin ⟨hg, cs, .iteB hn, hm⟩
  | loop c b ih =>
    rcases List.mem_append.mp h with h | h
    · obtain ⟨hg, cs, hn, hm⟩ := reqE_sound V f c G h; exact ⟨hg, cs, .loopC hn, hm⟩
    · obtain ⟨hg, cs, hn, hm⟩ := ih G h; exact ⟨hg, cs, .loopB hn, hm⟩

theorem reqS_complete (V : Env) (f : Nat) {p : Sm} {cs : List Ex} (h : NeedS V f p cs) (G : List Nat) (hg : f ∉ G)
    (hm : ∀ c ∈ cs, ¬ Ment f c) : f ∈ reqS V G p := by
  induction h generalizing G with
  | setVar h => exact reqE_complete V f h G hg hm
  | setFld h => exact List.mem_append_right _ (reqE_complete V f h G hg hm)
  | field h => exact List.mem_append_left _ (mem_without.mpr ⟨h, hg⟩)
  | print h => exact reqE_complete V f h G hg hm
  | arg h => exact List.mem_append_right _ (reqE_complete V f h G hg hm)
  | call h => exact List.mem_append_left _ (mem_without.mpr ⟨h, hg⟩)
  | seqL _ ih => exact List.mem_append_left _ (ih G hg hm)
  | seqR _ ih => exact List.mem_append_right _ (ih G hg hm)
  | @iteC c cs a b h =>
    have hg' : f ∉ flagsOf c ++ G := by
      rw [List.mem_append, not_or, ← ment_iff]; exact ⟨hm c List.mem_cons_self, hg⟩
    exact List.mem_append_left _ (List.mem_append_left _
      (reqE_complete V f h _ hg' fun d hd => hm d (List.mem_cons_of_mem _ hd)))
  | @iteA a cs c b _ ih =>
    have hg' : f ∉ flagsOf c ++ G := by
      rw [List.mem_append, not_or, ← ment_iff]; exact ⟨hm c List.mem_cons_self, hg⟩
    exact List.mem_append_left _ (List.mem_append_right _ (ih _ hg' fun d hd => hm d (List.mem_cons_of_mem _ hd)))
  | @iteB b cs c a _ ih =>
    have hg' : f ∉ flagsOf c ++ G := by
      rw [List.mem_append, not_or, ← ment_iff]; exact ⟨hm c List.mem_cons_self, hg⟩
    exact List.mem_append_right _ (ih _ hg' fun d hd => hm d (List.mem_cons_of_mem _ hd))
  | loopC h => exact List.mem_append_left _ (reqE_complete V f h G hg hm)
  | loopB _ ih => exact List.mem_append_right _ (ih G hg hm)

/-- **Which features stay on**: those that were on and that the type requires, or that something is done for outside of
all conditions on it. -/
theorem stays_on_iff (V : Env) (p : Sm) (σ : Nat → Bool) (f : Nat) :
    pass V p σ f = true ↔
      σ f = true ∧ (f ∈ V.always ∨ ∃ cs, NeedS V f p cs ∧ ∀ c ∈ cs, ¬ Ment f c) := by
  have hq : required V p f = true ↔ (f ∈ V.always ∨ ∃ cs, NeedS V f p cs ∧ ∀ c ∈ cs, ¬ Ment f c) := by
    simp only [required, List.contains_eq_mem, List.mem_append, decide_eq_true_eq]
    constructor
    · rintro (h | h)
      · exact .inr (reqS_sound V f p [] h).2
      · exact .inl h
    · rintro (h | ⟨cs, hn, hm⟩)
      · exact .inr h
      · exact .inl (reqS_complete V f hn [] (fun h => by cases h) hm)
  rw [← hq]
  unfold pass
  cases required V p f <;> cases σ f <;> simp

end Verif.Opt.Feat
