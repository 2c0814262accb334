import Verif.Filter.Chain
/-!
# Filters: property theorems (C70)

`parseFiltered` is what a host sees of a unit with filters; `throughAll` says what the filters make of a whole input, and
`meaning` what the unit makes of that.

The theorems about all results are called `_partial`: C70 is false if a filter fails, see `Witness.lean`.
-/

namespace Verif.Filter
open Verif.Stream Verif.Parse

/-- No filter fails or goes on for ever. -/
def Well (fates : List Fate) : Prop := ∀ x ∈ fates, x = .done ∨ x = .waits

/-- C70. Whatever filters are connected and however the input is cut up: the unit gets the meaning of its grammar on what the
    filters make of the whole input, or the exception of a filter that fails, or it does not get a result because a filter
    does not terminate. -/
theorem C70_filtered {Γ : Nat → G} (hΓ : ∀ i, Parse.Sound (Γ i)) {g : G} (hg : Parse.Sound g) (f n : Nat) {fs : List Filter}
    (hfs : ∀ F ∈ fs, F.Sound) (trim : Bool) (first : Item) (s : Sched) (hfit : Fits Γ f n fs (input (first :: s))) :
    parseFiltered Γ f n fs g trim first s = meaning Γ f g (throughAll Γ f n fs (input (first :: s))).1 ∨
    (∃ e' e, .fails e' ∈ (throughAll Γ f n fs (input (first :: s))).2 ∧ Throws e' e ∧
      parseFiltered Γ f n fs g trim first s = .error e) ∨
    (.runsOn ∈ (throughAll Γ f n fs (input (first :: s))).2 ∧ parseFiltered Γ f n fs g trim first s = .runsOn) := by
  have h := chain_sim hΓ f n fs (x := (first :: s, .waiting)) (J := input (first :: s)) (fates := []) hfs hfit ⟨by simp, rfl⟩
  rw [List.nil_append] at h
  have hlenJ : (throughAll Γ f n fs (input (first :: s))).1.data.length < 2 ^ 64 - 1 := by
    have : ∀ (fs : List Filter) (I : Input), Fits Γ f n fs I → (throughAll Γ f n fs I).1.data.length < 2 ^ 64 - 1 := by
      intro fs
      induction fs with
      | nil => intro I hI; exact hI
      | cons F fs ih => intro I hI; exact ih _ hI.2
    exact this fs _ hfit
  unfold parseFiltered
  generalize fs.foldl (stage Γ f n) (first :: s, .waiting) = x at h
  generalize throughAll Γ f n fs (input (first :: s)) = y at h hlenJ
  obtain ⟨J, fates⟩ := y
  dsimp only at h hlenJ ⊢
  have hle := h.le
  obtain ⟨sched, e0⟩ := x
  cases sched with
  | nil =>
    dsimp only
    unfold Stage at h
    cases e0 with
    | waiting => exact absurd rfl h.1
    | finished => exact absurd rfl h.1
    | threw e =>
      obtain ⟨⟨e', h1, h2⟩, -⟩ := h
      exact Or.inr (Or.inl ⟨e', e, h1, h2, rfl⟩)
    | diverge => exact Or.inr (Or.inr ⟨h.1, rfl⟩)
    | ub => exact absurd h (by simp)
  | cons it r =>
    dsimp only at hle ⊢
    have hl : (total (it :: r)).length < 2 ^ 64 - 1 := Nat.lt_of_le_of_lt (Le.length hle) hlenJ
    have hm := C13_parse_is_meaning_partial (unitsOk_plain hΓ) hg f trim it r hl
    have hst : meaning Γ f g (input (it :: r)) ≠ .needsMore →
        meaning Γ f g (input (it :: r)) = meaning Γ f g J := by
      intro hn
      unfold meaning at hn ⊢
      rcases eval_stable Γ f g _ _ none 0 hle with e | e
      · rw [e] at hn; exact absurd rfl hn
      · rw [e]
    cases hp : parseUnit Γ f g trim it r with
    | needsMore =>
      dsimp only
      unfold Stage at h
      cases e0 with
      | waiting =>
        left
        rw [← h.2]
        dsimp only
        rw [← hm, hp]; rfl
      | finished =>
        exfalso
        obtain ⟨-, h1, h2⟩ := h
        rw [← h1] at h2
        exact Driver.C67_closed_input_is_settled Γ f g trim it r h2 hp
      | threw e =>
        obtain ⟨⟨e', h1, h2⟩, -⟩ := h
        exact Or.inr (Or.inl ⟨e', e, h1, h2, rfl⟩)
      | diverge => exact Or.inr (Or.inr ⟨h.1, rfl⟩)
      | ub => exact absurd h (by simp)
    | value v p => left; rw [← hst (by rw [← hm, hp]; simp), ← hm, hp]
    | error e => left; rw [← hst (by rw [← hm, hp]; simp), ← hm, hp]
    | runsOn => left; rw [← hst (by rw [← hm, hp]; simp), ← hm, hp]
    | undefined => left; rw [← hst (by rw [← hm, hp]; simp), ← hm, hp]

/-- C70. If no filter fails, filters are transparent: the result is the meaning of the unit's grammar on what the filters, one
    after the other, make of the input. -/
theorem C70_transparent_partial {Γ : Nat → G} (hΓ : ∀ i, Parse.Sound (Γ i)) {g : G} (hg : Parse.Sound g) (f n : Nat) {fs : List Filter}
    (hfs : ∀ F ∈ fs, F.Sound) (trim : Bool) (first : Item) (s : Sched) (hfit : Fits Γ f n fs (input (first :: s)))
    (hw : Well (throughAll Γ f n fs (input (first :: s))).2) :
    parseFiltered Γ f n fs g trim first s = meaning Γ f g (throughAll Γ f n fs (input (first :: s))).1 := by
  rcases C70_filtered hΓ hg f n hfs trim first s hfit with h | ⟨e', e, h, -⟩ | ⟨h, -⟩
  · exact h
  · rcases hw _ h with h | h <;> cases h
  · rcases hw _ h with h | h <;> cases h

/-- C70. Then, how the input is cut up is not observable. -/
theorem C70_chunking_is_unobservable_partial {Γ : Nat → G} (hΓ : ∀ i, Parse.Sound (Γ i)) {g : G} (hg : Parse.Sound g) (f n : Nat)
    {fs : List Filter} (hfs : ∀ F ∈ fs, F.Sound) (trim trim' : Bool) (first first' : Item) (s s' : Sched)
    (hfit : Fits Γ f n fs (input (first :: s))) (hw : Well (throughAll Γ f n fs (input (first :: s))).2)
    (hd : total (first :: s) = total (first' :: s')) (hc : closes (first :: s) = closes (first' :: s')) :
    parseFiltered Γ f n fs g trim first s = parseFiltered Γ f n fs g trim' first' s' := by
  have hi : input (first :: s) = input (first' :: s') := by unfold input; rw [hd, hc]
  rw [C70_transparent_partial hΓ hg f n hfs trim first s hfit hw,
    C70_transparent_partial hΓ hg f n hfs trim' first' s' (hi ▸ hfit) (hi ▸ hw), hi]

/-- C70. It makes no difference whether the unit parses what the filters make of the input itself, through the filters, or gets
    that from its host. -/
theorem C70_same_as_filtered_input_partial {Γ : Nat → G} (hΓ : ∀ i, Parse.Sound (Γ i)) {g : G} (hg : Parse.Sound g) (f n : Nat)
    {fs : List Filter} (hfs : ∀ F ∈ fs, F.Sound) (trim trim' : Bool) (first first' : Item) (s s' : Sched)
    (hfit : Fits Γ f n fs (input (first :: s))) (hw : Well (throughAll Γ f n fs (input (first :: s))).2)
    (hl : (total (first' :: s')).length < 2 ^ 64 - 1) (hi : input (first' :: s') = (throughAll Γ f n fs (input (first :: s))).1) :
    parseFiltered Γ f n fs g trim first s = parseUnit Γ f g trim' first' s' := by
  rw [C70_transparent_partial hΓ hg f n hfs trim first s hfit hw, C13_parse_is_meaning_partial (unitsOk_plain hΓ) hg f trim' first' s' hl, hi]

theorem well_le {Γ : Nat → G} {f n : Nat} : ∀ (fs : List Filter) {I I' : Input}, Input.Le I I' → Well (throughAll Γ f n fs I').2 →
    Fits Γ f n fs I' → Input.Le (throughAll Γ f n fs I).1 (throughAll Γ f n fs I').1 ∧ Well (throughAll Γ f n fs I).2 ∧ Fits Γ f n fs I := by
  intro fs
  induction fs with
  | nil => intro I I' h hw hf; exact ⟨h, (fun x hx => (by cases hx)), Nat.lt_of_le_of_lt (Le.length h) hf⟩
  | cons F fs ih =>
    intro I I' h hw hf
    have hl : I.data.length < 2 ^ 64 - 1 := Nat.lt_of_le_of_lt (Le.length h) hf.1
    have hw' : Well (throughAll Γ f n fs (through Γ f n F I').out).2 := fun x hx => hw x (List.mem_cons_of_mem _ hx)
    have hm : Effect.Le (through Γ f n F I) (through Γ f n F I') := effect_le Γ f F h none n F.start false 0
    have hle : Input.Le (through Γ f n F I).out (through Γ f n F I').out := by
      rcases hm with e | ⟨-, e⟩
      · rw [e]; exact Or.inl rfl
      · exact e
    obtain ⟨i1, i2, i3⟩ := ih hle hw' hf.2
    refine ⟨i1, ?_, hl, i3⟩
    intro x hx
    simp only [throughAll, List.mem_cons] at hx
    rcases hx with hx | hx
    · rw [hx]
      rcases hm with e | ⟨e, -⟩
      · rw [e]; exact hw _ (by simp only [throughAll]; exact List.mem_cons_self ..)
      · exact Or.inr e
    · exact i2 x hx

/-- C70. Results are final: once a unit with filters has a result from the input so far, more input would not have changed it. -/
theorem C70_results_are_final_partial {Γ : Nat → G} (hΓ : ∀ i, Parse.Sound (Γ i)) {g : G} (hg : Parse.Sound g) (f n : Nat)
    {fs : List Filter} (hfs : ∀ F ∈ fs, F.Sound) (trim : Bool) (first first' : Item) (s s' : Sched)
    (hfit : Fits Γ f n fs (input (first' :: s'))) (hw : Well (throughAll Γ f n fs (input (first' :: s'))).2)
    (hle : Input.Le (input (first :: s)) (input (first' :: s'))) (h : parseFiltered Γ f n fs g trim first s ≠ .needsMore) :
    parseFiltered Γ f n fs g trim first' s' = parseFiltered Γ f n fs g trim first s := by
  obtain ⟨k1, k2, k3⟩ := well_le fs hle hw hfit
  rw [C70_transparent_partial hΓ hg f n hfs trim first s k3 k2] at h ⊢
  rw [C70_transparent_partial hΓ hg f n hfs trim first' s' hfit hw]
  unfold meaning at h ⊢
  rcases eval_stable Γ f g _ _ none 0 k1 with e | e
  · rw [e] at h; exact absurd rfl h
  · rw [e]

/-- C70. Filters never lead to undefined behaviour, failing or not. -/
theorem C70_no_undefined_behaviour {Γ : Nat → G} (hΓ : ∀ i, Parse.Sound (Γ i)) {g : G} (hg : Parse.Sound g) (f n : Nat) {fs : List Filter}
    (hfs : ∀ F ∈ fs, F.Sound) (trim : Bool) (first : Item) (s : Sched) (hfit : Fits Γ f n fs (input (first :: s))) :
    parseFiltered Γ f n fs g trim first s ≠ .undefined := by
  rcases C70_filtered hΓ hg f n hfs trim first s hfit with h | ⟨e', e, -, -, h⟩ | ⟨-, h⟩
  · rw [h]
    unfold meaning
    cases eval Γ f g (throughAll Γ f n fs (input (first :: s))).1 none 0 <;> simp
  · rw [h]; simp
  · rw [h]; simp

/-- C70. No fiber of a filter that is finished is ever resumed, which would end the host's process with an error of the fiber
    library: the schedule the last filter makes for the unit either has the end of the data in it, so that the unit never waits
    for more, or no filter is finished. -/
theorem C70_finished_filters_rest {Γ : Nat → G} (hΓ : ∀ i, Parse.Sound (Γ i)) (f n : Nat) {fs : List Filter} (hfs : ∀ F ∈ fs, F.Sound)
    (first : Item) (s : Sched) (hfit : Fits Γ f n fs (input (first :: s))) (r : Sched)
    (h : fs.foldl (stage Γ f n) (first :: s, .waiting) = (r, .finished)) : closes r = true := by
  have h' := chain_sim hΓ f n fs (x := (first :: s, .waiting)) (J := input (first :: s)) (fates := []) hfs hfit ⟨by simp, rfl⟩
  rw [h] at h'
  obtain ⟨-, h1, h2⟩ := h'
  rw [← h1] at h2
  exact h2

/-- C70. Connecting filters in two groups is the same as connecting one chain. -/
theorem throughAll_append (Γ : Nat → G) (f n : Nat) (fs gs : List Filter) (I : Input) :
    throughAll Γ f n (fs ++ gs) I = ((throughAll Γ f n gs (throughAll Γ f n fs I).1).1,
      (throughAll Γ f n fs I).2 ++ (throughAll Γ f n gs (throughAll Γ f n fs I).1).2) := by
  induction fs generalizing I with
  | nil => rfl
  | cons F fs ih => simp only [List.cons_append, throughAll, ih]

end Verif.Filter
