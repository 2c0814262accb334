import Verif.Filter.SinkModel
/-!
# Sinks with filters: what the filters make of the data

`after` and `Waits` say what filters make of data that is not known to be all there is.
-/

namespace Verif.Filter
open Verif.Stream (Byte)
open Verif.Parse
open Verif.Sink (Sink Event Chunk Status add64 sub64 Calm deliveredData)

/-- What comes out of the filters for the data `d`. -/
def after (Γ : Nat → G) (f n : Nat) (fs : List Filter) (d : List Byte) : List Byte := (throughAll Γ f n fs ⟨d, false⟩).1.data

/-- All filters wait for more after the data `d`: none is finished or has failed. -/
def Waits (Γ : Nat → G) (f n : Nat) (fs : List Filter) (d : List Byte) : Prop := ∀ x ∈ (throughAll Γ f n fs ⟨d, false⟩).2, x = .waits

variable {Γ : Nat → G} {f n : Nat}

theorem cutAll_length (k m : Nat) (evs : List Ev) : (cutAll k m evs).length = k := by
  induction k generalizing m evs with
  | zero => rfl
  | succ k ih => simp [cutAll, ih]

theorem stage_waits (hΓ : ∀ i, Parse.Sound (Γ i)) {F : Filter} (hF : F.Sound) {s : Sched} {J : Input} (hs : s ≠ [])
    (hJ : input s = J) (hlen : J.data.length < 2 ^ 64 - 1) (hw : (through Γ f n F J).fate = .waits) :
    ∃ r, stage Γ f n (s, .waiting) F = (r, .waiting) ∧ r.length = s.length ∧ input r = (through Γ f n F J).out := by
  cases s with
  | nil => exact absurd rfl hs
  | cons first s =>
    subst hJ
    obtain ⟨v, h1, h2, h3⟩ := start_spec first s
    obtain ⟨q1, q2⟩ := exec_sim hΓ f hF hlen n F.start false h2 h3
    have hst : stage Γ f n (first :: s, .waiting) F =
        outcome .waiting s.length (exec Γ f F n F.start false v (({} : Stream.Chain).run first.ops) s) := by
      unfold stage
      dsimp only
      rw [h1]
    have hsim : Stage (stage Γ f n (first :: s, .waiting) F) (through Γ f n F (input (first :: s))).out
        ([] ++ [(through Γ f n F (input (first :: s))).fate]) := stage_sim hΓ f n hF hlen ⟨by simp, rfl⟩
    rw [hst] at hsim ⊢
    unfold through at hw
    generalize exec Γ f F n F.start false v (({} : Stream.Chain).run first.ops) s = r at q1 q2 hsim
    obtain ⟨evs, en⟩ := r
    dsimp only at q1 q2
    cases en with
    | waiting => exact ⟨_, rfl, by rw [cutAll_length]; rfl, hsim.2⟩
    | finished m => rw [q2.1] at hw; cases hw
    | threw e m => obtain ⟨⟨e', k1, -⟩, -⟩ := q2; rw [k1] at hw; cases hw
    | diverge => rw [show (effect Γ f F (input (first :: s)) none n F.start false 0).fate = .runsOn from q2] at hw; cases hw
    | ub => exact absurd q2 (by simp)

theorem chain_waits (hΓ : ∀ i, Parse.Sound (Γ i)) : ∀ {fs : List Filter} {s : Sched} {J : Input}, (∀ F ∈ fs, F.Sound) →
    Fits Γ f n fs J → s ≠ [] → input s = J → (∀ x ∈ (throughAll Γ f n fs J).2, x = .waits) →
    ∃ r, fs.foldl (stage Γ f n) (s, .waiting) = (r, .waiting) ∧ r.length = s.length ∧ input r = (throughAll Γ f n fs J).1 := by
  intro fs
  induction fs with
  | nil => intro s J _ _ _ hJ _; exact ⟨s, rfl, rfl, hJ⟩
  | cons F fs ih =>
    intro s J hfs hfit hs hJ hw
    obtain ⟨r, h1, h2, h3⟩ := stage_waits hΓ (hfs F (List.mem_cons_self ..)) hs hJ hfit.1 (hw _ (List.mem_cons_self ..))
    have hr : r ≠ [] := by
      intro e; subst e; exact hs (List.length_eq_zero_iff.mp h2.symm)
    obtain ⟨r', g1, g2, g3⟩ := ih (fun G hG => hfs G (List.mem_cons_of_mem _ hG)) hfit.2 hr h3
      (fun x hx => hw x (List.mem_cons_of_mem _ hx))
    refine ⟨r', ?_, by rw [g2, h2], g3⟩
    rw [List.foldl_cons, h1, g1]

theorem input_pieces (l : List (List Byte)) : input (pieces l) = ⟨l.flatten, false⟩ := by
  unfold pieces
  have h1 : ∀ l : List (List Byte), total (l.map (fun b => (⟨[b], false, false⟩ : Item))) = l.flatten := by
    intro l
    induction l with
    | nil => rfl
    | cons b l ih => simpa [total] using ih
  have h2 : ∀ l : List (List Byte), closes (l.map (fun b => (⟨[b], false, false⟩ : Item))) = false := by
    intro l
    induction l with
    | nil => rfl
    | cons b l ih => simp [closes]
  have h3 := h1 l
  have h4 := h2 l
  unfold input
  congr 1

theorem after_prefix {fs : List Filter} (d e : List Byte) (hw : Waits Γ f n fs (d ++ e)) (hf : Fits Γ f n fs ⟨d ++ e, false⟩) :
    after Γ f n fs d <+: after Γ f n fs (d ++ e) ∧ Waits Γ f n fs d ∧ Fits Γ f n fs ⟨d, false⟩ := by
  have hle : Input.Le ⟨d, false⟩ ⟨d ++ e, false⟩ := Or.inr ⟨rfl, List.prefix_append _ _⟩
  have hwell : Well (throughAll Γ f n fs ⟨d ++ e, false⟩).2 := fun x hx => Or.inr (hw x hx)
  obtain ⟨k1, -, k3⟩ := well_le fs hle hwell hf
  refine ⟨?_, ?_, k3⟩
  · unfold after
    rcases k1 with e | ⟨-, e⟩
    · rw [e]; exact List.prefix_refl _
    · exact e
  · have key : ∀ (fs : List Filter) {I I' : Input}, Input.Le I I' → (∀ x ∈ (throughAll Γ f n fs I').2, x = .waits) →
        ∀ x ∈ (throughAll Γ f n fs I).2, x = .waits := by
      intro fs
      induction fs with
      | nil => intro I I' _ _ x hx; cases hx
      | cons F fs ih =>
        intro I I' h hw x hx
        have hm : Effect.Le (through Γ f n F I) (through Γ f n F I') := effect_le Γ f F h none n F.start false 0
        have hle : Input.Le (through Γ f n F I).out (through Γ f n F I').out := by
          rcases hm with e | ⟨-, e⟩
          · rw [e]; exact Or.inl rfl
          · exact e
        simp only [throughAll, List.mem_cons] at hx
        rcases hx with hx | hx
        · rw [hx]
          rcases hm with e | ⟨e, -⟩
          · rw [e]; exact hw _ (by simp only [throughAll]; exact List.mem_cons_self ..)
          · exact e
        · exact ih hle (fun x hx => hw x (by simp only [throughAll]; exact List.mem_cons_of_mem _ hx)) x hx
    exact key fs hle hw

/-- What units connected to a sink are to get of data written: nothing as long as there is none, and then what comes out of the
    filters. (A filter may forward something before it has seen any data.) -/
def filtered (Γ : Nat → G) (f n : Nat) (fs : List Filter) (d : List Byte) : List Byte := if d = [] then [] else after Γ f n fs d

theorem filtered_prefix {fs : List Filter} (d e : List Byte) (hw : Waits Γ f n fs (d ++ e)) (hf : Fits Γ f n fs ⟨d ++ e, false⟩) :
    filtered Γ f n fs d <+: filtered Γ f n fs (d ++ e) := by
  unfold filtered
  by_cases hd : d = []
  · rw [if_pos hd]; exact List.nil_prefix
  · rw [if_neg hd, if_neg (fun h => hd (List.append_eq_nil_iff.mp h).1)]
    exact (after_prefix d e hw hf).1

/-- The filters of `t` got the data `d`, and all output for it has been looked at. -/
structure Given (Γ : Nat → G) (f n : Nat) (fs : List Filter) (d : List Byte) (t : FSink) : Prop where
  filters : t.filters = fs
  late : t.late = false
  given : (t.given.getD []).flatten = d
  seen : t.seen = (filtered Γ f n fs d).length

/-- Passing data through the filters gives what is new in what the filters make of all data. -/
theorem filter_spec (hΓ : ∀ i, Parse.Sound (Γ i)) {fs : List Filter} (hfs : ∀ F ∈ fs, F.Sound) {d bs : List Byte} {t : FSink}
    (h : Given Γ f n fs d t) (hbs : bs ≠ []) (hfit : Fits Γ f n fs ⟨d ++ bs, false⟩) (hw : Waits Γ f n fs (d ++ bs)) :
    ∃ new t', t.filter Γ f n bs = .ok new t' ∧ filtered Γ f n fs (d ++ bs) = filtered Γ f n fs d ++ new ∧
      t'.core = t.core ∧ Given Γ f n fs (d ++ bs) t' := by
  obtain ⟨h1, h2, h3, h4⟩ := h
  have hin : input (pieces (t.given.getD [] ++ [bs])) = ⟨d ++ bs, false⟩ := by rw [input_pieces]; simp [h3]
  obtain ⟨r, g1, g2, g3⟩ := chain_waits hΓ (s := pieces (t.given.getD [] ++ [bs])) hfs hfit (by unfold pieces; simp) hin hw
  have htot : total r = filtered Γ f n fs (d ++ bs) := by
    unfold filtered
    rw [if_neg (fun h => hbs (List.append_eq_nil_iff.mp h).2)]
    unfold after; rw [← g3]; rfl
  obtain ⟨x, hx⟩ := filtered_prefix d bs hw hfit
  have hlen : r.length = (t.given.getD [] ++ [bs]).length + 1 := by rw [g2]; unfold pieces; simp
  have hdrop : (total r).drop t.seen = x := by rw [htot, ← hx, h4, List.drop_left]
  refine ⟨x, { t with given := some (t.given.getD [] ++ [bs]), seen := t.seen + x.length }, ?_, hx.symm, rfl, ⟨h1, h2, ?_, ?_⟩⟩
  · unfold FSink.filter FSink.outputs
    dsimp only
    rw [h1, g1]
    dsimp only
    rw [if_neg (by omega), h2, if_neg (by simp), hdrop, ← h1]
  · simp [h3]
  · dsimp only; rw [← hx, List.length_append, h4]

end Verif.Filter
