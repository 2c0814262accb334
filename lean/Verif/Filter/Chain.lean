import Verif.Filter.Sim
/-!
# Filters: more input, and chains of filters
-/

namespace Verif.Filter
open Verif.Stream Verif.Parse

theorem forwarded_closed (l : List Fwd) : (forwarded true l).1 = [] ∧ (∀ fz, (forwarded true l).2 = .ok fz → fz = true) := by
  induction l with
  | nil => exact ⟨rfl, fun fz h => by injection h with h; exact h.symm⟩
  | cons x r ih =>
    cases x with
    | eod => exact ih
    | data bs =>
      simp only [forwarded]
      by_cases hb : bs = []
      · rw [if_neg (fun h => h.1 hb)]
        subst hb
        exact ih
      · rw [if_pos ⟨hb, trivial⟩]
        exact ⟨rfl, fun fz h => by cases h⟩

/-- Nothing gets through a closed output. -/
theorem effect_closed (Γ : Nat → G) (f : Nat) (F : Filter) (I : Input) (lim : Option Nat) (n : Nat) : ∀ (st : F.σ) (pos : Nat),
    (effect Γ f F I lim n st true pos).out = ⟨[], true⟩ := by
  induction n with
  | zero => intro st pos; rfl
  | succ n ih =>
    intro st pos
    simp only [effect]
    cases hn : F.next st with
    | finish => rfl
    | parse g k =>
      dsimp only
      cases eval Γ f g I lim pos with
      | ok r =>
        dsimp only
        obtain ⟨h1, h2⟩ := forwarded_closed (k r.1).1
        cases hf : forwarded true (k r.1).1 with
        | mk bs x =>
          rw [hf] at h1 h2
          dsimp only at h1 h2
          subst h1
          cases x with
          | ok fz => have := h2 fz rfl; subst this; simp only [Effect.after, ih, List.nil_append]
          | error e => rfl
      | fail e => rfl
      | more => rfl
      | diverge => rfl
    | chunks piece k =>
      dsimp only
      have h0 := feed_closed (piece := piece) st (I.rest lim pos)
      cases hfe : feed piece true st (I.rest lim pos) with
      | mk bs r =>
        rw [hfe] at h0
        dsimp only at h0
        subst h0
        cases r with
        | error e => rfl
        | ok st' =>
          dsimp only
          split
          · obtain ⟨h1, h2⟩ := forwarded_closed (k st').1
            cases hf : forwarded true (k st').1 with
            | mk bs x =>
              rw [hf] at h1 h2
              dsimp only at h1 h2
              subst h1
              cases x with
              | ok fz => have := h2 fz rfl; subst this; simp only [Effect.after, ih, List.nil_append]
              | error e => rfl
          · rfl

/-- `y` is `x`, unless the filter was waiting in `x`; then `y` has the output of `x` and maybe more. -/
def Effect.Le (x y : Effect) : Prop := x = y ∨ (x.fate = .waits ∧ Input.Le x.out y.out)

theorem Effect.Le.after {x y : Effect} (bs : List Byte) (h : Effect.Le x y) : Effect.Le (x.after bs) (y.after bs) := by
  rcases h with rfl | ⟨h1, h2⟩
  · exact Or.inl rfl
  · exact Or.inr ⟨h1, Filter.Le.after h2⟩

/-- With more input there is more output. -/
theorem effect_le (Γ : Nat → G) (f : Nat) (F : Filter) {I I' : Input} (h : Input.Le I I') (lim : Option Nat) (n : Nat) :
    ∀ (st : F.σ) (fz : Bool) (pos : Nat), Effect.Le (effect Γ f F I lim n st fz pos) (effect Γ f F I' lim n st fz pos) := by
  induction n with
  | zero => intro st fz pos; exact Or.inl rfl
  | succ n ih =>
    intro st fz pos
    -- a filter that has not forwarded anything yet
    have start : ∀ (y : Effect), (fz = true → y.out = ⟨[], true⟩) → Effect.Le ⟨⟨[], fz⟩, .waits⟩ y := by
      intro y hy
      right
      refine ⟨rfl, ?_⟩
      cases fz with
      | false => exact Or.inr ⟨rfl, List.nil_prefix⟩
      | true => exact Or.inl (hy rfl).symm
    have hcl : fz = true → (effect Γ f F I' lim (n + 1) st fz pos).out = ⟨[], true⟩ := by
      intro hz; subst hz; exact effect_closed Γ f F I' lim (n + 1) st pos
    simp only [effect] at hcl ⊢
    cases hn : F.next st with
    | finish => exact Or.inl rfl
    | parse g k =>
      rw [hn] at hcl
      dsimp only at hcl ⊢
      rcases eval_stable Γ f g I I' lim pos h with e | e
      · rw [e]
        exact start _ hcl
      · rw [← e]
        cases eval Γ f g I lim pos with
        | ok r =>
          dsimp only
          cases forwarded fz (k r.1).1 with
          | mk bs x =>
            cases x with
            | ok fz' => exact Effect.Le.after bs (ih _ _ _)
            | error e => exact Or.inl rfl
        | fail e => exact Or.inl rfl
        | more => exact Or.inl rfl
        | diverge => exact Or.inl rfl
    | chunks piece k =>
      rw [hn] at hcl
      dsimp only at hcl ⊢
      cases hc : I.complete lim with
      | true =>
        obtain ⟨c1, c2⟩ := h.complete hc
        rw [c1, c2, h.complete_rest hc]
        cases feed piece fz st (I.rest lim pos) with
        | mk bs r =>
          cases r with
          | error e => exact Or.inl rfl
          | ok st' =>
            simp only [if_true]
            cases forwarded fz (k st').1 with
            | mk bs' x =>
              cases x with
              | ok fz' => exact Effect.Le.after _ (ih _ _ _)
              | error e => exact Or.inl rfl
      | false =>
        have hsp : I'.rest lim pos = I.rest lim pos ++ (I'.rest lim pos).drop (I.stop lim - pos) := by
          rw [h.rest pos, List.take_append_drop]
        have hfa := feed_append (piece := piece) fz st (I.rest lim pos) ((I'.rest lim pos).drop (I.stop lim - pos))
        rw [← hsp] at hfa
        cases hfe : feed piece fz st (I.rest lim pos) with
        | mk bs r =>
          rw [hfe] at hfa
          cases r with
          | error e =>
            dsimp only at hfa
            rw [hfa]
            exact Or.inl rfl
          | ok st' =>
            dsimp only at hfa ⊢
            rw [if_neg (by simp)]
            rw [hfa] at hcl ⊢
            right
            refine ⟨rfl, ?_⟩
            cases fz with
            | true =>
              left
              rw [hcl rfl]
              have h0 := feed_closed (piece := piece) st (I.rest lim pos)
              rw [hfe] at h0
              dsimp only at h0
              rw [h0]
            | false =>
              right
              refine ⟨rfl, ?_⟩
              dsimp only
              cases (feed piece false st' ((I'.rest lim pos).drop (I.stop lim - pos))) with
              | mk bs2 r2 =>
                cases r2 with
                | error e => exact List.prefix_append _ _
                | ok st2 =>
                  dsimp only
                  split
                  · cases forwarded false (k st2).1 with
                    | mk bs' x =>
                      cases x with
                      | ok fz' =>
                        simp only [Effect.after, List.append_assoc]
                        exact List.prefix_append _ _
                      | error e => simp only [List.append_assoc]; exact List.prefix_append _ _
                  · exact List.prefix_append _ _

/-! ## Chains -/

/-- The first item of a schedule, delivered to a new stream. -/
theorem start_spec (first : Item) (s : Sched) : ∃ v, wholeView (({} : Chain).run first.ops) = .ok v ∧
    Env (input (first :: s)) (({} : Chain).run first.ops) s ∧ At (({} : Chain).run first.ops) v 0 none := by
  obtain ⟨env, st⟩ := item_env (init_env (first :: s))
  obtain ⟨i, e, ho, hi⟩ := Chain.begin_spec env.live (st.evolves.headPos (by intro k hk; cases hk))
  have hh : (({} : Chain).run first.ops).headOffset = 0 := st.keep rfl
  have a : At (({} : Chain).run first.ops) ⟨i, none⟩ 0 none :=
    ⟨hi, by rw [ho, hh], fun x hx => (by cases hx), rfl, (by rw [hh]; exact Nat.le_refl _), Nat.zero_le _,
      fun l hl => (by cases hl)⟩
  exact ⟨⟨i, none⟩, by unfold wholeView; rw [e]; rfl, env, a⟩

/-- What a stage of the chain delivers, in terms of all the output `J` the filters up to here have, and what becomes of them. -/
def Stage (x : Sched × Ending) (J : Input) (fates : List Fate) : Prop := match x.2 with
  | .waiting => x.1 ≠ [] ∧ input x.1 = J
  | .finished => x.1 ≠ [] ∧ input x.1 = J ∧ J.closed = true
  | .threw e => (∃ e', .fails e' ∈ fates ∧ Throws e' e) ∧ Input.Le (input x.1) J
  | .diverge => .runsOn ∈ fates ∧ Input.Le (input x.1) J
  | .ub => False

theorem le_nil (J : Input) : Input.Le (input []) J := Or.inr ⟨rfl, List.nil_prefix⟩

theorem Le.length {a b : Input} (h : Input.Le a b) : a.data.length ≤ b.data.length := by
  rcases h with rfl | ⟨_, h⟩
  · exact Nat.le_refl _
  · exact h.length_le

theorem Stage.le {x : Sched × Ending} {J : Input} {fates : List Fate} (h : Stage x J fates) : Input.Le (input x.1) J := by
  unfold Stage at h
  cases hx : x.2 with
  | waiting => rw [hx] at h; exact Or.inl h.2
  | finished => rw [hx] at h; exact Or.inl h.2.1
  | threw e => rw [hx] at h; exact h.2
  | diverge => rw [hx] at h; exact h.2
  | ub => rw [hx] at h; exact absurd h (by simp)

theorem cutAll_ne {k m : Nat} {evs : List Ev} (h : 0 < k) : cutAll k m evs ≠ [] := by
  cases k with
  | zero => omega
  | succ k => simp [cutAll]

theorem stage_sim {Γ : Nat → G} (hΓ : ∀ i, Parse.Sound (Γ i)) (f n : Nat) {F : Filter} (hF : F.Sound) {x : Sched × Ending} {J : Input}
    {fates : List Fate} (hlen : J.data.length < 2 ^ 64 - 1) (h : Stage x J fates) :
    Stage (stage Γ f n x F) (through Γ f n F J).out (fates ++ [(through Γ f n F J).fate]) := by
  obtain ⟨sched, e0⟩ := x
  have hle := h.le
  unfold stage
  cases sched with
  | nil =>
    dsimp only
    unfold Stage at h ⊢
    cases e0 with
    | waiting => exact absurd rfl h.1
    | finished => exact absurd rfl h.1
    | threw e =>
      obtain ⟨⟨e', h1, h2⟩, -⟩ := h
      exact ⟨⟨e', List.mem_append_left _ h1, h2⟩, le_nil _⟩
    | diverge => exact ⟨List.mem_append_left _ h.1, le_nil _⟩
    | ub => exact h
  | cons first s =>
    dsimp only at hle ⊢
    obtain ⟨v, h1, h2, h3⟩ := start_spec first s
    rw [h1]
    dsimp only
    have hlen0 : (input (first :: s)).data.length < 2 ^ 64 - 1 := Nat.lt_of_le_of_lt (Le.length hle) hlen
    obtain ⟨q1, q2⟩ := exec_sim hΓ f hF hlen0 n F.start false h2 h3
    have hm := effect_le Γ f F hle none n F.start false 0
    generalize hx : exec Γ f F n F.start false v (({} : Chain).run first.ops) s = r at q1 q2
    obtain ⟨evs, en⟩ := r
    unfold through
    dsimp only at q1 q2
    cases en with
    | waiting =>
      obtain ⟨k1, k2, k3⟩ := q2
      obtain ⟨t1, t2⟩ := cutAll_all (s.length + 1) k2 q1 (by omega) (Nat.zero_le _)
      have hin : input (cutAll (s.length + 1) s.length evs) = (effect Γ f F (input (first :: s)) none n F.start false 0).out := by
        rw [k1]; unfold input; rw [t1, t2, Bool.false_or]
      have hne : cutAll (s.length + 1) s.length evs ≠ [] := cutAll_ne (by omega)
      have hle2 : Input.Le (input (cutAll (s.length + 1) s.length evs)) (effect Γ f F J none n F.start false 0).out := by
        rw [hin]
        rcases hm with e | ⟨-, e⟩
        · rw [e]; exact Or.inl rfl
        · exact e
      unfold Stage at h ⊢
      simp only [outcome]
      cases e0 with
      | waiting =>
        dsimp only at h ⊢
        refine ⟨hne, ?_⟩
        rw [hin, h.2]
      | finished =>
        dsimp only at h
        rw [h.2.1, h.2.2] at k3
        cases k3
      | threw e =>
        obtain ⟨⟨e', j1, j2⟩, -⟩ := h
        exact ⟨⟨e', List.mem_append_left _ j1, j2⟩, hle2⟩
      | diverge => exact ⟨List.mem_append_left _ h.1, hle2⟩
      | ub => exact h
    | finished m =>
      obtain ⟨k1, k2, k3, k4⟩ := q2
      obtain ⟨t1, t2⟩ := cutAll_all (s.length + 1 - m) k4 q1 rfl k3
      have he : effect Γ f F J none n F.start false 0 = ⟨⟨bytesOf evs, true⟩, .done⟩ := by
        rcases hm with e | ⟨e, -⟩
        · rw [← e, k1]
        · rw [k1] at e; cases e
      unfold Stage
      simp only [outcome]
      rw [he]
      refine ⟨cutAll_ne (by omega), ?_, rfl⟩
      unfold input; rw [t1, t2, k2]
    | threw e m =>
      obtain ⟨⟨e', k1, k2⟩, k3, k4, k5⟩ := q2
      have he : effect Γ f F J none n F.start false 0 = effect Γ f F (input (first :: s)) none n F.start false 0 := by
        rcases hm with e | ⟨e, -⟩
        · exact e.symm
        · rw [k1] at e; cases e
      unfold Stage
      simp only [outcome]
      rw [he]
      refine ⟨⟨e', List.mem_append_right _ (by rw [k1]; exact List.mem_singleton.mpr rfl), k2⟩, ?_⟩
      exact inputLe_trans (cutAll_some (s.length - m) q1) (by simpa using k5)
    | diverge =>
      have he : effect Γ f F J none n F.start false 0 = effect Γ f F (input (first :: s)) none n F.start false 0 := by
        rcases hm with e | ⟨e, -⟩
        · exact e.symm
        · rw [show (effect Γ f F (input (first :: s)) none n F.start false 0).fate = .runsOn from q2] at e; cases e
      unfold Stage
      simp only [outcome]
      refine ⟨List.mem_append_right _ (List.mem_singleton.mpr ?_), le_nil _⟩
      rw [he]; exact (show (effect Γ f F (input (first :: s)) none n F.start false 0).fate = .runsOn from q2).symm
    | ub => exact absurd q2 (by simp)

/-- The streams between the filters stay below the maximal size. -/
def Fits (Γ : Nat → G) (f n : Nat) : List Filter → Input → Prop
  | [], I => I.data.length < 2 ^ 64 - 1
  | F :: fs, I => I.data.length < 2 ^ 64 - 1 ∧ Fits Γ f n fs (through Γ f n F I).out

theorem chain_sim {Γ : Nat → G} (hΓ : ∀ i, Parse.Sound (Γ i)) (f n : Nat) : ∀ (fs : List Filter) {x : Sched × Ending} {J : Input}
    {fates : List Fate}, (∀ F ∈ fs, F.Sound) → Fits Γ f n fs J → Stage x J fates →
    Stage (fs.foldl (stage Γ f n) x) (throughAll Γ f n fs J).1 (fates ++ (throughAll Γ f n fs J).2) := by
  intro fs
  induction fs with
  | nil => intro x J fates hs hfit h; simpa [throughAll] using h
  | cons F fs ih =>
    intro x J fates hs hfit h
    rw [List.foldl_cons]
    have := ih (fun G hG => hs G (List.mem_cons_of_mem _ hG)) hfit.2 (stage_sim hΓ f n (hs F (List.mem_cons_self ..)) hfit.1 h)
    simpa [throughAll, List.append_assoc] using this

end Verif.Filter
