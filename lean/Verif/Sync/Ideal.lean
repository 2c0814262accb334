import Verif.Sync.List
/-! # Error recovery: the specification gives what a user expects -/

namespace Verif.Sync
open Verif.Stream Verif.Parse

variable {I : Input}

/-! ## Searching -/

theorem has_cases (I : Input) (lim : Option Nat) (pos n : Nat) :
    (I.has lim pos n = .ok true ∧ pos + n ≤ I.stop lim) ∨
    (I.has lim pos n = .ok false ∧ I.complete lim = true ∧ I.stop lim < pos + n) ∨
    (I.has lim pos n = .more ∧ I.complete lim = false ∧ I.stop lim < pos + n) := by
  unfold Input.has
  by_cases h : pos + n ≤ I.stop lim
  · rw [if_pos h]; exact Or.inl ⟨rfl, h⟩
  · rw [if_neg h]
    cases hc : I.complete lim with
    | true => exact Or.inr (Or.inl ⟨rfl, rfl, by omega⟩)
    | false => exact Or.inr (Or.inr ⟨rfl, rfl, by omega⟩)

theorem rest_nil {lim : Option Nat} {pos : Nat} (h : I.stop lim ≤ pos) : I.rest lim pos = [] := by
  apply List.length_eq_zero_iff.1
  rw [rest_length]
  omega

theorem prefix_room {lim : Option Nat} {pos : Nat} {lit : List Byte} (hne : lit ≠ []) (h : lit <+: I.rest lim pos) :
    pos + lit.length ≤ I.stop lim := by
  have h1 := h.length_le
  have h2 : 0 < lit.length := List.length_pos_iff.2 hne
  rw [rest_length] at h1
  omega

theorem rest_succ {lim : Option Nat} {pos : Nat} : (I.rest lim pos).tail = I.rest lim (pos + 1) := by
  rw [← List.drop_one, rest_drop]

/-- A position where the literal is not can be skipped. -/
theorem firstOcc_rest {lim : Option Nat} {pos : Nat} {lit : List Byte} (hne : lit ≠ []) (h : ¬ lit <+: I.rest lim pos) :
    firstOcc lit (I.rest lim pos) = (firstOcc lit (I.rest lim (pos + 1))).map (· + 1) := by
  rw [← rest_succ]
  cases hr : I.rest lim pos with
  | nil => simp [firstOcc, hne]
  | cons b r =>
    rw [hr] at h
    simp [firstOcc, h]

theorem firstOcc_here {lim : Option Nat} {pos : Nat} {lit : List Byte} (hne : lit ≠ []) (h : lit <+: I.rest lim pos) :
    firstOcc lit (I.rest lim pos) = some 0 := by
  cases hr : I.rest lim pos with
  | nil => rw [hr] at h; exact absurd (List.prefix_nil.1 h) hne
  | cons b r => rw [hr] at h; simp [firstOcc, h]

theorem firstOcc_few {lim : Option Nat} {pos : Nat} {lit : List Byte} (hne : lit ≠ []) (h : I.stop lim < pos + lit.length) :
    firstOcc lit (I.rest lim pos) = none := by
  refine firstOcc_short ?_
  have h2 : 0 < lit.length := List.length_pos_iff.2 hne
  rw [rest_length]
  omega

theorem tokenS_eq {lit : List Byte} (hne : lit ≠ []) (lim : Option Nat) (pos : Nat) (lah : SPending) :
    (lit <+: I.rest lim pos ∧ tokenS lit I lim pos lah = .ok (some (lit, pos + lit.length))) ∨
    (¬ lit <+: I.rest lim pos ∧ tokenS lit I lim pos lah = .ok lah) ∨
    (I.complete lim = false ∧ I.stop lim < pos + lit.length ∧ tokenS lit I lim pos lah = .more) := by
  unfold tokenS
  rcases has_cases I lim pos lit.length with ⟨h1, h2⟩ | ⟨h1, h2, h3⟩ | ⟨h1, h2, h3⟩
  · rw [h1]
    by_cases hp : lit <+: I.rest lim pos
    · exact Or.inl ⟨hp, by simp [hp, hne]⟩
    · exact Or.inr (Or.inl ⟨hp, by simp [hp]⟩)
  · rw [h1]
    exact Or.inr (Or.inl ⟨fun hp => by have := prefix_room hne hp; omega, by simp⟩)
  · rw [h1]
    exact Or.inr (Or.inr ⟨h2, h3, rfl⟩)

theorem atEnd_cases (I : Input) (lim : Option Nat) (pos : Nat) :
    (atEnd I lim pos = .ok false ∧ pos < I.stop lim) ∨ (atEnd I lim pos = .ok true ∧ I.complete lim = true ∧ I.stop lim ≤ pos) ∨
    (atEnd I lim pos = .more ∧ I.complete lim = false ∧ I.stop lim ≤ pos) := by
  unfold atEnd
  rcases has_cases I lim pos 1 with ⟨h1, h2⟩ | ⟨h1, h2, h3⟩ | ⟨h1, h2, h3⟩
  · rw [h1]; exact Or.inl ⟨rfl, by omega⟩
  · rw [h1]; exact Or.inr (Or.inl ⟨rfl, h2, by omega⟩)
  · rw [h1]; exact Or.inr (Or.inr ⟨rfl, h2, by omega⟩)

/-- The result of a search with nothing pending. -/
def Found (lit : List Byte) (I : Input) (lim : Option Nat) (pos : Nat) : SRes (Nat × SPending) → Prop
  | .ok r => ∃ q, firstOcc lit (I.rest lim pos) = some q ∧ r = (pos + q, some (lit, pos + q + lit.length))
  | .fail e => e = .parseError ∧ I.complete lim = true ∧ firstOcc lit (I.rest lim pos) = none
  | .more => I.complete lim = false ∧ firstOcc lit (I.rest lim pos) = none
  | .diverge => True

theorem Found.succ {lit : List Byte} (hne : lit ≠ []) {lim : Option Nat} {pos : Nat} (h : ¬ lit <+: I.rest lim pos)
    {r : SRes (Nat × SPending)} (hr : Found lit I lim (pos + 1) r) : Found lit I lim pos r := by
  have e := firstOcc_rest hne h
  cases r with
  | ok r =>
    obtain ⟨q, h1, h2⟩ := hr
    refine ⟨q + 1, by rw [e, h1]; rfl, ?_⟩
    rw [h2]
    simp only [Prod.mk.injEq, Option.some.injEq, true_and]
    omega
  | fail x => exact ⟨hr.1, hr.2.1, by rw [e, hr.2.2]; rfl⟩
  | more => exact ⟨hr.1, by rw [e, hr.2]; rfl⟩
  | diverge => trivial

/-- The search with the check that follows it. -/
theorem search_none {lit : List Byte} (hne : lit ≠ []) {lim : Option Nat} (f : Nat) : ∀ (pos : Nat),
    Found lit I lim pos (do
      let r ← searchS lit I lim f pos none
      let e ← atEnd I lim r.1
      if e || r.2.isNone then .fail .parseError else .ok r) := by
  induction f with
  | zero => intro pos; trivial
  | succ f ih =>
    intro pos
    unfold searchS
    rcases tokenS_eq (I := I) hne lim pos none with ⟨h1, h2⟩ | ⟨h1, h2⟩ | ⟨h1, h2, h3⟩
    · rw [h2]
      have hr := prefix_room hne h1
      have hp : 0 < lit.length := List.length_pos_iff.2 hne
      rcases atEnd_cases I lim pos with ⟨k1, k2⟩ | ⟨k1, k2, k3⟩ | ⟨k1, k2, k3⟩
      · rw [k1]
        simp only [SRes.ok_bind, Bool.false_or, Option.isSome_some, if_true, Option.isNone_some, Bool.or_false, k1]
        exact ⟨0, firstOcc_here hne h1, rfl⟩
      · omega
      · omega
    · rw [h2]
      rcases atEnd_cases I lim pos with ⟨k1, k2⟩ | ⟨k1, k2, k3⟩ | ⟨k1, k2, k3⟩
      · rw [k1]
        simp only [SRes.ok_bind, Bool.false_or, Option.isSome_none, Bool.false_eq_true, if_false]
        exact Found.succ hne h1 (ih (pos + 1))
      · rw [k1]
        simp only [SRes.ok_bind, Bool.true_or, if_true, k1]
        exact ⟨rfl, k2, by rw [rest_nil k3]; simp [firstOcc, hne]⟩
      · rw [k1]
        exact ⟨k2, by rw [rest_nil k3]; simp [firstOcc, hne]⟩
    · rw [h3]
      exact ⟨h1, firstOcc_few hne h2⟩

/-- Synchronizing with nothing pending finds the first occurrence. -/
theorem syncS_none {lit : List Byte} (hne : lit ≠ []) {lim : Option Nat} (f pos : Nat) :
    Found lit I lim pos (syncS lit I lim f pos none) := by
  unfold syncS
  rcases atEnd_cases I lim pos with ⟨k1, k2⟩ | ⟨k1, k2, k3⟩ | ⟨k1, k2, k3⟩
  · rw [k1]
    exact search_none hne f pos
  · rw [k1]
    exact ⟨rfl, k2, by rw [rest_nil k3]; simp [firstOcc, hne]⟩
  · rw [k1]
    exact ⟨k2, by rw [rest_nil k3]; simp [firstOcc, hne]⟩

/-- The result of a search with something pending: it ends where it begins. -/
def Stuck (lit : List Byte) (I : Input) (lim : Option Nat) (pos : Nat) (x : List Byte × Nat) : SRes (Nat × SPending) → Prop
  | .ok r => (lit <+: I.rest lim pos ∧ r = (pos, some (lit, pos + lit.length))) ∨ (¬ lit <+: I.rest lim pos ∧ r = (pos, some x))
  | .fail e => e = .parseError ∧ I.complete lim = true ∧ I.stop lim ≤ pos
  | .more => I.complete lim = false ∧ firstOcc lit (I.rest lim pos) = none
  | .diverge => True

theorem syncS_some {lit : List Byte} (hne : lit ≠ []) {lim : Option Nat} (f pos : Nat) (x : List Byte × Nat) :
    Stuck lit I lim pos x (syncS lit I lim f pos (some x)) := by
  unfold syncS
  rcases atEnd_cases I lim pos with ⟨k1, k2⟩ | ⟨k1, k2, k3⟩ | ⟨k1, k2, k3⟩
  · rw [k1]
    simp only [SRes.ok_bind, Bool.false_eq_true, if_false]
    cases f with
    | zero => trivial
    | succ f =>
      unfold searchS
      rcases tokenS_eq (I := I) hne lim pos (some x) with ⟨h1, h2⟩ | ⟨h1, h2⟩ | ⟨h1, h2, h3⟩
      · rw [h2, k1]
        simp only [SRes.ok_bind, Bool.false_or, Option.isSome_some, if_true, Option.isNone_some, Bool.or_false, k1]
        exact Or.inl ⟨h1, rfl⟩
      · rw [h2, k1]
        simp only [SRes.ok_bind, Bool.false_or, Option.isSome_some, if_true, Option.isNone_some, Bool.or_false, k1]
        exact Or.inr ⟨h1, rfl⟩
      · rw [h3]
        exact ⟨h1, firstOcc_few hne h2⟩
  · rw [k1]; exact ⟨rfl, k2, k3⟩
  · rw [k1]; exact ⟨k2, by rw [rest_nil k3]; simp [firstOcc, hne]⟩

/-! ## Correspondence -/

/-- What has been observed so far is what the user expects, plus perhaps further synchronizations. -/
structure SameLog (log ideal : List Ev) : Prop where
  values : values log = values ideal
  sub : ideal.Sublist log

theorem SameLog.value {log ideal : List Ev} (h : SameLog log ideal) (v : Val) :
    SameLog (log ++ [.value v]) (ideal ++ [.value v]) :=
  ⟨by unfold Sync.values; rw [List.filterMap_append, List.filterMap_append]; exact congrArg (· ++ _) h.values,
    h.sub.append (List.Sublist.refl _)⟩

theorem SameLog.extra {log ideal : List Ev} (h : SameLog log ideal) {x : List Ev} (hx : Sync.values x = []) :
    SameLog (log ++ x) ideal :=
  ⟨by have : Sync.values (log ++ x) = Sync.values log ++ Sync.values x := List.filterMap_append ..
      rw [this, hx, List.append_nil]; exact h.values,
    h.sub.trans (List.sublist_append_left _ _)⟩

theorem SameLog.both {log ideal : List Ev} (h : SameLog log ideal) (x : List Ev) : SameLog (log ++ x) (ideal ++ x) :=
  ⟨by unfold Sync.values; rw [List.filterMap_append, List.filterMap_append]; exact congrArg (· ++ _) h.values,
    h.sub.append (List.Sublist.refl _)⟩

/-- The states correspond. -/
structure Corr (st : St) (S : Ideal) : Prop where
  pos : st.pos = S.pos
  err : st.err.isSome = S.err
  log : SameLog st.log S.log

/-- The results correspond. A loop that was cut off can correspond to anything. -/
def Agree : SRes St → SRes Ideal → Prop
  | .ok st, .ok S => Corr st S
  | .fail e, .fail e' => e = e'
  | .more, .more => True
  | .diverge, _ => True
  | _, _ => False

/-- The effect of a hook that does not reject. -/
def hooked (h : Hook) (x : Exn) (log : List Ev) (q : Nat) : Option Exn × List Ev := match h with
  | .confirm => (none, log ++ [.synced q, .confirmed])
  | _ => (some x, log ++ [.synced q])

theorem runHook_hooked {h : Hook} (hr : h ≠ .reject) (x : Exn) (log : List Ev) (q : Nat) :
    runHook h (some x) (log ++ [.synced q]) = .ok (hooked h x log q) := by
  cases h with
  | nothing => rfl
  | confirm => simp [runHook, hooked]
  | reject => exact absurd rfl hr

theorem hooked_extra {h : Hook} {x : Exn} {log ideal : List Ev} (hs : SameLog log ideal) (q : Nat) :
    SameLog (hooked h x log q).2 ideal := by
  cases h <;> exact hs.extra rfl

theorem hooked_corr {h : Hook} {x : Exn} {log : List Ev} {S : Ideal} (hs : SameLog log S.log) (q : Nat) (lah : SPending) :
    Corr { pos := q, lah := lah, err := (hooked h x log q).1, log := (hooked h x log q).2 } (S.synced h q) := by
  cases h <;> exact ⟨rfl, rfl, hs.both _⟩

theorem recoverS_eq {L : ListField} (hr : L.hook ≠ .reject) (trim : Bool) (lim : Option Nat) (f : Nat) (st : St) (mark : Nat)
    (x : Exn) : recoverS L trim I lim f st mark x = (do
      let r ← syncS L.lit I lim f (restart trim st.pos mark) st.lah
      .ok { pos := r.1, lah := r.2, err := (hooked L.hook x st.log r.1).1, log := (hooked L.hook x st.log r.1).2 }) := by
  unfold recoverS
  congr 1
  funext r
  rw [runHook_hooked hr]

/-- After recovery with nothing pending. -/
theorem recover_none {L : ListField} (hne : L.lit ≠ []) (hr : L.hook ≠ .reject) {trim : Bool} {lim : Option Nat} {f : Nat}
    {st : St} {S : Ideal} {mark : Nat} {x : Exn} (hl : st.lah = none) (hs : SameLog st.log S.log) {next : St → SRes St}
    {ideal : Ideal → SRes Ideal}
    (fresh : ∀ q st' S', L.lit <+: I.rest lim q → st'.lah = some (L.lit, q + L.lit.length) → st'.pos = q → Corr st' S' →
      Agree (next st') (ideal S')) :
    Agree ((recoverS L trim I lim f st mark x).bind next) (resumeS L I lim S (restart trim st.pos mark) ideal) := by
  rw [recoverS_eq hr, hl]
  have h := syncS_none (I := I) hne (lim := lim) f (restart trim st.pos mark)
  unfold resumeS
  generalize syncS L.lit I lim f (restart trim st.pos mark) none = r at h ⊢
  cases r with
  | ok r =>
    obtain ⟨q, h1, h2⟩ := h
    rw [h1]
    subst h2
    have ho : L.lit <+: I.rest lim (restart trim st.pos mark + q) := by
      rcases firstOcc_spec L.lit (I.rest lim (restart trim st.pos mark)) with ⟨p, e, k1, k2⟩ | ⟨e, k1⟩
      · rw [h1] at e
        injection e with e
        subst e
        unfold OccursAt at k1
        rw [rest_drop] at k1
        exact k1
      · rw [h1] at e; cases e
    exact fresh _ _ _ ho rfl rfl (hooked_corr hs _ _)
  | fail e => obtain ⟨h1, h2, h3⟩ := h; rw [h3]; simp only [h2, if_true]; exact h1
  | more => obtain ⟨h1, h2⟩ := h; rw [h2]; simp only [h1, Bool.false_eq_true, if_false]; trivial
  | diverge => trivial

theorem resume_skip {L : ListField} (hne : L.lit ≠ []) {lim : Option Nat} {S : Ideal} {p : Nat} {ideal : Ideal → SRes Ideal}
    (h : ¬ L.lit <+: I.rest lim p) : resumeS L I lim S p ideal = resumeS L I lim S (p + 1) ideal := by
  unfold resumeS
  rw [firstOcc_rest hne h]
  cases firstOcc L.lit (I.rest lim (p + 1)) with
  | none => rfl
  | some q =>
    simp only [Option.map_some]
    rw [show p + (q + 1) = p + 1 + q by omega]

/-- After recovery with a symbol pending that is not where the parser is. -/
theorem recover_stale {L : ListField} (hne : L.lit ≠ []) (hr : L.hook ≠ .reject) {trim : Bool} {lim : Option Nat} {f : Nat}
    {st : St} {S : Ideal} {mark : Nat} {x : Exn} {e : Nat} (hl : st.lah = some (L.lit, e)) (he : e ≤ st.pos + L.lit.length)
    (hs : SameLog st.log S.log) {next : St → SRes St} {ideal : Ideal → SRes Ideal}
    (fresh : ∀ q st' S', L.lit <+: I.rest lim q → st'.lah = some (L.lit, q + L.lit.length) → st'.pos = q → Corr st' S' →
      Agree (next st') (ideal S'))
    (stale : ∀ st', st'.lah = some (L.lit, e) → e < st'.pos + L.lit.length → SameLog st'.log S.log →
      Agree (next st') (resumeS L I lim S (st'.pos + 1) ideal)) :
    Agree ((recoverS L trim I lim f st mark x).bind next) (resumeS L I lim S (restart trim st.pos mark) ideal) := by
  rw [recoverS_eq hr, hl]
  have hgt : st.pos < restart trim st.pos mark := by unfold restart; split <;> omega
  have h := syncS_some (I := I) hne (lim := lim) f (restart trim st.pos mark) (L.lit, e)
  generalize restart trim st.pos mark = p at h hgt ⊢
  generalize syncS L.lit I lim f p (some (L.lit, e)) = r at h ⊢
  cases r with
  | ok r =>
    rcases h with ⟨h1, h2⟩ | ⟨h1, h2⟩
    · subst h2
      unfold resumeS
      rw [firstOcc_here hne h1]
      exact fresh _ _ _ h1 rfl rfl (hooked_corr hs _ _)
    · subst h2
      rw [resume_skip hne h1]
      exact stale _ rfl (by dsimp only; omega) (hooked_extra hs _)
  | fail e =>
    obtain ⟨h1, h2, h3⟩ := h
    unfold resumeS
    rw [rest_nil h3, show firstOcc L.lit [] = none by simp [firstOcc, hne]]
    simp only [h2, if_true]
    exact h1
  | more =>
    obtain ⟨h1, h2⟩ := h
    unfold resumeS
    rw [h2]
    simp only [h1, Bool.false_eq_true, if_false]
    trivial
  | diverge => trivial

theorem lahSpec_found {lim : Option Nat} {pos : Nat} (ls : List (List Byte)) : ∀ (i0 : Nat) (best : Option (Nat × Nat)) {i n : Nat},
    lahSpec I lim pos ls i0 best = .ok (some (i, n)) →
    best = some (i, n) ∨ (i0 ≤ i ∧ ∃ l, ls[i - i0]? = some l ∧ l.length = n ∧ l <+: I.rest lim pos) := by
  induction ls with
  | nil => intro i0 best i n h; injection h with h; exact Or.inl h
  | cons l ls ih =>
    intro i0 best i n h
    unfold lahSpec at h
    obtain ⟨b, -, h⟩ := Parse.bind_ok h
    have later : ∀ best', lahSpec I lim pos ls (i0 + 1) best' = .ok (some (i, n)) →
        best' = some (i, n) ∨ (i0 ≤ i ∧ ∃ l', (l :: ls)[i - i0]? = some l' ∧ l'.length = n ∧ l' <+: I.rest lim pos) := by
      intro best' h'
      rcases ih (i0 + 1) best' h' with h | ⟨h1, l', h2, h3, h4⟩
      · exact Or.inl h
      · refine Or.inr ⟨by omega, l', ?_, h3, h4⟩
        rw [show i - i0 = (i - (i0 + 1)) + 1 by omega, List.getElem?_cons_succ]
        exact h2
    have here : l <+: I.rest lim pos → (i, n) = (i0, l.length) →
        best = some (i, n) ∨ (i0 ≤ i ∧ ∃ l', (l :: ls)[i - i0]? = some l' ∧ l'.length = n ∧ l' <+: I.rest lim pos) := by
      intro hp hin
      injection hin with h1 h2
      subst h1; subst h2
      exact Or.inr ⟨Nat.le_refl _, l, by simp, rfl, hp⟩
    split at h
    · rename_i hl
      cases best with
      | none =>
        dsimp only at h
        rcases later _ h with k | k
        · injection k with k; exact here hl.1 k.symm
        · exact Or.inr k
      | some b =>
        obtain ⟨j, m⟩ := b
        dsimp only at h
        split at h
        · cases h
        · rcases later _ h with k | k
          · split at k
            · injection k with k; exact here hl.1 k.symm
            · exact Or.inl k
          · exact Or.inr k
    · exact later _ h

theorem lahSpec_fail {lim : Option Nat} {pos : Nat} (ls : List (List Byte)) : ∀ (i0 : Nat) (best : Option (Nat × Nat)) {e : Exn},
    lahSpec I lim pos ls i0 best = .fail e → e = .parseError := by
  induction ls with
  | nil => intro i0 best e h; cases h
  | cons l ls ih =>
    intro i0 best e h
    unfold lahSpec at h
    rcases has_cases I lim pos l.length with ⟨h1, -⟩ | ⟨h1, -, -⟩ | ⟨h1, -, -⟩
    · rw [h1] at h
      simp only [SRes.ok_bind] at h
      split at h
      · cases best with
        | none => exact ih _ _ h
        | some b =>
          obtain ⟨j, m⟩ := b
          dsimp only at h
          split at h
          · injection h with h; exact h.symm
          · exact ih _ _ h
      · exact ih _ _ h
    · rw [h1] at h
      simp only [SRes.ok_bind] at h
      split at h
      · cases best with
        | none => exact ih _ _ h
        | some b =>
          obtain ⟨j, m⟩ := b
          dsimp only at h
          split at h
          · injection h with h; exact h.symm
          · exact ih _ _ h
      · exact ih _ _ h
    · rw [h1] at h; cases h

/-- A pending literal that is there. -/
theorem litS_fresh {lit : List Byte} {lim : Option Nat} {pos : Nat} (h : lit <+: I.rest lim pos) :
    litS lit I lim pos (some (lit, pos + lit.length)) = .ok (pos + lit.length) := by
  simp [litS, h]

/-- A pending literal that is not where it should be. -/
theorem litS_stale {lit : List Byte} {lim : Option Nat} {pos e : Nat} (h : e < pos + lit.length) :
    litS lit I lim pos (some (lit, e)) = .fail .parseError := by
  unfold litS
  dsimp only
  rw [if_neg (fun k => by omega)]

theorem again_bind {r : SRes St} {f : SRound → SRes St} : (again r >>= f) = r.bind (fun st => f (.next st)) := by
  cases r <;> rfl

/-- The specification of lists agrees with what a user expects: (a) with nothing pending, (b) with the literal pending that is there,
    (c) with a literal pending that is not there. -/
theorem whileS_agrees {L : ListField} (hne : L.lit ≠ []) (hr : L.hook ≠ .reject) (E : Elem) (trim : Bool) (lim : Option Nat)
    (f : Nat) (k : Nat) : ∀ (k' : Nat), k ≤ k' →
    (∀ st S, st.lah = none → Corr st S →
      Agree (whileS L E trim I lim f k st) (idealS L E trim I lim k' .look S)) ∧
    (∀ st S, st.lah = some (L.lit, st.pos + L.lit.length) → L.lit <+: I.rest lim st.pos → Corr st S →
      Agree (whileS L E trim I lim f k st) (idealS L E trim I lim k' .elem S)) ∧
    (∀ st S e, st.lah = some (L.lit, e) → e < st.pos + L.lit.length → SameLog st.log S.log →
      Agree (whileS L E trim I lim f k st) (resumeS L I lim S (st.pos + 1) (idealS L E trim I lim k' .elem))) := by
  induction k with
  | zero =>
    intro k' _
    exact ⟨fun _ _ _ _ => trivial, fun _ _ _ _ _ => trivial, fun _ _ _ _ _ _ => trivial⟩
  | succ k ih =>
    intro k' hk
    obtain ⟨k', rfl⟩ : ∃ j, k' = j + 1 := ⟨k' - 1, by omega⟩
    obtain ⟨ia, ib, ic⟩ := ih k' (by omega)
    obtain ⟨ia', ib', ic'⟩ := ih (k' + 1) (by omega)
    have hpos : 0 < L.lit.length := List.length_pos_iff.2 hne
    have freshI : ∀ q st' S', L.lit <+: I.rest lim q → st'.lah = some (L.lit, q + L.lit.length) → st'.pos = q → Corr st' S' →
        Agree (whileS L E trim I lim f k st') (idealS L E trim I lim k' .elem S') := by
      intro q st' S' h1 h2 h3 h4
      subst h3
      exact ib st' S' h2 h1 h4
    have freshI' : ∀ q st' S', L.lit <+: I.rest lim q → st'.lah = some (L.lit, q + L.lit.length) → st'.pos = q → Corr st' S' →
        Agree (whileS L E trim I lim f k st') (idealS L E trim I lim (k' + 1) .elem S') := by
      intro q st' S' h1 h2 h3 h4
      subst h3
      exact ib' st' S' h2 h1 h4
    -- an element whose literal is pending and there
    have elem : ∀ st S, L.lit <+: I.rest lim st.pos → Corr st S →
        Agree ((match elemS E L.lit I lim st.pos (some (L.lit, st.pos + L.lit.length)) with
          | .diverge => .diverge
          | .more => .more
          | .fail x =>
            if recoverable x then again (recoverS L trim I lim f { st with lah := some (L.lit, st.pos + L.lit.length) }
              (elemMark E L.lit I lim st.pos (some (L.lit, st.pos + L.lit.length))) x)
            else .fail x
          | .ok r => .ok (.next { st with pos := r.2, lah := none, log := st.log ++ [.value r.1] }) : SRes SRound) >>= fun r => match r with
            | .next st' => whileS L E trim I lim f k st'
            | .stop st' => .ok st')
          (elemStepS L E trim I lim S (idealS L E trim I lim k' .look) (idealS L E trim I lim k' .elem)) := by
      intro st S hp hc
      unfold elemS elemStepS elemMark
      rw [litS_fresh hp]
      simp only [SRes.ok_bind]
      rw [← hc.pos]
      cases hg : E.g I lim (st.pos + L.lit.length) with
      | diverge => trivial
      | more => trivial
      | fail x =>
        dsimp only
        by_cases hx : recoverable x = true
        · rw [if_pos hx, if_pos hx, again_bind]
          exact recover_stale hne hr (st := { st with lah := some (L.lit, st.pos + L.lit.length) })
            (e := st.pos + L.lit.length) rfl (Nat.le_refl _) hc.log freshI
            (fun st' h1 h2 h3 => ic st' S _ h1 h2 h3)
        · rw [if_neg hx, if_neg hx]
          exact rfl
      | ok r =>
        exact ia { st with pos := r.2, lah := none, log := st.log ++ [.value r.1] } _ rfl
          ⟨rfl, hc.err, hc.log.value r.1⟩
    refine ⟨?_, ?_, ?_⟩
    · -- nothing pending
      intro st S hl hc
      unfold whileS whileRoundS
      simp only [idealS, lahS, hl, ← hc.pos]
      have h1 := has_cases I lim st.pos 1
      unfold atEnd
      rcases h1 with ⟨h1, h2⟩ | ⟨h1, h2, h3⟩ | ⟨h1, h2, h3⟩
      · rw [h1]
        simp only [SRes.ok_bind, Bool.not_true, Bool.false_eq_true, if_false]
        cases hla : lahSpec I lim st.pos (L.lit :: L.follow) 0 none with
        | diverge => trivial
        | more => trivial
        | fail x =>
          have := lahSpec_fail _ _ _ hla
          subst this
          simp only [SRes.fail_bind]
          rw [if_pos (show recoverable .parseError = true from rfl), again_bind]
          have := recover_none (I := I) hne hr (trim := trim) (lim := lim) (f := f) (st := st) (S := S) (mark := st.pos)
            (x := .parseError) hl hc.log freshI
          rw [show restart trim st.pos st.pos = st.pos + 1 by unfold restart; split <;> omega] at this
          exact this
        | ok r =>
          simp only [SRes.ok_bind]
          cases r with
          | none =>
            dsimp only
            rw [again_bind]
            have := recover_none (I := I) hne hr (trim := trim) (lim := lim) (f := f) (st := { st with lah := none }) (S := S)
              (mark := st.pos) (x := .parseError) rfl hc.log freshI
            rw [show restart trim ({ st with lah := none } : St).pos st.pos = st.pos + 1 by
              unfold restart; dsimp only; split <;> omega] at this
            exact this
          | some b =>
            obtain ⟨i, n⟩ := b
            dsimp only
            by_cases hi : i = 0
            · subst hi
              simp only [if_true]
              rcases lahSpec_found _ _ _ hla with h | ⟨-, l, k1, k2, k3⟩
              · cases h
              · simp only [Nat.sub_self, List.getElem?_cons_zero, Option.some.injEq] at k1
                subst k1; subst k2
                rw [show (L.lit :: L.follow).getD 0 [] = L.lit from rfl]
                exact elem st S k3 hc
            · simp only [if_neg hi]
              exact ⟨hc.pos, hc.err, hc.log⟩
      · rw [h1]
        simp only [SRes.ok_bind, Bool.not_false, if_true]
        cases hfe : L.follow.isEmpty with
        | true => exact ⟨hc.pos, hc.err, hc.log⟩
        | false =>
          simp only [Bool.false_eq_true, if_false]
          rw [again_bind]
          unfold recoverS
          rw [syncS_end L.lit f _ h2 (by unfold restart; dsimp only; split <;> omega)]
          exact rfl
      · rw [h1]
        trivial
    · -- the literal is pending and there
      intro st S hl hp hc
      have hroom := prefix_room hne hp
      unfold whileS whileRoundS
      simp only [idealS, lahS, hl]
      rw [show I.has lim st.pos 1 = .ok true from has_mono.2 (by omega)]
      simp only [SRes.ok_bind, if_true]
      exact elem st S hp hc
    · -- something is pending that is not there
      intro st S e hl he hs
      unfold whileS whileRoundS
      simp only [lahS, hl, if_true]
      unfold elemS elemMark
      rw [litS_stale he]
      simp only [SRes.fail_bind]
      have hrec : recoverable .parseError = true := rfl
      rw [if_pos hrec]
      rcases has_cases I lim st.pos 1 with ⟨h1, h2⟩ | ⟨h1, h2, h3⟩ | ⟨h1, h2, h3⟩
      all_goals rw [h1]
      iterate 2
        simp only [SRes.ok_bind]
        rw [again_bind]
        have := recover_stale (I := I) hne hr (trim := trim) (lim := lim) (f := f)
          (st := { st with lah := some (L.lit, e) }) (S := S) (mark := st.pos) (x := .parseError) (e := e) rfl
          (by dsimp only; omega) hs freshI' (fun st' h1 h2 h3 => ic' st' S _ h1 h2 h3)
        rw [show restart trim ({ st with lah := some (L.lit, e) } : St).pos st.pos = st.pos + 1 by
          unfold restart; dsimp only; split <;> omega] at this
        exact this
      unfold resumeS
      rw [rest_nil (by omega), show firstOcc L.lit [] = none by simp [firstOcc, hne]]
      simp only [h2, Bool.false_eq_true, if_false]
      trivial

end Verif.Sync
