import Verif.Sync.Ideal
import Verif.Sync.List
/-! # Error recovery: it comes to an end -/

namespace Verif.Sync
open Verif.Stream Verif.Parse

variable {I : Input}

theorem searchS_ends {lit : List Byte} (hne : lit ≠ []) {lim : Option Nat} (f : Nat) : ∀ (pos : Nat) (lah : SPending),
    I.stop lim < pos + f → 0 < f → searchS lit I lim f pos lah ≠ .diverge := by
  induction f with
  | zero => intro pos lah _ h; omega
  | succ f ih =>
    intro pos lah hf _ hd
    unfold searchS at hd
    have ht : ∃ p, tokenS lit I lim pos lah = .ok p ∨ tokenS lit I lim pos lah = .more := by
      rcases tokenS_eq (I := I) hne lim pos lah with ⟨_, h⟩ | ⟨_, h⟩ | ⟨_, _, h⟩
      · exact ⟨_, Or.inl h⟩
      · exact ⟨_, Or.inl h⟩
      · exact ⟨none, Or.inr h⟩
    obtain ⟨p, ht | ht⟩ := ht
    · rw [ht] at hd
      simp only [SRes.ok_bind] at hd
      rcases atEnd_cases I lim pos with ⟨k1, k2⟩ | ⟨k1, k2, k3⟩ | ⟨k1, k2, k3⟩
      · rw [k1] at hd
        simp only [SRes.ok_bind] at hd
        split at hd
        · cases hd
        · exact ih (pos + 1) p (by omega) (by omega) hd
      · rw [k1] at hd
        simp only [SRes.ok_bind, Bool.true_or, if_true] at hd
        cases hd
      · rw [k1] at hd; cases hd
    · rw [ht] at hd; cases hd

theorem atEnd_ends (lim : Option Nat) (pos : Nat) : atEnd I lim pos ≠ .diverge := by
  rcases atEnd_cases I lim pos with ⟨k1, _⟩ | ⟨k1, _⟩ | ⟨k1, _⟩ <;> rw [k1] <;> exact (fun h => by cases h)

theorem syncS_ends {lit : List Byte} (hne : lit ≠ []) {lim : Option Nat} {f : Nat} (hf : I.stop lim < f) (pos : Nat) (lah : SPending) :
    syncS lit I lim f pos lah ≠ .diverge := by
  intro hd
  unfold syncS at hd
  rcases atEnd_cases I lim pos with ⟨k1, k2⟩ | ⟨k1, k2, k3⟩ | ⟨k1, k2, k3⟩
  · rw [k1] at hd
    simp only [SRes.ok_bind, Bool.false_eq_true, if_false] at hd
    have hs := searchS_ends (I := I) hne (lim := lim) f pos lah (by omega) (by omega)
    cases hr : searchS lit I lim f pos lah with
    | ok r =>
      rw [hr] at hd
      simp only [SRes.ok_bind] at hd
      have ha := atEnd_ends (I := I) lim r.1
      cases he : atEnd I lim r.1 with
      | ok e =>
        rw [he] at hd
        simp only [SRes.ok_bind] at hd
        split at hd <;> cases hd
      | fail x => rw [he] at hd; cases hd
      | more => rw [he] at hd; cases hd
      | diverge => exact ha he
    | fail x => rw [hr] at hd; cases hd
    | more => rw [hr] at hd; cases hd
    | diverge => exact hs hr
  · rw [k1] at hd; cases hd
  · rw [k1] at hd; cases hd

/-- Synchronizing goes forward and ends before the end of the data. -/
theorem syncS_bounds {lit : List Byte} {lim : Option Nat} {f pos : Nat} {lah : SPending} {r : Nat × SPending}
    (h : syncS lit I lim f pos lah = .ok r) : pos ≤ r.1 ∧ r.1 < I.stop lim := by
  unfold syncS at h
  obtain ⟨e, -, h⟩ := Parse.bind_ok h
  split at h
  · cases h
  · obtain ⟨r', h1, h⟩ := Parse.bind_ok h
    obtain ⟨e', h2, h⟩ := Parse.bind_ok h
    split at h
    · cases h
    · rename_i hc
      injection h with h
      subst h
      refine ⟨searchS_lower lit f h1, ?_⟩
      rcases atEnd_cases I lim r'.1 with ⟨k1, k2⟩ | ⟨k1, k2, k3⟩ | ⟨k1, k2, k3⟩
      · exact k2
      · rw [k1] at h2; injection h2 with h2; subst h2; exact absurd rfl hc
      · rw [k1] at h2; cases h2

theorem recoverS_ends {L : ListField} (hne : L.lit ≠ []) {trim : Bool} {lim : Option Nat} {f : Nat} (hf : I.stop lim < f)
    (st : St) (mark : Nat) (x : Exn) : recoverS L trim I lim f st mark x ≠ .diverge := by
  intro hd
  unfold recoverS at hd
  cases hr : syncS L.lit I lim f (restart trim st.pos mark) st.lah with
  | ok r =>
    rw [hr] at hd
    simp only [SRes.ok_bind] at hd
    split at hd <;> cases hd
  | fail x => rw [hr] at hd; cases hd
  | more => rw [hr] at hd; cases hd
  | diverge => exact syncS_ends hne hf _ _ hr

theorem recoverS_bounds {L : ListField} {trim : Bool} {lim : Option Nat} {f : Nat} {st st' : St} {mark : Nat} {x : Exn}
    (h : recoverS L trim I lim f st mark x = .ok st') : st.pos < st'.pos ∧ st'.pos < I.stop lim := by
  unfold recoverS at h
  obtain ⟨r, h1, h⟩ := Parse.bind_ok h
  have h2 := syncS_bounds h1
  split at h
  · injection h with h
    subst h
    refine ⟨?_, h2.2⟩
    have : st.pos + 1 ≤ restart trim st.pos mark := by
      unfold restart
      split <;> omega
    exact Nat.lt_of_lt_of_le this h2.1
  · cases h

theorem again_next {r : SRes St} {b : SRound} (h : again r = .ok b) : ∃ st, b = .next st ∧ r = .ok st := by
  cases r with
  | ok st => injection h with h; exact ⟨st, h.symm, rfl⟩
  | fail x => cases h
  | more => cases h
  | diverge => cases h

theorem again_ends {r : SRes St} (h : r ≠ .diverge) : again r ≠ .diverge := by
  cases r with
  | ok st => exact (fun h => by cases h)
  | fail x => exact (fun h => by cases h)
  | more => exact (fun h => by cases h)
  | diverge => exact absurd rfl h

theorem litS_ends {lit : List Byte} {lim : Option Nat} {pos : Nat} {lah : SPending} : litS lit I lim pos lah ≠ .diverge := by
  intro h
  unfold litS at h
  cases lah with
  | none =>
    rcases has_cases I lim pos lit.length with ⟨h1, -⟩ | ⟨h1, -, -⟩ | ⟨h1, -, -⟩
    · rw [h1] at h; simp only [SRes.ok_bind, if_true] at h; split at h <;> cases h
    · rw [h1] at h; cases h
    · rw [h1] at h; cases h
  | some x => obtain ⟨t, e⟩ := x; dsimp only at h; split at h <;> cases h

theorem elemS_ends {E : Elem} {lim : Option Nat} (hE : ∀ p, E.g I lim p ≠ .diverge) {lit : List Byte} {pos : Nat} {lah : SPending} :
    elemS E lit I lim pos lah ≠ .diverge := by
  intro h
  unfold elemS at h
  cases hl : litS lit I lim pos lah with
  | ok p => rw [hl] at h; exact hE p h
  | fail x => rw [hl] at h; cases h
  | more => rw [hl] at h; cases h
  | diverge => exact litS_ends hl

theorem lahSpec_ends {lim : Option Nat} {pos : Nat} (ls : List (List Byte)) : ∀ (i : Nat) (best : Option (Nat × Nat)),
    lahSpec I lim pos ls i best ≠ .diverge := by
  induction ls with
  | nil => intro i best h; cases h
  | cons l ls ih =>
    intro i best h
    unfold lahSpec at h
    have : ∀ b, I.has lim pos l.length = .ok b → False := by
      intro b hb
      rw [hb] at h
      simp only [SRes.ok_bind] at h
      split at h
      · split at h
        · exact ih _ _ h
        · split at h
          · cases h
          · exact ih _ _ h
      · exact ih _ _ h
    rcases has_cases I lim pos l.length with ⟨h1, -⟩ | ⟨h1, -, -⟩ | ⟨h1, -, -⟩
    · exact this _ h1
    · exact this _ h1
    · rw [h1] at h; cases h

theorem lahS_ends {L : ListField} {lim : Option Nat} {st : St} : lahS L I lim st ≠ .diverge := by
  intro h
  unfold lahS at h
  split at h
  · cases h
  · rcases atEnd_cases I lim st.pos with ⟨k1, -⟩ | ⟨k1, -, -⟩ | ⟨k1, -, -⟩
    · rw [k1] at h
      simp only [SRes.ok_bind, Bool.false_eq_true, if_false] at h
      cases hl : lahSpec I lim st.pos (L.lit :: L.follow) 0 none with
      | ok r => rw [hl] at h; simp only [SRes.ok_bind] at h; split at h <;> cases h
      | fail x => rw [hl] at h; cases h
      | more => rw [hl] at h; cases h
      | diverge => exact lahSpec_ends _ _ _ hl
    · rw [k1] at h; cases h
    · rw [k1] at h; cases h

/-- One round ends; if the list goes on it has come forward. -/
theorem whileRoundS_ends {L : ListField} (hne : L.lit ≠ []) {E : Elem} (fw : Forward E.g) {trim : Bool} {lim : Option Nat}
    (hE : ∀ p, E.g I lim p ≠ .diverge) {f : Nat} (hf : I.stop lim < f) (st : St) :
    whileRoundS L E trim I lim f st ≠ .diverge ∧
    ∀ st', whileRoundS L E trim I lim f st = .ok (.next st') → st.pos < st'.pos ∧ st'.pos ≤ I.stop lim := by
  have hrec : ∀ st0 mark x, st0.pos = st.pos → again (recoverS L trim I lim f st0 mark x) ≠ .diverge ∧
      ∀ st', again (recoverS L trim I lim f st0 mark x) = .ok (.next st') → st.pos < st'.pos ∧ st'.pos ≤ I.stop lim := by
    intro st0 mark x h0
    refine ⟨again_ends (recoverS_ends hne hf st0 mark x), ?_⟩
    intro st' h
    obtain ⟨st1, h1, h2⟩ := again_next h
    injection h1 with h1
    subst h1
    have := recoverS_bounds h2
    omega
  unfold whileRoundS
  rcases has_cases I lim st.pos 1 with ⟨h1, -⟩ | ⟨h1, -, -⟩ | ⟨h1, -, -⟩
  case inr.inr => rw [h1]; exact ⟨(fun h => by cases h), fun st' h => (by cases h)⟩
  all_goals
    rw [h1]
    simp only [SRes.ok_bind]
    have hl := lahS_ends (I := I) (L := L) (lim := lim) (st := st)
    cases hls : lahS L I lim st with
    | diverge => exact absurd hls hl
    | more => exact ⟨(fun h => by cases h), fun st' h => (by cases h)⟩
    | fail x =>
      dsimp only
      split
      · exact hrec st _ _ rfl
      · exact ⟨(fun h => by cases h), fun st' h => (by cases h)⟩
    | ok r =>
      obtain ⟨y, p⟩ := r
      cases y with
      | eod =>
        dsimp only
        split
        · exact ⟨(fun h => by cases h), fun st' h => (by cases h)⟩
        · exact hrec { st with lah := p } _ _ rfl
      | none => exact hrec { st with lah := p } _ _ rfl
      | follow => exact ⟨(fun h => by cases h), fun st' h => (by cases h)⟩
      | elem =>
        dsimp only
        cases hes : elemS E L.lit I lim st.pos p with
        | diverge => exact absurd hes (elemS_ends hE)
        | more => exact ⟨(fun h => by cases h), fun st' h => (by cases h)⟩
        | fail x =>
          dsimp only
          split
          · exact hrec { st with lah := p } _ _ rfl
          · exact ⟨(fun h => by cases h), fun st' h => (by cases h)⟩
        | ok r =>
          refine ⟨(fun h => by cases h), fun st' h => ?_⟩
          injection h with h
          injection h with h
          subst h
          refine ⟨elemS_forward fw hne hes, ?_⟩
          unfold elemS at hes
          obtain ⟨q, k1, k2⟩ := Parse.bind_ok hes
          exact (fw I lim q r (litS_forward hne k1).2 k2).2

/-- A list comes to an end. -/
theorem whileS_ends {L : ListField} (hne : L.lit ≠ []) {E : Elem} (fw : Forward E.g) {trim : Bool} {lim : Option Nat}
    (hE : ∀ p, E.g I lim p ≠ .diverge) {f : Nat} (hf : I.stop lim < f) (k : Nat) : ∀ (st : St), I.stop lim < st.pos + k →
    0 < k → whileS L E trim I lim f k st ≠ .diverge := by
  induction k with
  | zero => intro st _ h; omega
  | succ k ih =>
    intro st hk _ hd
    obtain ⟨h1, h2⟩ := whileRoundS_ends (trim := trim) hne fw hE hf st
    unfold whileS at hd
    cases hr : whileRoundS L E trim I lim f st with
    | diverge => exact h1 hr
    | more => rw [hr] at hd; cases hd
    | fail x => rw [hr] at hd; cases hd
    | ok b =>
      rw [hr] at hd
      cases b with
      | stop st' => cases hd
      | next st' =>
        have := h2 st' hr
        exact ih st' (by omega) (by omega) hd

/-- A counted list comes to an end. -/
theorem counterS_ends {L : ListField} (hne : L.lit ≠ []) {E : Elem} {trim : Bool} {lim : Option Nat}
    (hE : ∀ p, E.g I lim p ≠ .diverge) {f : Nat} (hf : I.stop lim < f) (n : Nat) : ∀ (st : St),
    counterS L E trim I lim f n st ≠ .diverge := by
  induction n with
  | zero => intro st h; cases h
  | succ n ih =>
    intro st hd
    unfold counterS at hd
    cases hes : elemS E L.lit I lim st.pos st.lah with
    | diverge => exact elemS_ends hE hes
    | more => rw [hes] at hd; cases hd
    | ok r => rw [hes] at hd; exact ih _ hd
    | fail x =>
      rw [hes] at hd
      dsimp only at hd
      split at hd
      · cases hr : recoverS L trim I lim f st (elemMark E L.lit I lim st.pos st.lah) x with
        | ok st' => rw [hr] at hd; exact ih st' hd
        | fail x => rw [hr] at hd; cases hd
        | more => rw [hr] at hd; cases hd
        | diverge => exact recoverS_ends hne hf _ _ _ hr
      · cases hd

/-- Bodies go forward, and come to an end. -/
theorem takeN_ends {n : Nat} {v : List Byte → Val} {lim : Option Nat} {pos : Nat} : takeN n v I lim pos ≠ .diverge := by
  intro h
  unfold takeN at h
  rcases has_cases I lim pos n with ⟨h1, -⟩ | ⟨h1, -, -⟩ | ⟨h1, -, -⟩ <;> rw [h1] at h <;> cases h

theorem bodyS_ends {g : G} (hb : Body g) : ∀ {lim : Option Nat} (pos : Nat), bodyS g I lim pos ≠ .diverge := by
  induction hb with
  | ret | fail | offset => intro lim pos h; cases h
  | unpack n f => intro lim pos; exact takeN_ends
  | bytesSize n => intro lim pos; exact takeN_ends
  | lit bs =>
    intro lim pos h
    unfold bodyS evalWith at h
    rcases has_cases I lim pos bs.length with ⟨h1, -⟩ | ⟨h1, -, -⟩ | ⟨h1, -, -⟩ <;> rw [h1] at h
    · simp only [SRes.ok_bind, if_true] at h; split at h <;> cases h
    · cases h
    · cases h
  | seq hg hk ihg ihk =>
    intro lim pos h
    unfold bodyS evalWith at h
    rename_i g k
    cases hr : bodyS g I lim pos with
    | ok r =>
      unfold bodyS at hr
      rw [hr] at h
      exact ihk r.1 r.2 h
    | fail x => unfold bodyS at hr; rw [hr] at h; cases h
    | more => unfold bodyS at hr; rw [hr] at h; cases h
    | diverge => exact ihg pos hr

theorem bodyS_forward {g : G} (hb : Body g) : Forward (bodyS g) := by
  induction hb with
  | ret v => intro I lim pos r hp h; injection h with h; subst h; exact ⟨Nat.le_refl _, hp⟩
  | fail e => intro I lim pos r hp h; cases h
  | offset => intro I lim pos r hp h; injection h with h; subst h; exact ⟨Nat.le_refl _, hp⟩
  | unpack n f =>
    intro I lim pos r hp h
    unfold bodyS evalWith takeN at h
    rcases has_cases I lim pos n with ⟨h1, h2⟩ | ⟨h1, -, -⟩ | ⟨h1, -, -⟩ <;> rw [h1] at h
    · injection h with h; subst h; exact ⟨Nat.le_add_right _ _, h2⟩
    · cases h
    · cases h
  | bytesSize n =>
    intro I lim pos r hp h
    unfold bodyS evalWith takeN at h
    rcases has_cases I lim pos n with ⟨h1, h2⟩ | ⟨h1, -, -⟩ | ⟨h1, -, -⟩ <;> rw [h1] at h
    · injection h with h; subst h; exact ⟨Nat.le_add_right _ _, h2⟩
    · cases h
    · cases h
  | lit bs =>
    intro I lim pos r hp h
    unfold bodyS evalWith at h
    rcases has_cases I lim pos bs.length with ⟨h1, h2⟩ | ⟨h1, -, -⟩ | ⟨h1, -, -⟩ <;> rw [h1] at h
    · simp only [SRes.ok_bind, if_true] at h
      split at h
      · injection h with h; subst h; exact ⟨Nat.le_add_right _ _, h2⟩
      · cases h
    · cases h
    · cases h
  | seq hg hk ihg ihk =>
    intro I lim pos r hp h
    rename_i g k
    unfold bodyS evalWith at h
    obtain ⟨r1, h1, h2⟩ := Parse.bind_ok h
    have a := ihg I lim pos r1 hp h1
    have b := ihk r1.1 I lim r1.2 r a.2 h2
    exact ⟨Nat.le_trans a.1 b.1, b.2⟩

end Verif.Sync
