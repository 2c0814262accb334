import Verif.Sync.Base
/-! # Error recovery: searching for a synchronization token -/

namespace Verif.Sync
open Verif.Stream Verif.Parse

variable {I : Input}

/-- The pending symbol of the machine is that of the specification. -/
def PendAt (c : Chain) (lim : Option Nat) : Pending → SPending → Prop
  | none, none => True
  | some (t, it), some (u, e) => t = u ∧ c.IterOk it ∧ it.offset = e ∧ e ≤ stopNow c lim
  | _, _ => False

theorem PendAt.step {k : Bool} {c c' : Chain} {lim : Option Nat} {p : Pending} {q : SPending} (st : Step k c c')
    (h : PendAt c lim p q) : PendAt c' lim p q := by
  cases p with
  | none => cases q with
    | none => trivial
    | some y => exact h
  | some x => cases q with
    | none => exact h
    | some y =>
      obtain ⟨h1, h2, h3, h4⟩ := h
      exact ⟨h1, h2.evolves st.evolves, h3, Nat.le_trans h4 (stopNow_mono st lim)⟩

theorem PendAt.isSome {c : Chain} {lim : Option Nat} {p : Pending} {q : SPending} (h : PendAt c lim p q) :
    p.isSome = q.isSome := by
  cases p <;> cases q <;> first | rfl | exact absurd h id

theorem tokenAt_spec (lit : List Byte) {fr : Frame} {pos : Nat} {lah : SPending} {lim : Option Nat} {c : Chain} {s : Sched}
    (env : Env I c s) (a : At c fr.cur pos lim) (hl : PendAt c lim fr.lah lah) :
    (∃ p p' c' s', tokenS lit I lim pos lah = .ok p ∧ tokenAt lit fr c s = .done p' c' s' ∧ Env I c' s' ∧ Step true c c' ∧
      PendAt c' lim p' p) ∨
    (∃ c', tokenS lit I lim pos lah = .more ∧ tokenAt lit fr c s = .suspended c') := by
  unfold tokenAt tokenS
  rw [P.bind_assoc, P.bind_apply]
  have hw := waitMin_spec lit.length env a
  generalize waitMin fr.cur lit.length c s = o at hw ⊢
  cases hw with
  | yes w1 w2 w3 w4 w5 w6 =>
    rename_i c' s'
    have a' := a.keep w3
    left
    rw [w1]
    simp only [SRes.ok_bind, if_true]
    rw [P.bind_done (P.read_ok (startsWith_now w2 a' w4) s')]
    by_cases hp : lit <+: I.rest lim pos
    · simp only [hp, decide_true, if_true, true_and]
      obtain ⟨j, e, ho, hi⟩ := Chain.incr_spec w2.live a'.iter lit.length
      rw [P.bind_done (P.read_ok e s'), ho]
      by_cases hne : lit = []
      · subst hne
        simp only [List.length_nil, Nat.add_zero, ne_eq, not_true_eq_false, if_false]
        exact ⟨_, _, c', s', rfl, rfl, w2, w3, hl.step w3⟩
      · have : 0 < lit.length := List.length_pos_iff.2 hne
        rw [if_pos (show fr.cur.begin.offset + lit.length ≠ fr.cur.begin.offset by omega), if_pos hne]
        exact ⟨_, _, c', s', rfl, rfl, w2, w3, rfl, hi, by rw [ho, a'.off], w4⟩
    · simp only [hp, decide_false, Bool.false_eq_true, if_false, false_and, and_false]
      rw [P.pure_bind]
      simp only [ne_eq, not_true_eq_false, if_false]
      exact ⟨_, _, c', s', rfl, rfl, w2, w3, hl.step w3⟩
  | no w1 w2 w3 w4 w5 =>
    rename_i c' s'
    left
    rw [w1]
    simp only [SRes.ok_bind, Bool.false_eq_true, if_false, false_and]
    rw [P.pure_bind]
    simp only [Bool.false_eq_true, if_false]
    rw [P.pure_bind]
    simp only [ne_eq, not_true_eq_false, if_false]
    exact ⟨_, _, c', s', rfl, rfl, w2, w3, hl.step w3⟩
  | wait w1 =>
    right
    rw [w1]
    exact ⟨_, rfl, rfl⟩

/-- Outcomes of a search; `T` if the stream begins at the position (that is so when trimming, but for an exception); `inside` if it is known that the data does not end there. -/
def SimF (I : Input) (lim : Option Nat) (trim inside : Bool) (T : Prop) (c : Chain) (err : Option Exn) (out : Out Frame) :
    SRes (Nat × SPending) → Prop
  | .ok r => ∃ fr c' s', out = .done fr c' s' ∧ Env I c' s' ∧ Step (!trim) c c' ∧ At c' fr.cur r.1 lim ∧
      PendAt c' lim fr.lah r.2 ∧ fr.err = err ∧ (T → c'.headOffset = r.1) ∧
      (inside = true → r.1 + 1 ≤ stopNow c' lim)
  | .fail e => ∃ c' s', out = .throw e c' s'
  | .more => ∃ c', out = .suspended c'
  | .diverge => out = .diverge

theorem SimF.from {lim : Option Nat} {trim i : Bool} {T : Prop} {c c' : Chain} {err : Option Exn} {out : Out Frame}
    {r : SRes (Nat × SPending)} (st : Step (!trim) c c') (h : SimF I lim trim i T c' err out r) :
    SimF I lim trim i T c err out r := by
  cases r with
  | ok r =>
    obtain ⟨fr, c2, s2, h1, h2, h3, h4⟩ := h
    exact ⟨fr, c2, s2, h1, h2, st.trans h3, h4⟩
  | fail e => exact h
  | more => exact h
  | diverge => exact h

theorem searchLoop_spec (lit : List Byte) (trim : Bool) {T : Prop} (hT : T → trim = true) {lim : Option Nat} (f : Nat) : ∀ {fr : Frame} {pos : Nat}
    {lah : SPending} {c : Chain} {s : Sched}, Env I c s → c.HeadPos → At c fr.cur pos lim → PendAt c lim fr.lah lah →
    (T → c.headOffset = pos) →
    SimF I lim trim false T c fr.err (searchLoop lit trim f fr c s) (searchS lit I lim f pos lah) := by
  induction f with
  | zero => intro fr pos lah c s env hp a hl ht; rfl
  | succ f ih =>
    intro fr pos lah c s env hp a hl ht
    unfold searchLoop searchS
    rcases tokenAt_spec lit env a hl with ⟨p, p', c1, s1, h1, h2, h3, h4, h5⟩ | ⟨c1, h1, h2⟩
    · rw [h1, P.bind_done h2]
      simp only [SRes.ok_bind]
      have a1 := a.keep h4
      rcases atEod_spec2 h3 a1 with ⟨c2, s2, k1, k2, k3, k4, k5⟩ | ⟨c2, s2, k1, k2, k3, k4, k5, k6⟩ | ⟨c2, k1, k2⟩
      · rw [k1, P.bind_done k2]
        simp only [SRes.ok_bind, Bool.false_or, h5.isSome]
        have a2 := a1.keep k4
        have st := h4.trans k4
        by_cases hs : p.isSome = true
        · rw [if_pos hs, if_pos hs]
          exact ⟨_, c2, s2, rfl, k3, st.weaken, a2, h5.step k4, rfl, fun t => by rw [st.keep rfl]; exact ht t,
            (fun h => by cases h)⟩
        · rw [if_neg hs, if_neg hs]
          have hst := a2.start
          have hle := stopNow_le c2 lim
          obtain ⟨v, c3, n1, n2, n3, n4, n5, n6, n7⟩ := nextData_spec trim k3 (headPos_step st hp) (CurAt.of a2)
            (fun _ => hst) k5 (by omega) (Or.inl (by omega))
          have hr : restart trim pos c2.headOffset = pos + 1 := by
            unfold restart; split <;> omega
          rw [hr] at n4 n7
          rw [P.bind_done n1]
          exact SimF.from (st.weaken.trans n3) (ih (fr := { fr with cur := v, lah := p' }) n2
            (headPos_step n3 (headPos_step st hp)) n4 ((h5.step k4).step n3) (fun t => n7 (hT t)))
      · rw [k1, P.bind_done k2]
        simp only [SRes.ok_bind, Bool.true_or, if_true]
        have st := h4.trans k4
        exact ⟨_, c2, s2, rfl, k3, st.weaken, a1.keep k4, h5.step k4, rfl, fun t => by rw [st.keep rfl]; exact ht t,
            (fun h => by cases h)⟩
      · rw [k1, P.bind_suspended k2]
        exact ⟨c2, rfl⟩
    · rw [h1, P.bind_suspended h2]
      exact ⟨c1, rfl⟩

theorem syncP_spec (lit : List Byte) (trim : Bool) {T : Prop} (hT : T → trim = true) {lim : Option Nat} (f : Nat) {fr : Frame} {pos : Nat}
    {lah : SPending} {c : Chain} {s : Sched} (env : Env I c s) (hp : c.HeadPos) (a : At c fr.cur pos lim)
    (hl : PendAt c lim fr.lah lah) (ht : T → c.headOffset = pos) :
    SimF I lim trim true T c fr.err (syncP lit trim f fr c s) (syncS lit I lim f pos lah) := by
  unfold syncP syncS
  rcases atEod_spec2 env a with ⟨c1, s1, k1, k2, k3, k4, k5⟩ | ⟨c1, s1, k1, k2, k3, k4, k5, k6⟩ | ⟨c1, k1, k2⟩
  · rw [k1, P.bind_done k2]
    simp only [SRes.ok_bind, Bool.false_eq_true, if_false]
    have h := searchLoop_spec lit trim hT f (fr := fr) k3 (headPos_step k4 hp) (a.keep k4) (hl.step k4)
      (fun t => by rw [k4.keep rfl]; exact ht t)
    refine SimF.from k4.weaken ?_
    rw [P.bind_apply]
    generalize searchLoop lit trim f fr c1 s1 = o at h ⊢
    cases hr : searchS lit I lim f pos lah with
    | ok r =>
      rw [hr] at h
      obtain ⟨fr', c2, s2, rfl, h2, h3, h4, h5, h6, h7, -⟩ := h
      simp only [SRes.ok_bind]
      rcases atEod_spec2 h2 h4 with ⟨c3, s3, j1, j2, j3, j4, j5⟩ | ⟨c3, s3, j1, j2, j3, j4, j5, j6⟩ | ⟨c3, j1, j2⟩
      · rw [j1, P.bind_done j2]
        simp only [SRes.ok_bind, Bool.false_or]
        have hi := h5.isSome
        cases hq : r.2 with
        | none =>
          rw [hq] at hi
          have : fr'.lah.isNone = true := by cases hx : fr'.lah <;> simp_all
          rw [this]
          exact ⟨c3, s3, rfl⟩
        | some q =>
          rw [hq] at hi
          have : fr'.lah.isNone = false := by cases hx : fr'.lah <;> simp_all
          rw [this]
          simp only [Option.isNone_some, Bool.false_eq_true, if_false]
          refine ⟨fr', c3, s3, rfl, j3, h3.trans j4.weaken, h4.keep j4, ?_, h6,
            fun t => by rw [j4.keep rfl]; exact h7 t, fun _ => j5⟩
          exact h5.step j4
      · rw [j1, P.bind_done j2]
        exact ⟨c3, s3, rfl⟩
      · rw [j1, P.bind_suspended j2]
        exact ⟨c3, rfl⟩
    | fail e => rw [hr] at h; obtain ⟨c2, s2, rfl⟩ := h; exact ⟨c2, s2, rfl⟩
    | more => rw [hr] at h; obtain ⟨c2, rfl⟩ := h; exact ⟨c2, rfl⟩
    | diverge => rw [hr] at h; cases h; rfl
  · rw [k1, P.bind_done k2]
    exact ⟨c1, s1, rfl⟩
  · rw [k1, P.bind_suspended k2]
    exact ⟨c1, rfl⟩

/-! ## What the search finds -/

theorem has_mono {lim : Option Nat} {pos n : Nat} : (I.has lim pos n = .ok true ↔ pos + n ≤ I.stop lim) := by
  unfold Input.has
  constructor
  · intro h
    split at h
    · assumption
    · split at h <;> cases h
  · intro h; rw [if_pos h]

theorem searchS_lower (lit : List Byte) {lim : Option Nat} (f : Nat) : ∀ {pos : Nat} {lah : SPending} {r : Nat × SPending},
    searchS lit I lim f pos lah = .ok r → pos ≤ r.1 := by
  induction f with
  | zero => intro pos lah r h; cases h
  | succ f ih =>
    intro pos lah r h
    unfold searchS at h
    obtain ⟨p, -, h⟩ := Parse.bind_ok h
    obtain ⟨e, -, h⟩ := Parse.bind_ok h
    split at h
    · injection h with h; subst h; exact Nat.le_refl _
    · have := ih h; omega

end Verif.Sync
