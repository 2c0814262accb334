import Verif.Sync.Recover
/-! # Error recovery: lists do what the specification says -/

namespace Verif.Sync
open Verif.Stream Verif.Parse

variable {I : Input}

/-! ## Look-ahead -/

/-- One literal, once it is known whether it is there. -/
theorem lah_room_step {lim : Option Nat} {pos : Nat} {v : View} {l : List Byte} {ls : List (List Byte)} {i : Nat}
    {c1 c' : Chain} {s1 s' : Sched} {r : Option (Nat × Nat)}
    (ih : ∀ (i : Nat) (best : Option (Nat × Nat)), (∀ b, best = some b → b.2 ≤ stopNow c1 lim) →
      lahLoop v ls i best c1 s1 = .done r c' s' → ∀ b, r = some b → b.2 ≤ stopNow c' lim)
    (here : Bool) (best : Option (Nat × Nat)) (a1 : At c1 v pos lim)
    (hb1 : ∀ b, best = some b → b.2 ≤ stopNow c1 lim) (hh : here = true → pos + l.length ≤ stopNow c1 lim)
    (h : (match (generalizing := false) best with
      | none => lahLoop v ls (i + 1) (if (if here = true then v.begin.offset + l.length else v.begin.offset) ≠ v.begin.offset
          then some (i, if here = true then v.begin.offset + l.length else v.begin.offset) else none)
      | some (j, e) =>
        if (if here = true then v.begin.offset + l.length else v.begin.offset) ≠ v.begin.offset ∧
            (if here = true then v.begin.offset + l.length else v.begin.offset) ≥ e then
          if (if here = true then v.begin.offset + l.length else v.begin.offset) = e then P.raise .parseError
          else lahLoop v ls (i + 1) (some (i, if here = true then v.begin.offset + l.length else v.begin.offset))
        else lahLoop v ls (i + 1) (some (j, e)) : P (Option (Nat × Nat))) c1 s1 = .done r c' s') :
    ∀ b, r = some b → b.2 ≤ stopNow c' lim := by
  rw [a1.off] at h
  have hs : (if here = true then pos + l.length else pos) ≤ stopNow c1 lim := by
    have := a1.pos_le
    cases here with
    | true => exact hh rfl
    | false => exact this
  generalize (if here = true then pos + l.length else pos) = stop at h hs
  cases best with
  | none =>
    refine ih (i + 1) _ ?_ h
    intro b hb
    split at hb
    · injection hb with hb; subst hb; exact hs
    · cases hb
  | some x =>
    obtain ⟨j, e⟩ := x
    dsimp only at h
    split at h
    · split at h
      · cases h
      · refine ih (i + 1) _ ?_ h
        intro b hb
        injection hb with hb; subst hb; exact hs
    · exact ih (i + 1) _ hb1 h

/-- The end of the token that was found has arrived. -/
theorem lahLoop_room {lim : Option Nat} {pos : Nat} {v : View} (ls : List (List Byte)) :
    ∀ {c c' : Chain} {s s' : Sched} (i : Nat) (best : Option (Nat × Nat)) {r : Option (Nat × Nat)}, Env I c s → At c v pos lim →
    (∀ b, best = some b → b.2 ≤ stopNow c lim) → lahLoop v ls i best c s = .done r c' s' →
    ∀ b, r = some b → b.2 ≤ stopNow c' lim := by
  induction ls with
  | nil =>
    intro c c' s s' i best r env a hb h
    have h : (.done best c s : Out (Option (Nat × Nat))) = .done r c' s' := h
    injection h with h1 h2 h3
    subst h1; subst h2
    exact hb
  | cons l ls ih =>
    intro c c' s s' i best r env a hb h
    unfold lahLoop at h
    rw [P.bind_assoc, P.bind_apply] at h
    have hw := waitMin_spec l.length env a
    generalize waitMin v l.length c s = o at hw h
    cases hw with
    | yes w1 w2 w3 w4 w5 w6 =>
      rename_i c1 s1
      have a1 := a.keep w3
      simp only [if_true] at h
      rw [P.bind_done (P.read_ok (startsWith_now w2 a1 w4) s1)] at h
      exact lah_room_step (fun i b => ih i b w2 a1) _ best a1 (fun b e => Nat.le_trans (hb b e) (stopNow_mono w3 lim))
        (fun _ => w4) h
    | no w1 w2 w3 w4 w5 =>
      rename_i c1 s1
      simp only [Bool.false_eq_true, if_false] at h
      rw [P.pure_bind] at h
      exact lah_room_step (fun i b => ih i b w2 (a.keep w3)) false best (a.keep w3)
        (fun b e => Nat.le_trans (hb b e) (stopNow_mono w3 lim)) (fun h => by cases h) h
    | wait w1 => cases h

/-- Outcomes of the look-ahead. -/
def GSim (I : Input) (lim : Option Nat) (pos : Nat) (c : Chain) (out : Out (Sym × Pending)) : SRes (Sym × SPending) → Prop
  | .ok r => ∃ p c' s', out = .done (r.1, p) c' s' ∧ Env I c' s' ∧ Step true c c' ∧ PendAt c' lim p r.2 ∧
      (pos < stopNow c' lim ∨ completeNow c' lim = true)
  | .fail e => ∃ c' s', out = .throw e c' s' ∧ Env I c' s' ∧ Step true c c' ∧
      (pos < stopNow c' lim ∨ completeNow c' lim = true)
  | .more => ∃ c', out = .suspended c'
  | .diverge => out = .diverge

theorem getLah_spec (L : ListField) {lim : Option Nat} {fr : Frame} {st : St} {c : Chain} {s : Sched} (env : Env I c s)
    (a : At c fr.cur st.pos lim) (hp : PendAt c lim fr.lah st.lah) (room : st.pos < stopNow c lim ∨ completeNow c lim = true) :
    GSim I lim st.pos c (getLah L fr c s) (lahS L I lim st) := by
  unfold getLah lahS
  generalize hpe : fr.lah = p at hp ⊢
  generalize st.lah = q at hp ⊢
  cases p with
  | some x => cases q with
    | none => exact absurd hp id
    | some y =>
      obtain ⟨t, e⟩ := x
      obtain ⟨u, e'⟩ := y
      have h1 : t = u := hp.1
      subst h1
      exact ⟨_, c, s, rfl, env, Step.refl c, hp, room⟩
  | none => cases q with
    | some y => exact absurd hp id
    | none =>
      dsimp only
      rcases atEod_spec2 env a with ⟨c1, s1, k1, k2, k3, k4, k5⟩ | ⟨c1, s1, k1, k2, k3, k4, k5, k6⟩ | ⟨c1, k1, k2⟩
      · rw [k1, P.bind_done k2]
        simp only [SRes.ok_bind, Bool.false_eq_true, if_false]
        have a1 := a.keep k4
        have h := lahLoop_spec (L.lit :: L.follow) 0 none k3 a1
        rw [show bestAt st.pos none = none from rfl] at h
        cases hl : lahSpec I lim st.pos (L.lit :: L.follow) 0 none with
        | ok r =>
          rw [hl] at h
          obtain ⟨c2, s2, h1, h2, h3, h4⟩ := h
          have m3 := stopNow_mono h3 lim
          rw [P.bind_done h1]
          simp only [SRes.ok_bind]
          cases r with
          | none => exact ⟨none, c2, s2, rfl, h2, k4.trans h3, trivial, Or.inl (by omega)⟩
          | some b =>
            obtain ⟨i, n⟩ := b
            simp only [bestAt, Option.map_some]
            obtain ⟨j, e, ho, hi⟩ := Chain.incr_spec h2.live h4.iter (st.pos + n - fr.cur.begin.offset)
            rw [P.bind_done (P.read_ok e s2)]
            have hr := lahLoop_room (L.lit :: L.follow) 0 none k3 a1 (fun b h => by cases h) h1 _ rfl
            refine ⟨_, c2, s2, rfl, h2, k4.trans h3, ⟨rfl, hi, ?_, hr⟩, Or.inl (by omega)⟩
            rw [ho, h4.off]
            omega
        | fail e =>
          rw [hl] at h
          obtain ⟨c2, s2, h1, h2, h3⟩ := h
          have m3 := stopNow_mono h3 lim
          exact ⟨c2, s2, P.bind_throw h1, h2, k4.trans h3, Or.inl (by omega)⟩
        | more => rw [hl] at h; obtain ⟨c2, h1⟩ := h; exact ⟨c2, P.bind_suspended h1⟩
        | diverge => rw [hl] at h; exact P.bind_diverge h
      · rw [k1, P.bind_done k2]
        exact ⟨none, c1, s1, rfl, k3, k4, trivial, Or.inr k5⟩
      · rw [k1, P.bind_suspended k2]
        exact ⟨c1, rfl⟩

/-! ## Rounds -/

/-- An element can fail late. -/
def Bad (E : Elem) (I : Input) (lim : Option Nat) : Prop :=
  ∃ p e, E.g I lim p = .fail e ∧ recoverable e = true ∧ E.late I lim p = true

theorem bad_of_elem {E : Elem} {lit : List Byte} {lim : Option Nat} {pos : Nat} {q : SPending} {e : Exn}
    (h : elemS E lit I lim pos q = .fail e) (hr : recoverable e = true) (hl : elemLate E lit I lim pos q = true) :
    Bad E I lim := by
  unfold elemS at h
  unfold elemLate at hl
  cases hq : litS lit I lim pos q with
  | ok p => rw [hq] at h hl; exact ⟨p, e, h, hr, hl⟩
  | fail x => rw [hq] at hl; cases hl
  | more => rw [hq] at hl; cases hl
  | diverge => rw [hq] at hl; cases hl

/-- Results of a round. -/
def RRound (I : Input) (lim : Option Nat) (trim : Bool) (c c' : Chain) (s' : Sched) : Round → SRound → Prop
  | .next fr log, .next st => Env I c' s' ∧ Step (!trim) c c' ∧ FrAt c' lim trim fr st ∧ log = st.log
  | .stop fr log, .stop st => Env I c' s' ∧ Step (!trim) c c' ∧ FrAt c' lim trim fr st ∧ log = st.log
  | _, _ => False

theorem RRound.from {lim : Option Nat} {trim : Bool} {c c1 c' : Chain} {s' : Sched} {a : Round} {b : SRound}
    (st : Step (!trim) c c1) (h : RRound I lim trim c1 c' s' a b) : RRound I lim trim c c' s' a b := by
  cases a <;> cases b <;> first | exact absurd h id | exact ⟨h.1, st.trans h.2.1, h.2.2⟩

/-- Recovery ends a round. -/
theorem again_spec (L : ListField) (trim : Bool) {lim : Option Nat} {f : Nat} (hf : 0 < f) {fr : Frame} {st : St} {mark : Nat}
    {late : Bool} {x : Exn} {bad : Prop} (hb : late = true → bad) {c0 c : Chain} {s : Sched} (st0 : Step (!trim) c0 c)
    (env : Env I c s) (hp : c.HeadPos)
    (a : CurAt c fr.cur st.pos lim) (hpend : PendAt c lim fr.lah st.lah) (ht : trim = false → c.headOffset ≤ st.pos)
    (left : Left lim trim c mark late) (room : st.pos < stopNow c lim ∨ completeNow c lim = true) :
    Outc (RRound I lim trim c0) bad ((do
      let q ← syncNext L.lit L.hook trim f { fr with err := some x } st.log
      pure (.next q.1 q.2) : P Round) c s) (again (recoverS L trim I lim f st mark x)) := by
  have h := (syncNext_spec L trim hf (x := x) env hp a hpend ht left room).mono (bad' := bad) hb (fun _ _ _ _ h => h)
  refine Outc.bind h ?_
  intro q st' c' s' hq
  exact Or.inl ⟨_, c', s', rfl, RRound.from st0 hq⟩

theorem finishLoopBody_forward {lim : Option Nat} {pos pos' : Nat} {c : Chain} {s : Sched} {v' : View} {old : Iter}
    (env : Env I c s) (a : At c v' pos' lim) (ho : old.offset = pos) (hlt : pos < pos') :
    finishLoopBody old v' c s = .done () c s := by
  unfold finishLoopBody
  have hr : (do
      let x ← v'.begin.isEnd c
      let y ← old.isEnd c
      .ok (x && y) : Res Bool) = .ok (decide (pos' ≥ c.stop) && decide (pos ≥ c.stop)) := by
    rw [isEnd_spec env.live, isEnd_spec env.live, a.off, ho]; rfl
  have := a.stop
  rw [P.bind_done (P.read_ok hr s), if_neg]
  · rfl
  · rw [a.off, ho]
    simp only [Bool.and_eq_true, decide_eq_true_eq]
    omega

theorem elemS_forward {E : Elem} (fw : Forward E.g) {lit : List Byte} (hne : lit ≠ []) {lim : Option Nat} {pos : Nat}
    {q : SPending} {r : Val × Nat} (h : elemS E lit I lim pos q = .ok r) : pos < r.2 := by
  unfold elemS at h
  obtain ⟨p, h1, h2⟩ := Parse.bind_ok h
  have h3 := litS_forward hne h1
  have h4 : 0 < lit.length := List.length_pos_iff.2 hne
  have := fw I lim p r (by omega) h2
  omega

/-- One round of a list. -/
theorem whileRound_spec {L : ListField} (hne : L.lit ≠ []) {E : Elem} (fw : Forward E.g) {g : Parser} {trim : Bool}
    (hg : RefinesM trim g E) (hI : I.data.length < 2 ^ 64 - 1) {lim : Option Nat} {f : Nat} (hf : 0 < f) {fr : Frame} {st : St}
    {c : Chain} {s : Sched} (env : Env I c s) (hp : c.HeadPos) (h : FrAt c lim trim fr st) :
    Outc (RRound I lim trim c) (Bad E I lim) (whileRound L g trim f fr st.log c s) (whileRoundS L E trim I lim f st) := by
  unfold whileRound whileRoundS
  rw [P.bind_apply]
  have hw := waitMin_spec 1 env h.at_
  generalize waitMin fr.cur 1 c s = o at hw ⊢
  -- after waiting
  have key : ∀ c1 s1, Env I c1 s1 → Step true c c1 → (st.pos < stopNow c1 lim ∨ completeNow c1 lim = true) →
      Outc (RRound I lim trim c) (Bad E I lim) ((do
        let r ← whileTry L g trim fr
        match r.2 with
        | .ok (some v) => pure (.next r.1 (st.log ++ [.value v]))
        | .ok none => pure (.stop r.1 st.log)
        | .error x => do
          let q ← syncNext L.lit L.hook trim f { r.1 with err := some x } st.log
          pure (.next q.1 q.2) : P Round) c1 s1)
      (match lahS L I lim st with
        | .diverge => .diverge
        | .more => .more
        | .fail x => if recoverable x then again (recoverS L trim I lim f st st.pos x) else .fail x
        | .ok (.eod, p) =>
          if L.follow.isEmpty then .ok (.stop { st with lah := p })
          else again (recoverS L trim I lim f { st with lah := p } st.pos .parseError)
        | .ok (.none, p) => again (recoverS L trim I lim f { st with lah := p } st.pos .parseError)
        | .ok (.follow, p) => .ok (.stop { st with lah := p })
        | .ok (.elem, p) => match elemS E L.lit I lim st.pos p with
          | .diverge => .diverge
          | .more => .more
          | .fail x =>
            if recoverable x then again (recoverS L trim I lim f { st with lah := p } (elemMark E L.lit I lim st.pos p) x)
            else .fail x
          | .ok r => .ok (.next { st with pos := r.2, lah := none, log := st.log ++ [.value r.1] })) := by
    intro c1 s1 e1 t1 room1
    have a1 := h.at_.keep t1
    have gl := getLah_spec L e1 a1 (h.pend.step t1) room1
    unfold whileTry
    rw [P.bind_assoc]
    cases hl : lahS L I lim st with
    | diverge =>
      rw [hl] at gl
      exact Or.inl (P.bind_diverge (attempt_diverge gl))
    | more =>
      rw [hl] at gl
      obtain ⟨c2, h2⟩ := gl
      exact Or.inl ⟨c2, P.bind_suspended (attempt_suspended h2)⟩
    | fail x =>
      rw [hl] at gl
      obtain ⟨c2, s2, h2, h3, h4, room2⟩ := gl
      have h5 := attempt_throw h2
      dsimp only
      have t2 := t1.trans h4
      have a2 := h.at_.keep t2
      by_cases hr : recoverable x = true
      · rw [if_pos hr] at h5
        rw [if_pos hr, P.bind_done h5]
        dsimp only
        rw [P.pure_bind]
        exact again_spec L trim hf (late := false) (fun h => by cases h) t2.weaken h3 (headPos_step t2 hp) (CurAt.of a2)
          (h.pend.step t2) (fun _ => a2.start)
          (fun t => ⟨by rw [t2.keep rfl]; exact h.head t, a2.pos_le, fun _ => room2⟩) room2
      · rw [if_neg hr] at h5
        rw [if_neg hr]
        exact ⟨x, c2, s2, P.bind_throw h5, Or.inl rfl⟩
    | ok r =>
      rw [hl] at gl
      obtain ⟨sym, q⟩ := r
      obtain ⟨p, c2, s2, h2, h3, h4, h5, room2⟩ := gl
      dsimp only at h2 h5 ⊢
      rw [P.bind_done (attempt_done h2)]
      have t2 := t1.trans h4
      have a2 := h.at_.keep t2
      have hp2 := headPos_step t2 hp
      have head2 : trim = true → c2.headOffset = st.pos := fun t => by rw [t2.keep rfl]; exact h.head t
      have fr2 : FrAt c2 lim trim { fr with lah := p } { st with lah := q } := ⟨a2, h5, h.err, head2, fun _ => room2⟩
      -- recovery at the position itself
      have rec_ : ∀ x, Outc (RRound I lim trim c) (Bad E I lim) ((do
          let q ← syncNext L.lit L.hook trim f { cur := fr.cur, lah := p, err := some x } st.log
          pure (.next q.1 q.2) : P Round) c2 s2) (again (recoverS L trim I lim f { st with lah := q } st.pos x)) := by
        intro x
        exact again_spec L trim hf (fr := { fr with lah := p }) (st := { st with lah := q }) (late := false)
          (fun h => by cases h) t2.weaken h3 hp2 (CurAt.of a2) h5 (fun _ => a2.start)
          (fun t => ⟨head2 t, a2.pos_le, fun _ => room2⟩) room2
      cases sym with
      | eod =>
        dsimp only
        rw [P.pure_bind]
        cases hfe : L.follow.isEmpty with
        | true => exact Or.inl ⟨_, c2, s2, rfl, h3, t2.weaken, fr2, rfl⟩
        | false => exact rec_ .parseError
      | none =>
        dsimp only
        rw [P.pure_bind]
        exact rec_ .parseError
      | follow =>
        dsimp only
        rw [P.pure_bind]
        exact Or.inl ⟨_, c2, s2, rfl, h3, t2.weaken, fr2, rfl⟩
      | elem =>
        dsimp only
        rw [P.bind_assoc]
        have he := elemP_spec hg hI hne h3 a2 h5 head2 (fun _ => room2)
        generalize hes : elemS E L.lit I lim st.pos q = re at he ⊢
        cases re with
        | diverge => exact Or.inl (P.bind_diverge (attempt_diverge he))
        | more => obtain ⟨c3, k1⟩ := he; exact Or.inl ⟨c3, P.bind_suspended (attempt_suspended k1)⟩
        | fail x =>
          obtain ⟨c3, s3, k1, k2, k3, k4⟩ := he
          have k5 := attempt_throw k1
          dsimp only
          by_cases hr : recoverable x = true
          · rw [if_pos hr] at k5
            rw [if_pos hr, P.bind_done k5]
            dsimp only
            rw [P.pure_bind]
            have room3 := elemP_room hg hI hne h3 a2 h5 head2 (fun _ => room2) hes k1
            exact again_spec L trim hf (fr := { fr with lah := p }) (st := { st with lah := q })
              (fun h => bad_of_elem hes hr h) (t2.weaken.trans k3) k2 (headPos_step k3 hp2) ((CurAt.of a2).step k3)
              (h5.step k3) (fun t => by
                subst t
                rw [k3.keep rfl]
                exact a2.start) k4 room3
          · rw [if_neg hr] at k5
            rw [if_neg hr]
            exact ⟨x, c3, s3, P.bind_throw k5, Or.inl rfl⟩
        | ok r =>
          obtain ⟨v, c3, s3, k1, k2, k3, k4, k5⟩ := he
          rw [P.bind_done (attempt_done k1)]
          dsimp only
          have hlt := elemS_forward fw hne hes
          rw [P.bind_assoc, P.bind_done (attempt_done (finishLoopBody_forward k2 k4 a2.off hlt)), P.pure_bind]
          exact Or.inl ⟨_, c3, s3, rfl, k2, t2.weaken.trans k3, ⟨k4, trivial, h.err, k5, fun h => by cases h⟩, rfl⟩
  cases hw with
  | yes w1 w2 w3 w4 w5 w6 =>
    rw [w1]
    exact key _ _ w2 w3 (Or.inl (by omega))
  | no w1 w2 w3 w4 w5 =>
    rw [w1]
    exact key _ _ w2 w3 (Or.inr w4)
  | wait w1 => rw [w1]; exact Or.inl ⟨_, rfl⟩

/-! ## Loops -/

theorem RFr.from {lim : Option Nat} {trim : Bool} {c c1 c' : Chain} {s' : Sched} {a : Frame × List Ev} {b : St}
    (st : Step (!trim) c c1) (h : RFr I lim trim c1 c' s' a b) : RFr I lim trim c c' s' a b :=
  ⟨h.1, st.trans h.2.1, h.2.2⟩

/-- A list `X[]`. -/
theorem whileLoop_spec {L : ListField} (hne : L.lit ≠ []) {E : Elem} (fw : Forward E.g) {g : Parser} {trim : Bool}
    (hg : RefinesM trim g E) (hI : I.data.length < 2 ^ 64 - 1) {lim : Option Nat} {f : Nat} (hf : 0 < f) (k : Nat) :
    ∀ {fr : Frame} {st : St} {c : Chain} {s : Sched}, Env I c s → c.HeadPos → FrAt c lim trim fr st →
    Outc (RFr I lim trim c) (Bad E I lim) (whileLoop L g trim f k fr st.log c s) (whileS L E trim I lim f k st) := by
  induction k with
  | zero => intro fr st c s env hp h; exact Or.inl rfl
  | succ k ih =>
    intro fr st c s env hp h
    unfold whileLoop whileS
    refine Outc.bind (whileRound_spec hne fw hg hI hf env hp h) ?_
    intro a b c' s' hr
    cases a with
    | next fr' log' => cases b with
      | next st' =>
        obtain ⟨h1, h2, h3, h4⟩ := hr
        subst h4
        exact (ih h1 (headPos_step h2 hp) h3).mono id (fun _ _ _ _ x => RFr.from h2 x)
      | stop st' => exact absurd hr id
    | stop fr' log' => cases b with
      | next st' => exact absurd hr id
      | stop st' => exact Or.inl ⟨_, c', s', rfl, hr⟩

/-- A list `X[n]`. -/
theorem counterLoop_spec {L : ListField} (hne : L.lit ≠ []) {E : Elem} {g : Parser} {trim : Bool}
    (hg : RefinesM trim g E) (hI : I.data.length < 2 ^ 64 - 1) {lim : Option Nat} {f : Nat} (hf : 0 < f) (n : Nat) :
    ∀ {fr : Frame} {st : St} {c : Chain} {s : Sched}, Env I c s → c.HeadPos → FrAt c lim trim fr st →
    Outc (RFr I lim trim c) (Bad E I lim) (counterLoop L g trim f n fr st.log c s) (counterS L E trim I lim f n st) := by
  induction n with
  | zero => intro fr st c s env hp h; exact Or.inl ⟨_, c, s, rfl, env, Step.refl c, h, rfl⟩
  | succ n ih =>
    intro fr st c s env hp h
    unfold counterLoop counterS
    have he := elemP_spec hg hI hne env h.at_ h.pend h.head h.room
    generalize hes : elemS E L.lit I lim st.pos st.lah = re at he ⊢
    cases re with
    | diverge => exact Or.inl (P.bind_diverge (attempt_diverge he))
    | more => obtain ⟨c3, k1⟩ := he; exact Or.inl ⟨c3, P.bind_suspended (attempt_suspended k1)⟩
    | ok r =>
      obtain ⟨v, c3, s3, k1, k2, k3, k4, k5⟩ := he
      rw [P.bind_done (attempt_done k1)]
      exact (ih (fr := { fr with cur := v, lah := none })
        (st := { st with pos := r.2, lah := none, log := st.log ++ [.value r.1] }) k2 (headPos_step k3 hp)
        ⟨k4, trivial, h.err, k5, fun h => by cases h⟩).mono id (fun _ _ _ _ x => RFr.from k3 x)
    | fail x =>
      obtain ⟨c3, s3, k1, k2, k3, k4⟩ := he
      have k5 := attempt_throw k1
      dsimp only
      by_cases hr : recoverable x = true
      · rw [if_pos hr] at k5
        rw [if_pos hr, P.bind_done k5]
        dsimp only
        have room3 := elemP_room hg hI hne env h.at_ h.pend h.head h.room hes k1
        have hp3 := headPos_step k3 hp
        have hs := (syncNext_spec L trim hf (x := x) k2 hp3 ((CurAt.of h.at_).step k3) (h.pend.step k3)
          (fun t => by subst t; rw [k3.keep rfl]; exact h.at_.start) k4 room3).mono (bad' := Bad E I lim)
          (fun h => bad_of_elem hes hr h) (fun _ _ _ _ x => x)
        refine Outc.bind hs ?_
        intro q st' c' s' hq
        obtain ⟨j1, j2, j3, j4⟩ := hq
        rw [j4]
        exact (ih j1 (headPos_step j2 hp3) j3).mono id (fun _ _ _ _ x => RFr.from (k3.trans j2) x)
      · rw [if_neg hr] at k5
        rw [if_neg hr]
        exact ⟨x, c3, s3, P.bind_throw k5, Or.inl rfl⟩

end Verif.Sync
