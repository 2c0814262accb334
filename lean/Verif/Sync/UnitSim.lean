import Verif.Sync.Unit
/-! # Error recovery in units: the machine does what the specification says -/

namespace Verif.Sync
open Verif.Stream Verif.Parse

variable {I : Input}

/-- Fields that leave the input where they began if they fail: when trimming, they must not consist of several parts. -/
def Piece (trim : Bool) (g : G) : Prop := Body g ∧ (trim = true → ∀ I lim pos, markOf g I lim pos = pos)

/-- All fields are of that kind. -/
inductive Fields.Ok (trim : Bool) : Fields → Prop where
  | done : Fields.Ok trim .done
  | field {g hook rest} : Piece trim g → (∀ v, Fields.Ok trim (rest v)) → Fields.Ok trim (.field g hook rest)

/-- Where the machine is. -/
structure Here (I : Input) (trim : Bool) (c : Chain) (s : Sched) (v : View) (pos : Nat) : Prop where
  env : Env I c s
  hp : c.HeadPos
  at_ : At c v pos none
  head : trim = true → c.headOffset = pos

theorem Here.keep {trim : Bool} {c c' : Chain} {s s' : Sched} {v : View} {pos : Nat} (h : Here I trim c s v pos)
    (env : Env I c' s') (st : Step true c c') : Here I trim c' s' v pos :=
  ⟨env, headPos_step st h.hp, h.at_.keep st, fun t => by rw [st.keep rfl]; exact h.head t⟩

/-- Outcomes of fields. -/
def SimFields (I : Input) (trim : Bool) (out : Out (Frame × List Ev × Option Exn)) : SRes Place → Prop
  | .ok t => ∃ fr c s, out = .done (fr, t.log, t.stopped) c s ∧ Here I trim c s fr.cur t.pos ∧ fr.lah = none ∧ fr.err = t.err
  | .fail e => ∃ c s, out = .throw e c s
  | .more => ∃ c, out = .suspended c
  | .diverge => out = .diverge

theorem fieldsP_spec (trim : Bool) (hI : I.data.length < 2 ^ 64 - 1) {F : Fields} (hF : F.Ok trim) :
    ∀ {fr : Frame} {pos : Nat} {log : List Ev} {c : Chain} {s : Sched}, Here I trim c s fr.cur pos → fr.lah = none →
    SimFields I trim (fieldsP trim F fr log c s) (fieldsS I F pos fr.err log) := by
  induction hF with
  | done => intro fr pos log c s h hl; exact ⟨fr, c, s, rfl, h, hl, rfl⟩
  | @field g hook rest hg _ ih =>
    intro fr pos log c s h hl
    unfold fieldsP fieldsS
    have hr := body_refinesM trim hg.1 I hI none fr.cur pos c s h.env h.at_ h.head
    simp only [elemOf] at hr
    rw [P.bind_apply]
    cases hb : bodyS g I none pos with
    | ok r =>
      rw [hb] at hr
      obtain ⟨v, c1, s1, h1, h2, h3, h4, h5⟩ := hr
      rw [attempt_done h1]
      dsimp only
      have h' : Here I trim c1 s1 v r.2 := ⟨h2, headPos_step h3 h.hp, h4, h5⟩
      cases hh : runHook (hook r.1) fr.err (log ++ [.value r.1]) with
      | ok y => exact ih r.1 (fr := { fr with cur := v, err := y.1 }) h' hl
      | error x => exact ⟨_, c1, s1, rfl, h', hl, rfl⟩
    | fail e =>
      rw [hb] at hr
      obtain ⟨c1, s1, h1, h2, h3, h4⟩ := hr
      rw [attempt_throw h1]
      by_cases he : recoverable e = true
      · rw [if_pos he]
        simp only [he, if_true]
        refine ⟨fr, c1, s1, rfl, h.keep h2 ?_, hl, rfl⟩
        cases ht : trim with
        | false => rw [ht] at h3; exact h3
        | true =>
          rw [ht] at h3
          refine ⟨h3.evolves, h3.stop, h3.head, fun _ => ?_⟩
          rw [(h4 ht).1, hg.2 ht, h.head ht]
      · rw [if_neg he]
        simp only [he]
        exact ⟨c1, s1, rfl⟩
    | more => rw [hb] at hr; obtain ⟨c1, h1⟩ := hr; rw [attempt_suspended h1]; exact ⟨c1, rfl⟩
    | diverge => rw [hb] at hr; rw [attempt_diverge hr]; exact rfl

/-! ## The literal -/

/-- The machine may hold a pending symbol, which then is the literal, here. -/
def Pend (I : Input) (c : Chain) (lit : List Byte) (pos : Nat) : Pending → Prop
  | none => True
  | some p => PendAt c none (some p) (some (lit, pos + lit.length)) ∧ lit <+: I.rest none pos ∧ pos < stopNow c none

theorem litPending_unit {lit : List Byte} (hne : lit ≠ []) (trim : Bool) {v : View} {pos : Nat} {p : Pending} {c : Chain}
    {s : Sched} (env : Env I c s) (a : At c v pos none) (hp : Pend I c lit pos p) :
    SimV I none trim c (litPending lit trim v p c s) pos (litS lit I none pos none) := by
  cases p with
  | none => exact litPending_spec hne trim env a (q := none) trivial (fun h => by cases h)
  | some x =>
    obtain ⟨h1, h2, h3⟩ := hp
    have h := litPending_spec hne trim env a (q := some (lit, pos + lit.length)) h1 (fun _ => Or.inl h3)
    have hroom := prefix_room hne h2
    have e : litS lit I none pos none = litS lit I none pos (some (lit, pos + lit.length)) := by
      unfold litS
      rw [has_mono.2 hroom]
      simp [h2]
    rw [e]
    exact h

theorem afterP_spec {U : SyncUnit} (hne : U.lit ≠ []) (trim : Bool) (hI : I.data.length < 2 ^ 64 - 1) (hF : U.after.Ok trim)
    {fr : Frame} {pos : Nat} {log : List Ev} {c : Chain} {s : Sched} (env : Env I c s) (hp : c.HeadPos)
    (a : At c fr.cur pos none) (pend : Pend I c U.lit pos fr.lah) (hh : fr.lah = none → trim = true → c.headOffset = pos) :
    SimFields I trim (afterP U trim fr log c s) (afterS U I pos fr.err log) := by
  have h := litPending_unit hne trim env a pend
  unfold afterP afterS
  rw [P.bind_apply]
  have bad : litS U.lit I none pos none = .fail .parseError → fr.lah = none ∧
      ∃ c1 s1, litPending U.lit trim fr.cur fr.lah c s = .throw .parseError c1 s1 ∧ Here I trim c1 s1 fr.cur pos := by
    intro hb
    rw [hb] at h
    obtain ⟨c1, s1, h1, h2, h3, -⟩ := h
    have hl : fr.lah = none := by
      cases hq : fr.lah with
      | none => rfl
      | some x =>
        rw [hq] at pend
        obtain ⟨-, p2, -⟩ := pend
        unfold litS at hb
        rw [has_mono.2 (prefix_room hne p2)] at hb
        simp [p2] at hb
    exact ⟨hl, c1, s1, h1, Here.keep ⟨env, hp, a, hh hl⟩ h2 h3⟩
  rcases has_cases I none pos U.lit.length with ⟨k1, k2⟩ | ⟨k1, k2, k3⟩ | ⟨k1, k2, k3⟩
  · rw [k1]
    dsimp only
    by_cases hpre : U.lit <+: I.rest none pos
    · rw [if_pos hpre]
      have e : litS U.lit I none pos none = .ok (pos + U.lit.length) := by unfold litS; rw [k1]; simp [hpre]
      rw [e] at h
      obtain ⟨v, c1, s1, h1, h2, h3, h4, h5⟩ := h
      rw [attempt_done h1]
      exact fieldsP_spec trim hI hF (fr := { fr with cur := v, lah := none }) ⟨h2, headPos_step h3 hp, h4, h5⟩ rfl
    · rw [if_neg hpre]
      obtain ⟨hl, c1, s1, h1, h2⟩ := bad (by unfold litS; rw [k1]; simp [hpre])
      rw [attempt_throw h1]
      exact ⟨fr, c1, s1, rfl, h2, hl, rfl⟩
  · rw [k1]
    obtain ⟨hl, c1, s1, h1, h2⟩ := bad (by unfold litS; rw [k1]; rfl)
    rw [attempt_throw h1]
    exact ⟨fr, c1, s1, rfl, h2, hl, rfl⟩
  · rw [k1]
    have e : litS U.lit I none pos none = .more := by unfold litS; rw [k1]; rfl
    rw [e] at h
    obtain ⟨c1, h1⟩ := h
    rw [attempt_suspended h1]
    exact ⟨c1, rfl⟩

/-! ## Where a search begins -/

/-- Where the machine can be when a search begins: at data; behind the end of the data; or one byte behind the end of what has arrived. -/
inductive Spot (I : Input) (trim : Bool) (c : Chain) (s : Sched) (v : View) (pos : Nat) : Prop where
  | here : Here I trim c s v pos → Spot I trim c s v pos
  | over : atEod v c s = .done true c s → I.complete none = true → I.stop none ≤ pos → Spot I trim c s v pos
  | ahead : Env I c s → c.HeadPos → c.IterOk v.begin → v.begin.offset = pos → v.end = none → c.stop < pos →
      Spot I trim c s v pos

theorem nextData_spot (trim : Bool) {v : View} {pos : Nat} {c : Chain} {s : Sched} (h : Here I trim c s v pos) :
    ∃ w c' s', nextData trim v c s = .done w c' s' ∧ Spot I trim c' s' w (pos + 1) := by
  have hst := h.at_.start
  have hpl := h.at_.stop
  by_cases h1 : pos + 1 ≤ c.stop
  · obtain ⟨w, c1, n1, n2, n3, n4, n5, n6, n7⟩ := nextData_spec trim h.env h.hp (CurAt.of h.at_) (fun _ => hst)
      (show pos + 1 ≤ stopNow c none from h1) (show c.headOffset ≤ stopNow c none by show c.headOffset ≤ c.stop; omega)
      (Or.inl (by omega))
    have hr : restart trim pos c.headOffset = pos + 1 := by unfold restart; split <;> omega
    rw [hr] at n4 n7
    exact ⟨w, c1, s, n1, .here ⟨n2, headPos_step n3 h.hp, n4, n7⟩⟩
  · have hps : pos = c.stop := by omega
    cases hf : c.isFrozen with
    | true =>
      have hc : completeNow c none = true := by unfold completeNow; rw [hf]; rfl
      obtain ⟨k1, k2⟩ := complete_now h.env hc
      obtain ⟨w, c1, n1, n2⟩ := nextData_end trim h.env h.hp h.at_ hc hps
      refine ⟨w, c1, s, n1, .over n2 k1 ?_⟩
      rw [← k2]
      show c.stop ≤ pos + 1
      omega
    | false =>
      obtain ⟨w, w1, w2, w3, w4⟩ := View.advanceToNextData_spec h.env.live h.hp h.at_.iter
      rw [h.at_.off] at w4
      have hoff : w.begin.offset = pos + 1 := by
        rw [w4]
        split
        · rw [no_gap h.env (Nat.le_max_right _ _)]; omega
        · rfl
      refine ⟨w, c, s, nextData_eq w1 ?_, .ahead h.env h.hp w3 hoff ?_ (by omega)⟩
      · unfold trimInput
        cases ht : trim with
        | false => rfl
        | true =>
          have hc : c.chunks = [] := by
            refine (Chain.content_eq_nil h.env.live.inv h.hp).1 ?_
            have := Chain.stop_eq h.env.live.inv
            have := h.head ht
            exact List.length_eq_zero_iff.1 (by omega)
          simp only [if_true]
          rw [Chain.trim_noop h.env.live.isValid (Or.inl hc)]
      · rw [w2]
        have := h.at_.end
        cases hv : v.end with
        | none => rfl
        | some e => rw [hv] at this; cases this

theorem isComplete_ahead {v : View} {pos : Nat} {c : Chain} (hl : c.Live) (ho : v.begin.offset = pos) (he : v.end = none)
    (hh : c.headOffset ≤ pos) : v.isComplete c = .ok c.isFrozen := by
  unfold View.isComplete View.ensureValid
  rw [if_pos hl.isValid, if_neg (by omega), he]
  simp only [Res.ok_bind]
  cases c.isFrozen <;> rfl

theorem head_le_stop {c : Chain} (hl : c.Live) : c.headOffset ≤ c.stop := by
  have := Chain.stop_eq hl.inv
  omega

/-- Waiting for data behind the end of what has arrived. -/
theorem waitLoop_ahead {v : View} {pos : Nat} (ho : v.begin.offset = pos) (he : v.end = none) (s : Sched) : ∀ {c : Chain},
    Env I c s → c.IterOk v.begin → c.stop ≤ pos →
    (∃ c' s', waitLoop v 0 s c = .done true c' s' ∧ Env I c' s' ∧ Step true c c' ∧ At c' v pos none ∧ pos < c'.stop) ∨
    (∃ c' s', waitLoop v 0 s c = .done false c' s' ∧ I.complete none = true ∧ I.stop none ≤ pos) ∨
    (∃ c', waitLoop v 0 s c = .suspended c' ∧ I.complete none = false ∧ I.stop none ≤ pos) := by
  induction s with
  | nil =>
    intro c env hi hst
    have hh := head_le_stop env.live
    have hc := isComplete_ahead env.live ho he (by omega)
    have e : completeNow c none = c.isFrozen := by unfold completeNow; simp
    cases hf : c.isFrozen with
    | true =>
      obtain ⟨k1, k2⟩ := complete_now env (e.trans hf)
      refine Or.inr (Or.inl ⟨c, [], ?_, k1, by rw [← k2]; exact hst⟩)
      unfold waitLoop; rw [hc, hf]
    | false =>
      obtain ⟨k1, k2⟩ := exhausted env (e.trans hf)
      refine Or.inr (Or.inr ⟨c, ?_, k1, by rw [k2]; exact hst⟩)
      unfold waitLoop; rw [hc, hf]
  | cons it s ih =>
    intro c env hi hst
    have hh := head_le_stop env.live
    have hc := isComplete_ahead env.live ho he (by omega)
    have e : completeNow c none = c.isFrozen := by unfold completeNow; simp
    cases hf : c.isFrozen with
    | true =>
      obtain ⟨k1, k2⟩ := complete_now env (e.trans hf)
      refine Or.inr (Or.inl ⟨c, it :: s, ?_, k1, by rw [← k2]; exact hst⟩)
      unfold waitLoop; rw [hc, hf]
    | false =>
      obtain ⟨env', st⟩ := item_env env
      have hi' := hi.evolves st.evolves
      unfold waitLoop
      rw [hc, hf]
      dsimp only
      by_cases hlt : (c.run it.ops).stop ≤ pos
      · rw [size_over env'.live (Or.inl (by omega))]
        simp only [if_true]
        rcases ih env' hi' hlt with ⟨c', s', h1, h2, h3, h4⟩ | h | h
        · exact Or.inl ⟨c', s', h1, h2, st.trans h3, h4⟩
        · exact Or.inr (Or.inl h)
        · exact Or.inr (Or.inr h)
      · have a : At (c.run it.ops) v pos none :=
          ⟨hi', ho, fun x hx => (by rw [he] at hx; cases hx), (by rw [he]; rfl), (by rw [st.keep rfl]; omega), (by omega),
            fun l hl => (by cases hl)⟩
        rw [a.size env']
        have : stopNow (c.run it.ops) none - pos ≠ 0 := by
          show (c.run it.ops).stop - pos ≠ 0
          omega
        dsimp only
        rw [if_neg (fun h => this h.symm)]
        exact Or.inl ⟨_, s, rfl, env', st, a, by omega⟩

theorem atEod_ahead {v : View} {pos : Nat} (ho : v.begin.offset = pos) (he : v.end = none) {s : Sched} {c : Chain}
    (env : Env I c s) (hi : c.IterOk v.begin) (hst : c.stop < pos) :
    (∃ c' s', atEod v c s = .done false c' s' ∧ Env I c' s' ∧ Step true c c' ∧ At c' v pos none ∧ pos < c'.stop) ∨
    (∃ c' s', atEod v c s = .done true c' s' ∧ I.complete none = true ∧ I.stop none ≤ pos) ∨
    (∃ c', atEod v c s = .suspended c' ∧ I.complete none = false ∧ I.stop none ≤ pos) := by
  have hh := head_le_stop env.live
  have hsz : v.size c = .ok 0 := size_over env.live (Or.inl (by omega))
  have hc := isComplete_ahead env.live ho he (by omega)
  have e : completeNow c none = c.isFrozen := by unfold completeNow; simp
  unfold atEod
  rw [P.bind_done (P.read_ok hsz s)]
  simp only [gt_iff_lt, Nat.lt_irrefl, if_false]
  rw [P.bind_done (P.read_ok hc s)]
  cases hf : c.isFrozen with
  | true =>
    obtain ⟨k1, k2⟩ := complete_now env (e.trans hf)
    exact Or.inr (Or.inl ⟨c, s, rfl, k1, by rw [← k2]; show c.stop ≤ pos; omega⟩)
  | false =>
    simp only [Bool.false_eq_true, if_false]
    have hw : waitMore v c s = waitLoop v 0 s c := by unfold waitMore; rw [hsz]
    rcases waitLoop_ahead (I := I) ho he s env hi (by omega) with ⟨c', s', h1, h2⟩ | ⟨c', s', h1, h2⟩ | ⟨c', h1, h2⟩
    · rw [P.bind_done (hw.trans h1)]
      exact Or.inl ⟨c', s', rfl, h2⟩
    · rw [P.bind_done (hw.trans h1)]
      exact Or.inr (Or.inl ⟨c', s', rfl, h2⟩)
    · rw [P.bind_suspended (hw.trans h1)]
      exact Or.inr (Or.inr ⟨c', rfl, h2⟩)

/-- Outcomes of a search. -/
def SimSearch (I : Input) (lit : List Byte) (pos : Nat) (err : Option Exn) (out : Out Frame) : Prop :=
  match firstOcc lit (I.rest none pos) with
  | some q => ∃ fr c s, out = .done fr c s ∧ Env I c s ∧ c.HeadPos ∧ At c fr.cur (pos + q) none ∧ fr.lah.isSome = true ∧
      Pend I c lit (pos + q) fr.lah ∧ fr.err = err
  | none => if I.complete none then ∃ c s, out = .throw .parseError c s else ∃ c, out = .suspended c

theorem syncP_at {lit : List Byte} (hne : lit ≠ []) (trim : Bool) {f : Nat} (hf : I.data.length < f) {fr : Frame} {pos : Nat} {c : Chain}
    {s : Sched} (env : Env I c s) (hp : c.HeadPos) (a : At c fr.cur pos none) (hl : fr.lah = none) :
    SimSearch I lit pos fr.err (syncP lit trim f fr c s) := by
  have h := syncP_spec lit trim (T := False) (fun h => h.elim) f (fr := fr) (lah := none) env hp a (by rw [hl]; trivial) (fun h => h.elim)
  have hs := syncS_none (I := I) hne (lim := none) f pos
  have hd := syncS_ends (I := I) hne (lim := none) (f := f) (by rw [stop_none]; exact hf) pos none
  unfold SimSearch
  generalize syncP lit trim f fr c s = out at h ⊢
  cases hr : syncS lit I none f pos none with
  | ok r =>
    rw [hr] at h hs
    obtain ⟨q, h1, h2⟩ := hs
    rw [h1]
    obtain ⟨fr', c2, s2, rfl, k2, k3, k4, k5, k6, -, k8⟩ := h
    subst h2
    refine ⟨fr', c2, s2, rfl, k2, headPos_step k3 hp, k4, by rw [k5.isSome]; rfl, ?_, k6⟩
    have hpre : lit <+: I.rest none (pos + q) := by
      rcases firstOcc_spec lit (I.rest none pos) with ⟨p, e, k, -⟩ | ⟨e, -⟩
      · rw [h1] at e
        injection e with e
        subst e
        rw [← rest_drop]
        exact k
      · rw [h1] at e; cases e
    cases hq : fr'.lah with
    | none => rw [hq] at k5; exact absurd k5 id
    | some p => rw [hq] at k5; exact ⟨k5, hpre, k8 rfl⟩
  | fail e =>
    rw [hr] at h hs
    obtain ⟨rfl, h1, h2⟩ := hs
    obtain ⟨c2, s2, rfl⟩ := h
    rw [h2, h1]
    exact ⟨c2, s2, rfl⟩
  | more =>
    rw [hr] at h hs
    obtain ⟨h1, h2⟩ := hs
    obtain ⟨c2, rfl⟩ := h
    rw [h2, h1]
    exact ⟨c2, rfl⟩
  | diverge => exact absurd hr hd

theorem syncP_spot {lit : List Byte} (hne : lit ≠ []) (trim : Bool) {f : Nat} (hf : I.data.length < f) {fr : Frame} {pos : Nat} {c : Chain}
    {s : Sched} (h : Spot I trim c s fr.cur pos) (hl : fr.lah = none) :
    SimSearch I lit pos fr.err (syncP lit trim f fr c s) := by
  have none_at : I.stop none ≤ pos → firstOcc lit (I.rest none pos) = none := by
    intro h
    rw [rest_nil h]
    simp [firstOcc, hne]
  cases h with
  | here h => exact syncP_at hne trim hf h.env h.hp h.at_ hl
  | over h1 h2 h3 =>
    unfold SimSearch
    rw [none_at h3, h2]
    refine ⟨c, s, ?_⟩
    unfold syncP
    rw [P.bind_done h1]
    rfl
  | ahead env hp hi ho he hst =>
    rcases atEod_ahead (I := I) ho he env hi hst with ⟨c1, s1, h1, h2, h3, h4, h5⟩ | ⟨c1, s1, h1, h2, h3⟩ | ⟨c1, h1, h2, h3⟩
    · have e : syncP lit trim f fr c s = syncP lit trim f fr c1 s1 := by
        have h6 : atEod fr.cur c1 s1 = .done false c1 s1 := by
          unfold atEod
          rw [P.bind_done (P.read_ok (h4.size h2) s1), if_pos (show stopNow c1 none - pos > 0 by show c1.stop - pos > 0; omega)]
          rfl
        unfold syncP
        rw [P.bind_done h1, P.bind_done h6]
      rw [e]
      exact syncP_at hne trim hf h2 (headPos_step h3 hp) h4 hl
    · unfold SimSearch
      rw [none_at h3, h2]
      refine ⟨c1, s1, ?_⟩
      unfold syncP
      rw [P.bind_done h1]
      rfl
    · unfold SimSearch
      rw [none_at h3, h2]
      refine ⟨c1, ?_⟩
      unfold syncP
      rw [P.bind_suspended h1]

/-! ## The loop -/

/-- Outcomes of the unit. -/
def SimUnit (out : Out (Frame × List Ev)) : SRes Place → Prop
  | .ok t => ∃ fr c s, out = .done (fr, t.log) c s ∧ fr.cur.begin.offset = t.pos ∧ fr.err = t.err
  | .fail e => ∃ c s, out = .throw e c s
  | .more => ∃ c, out = .suspended c
  | .diverge => out = .diverge

theorem trialLoop_spec {U : SyncUnit} (hne : U.lit ≠ []) (trim : Bool) (hI : I.data.length < 2 ^ 64 - 1) (hF : U.after.Ok trim) {f : Nat}
    (hf : I.data.length < f) (k : Nat) : ∀ {fr : Frame} {pos : Nat} {log : List Ev} {c : Chain} {s : Sched},
    Spot I trim c s fr.cur pos → (fr.err = none → Here I trim c s fr.cur pos) → fr.lah = none →
    SimUnit (trialLoop U trim f k fr log c s) (trialS U I k pos fr.err log) := by
  induction k with
  | zero => intro fr pos log c s h h' hl; unfold trialS; rfl
  | succ k ih =>
    intro fr pos log c s h h' hl
    unfold trialLoop trialRound
    cases he : fr.err with
    | none =>
      have h := h' he
      have ha := afterP_spec hne trim hI hF (log := log) h.env h.hp h.at_ (by rw [hl]; trivial) (fun _ => h.head)
      rw [he] at ha
      unfold trialS trialTry
      dsimp only
      rw [P.bind_apply, P.bind_apply]
      generalize afterP U trim fr log c s = out at ha ⊢
      cases hr : afterS U I pos none log with
      | ok t =>
        rw [hr] at ha
        obtain ⟨fr', c1, s1, rfl, h1, h2, h3⟩ := ha
        dsimp only [SRes.ok_bind]
        cases hst : t.stopped with
        | none => exact ⟨fr', c1, s1, rfl, h1.at_.off, h3⟩
        | some x => exact ⟨c1, s1, rfl⟩
      | fail e => rw [hr] at ha; obtain ⟨c1, s1, rfl⟩ := ha; exact ⟨c1, s1, rfl⟩
      | more => rw [hr] at ha; obtain ⟨c1, rfl⟩ := ha; exact ⟨c1, rfl⟩
      | diverge => rw [hr] at ha; cases ha; rfl
    | some e0 =>
      have hs := syncP_spot hne trim hf h hl
      unfold trialS
      unfold SimSearch at hs
      dsimp only
      rw [P.bind_apply, P.bind_apply]
      generalize syncP U.lit trim f fr c s = out at hs ⊢
      cases ho : firstOcc U.lit (I.rest none pos) with
      | none =>
        rw [ho] at hs
        dsimp only at hs ⊢
        split at hs
        · rename_i hc
          obtain ⟨c1, s1, rfl⟩ := hs
          rw [if_pos hc]
          exact ⟨c1, s1, rfl⟩
        · rename_i hc
          obtain ⟨c1, rfl⟩ := hs
          rw [if_neg hc]
          exact ⟨c1, rfl⟩
      | some q =>
        rw [ho] at hs
        obtain ⟨fr', c1, s1, rfl, h2, h3, h4, h5, h6, h7⟩ := hs
        dsimp only
        rw [h7, he, h4.off]
        cases hh : runHook U.hook (some e0) (log ++ [.synced (pos + q)]) with
        | error x => exact ⟨c1, s1, rfl⟩
        | ok y =>
          have ha := afterP_spec hne trim hI hF (fr := { fr' with err := y.1 }) (log := y.2) h2 h3 h4 h6
            (fun hn => by rw [show fr'.lah = none from hn] at h5; cases h5)
          dsimp only at ha ⊢
          unfold trialTry
          rw [P.bind_apply]
          generalize afterP U trim { fr' with err := y.1 } y.2 c1 s1 = out at ha ⊢
          cases hr : afterS U I (pos + q) y.1 y.2 with
          | ok t =>
            rw [hr] at ha
            obtain ⟨fr2, c2, s2, rfl, k1, k2, k3⟩ := ha
            dsimp only [SRes.ok_bind]
            cases hst : t.stopped with
            | none => exact ⟨fr2, c2, s2, rfl, k1.at_.off, k3⟩
            | some x =>
              dsimp only
              rw [k3, Bool.true_and]
              by_cases hE : t.err.isSome = true
              · rw [if_pos hE, if_pos hE]
                obtain ⟨w, c3, s3, n1, n2⟩ := nextData_spot trim k1
                rw [P.bind_done n1]
                have hi := ih (fr := { fr2 with cur := w }) (log := t.log) n2
                  (fun hn => by rw [show fr2.err = none from hn] at k3; rw [← k3] at hE; cases hE) k2
                dsimp only at hi
                rw [k3] at hi
                exact hi
              · rw [if_neg hE, if_neg hE]
                exact ⟨c2, s2, rfl⟩
          | fail e => rw [hr] at ha; obtain ⟨c2, s2, rfl⟩ := ha; exact ⟨c2, s2, rfl⟩
          | more => rw [hr] at ha; obtain ⟨c2, rfl⟩ := ha; exact ⟨c2, rfl⟩
          | diverge => rw [hr] at ha; cases ha; rfl

end Verif.Sync
