import Verif.Sync.Elem
/-! # Error recovery: literals that may be pending, and recovery after a failure -/

namespace Verif.Sync
open Verif.Stream Verif.Parse

variable {I : Input}

/-! ## `attempt` -/

theorem attempt_done {α : Type} {x : P α} {c c' : Chain} {s s' : Sched} {a : α} (h : x c s = .done a c' s') :
    attempt x c s = .done (.ok a) c' s' := by unfold attempt; rw [h]
theorem attempt_throw {α : Type} {x : P α} {c c' : Chain} {s s' : Sched} {e : Exn} (h : x c s = .throw e c' s') :
    attempt x c s = if recoverable e then .done (.error e) c' s' else .throw e c' s' := by unfold attempt; rw [h]
theorem attempt_suspended {α : Type} {x : P α} {c c' : Chain} {s : Sched} (h : x c s = .suspended c') :
    attempt x c s = .suspended c' := by unfold attempt; rw [h]
theorem attempt_diverge {α : Type} {x : P α} {c : Chain} {s : Sched} (h : x c s = .diverge) :
    attempt x c s = .diverge := by unfold attempt; rw [h]

/-! ## Literals -/

theorem eqCells_map (xs bs : List Byte) (h : xs.length = bs.length) : View.eqCells (xs.map some) bs = .ok (decide (xs = bs)) := by
  induction xs generalizing bs with
  | nil => cases bs with
    | nil => rfl
    | cons b bs => simp at h
  | cons x xs ih => cases bs with
    | nil => simp at h
    | cons b bs =>
      simp only [List.map_cons, View.eqCells]
      by_cases hx : x = b
      · subst hx
        rw [if_neg (by simp), ih bs (by simpa using h)]
        simp
      · rw [if_pos hx]
        simp [hx]

theorem size_between {c : Chain} (h : c.Live) {i j : Iter} (hj : j.offset ≤ c.stop) (hi : c.headOffset ≤ i.offset) :
    (⟨i, some j⟩ : View).size c = .ok (j.offset - i.offset) := by
  unfold View.size
  rcases View.tail_endOffset h.inv with ⟨e1, e2⟩ | ⟨t, ts, e1, e2⟩
  · rw [e1]
    simp only [Res.ok_bind]
    have : c.stop = c.headOffset := by simp [Chain.stop, Chain.base, e2]
    congr 1; omega
  · rw [e1]
    simp only [Res.ok_bind, e2]
    split
    · congr 1; omega
    · split
      · congr 1; omega
      · congr 1; split <;> omega

/-- `advanceInputTo`, with the new head of the stream. -/
theorem advanceInputTo_head {v : View} {pos : Nat} {lim : Option Nat} {c : Chain} {s : Sched} (trim : Bool)
    (env : Env I c s) (a : At c v pos lim) {i : Iter} {n : Nat} (hi : c.IterOk i) (ho : i.offset = pos + n)
    (hn : pos + n ≤ stopNow c lim) :
    ∃ v' c', advanceInputTo trim v i c s = .done v' c' s ∧ Env I c' s ∧ Step (!trim) c c' ∧ At c' v' (pos + n) lim ∧
      (trim = true → c'.headOffset = pos + n) := by
  have a' : At c (v.advanceTo i) (pos + n) lim := by
    refine ⟨hi, ho, a.endIter, a.end, ?_, ?_, ?_⟩
    · have := a.start; omega
    · have := stopNow_le c lim; omega
    · intro l hl; subst hl; simp only [stopNow] at hn; omega
  obtain ⟨c', t1, t2, t3, t4, -, -, t5⟩ := trimInput_head trim env a'
  refine ⟨v.advanceTo i, c', ?_, t2, t3, t4, t5⟩
  unfold advanceInputTo
  rw [P.bind_done t1]
  rfl

/-- A literal that may be pending. -/
theorem litPending_spec {lit : List Byte} (hne : lit ≠ []) (trim : Bool) {lim : Option Nat} {v : View} {pos : Nat} {p : Pending}
    {q : SPending} {c : Chain} {s : Sched} (env : Env I c s) (a : At c v pos lim) (hp : PendAt c lim p q)
    (room : q.isSome = true → pos < stopNow c lim ∨ completeNow c lim = true) :
    SimV I lim trim c (litPending lit trim v p c s) pos (litS lit I lim pos q) := by
  have hl := a.pos_le
  cases p with
  | none => cases q with
    | none => exact expect_spec lit trim env a
    | some y => exact absurd hp id
  | some x => cases q with
    | none => exact absurd hp id
    | some y =>
      obtain ⟨t, it⟩ := x
      obtain ⟨u, e⟩ := y
      obtain ⟨h1, h2, h3, h4⟩ := hp
      subst h1
      have room := room rfl
      simp only [litPending, litS]
      by_cases htl : t = lit
      · subst htl
        rw [if_neg (by simp)]
        have hle := stopNow_le c lim
        have hss := stopNow_le_stop env lim
        have hrl := rest_length I lim pos
        have hpos : 0 < t.length := List.length_pos_iff.2 hne
        have hst := a.start
        by_cases hsz : e - pos = t.length
        · have am : At c ⟨v.begin, some it⟩ pos (some e) :=
            ⟨a.iter, a.off, fun e he => by injection he with he; exact he ▸ h2, by simp [h3], a.start, a.stop,
              fun l hl => by injection hl with hl; omega⟩
          have hw : (⟨v.begin, some it⟩ : View).window c = ((I.rest lim pos).take (e - pos)).map some := by
            rw [am.window env]
            congr 1
            unfold Input.rest stopNow
            simp only
            rw [List.drop_take, List.drop_take, List.take_take]
            congr 1; omega
          have hlen : ((I.rest lim pos).take (e - pos)).length = t.length := by rw [List.length_take]; omega
          have hr : (do
              let w ← subFromTo v.begin it c
              w.eqBytes c t : Res Bool) = .ok (decide ((I.rest lim pos).take (e - pos) = t)) := by
            unfold subFromTo
            rw [mk2_ok env.live (by rw [a.off]; exact hst)]
            simp only [Res.ok_bind]
            rw [View.eqBytes_spec env.live (am.good env.live), hw, if_pos (by rw [List.length_map]; exact hlen),
              eqCells_map _ _ hlen]
          rw [P.bind_done (P.read_ok hr s)]
          have hpre : (I.rest lim pos).take (e - pos) = t ↔ t <+: I.rest lim pos := by
            rw [hsz, List.prefix_iff_eq_take]
            exact eq_comm
          by_cases heq : (I.rest lim pos).take (e - pos) = t
          · rw [if_pos (show t = t ∧ e = pos + t.length ∧ t <+: I.rest lim pos from ⟨rfl, by omega, hpre.1 heq⟩),
              if_pos (by simpa using heq)]
            obtain ⟨v', c', k1, k2, k3, k4, k5⟩ := advanceInputTo_head trim env a (i := it) (n := e - pos) h2 (by omega) (by omega)
            rw [show pos + (e - pos) = e by omega] at k4 k5
            exact ⟨v', c', s, k1, k2, k3, k4, k5⟩
          · rw [if_neg (fun h : t = t ∧ e = pos + t.length ∧ t <+: I.rest lim pos => heq (hpre.2 h.2.2)),
              if_neg (by simpa using heq)]
            exact ⟨c, s, rfl, env, Step.refl c, room⟩
        · have hr : (do
              let w ← subFromTo v.begin it c
              w.eqBytes c t : Res Bool) = .ok false := by
            unfold subFromTo
            rw [mk2_ok env.live (by rw [a.off]; exact hst)]
            simp only [Res.ok_bind]
            unfold View.eqBytes
            rw [size_between env.live (by omega) (by rw [a.off]; exact hst)]
            simp only [Res.ok_bind]
            rw [a.off, h3, if_pos hsz]
          have hno : ¬ (t = t ∧ e = pos + t.length ∧ t <+: I.rest lim pos) := by
            intro h
            omega
          rw [P.bind_done (P.read_ok hr s), if_neg hno]
          exact ⟨c, s, rfl, env, Step.refl c, room⟩
      · rw [if_pos htl, if_neg (fun h => htl h.1)]
        exact ⟨c, s, rfl, env, Step.refl c, room⟩

theorem litS_forward {lit : List Byte} (hne : lit ≠ []) {lim : Option Nat} {pos p : Nat} {q : SPending}
    (h : litS lit I lim pos q = .ok p) : p = pos + lit.length ∧ p ≤ I.stop lim := by
  unfold litS at h
  cases q with
  | none =>
    obtain ⟨b, hb, h⟩ := Parse.bind_ok h
    cases b with
    | false => cases h
    | true =>
      simp only [if_true] at h
      split at h
      · injection h with h; subst h; exact ⟨rfl, has_true hb⟩
      · cases h
  | some x =>
    obtain ⟨t, e⟩ := x
    dsimp only at h
    split at h
    · rename_i hc
      injection h with h
      subst h
      have h1 := hc.2.2.length_le
      have h2 : 0 < lit.length := List.length_pos_iff.2 hne
      rw [rest_length] at h1
      omega
    · cases h

/-- Does an element that fails do so late? -/
def elemLate (E : Elem) (lit : List Byte) (I : Input) (lim : Option Nat) (pos : Nat) (lah : SPending) : Bool :=
  match litS lit I lim pos lah with
  | .ok p => E.late I lim p
  | _ => false

/-- An element. -/
theorem elemP_spec {E : Elem} {g : Parser} {trim : Bool} (hg : RefinesM trim g E) (hI : I.data.length < 2 ^ 64 - 1)
    {lit : List Byte} (hne : lit ≠ []) {lim : Option Nat} {v : View} {pos : Nat} {p : Pending}
    {q : SPending} {c : Chain} {s : Sched} (env : Env I c s) (a : At c v pos lim) (hp : PendAt c lim p q)
    (ht : trim = true → c.headOffset = pos) (room : q.isSome = true → pos < stopNow c lim ∨ completeNow c lim = true) :
    SimM I lim trim c (elemP lit g trim v p c s) (elemMark E lit I lim pos q) (elemLate E lit I lim pos q)
      (elemS E lit I lim pos q) := by
  unfold elemP elemS
  refine SimV.bindM (litPending_spec hne trim env a hp room) ht a.pos_le (fun h => ?_) (fun w p c' s' hr e st a' h' => ?_)
  · unfold elemMark elemLate
    cases hq : litS lit I lim pos q with
    | ok p => exact absurd hq (h p)
    | _ => exact ⟨rfl, rfl⟩
  · unfold elemMark elemLate
    rw [hr]
    exact hg I hI lim w p c' s' e a' h'

/-- Where an element that fails began, there is data, or the data is complete. -/
theorem elemP_room {E : Elem} {g : Parser} {trim : Bool} (hg : RefinesM trim g E) (hI : I.data.length < 2 ^ 64 - 1)
    {lit : List Byte} (hne : lit ≠ []) {lim : Option Nat} {v : View} {pos : Nat} {p : Pending}
    {q : SPending} {c : Chain} {s : Sched} (env : Env I c s) (a : At c v pos lim) (hp : PendAt c lim p q)
    (ht : trim = true → c.headOffset = pos) (room : q.isSome = true → pos < stopNow c lim ∨ completeNow c lim = true)
    {e : Exn} (hs : elemS E lit I lim pos q = .fail e) {c' : Chain} {s' : Sched}
    (h : elemP lit g trim v p c s = .throw e c' s') : pos < stopNow c' lim ∨ completeNow c' lim = true := by
  have hl := litPending_spec hne trim env a hp room
  unfold elemP at h
  unfold elemS at hs
  cases hq : litS lit I lim pos q with
  | ok p' =>
    rw [hq] at hl hs
    obtain ⟨w, c2, s2, h1, h2, h3, h4, h5⟩ := hl
    rw [P.bind_done h1] at h
    have hr := hg I hI lim w p' c2 s2 h2 h4 h5
    rw [show E.g I lim p' = .fail e from hs] at hr
    obtain ⟨c3, s3, k1, k2, k3, k4⟩ := hr
    rw [k1] at h
    injection h with _ h _
    subst h
    have h6 := (litS_forward hne hq).1
    have h7 := h4.pos_le
    have h8 : 0 < lit.length := List.length_pos_iff.2 hne
    have h9 := stopNow_mono k3 lim
    exact Or.inl (by omega)
  | fail x =>
    rw [hq] at hl
    obtain ⟨c2, s2, h1, h2, h3, h5⟩ := hl
    rw [P.bind_throw h1] at h
    injection h with _ h _
    subst h
    exact h5
  | more => rw [hq] at hs; cases hs
  | diverge => rw [hq] at hs; cases hs

/-! ## Recovery -/

theorem CurAt.size {c : Chain} {s : Sched} (env : Env I c s) {v : View} {pos : Nat} {lim : Option Nat} (a : CurAt c v pos lim)
    (hne : c.headOffset < c.stop) : v.size c = .ok (stopNow c lim - pos) := by
  unfold View.size
  have hst := a.stop
  rcases View.tail_endOffset env.live.inv with ⟨e1, e2⟩ | ⟨t, ts, e1, e2⟩
  · have : c.stop = c.headOffset := by simp [Chain.stop, Chain.base, e2]
    omega
  · rw [e1]
    simp only [Res.ok_bind, e2, a.off]
    rw [if_neg (by omega)]
    have he := a.end
    have hl := a.lim
    cases hve : v.end with
    | none => rw [hve] at he; rw [← he]; rfl
    | some e =>
      rw [hve] at he
      rw [← he] at hl ⊢
      have := hl e.offset rfl
      simp only [Option.map_some, stopNow]
      split
      · congr 1; omega
      · congr 1; split <;> omega

/-- The variables of the machine are those of the specification. -/
structure FrAt (c : Chain) (lim : Option Nat) (trim : Bool) (fr : Frame) (st : St) : Prop where
  at_ : At c fr.cur st.pos lim
  pend : PendAt c lim fr.lah st.lah
  err : fr.err = st.err
  head : trim = true → c.headOffset = st.pos
  room : st.lah.isSome = true → st.pos < stopNow c lim ∨ completeNow c lim = true

/-- Outcomes of the machine that correspond to a result of the specification. `R` relates results. If `bad` holds, the
    machine may also fail with `InvalidIterator`. -/
def Outc {α β : Type} (R : Chain → Sched → α → β → Prop) (bad : Prop) (out : Out α) : SRes β → Prop
  | .ok b => (∃ a c s, out = .done a c s ∧ R c s a b) ∨ (bad ∧ ∃ c s, out = .throw .invalidIterator c s)
  | .fail e => ∃ x c s, out = .throw x c s ∧ (x = e ∨ x = .invalidIterator)
  | .more => (∃ c, out = .suspended c) ∨ (bad ∧ ∃ c s, out = .throw .invalidIterator c s)
  | .diverge => out = .diverge ∨ (bad ∧ ∃ c s, out = .throw .invalidIterator c s)

theorem Outc.mono {α β : Type} {R R' : Chain → Sched → α → β → Prop} {bad bad' : Prop} {out : Out α} {r : SRes β}
    (h : Outc R bad out r) (hb : bad → bad') (hr : ∀ c s a b, R c s a b → R' c s a b) : Outc R' bad' out r := by
  cases r with
  | ok b =>
    rcases h with ⟨a, c, s, h1, h2⟩ | ⟨h1, h2⟩
    · exact Or.inl ⟨a, c, s, h1, hr _ _ _ _ h2⟩
    · exact Or.inr ⟨hb h1, h2⟩
  | fail e => exact h
  | more => exact h.imp id (fun h => ⟨hb h.1, h.2⟩)
  | diverge => exact h.imp id (fun h => ⟨hb h.1, h.2⟩)

theorem Outc.lost {α β : Type} {R : Chain → Sched → α → β → Prop} {bad : Prop} {out : Out α} {r : SRes β} (hb : bad)
    {c : Chain} {s : Sched} (h : out = .throw .invalidIterator c s) : Outc R bad out r := by
  cases r with
  | ok b => exact Or.inr ⟨hb, c, s, h⟩
  | fail e => exact ⟨_, c, s, h, Or.inr rfl⟩
  | more => exact Or.inr ⟨hb, c, s, h⟩
  | diverge => exact Or.inr ⟨hb, c, s, h⟩

theorem Outc.bind {α α' β β' : Type} {R : Chain → Sched → α → β → Prop} {R' : Chain → Sched → α' → β' → Prop} {bad : Prop}
    {x : P α} {f : α → P α'} {c : Chain} {s : Sched} {r : SRes β} {g : β → SRes β'} (h : Outc R bad (x c s) r)
    (k : ∀ a b c' s', R c' s' a b → Outc R' bad (f a c' s') (g b)) : Outc R' bad ((x >>= f) c s) (r >>= g) := by
  cases r with
  | ok b =>
    rcases h with ⟨a, c', s', h1, h2⟩ | ⟨h1, c', s', h2⟩
    · rw [P.bind_done h1]
      exact k a b c' s' h2
    · exact Outc.lost h1 (P.bind_throw h2)
  | fail e => obtain ⟨x, c', s', h1, h2⟩ := h; exact ⟨x, c', s', P.bind_throw h1, h2⟩
  | more =>
    rcases h with ⟨c', h1⟩ | ⟨h1, c', s', h2⟩
    · exact Or.inl ⟨c', P.bind_suspended h1⟩
    · exact Outc.lost h1 (P.bind_throw h2)
  | diverge =>
    rcases h with h1 | ⟨h1, c', s', h2⟩
    · exact Or.inl (P.bind_diverge h1)
    · exact Outc.lost h1 (P.bind_throw h2)

/-- Results: frames and what was observed. -/
def RFr (I : Input) (lim : Option Nat) (trim : Bool) (c : Chain) (c' : Chain) (s' : Sched) (a : Frame × List Ev) (st : St) :
    Prop := Env I c' s' ∧ Step (!trim) c c' ∧ FrAt c' lim trim a.1 st ∧ a.2 = st.log

theorem atEnd_end {lim : Option Nat} {pos : Nat} (hc : I.complete lim = true) (h : I.stop lim ≤ pos) :
    atEnd I lim pos = .ok true := by
  unfold atEnd Input.has
  rw [if_neg (by omega), if_pos hc]
  rfl

theorem syncS_end (lit : List Byte) {lim : Option Nat} (f : Nat) {pos : Nat} (lah : SPending) (hc : I.complete lim = true)
    (h : I.stop lim ≤ pos) : syncS lit I lim f pos lah = .fail .parseError := by
  unfold syncS
  rw [atEnd_end hc h]
  rfl

/-- Recovery after a failure at `pos`, when the input was consumed up to `mark`. -/
theorem syncNext_spec (L : ListField) (trim : Bool) {lim : Option Nat} {f : Nat} (hf : 0 < f) {fr : Frame} {st : St} {mark : Nat}
    {late : Bool} {x : Exn} {c : Chain} {s : Sched} (env : Env I c s) (hp : c.HeadPos) (a : CurAt c fr.cur st.pos lim)
    (hpend : PendAt c lim fr.lah st.lah) (ht : trim = false → c.headOffset ≤ st.pos) (left : Left lim trim c mark late)
    (room : st.pos < stopNow c lim ∨ completeNow c lim = true) :
    Outc (RFr I lim trim c) (late = true) (syncNext L.lit L.hook trim f { fr with err := some x } st.log c s)
      (recoverS L trim I lim f st mark x) := by
  have hle := stopNow_le c lim
  have hpl := a.pos_le
  have hss := stopNow_le_stop env lim
  have hst := a.stop
  have hhs : c.headOffset ≤ stopNow c lim := by
    cases htr : trim with
    | true => have := left htr; omega
    | false => have := ht htr; omega
  -- what a failing search does to everything after it
  have fails : ∀ {y : Exn} {c' : Chain} {s' : Sched},
      syncNextLoop L.lit trim fr.cur f f { fr with err := some x } c s = .throw y c' s' →
      syncNext L.lit L.hook trim f { fr with err := some x } st.log c s = .throw y c' s' := by
    intro y c' s' h
    unfold syncNext
    exact P.bind_throw h
  obtain ⟨f', rfl⟩ : ∃ f', f = f' + 1 := ⟨f - 1, by omega⟩
  by_cases hin : st.pos + 1 ≤ stopNow c lim
  · by_cases hq : c.headOffset ≤ st.pos + 1 ∨ c.headOffset < c.stop
    · obtain ⟨v, c1, n1, n2, n3, n4, n5, n6, n7⟩ := nextData_spec trim env hp a ht hin hhs hq
      have hr : restart trim st.pos c.headOffset = restart trim st.pos mark := by
        unfold restart
        cases htr : trim with
        | true => rw [(left htr).1]
        | false => rfl
      rw [hr] at n4 n7
      have hgt : st.pos < restart trim st.pos mark := by unfold restart; split <;> omega
      have h := syncP_spec L.lit trim (T := trim = true) id (f' + 1) (fr := { fr with err := some x, cur := v }) n2 (headPos_step n3 hp) n4
        (hpend.step n3) n7
      unfold recoverS syncNext
      -- the search
      have key : Outc (fun c' s' (fr' : Frame) (r : Nat × SPending) => Env I c' s' ∧ Step (!trim) c c' ∧ At c' fr'.cur r.1 lim ∧
          PendAt c' lim fr'.lah r.2 ∧ fr'.err = some x ∧ (trim = true → c'.headOffset = r.1) ∧ r.1 + 1 ≤ stopNow c' lim)
          (late = true) (syncNextLoop L.lit trim fr.cur (f' + 1) (f' + 1) { fr with err := some x } c s)
          (syncS L.lit I lim (f' + 1) (restart trim st.pos mark) st.lah) := by
        unfold syncNextLoop
        rw [P.bind_done n1, P.bind_apply]
        generalize syncP L.lit trim (f' + 1) { fr with err := some x, cur := v } c1 s = o at h ⊢
        cases hg : syncS L.lit I lim (f' + 1) (restart trim st.pos mark) st.lah with
        | ok r =>
          rw [hg] at h
          obtain ⟨fr', c2, s2, rfl, h2, h3, h4, h5, h6, h7, h8⟩ := h
          have h8 := h8 rfl
          have hlow : restart trim st.pos mark ≤ r.1 := by
            unfold syncS at hg
            obtain ⟨e, -, hg⟩ := Parse.bind_ok hg
            split at hg
            · cases hg
            · obtain ⟨r', hr', hg⟩ := Parse.bind_ok hg
              obtain ⟨e', -, hg⟩ := Parse.bind_ok hg
              split at hg
              · cases hg
              · injection hg with hg; subst hg; exact searchS_lower _ _ hr'
          have hl2 := stopNow_le c2 lim
          have hs2 := h4.start
          have e1 : fr.cur.size c2 = .ok (stopNow c2 lim - st.pos) :=
            CurAt.size h2 ((a.step n3).step h3) (by omega)
          have e2 : fr'.cur.size c2 = .ok (stopNow c2 lim - r.1) := h4.size h2
          have e3 : fr.cur.eqView c2 fr'.cur c2 = .ok false := by
            unfold View.eqView
            rw [e1, e2]
            simp only [Res.ok_bind]
            rw [if_pos (by omega)]
          left
          refine ⟨fr', c2, s2, ?_, h2, n3.trans h3, h4, h5, h6, h7, h8⟩
          simp only
          rw [P.bind_done (P.read_ok (f := fun c => fr.cur.eqView c fr'.cur c) e3 s2)]
          rfl
        | fail e => rw [hg] at h; obtain ⟨c2, s2, rfl⟩ := h; exact ⟨e, c2, s2, rfl, Or.inl rfl⟩
        | more => rw [hg] at h; obtain ⟨c2, rfl⟩ := h; exact Or.inl ⟨c2, rfl⟩
        | diverge => rw [hg] at h; cases h; exact Or.inl rfl
      refine Outc.bind key ?_
      intro fr' r c' s' ⟨k1, k2, k3, k4, k5, k6, k7⟩
      rw [k3.off, k5]
      cases hh : runHook L.hook (some x) (st.log ++ [.synced r.1]) with
      | ok y =>
        obtain ⟨err, log⟩ := y
        exact Or.inl ⟨_, c', s', rfl, k1, k2, ⟨k3, k4, rfl, k6, fun _ => Or.inl (by dsimp only; omega)⟩, rfl⟩
      | error e => exact ⟨e, c', s', rfl, Or.inl rfl⟩
    · -- everything has been consumed
      have hh : c.headOffset = c.stop := by omega
      obtain ⟨v, n1, n2, n3⟩ := nextData_lost trim env hp a (by omega) hh
      have h : syncNextLoop L.lit trim fr.cur (f' + 1) (f' + 1) { fr with err := some x } c s = .throw .invalidIterator c s := by
        unfold syncNextLoop
        rw [P.bind_done n1]
        refine P.bind_throw ?_
        unfold syncP
        exact P.bind_throw (atEod_lost env.live n3 n2)
      cases hl : late with
      | true => exact Outc.lost rfl (fails h)
      | false =>
        have htr : trim = true := by
          cases htr : trim with
          | true => rfl
          | false => have := ht htr; omega
        obtain ⟨l1, l2, l3⟩ := left htr
        have hc : completeNow c lim = true := by
          rcases l3 hl with l3 | l3
          · omega
          · exact l3
        obtain ⟨k1, k2⟩ := complete_now env hc
        have : recoverS L trim I lim (f' + 1) st mark x = .fail .parseError := by
          unfold recoverS
          rw [syncS_end L.lit (f' + 1) st.lah k1 (by unfold restart; rw [if_pos htr]; omega)]
          rfl
        rw [this]
        exact ⟨_, c, s, fails h, Or.inr rfl⟩
  · -- the end of the data
    have hc : completeNow c lim = true := room.resolve_left (by omega)
    obtain ⟨k1, k2⟩ := complete_now env hc
    obtain ⟨v, c1, n1, n2⟩ := nextData_end trim env hp (a.at (by omega)) hc (by omega)
    have h : syncNextLoop L.lit trim fr.cur (f' + 1) (f' + 1) { fr with err := some x } c s = .throw .parseError c1 s := by
      unfold syncNextLoop
      rw [P.bind_done n1]
      refine P.bind_throw ?_
      unfold syncP
      rw [P.bind_done n2]
      rfl
    have : recoverS L trim I lim (f' + 1) st mark x = .fail .parseError := by
      unfold recoverS
      rw [syncS_end L.lit (f' + 1) st.lah k1 (by unfold restart; split <;> omega)]
      rfl
    rw [this]
    exact ⟨_, c1, s, fails h, Or.inl rfl⟩

end Verif.Sync
