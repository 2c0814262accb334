import Verif.Parse.Sim4
/-! # Parsing: limits, backtracking, loops, look-ahead and redirected input refine their specification -/

namespace Verif.Parse
open Verif.Stream

variable {I : Input} {lo : Option Nat}

/-- The limited view. -/
theorem At.limit {c : Chain} (h : c.Live) {v : View} {pos : Nat} {lim : Option Nat} (a : At c v pos lim) (n : Nat) :
    ∃ w, v.limit c n = .ok w ∧ At c w pos (innerLim lim pos n) := by
  obtain ⟨j, e, ho, hi⟩ := Chain.incr_spec h a.iter (v.limitTo n)
  refine ⟨⟨v.begin, some j⟩, ?_, a.iter, a.off, ?_, ?_, a.start, a.stop, ?_⟩
  · unfold View.limit; rw [e]; simp only [Res.ok_bind]
    exact mk2_ok h (by rw [a.off]; exact a.start)
  · intro x hx; injection hx with hx; exact hx ▸ hi
  · simp only [Option.map_some, ho, a.off]
    unfold View.limitTo innerLim
    have hend := a.end
    cases hv : v.end with
    | none => rw [hv] at hend; simp at hend; subst hend; rfl
    | some x =>
      rw [hv] at hend; simp at hend; subst hend
      have := a.lim _ rfl
      simp only [a.off, this, if_true]
      congr 1
      omega
  · intro l hl
    unfold innerLim at hl
    cases lim with
    | none => simp at hl; omega
    | some m => simp at hl; have := a.lim m rfl; omega

theorem limit_refines (n : Nat) {p : Parser} {g : SParser} (h : RefinesL lo p g) : RefinesL lo (limitP n p) (fun I lim pos => do
    let r ← g I (innerLim lim pos n) pos
    if r.2 < pos + n then .fail .parseError else .ok (r.1, pos + n)) := by
  intro I hI lim trim v pos c s kp env a
  unfold limitP
  obtain ⟨w, hw, aw⟩ := a.limit env.live n
  obtain ⟨j, e, ho, hi⟩ := Chain.incr_spec env.live a.iter n
  have hadv : v.advance c n = .ok ⟨j, v.end⟩ := by unfold View.advance; rw [e]; rfl
  rw [P.bind_done (P.read_ok hw s), P.bind_done (P.read_ok hadv s)]
  refine Sim.bind (h I hI _ trim w pos c s kp env aw) (fun b v' p' c' s' e' st' a' => ?_)
  simp only [a'.off, ho, a.off]
  by_cases hlt : p' < pos + n
  · rw [if_pos hlt, if_pos hlt]
    exact ⟨c', s', rfl, e', Step.refl c'⟩
  · rw [if_neg hlt, if_neg hlt]
    have hp : p' ≤ pos + n ∧ ∀ l, lim = some l → p' ≤ l := by
      have := a'.lim
      unfold innerLim at this
      cases lim with
      | none => exact ⟨this _ rfl, fun l hl => by cases hl⟩
      | some m =>
        have := this _ rfl
        exact ⟨by omega, fun l hl => by injection hl with hl; omega⟩
    have hpe : p' = pos + n := by omega
    refine ⟨⟨j, v.end⟩, c', s', rfl, e', Step.refl c', ?_⟩
    refine ⟨hi.evolves st'.evolves, by rw [ho, a.off], fun x hx => (a.endIter x hx).evolves st'.evolves, a.end, ?_, ?_, ?_⟩
    · have := a'.start; omega
    · have := a'.stop; omega
    · intro l hl; have := hp.2 l hl; omega

/-- Parsing only moves forward, and not beyond the accessible data. -/
def Forward (g : SParser) : Prop := ∀ (I : Input) (lim : Option Nat) (pos : Nat) (r : Val × Nat),
  pos ≤ I.stop lim → g I lim pos = .ok r → pos ≤ r.2 ∧ r.2 ≤ I.stop lim

theorem stop_inner (I : Input) {lim : Option Nat} {pos : Nat} (n : Nat) (h : pos ≤ I.stop lim) :
    pos ≤ I.stop (innerLim lim pos n) ∧ I.stop (innerLim lim pos n) ≤ I.stop lim ∧
      I.stop (innerLim lim pos n) ≤ pos + n := by
  unfold Input.stop innerLim at *
  cases lim with
  | none => simp only at *; omega
  | some l => simp only at *; omega

theorem maxSize_refines (n : Nat) {p : Parser} {g : SParser} (fw : Forward g) (h : RefinesL lo p g) :
    RefinesL lo (maxSizeP n p) (fun I lim pos => do
    let r ← g I (innerLim lim pos (n + 1)) pos
    if r.2 ≥ pos + (n + 1) then .fail .parseError else .ok r) := by
  intro I hI lim trim v pos c s kp env a
  unfold maxSizeP
  obtain ⟨w, hw, aw⟩ := a.limit env.live (n + 1)
  obtain ⟨j, e, ho, hi⟩ := Chain.incr_spec env.live a.iter (n + 1)
  have hadv : v.advance c (n + 1) = .ok ⟨j, v.end⟩ := by unfold View.advance; rw [e]; rfl
  have hps : pos ≤ I.stop lim := Nat.le_trans a.pos_le (stopNow_le_stop env lim)
  rw [P.bind_done (P.read_ok hw s), P.bind_done (P.read_ok hadv s)]
  have hs := h I hI _ trim w pos c s kp env aw
  dsimp only
  cases hg : g I (innerLim lim pos (n + 1)) pos with
  | fail x => rw [hg] at hs; obtain ⟨c2, s2, h1, h2, h3⟩ := hs; exact ⟨c2, s2, P.bind_throw h1, h2, h3⟩
  | more => rw [hg] at hs; obtain ⟨c2, h1⟩ := hs; exact ⟨c2, P.bind_suspended h1⟩
  | diverge => rw [hg] at hs; exact P.bind_diverge hs
  | ok r =>
    rw [hg] at hs
    obtain ⟨v', c', s', h1, e', st', a'⟩ := hs
    obtain ⟨f1, f2⟩ := fw I _ pos r (stop_inner I (n + 1) hps).1 hg
    rw [P.bind_done h1]
    refine Sim.from st' ?_
    simp only [a'.off, ho, a.off, SRes.ok_bind]
    by_cases hlt : r.2 ≥ pos + (n + 1)
    · rw [if_pos hlt, if_pos hlt]
      exact ⟨c', s', rfl, e', Step.refl c'⟩
    · rw [if_neg hlt, if_neg hlt]
      obtain ⟨j2, e2, ho2, hi2⟩ := Chain.incr_spec e'.live (a.iter.evolves st'.evolves) (r.2 - pos)
      have hadv2 : v.advance c' (r.2 - pos) = .ok ⟨j2, v.end⟩ := by unfold View.advance; rw [e2]; rfl
      refine ⟨⟨j2, v.end⟩, c', s', ?_, e', Step.refl c', ?_⟩
      · rw [P.bind_done (P.read_ok hadv2 s')]; rfl
      · have := a.off
        have hl : ∀ l, lim = some l → r.2 ≤ l := by
          intro l hl
          have := (stop_inner I (n + 1) hps).2.1
          subst hl
          simp only [Input.stop] at this
          have h9 := (stop_inner I (n + 1) hps).2.1
          unfold Input.stop at h9 f2
          simp only at h9
          omega
        exact ⟨hi2, by show j2.offset = r.2; omega, fun x hx => (a.endIter x hx).evolves st'.evolves, a.end, a'.start, a'.stop, hl⟩

theorem try_refines {p : Parser} {g : SParser} (h : RefinesL lo p g) : RefinesL lo (tryP p) (fun I lim pos =>
    match g I lim pos with
    | .fail .backtrack => .ok (.unit, pos)
    | r => r) := by
  intro I hI lim trim v pos c s kp env a
  unfold tryP
  have hs := h I hI lim false v pos c s kp.untrimmed env a
  have fin : ∀ (x : Val) (w : View) (q : Nat) (c' : Chain) (s' : Sched), catchBacktrack (p false v) v c s = .done (x, w) c' s' →
      Env I c' s' → Step true c c' → At c' w q lim →
      Sim I lim (!trim) c ((do
        let r ← catchBacktrack (p false v) v
        trimInput trim r.2
        pure r : P (Val × View)) c s) (.ok (x, q)) := by
    intro x w q c' s' h1 h2 h3 h4
    obtain ⟨c2, t1, t2, t3, t4, -, -⟩ := trimInput_spec trim h2 h4
    refine ⟨w, c2, s', ?_, t2, h3.weaken.trans t3, t4⟩
    rw [P.bind_done h1, P.bind_done t1]; rfl
  have oth : ∀ (e : Exn) c' s', e ≠ .backtrack → p false v c s = .throw e c' s' →
      catchBacktrack (p false v) v c s = .throw e c' s' := by
    intro e c' s' he hp
    unfold catchBacktrack
    rw [hp]
    cases e <;> first | rfl | exact absurd rfl he
  dsimp only
  cases hg : g I lim pos with
  | ok r =>
    rw [hg] at hs; obtain ⟨v', c', s', h1, h2, h3, h4⟩ := hs
    exact fin r.1 v' r.2 c' s' (by unfold catchBacktrack; rw [h1]) h2 h3 h4
  | fail e =>
    rw [hg] at hs; obtain ⟨c', s', h1, h2, h3⟩ := hs
    by_cases he : e = .backtrack
    · subst he
      exact fin .unit v pos c' s' (by unfold catchBacktrack; rw [h1]) h2 h3 (a.keep h3)
    · have : (match (SRes.fail e : SRes (Val × Nat)) with
          | .fail .backtrack => .ok (.unit, pos)
          | r => r) = SRes.fail e := by
        cases e <;> first | rfl | exact absurd rfl he
      rw [this]
      exact ⟨c', s', P.bind_throw (oth e c' s' he h1), h2, h3.weaken⟩
  | more =>
    rw [hg] at hs; obtain ⟨c', h1⟩ := hs
    exact ⟨c', P.bind_suspended (by unfold catchBacktrack; rw [h1])⟩
  | diverge =>
    rw [hg] at hs
    exact P.bind_diverge (by unfold catchBacktrack; rw [hs])

theorem counter_loop {p : Parser} {g : SParser} (h : RefinesL lo p g) (stop : Val → Stop) (hI : I.data.length < 2 ^ 64 - 1)
    (trim : Bool) (lim : Option Nat) (n : Nat) :
    ∀ (v : View) (pos : Nat) (c : Chain) (s : Sched) (acc : List Val), Kept lo trim c → Env I c s → At c v pos lim →
    Sim I lim (!trim) c (counterLoop p stop trim n v acc c s) (counterSpec g stop I lim n pos acc) := by
  induction n with
  | zero => intro v pos c s acc kp env a; exact ⟨v, c, s, rfl, env, Step.refl c, a⟩
  | succ n ih =>
    intro v pos c s acc kp env a
    unfold counterLoop counterSpec
    refine Sim.bind (h I hI lim trim v pos c s kp env a) (fun b v' p' c' s' e' st' a' => ?_)
    cases stop b with
    | go => exact ih v' p' c' s' _ (kp.step st') e' a'
    | drop => exact ⟨v', c', s', rfl, e', Step.refl c', a'⟩
    | keep => exact ⟨v', c', s', rfl, e', Step.refl c', a'⟩

theorem counter_refines {p : Parser} {g : SParser} (h : RefinesL lo p g) (n : Nat) (stop : Val → Stop) :
    RefinesL lo (fun trim cur => counterLoop p stop trim n cur []) (fun I lim pos => counterSpec g stop I lim n pos []) := by
  intro I hI lim trim v pos c s kp env a
  exact counter_loop h stop hI trim lim n v pos c s [] kp env a

theorem isEnd_spec {c : Chain} (h : c.Live) (i : Iter) : i.isEnd c = .ok (decide (i.offset ≥ c.stop)) := by
  unfold Iter.isEnd
  rw [if_pos h.isValid, Chain.endOffset_eq h.inv]; rfl

/-- The result of `finishLoopBody`. -/
theorem finishLoopBody_spec {lim : Option Nat} {pos pos' : Nat} {c : Chain} {s : Sched} {v' : View} {old : Iter}
    (env : Env I c s) (a : At c v' pos' lim) (ho : old.offset = pos) (hle : pos ≤ pos')
    {f : P (Val × View)} {g : SRes (Val × Nat)} {keep : Bool}
    (hf : ∀ c' s', Env I c' s' → Step true c c' → Sim I lim keep c' (f c' s') g) :
    Sim I lim keep c ((do finishLoopBody old v'; f : P (Val × View)) c s) (do
      let bad ← (if pos' = pos then do
          let e ← atEnd I lim pos
          .ok (!e)
        else .ok false)
      if bad then .fail .parseError else g) := by
  unfold finishLoopBody
  have hr : (do
      let x ← v'.begin.isEnd c
      let y ← old.isEnd c
      .ok (x && y) : Res Bool) = .ok (decide (pos' ≥ c.stop) && decide (pos ≥ c.stop)) := by
    rw [isEnd_spec env.live, isEnd_spec env.live, a.off, ho]; rfl
  rw [P.bind_assoc, P.bind_done (P.read_ok hr s)]
  have hst := a.stop
  by_cases heq : pos' = pos
  · rw [if_pos heq, if_pos (Or.inl (by rw [a.off, ho]; exact heq)), P.bind_assoc]
    subst heq
    rcases atEod_spec env a with ⟨b, c', s', h1, h2, h3, h4, h5⟩ | ⟨c', h1, h2⟩
    · rw [h1, P.bind_done h2]
      simp only [SRes.ok_bind]
      cases b with
      | true =>
        simp only [if_true, Bool.not_true, Bool.false_eq_true, if_false]
        rw [P.pure_bind]
        exact Sim.from h4.weaken (hf c' s' h3 h4)
      | false =>
        simp only [Bool.false_eq_true, if_false, Bool.not_false, if_true]
        exact ⟨c', s', rfl, h3, h4.weaken⟩
    · rw [h1, P.bind_suspended h2]
      exact ⟨c', rfl⟩
  · rw [if_neg heq, if_neg, P.pure_bind]
    · simp only [SRes.ok_bind, Bool.false_eq_true, if_false]
      exact hf c s env (Step.refl c)
    · rw [a.off, ho]
      simp only [Bool.and_eq_true, decide_eq_true_eq]
      omega

theorem foreach_loop {p : Parser} {g : SParser} (fw : Forward g) (h : RefinesL lo p g) (eodOk : Bool) (stop : Val → Stop)
    (hI : I.data.length < 2 ^ 64 - 1) (trim : Bool) (lim : Option Nat) (f : Nat) :
    ∀ (v : View) (pos : Nat) (c : Chain) (s : Sched) (acc : List Val), Kept lo trim c → Env I c s → At c v pos lim →
    Sim I lim (!trim) c (foreachLoop eodOk p stop trim f v acc c s) (foreachSpec eodOk g stop I lim f pos acc) := by
  induction f with
  | zero => intro v pos c s acc kp env a; rfl
  | succ f ih =>
    intro v pos c s acc kp env a
    have body : ∀ c s, Kept lo trim c → Env I c s → At c v pos lim → Sim I lim (!trim) c ((do
        let r ← p trim v
        match stop r.1 with
        | .go => do
          finishLoopBody v.begin r.2
          foreachLoop eodOk p stop trim f r.2 (acc ++ [r.1])
        | .drop => pure (.list acc, r.2)
        | .keep => pure (.list (acc ++ [r.1]), r.2) : P (Val × View)) c s) (do
        let r ← g I lim pos
        match stop r.1 with
        | .go => do
          let bad ← (if r.2 = pos then do
              let e ← atEnd I lim pos
              .ok (!e)
            else .ok false)
          if bad then .fail .parseError
          else foreachSpec eodOk g stop I lim f r.2 (acc ++ [r.1])
        | .drop => .ok (.list acc, r.2)
        | .keep => .ok (.list (acc ++ [r.1]), r.2)) := by
      intro c s kp env a
      have hps : pos ≤ I.stop lim := Nat.le_trans a.pos_le (stopNow_le_stop env lim)
      have hs := h I hI lim trim v pos c s kp env a
      cases hg : g I lim pos with
      | fail x => rw [hg] at hs; obtain ⟨c2, s2, h1, h2, h3⟩ := hs; exact ⟨c2, s2, P.bind_throw h1, h2, h3⟩
      | more => rw [hg] at hs; obtain ⟨c2, h1⟩ := hs; exact ⟨c2, P.bind_suspended h1⟩
      | diverge => rw [hg] at hs; exact P.bind_diverge hs
      | ok r =>
        rw [hg] at hs
        obtain ⟨v', c', s', h1, e', st', a'⟩ := hs
        obtain ⟨f1, f2⟩ := fw I _ pos r hps hg
        rw [P.bind_done h1]
        refine Sim.from st' ?_
        simp only [SRes.ok_bind]
        cases stop r.1 with
        | go =>
          exact finishLoopBody_spec e' a' a.off f1 (fun c2 s2 e2 st2 => ih v' r.2 c2 s2 _ ((kp.step st').step st2.weaken) e2 (a'.keep st2))
        | drop => exact ⟨v', c', s', rfl, e', Step.refl c', a'⟩
        | keep => exact ⟨v', c', s', rfl, e', Step.refl c', a'⟩
    unfold foreachLoop foreachSpec foreachCond
    cases eodOk with
    | false =>
      simp only [Bool.false_eq_true, if_false, SRes.ok_bind]
      rw [P.pure_bind]
      simp only [if_true]
      exact body c s kp env a
    | true =>
      rw [if_pos rfl, if_pos rfl, P.bind_assoc]
      rcases atEod_spec env a with ⟨b, c', s', h1, h2, h3, h4, h5⟩ | ⟨c', h1, h2⟩
      · rw [h1, P.bind_done h2, P.pure_bind]
        simp only [SRes.ok_bind]
        cases b with
        | true =>
          simp only [if_true, Bool.not_true, Bool.false_eq_true, if_false]
          exact ⟨v, c', s', rfl, h3, h4.weaken, a.keep h4⟩
        | false =>
          have hb := body c' s' (kp.step h4.weaken) h3 (a.keep h4)
          rw [h1] at hb
          simp only [Bool.false_eq_true, if_false, Bool.not_false, if_true, SRes.ok_bind] at hb ⊢
          exact Sim.from h4.weaken hb
      · rw [h1, P.bind_suspended h2]
        exact ⟨c', rfl⟩

theorem foreach_refines {p : Parser} {g : SParser} (fw : Forward g) (h : RefinesL lo p g) (eodOk : Bool) (stop : Val → Stop)
    (f : Nat) : RefinesL lo (fun trim cur => foreachLoop eodOk p stop trim f cur [])
      (fun I lim pos => foreachSpec eodOk g stop I lim f pos []) := by
  intro I hI lim trim v pos c s kp env a
  exact foreach_loop fw h eodOk stop hI trim lim f v pos c s [] kp env a

end Verif.Parse
