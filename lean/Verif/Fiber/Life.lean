import Verif.Fiber.Steps

/-!
# C39: every legal execution is one users expect
-/

namespace Verif.Fiber

variable {w : World} {s : Spec}

/-- Fields the log does not see are as before. -/
theorem recycle_log (f : Nat) (w : World) : (recycle f w).log = w.log := by
  unfold recycle freeFiber; split <;> rfl

/-- Passing control: `run`. -/
theorem step_run (h : Sim w s []) (hl : readLog w.log = some s) {r : Nat} {k : Answer → Prog}
    (hp : s.phase r = .fresh ∨ (s.phase r).closed = true) :
    ∃ w' s', resRun r k w = .ok w' ∧ readLog w'.log = some s' ∧ Sim w' s' [] := by
  rcases hp with hp | hp
  · obtain ⟨f, d, x, hres, hh, hx, hcache, hok, hcur, hstk⟩ := sim_holds h (Or.inl hp)
    have hd : d = false := by
      have ho := h.obj r; rw [hp, hres] at ho; obtain ⟨g, hg⟩ := ho; cases hg; rfl
    rw [hp] at hok
    obtain ⟨⟨hst, hpt⟩, ⟨q, hq⟩, hr, he⟩ := hok
    have hna : x.st ≠ .aborting := by rcases hst with h1 | h1 <;> rw [h1] <;> intro hc <;> cases hc
    have main : ∀ init' : Nat, ∃ w' s', (Res.ok { w with
            stack := frame w .run r f k :: w.stack, ctxRes := some f, initialized := init'
            fibs := upd w.fibs f (some { x with st := .running, func := some (r, q), caller := w.curF, point := .busy })
            curF := some f, curTag := some r, cur := q, log := .started .run r r :: w.log } : Res World) = .ok w' ∧
          readLog w'.log = some s' ∧ Sim w' s' [] := by
      intro init'
      refine ⟨_, { s.set r .active with calls := (r, .run) :: s.calls }, rfl, ?_, ?_⟩
      · show (match readLog w.log with | some s => s.read _ | none => none) = _
        rw [hl]
        show (if _ then _ else _) = _
        rw [if_pos ⟨rfl, rfl, hp⟩]
      · exact sim_enter (op := .run) (k := k) (x' := { x with st := .running, func := some (r, q), caller := w.curF, point := .busy })
          h (Or.inl hp) hres hx hcache hstk ⟨rfl, rfl, hr, he⟩ rfl rfl rfl rfl rfl rfl rfl rfl rfl rfl
    unfold resRun fiberRun activate
    simp only [hres, hx, upd_same, upd_upd, hna, if_false]
    have hc' : w.curF ≠ some f := hcur
    simp only [hc', if_false]
    rcases hpt with h1 | h1
    · simp only [h1, if_true, hq]
      exact main _
    · simp only [h1, if_true, hq]
      exact main _
  · have ho := h.obj r
    have hnone := closed_obj ho hp
    obtain ⟨o, ho1, ho2⟩ := hnone
    unfold resRun
    simp only [ho1, ho2]
    refine ⟨_, s, rfl, ?_, sim_congr h rfl rfl rfl rfl rfl rfl rfl rfl rfl⟩
    show (match readLog w.log with | some s => s.read _ | none => none) = _
    rw [hl]
    show (if _ then _ else _) = _
    rw [if_pos ⟨hp, rfl⟩]

/-- Passing control: `resume`. -/
theorem step_resume (h : Sim w s []) (hl : readLog w.log = some s) {r : Nat} {k : Answer → Prog}
    (hp : s.phase r = .suspended ∨ (s.phase r).closed = true) :
    ∃ w' s', resResume r k w = .ok w' ∧ readLog w'.log = some s' ∧ Sim w' s' [] := by
  rcases hp with hp | hp
  · obtain ⟨f, d, x, hres, hh, hx, hcache, hok, hcur, hstk⟩ := sim_holds h (Or.inr (Or.inl hp))
    rw [hp] at hok
    obtain ⟨hst, ⟨kk, hpt⟩, hr, he⟩ := hok
    have hna : x.st ≠ .aborting := by rw [hst]; intro hc; cases hc
    unfold resResume fiberRun activate
    simp only [hres, hx, upd_same, upd_upd, hst, if_true, hpt]
    have hc' : w.curF ≠ some f := hcur
    simp only [hc', if_false]
    simp only [show (St.yielded = St.aborting) = False from by simp, show (St.running = St.aborting) = False from by simp, if_false]
    refine ⟨_, { s.set r .active with calls := (r, .resume) :: s.calls }, rfl, ?_, ?_⟩
    · show (match readLog w.log with | some s => s.read _ | none => none) = _
      rw [hl]
      show (if _ then _ else _) = _
      rw [if_pos ⟨rfl, rfl, hp⟩]
    · exact sim_enter (op := .resume) (k := k)
        (x' := { st := .running, func := x.func, result := x.result, exc := x.exc, caller := w.curF, point := .busy })
        h (Or.inr hp) hres hx hcache hstk ⟨rfl, rfl, hr, he⟩ rfl rfl rfl rfl rfl rfl rfl rfl rfl rfl
  · have ho := h.obj r
    have hnone := closed_obj ho hp
    obtain ⟨o, ho1, ho2⟩ := hnone
    unfold resResume
    simp only [ho1, ho2]
    refine ⟨_, s, rfl, ?_, sim_congr h rfl rfl rfl rfl rfl rfl rfl rfl rfl⟩
    show (match readLog w.log with | some s => s.read _ | none => none) = _
    rw [hl]
    show (if _ then _ else _) = _
    rw [if_pos ⟨hp, rfl⟩]

/-- Passing control: `abort`. -/
theorem step_abort (h : Sim w s []) (hl : readLog w.log = some s) {r : Nat} {k : Answer → Prog}
    (hp : s.phase r = .suspended ∨ (s.phase r).closed = true) :
    ∃ w' s', resAbort r k w = .ok w' ∧ readLog w'.log = some s' ∧ Sim w' s' [] := by
  rcases hp with hp | hp
  · obtain ⟨f, d, x, hres, hh, hx, hcache, hok, hcur, hstk⟩ := sim_holds h (Or.inr (Or.inl hp))
    rw [hp] at hok
    obtain ⟨hst, ⟨kk, hpt⟩, hr, he⟩ := hok
    unfold resAbort fiberAbort fiberRun activate
    simp only [hres, hx, upd_same, upd_upd, if_true, hst, hpt]
    have hc' : w.curF ≠ some f := hcur
    simp only [hc', if_false]
    refine ⟨_, { s.set r .unwinding with calls := (r, .abort) :: s.calls }, rfl, ?_, ?_⟩
    · show (match readLog w.log with | some s => s.read _ | none => none) = _
      rw [hl]
      show (if _ then _ else _) = _
      rw [if_pos ⟨Or.inl rfl, rfl, hp⟩]
    · exact sim_enter (op := .abort) (k := k)
        (x' := { st := .aborting, func := x.func, result := x.result, exc := x.exc, caller := w.curF, point := .busy })
        h (Or.inr hp) hres hx hcache hstk ⟨rfl, rfl⟩ rfl rfl rfl rfl rfl rfl rfl rfl rfl rfl
  · have ho := h.obj r
    have hnone := closed_obj ho hp
    obtain ⟨o, ho1, ho2⟩ := hnone
    unfold resAbort
    simp only [ho1, ho2]
    refine ⟨_, s, rfl, ?_, sim_congr h rfl rfl rfl rfl rfl rfl rfl rfl rfl⟩
    show (match readLog w.log with | some s => s.read _ | none => none) = _
    rw [hl]
    show (if _ then _ else _) = _
    rw [if_pos ⟨hp, rfl⟩]

/-- The destructor. -/
theorem step_drop (h : Sim w s []) (hl : readLog w.log = some s) {r : Nat} {k : Answer → Prog}
    (hp : s.phase r = .fresh ∨ s.phase r = .suspended ∨ s.phase r = .aborted ∨ (s.phase r).closed = true) :
    ∃ w' s', resDrop r k w = .ok w' ∧ readLog w'.log = some s' ∧ Sim w' s' [] := by
  have park : s.phase r = .fresh ∨ s.phase r = .aborted →
      ∃ w' s', resDrop r k w = .ok w' ∧ readLog w'.log = some s' ∧ Sim w' s' [] := by
    intro hp
    obtain ⟨f, d, x, hres, hh, hx, hcache, hok, hcur, hstk⟩ :=
      sim_holds h (hp.elim Or.inl (fun h1 => Or.inr (Or.inr h1)))
    have hpark := parked_of_ok hok hp
    have h1 : x.st ≠ .yielded := by rcases hpark.1 with h1 | h1 <;> rw [h1] <;> intro hc <;> cases hc
    have h2 : ¬ (x.st = .running ∨ x.st = .aborting) := by
      rcases hpark.1 with h1 | h1 <;> rw [h1] <;> rintro (hc | hc) <;> cases hc
    unfold resDrop
    simp only [hres, hx]
    rw [if_neg h1, if_neg h2]
    have hr := sim_release (o' := none) (p := .gone)
      (w' := { w with res := upd w.res r none, cur := k .returned, log := .answered .drop r .returned :: w.log })
      h hp hh rfl (fun o ho => by cases ho) rfl rfl rfl rfl rfl rfl rfl rfl rfl
    refine ⟨_, s.set r .gone, rfl, ?_, sim_recycle hr⟩
    rw [recycle_log]
    show (match readLog w.log with | some s => s.read _ | none => none) = _
    rw [hl]
    show (if _ then _ else _) = _
    rw [if_pos ⟨by rcases hp with h | h <;> simp [h], rfl⟩]
  rcases hp with hp | hp | hp | hp
  · exact park (Or.inl hp)
  · obtain ⟨f, d, x, hres, hh, hx, hcache, hok, hcur, hstk⟩ := sim_holds h (Or.inr (Or.inl hp))
    rw [hp] at hok
    obtain ⟨hst, ⟨kk, hpt⟩, hr, he⟩ := hok
    unfold resDrop fiberAbort fiberRun activate
    simp only [hres, hx, upd_same, upd_upd, if_true, hst, hpt]
    have hc' : w.curF ≠ some f := hcur
    simp only [hc', if_false]
    refine ⟨_, { s.set r .unwinding with calls := (r, .drop) :: s.calls }, rfl, ?_, ?_⟩
    · show (match readLog w.log with | some s => s.read _ | none => none) = _
      rw [hl]
      show (if _ then _ else _) = _
      rw [if_pos ⟨Or.inr rfl, rfl, hp⟩]
    · exact sim_enter (op := .drop) (k := k)
        (x' := { st := .aborting, func := x.func, result := x.result, exc := x.exc, caller := w.curF, point := .busy })
        h (Or.inr hp) hres hx hcache hstk ⟨rfl, rfl⟩ rfl rfl rfl rfl rfl rfl rfl rfl rfl rfl
  · exact park (Or.inr hp)
  · have ho := h.obj r
    have hnone := closed_obj ho hp
    obtain ⟨o, ho1, ho2⟩ := hnone
    unfold resDrop
    simp only [ho1, ho2]
    refine ⟨_, s.set r .gone, rfl, ?_, sim_closed (p := .gone) (o' := none) h hp rfl (fun o ho => by cases ho) rfl rfl rfl rfl rfl rfl rfl
      rfl rfl⟩
    show (match readLog w.log with | some s => s.read _ | none => none) = _
    rw [hl]
    show (if _ then _ else _) = _
    rw [if_pos ⟨Or.inl hp, rfl⟩]

/-- Overwriting. -/
theorem step_clobber (h : Sim w s []) (hl : readLog w.log = some s) {r : Nat} {k : Prog}
    (hp : s.phase r = .fresh ∨ s.phase r = .aborted ∨ (s.phase r).closed = true) :
    ∃ w' s', doClobber r k w = .ok w' ∧ readLog w'.log = some s' ∧ Sim w' s' [] := by
  have park : s.phase r = .fresh ∨ s.phase r = .aborted →
      ∃ w' s', doClobber r k w = .ok w' ∧ readLog w'.log = some s' ∧ Sim w' s' [] := by
    intro hp
    obtain ⟨f, d, x, hres, hh, hx, hcache, hok, hcur, hstk⟩ :=
      sim_holds h (hp.elim Or.inl (fun h1 => Or.inr (Or.inr h1)))
    have hpark := parked_of_ok hok hp
    have h2 : ¬ (x.st = .running ∨ x.st = .aborting) := by
      rcases hpark.1 with h1 | h1 <;> rw [h1] <;> rintro (hc | hc) <;> cases hc
    unfold doClobber
    simp only [hres, hx]
    rw [if_neg h2]
    have hr := sim_release (o' := some ⟨none, false, none⟩) (p := .vacant)
      (w' := { w with res := upd w.res r (some ⟨none, false, none⟩), cur := k, log := .clobbered r :: w.log })
      h hp hh rfl (fun o ho => by injection ho with ho; rw [← ho]) rfl rfl rfl rfl rfl rfl rfl rfl rfl
    refine ⟨_, s.set r .vacant, rfl, ?_, sim_free hr⟩
    show (match readLog w.log with | some s => s.read _ | none => none) = _
    rw [hl]
    show (if _ then _ else _) = _
    rw [if_pos (by rcases hp with h | h <;> simp [h])]
  rcases hp with hp | hp | hp
  · exact park (Or.inl hp)
  · exact park (Or.inr hp)
  · have ho := h.obj r
    have hnone := closed_obj ho hp
    obtain ⟨o, ho1, ho2⟩ := hnone
    unfold doClobber
    simp only [ho1, ho2]
    refine ⟨_, s.set r .vacant, rfl, ?_, sim_closed (p := .vacant) (o' := some ⟨none, false, none⟩) h hp rfl
      (fun o ho => by injection ho with ho; rw [← ho]) rfl rfl rfl rfl rfl rfl rfl rfl rfl⟩
    show (match readLog w.log with | some s => s.read _ | none => none) = _
    rw [hl]
    show (if _ then _ else _) = _
    rw [if_pos (Or.inl hp)]

/-- The fiber in control. -/
theorem sim_top (h : Sim w s []) {f : Nat} (hf : w.curF = some f) :
    ∃ fr rest cs x, w.stack = fr :: rest ∧ s.calls = (fr.r, fr.op) :: cs ∧ fr.fib = f ∧ w.curTag = some fr.r ∧
      fr.tag = running cs ∧ w.fibs f = some x ∧ x.caller = fr.who ∧ x.caller ≠ some f ∧
      s.phase fr.r = opPhase fr.op ∧ FibOk (opPhase fr.op) fr.r x ∧ fr.saved = expCtx rest ∧
      (fr.op ≠ .drop → w.res fr.r = some ⟨some f, false, none⟩ ∧ w.ctxRes = some f) ∧
      (fr.op = .drop → w.res fr.r = none ∧ w.ctxRes = fr.saved) := by
  have h0 := h.curF
  rw [hf] at h0
  cases hs : w.stack with
  | nil => rw [hs] at h0; cases h0
  | cons fr rest =>
    rw [hs] at h0
    have hff : fr.fib = f := by injection h0 with h0; exact h0.symm
    have hsh := h.shape
    rw [hs] at hsh
    cases hc : s.calls with
    | nil => rw [hc] at hsh; exact hsh.elim
    | cons c cs =>
      rw [hc] at hsh
      obtain ⟨hcr, hwho, htag, hsaved, hsh'⟩ := hsh
      have hmem : fr ∈ w.stack := by rw [hs]; exact List.mem_cons_self
      have hh := h.frames fr hmem
      obtain ⟨x, hx, hcx, hok⟩ := h.hold _ _ hh
      have hph := h.calls c (by rw [hc]; exact List.mem_cons_self)
      rw [hcr] at hph
      dsimp only at hph
      have hcal := h.caller fr hmem x hx
      have htg := h.tag
      rw [hc, hcr] at htg
      refine ⟨fr, rest, cs, x, rfl, by rw [hcr], hff, htg, htag, by rw [← hff]; exact hx, hcal, ?_, hph, by rw [← hph]; exact hok,
        hsaved, ?_, ?_⟩
      · rw [hcal, hwho]
        cases hr : rest with
        | nil => intro hc; cases hc
        | cons fr' l =>
          intro hc
          injection hc with hc
          have := (frame_ne h hs (fr' := fr') (by rw [hr]; exact List.mem_cons_self)).2
          rw [hff] at this
          exact this hc
      · intro hop
        have ho := h.obj fr.r
        rw [hph] at ho
        have hctx := h.ctx
        rw [hs] at hctx
        simp only [expCtx, if_neg hop] at hctx
        refine ⟨?_, by rw [hctx, hff]⟩
        rcases hh with ⟨o, ho1, ho2⟩ | ⟨fr', hm', hop', hr', _⟩
        · have : o = ⟨some fr.fib, false, none⟩ := by
            cases hop2 : fr.op <;> rw [hop2] at ho <;> simp only [opPhase] at ho
            · obtain ⟨g, hg⟩ := ho; rw [ho1] at hg; injection hg with hg; subst hg; injection ho2 with ho2; rw [ho2]
            · obtain ⟨g, hg⟩ := ho; rw [ho1] at hg; injection hg with hg; subst hg; injection ho2 with ho2; rw [ho2]
            · rcases ho with ⟨g, hg, _⟩ | ⟨hg, _⟩
              · rw [ho1] at hg; injection hg with hg; subst hg; injection ho2 with ho2; rw [ho2]
              · rw [ho1] at hg; cases hg
            · exact absurd hop2 hop
          rw [ho1, this, hff]
        · have h1 := shape_mem h.shape hm'
          have h2 := shape_mem h.shape hmem
          have := calls_unique h.nodup h1 h2 hr'
          injection this with _ this
          rw [hop'] at this
          exact absurd this.symm hop
      · intro hop
        have ho := h.obj fr.r
        rw [hph, hop] at ho
        have hctx := h.ctx
        rw [hs] at hctx
        simp only [expCtx, if_pos hop] at hctx
        refine ⟨?_, by rw [hctx, hsaved]⟩
        rcases ho with ⟨g, hg, hm⟩ | ⟨hg, _⟩
        · have := calls_unique h.nodup hm (shape_mem h.shape hmem) rfl
          injection this with _ this
          rw [hop] at this; cases this
        · exact hg

/-- `yield` by a function. -/
theorem step_yield (h : Sim w s []) (hl : readLog w.log = some s) {k : Wake → Prog}
    (hp : ∀ r, running s.calls = some r → s.phase r = .active) :
    ∃ w' s', doYield k w = .ok w' ∧ readLog w'.log = some s' ∧ Sim w' s' [] := by
  cases hf : w.curF with
  | none =>
    have hs : w.stack = [] := by
      have := h.curF; rw [hf] at this
      cases hs : w.stack with
      | nil => rfl
      | cons _ _ => rw [hs] at this; cases this
    have hctx : w.ctxRes = none := by rw [h.ctx, hs]; rfl
    have hc : s.calls = [] := by have := h.shape; rw [hs] at this; exact shape_nil this
    unfold doYield
    simp only [hctx]
    refine ⟨_, s, rfl, ?_, sim_congr h rfl rfl rfl ?_ rfl rfl rfl rfl rfl⟩
    · show (match readLog w.log with | some s => s.read _ | none => none) = _
      rw [hl]
      show (if _ then _ else _) = _
      rw [if_pos hc]
    · exact hctx.symm
  | some f =>
    obtain ⟨fr, rest, cs, x, hs, hcs, hff, htg, hft, hx, hcal, hcal', hph, hok, hsaved, hnd, hd⟩ := sim_top h hf
    have hact := hp fr.r (by rw [hcs]; rfl)
    have hop : fr.op = .run ∨ fr.op = .resume := by
      rw [hact] at hph
      cases hop : fr.op <;> rw [hop] at hph <;> first | exact Or.inl rfl | exact Or.inr rfl | cases hph
    have hnd' := hnd (by rcases hop with h1 | h1 <;> rw [h1] <;> intro hc <;> cases hc)
    have hok' : FibOk .active fr.r x := by rw [← hact, hph]; exact hok
    obtain ⟨hst, hpt, hxr, hxe⟩ := hok'
    have hlv := sim_leave (keep := true) (p := .suspended) (o' := some ⟨some f, false, none⟩)
      (x' := { x with st := .yielded, point := .inside fr.r k })
      (w' := { w with ctxRes := fr.saved, fibs := upd w.fibs f (some { x with st := .yielded, point := .inside fr.r k }),
                      curF := fr.who, curTag := fr.tag, stack := rest, cur := fr.k .returned,
                      log := .left w.curTag .yielded fr.op fr.r .returned fr.tag :: w.log })
      h hs hcs ⟨f, rfl⟩ (fun o ho => by injection ho with ho; rw [← ho, hff]; rfl)
      (fun _ hc => by cases hc) (fun _ => ⟨rfl, ⟨k, rfl⟩, hxr, hxe⟩) (fun hc => by cases hc) rfl rfl rfl rfl rfl rfl (by rw [hff]) rfl
      (by funext q; by_cases hq : q = fr.r
          · rw [hq, upd_same]; exact hnd'.1
          · rw [upd_ne _ _ hq])
    unfold doYield switchBack backIn resYielded
    simp only [hnd'.2, hf, if_true, hx, htg, hst, hs]
    rw [if_pos ⟨hff, hcal, hcal'⟩]
    have hread : readLog (Ev.left (some fr.r) .yielded fr.op fr.r .returned fr.tag :: w.log) =
        some { s.set fr.r .suspended with calls := cs } := by
      show (match readLog w.log with | some s => s.read _ | none => none) = _
      rw [hl]
      simp only [Spec.read, hcs]
      rw [if_pos ⟨trivial, trivial, hft⟩, hact]
      simp [leaving]
    rcases hop with h1 | h1
    · simp only [h1, hnd'.1, hff, if_true, hxe, true_or, or_true]
      refine ⟨_, { s.set fr.r .suspended with calls := cs }, rfl, ?_, ?_⟩
      · rw [h1] at hread; exact hread
      · exact sim_congr hlv rfl rfl rfl rfl rfl rfl (by dsimp only; rw [hxe]) rfl rfl
    · simp only [h1, hnd'.1, hff, if_true, hxe, true_or, or_true]
      refine ⟨_, { s.set fr.r .suspended with calls := cs }, rfl, ?_, ?_⟩
      · rw [h1] at hread; exact hread
      · exact sim_congr hlv rfl rfl rfl rfl rfl rfl (by dsimp only; rw [hxe]) rfl rfl

/-- The end of a function. -/
theorem step_end (h : Sim w s []) (hl : readLog w.log = some s) {how : How} (hhow : how ≠ .yielded) :
    ∃ w' s', funcEnd how w = .ok w' ∧ readLog w'.log = some s' ∧ Sim w' s' [] := by
  cases hf : w.curF with
  | none =>
    unfold funcEnd
    simp only [hf]
    exact ⟨w, s, rfl, hl, h⟩
  | some f =>
    obtain ⟨fr, rest, cs, x, hs, hcs, hff, htg, hft, hx, hcal, hcal', hph, hok, hsaved, hnd, hd⟩ := sim_top h hf
    -- reading the event
    have hread : ∀ (a : Answer) (p : Phase), leaving (s.phase fr.r) fr.op how = some (a, p) →
        readLog (Ev.left (some fr.r) how fr.op fr.r a fr.tag :: w.log) =
          some { s.set fr.r p with calls := cs } := by
      intro a p hlv
      show (match readLog w.log with | some s => s.read _ | none => none) = _
      rw [hl]
      simp only [Spec.read, hcs]
      rw [if_pos ⟨trivial, trivial, hft⟩, hlv]
      simp
    have hcond : fr.fib = f ∧ x.caller = fr.who ∧ x.caller ≠ some f := ⟨hff, hcal, hcal'⟩
    cases hop : fr.op with
    | run =>
      have hact : s.phase fr.r = .active := by rw [hph, hop]; rfl
      have hok' : FibOk .active fr.r x := by rw [hop] at hok; exact hok
      obtain ⟨hst, hpt, hxr, hxe⟩ := hok'
      have hnd' := hnd (by rw [hop]; intro hc; cases hc)
      cases how with
      | yielded => exact absurd rfl hhow
      | finished v =>
        have hlv := sim_leave (keep := false) (p := .finished v) (o' := some ⟨none, true, some v⟩)
          (x' := { x with result := some v, exc := x.exc, func := none, st := .idle, point := .loop })
          (w' := { w with ctxRes := fr.saved,
                          fibs := upd w.fibs f (some { x with result := some v, exc := x.exc, func := none, st := .idle, point := .loop }),
                          curF := fr.who, curTag := fr.tag, stack := rest, res := upd w.res fr.r (some ⟨none, true, some v⟩) })
          h hs hcs rfl (fun o ho => by injection ho with ho; rw [← ho]; rfl) (fun hc => by cases hc) (fun hc => by cases hc)
          (fun _ => ⟨Or.inr rfl, Or.inr rfl⟩) rfl rfl rfl rfl rfl rfl (by rw [hff]) rfl rfl
        unfold funcEnd switchBack backIn resYielded
        simp only [hf, hx, hs, htg]
        rw [if_pos hcond]
        simp only [hop, hnd'.1, hff, if_true, hxe, or_true, or_self, reduceCtorEq, if_false]
        refine ⟨_, { s.set fr.r (.finished v) with calls := cs }, rfl, ?_, ?_⟩
        · have := hread .returned (.finished v) (by rw [hact]; rfl)
          rw [hop] at this; exact this
        · refine sim_congr (sim_recycle hlv) ?_ ?_ ?_ ?_ ?_ ?_ ?_ ?_ ?_ <;> unfold recycle freeFiber <;>
            rw [hff] <;> split <;> simp_all
      | failed e =>
        have hlv := sim_leave (keep := false) (p := .raised e) (o' := some ⟨none, true, none⟩)
          (x' := { x with result := x.result, exc := some e, func := none, st := .idle, point := .loop })
          (w' := { w with ctxRes := fr.saved,
                          fibs := upd w.fibs f (some { x with result := x.result, exc := some e, func := none, st := .idle, point := .loop }),
                          curF := fr.who, curTag := fr.tag, stack := rest, res := upd w.res fr.r (some ⟨none, true, none⟩) })
          h hs hcs rfl (fun o ho => by injection ho with ho; rw [← ho]; rfl) (fun hc => by cases hc) (fun hc => by cases hc)
          (fun _ => ⟨Or.inr rfl, Or.inr rfl⟩) rfl rfl rfl rfl rfl rfl (by rw [hff]) rfl rfl
        unfold funcEnd switchBack backIn resYielded
        simp only [hf, hx, hs, htg]
        rw [if_pos hcond]
        simp only [hop, hnd'.1, hff, if_true, or_true, reduceCtorEq, if_false]
        refine ⟨_, { s.set fr.r (.raised e) with calls := cs }, rfl, ?_, ?_⟩
        · have := hread (.raised e) (.raised e) (by rw [hact]; rfl)
          rw [hop] at this; exact this
        · refine sim_congr (sim_recycle hlv) ?_ ?_ ?_ ?_ ?_ ?_ ?_ ?_ ?_ <;> unfold recycle freeFiber <;>
            rw [hff] <;> split <;> simp_all
    | resume =>
      have hact : s.phase fr.r = .active := by rw [hph, hop]; rfl
      have hok' : FibOk .active fr.r x := by rw [hop] at hok; exact hok
      obtain ⟨hst, hpt, hxr, hxe⟩ := hok'
      have hnd' := hnd (by rw [hop]; intro hc; cases hc)
      cases how with
      | yielded => exact absurd rfl hhow
      | finished v =>
        have hlv := sim_leave (keep := false) (p := .finished v) (o' := some ⟨none, true, some v⟩)
          (x' := { x with result := some v, exc := x.exc, func := none, st := .idle, point := .loop })
          (w' := { w with ctxRes := fr.saved,
                          fibs := upd w.fibs f (some { x with result := some v, exc := x.exc, func := none, st := .idle, point := .loop }),
                          curF := fr.who, curTag := fr.tag, stack := rest, res := upd w.res fr.r (some ⟨none, true, some v⟩) })
          h hs hcs rfl (fun o ho => by injection ho with ho; rw [← ho]; rfl) (fun hc => by cases hc) (fun hc => by cases hc)
          (fun _ => ⟨Or.inr rfl, Or.inr rfl⟩) rfl rfl rfl rfl rfl rfl (by rw [hff]) rfl rfl
        unfold funcEnd switchBack backIn resYielded
        simp only [hf, hx, hs, htg]
        rw [if_pos hcond]
        simp only [hop, hnd'.1, hff, if_true, hxe, or_true, or_self, reduceCtorEq, if_false]
        refine ⟨_, { s.set fr.r (.finished v) with calls := cs }, rfl, ?_, ?_⟩
        · have := hread .returned (.finished v) (by rw [hact]; rfl)
          rw [hop] at this; exact this
        · refine sim_congr (sim_recycle hlv) ?_ ?_ ?_ ?_ ?_ ?_ ?_ ?_ ?_ <;> unfold recycle freeFiber <;>
            rw [hff] <;> split <;> simp_all
      | failed e =>
        have hlv := sim_leave (keep := false) (p := .raised e) (o' := some ⟨none, true, none⟩)
          (x' := { x with result := x.result, exc := some e, func := none, st := .idle, point := .loop })
          (w' := { w with ctxRes := fr.saved,
                          fibs := upd w.fibs f (some { x with result := x.result, exc := some e, func := none, st := .idle, point := .loop }),
                          curF := fr.who, curTag := fr.tag, stack := rest, res := upd w.res fr.r (some ⟨none, true, none⟩) })
          h hs hcs rfl (fun o ho => by injection ho with ho; rw [← ho]; rfl) (fun hc => by cases hc) (fun hc => by cases hc)
          (fun _ => ⟨Or.inr rfl, Or.inr rfl⟩) rfl rfl rfl rfl rfl rfl (by rw [hff]) rfl rfl
        unfold funcEnd switchBack backIn resYielded
        simp only [hf, hx, hs, htg]
        rw [if_pos hcond]
        simp only [hop, hnd'.1, hff, if_true, or_true, reduceCtorEq, if_false]
        refine ⟨_, { s.set fr.r (.raised e) with calls := cs }, rfl, ?_, ?_⟩
        · have := hread (.raised e) (.raised e) (by rw [hact]; rfl)
          rw [hop] at this; exact this
        · refine sim_congr (sim_recycle hlv) ?_ ?_ ?_ ?_ ?_ ?_ ?_ ?_ ?_ <;> unfold recycle freeFiber <;>
            rw [hff] <;> split <;> simp_all
    | abort =>
      have hact : s.phase fr.r = .unwinding := by rw [hph, hop]; rfl
      have hnd' := hnd (by rw [hop]; intro hc; cases hc)
      have hlv : ∀ (v : Option Nat) (e : Option Exc) (w' : World),
          w'.fibs = upd w.fibs f (some { x with result := v, exc := e, func := none, st := .idle, point := .loop }) →
          w'.ctxRes = fr.saved → w'.curF = fr.who → w'.curTag = fr.tag → w'.stack = rest → w'.nextR = w.nextR →
          w'.nextF = w.nextF → w'.cache = w.cache → w'.res = upd w.res fr.r (some ⟨some f, true, none⟩) →
          Sim w' { s.set fr.r .aborted with calls := cs } [] := by
        intro v e w' e1 e2 e3 e4 e5 e6 e7 e8 e9
        refine (sim_leave (keep := true) (p := .aborted) (o' := some ⟨some f, true, none⟩)
          (x' := { x with result := v, exc := e, func := none, st := .idle, point := .loop })
          h hs hcs ⟨f, rfl⟩ (fun o ho => by injection ho with ho; rw [← ho, hff]; rfl) (fun _ hc => by cases hc)
          (fun _ => ⟨Or.inr rfl, Or.inr rfl⟩) (fun _ => ⟨Or.inr rfl, Or.inr rfl⟩) e4 e3 e5 e2 e6 e7 ?_ e8 e9)
        rw [e1, hff]
      have hread' := hread .returned .aborted (by rw [hact, hop]; cases how <;> first | rfl | exact absurd rfl hhow)
      rw [hop] at hread'
      unfold funcEnd switchBack backIn
      simp only [hf, hx, hs, htg]
      rw [if_pos hcond]
      simp only [hop, hnd'.1, if_true, or_true]
      exact ⟨_, _, rfl, hread', hlv _ _ _ rfl rfl rfl rfl rfl rfl rfl rfl rfl⟩
    | drop =>
      have hact : s.phase fr.r = .unwinding := by rw [hph, hop]; rfl
      have hd' := hd hop
      have hlv : ∀ (v : Option Nat) (e : Option Exc),
          Sim (recycle f { w with
            fibs := upd w.fibs f (some { x with result := v, exc := e, func := none, st := .idle, point := .loop })
            curF := fr.who, curTag := fr.tag, stack := rest }) { s.set fr.r .gone with calls := cs } [] := by
        intro v e
        have := sim_leave (keep := false) (p := .gone) (o' := none)
          (x' := { x with result := v, exc := e, func := none, st := .idle, point := .loop })
          (w' := { w with
            fibs := upd w.fibs f (some { x with result := v, exc := e, func := none, st := .idle, point := .loop })
            curF := fr.who, curTag := fr.tag, stack := rest })
          h hs hcs rfl (fun o ho => by cases ho) (fun hc => by cases hc) (fun hc => by cases hc)
          (fun _ => ⟨Or.inr rfl, Or.inr rfl⟩) rfl rfl rfl hd'.2 rfl rfl (by rw [hff]) rfl
          (by funext q; by_cases hq : q = fr.r
              · rw [hq, upd_same]; exact hd'.1
              · rw [upd_ne _ _ hq])
        rw [hff] at this
        exact sim_recycle this
      have hread' := hread .returned .gone (by rw [hact, hop]; cases how <;> first | rfl | exact absurd rfl hhow)
      rw [hop] at hread'
      unfold funcEnd switchBack backIn
      simp only [hf, hx, hs, htg]
      rw [if_pos hcond]
      simp only [hop, if_true, or_true, hff]
      refine ⟨_, _, rfl, hread', ?_⟩
      exact sim_congr (hlv _ _) rfl rfl rfl rfl rfl rfl rfl rfl rfl

end Verif.Fiber
