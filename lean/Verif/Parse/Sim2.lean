import Verif.Parse.Sim
/-! # Parsing: relating the machine to the specification (waiting and primitive parsers) -/

namespace Verif.Parse
open Verif.Stream

variable {I : Input}

theorem P.bind_apply {α β : Type} (x : P α) (f : α → P β) (c : Chain) (s : Sched) :
    (x >>= f) c s = match x c s with
      | .done a c' s' => f a c' s'
      | .throw e c' s' => .throw e c' s'
      | .suspended c' => .suspended c'
      | .diverge => .diverge
      | .ub => .ub := rfl

theorem P.bind_done {α β : Type} {x : P α} {f : α → P β} {c c' : Chain} {s s' : Sched} {a : α}
    (h : x c s = .done a c' s') : (x >>= f) c s = f a c' s' := by rw [P.bind_apply, h]

theorem P.bind_throw {α β : Type} {x : P α} {f : α → P β} {c c' : Chain} {s s' : Sched} {e : Exn}
    (h : x c s = .throw e c' s') : (x >>= f) c s = .throw e c' s' := by rw [P.bind_apply, h]

theorem P.bind_suspended {α β : Type} {x : P α} {f : α → P β} {c c' : Chain} {s : Sched}
    (h : x c s = .suspended c') : (x >>= f) c s = .suspended c' := by rw [P.bind_apply, h]

theorem P.bind_diverge {α β : Type} {x : P α} {f : α → P β} {c : Chain} {s : Sched}
    (h : x c s = .diverge) : (x >>= f) c s = .diverge := by rw [P.bind_apply, h]

theorem P.pure_apply {α : Type} (a : α) (c : Chain) (s : Sched) : (pure a : P α) c s = .done a c s := rfl
theorem P.raise_apply {α : Type} (e : Exn) (c : Chain) (s : Sched) : (P.raise e : P α) c s = .throw e c s := rfl
theorem P.read_ok {α : Type} {f : Chain → Res α} {c : Chain} {a : α} (h : f c = .ok a) (s : Sched) :
    P.read f c s = .done a c s := by unfold P.read; rw [h]

theorem stopNow_mono {c c' : Chain} {k : Bool} (h : Step k c c') (lim : Option Nat) : stopNow c lim ≤ stopNow c' lim := by
  have := h.stop
  cases lim with
  | none => exact this
  | some l => simp only [stopNow]; omega

/-- When the schedule is exhausted, what is accessible now is all there is, and it is not complete. -/
theorem exhausted {c : Chain} (env : Env I c []) {lim : Option Nat} (h : completeNow c lim = false) :
    I.complete lim = false ∧ I.stop lim = stopNow c lim := by
  unfold completeNow at h
  simp only [Bool.or_eq_false_iff] at h
  obtain ⟨hf, hl⟩ := h
  have hr := env.rest; rw [hf] at hr
  have he : c.stop = I.data.length := by
    have h1 := env.len
    have := congrArg List.length hr
    simp [total] at this; omega
  have hc := env.closed; rw [hf] at hc
  simp [closes] at hc
  unfold Input.complete Input.stop stopNow
  cases lim with
  | none => simp [hc, he]
  | some l =>
    simp only [decide_eq_false_iff_not, Nat.not_le] at hl
    simp [hc, he] at hl ⊢
    exact hl

theorem waitLoop_spec {v : View} {pos : Nat} {lim : Option Nat} (s : Sched) : ∀ {c : Chain}, Env I c s → At c v pos lim →
    (∃ c' s', waitLoop v (stopNow c lim - pos) s c = .done true c' s' ∧ Env I c' s' ∧ Step true c c' ∧
      stopNow c lim < stopNow c' lim ∧ s'.length < s.length) ∨
    (∃ c' s', waitLoop v (stopNow c lim - pos) s c = .done false c' s' ∧ Env I c' s' ∧ Step true c c' ∧
      completeNow c' lim = true ∧ stopNow c' lim = stopNow c lim ∧ s'.length ≤ s.length) ∨
    (∃ c', waitLoop v (stopNow c lim - pos) s c = .suspended c' ∧ I.complete lim = false ∧ I.stop lim = stopNow c lim) := by
  induction s with
  | nil =>
    intro c env a
    cases hc : completeNow c lim with
    | true =>
      refine Or.inr (Or.inl ⟨c, [], ?_, env, Step.refl c, hc, rfl, Nat.le_refl _⟩)
      unfold waitLoop; rw [a.isComplete env, hc]
    | false =>
      refine Or.inr (Or.inr ⟨c, ?_, exhausted env hc⟩)
      unfold waitLoop; rw [a.isComplete env, hc]
  | cons it s ih =>
    intro c env a
    cases hc : completeNow c lim with
    | true =>
      refine Or.inr (Or.inl ⟨c, it :: s, ?_, env, Step.refl c, hc, rfl, Nat.le_refl _⟩)
      unfold waitLoop; rw [a.isComplete env, hc]
    | false =>
      obtain ⟨env', st⟩ := item_env env
      have a' := a.keep st
      have hm := stopNow_mono st lim
      have hp := a.pos_le
      have hu : waitLoop v (stopNow c lim - pos) (it :: s) c =
          if stopNow c lim - pos = stopNow (c.run it.ops) lim - pos then
            waitLoop v (stopNow c lim - pos) s (c.run it.ops) else .done true (c.run it.ops) s := by
        conv => lhs; unfold waitLoop
        rw [a.isComplete env, hc]
        simp only
        rw [a'.size env']
      rw [hu]
      by_cases heq : stopNow c lim - pos = stopNow (c.run it.ops) lim - pos
      · have heq' : stopNow (c.run it.ops) lim = stopNow c lim := by omega
        rw [if_pos heq, heq]
        rcases ih env' a' with ⟨c', s', h1, h2, h3, h4, h5⟩ | ⟨c', s', h1, h2, h3, h4, h5, h6⟩ | ⟨c', h1, h2, h3⟩
        · exact Or.inl ⟨c', s', h1, h2, st.trans h3, by omega, by simp; omega⟩
        · exact Or.inr (Or.inl ⟨c', s', h1, h2, st.trans h3, h4, by omega, by simp; omega⟩)
        · exact Or.inr (Or.inr ⟨c', h1, h2, by omega⟩)
      · rw [if_neg heq]
        exact Or.inl ⟨_, s, rfl, env', st, by omega, by simp⟩

/-- Waiting for any more data. -/
theorem waitMore_spec {v : View} {pos : Nat} {lim : Option Nat} {s : Sched} {c : Chain} (env : Env I c s)
    (a : At c v pos lim) :
    (∃ c' s', waitMore v c s = .done true c' s' ∧ Env I c' s' ∧ Step true c c' ∧
      stopNow c lim < stopNow c' lim ∧ s'.length < s.length) ∨
    (∃ c' s', waitMore v c s = .done false c' s' ∧ Env I c' s' ∧ Step true c c' ∧
      completeNow c' lim = true ∧ stopNow c' lim = stopNow c lim ∧ s'.length ≤ s.length) ∨
    (∃ c', waitMore v c s = .suspended c' ∧ I.complete lim = false ∧ I.stop lim = stopNow c lim) := by
  have h := waitLoop_spec s env a
  have e : waitMore v c s = waitLoop v (stopNow c lim - pos) s c := by
    unfold waitMore; rw [a.size env]
  rw [e]; exact h

/-- What waiting for `n` bytes gives. -/
inductive Waited (I : Input) (lim : Option Nat) (pos n : Nat) (c : Chain) (s : Sched) : Out Bool → Prop where
  | yes {c' s'} : I.has lim pos n = .ok true → Env I c' s' → Step true c c' → pos + n ≤ stopNow c' lim →
      s'.length ≤ s.length → (stopNow c lim < pos + n → s'.length < s.length) → Waited I lim pos n c s (.done true c' s')
  | no {c' s'} : I.has lim pos n = .ok false → Env I c' s' → Step true c c' → completeNow c' lim = true →
      s'.length ≤ s.length → Waited I lim pos n c s (.done false c' s')
  | wait {c'} : I.has lim pos n = .more → Waited I lim pos n c s (.suspended c')

theorem waitMinLoop_spec {v : View} {pos : Nat} {lim : Option Nat} (n : Nat) (f : Nat) : ∀ {c : Chain} {s : Sched},
    s.length < f → Env I c s → At c v pos lim → Waited I lim pos n c s (waitMinLoop v n f c s) := by
  induction f with
  | zero => intro c s h; omega
  | succ f ih =>
    intro c s hf env a
    have hp := a.pos_le
    have hu : waitMinLoop v n (f + 1) c s = if n > stopNow c lim - pos then
        (do if ← waitMore v then waitMinLoop v n f else pure false : P Bool) c s else .done true c s := by
      conv => lhs; unfold waitMinLoop
      rw [P.bind_done (P.read_ok (a.size env) s)]
      split <;> rfl
    rw [hu]
    have hss := stopNow_le_stop env lim
    by_cases hn : n > stopNow c lim - pos
    · rw [if_pos hn]
      rcases waitMore_spec env a with ⟨c', s', h1, h2, h3, h4, h5⟩ | ⟨c', s', h1, h2, h3, h4, h5, h6⟩ | ⟨c', h1, h2, h3⟩
      · rw [P.bind_done h1]
        simp only [if_true]
        have := ih (c := c') (s := s') (by omega) h2 (a.keep h3)
        generalize waitMinLoop v n f c' s' = o at this ⊢
        cases this with
        | yes w1 w2 w3 w4 w5 w6 => exact .yes w1 w2 (h3.trans w3) w4 (by omega) (fun _ => by omega)
        | no w1 w2 w3 w4 w5 => exact .no w1 w2 (h3.trans w3) w4 (by omega)
        | wait w1 => exact .wait w1
      · rw [P.bind_done h1]
        simp only [Bool.false_eq_true, if_false, P.pure_apply]
        obtain ⟨k1, k2⟩ := complete_now h2 h4
        refine .no ?_ h2 h3 h4 h6
        unfold Input.has
        rw [if_neg (by omega), k1]; rfl
      · rw [P.bind_suspended h1]
        refine .wait ?_
        unfold Input.has
        rw [if_neg (by omega), h2]; rfl
    · rw [if_neg hn]
      refine .yes ?_ env (Step.refl c) (by omega) (Nat.le_refl _) (fun h => absurd h (by omega))
      unfold Input.has
      rw [if_pos (by omega)]

theorem waitMin_spec {v : View} {pos : Nat} {lim : Option Nat} (n : Nat) {c : Chain} {s : Sched}
    (env : Env I c s) (a : At c v pos lim) : Waited I lim pos n c s (waitMin v n c s) :=
  waitMinLoop_spec n _ (Nat.lt_succ_self _) env a

theorem atEod_spec {v : View} {pos : Nat} {lim : Option Nat} {c : Chain} {s : Sched}
    (env : Env I c s) (a : At c v pos lim) :
    (∃ b c' s', atEnd I lim pos = .ok b ∧ atEod v c s = .done b c' s' ∧ Env I c' s' ∧ Step true c c' ∧
      s'.length ≤ s.length) ∨
    (∃ c', atEnd I lim pos = .more ∧ atEod v c s = .suspended c') := by
  have hp := a.pos_le
  have hss := stopNow_le_stop env lim
  unfold atEod atEnd Input.has
  rw [P.bind_done (P.read_ok (a.size env) s)]
  by_cases h0 : stopNow c lim - pos > 0
  · rw [if_pos h0, if_pos (by omega)]
    exact Or.inl ⟨false, c, s, rfl, rfl, env, Step.refl c, Nat.le_refl _⟩
  · rw [if_neg h0]
    rw [P.bind_done (P.read_ok (a.isComplete env) s)]
    cases hc : completeNow c lim with
    | true =>
      obtain ⟨k1, k2⟩ := complete_now env hc
      rw [if_neg (by omega), if_pos k1, if_pos rfl]
      exact Or.inl ⟨true, c, s, rfl, rfl, env, Step.refl c, Nat.le_refl _⟩
    | false =>
      rw [if_neg (show ¬ (false = true) by decide)]
      rcases waitMore_spec env a with ⟨c', s', h1, h2, h3, h4, h5⟩ | ⟨c', s', h1, h2, h3, h4, h5, h6⟩ | ⟨c', h1, h2, h3⟩
      · rw [P.bind_done h1]
        have := stopNow_le_stop h2 lim
        rw [if_pos (by omega)]
        exact Or.inl ⟨false, c', s', rfl, rfl, h2, h3, by omega⟩
      · rw [P.bind_done h1]
        obtain ⟨k1, k2⟩ := complete_now h2 h4
        rw [if_neg (by omega), if_pos k1]
        exact Or.inl ⟨true, c', s', rfl, rfl, h2, h3, by omega⟩
      · rw [P.bind_suspended h1, if_neg (by omega), h2]
        exact Or.inr ⟨c', rfl, rfl⟩

/-! ## Trimming and advancing -/

theorem isFrozen_of_state {c c' : Chain} (h : c'.state = c.state) : c'.isFrozen = c.isFrozen := by
  unfold Chain.isFrozen; rw [h]

theorem trimInput_spec {v : View} {pos : Nat} {lim : Option Nat} {c : Chain} {s : Sched} (trim : Bool)
    (env : Env I c s) (a : At c v pos lim) :
    ∃ c', trimInput trim v c s = .done () c' s ∧ Env I c' s ∧ Step (!trim) c c' ∧ At c' v pos lim ∧ c'.stop = c.stop ∧
      c'.isFrozen = c.isFrozen := by
  cases trim with
  | false => exact ⟨c, rfl, env, Step.refl c, a, rfl, rfl⟩
  | true =>
    unfold trimInput
    rw [if_pos rfl, a.off]
    by_cases hne : c.chunks = []
    · rw [Chain.trim_noop env.live.isValid (Or.inl hne)]
      exact ⟨c, rfl, env, Step.refl c, a, rfl, rfl⟩
    · have hb := Chain.base_le env.live.inv
      have hs := a.start
      obtain ⟨c', pre, e, hinv, habs, hst, -, hpre, hpe, hho, hbb, hh⟩ :=
        Chain.trim_spec env.live.inv env.live.isValid hne (o := pos) (by omega)
      rw [e]
      have hlive := (Chain.step_live env.live (.trim pos)).1
      have hev := (Chain.step_live env.live (.trim pos)).2.2
      simp only [Chain.step, e] at hlive hev
      have hcc : c'.content = (rawCells c.chunks).drop (pos - c.base) := congrArg Log.cells habs
      have hstop : c'.stop = c.stop := by
        rw [Chain.stop_eq hinv, hho, hcc]
        have := a.stop
        unfold Chain.stop at this ⊢
        simp; omega
      have hcont : c'.content = c.content.drop (pos - c.headOffset) := by
        rw [hcc]; unfold Chain.content; rw [List.drop_drop]; congr 1; omega
      have hfz := isFrozen_of_state hst
      have st : Step (!true) c c' := ⟨hev, by omega, by omega, fun h => by cases h⟩
      refine ⟨c', rfl, ⟨hlive, by rw [hstop]; exact env.len, ?_, by rw [hstop, hfz]; exact env.rest,
        by rw [hfz]; exact env.closed⟩, st, a.step st (by omega), hstop, hfz⟩
      rw [hcont, env.content, hstop, hho, ← List.map_drop, List.drop_drop]
      congr 2; omega

/-- A view moved on by `n` accessible bytes. -/
theorem At.advance {v : View} {pos : Nat} {lim : Option Nat} {c : Chain} (h : c.Live) (a : At c v pos lim) {n : Nat}
    (hn : pos + n ≤ stopNow c lim) : ∃ v', v.advance c n = .ok v' ∧ At c v' (pos + n) lim := by
  obtain ⟨j, e, ho, hi⟩ := Chain.incr_spec h a.iter n
  refine ⟨⟨j, v.end⟩, ?_, hi, by rw [ho, a.off], a.endIter, a.end, ?_, ?_, ?_⟩
  · unfold View.advance; rw [e]; rfl
  · have := a.start; omega
  · have := stopNow_le c lim; omega
  · intro l hl; subst hl; simp only [stopNow] at hn; omega

theorem advanceInput_spec {v : View} {pos : Nat} {lim : Option Nat} {c : Chain} {s : Sched} (trim : Bool)
    (env : Env I c s) (a : At c v pos lim) {n : Nat} (hn : pos + n ≤ stopNow c lim) :
    ∃ v' c', advanceInput trim v n c s = .done v' c' s ∧ Env I c' s ∧ Step (!trim) c c' ∧ At c' v' (pos + n) lim ∧
      c'.stop = c.stop ∧ c'.isFrozen = c.isFrozen := by
  obtain ⟨v', e, a'⟩ := a.advance env.live hn
  obtain ⟨c', t1, t2, t3, t4, t5, t6⟩ := trimInput_spec trim env a'
  refine ⟨v', c', ?_, t2, t3, t4, t5, t6⟩
  unfold advanceInput
  rw [P.bind_done (P.read_ok e s), P.bind_done t1]
  rfl

theorem advanceInputTo_spec {v : View} {pos : Nat} {lim : Option Nat} {c : Chain} {s : Sched} (trim : Bool)
    (env : Env I c s) (a : At c v pos lim) {i : Iter} {n : Nat} (hi : c.IterOk i) (ho : i.offset = pos + n)
    (hn : pos + n ≤ stopNow c lim) :
    ∃ v' c', advanceInputTo trim v i c s = .done v' c' s ∧ Env I c' s ∧ Step (!trim) c c' ∧ At c' v' (pos + n) lim ∧
      c'.stop = c.stop ∧ c'.isFrozen = c.isFrozen := by
  have a' : At c (v.advanceTo i) (pos + n) lim := by
    refine ⟨hi, ho, a.endIter, a.end, ?_, ?_, ?_⟩
    · have := a.start; omega
    · have := stopNow_le c lim; omega
    · intro l hl; subst hl; simp only [stopNow] at hn; omega
  obtain ⟨c', t1, t2, t3, t4, t5, t6⟩ := trimInput_spec trim env a'
  refine ⟨v.advanceTo i, c', ?_, t2, t3, t4, t5, t6⟩
  unfold advanceInputTo
  rw [P.bind_done t1]
  rfl

/-! ## The simulation relation -/

/-- The outcome of a parser started on `c` corresponds to the result the specification gives. -/
def Sim (I : Input) (lim : Option Nat) (keep : Bool) (c : Chain) (out : Out (Val × View)) : SRes (Val × Nat) → Prop
  | .ok r => ∃ v c' s', out = .done (r.1, v) c' s' ∧ Env I c' s' ∧ Step keep c c' ∧ At c' v r.2 lim
  | .fail e => ∃ c' s', out = .throw e c' s' ∧ Env I c' s' ∧ Step keep c c'
  | .more => ∃ c', out = .suspended c'
  | .diverge => out = .diverge

theorem Sim.from {lim : Option Nat} {keep : Bool} {c c' : Chain} {out : Out (Val × View)} {r : SRes (Val × Nat)}
    (st : Step keep c c') (h : Sim I lim keep c' out r) : Sim I lim keep c out r := by
  cases r with
  | ok r => obtain ⟨v, c2, s2, h1, h2, h3, h4⟩ := h; exact ⟨v, c2, s2, h1, h2, st.trans h3, h4⟩
  | fail e => obtain ⟨c2, s2, h1, h2, h3⟩ := h; exact ⟨c2, s2, h1, h2, st.trans h3⟩
  | more => exact h
  | diverge => exact h

/-- A parser does what the specification says, from every state. -/
def Refines (p : Parser) (g : SParser) : Prop :=
  ∀ (I : Input), I.data.length < 2 ^ 64 - 1 → ∀ (lim : Option Nat) (trim : Bool) (v : View) (pos : Nat) (c : Chain)
    (s : Sched), Env I c s → At c v pos lim → Sim I lim (!trim) c (p trim v c s) (g I lim pos)

/-- Inside of random access (`lo = some l`), nothing is trimmed and the data from `l` on is there. -/
def Kept (lo : Option Nat) (trim : Bool) (c : Chain) : Prop := ∀ l, lo = some l → trim = false ∧ c.headOffset ≤ l

theorem Kept.step {lo : Option Nat} {trim : Bool} {c c' : Chain} (h : Kept lo trim c) (st : Step (!trim) c c') : Kept lo trim c' := by
  intro l hl
  obtain ⟨h1, h2⟩ := h l hl
  subst h1
  exact ⟨rfl, by rw [st.keep rfl]; exact h2⟩

theorem Kept.untrimmed {lo : Option Nat} {trim : Bool} {c : Chain} (h : Kept lo trim c) : Kept lo false c :=
  fun l hl => ⟨rfl, (h l hl).2⟩

/-- A parser does what the specification says, from every state in which data is kept as needed. -/
def RefinesL (lo : Option Nat) (p : Parser) (g : SParser) : Prop :=
  ∀ (I : Input), I.data.length < 2 ^ 64 - 1 → ∀ (lim : Option Nat) (trim : Bool) (v : View) (pos : Nat) (c : Chain)
    (s : Sched), Kept lo trim c → Env I c s → At c v pos lim → Sim I lim (!trim) c (p trim v c s) (g I lim pos)

theorem Refines.lift {p : Parser} {g : SParser} (h : Refines p g) (lo : Option Nat) : RefinesL lo p g :=
  fun I hI lim trim v pos c s _ env a => h I hI lim trim v pos c s env a

theorem RefinesL.plain {p : Parser} {g : SParser} (h : RefinesL none p g) : Refines p g :=
  fun I hI lim trim v pos c s env a => h I hI lim trim v pos c s (fun l hl => by cases hl) env a

theorem Sim.bind {lim lim' : Option Nat} {keep : Bool} {c : Chain} {s : Sched} {x : P (Val × View)}
    {f : Val × View → P (Val × View)} {r : SRes (Val × Nat)} {g : Val × Nat → SRes (Val × Nat)}
    (h : Sim I lim keep c (x c s) r)
    (k : ∀ a v p c' s', Env I c' s' → Step keep c c' → At c' v p lim → Sim I lim' keep c' (f (a, v) c' s') (g (a, p))) :
    Sim I lim' keep c ((x >>= f) c s) (r >>= g) := by
  cases r with
  | ok r =>
    obtain ⟨v, c2, s2, h1, h2, h3, h4⟩ := h
    rw [P.bind_done h1]
    exact Sim.from h3 (k r.1 v r.2 c2 s2 h2 h3 h4)
  | fail e => obtain ⟨c2, s2, h1, h2, h3⟩ := h; exact ⟨c2, s2, P.bind_throw h1, h2, h3⟩
  | more => obtain ⟨c2, h1⟩ := h; exact ⟨c2, P.bind_suspended h1⟩
  | diverge => exact P.bind_diverge h

/-- Waiting, then going on. -/
theorem Sim.wait {lim lim' : Option Nat} {keep : Bool} {c : Chain} {s : Sched} {x : P Bool} {pos n : Nat}
    {f : Bool → P (Val × View)} {g : Bool → SRes (Val × Nat)} (h : Waited I lim pos n c s (x c s))
    (yes : ∀ c' s', Env I c' s' → Step true c c' → pos + n ≤ stopNow c' lim → Sim I lim' keep c' (f true c' s') (g true))
    (no : ∀ c' s', Env I c' s' → Step true c c' → completeNow c' lim = true → Sim I lim' keep c' (f false c' s') (g false)) :
    Sim I lim' keep c ((x >>= f) c s) (I.has lim pos n >>= g) := by
  rw [P.bind_apply]
  generalize x c s = o at h ⊢
  cases h with
  | yes w1 w2 w3 w4 w5 w6 => rw [w1]; exact Sim.from w3.weaken (yes _ _ w2 w3 w4)
  | no w1 w2 w3 w4 w5 => rw [w1]; exact Sim.from w3.weaken (no _ _ w2 w3 w4)
  | wait w1 => rw [w1]; exact ⟨_, rfl⟩

end Verif.Parse
