import Verif.Fiber.Life

/-!
# Counters and the cache (C40), and the remaining steps
-/

namespace Verif.Fiber

variable {w : World} {s : Spec} {lo : List Nat}

/-! ## Priming and resetting keep the invariant -/

theorem sim_createN (n : Nat) : ∀ {w : World} {lo : List Nat}, Sim w s lo →
    Sim (createN n w).2 s ((createN n w).1.reverse ++ lo) := by
  induction n with
  | zero => intro w lo h; exact h
  | succ n ih =>
    intro w lo h
    have h1 := ih (sim_create h)
    have he : (createN (n + 1) w).1.reverse ++ lo = (createN n (create w).2).1.reverse ++ ((create w).1 :: lo) := by
      show ((create w).1 :: (createN n (create w).2).1).reverse ++ lo = _
      rw [List.reverse_cons, List.append_assoc]; rfl
    rw [he]
    exact h1

theorem sim_recycleAll (l : List Nat) : ∀ {w : World} {lo : List Nat}, Sim w s (l ++ lo) → Sim (recycleAll l w) s lo := by
  induction l with
  | nil => intro w lo h; exact h
  | cons f l ih => intro w lo h; exact ih (sim_recycle h)

theorem sim_prime (h : Sim w s []) (k : Prog) : Sim (doPrime k w) s [] := by
  have h1 := sim_recycleAll (s := s) (lo := []) _ (sim_createN w.cap h)
  exact sim_congr h1 rfl rfl rfl rfl rfl rfl rfl rfl rfl

theorem freeAll_fields (l : List Nat) : ∀ w : World, (freeAll l w).curTag = w.curTag ∧ (freeAll l w).curF = w.curF ∧
    (freeAll l w).stack = w.stack ∧ (freeAll l w).ctxRes = w.ctxRes ∧ (freeAll l w).nextR = w.nextR ∧
    (freeAll l w).nextF = w.nextF ∧ (freeAll l w).res = w.res ∧ (freeAll l w).log = w.log ∧ (freeAll l w).cap = w.cap ∧
    ∀ g, (freeAll l w).fibs g = if g ∈ l then none else w.fibs g := by
  induction l with
  | nil => intro w; exact ⟨rfl, rfl, rfl, rfl, rfl, rfl, rfl, rfl, rfl, fun g => by simp [freeAll]⟩
  | cons f l ih =>
    intro w
    obtain ⟨h1, h2, h3, h4, h5, h6, h7, h8, h9, h10⟩ := ih (freeFiber f w)
    refine ⟨h1, h2, h3, h4, h5, h6, h7, h8, h9, fun g => ?_⟩
    show (freeAll l (freeFiber f w)).fibs g = _
    rw [h10 g]
    show (if g ∈ l then none else upd w.fibs f none g) = _
    by_cases hg : g ∈ l
    · simp [hg]
    · by_cases he : g = f
      · rw [he]; simp
      · rw [upd_ne _ _ he]; simp [hg, he]

theorem sim_reset (h : Sim w s []) (k : Prog) : Sim (doReset k w) s [] := by
  obtain ⟨h1, h2, h3, h4, h5, h6, h7, h8, h9, h10⟩ := freeAll_fields w.cache w
  have hH : ∀ r f, Holds (doReset k w) r f ↔ Holds w r f := by
    intro r f
    show (∃ o, (freeAll w.cache w).res r = some o ∧ _) ∨ (∃ fr, fr ∈ (freeAll w.cache w).stack ∧ _) ↔ _
    rw [h3, h7]; rfl
  have hfib : ∀ g, (doReset k w).fibs g = if g ∈ w.cache then none else w.fibs g := h10
  refine ⟨?_, ?_, ?_, ?_, h.calls, h.nodup, ?_, ?_, List.nodup_nil, ?_, ?_, ?_, ?_, ?_, ?_, List.nodup_nil, ?_, ?_⟩
  · show (freeAll w.cache w).curTag = _
    rw [h1]; exact h.tag
  · show (freeAll w.cache w).curF = top (freeAll w.cache w).stack
    rw [h2, h3]; exact h.curF
  · show Shape (freeAll w.cache w).stack _
    rw [h3]; exact h.shape
  · show (freeAll w.cache w).ctxRes = expCtx (freeAll w.cache w).stack
    rw [h4, h3]; exact h.ctx
  · show ∀ r, (freeAll w.cache w).nextR ≤ r → _
    rw [h5]; exact h.absent
  · intro f hf
    have hf' : (freeAll w.cache w).nextF ≤ f := hf
    rw [h6] at hf'
    rw [hfib]
    split
    · rfl
    · exact h.bound f hf'
  · intro f hf; nomatch hf
  · intro r
    show ObjOk _ _ _ ((freeAll w.cache w).res r)
    rw [h7]; exact h.obj r
  · intro fr hm
    have hm' : fr ∈ (freeAll w.cache w).stack := hm
    rw [h3] at hm'
    exact (hH _ _).mpr (h.frames fr hm')
  · intro fr hm x hx
    have hm' : fr ∈ (freeAll w.cache w).stack := hm
    rw [h3] at hm'
    rw [hfib] at hx
    split at hx
    · cases hx
    · exact h.caller fr hm' x hx
  · intro r f hr
    obtain ⟨x, hx, hc, hok⟩ := h.hold r f ((hH _ _).mp hr)
    refine ⟨x, ?_, fun hm => (nomatch hm), hok⟩
    rw [hfib, if_neg hc]; exact hx
  · intro r r' f a b
    exact h.inj r r' f ((hH _ _).mp a) ((hH _ _).mp b)
  · intro f hf; nomatch hf
  · intro f hf
    rw [hfib] at hf
    split at hf
    · cases hf
    · rename_i hc
      rcases h.noleak f hf with a | ⟨r, a⟩ | a
      · exact absurd a hc
      · exact Or.inr (Or.inl ⟨r, (hH _ _).mpr a⟩)
      · nomatch a

theorem createN_log (n : Nat) : ∀ w : World, (createN n w).2.log = w.log := by
  induction n with
  | zero => intro w; rfl
  | succ n ih =>
    intro w
    show (createN n (create w).2).2.log = _
    rw [ih]
    unfold create newFiber; split <;> rfl

theorem recycleAll_log (l : List Nat) : ∀ w : World, (recycleAll l w).log = w.log := by
  induction l with
  | nil => intro w; rfl
  | cons f l ih =>
    intro w
    show (recycleAll l (recycle f w)).log = _
    rw [ih, recycle_log]

/-- A legal step is defined, is one the specification accepts, and keeps the invariant. -/
theorem sim_step (h : Sim w s []) (hl : readLog w.log = some s) (hlegal : Legal s w.cur) :
    ∃ w' s', step w = .ok w' ∧ readLog w'.log = some s' ∧ Sim w' s' [] := by
  unfold step
  cases hc : w.cur with
  | ret v => exact step_end h hl (by intro hx; cases hx)
  | fail e => exact step_end h hl (by intro hx; cases hx)
  | emit n k =>
    refine ⟨_, s, rfl, ?_, sim_congr h rfl rfl rfl rfl rfl rfl rfl rfl rfl⟩
    show (match readLog w.log with | some s => s.read _ | none => none) = _
    rw [hl]
    show (if _ then _ else _) = _
    rw [if_pos h.tag]
  | yield k => rw [hc] at hlegal; exact step_yield h hl hlegal
  | spawn p k =>
    have h1 := sim_create h
    obtain ⟨⟨x, hx, _⟩, _⟩ := h1.loose _ List.mem_cons_self
    have hR : (create w).2.nextR = w.nextR := by unfold create newFiber; split <;> rfl
    refine ⟨{ (create w).2 with
          fibs := upd (create w).2.fibs (create w).1 (some (initFiber x w.nextR p))
          res := upd (create w).2.res w.nextR (some ⟨some (create w).1, false, none⟩)
          nextR := w.nextR + 1
          cur := k w.nextR
          log := .created w.nextR :: w.log }, s.set w.nextR .fresh, ?_, ?_, ?_⟩
    · show doSpawn p k w = .ok _
      unfold doSpawn
      simp only [hx]
    · show (match readLog w.log with | some s => s.read _ | none => none) = _
      rw [hl]
      show (if _ then _ else _) = _
      rw [if_pos (h.absent _ (Nat.le_refl _))]
    · have := sim_spawn (q := p) h1 hx (w' := { (create w).2 with
          fibs := upd (create w).2.fibs (create w).1 (some (initFiber x w.nextR p))
          res := upd (create w).2.res w.nextR (some ⟨some (create w).1, false, none⟩)
          nextR := w.nextR + 1
          cur := k w.nextR
          log := .created w.nextR :: w.log }) rfl rfl rfl rfl (by rw [hR]) rfl (by rw [hR]) rfl (by rw [hR])
      rw [hR] at this
      exact this
  | call op r k =>
    rw [hc] at hlegal
    cases op with
    | run => exact step_run h hl hlegal
    | resume => exact step_resume h hl hlegal
    | abort => exact step_abort h hl hlegal
    | drop => exact step_drop h hl hlegal
  | ask r k =>
    rw [hc] at hlegal
    have ho := h.obj r
    obtain ⟨a1, a2, a3⟩ := hlegal
    have : ∃ o, w.res r = some o ∧ (s.phase r).shows = (o.done, if o.done then o.result else none) := by
      cases hp : s.phase r <;> rw [hp] at ho <;> rw [hp] at a1 a2 a3 <;> first
        | exact absurd rfl a1
        | exact absurd rfl a2
        | exact absurd rfl a3
        | exact ⟨_, ho, rfl⟩
        | (obtain ⟨f, hf⟩ := ho; exact ⟨_, hf, rfl⟩)
    obtain ⟨o, ho1, ho2⟩ := this
    simp only [ho1]
    refine ⟨_, s, rfl, ?_, sim_congr h rfl rfl rfl rfl rfl rfl rfl rfl rfl⟩
    show (match readLog w.log with | some s => s.read _ | none => none) = _
    rw [hl]
    show (if _ then _ else _) = _
    rw [if_pos ⟨a1, a2, ho2⟩]
  | clobber r k => rw [hc] at hlegal; exact step_clobber h hl hlegal
  | stats k => exact ⟨_, s, rfl, hl, sim_congr h rfl rfl rfl rfl rfl rfl rfl rfl rfl⟩
  | prime k =>
    refine ⟨_, s, rfl, ?_, sim_prime h k⟩
    show readLog (recycleAll _ _).log = _
    rw [recycleAll_log, createN_log]; exact hl
  | reset k =>
    refine ⟨_, s, rfl, ?_, sim_reset h k⟩
    show readLog (freeAll _ _).log = _
    rw [(freeAll_fields w.cache w).2.2.2.2.2.2.2.1]; exact hl

/-! ## Counting -/

def cnt (p : Nat → Bool) (n : Nat) : Nat := ((List.range n).filter p).length

theorem cnt_succ (p : Nat → Bool) (n : Nat) : cnt p (n + 1) = cnt p n + (if p n then 1 else 0) := by
  unfold cnt
  rw [List.range_succ, List.filter_append, List.length_append]
  congr 1
  by_cases h : p n <;> simp [List.filter, h]

theorem cnt_congr {p q : Nat → Bool} {n : Nat} (h : ∀ i, i < n → p i = q i) : cnt p n = cnt q n := by
  induction n with
  | zero => rfl
  | succ n ih => rw [cnt_succ, cnt_succ, ih (fun i hi => h i (by omega)), h n (by omega)]

theorem cnt_clear {p q : Nat → Bool} {n f : Nat} (hf : f < n) (hp : p f = true) (hq : q f = false)
    (h : ∀ i, i ≠ f → q i = p i) : cnt q n + 1 = cnt p n := by
  induction n with
  | zero => omega
  | succ n ih =>
    rw [cnt_succ, cnt_succ]
    by_cases he : f = n
    · subst he
      rw [hp, hq, cnt_congr (fun i hi => h i (by omega))]; simp
    · rw [h n (fun hx => he hx.symm), ← ih (by omega)]; omega

theorem cnt_zero {p : Nat → Bool} {n : Nat} (h : ∀ i, p i = false) : cnt p n = 0 := by
  induction n with
  | zero => rfl
  | succ n ih => rw [cnt_succ, ih, h n]; rfl

def isLive (w : World) (f : Nat) : Bool := (w.fibs f).isSome

theorem live_eq (w : World) : live w = cnt (isLive w) w.nextF := rfl

/-- What the counters say. -/
structure CInv (w : World) : Prop where
  cached : w.cached = w.cache.length
  le : w.cache.length ≤ w.cap
  current : w.current = live w
  peak : live w ≤ w.max

/-- The counters are as before. -/
structure Same (w w' : World) : Prop where
  cap : w'.cap = w.cap
  nextF : w'.nextF = w.nextF
  cache : w'.cache = w.cache
  fibs : ∀ f, isLive w' f = isLive w f
  cached : w'.cached = w.cached
  current : w'.current = w.current
  max : w'.max = w.max
  total : w'.total = w.total

theorem Same.refl (w : World) : Same w w := ⟨rfl, rfl, rfl, fun _ => rfl, rfl, rfl, rfl, rfl⟩

theorem Same.trans {a b c : World} (h1 : Same a b) (h2 : Same b c) : Same a c :=
  ⟨h2.cap.trans h1.cap, h2.nextF.trans h1.nextF, h2.cache.trans h1.cache, fun f => (h2.fibs f).trans (h1.fibs f),
    h2.cached.trans h1.cached, h2.current.trans h1.current, h2.max.trans h1.max, h2.total.trans h1.total⟩

theorem Same.live {w w' : World} (h : Same w w') : live w' = live w := by
  rw [live_eq, live_eq, h.nextF]
  exact cnt_congr (fun i _ => h.fibs i)

theorem CInv.same {w w' : World} (hc : CInv w) (h : Same w w') : CInv w' :=
  ⟨by rw [h.cached, h.cache]; exact hc.cached, by rw [h.cap, h.cache]; exact hc.le,
    by rw [h.current, h.live]; exact hc.current, by rw [h.live, h.max]; exact hc.peak⟩

theorem isLive_upd {w : World} {f : Nat} {x x' : Fib} (hx : w.fibs f = some x) (g : Nat) :
    (upd w.fibs f (some x') g).isSome = (w.fibs g).isSome := by
  by_cases h : g = f
  · rw [h, upd_same, hx]; rfl
  · rw [upd_ne _ _ h]

/-- How a step may change the counters: not at all; by creating, giving back or deleting one fiber; by priming or resetting. -/
inductive Change (w w' : World) : Prop
  | same (h : Same w w') : Change w w'
  | created (h : Same (create w).2 w') : Change w w'
  | recycled (w1 : World) (f : Nat) (h1 : Same w w1) (hf : isLive w1 f = true) (h2 : Same (recycle f w1) w') : Change w w'
  | freed (w1 : World) (f : Nat) (h1 : Same w w1) (hf : isLive w1 f = true) (h2 : Same (freeFiber f w1) w') : Change w w'
  | primed (k : Prog) (h : w.cur = .prime k) (h2 : w' = doPrime k w) : Change w w'
  | reset (k : Prog) (h : w.cur = .reset k) (h2 : w' = doReset k w) : Change w w'

theorem activate_same {op : Op} {r f : Nat} {w w' : World} (h : activate op r f w = .ok w') : Same w w' := by
  unfold activate at h
  cases hx : w.fibs f with
  | none => rw [hx] at h; cases h
  | some x =>
    simp only [hx] at h
    split at h
    · cases h
    · split at h
      · cases h
      all_goals
        first
        | (split at h
           · split at h
             · cases h
             · injection h with h; subst h
               exact ⟨rfl, rfl, rfl, isLive_upd hx, rfl, rfl, rfl, rfl⟩
           · cases h)
        | (injection h with h; subst h
           exact ⟨rfl, rfl, rfl, isLive_upd hx, rfl, rfl, rfl, rfl⟩)

theorem fiberRun_same {op : Op} {r f : Nat} {w w' : World} (h : fiberRun op r f w = .ok w') : Same w w' := by
  unfold fiberRun at h
  cases hx : w.fibs f with
  | none => rw [hx] at h; cases h
  | some x =>
    simp only [hx] at h
    refine Same.trans ?_ (activate_same h)
    exact ⟨rfl, rfl, rfl, isLive_upd hx, rfl, rfl, rfl, rfl⟩

theorem fiberAbort_same {op : Op} {r f : Nat} {w w' : World} (h : fiberAbort op r f w = .ok w') : Same w w' := by
  unfold fiberAbort at h
  cases hx : w.fibs f with
  | none => rw [hx] at h; cases h
  | some x =>
    simp only [hx] at h
    split at h
    · refine Same.trans ?_ (fiberRun_same h)
      exact ⟨rfl, rfl, rfl, isLive_upd hx, rfl, rfl, rfl, rfl⟩
    · cases h

theorem switchBack_change {f : Nat} {x x' : Fib} {how : How} {w w' : World} (hx : w.fibs f = some x)
    (h : switchBack f x' how w = .ok w') :
    Same w w' ∨ ∃ w1 f, Same w w1 ∧ isLive w1 f = true ∧ Same (recycle f w1) w' := by
  unfold switchBack at h
  cases hs : w.stack with
  | nil => rw [hs] at h; cases h
  | cons fr rest =>
    simp only [hs] at h
    split at h
    · rename_i hcond
      have hfib : fr.fib = f := hcond.1
      have hlive : ∀ g, (upd w.fibs f (some x') g).isSome = (w.fibs g).isSome := isLive_upd hx
      have hfl : (upd w.fibs f (some x') fr.fib).isSome = true := by rw [hfib, upd_same]; rfl
      cases hb : backIn fr x' { w with fibs := upd w.fibs f (some x'), curF := fr.who, curTag := fr.tag, stack := rest } with
      | throw e => rw [hb] at h; cases h
      | ub => rw [hb] at h; cases h
      | ok aw =>
        rw [hb] at h
        obtain ⟨a, w2⟩ := aw
        injection h with h
        subst h
        have key : Same w w2 ∨ ∃ w1 f, Same w w1 ∧ isLive w1 f = true ∧ Same (recycle f w1) w2 := by
          unfold backIn at hb
          split at hb
          · cases hop : fr.op with
            | run =>
              simp only [hop] at hb
              unfold resYielded at hb
              cases hr : w.res fr.r with
              | none => simp only [hr] at hb; cases hb
              | some o =>
                simp only [hr] at hb
                split at hb
                · split at hb
                  · split at hb
                    · cases hb
                    · injection hb with hb; injection hb with _ hb; subst hb
                      refine Or.inr ⟨_, _, ?_, ?_, Same.refl _⟩ <;> first | exact hfl | exact ⟨rfl, rfl, rfl, hlive, rfl, rfl, rfl, rfl⟩
                  · split at hb
                    · injection hb with hb; injection hb with _ hb; subst hb
                      exact Or.inl ⟨rfl, rfl, rfl, hlive, rfl, rfl, rfl, rfl⟩
                    · injection hb with hb; injection hb with _ hb; subst hb
                      refine Or.inr ⟨_, _, ?_, ?_, Same.refl _⟩ <;> first | exact hfl | exact ⟨rfl, rfl, rfl, hlive, rfl, rfl, rfl, rfl⟩
                · cases hb
            | resume =>
              simp only [hop] at hb
              unfold resYielded at hb
              cases hr : w.res fr.r with
              | none => simp only [hr] at hb; cases hb
              | some o =>
                simp only [hr] at hb
                split at hb
                · split at hb
                  · split at hb
                    · cases hb
                    · injection hb with hb; injection hb with _ hb; subst hb
                      refine Or.inr ⟨_, _, ?_, ?_, Same.refl _⟩ <;> first | exact hfl | exact ⟨rfl, rfl, rfl, hlive, rfl, rfl, rfl, rfl⟩
                  · split at hb
                    · injection hb with hb; injection hb with _ hb; subst hb
                      exact Or.inl ⟨rfl, rfl, rfl, hlive, rfl, rfl, rfl, rfl⟩
                    · injection hb with hb; injection hb with _ hb; subst hb
                      refine Or.inr ⟨_, _, ?_, ?_, Same.refl _⟩ <;> first | exact hfl | exact ⟨rfl, rfl, rfl, hlive, rfl, rfl, rfl, rfl⟩
                · cases hb
            | abort =>
              simp only [hop] at hb
              cases hr : w.res fr.r with
              | none => simp only [hr] at hb; cases hb
              | some o =>
                simp only [hr] at hb
                injection hb with hb; injection hb with _ hb; subst hb
                exact Or.inl ⟨rfl, rfl, rfl, hlive, rfl, rfl, rfl, rfl⟩
            | drop =>
              simp only [hop] at hb
              injection hb with hb; injection hb with _ hb; subst hb
              refine Or.inr ⟨_, _, ?_, ?_, Same.refl _⟩ <;> first | exact hfl | exact ⟨rfl, rfl, rfl, hlive, rfl, rfl, rfl, rfl⟩
          · cases hb
        have hlast : Same w2 { w2 with cur := fr.k a, log := .left w.curTag how fr.op fr.r a fr.tag :: w.log } :=
          ⟨rfl, rfl, rfl, fun _ => rfl, rfl, rfl, rfl, rfl⟩
        rcases key with h1 | ⟨w1, g, h1, h2, h3⟩
        · exact Or.inl (h1.trans hlast)
        · exact Or.inr ⟨w1, g, h1, h2, h3.trans hlast⟩
    · cases h

theorem step_change {w w' : World} (h : step w = .ok w') : Change w w' := by
  unfold step at h
  have fin : ∀ how, funcEnd how w = .ok w' → Change w w' := by
    intro how h
    unfold funcEnd at h
    cases hf : w.curF with
    | none => rw [hf] at h; injection h with h; subst h; exact .same (Same.refl _)
    | some f =>
      simp only [hf] at h
      cases hx : w.fibs f with
      | none => rw [hx] at h; cases h
      | some x =>
        simp only [hx] at h
        rcases switchBack_change hx h with h1 | ⟨w1, g, h1, h2, h3⟩
        · exact .same h1
        · exact .recycled w1 g h1 h2 h3
  cases hc : w.cur with
  | ret v => rw [hc] at h; exact fin _ h
  | fail e => rw [hc] at h; exact fin _ h
  | emit n k => rw [hc] at h; injection h with h; subst h; exact .same ⟨rfl, rfl, rfl, fun _ => rfl, rfl, rfl, rfl, rfl⟩
  | yield k =>
    simp only [hc] at h
    unfold doYield at h
    cases hr : w.ctxRes with
    | none => simp only [hr] at h; injection h with h; subst h; exact .same ⟨rfl, rfl, rfl, fun _ => rfl, rfl, rfl, rfl, rfl⟩
    | some f =>
      simp only [hr] at h
      split at h
      · cases hx : w.fibs f with
        | none => simp only [hx] at h; cases h
        | some x =>
          cases ht : w.curTag with
          | none => simp only [hx, ht] at h; cases h
          | some t =>
            simp only [hx, ht] at h
            split at h
            · rcases switchBack_change hx h with h1 | ⟨w1, g, h1, h2, h3⟩
              · exact .same h1
              · exact .recycled w1 g h1 h2 h3
            · cases h
      · cases h
  | spawn p k =>
    simp only [hc] at h
    unfold doSpawn at h
    cases hx : (create w).2.fibs (create w).1 with
    | none => simp only [hx] at h; cases h
    | some x =>
      simp only [hx] at h
      injection h with h; subst h
      exact .created ⟨rfl, rfl, rfl, isLive_upd hx, rfl, rfl, rfl, rfl⟩
  | call op r k =>
    cases op with
    | run =>
      simp only [hc] at h
      unfold resRun at h
      split at h
      · cases h
      · split at h
        · injection h with h; subst h; exact .same ⟨rfl, rfl, rfl, fun _ => rfl, rfl, rfl, rfl, rfl⟩
        · have h9 := fiberRun_same h; exact .same ⟨h9.1, h9.2, h9.3, h9.4, h9.5, h9.6, h9.7, h9.8⟩
    | resume =>
      simp only [hc] at h
      unfold resResume at h
      split at h
      · cases h
      · split at h
        · injection h with h; subst h; exact .same ⟨rfl, rfl, rfl, fun _ => rfl, rfl, rfl, rfl, rfl⟩
        · split at h
          · cases h
          · split at h
            · have h9 := fiberRun_same h; exact .same ⟨h9.1, h9.2, h9.3, h9.4, h9.5, h9.6, h9.7, h9.8⟩
            · cases h
    | abort =>
      simp only [hc] at h
      unfold resAbort at h
      split at h
      · cases h
      · split at h
        · injection h with h; subst h; exact .same ⟨rfl, rfl, rfl, fun _ => rfl, rfl, rfl, rfl, rfl⟩
        · have h9 := fiberAbort_same h; exact .same ⟨h9.1, h9.2, h9.3, h9.4, h9.5, h9.6, h9.7, h9.8⟩
    | drop =>
      simp only [hc] at h
      unfold resDrop at h
      split at h
      · cases h
      · split at h
        · injection h with h; subst h; exact .same ⟨rfl, rfl, rfl, fun _ => rfl, rfl, rfl, rfl, rfl⟩
        · split at h
          · cases h
          · rename_i f _ _ x hx
            split at h
            · have h9 := fiberAbort_same h; exact .same ⟨h9.1, h9.2, h9.3, h9.4, h9.5, h9.6, h9.7, h9.8⟩
            · split at h
              · cases h
              · injection h with h; subst h
                refine .recycled { w with res := upd w.res r none, cur := k .returned, log := .answered .drop r .returned :: w.log } f
                  ⟨rfl, rfl, rfl, fun _ => rfl, rfl, rfl, rfl, rfl⟩ ?_ (Same.refl _)
                show (w.fibs f).isSome = true
                rw [hx]; rfl
  | ask r k =>
    simp only [hc] at h
    split at h
    · cases h
    · injection h with h; subst h; exact .same ⟨rfl, rfl, rfl, fun _ => rfl, rfl, rfl, rfl, rfl⟩
  | clobber r k =>
    simp only [hc] at h
    unfold doClobber at h
    split at h
    · cases h
    · split at h
      · injection h with h; subst h; exact .same ⟨rfl, rfl, rfl, fun _ => rfl, rfl, rfl, rfl, rfl⟩
      · split at h
        · cases h
        · rename_i f _ _ x hx
          split at h
          · cases h
          · injection h with h; subst h
            refine .freed { w with res := upd w.res r (some ⟨none, false, none⟩), cur := k, log := .clobbered r :: w.log } f
              ⟨rfl, rfl, rfl, fun _ => rfl, rfl, rfl, rfl, rfl⟩ ?_ (Same.refl _)
            show (w.fibs f).isSome = true
            rw [hx]; rfl
  | stats k => simp only [hc] at h; injection h with h; subst h; exact .same ⟨rfl, rfl, rfl, fun _ => rfl, rfl, rfl, rfl, rfl⟩
  | prime k => simp only [hc] at h; injection h with h; subst h; exact .primed k hc rfl
  | reset k => simp only [hc] at h; injection h with h; subst h; exact .reset k hc rfl

/-- Effect of creating a fiber on the counters. -/
theorem cinv_create (hc : CInv w) :
    CInv (create w).2 ∧ ((create w).2.max = w.max ∨ (create w).2.max = live (create w).2) ∧ w.max ≤ (create w).2.max ∧
      (create w).2.total + w.nextF = w.total + (create w).2.nextF := by
  unfold create
  cases hcc : w.cache with
  | nil =>
    have hl : live (newFiber w) = live w + 1 := by
      rw [live_eq, live_eq]
      show cnt (isLive (newFiber w)) (w.nextF + 1) = _
      rw [cnt_succ, cnt_congr (q := isLive w)]
      · have : isLive (newFiber w) w.nextF = true := by
          show (upd w.fibs w.nextF _ w.nextF).isSome = true
          rw [upd_same]; rfl
        rw [this]; rfl
      · intro i hi
        show (upd w.fibs w.nextF _ i).isSome = _
        rw [upd_ne _ _ (by omega)]; rfl
    have hcur := hc.current
    have hpk := hc.peak
    dsimp only
    refine ⟨⟨hc.cached, hc.le, ?_, ?_⟩, ?_, ?_, ?_⟩
    · rw [hl]; show w.current + 1 = _; rw [hcur]
    · rw [hl]
      show _ ≤ if w.current + 1 > w.max then w.current + 1 else w.max
      split <;> omega
    · rw [hl]
      show (if w.current + 1 > w.max then w.current + 1 else w.max) = _ ∨ (if w.current + 1 > w.max then w.current + 1 else w.max) = _
      split
      · right; omega
      · left; rfl
    · show _ ≤ if w.current + 1 > w.max then w.current + 1 else w.max
      split <;> omega
    · show w.total + 1 + w.nextF = w.total + (w.nextF + 1)
      omega
  | cons f rest =>
    dsimp only
    have h1 := hc.cached
    have h2 := hc.le
    rw [hcc] at h1 h2
    simp only [List.length_cons] at h1 h2
    refine ⟨⟨?_, ?_, hc.current, hc.peak⟩, Or.inl rfl, Nat.le_refl _, rfl⟩
    · show dec w.cached = rest.length
      unfold dec; rw [if_neg (by omega)]; omega
    · show rest.length ≤ w.cap; omega

theorem live_free {f : Nat} (hf : isLive w f = true) (hb : f < w.nextF) : live (freeFiber f w) + 1 = live w := by
  rw [live_eq, live_eq]
  refine cnt_clear (f := f) hb hf ?_ ?_
  · show (upd w.fibs f none f).isSome = false
    rw [upd_same]; rfl
  · intro i hi
    show (upd w.fibs f none i).isSome = _
    rw [upd_ne _ _ hi]; rfl

theorem cinv_free (hc : CInv w) {f : Nat} (hf : isLive w f = true) (hb : f < w.nextF) : CInv (freeFiber f w) := by
  have hl := live_free hf hb
  have h1 := hc.current
  have h2 := hc.peak
  refine ⟨hc.cached, hc.le, ?_, ?_⟩
  · show dec w.current = _
    unfold dec; rw [if_neg (by omega)]; omega
  · show _ ≤ w.max; omega

theorem cinv_recycle (hc : CInv w) {f : Nat} (hf : isLive w f = true) (hb : f < w.nextF) :
    CInv (recycle f w) ∧ (recycle f w).max = w.max ∧ (recycle f w).total = w.total ∧ (recycle f w).nextF = w.nextF := by
  unfold recycle
  split
  · refine ⟨⟨?_, ?_, hc.current, hc.peak⟩, rfl, rfl, rfl⟩
    · show w.cached + 1 = (f :: w.cache).length; rw [hc.cached]; rfl
    · show (f :: w.cache).length ≤ w.cap; simp; omega
  · exact ⟨cinv_free hc hf hb, rfl, rfl, rfl⟩

theorem isLive_lt (hb : ∀ f, w.nextF ≤ f → w.fibs f = none) {f : Nat} (hf : isLive w f = true) : f < w.nextF := by
  refine Classical.byContradiction fun h => ?_
  unfold isLive at hf
  rw [hb f (by omega)] at hf; cases hf

/-- Many at once. -/
theorem cinv_createN (n : Nat) : ∀ {w : World} {lo : List Nat}, Sim w s lo → CInv w →
    CInv (createN n w).2 ∧ ((createN n w).2.max = w.max ∨ (createN n w).2.max = live (createN n w).2) ∧
      w.max ≤ (createN n w).2.max ∧ (createN n w).2.total + w.nextF = w.total + (createN n w).2.nextF ∧
      (createN n w).2.cache.length = w.cache.length - n ∧ (createN n w).2.cap = w.cap ∧ (createN n w).1.length = n := by
  induction n with
  | zero => intro w lo _ hc; exact ⟨hc, Or.inl rfl, Nat.le_refl _, rfl, rfl, rfl, rfl⟩
  | succ n ih =>
    intro w lo h hc
    obtain ⟨a1, a2, a3, a4⟩ := cinv_create hc
    obtain ⟨b1, b2, b3, b4, b5, b6, b7⟩ := ih (sim_create h) a1
    have hcl : (create w).2.cache.length = w.cache.length - 1 := by
      unfold create newFiber; cases hcc : w.cache <;> simp
    have hcap : (create w).2.cap = w.cap := by unfold create newFiber; cases hcc : w.cache <;> rfl
    have hN : (createN (n + 1) w).2 = (createN n (create w).2).2 := rfl
    have hpk := b1.peak
    refine ⟨b1, ?_, by rw [hN]; omega, by rw [hN]; omega, by rw [hN, b5, hcl]; omega, by rw [hN, b6, hcap], ?_⟩
    · rw [hN]
      rcases b2 with b2 | b2
      · rcases a2 with a2 | a2
        · left; omega
        · have hp2 : live (create w).2 ≤ live (createN n (create w).2).2 := by
            clear a2 b2 a3 a4 b3 b4 b5 b6 b7 hcl hcap hN hpk b1 ih
            have : ∀ m (w0 : World) (lo : List Nat), Sim w0 s lo → CInv w0 → live w0 ≤ live (createN m w0).2 := by
              intro m
              induction m with
              | zero => intro w0 _ _ _; exact Nat.le_refl _
              | succ m ih2 =>
                intro w0 lo0 h0 hc0
                have q := ih2 (create w0).2 _ (sim_create h0) (cinv_create hc0).1
                have q2 : live w0 ≤ live (create w0).2 := by
                  have e1 := hc0.current
                  have e2 := (cinv_create hc0).1.current
                  have e3 : w0.current ≤ (create w0).2.current := by
                    unfold create newFiber; cases hcc : w0.cache <;> simp
                  omega
                show live w0 ≤ live (createN m (create w0).2).2
                omega
            exact this n _ _ (sim_create h) a1
          right
          omega
      · right; exact b2
    · show (createN n (create w).2).1.length + 1 = n + 1
      rw [b7]

theorem cinv_recycleAll (l : List Nat) : ∀ {w : World} {lo : List Nat}, Sim w s (l ++ lo) → CInv w →
    CInv (recycleAll l w) ∧ (recycleAll l w).max = w.max ∧ (recycleAll l w).total = w.total ∧
      (recycleAll l w).nextF = w.nextF ∧
      (w.cache.length + l.length ≤ w.cap → (recycleAll l w).cache.length = w.cache.length + l.length ∧
        live (recycleAll l w) = live w) ∧ (recycleAll l w).cap = w.cap := by
  induction l with
  | nil => intro w lo _ hc; exact ⟨hc, rfl, rfl, rfl, fun _ => ⟨rfl, rfl⟩, rfl⟩
  | cons f l ih =>
    intro w lo h hc
    obtain ⟨⟨x, hx, _⟩, _⟩ := h.loose f List.mem_cons_self
    have hf : isLive w f = true := by show (w.fibs f).isSome = true; rw [hx]; rfl
    obtain ⟨a1, a2, a3, a4⟩ := cinv_recycle hc hf (isLive_lt h.bound hf)
    obtain ⟨b1, b2, b3, b4, b5, b6⟩ := ih (sim_recycle h) a1
    have hcap : (recycle f w).cap = w.cap := by unfold recycle freeFiber; split <;> rfl
    refine ⟨b1, b2.trans a2, b3.trans a3, b4.trans a4, fun hle => ?_, b6.trans hcap⟩
    simp only [List.length_cons] at hle ⊢
    have hr : recycle f w = { w with cache := f :: w.cache, cached := w.cached + 1 } := by
      unfold recycle; rw [if_pos (by omega)]
    have hcl : (recycle f w).cache.length = w.cache.length + 1 := by rw [hr]; rfl
    have hlv : live (recycle f w) = live w := by rw [hr]; rfl
    have := b5 (by rw [hcl, hcap]; omega)
    show (recycleAll l (recycle f w)).cache.length = _ ∧ live (recycleAll l (recycle f w)) = _
    rw [this.1, this.2, hcl, hlv]
    exact ⟨by omega, rfl⟩

/-- Priming fills the cache. -/
theorem cinv_prime (h : Sim w s []) (hc : CInv w) (k : Prog) :
    CInv (doPrime k w) ∧ ((doPrime k w).max = w.max ∨ (doPrime k w).max = live (doPrime k w)) ∧
      (doPrime k w).total + w.nextF = w.total + (doPrime k w).nextF ∧ (doPrime k w).cache.length = w.cap := by
  obtain ⟨a1, a2, a3, a4, a5, a6, a7⟩ := cinv_createN w.cap h hc
  obtain ⟨b1, b2, b3, b4, b5, b6⟩ := cinv_recycleAll (createN w.cap w).1.reverse (sim_createN w.cap h) a1
  have hle := hc.le
  have := b5 (by rw [List.length_reverse, a5, a6, a7]; omega)
  rw [List.length_reverse, a5, a7] at this
  have hS : Same (recycleAll (createN w.cap w).1.reverse (createN w.cap w).2) (doPrime k w) :=
    ⟨rfl, rfl, rfl, fun _ => rfl, rfl, rfl, rfl, rfl⟩
  refine ⟨b1.same hS, ?_, ?_, ?_⟩
  · rw [hS.max, hS.live, b2, this.2]; exact a2
  · rw [hS.total, hS.nextF, b3, b4]; exact a4
  · rw [hS.cache, this.1]; omega

end Verif.Fiber
