import Verif.Fiber.Inv

/-!
# Every step keeps the invariant
-/

namespace Verif.Fiber

variable {w : World} {s : Spec} {lo : List Nat}

theorem objOk_calls {p : Phase} {cs cs' : List (Nat × Op)} {r : Nat} {o : Option Resum} (h : ObjOk p cs r o)
    (hc : ∀ op, (r, op) ∈ cs → (r, op) ∈ cs') : ObjOk p cs' r o := by
  cases p <;> try exact h
  rcases h with ⟨f, h1, h2⟩ | ⟨h1, h2⟩
  · exact Or.inl ⟨f, h1, hc _ h2⟩
  · exact Or.inr ⟨h1, hc _ h2⟩

theorem closed_obj {p : Phase} {cs : List (Nat × Op)} {r : Nat} {o : Option Resum} (h : ObjOk p cs r o)
    (hp : p.closed = true) : ∃ o', o = some o' ∧ o'.fiber = none := by
  cases p <;> first | exact ⟨_, h, rfl⟩ | cases hp

/-- Passing control to the function of a resumable. -/
theorem sim_enter (h : Sim w s lo) {op : Op} {r f : Nat} {d : Bool} {x x' : Fib} {k : Answer → Prog} {w' : World}
    (hp : s.phase r = .fresh ∨ s.phase r = .suspended)
    (hres : w.res r = some ⟨some f, d, none⟩) (hx : w.fibs f = some x) (hcache : f ∉ w.cache)
    (hstk : ∀ fr, fr ∈ w.stack → fr.r ≠ r ∧ fr.fib ≠ f)
    (hx' : FibOk (opPhase op) r x') (hcal : x'.caller = w.curF)
    (e1 : w'.curTag = some r) (e2 : w'.curF = some f) (e3 : w'.stack = frame w op r f k :: w.stack)
    (e4 : w'.ctxRes = if op = .drop then w.ctxRes else some f) (e5 : w'.nextR = w.nextR) (e6 : w'.nextF = w.nextF)
    (e7 : w'.fibs = upd w.fibs f (some x')) (e8 : w'.cache = w.cache)
    (e9 : w'.res = if op = .drop then upd w.res r none else w.res) :
    Sim w' { s.set r (opPhase op) with calls := (r, op) :: s.calls } lo := by
  have hd : d = false := by
    have ho := h.obj r
    rcases hp with h1 | h1 <;> rw [h1, hres] at ho <;> obtain ⟨g, hg⟩ := ho <;> cases hg <;> rfl
  subst hd
  have hh : Holds w r f := Or.inl ⟨_, hres, rfl⟩
  -- who has what afterwards
  have hH : ∀ r' g, Holds w' r' g → Holds w r' g := by
    rintro r' g (⟨o, ho, hg⟩ | ⟨fr, hm, hop, hr, hg⟩)
    · rw [e9] at ho
      split at ho
      · by_cases he : r' = r
        · rw [he, upd_same] at ho; cases ho
        · rw [upd_ne _ _ he] at ho; exact Or.inl ⟨o, ho, hg⟩
      · exact Or.inl ⟨o, ho, hg⟩
    · rw [e3] at hm
      rcases List.mem_cons.mp hm with he | hm
      · subst he
        have h1 : r = r' := hr
        have h2 : f = g := hg
        rw [← h1, ← h2]; exact hh
      · exact Or.inr ⟨fr, hm, hop, hr, hg⟩
  have hH' : ∀ r' g, Holds w r' g → Holds w' r' g := by
    rintro r' g (⟨o, ho, hg⟩ | ⟨fr, hm, hop, hr, hg⟩)
    · by_cases hdrop : op = .drop
      · by_cases he : r' = r
        · rw [he, hres] at ho
          cases ho
          cases hg
          refine Or.inr ⟨frame w op r f k, by rw [e3]; exact List.mem_cons_self, hdrop, he.symm, rfl⟩
        · refine Or.inl ⟨o, ?_, hg⟩
          rw [e9, if_pos hdrop, upd_ne _ _ he]; exact ho
      · refine Or.inl ⟨o, ?_, hg⟩
        rw [e9, if_neg hdrop]; exact ho
    · exact Or.inr ⟨fr, by rw [e3]; exact List.mem_cons_of_mem _ hm, hop, hr, hg⟩
  have hnf : ∀ g, g ≠ f → w'.fibs g = w.fibs g := fun g hg => by rw [e7, upd_ne _ _ hg]
  have hnc : ∀ c, c ∈ s.calls → c.1 ≠ r := by
    intro c hc he
    have := h.calls c hc
    rw [he] at this
    rcases hp with h1 | h1 <;> rw [h1] at this <;> cases hop : c.2 <;> rw [hop] at this <;> cases this
  refine ⟨?_, ?_, ?_, ?_, ?_, ?_, ?_, ?_, ?_, ?_, ?_, ?_, ?_, ?_, ?_, h.looseNodup, ?_, ?_⟩
  · exact e1
  · rw [e2, e3]; rfl
  · rw [e3]; exact ⟨rfl, h.curF, h.tag, h.ctx, h.shape⟩
  · rw [e4, e3]
    show _ = if op = .drop then expCtx w.stack else some f
    rw [h.ctx]
  · intro c hc
    rcases List.mem_cons.mp hc with he | hc
    · rw [he]; exact upd_same _ _ _
    · show upd s.phase r _ c.1 = _
      rw [upd_ne _ _ (hnc c hc)]; exact h.calls c hc
  · show ((r :: s.calls.map Prod.fst)).Nodup
    refine List.nodup_cons.mpr ⟨fun hm => ?_, h.nodup⟩
    obtain ⟨c, hc, he⟩ := List.mem_map.mp hm
    exact hnc c hc he
  · intro q hq
    rw [e5] at hq
    show upd s.phase r _ q = _
    rw [upd_ne]
    · exact h.absent q hq
    · intro he
      have := h.absent q hq
      rw [he] at this
      rcases hp with h1 | h1 <;> rw [h1] at this <;> cases this
  · intro g hg
    rw [e6] at hg
    rw [hnf]
    · exact h.bound g hg
    · intro he; rw [he] at hg; rw [h.bound f hg] at hx; cases hx
  · rw [e8]; exact h.cacheNodup
  · intro g hg
    rw [e8] at hg
    rw [hnf g (fun he => hcache (he ▸ hg))]
    exact h.cache g hg
  · intro q
    show ObjOk (upd s.phase r _ q) _ q _
    by_cases he : q = r
    · subst he
      rw [upd_same, e9]
      cases op
      · exact ⟨f, hres⟩
      · exact ⟨f, hres⟩
      · exact Or.inl ⟨f, hres, List.mem_cons_self⟩
      · refine Or.inr ⟨?_, List.mem_cons_self⟩
        rw [if_pos rfl, upd_same]
    · rw [upd_ne _ _ he]
      have : w'.res q = w.res q := by
        rw [e9]
        split
        · rw [upd_ne _ _ he]
        · rfl
      rw [this]
      exact objOk_calls (h.obj q) (fun _ hm => List.mem_cons_of_mem _ hm)
  · intro fr hm
    rw [e3] at hm
    rcases List.mem_cons.mp hm with he | hm
    · subst he; exact hH' _ _ hh
    · exact hH' _ _ (h.frames fr hm)
  · intro fr hm y hy
    rw [e3] at hm
    rcases List.mem_cons.mp hm with he | hm
    · subst he
      have hy' : w'.fibs f = some y := hy
      rw [e7, upd_same] at hy'
      injection hy' with hy'
      subst hy'
      exact hcal
    · rw [hnf _ (hstk fr hm).2] at hy
      exact h.caller fr hm y hy
  · intro q g hq
    have hq' := hH q g hq
    rw [e8]
    show ∃ y, _ ∧ _ ∧ FibOk (upd s.phase r _ q) q y
    by_cases hg : g = f
    · have : q = r := h.inj _ _ _ hq' (by rw [hg]; exact hh)
      rw [this, upd_same, hg, e7, upd_same]
      exact ⟨x', rfl, hcache, hx'⟩
    · have hqr : q ≠ r := by
        intro he
        rw [he] at hq'
        exact hg (holds_unique h hq' hh)
      rw [upd_ne _ _ hqr, hnf g hg]
      exact h.hold q g hq'
  · intro q q' g h1 h2
    exact h.inj q q' g (hH _ _ h1) (hH _ _ h2)
  · intro g hg
    obtain ⟨⟨y, hy, hpk⟩, b, c⟩ := h.loose g hg
    refine ⟨⟨y, ?_, hpk⟩, by rw [e8]; exact b, fun q hq => c q (hH q g hq)⟩
    rw [hnf g (fun he => c r (by rw [he]; exact hh))]; exact hy
  · intro g hg
    rw [e8]
    have : (w.fibs g).isSome = true := by
      by_cases he : g = f
      · rw [he, hx]; rfl
      · rw [hnf g he] at hg; exact hg
    rcases h.noleak g this with a | ⟨q, a⟩ | a
    · exact Or.inl a
    · exact Or.inr (Or.inl ⟨q, hH' _ _ a⟩)
    · exact Or.inr (Or.inr a)

/-- Removing a resumable's fiber, the resumable itself not being in the middle of something. -/
theorem sim_release (h : Sim w s lo) {r f : Nat} {p : Phase} {o' : Option Resum} {w' : World}
    (hp : s.phase r = .fresh ∨ s.phase r = .aborted) (hh : Holds w r f)
    (ho' : ObjOk p s.calls r o') (hof : ∀ o, o' = some o → o.fiber = none)
    (e1 : w'.curTag = w.curTag) (e2 : w'.curF = w.curF) (e3 : w'.stack = w.stack) (e4 : w'.ctxRes = w.ctxRes)
    (e5 : w'.nextR = w.nextR) (e6 : w'.nextF = w.nextF) (e7 : w'.fibs = w.fibs) (e8 : w'.cache = w.cache)
    (e9 : w'.res = upd w.res r o') : Sim w' (s.set r p) (f :: lo) := by
  have hnc : ∀ c, c ∈ s.calls → c.1 ≠ r := by
    intro c hc he
    have := h.calls c hc
    rw [he] at this
    rcases hp with h1 | h1 <;> rw [h1] at this <;> cases hop : c.2 <;> rw [hop] at this <;> cases this
  have hH : ∀ q g, Holds w' q g → q ≠ r ∧ Holds w q g := by
    rintro q g (⟨o, ho, hg⟩ | ⟨fr, hm, hop, hr, hg⟩)
    · rw [e9] at ho
      by_cases he : q = r
      · rw [he, upd_same] at ho; rw [hof o ho] at hg; cases hg
      · rw [upd_ne _ _ he] at ho; exact ⟨he, Or.inl ⟨o, ho, hg⟩⟩
    · rw [e3] at hm
      refine ⟨?_, Or.inr ⟨fr, hm, hop, hr, hg⟩⟩
      rw [← hr]
      exact hnc _ (shape_mem h.shape hm)
  have hfr : ∀ fr, fr ∈ w.stack → Holds w' fr.r fr.fib := by
    intro fr hm
    rcases h.frames fr hm with ⟨o, ho, hg⟩ | ⟨fr', hm', hop, hr, hg⟩
    · refine Or.inl ⟨o, ?_, hg⟩
      rw [e9, upd_ne _ _ (hnc _ (shape_mem h.shape hm))]; exact ho
    · exact Or.inr ⟨fr', by rw [e3]; exact hm', hop, hr, hg⟩
  obtain ⟨x, hx, hcx, hok⟩ := h.hold r f hh
  refine ⟨?_, ?_, ?_, ?_, ?_, h.nodup, ?_, ?_, ?_, ?_, ?_, ?_, ?_, ?_, ?_,
    List.nodup_cons.mpr ⟨fun hm => (h.loose f hm).2.2 r hh, h.looseNodup⟩, ?_, ?_⟩
  · rw [e1]; exact h.tag
  · rw [e2, e3]; exact h.curF
  · rw [e3]; exact h.shape
  · rw [e3, e4]; exact h.ctx
  · intro c hc
    show upd s.phase r _ c.1 = _
    rw [upd_ne _ _ (hnc c hc)]; exact h.calls c hc
  · intro q hq
    rw [e5] at hq
    show upd s.phase r _ q = _
    rw [upd_ne]
    · exact h.absent q hq
    · intro he
      have := h.absent q hq
      rw [he] at this
      rcases hp with h1 | h1 <;> rw [h1] at this <;> cases this
  · rw [e6, e7]; exact h.bound
  · rw [e8]; exact h.cacheNodup
  · rw [e7, e8]; exact h.cache
  · intro q
    show ObjOk (upd s.phase r _ q) s.calls q _
    rw [e9]
    by_cases he : q = r
    · subst he; rw [upd_same, upd_same]; exact ho'
    · rw [upd_ne _ _ he, upd_ne _ _ he]; exact h.obj q
  · intro fr hm; rw [e3] at hm; exact hfr fr hm
  · rw [e3, e7]; exact h.caller
  · intro q g hq
    have hq' := hH q g hq
    show ∃ y, _ ∧ _ ∧ FibOk (upd s.phase r _ q) q y
    rw [e7, e8, upd_ne _ _ hq'.1]
    exact h.hold q g hq'.2
  · intro q q' g h1 h2
    exact h.inj q q' g (hH _ _ h1).2 (hH _ _ h2).2
  · intro g hg
    rcases List.mem_cons.mp hg with he | hg
    · subst he
      refine ⟨⟨x, by rw [e7]; exact hx, parked_of_ok hok hp⟩, by rw [e8]; exact hcx, ?_⟩
      intro q hq
      have := hH q g hq
      exact this.1 (h.inj _ _ _ this.2 hh)
    · obtain ⟨a, b, c⟩ := h.loose g hg
      exact ⟨by rw [e7]; exact a, by rw [e8]; exact b, fun q hq => c q (hH q g hq).2⟩
  · intro g hg
    rw [e7] at hg
    rw [e8]
    rcases h.noleak g hg with a | ⟨q, a⟩ | a
    · exact Or.inl a
    · by_cases hq : q = r
      · rw [hq] at a
        exact Or.inr (Or.inr (by rw [holds_unique h a hh]; exact List.mem_cons_self))
      · refine Or.inr (Or.inl ⟨q, ?_⟩)
        rcases a with ⟨o, ho, hg'⟩ | ⟨fr, hm, b⟩
        · exact Or.inl ⟨o, by rw [e9, upd_ne _ _ hq]; exact ho, hg'⟩
        · exact Or.inr ⟨fr, by rw [e3]; exact hm, b⟩
    · exact Or.inr (Or.inr (List.mem_cons_of_mem _ a))

/-- Changing a resumable without a fiber. -/
theorem sim_closed (h : Sim w s lo) {r : Nat} {p : Phase} {o' : Option Resum} {w' : World}
    (hp : (s.phase r).closed = true) (ho' : ObjOk p s.calls r o') (hof : ∀ o, o' = some o → o.fiber = none)
    (e1 : w'.curTag = w.curTag) (e2 : w'.curF = w.curF) (e3 : w'.stack = w.stack) (e4 : w'.ctxRes = w.ctxRes)
    (e5 : w'.nextR = w.nextR) (e6 : w'.nextF = w.nextF) (e7 : w'.fibs = w.fibs) (e8 : w'.cache = w.cache)
    (e9 : w'.res = upd w.res r o') : Sim w' (s.set r p) lo := by
  have hnc : ∀ c, c ∈ s.calls → c.1 ≠ r := by
    intro c hc he
    have := h.calls c hc
    rw [he] at this
    rw [this] at hp
    cases hop : c.2 <;> rw [hop] at hp <;> cases hp
  have hH : ∀ q g, Holds w' q g → q ≠ r ∧ Holds w q g := by
    rintro q g (⟨o, ho, hg⟩ | ⟨fr, hm, hop, hr, hg⟩)
    · rw [e9] at ho
      by_cases he : q = r
      · rw [he, upd_same] at ho; rw [hof o ho] at hg; cases hg
      · rw [upd_ne _ _ he] at ho; exact ⟨he, Or.inl ⟨o, ho, hg⟩⟩
    · rw [e3] at hm
      refine ⟨?_, Or.inr ⟨fr, hm, hop, hr, hg⟩⟩
      rw [← hr]
      exact hnc _ (shape_mem h.shape hm)
  have hfr : ∀ fr, fr ∈ w.stack → Holds w' fr.r fr.fib := by
    intro fr hm
    rcases h.frames fr hm with ⟨o, ho, hg⟩ | ⟨fr', hm', hop, hr, hg⟩
    · refine Or.inl ⟨o, ?_, hg⟩
      rw [e9, upd_ne _ _ (hnc _ (shape_mem h.shape hm))]; exact ho
    · exact Or.inr ⟨fr', by rw [e3]; exact hm', hop, hr, hg⟩
  refine ⟨?_, ?_, ?_, ?_, ?_, h.nodup, ?_, ?_, ?_, ?_, ?_, ?_, ?_, ?_, ?_, h.looseNodup, ?_, ?_⟩
  · rw [e1]; exact h.tag
  · rw [e2, e3]; exact h.curF
  · rw [e3]; exact h.shape
  · rw [e3, e4]; exact h.ctx
  · intro c hc
    show upd s.phase r _ c.1 = _
    rw [upd_ne _ _ (hnc c hc)]; exact h.calls c hc
  · intro q hq
    rw [e5] at hq
    show upd s.phase r _ q = _
    rw [upd_ne]
    · exact h.absent q hq
    · intro he
      have := h.absent q hq
      rw [he] at this
      rw [this] at hp; cases hp
  · rw [e6, e7]; exact h.bound
  · rw [e8]; exact h.cacheNodup
  · rw [e7, e8]; exact h.cache
  · intro q
    show ObjOk (upd s.phase r _ q) s.calls q _
    rw [e9]
    by_cases he : q = r
    · subst he; rw [upd_same, upd_same]; exact ho'
    · rw [upd_ne _ _ he, upd_ne _ _ he]; exact h.obj q
  · intro fr hm; rw [e3] at hm; exact hfr fr hm
  · rw [e3, e7]; exact h.caller
  · intro q g hq
    have hq' := hH q g hq
    show ∃ y, _ ∧ _ ∧ FibOk (upd s.phase r _ q) q y
    rw [e7, e8, upd_ne _ _ hq'.1]
    exact h.hold q g hq'.2
  · intro q q' g h1 h2
    exact h.inj q q' g (hH _ _ h1).2 (hH _ _ h2).2
  · intro g hg
    obtain ⟨a, b, c⟩ := h.loose g hg
    exact ⟨by rw [e7]; exact a, by rw [e8]; exact b, fun q hq => c q (hH q g hq).2⟩
  · intro g hg
    rw [e7] at hg
    rw [e8]
    rcases h.noleak g hg with a | ⟨q, a⟩ | a
    · exact Or.inl a
    · by_cases hq : q = r
      · obtain ⟨o, ho, hof'⟩ := closed_obj (h.obj r) hp
        rw [hq] at a
        rcases a with ⟨o2, ho2, hg'⟩ | ⟨fr, hm, _, hr, _⟩
        · rw [ho] at ho2; injection ho2 with ho2; rw [← ho2, hof'] at hg'; cases hg'
        · exact absurd hr (hnc _ (shape_mem h.shape hm))
      · refine Or.inr (Or.inl ⟨q, ?_⟩)
        rcases a with ⟨o, ho, hg'⟩ | ⟨fr, hm, b⟩
        · exact Or.inl ⟨o, by rw [e9, upd_ne _ _ hq]; exact ho, hg'⟩
        · exact Or.inr ⟨fr, by rw [e3]; exact hm, b⟩
    · exact Or.inr (Or.inr a)

/-- Giving control back to the caller; the resumable afterwards is `o'`. If it keeps its fiber (`keep`), the fiber is fine for
    the new phase; otherwise the fiber belongs to nobody. -/
theorem sim_leave (h : Sim w s lo) {fr : Frame} {rest : List Frame} {cs : List (Nat × Op)} {p : Phase} {x' : Fib}
    {o' : Option Resum} {w' : World} {keep : Bool}
    (hs : w.stack = fr :: rest) (hcs : s.calls = (fr.r, fr.op) :: cs)
    (ho' : ObjOk p cs fr.r o')
    (hof : ∀ o, o' = some o → o.fiber = if keep then some fr.fib else none)
    (hsome : keep = true → o' ≠ none) (hkeep : keep = true → FibOk p fr.r x') (hpark : keep = false → Parked x')
    (e1 : w'.curTag = fr.tag) (e2 : w'.curF = fr.who) (e3 : w'.stack = rest) (e4 : w'.ctxRes = fr.saved)
    (e5 : w'.nextR = w.nextR) (e6 : w'.nextF = w.nextF) (e7 : w'.fibs = upd w.fibs fr.fib (some x'))
    (e8 : w'.cache = w.cache) (e9 : w'.res = upd w.res fr.r o') :
    Sim w' { s.set fr.r p with calls := cs } (if keep then lo else fr.fib :: lo) := by
  have hsh := h.shape
  rw [hs, hcs] at hsh
  obtain ⟨_, hwho, htag, hsaved, hsh'⟩ := hsh
  have htop : fr ∈ w.stack := by rw [hs]; exact List.mem_cons_self
  have hh : Holds w fr.r fr.fib := h.frames fr htop
  obtain ⟨x, hx, hcache, _⟩ := h.hold _ _ hh
  have hrest : ∀ fr', fr' ∈ rest → fr' ∈ w.stack := fun _ hm => by rw [hs]; exact List.mem_cons_of_mem _ hm
  have hnd := h.nodup
  rw [hcs, List.map_cons, List.nodup_cons] at hnd
  have hnc : ∀ c, c ∈ cs → c.1 ≠ fr.r := fun c hc he => hnd.1 (List.mem_map.mpr ⟨c, hc, he⟩)
  have hH : ∀ q g, Holds w' q g → Holds w q g ∧ (q = fr.r → keep = true ∧ g = fr.fib) := by
    rintro q g (⟨o, ho, hg⟩ | ⟨fr', hm, hop, hr, hg⟩)
    · rw [e9] at ho
      by_cases he : q = fr.r
      · rw [he, upd_same] at ho
        rw [hof o ho] at hg
        cases keep with
        | false => cases hg
        | true => injection hg with hg; subst hg; rw [he]; exact ⟨hh, fun _ => ⟨rfl, rfl⟩⟩
      · rw [upd_ne _ _ he] at ho; exact ⟨Or.inl ⟨o, ho, hg⟩, fun hc => absurd hc he⟩
    · rw [e3] at hm
      refine ⟨Or.inr ⟨fr', hrest _ hm, hop, hr, hg⟩, fun hc => ?_⟩
      exact absurd (hr.trans hc) (frame_ne h hs hm).1
  have hlo : ∀ g, g ∈ lo → g ≠ fr.fib := fun g hg he => (h.loose g hg).2.2 fr.r (by rw [he]; exact hh)
  refine ⟨?_, ?_, ?_, ?_, ?_, hnd.2, ?_, ?_, ?_, ?_, ?_, ?_, ?_, ?_, ?_, ?_, ?_, ?_⟩
  · rw [e1]; exact htag
  · rw [e2, e3]; exact hwho
  · rw [e3]; exact hsh'
  · rw [e3, e4]; exact hsaved
  · intro c hc
    show upd s.phase fr.r _ c.1 = _
    rw [upd_ne _ _ (hnc c hc)]; exact h.calls c (by rw [hcs]; exact List.mem_cons_of_mem _ hc)
  · intro q hq
    rw [e5] at hq
    show upd s.phase fr.r _ q = _
    rw [upd_ne]
    · exact h.absent q hq
    · intro he
      have h1 := h.absent q hq
      have h2 := h.calls (fr.r, fr.op) (by rw [hcs]; exact List.mem_cons_self)
      dsimp only at h2
      rw [he] at h1
      rw [h1] at h2
      cases hop : fr.op <;> rw [hop] at h2 <;> cases h2
  · intro g hg
    rw [e6] at hg
    rw [e7, upd_ne]
    · exact h.bound g hg
    · intro he; rw [he] at hg; rw [h.bound _ hg] at hx; cases hx
  · rw [e8]; exact h.cacheNodup
  · intro g hg
    rw [e8] at hg
    rw [e7, upd_ne _ _ (fun he : g = fr.fib => hcache (by rw [← he]; exact hg))]
    exact h.cache g hg
  · intro q
    show ObjOk (upd s.phase fr.r _ q) cs q _
    rw [e9]
    by_cases he : q = fr.r
    · subst he; rw [upd_same, upd_same]; exact ho'
    · rw [upd_ne _ _ he, upd_ne _ _ he]
      refine objOk_calls (h.obj q) (fun op hm => ?_)
      rw [hcs] at hm
      rcases List.mem_cons.mp hm with h1 | h1
      · injection h1 with h1 _; exact absurd h1 he
      · exact h1
  · intro fr' hm
    rw [e3] at hm
    have hne := frame_ne h hs hm
    rcases h.frames fr' (hrest _ hm) with ⟨o, ho, hg⟩ | ⟨fr'', hm', hop, hr, hg⟩
    · refine Or.inl ⟨o, ?_, hg⟩
      rw [e9, upd_ne _ _ hne.1]; exact ho
    · rw [hs] at hm'
      rcases List.mem_cons.mp hm' with he | hm'
      · rw [he] at hr; exact absurd hr.symm hne.1
      · exact Or.inr ⟨fr'', by rw [e3]; exact hm', hop, hr, hg⟩
  · intro fr' hm y hy
    rw [e3] at hm
    rw [e7, upd_ne _ _ (frame_ne h hs hm).2] at hy
    exact h.caller fr' (hrest _ hm) y hy
  · intro q g hq
    have hq' := hH q g hq
    show ∃ y, _ ∧ _ ∧ FibOk (upd s.phase fr.r _ q) q y
    rw [e8]
    by_cases he : q = fr.r
    · obtain ⟨hk, hg⟩ := hq'.2 he
      rw [he, upd_same, hg, e7, upd_same]
      exact ⟨x', rfl, hcache, hkeep hk⟩
    · rw [upd_ne _ _ he, e7, upd_ne _ _ (fun hg : g = fr.fib => he (h.inj _ _ _ hq'.1 (by rw [hg]; exact hh)))]
      exact h.hold q g hq'.1
  · intro q q' g h1 h2
    exact h.inj q q' g (hH _ _ h1).1 (hH _ _ h2).1
  · cases keep
    · exact List.nodup_cons.mpr ⟨fun hm => hlo _ hm rfl, h.looseNodup⟩
    · exact h.looseNodup
  · have old : ∀ g, g ∈ lo → Orphan w' g := by
      intro g hg
      obtain ⟨⟨y, hy, hpk⟩, b, c⟩ := h.loose g hg
      exact ⟨⟨y, by rw [e7, upd_ne _ _ (hlo g hg)]; exact hy, hpk⟩, by rw [e8]; exact b, fun q hq => c q (hH q g hq).1⟩
    cases hk : keep with
    | true => exact old
    | false =>
      intro g hg
      rcases List.mem_cons.mp hg with he | hg
      · subst he
        refine ⟨⟨x', by rw [e7, upd_same], hpark hk⟩, by rw [e8]; exact hcache, ?_⟩
        intro q hq
        have := hH q _ hq
        have he := h.inj _ _ _ this.1 hh
        have := (this.2 he).1
        rw [hk] at this; cases this
      · exact old g hg
  · intro g hg
    rw [e8]
    by_cases hgf : g = fr.fib
    · cases hk : keep with
      | false => exact Or.inr (Or.inr (by rw [hgf]; exact List.mem_cons_self))
      | true =>
        refine Or.inr (Or.inl ⟨fr.r, ?_⟩)
        cases hoo : o' with
        | some o => exact Or.inl ⟨o, by rw [e9, upd_same]; exact hoo, by rw [hof o hoo, hk, hgf]; rfl⟩
        | none => exact absurd hoo (hsome hk)
    · rw [e7, upd_ne _ _ hgf] at hg
      rcases h.noleak g hg with a | ⟨q, a⟩ | a
      · exact Or.inl a
      · have hq : q ≠ fr.r := by
          intro hq
          rw [hq] at a
          exact hgf (holds_unique h a hh)
        refine Or.inr (Or.inl ⟨q, ?_⟩)
        rcases a with ⟨o, ho, hg'⟩ | ⟨fr', hm, b, c, d⟩
        · exact Or.inl ⟨o, by rw [e9, upd_ne _ _ hq]; exact ho, hg'⟩
        · rw [hs] at hm
          rcases List.mem_cons.mp hm with he | hm
          · rw [he] at c; exact absurd c.symm hq
          · exact Or.inr ⟨fr', by rw [e3]; exact hm, b, c, d⟩
      · refine Or.inr (Or.inr ?_)
        cases keep
        · exact List.mem_cons_of_mem _ a
        · exact a

/-- A new resumable. -/
theorem sim_spawn {f : Nat} (h : Sim w s (f :: lo)) {x : Fib} {w' : World} {q : Prog} (hx : w.fibs f = some x)
    (e1 : w'.curTag = w.curTag) (e2 : w'.curF = w.curF) (e3 : w'.stack = w.stack) (e4 : w'.ctxRes = w.ctxRes)
    (e5 : w'.nextR = w.nextR + 1) (e6 : w'.nextF = w.nextF) (e7 : w'.fibs = upd w.fibs f (some (initFiber x w.nextR q)))
    (e8 : w'.cache = w.cache) (e9 : w'.res = upd w.res w.nextR (some ⟨some f, false, none⟩)) :
    Sim w' (s.set w.nextR .fresh) lo := by
  have ho := h.loose f List.mem_cons_self
  have hnd := List.nodup_cons.mp h.looseNodup
  obtain ⟨⟨y, hy, hpark⟩, hcache, hfree⟩ := ho
  rw [hx] at hy; injection hy with hy; subst hy
  have habs := h.absent _ (Nat.le_refl w.nextR)
  have hnone : w.res w.nextR = none := by
    have := h.obj w.nextR; rw [habs] at this; exact this
  have hnc : ∀ c, c ∈ s.calls → c.1 ≠ w.nextR := by
    intro c hc he
    have := h.calls c hc
    rw [he, habs] at this
    cases hop : c.2 <;> rw [hop] at this <;> cases this
  have hne : ∀ r g, Holds w r g → g ≠ f := fun r g hh he => hfree r (he ▸ hh)
  have hH : ∀ r g, Holds w' r g → (r = w.nextR ∧ g = f) ∨ (r ≠ w.nextR ∧ Holds w r g) := by
    rintro r g (⟨o, ho, hg⟩ | ⟨fr, hm, hop, hr, hg⟩)
    · rw [e9] at ho
      by_cases he : r = w.nextR
      · rw [he, upd_same] at ho; injection ho with ho; rw [← ho] at hg; injection hg with hg
        exact Or.inl ⟨he, hg.symm⟩
      · rw [upd_ne _ _ he] at ho; exact Or.inr ⟨he, Or.inl ⟨o, ho, hg⟩⟩
    · rw [e3] at hm
      refine Or.inr ⟨?_, Or.inr ⟨fr, hm, hop, hr, hg⟩⟩
      rw [← hr]; exact hnc _ (shape_mem h.shape hm)
  refine ⟨?_, ?_, ?_, ?_, ?_, h.nodup, ?_, ?_, ?_, ?_, ?_, ?_, ?_, ?_, ?_, hnd.2, ?_, ?_⟩
  · rw [e1]; exact h.tag
  · rw [e2, e3]; exact h.curF
  · rw [e3]; exact h.shape
  · rw [e3, e4]; exact h.ctx
  · intro c hc
    show upd s.phase _ _ c.1 = _
    rw [upd_ne _ _ (hnc c hc)]; exact h.calls c hc
  · intro r hr
    rw [e5] at hr
    show upd s.phase _ _ r = _
    rw [upd_ne _ _ (by omega)]; exact h.absent r (by omega)
  · intro g hg
    rw [e6] at hg
    rw [e7, upd_ne]
    · exact h.bound g hg
    · intro he; rw [he] at hg; rw [h.bound _ hg] at hx; cases hx
  · rw [e8]; exact h.cacheNodup
  · intro g hg
    rw [e8] at hg
    rw [e7, upd_ne _ _ (fun he : g = f => hcache (by rw [← he]; exact hg))]
    exact h.cache g hg
  · intro r
    show ObjOk (upd s.phase _ _ r) s.calls r _
    rw [e9]
    by_cases he : r = w.nextR
    · subst he; rw [upd_same, upd_same]; exact ⟨f, rfl⟩
    · rw [upd_ne _ _ he, upd_ne _ _ he]; exact h.obj r
  · intro fr hm
    rw [e3] at hm
    rcases h.frames fr hm with ⟨o, ho, hg⟩ | ⟨fr', hm', hop, hr, hg⟩
    · refine Or.inl ⟨o, ?_, hg⟩
      rw [e9, upd_ne _ _ (hnc _ (shape_mem h.shape hm))]; exact ho
    · exact Or.inr ⟨fr', by rw [e3]; exact hm', hop, hr, hg⟩
  · intro fr hm y hy
    rw [e3] at hm
    rw [e7, upd_ne _ _ (hne _ _ (h.frames fr hm))] at hy
    exact h.caller fr hm y hy
  · intro r g hr
    show ∃ y, _ ∧ _ ∧ FibOk (upd s.phase _ _ r) r y
    rw [e8]
    rcases hH r g hr with ⟨h1, h2⟩ | ⟨h1, h2⟩
    · rw [h1, h2, upd_same, e7, upd_same]
      exact ⟨_, rfl, hcache, hpark, ⟨q, rfl⟩, rfl, rfl⟩
    · rw [upd_ne _ _ h1, e7, upd_ne _ _ (hne _ _ h2)]
      exact h.hold r g h2
  · intro r r' g h1 h2
    rcases hH r g h1 with ⟨a1, a2⟩ | ⟨a1, a2⟩ <;> rcases hH r' g h2 with ⟨b1, b2⟩ | ⟨b1, b2⟩
    · rw [a1, b1]
    · exact absurd a2 (hne _ _ b2)
    · exact absurd b2 (hne _ _ a2)
    · exact h.inj _ _ _ a2 b2
  · intro g hg
    obtain ⟨⟨y, hy, hpk⟩, b, c⟩ := h.loose g (List.mem_cons_of_mem _ hg)
    have hgf : g ≠ f := fun he => hnd.1 (by rw [← he]; exact hg)
    refine ⟨⟨y, by rw [e7, upd_ne _ _ hgf]; exact hy, hpk⟩, by rw [e8]; exact b, fun r hr => ?_⟩
    rcases hH r g hr with ⟨_, h2⟩ | ⟨_, h2⟩
    · exact hgf h2
    · exact c r h2
  · intro g hg
    rw [e8]
    by_cases hgf : g = f
    · exact Or.inr (Or.inl ⟨w.nextR, Or.inl ⟨_, by rw [e9, upd_same], by rw [hgf]⟩⟩)
    · rw [e7, upd_ne _ _ hgf] at hg
      rcases h.noleak g hg with a | ⟨q, a⟩ | a
      · exact Or.inl a
      · refine Or.inr (Or.inl ⟨q, ?_⟩)
        rcases a with ⟨o, ho, hg'⟩ | ⟨fr, hm, b⟩
        · have hq : q ≠ w.nextR := by intro hq; rw [hq, hnone] at ho; cases ho
          exact Or.inl ⟨o, by rw [e9, upd_ne _ _ hq]; exact ho, hg'⟩
        · exact Or.inr ⟨fr, by rw [e3]; exact hm, b⟩
      · rcases List.mem_cons.mp a with a | a
        · exact absurd a hgf
        · exact Or.inr (Or.inr a)

end Verif.Fiber
