import Verif.Fiber.Spec

/-!
# The invariant relating fibers to the expected life of resumables
-/

namespace Verif.Fiber

@[simp] theorem upd_same {α : Type} (f : Nat → α) (i : Nat) (x : α) : upd f i x i = x := by simp [upd]
theorem upd_ne {α : Type} (f : Nat → α) {i j : Nat} (x : α) (h : j ≠ i) : upd f i x j = f j := by simp [upd, h]
theorem upd_upd {α : Type} (f : Nat → α) (i : Nat) (x y : α) : upd (upd f i x) i y = upd f i y := by
  funext j; by_cases h : j = i <;> simp [upd, h]

def Parked (x : Fib) : Prop := (x.st = .init ∨ x.st = .idle) ∧ (x.point = .fresh ∨ x.point = .loop)

/-- State of the fiber of resumable `r`, by phase. -/
def FibOk (p : Phase) (r : Nat) (x : Fib) : Prop :=
  match p with
  | .fresh => Parked x ∧ (∃ q, x.func = some (r, q)) ∧ x.result = none ∧ x.exc = none
  | .active => x.st = .running ∧ x.point = .busy ∧ x.result = none ∧ x.exc = none
  | .suspended => x.st = .yielded ∧ (∃ k, x.point = .inside r k) ∧ x.result = none ∧ x.exc = none
  | .unwinding => x.st = .aborting ∧ x.point = .busy
  | .aborted => Parked x
  | _ => False

/-- The resumable object, by phase. -/
def ObjOk (p : Phase) (calls : List (Nat × Op)) (r : Nat) (o : Option Resum) : Prop :=
  match p with
  | .absent | .gone => o = none
  | .fresh | .suspended | .active => ∃ f, o = some ⟨some f, false, none⟩
  | .unwinding => (∃ f, o = some ⟨some f, false, none⟩ ∧ (r, Op.abort) ∈ calls) ∨ (o = none ∧ (r, Op.drop) ∈ calls)
  | .aborted => ∃ f, o = some ⟨some f, true, none⟩
  | .finished v => o = some ⟨none, true, some v⟩
  | .raised _ => o = some ⟨none, true, none⟩
  | .vacant => o = some ⟨none, false, none⟩

/-- Phase of the function executed by an operation. -/
def opPhase : Op → Phase
  | .run | .resume => .active
  | .abort | .drop => .unwinding

def top : List Frame → Option Nat
  | [] => none
  | fr :: _ => some fr.fib

/-- What `context.resumable` is. -/
def expCtx : List Frame → Option Nat
  | [] => none
  | fr :: rest => if fr.op = .drop then expCtx rest else some fr.fib

/-- Frames and calls go together. -/
def Shape : List Frame → List (Nat × Op) → Prop
  | [], [] => True
  | fr :: fs, c :: cs =>
    c = (fr.r, fr.op) ∧ fr.who = top fs ∧ fr.tag = running cs ∧ fr.saved = expCtx fs ∧ Shape fs cs
  | _, _ => False

/-- Resumable `r`, or its destructor, has fiber `f`. -/
def Holds (w : World) (r f : Nat) : Prop :=
  (∃ o, w.res r = some o ∧ o.fiber = some f) ∨ (∃ fr, fr ∈ w.stack ∧ fr.op = .drop ∧ fr.r = r ∧ fr.fib = f)

/-- A fiber that exists, but is neither in the cache nor in use. -/
def Orphan (w : World) (f : Nat) : Prop :=
  (∃ x, w.fibs f = some x ∧ Parked x) ∧ f ∉ w.cache ∧ ∀ r, ¬ Holds w r f

/-- The invariant; `lo` are fibers that are just being created or given back. -/
structure Sim (w : World) (s : Spec) (lo : List Nat) : Prop where
  tag : w.curTag = running s.calls
  curF : w.curF = top w.stack
  shape : Shape w.stack s.calls
  ctx : w.ctxRes = expCtx w.stack
  calls : ∀ c, c ∈ s.calls → s.phase c.1 = opPhase c.2
  nodup : (s.calls.map Prod.fst).Nodup
  absent : ∀ r, w.nextR ≤ r → s.phase r = .absent
  bound : ∀ f, w.nextF ≤ f → w.fibs f = none
  cacheNodup : w.cache.Nodup
  cache : ∀ f, f ∈ w.cache → ∃ x, w.fibs f = some x ∧ Parked x
  obj : ∀ r, ObjOk (s.phase r) s.calls r (w.res r)
  frames : ∀ fr, fr ∈ w.stack → Holds w fr.r fr.fib
  caller : ∀ fr, fr ∈ w.stack → ∀ x, w.fibs fr.fib = some x → x.caller = fr.who
  hold : ∀ r f, Holds w r f → ∃ x, w.fibs f = some x ∧ f ∉ w.cache ∧ FibOk (s.phase r) r x
  inj : ∀ r r' f, Holds w r f → Holds w r' f → r = r'
  looseNodup : lo.Nodup
  loose : ∀ f, f ∈ lo → Orphan w f
  noleak : ∀ f, (w.fibs f).isSome = true → f ∈ w.cache ∨ (∃ r, Holds w r f) ∨ f ∈ lo

/-- Frames and calls correspond one to one. -/
theorem shape_mem {fs : List Frame} {cs : List (Nat × Op)} (h : Shape fs cs) {fr : Frame} (hm : fr ∈ fs) :
    (fr.r, fr.op) ∈ cs := by
  induction fs generalizing cs with
  | nil => cases hm
  | cons a l ih =>
    cases cs with
    | nil => exact h.elim
    | cons c cs =>
      rcases List.mem_cons.mp hm with h1 | h1
      · subst h1; rw [h.1]; exact List.mem_cons_self
      · exact List.mem_cons_of_mem _ (ih h.2.2.2.2 h1)

theorem shape_nil {cs : List (Nat × Op)} (h : Shape [] cs) : cs = [] := by
  cases cs with
  | nil => rfl
  | cons _ _ => exact h.elim

/-- Two calls for the same resumable are the same call. -/
theorem calls_unique {cs : List (Nat × Op)} (hn : (cs.map Prod.fst).Nodup) {c d : Nat × Op} (hc : c ∈ cs) (hd : d ∈ cs)
    (h : c.1 = d.1) : c = d := by
  induction cs with
  | nil => cases hc
  | cons a l ih =>
    rw [List.map_cons, List.nodup_cons] at hn
    rcases List.mem_cons.mp hc with h1 | h1 <;> rcases List.mem_cons.mp hd with h2 | h2
    · rw [h1, h2]
    · subst h1; exact absurd (List.mem_map.mpr ⟨d, h2, h.symm⟩) hn.1
    · subst h2; exact absurd (List.mem_map.mpr ⟨c, h1, h⟩) hn.1
    · exact ih hn.2 h1 h2

variable {w : World} {s : Spec} {lo : List Nat}

/-- A resumable has at most one fiber. -/
theorem holds_unique (h : Sim w s lo) {r f g : Nat} (h1 : Holds w r f) (h2 : Holds w r g) : f = g := by
  have drop_none : ∀ fr, fr ∈ w.stack → fr.op = .drop → w.res fr.r = none := by
    intro fr hm hop
    have hc := shape_mem h.shape hm
    have hp := h.calls _ hc
    simp only [hop, opPhase] at hp
    have ho := h.obj fr.r
    rw [hp] at ho
    rcases ho with ⟨_, _, hx⟩ | ⟨hx, _⟩
    · have := calls_unique h.nodup hc hx rfl
      rw [hop] at this; injection this with _ this; cases this
    · exact hx
  rcases h1 with ⟨o, ho, hf⟩ | ⟨fr, hm, hop, hr, hf⟩ <;> rcases h2 with ⟨o', ho', hg⟩ | ⟨fr', hm', hop', hr', hg⟩
  · rw [ho] at ho'; injection ho' with ho'; subst ho'; rw [hf] at hg; injection hg
  · have := drop_none fr' hm' hop'; rw [hr', ho] at this; cases this
  · have := drop_none fr hm hop; rw [hr, ho'] at this; cases this
  · subst hr
    have : fr = fr' := by
      -- at most one frame per resumable
      have key : ∀ (fs : List Frame) (cs : List (Nat × Op)), Shape fs cs → (cs.map Prod.fst).Nodup →
          ∀ a b : Frame, a ∈ fs → b ∈ fs → a.r = b.r → a = b := by
        intro fs
        induction fs with
        | nil => intro _ _ _ a _ ha; cases ha
        | cons x l ih =>
          intro cs hs hn a b ha hb hab
          cases cs with
          | nil => exact hs.elim
          | cons c cs =>
            rw [List.map_cons, List.nodup_cons] at hn
            have hin : ∀ y, y ∈ l → y.r ≠ x.r := by
              intro y hy he
              apply hn.1
              rw [hs.1]
              exact List.mem_map.mpr ⟨_, shape_mem hs.2.2.2.2 hy, he⟩
            rcases List.mem_cons.mp ha with h1 | h1 <;> rcases List.mem_cons.mp hb with h2 | h2
            · rw [h1, h2]
            · exact absurd (by rw [← hab, h1]) (hin b h2)
            · exact absurd (by rw [hab, h2]) (hin a h1)
            · exact ih cs hs.2.2.2.2 hn.2 a b h1 h2 hab
      exact key _ _ h.shape h.nodup _ _ hm hm' hr'.symm
    rw [← hf, ← hg, this]

/-- Different frames belong to different resumables; in particular the ones below the top. -/
theorem frame_ne (h : Sim w s lo) {fr : Frame} {rest : List Frame} (hs : w.stack = fr :: rest) {fr' : Frame}
    (hm : fr' ∈ rest) : fr'.r ≠ fr.r ∧ fr'.fib ≠ fr.fib := by
  have hsh := h.shape
  rw [hs] at hsh
  cases hc : s.calls with
  | nil => rw [hc] at hsh; exact hsh.elim
  | cons c cs =>
    rw [hc] at hsh
    have hn := h.nodup
    rw [hc, List.map_cons, List.nodup_cons] at hn
    have hr : fr'.r ≠ fr.r := by
      intro he
      apply hn.1
      rw [hsh.1]
      exact List.mem_map.mpr ⟨_, shape_mem hsh.2.2.2.2 hm, he⟩
    refine ⟨hr, fun he => ?_⟩
    have h1 := h.frames fr (by rw [hs]; exact List.mem_cons_self)
    have h2 := h.frames fr' (by rw [hs]; exact List.mem_cons_of_mem _ hm)
    rw [he] at h2
    exact hr (h.inj _ _ _ h2 h1)

theorem parked_of_ok {p : Phase} {r : Nat} {x : Fib} (h : FibOk p r x) (hp : p = .fresh ∨ p = .aborted) : Parked x := by
  rcases hp with h1 | h1 <;> subst h1
  · exact h.1
  · exact h

/-- The fiber of a resumable that is not in the middle of something. -/
theorem sim_holds (h : Sim w s lo) {r : Nat}
    (hp : s.phase r = .fresh ∨ s.phase r = .suspended ∨ s.phase r = .aborted) :
    ∃ f d x, w.res r = some ⟨some f, d, none⟩ ∧ Holds w r f ∧ w.fibs f = some x ∧ f ∉ w.cache ∧ FibOk (s.phase r) r x ∧
      w.curF ≠ some f ∧ (∀ fr, fr ∈ w.stack → fr.r ≠ r ∧ fr.fib ≠ f) := by
  have ho := h.obj r
  have hex : ∃ f d, w.res r = some ⟨some f, d, none⟩ := by
    rcases hp with h1 | h1 | h1 <;> rw [h1] at ho
    · obtain ⟨f, hf⟩ := ho; exact ⟨f, _, hf⟩
    · obtain ⟨f, hf⟩ := ho; exact ⟨f, _, hf⟩
    · obtain ⟨f, hf⟩ := ho; exact ⟨f, _, hf⟩
  obtain ⟨f, d, hf⟩ := hex
  have hh : Holds w r f := Or.inl ⟨_, hf, rfl⟩
  obtain ⟨x, hx, hcache, hok⟩ := h.hold r f hh
  have hst : ∀ fr, fr ∈ w.stack → fr.r ≠ r ∧ fr.fib ≠ f := by
    intro fr hm
    have hr : fr.r ≠ r := by
      intro he
      have := h.calls _ (shape_mem h.shape hm)
      dsimp only at this
      rw [he] at this
      rcases hp with h1 | h1 | h1 <;> rw [h1] at this <;> cases hop : fr.op <;> rw [hop] at this <;> cases this
    exact ⟨hr, fun he => hr (h.inj _ _ _ (h.frames fr hm) (by rw [he]; exact hh))⟩
  refine ⟨f, d, x, hf, hh, hx, hcache, hok, ?_, hst⟩
  rw [h.curF]
  cases hs : w.stack with
  | nil => intro hc; cases hc
  | cons fr rest =>
    intro hc
    injection hc with hc
    exact (hst fr (by rw [hs]; exact List.mem_cons_self)).2 hc

/-- The invariant holds at the beginning. -/
theorem sim_start (cap : Nat) (p : Prog) : Sim (start cap p) Spec.start [] where
  tag := rfl
  curF := rfl
  shape := trivial
  ctx := rfl
  calls := fun _ h => nomatch h
  nodup := List.nodup_nil
  absent := fun _ _ => rfl
  bound := fun _ _ => rfl
  cacheNodup := List.nodup_nil
  cache := fun _ h => nomatch h
  obj := fun _ => rfl
  frames := fun _ h => nomatch h
  caller := fun _ h => nomatch h
  hold := by
    rintro r f (⟨o, h, _⟩ | ⟨fr, h, _⟩)
    · cases h
    · nomatch h
  inj := by
    rintro r r' f (⟨o, h, _⟩ | ⟨fr, h, _⟩)
    · cases h
    · nomatch h
  looseNodup := List.nodup_nil
  loose := fun _ h => nomatch h
  noleak := fun _ h => nomatch h

/-- What the invariant is about. -/
theorem sim_congr {w' : World} (h : Sim w s lo) (h1 : w'.curTag = w.curTag) (h2 : w'.curF = w.curF)
    (h3 : w'.stack = w.stack) (h4 : w'.ctxRes = w.ctxRes) (h5 : w'.nextR = w.nextR) (h6 : w'.nextF = w.nextF)
    (h7 : w'.fibs = w.fibs) (h8 : w'.cache = w.cache) (h9 : w'.res = w.res) : Sim w' s lo := by
  have hH : ∀ r f, Holds w' r f ↔ Holds w r f := by
    intro r f; unfold Holds; rw [h3, h9]
  exact
    { tag := by rw [h1]; exact h.tag
      curF := by rw [h2, h3]; exact h.curF
      shape := by rw [h3]; exact h.shape
      ctx := by rw [h3, h4]; exact h.ctx
      calls := h.calls
      nodup := h.nodup
      absent := by rw [h5]; exact h.absent
      bound := by rw [h6, h7]; exact h.bound
      cacheNodup := by rw [h8]; exact h.cacheNodup
      cache := by rw [h7, h8]; exact h.cache
      obj := by rw [h9]; exact h.obj
      frames := by rw [h3]; intro fr hm; exact (hH _ _).mpr (h.frames fr hm)
      caller := by rw [h3, h7]; exact h.caller
      hold := by rw [h7, h8]; intro r f hh; exact h.hold r f ((hH _ _).mp hh)
      inj := fun r r' f a b => h.inj r r' f ((hH _ _).mp a) ((hH _ _).mp b)
      looseNodup := h.looseNodup
      loose := by
        intro f hf
        obtain ⟨a, b, c⟩ := h.loose f hf
        exact ⟨by rw [h7]; exact a, by rw [h8]; exact b, fun r hr => c r ((hH _ _).mp hr)⟩
      noleak := by
        intro f hf
        rw [h7] at hf
        rw [h8]
        rcases h.noleak f hf with a | ⟨r, a⟩ | a
        · exact Or.inl a
        · exact Or.inr (Or.inl ⟨r, (hH _ _).mpr a⟩)
        · exact Or.inr (Or.inr a) }

/-- `Fiber::create` gives a fiber that nobody uses. -/
theorem sim_create (h : Sim w s lo) : Sim (create w).2 s ((create w).1 :: lo) := by
  unfold create
  cases hc : w.cache with
  | nil =>
    dsimp only
    have hold : ∀ r f, Holds (newFiber w) r f → Holds w r f := fun _ _ hh => hh
    have hsome : ∀ f x, w.fibs f = some x → f ≠ w.nextF := by
      intro f x hx he
      rw [he, h.bound _ (Nat.le_refl _)] at hx; cases hx
    have hne : ∀ r f, Holds w r f → f ≠ w.nextF := by
      intro r f hh
      obtain ⟨x, hx, _⟩ := h.hold r f hh
      exact hsome f x hx
    have hlo : ∀ f, f ∈ lo → f ≠ w.nextF := by
      intro f hf
      obtain ⟨⟨x, hx, _⟩, _⟩ := h.loose f hf
      exact hsome f x hx
    refine ⟨h.tag, h.curF, h.shape, h.ctx, h.calls, h.nodup, h.absent, ?_, h.cacheNodup, ?_, h.obj, h.frames, ?_, ?_, h.inj,
      List.nodup_cons.mpr ⟨fun hm => hlo _ hm rfl, h.looseNodup⟩, ?_, ?_⟩
    · intro f hf
      have : w.nextF + 1 ≤ f := hf
      show upd w.fibs w.nextF _ f = none
      rw [upd_ne _ _ (by omega)]; exact h.bound f (by omega)
    · intro f hf
      have hf' : f ∈ w.cache := hf
      rw [hc] at hf'; cases hf'
    · intro fr hm x hx
      have hx' : upd w.fibs w.nextF _ fr.fib = some x := hx
      rw [upd_ne _ _ (hne _ _ (h.frames fr hm))] at hx'
      exact h.caller fr hm x hx'
    · intro r f hh
      obtain ⟨x, hx, hcx, hok⟩ := h.hold r f (hold r f hh)
      refine ⟨x, ?_, hcx, hok⟩
      show upd w.fibs w.nextF _ f = some x
      rw [upd_ne _ _ (hne _ _ (hold r f hh))]; exact hx
    · intro f hf
      rcases List.mem_cons.mp hf with he | hf
      · subst he
        refine ⟨⟨_, upd_same _ _ _, Or.inl rfl, Or.inl rfl⟩, fun hm => ?_, fun r hh => hne r _ (hold r _ hh) rfl⟩
        have hm' : w.nextF ∈ w.cache := hm
        rw [hc] at hm'; cases hm'
      · obtain ⟨⟨x, hx, hp⟩, hcx, hf2⟩ := h.loose f hf
        refine ⟨⟨x, ?_, hp⟩, hcx, fun r hh => hf2 r (hold r f hh)⟩
        show upd w.fibs w.nextF _ f = some x
        rw [upd_ne _ _ (hsome f x hx)]; exact hx
    · intro f hf
      have hf' : (upd w.fibs w.nextF (some ⟨.init, none, none, none, none, .fresh⟩) f).isSome = true := hf
      by_cases he : f = w.nextF
      · exact Or.inr (Or.inr (by rw [he]; exact List.mem_cons_self))
      · rw [upd_ne _ _ he] at hf'
        rcases h.noleak f hf' with a | a | a
        · exact Or.inl a
        · exact Or.inr (Or.inl a)
        · exact Or.inr (Or.inr (List.mem_cons_of_mem _ a))
  | cons f rest =>
    dsimp only
    have hn := h.cacheNodup
    rw [hc, List.nodup_cons] at hn
    have hfc : f ∈ w.cache := by rw [hc]; exact List.mem_cons_self
    have hsub : ∀ g, g ∈ rest → g ∈ w.cache := fun g hg => by rw [hc]; exact List.mem_cons_of_mem _ hg
    refine ⟨h.tag, h.curF, h.shape, h.ctx, h.calls, h.nodup, h.absent, h.bound, hn.2, fun g hg => h.cache g (hsub g hg),
      h.obj, h.frames, h.caller, ?_, h.inj, List.nodup_cons.mpr ⟨fun hm => (h.loose f hm).2.1 hfc, h.looseNodup⟩, ?_, ?_⟩
    · intro r g hh
      obtain ⟨x, hx, hcx, hok⟩ := h.hold r g hh
      exact ⟨x, hx, fun hg => hcx (hsub g hg), hok⟩
    · intro g hg
      rcases List.mem_cons.mp hg with he | hg
      · subst he
        refine ⟨h.cache g hfc, hn.1, ?_⟩
        intro r hh
        obtain ⟨x, hx, hcx, _⟩ := h.hold r g hh
        exact hcx hfc
      · obtain ⟨a, b, c⟩ := h.loose g hg
        exact ⟨a, fun hm => b (hsub g hm), c⟩
    · intro g hg
      rcases h.noleak g hg with a | a | a
      · rw [hc] at a
        rcases List.mem_cons.mp a with he | a
        · exact Or.inr (Or.inr (by rw [he]; exact List.mem_cons_self))
        · exact Or.inl a
      · exact Or.inr (Or.inl a)
      · exact Or.inr (Or.inr (List.mem_cons_of_mem _ a))

/-- Deleting a fiber that nobody uses. -/
theorem sim_free {f : Nat} (h : Sim w s (f :: lo)) : Sim (freeFiber f w) s lo := by
  obtain ⟨_, ho, hn⟩ := h.loose f List.mem_cons_self
  have hnd := List.nodup_cons.mp h.looseNodup
  have hne : ∀ r g, Holds w r g → g ≠ f := fun r g hh he => hn r (he ▸ hh)
  refine ⟨h.tag, h.curF, h.shape, h.ctx, h.calls, h.nodup, h.absent, ?_, h.cacheNodup, ?_, h.obj, h.frames, ?_, ?_, h.inj,
    hnd.2, ?_, ?_⟩
  · intro g hg
    show upd w.fibs f none g = none
    by_cases he : g = f
    · rw [he, upd_same]
    · rw [upd_ne _ _ he]; exact h.bound g hg
  · intro g hg
    obtain ⟨x, hx, hp⟩ := h.cache g hg
    refine ⟨x, ?_, hp⟩
    show upd w.fibs f none g = some x
    rw [upd_ne _ _ (fun he : g = f => ho (by rw [← he]; exact hg))]; exact hx
  · intro fr hm x hx
    have hx' : upd w.fibs f none fr.fib = some x := hx
    rw [upd_ne _ _ (hne _ _ (h.frames fr hm))] at hx'
    exact h.caller fr hm x hx'
  · intro r g hh
    obtain ⟨x, hx, hcx, hok⟩ := h.hold r g hh
    refine ⟨x, ?_, hcx, hok⟩
    show upd w.fibs f none g = some x
    rw [upd_ne _ _ (hne r g hh)]; exact hx
  · intro g hg
    obtain ⟨⟨x, hx, hp⟩, b, c⟩ := h.loose g (List.mem_cons_of_mem _ hg)
    refine ⟨⟨x, ?_, hp⟩, b, c⟩
    show upd w.fibs f none g = some x
    rw [upd_ne _ _ (fun he : g = f => hnd.1 (by rw [← he]; exact hg))]; exact hx
  · intro g hg
    have hg' : (upd w.fibs f none g).isSome = true := hg
    by_cases he : g = f
    · rw [he, upd_same] at hg'; cases hg'
    · rw [upd_ne _ _ he] at hg'
      rcases h.noleak g hg' with a | a | a
      · exact Or.inl a
      · exact Or.inr (Or.inl a)
      · rcases List.mem_cons.mp a with a | a
        · exact absurd a he
        · exact Or.inr (Or.inr a)

/-- Giving back a fiber that nobody uses. -/
theorem sim_recycle {f : Nat} (h : Sim w s (f :: lo)) : Sim (recycle f w) s lo := by
  unfold recycle
  split
  · obtain ⟨hx, ho, hn⟩ := h.loose f List.mem_cons_self
    have hnd := List.nodup_cons.mp h.looseNodup
    refine ⟨h.tag, h.curF, h.shape, h.ctx, h.calls, h.nodup, h.absent, h.bound, List.nodup_cons.mpr ⟨ho, h.cacheNodup⟩,
      ?_, h.obj, h.frames, h.caller, ?_, h.inj, hnd.2, ?_, ?_⟩
    · intro g hg
      rcases List.mem_cons.mp hg with he | hg
      · rw [he]; exact hx
      · exact h.cache g hg
    · intro r g hh
      obtain ⟨x, hx, hcx, hok⟩ := h.hold r g hh
      refine ⟨x, hx, fun hg => ?_, hok⟩
      rcases List.mem_cons.mp hg with he | hg
      · exact hn r (he ▸ hh)
      · exact hcx hg
    · intro g hg
      obtain ⟨a, b, c⟩ := h.loose g (List.mem_cons_of_mem _ hg)
      refine ⟨a, fun hm => ?_, c⟩
      rcases List.mem_cons.mp hm with he | hm
      · exact hnd.1 (by rw [← he]; exact hg)
      · exact b hm
    · intro g hg
      rcases h.noleak g hg with a | a | a
      · exact Or.inl (List.mem_cons_of_mem _ a)
      · exact Or.inr (Or.inl a)
      · rcases List.mem_cons.mp a with a | a
        · exact Or.inl (by rw [a]; exact List.mem_cons_self)
        · exact Or.inr (Or.inr a)
  · exact sim_free h

end Verif.Fiber
