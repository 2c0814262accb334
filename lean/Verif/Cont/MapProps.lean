import Verif.Cont.MapLists
/-!
# C38: maps and sets behave as finite maps, and iterators as positions in them
-/

namespace Verif.Cont

open MWorld SWorld

set_option linter.unusedSectionVars false

variable {K V : Type}

/-- Some container has the control block. -/
def Held (w : MWorld K V) (c : Nat) : Prop := ∃ o x, w.objs o = some x ∧ x.ctl = some c

structure MInv (lt : K → K → Bool) (w : MWorld K V) : Prop where
  bound : ∀ o x, w.objs o = some x → o < w.nobjs
  sorted : ∀ o x, w.objs o = some x → FMap.Sorted lt (kv x.elems)
  nodeLt : ∀ o x, w.objs o = some x → ∀ e ∈ x.elems, e.node < w.nextNode
  nodeInj : ∀ o x, w.objs o = some x → NodeInj x.elems
  nodeOne : ∀ o x o' x', w.objs o = some x → w.objs o' = some x' → ∀ e ∈ x.elems, ∀ e' ∈ x'.elems, e.node = e'.node → o = o'
  ctlLt : ∀ o x c, w.objs o = some x → x.ctl = some c → c < w.nextCtl
  ctlOne : ∀ o x o' x' c, w.objs o = some x → w.objs o' = some x' → x.ctl = some c → x'.ctl = some c → o = o'

/-- An iterator of the model is at the position of the one of the specification. -/
def ItRel (w : MWorld K V) (it : MIter) (t : SIter K) : Prop :=
  it.const = t.const ∧ it.ctl < w.nextCtl ∧ match t.pos with
  | .unspecified => True
  | .invalid => ¬ Held w it.ctl
  | .fin => it.data = t.obj ∧ it.pos = .fin t.obj ∧ ∃ x, w.objs t.obj = some x ∧ x.ctl = some it.ctl
  | .at k => it.data = t.obj ∧ ∃ x, w.objs t.obj = some x ∧ x.ctl = some it.ctl ∧ ∃ e ∈ x.elems, it.pos = .node e.node ∧ e.key = k

def ObjRel (o : Nat) : Option (MObj K V) → Option (SObj K V) → Prop
  | none, none => True
  | some x, some y => y.m = kv x.elems ∧ (y.own = true → x.data = o)
  | _, _ => False

def OptRel {α β : Type} (r : α → β → Prop) : Option α → Option β → Prop
  | none, none => True
  | some x, some y => r x y
  | _, _ => False

structure MRel (w : MWorld K V) (s : SWorld K V) : Prop where
  nobjs : s.nobjs = w.nobjs
  nits : s.nits = w.nits
  objs : ∀ o, ObjRel o (w.objs o) (s.objs o)
  its : ∀ i, OptRel (ItRel w) (w.its i) (s.its i)

theorem MRel.none {w : MWorld K V} {s : SWorld K V} (h : MRel w s) {o : Nat} (ho : w.objs o = .none) : s.objs o = .none := by
  have := h.objs o
  rw [ho] at this
  cases hs : s.objs o with
  | none => rfl
  | some y => rw [hs] at this; cases this

theorem MRel.some {w : MWorld K V} {s : SWorld K V} (h : MRel w s) {o : Nat} {x : MObj K V} (ho : w.objs o = .some x) :
    ∃ y, s.objs o = .some y ∧ y.m = kv x.elems ∧ (y.own = true → x.data = o) := by
  have := h.objs o
  rw [ho] at this
  cases hs : s.objs o with
  | none => rw [hs] at this; cases this
  | some y => rw [hs] at this; exact ⟨y, rfl, this.1, this.2⟩

theorem MRel.itNone {w : MWorld K V} {s : SWorld K V} (h : MRel w s) {i : Nat} (ho : w.its i = .none) : s.its i = .none := by
  have := h.its i
  rw [ho] at this
  cases hs : s.its i with
  | none => rfl
  | some y => rw [hs] at this; cases this

theorem MRel.itSome {w : MWorld K V} {s : SWorld K V} (h : MRel w s) {i : Nat} {it : MIter} (ho : w.its i = .some it) :
    ∃ t, s.its i = .some t ∧ ItRel w it t := by
  have := h.its i
  rw [ho] at this
  cases hs : s.its i with
  | none => rw [hs] at this; cases this
  | some y => rw [hs] at this; exact ⟨y, rfl, this⟩

theorem expired_false {lt : K → K → Bool} {w : MWorld K V} (hi : MInv lt w) (c : Nat) : w.expired c = true ↔ ¬ Held w c := by
  unfold expired
  rw [List.all_eq_true]
  constructor
  · rintro h ⟨o, x, h1, h2⟩
    have := h o (List.mem_range.mpr (hi.bound o x h1))
    rw [h1] at this
    simp [h2] at this
  · intro h o _
    cases ho : w.objs o with
    | none => rfl
    | some x =>
      dsimp only
      rw [bne_iff_ne]
      intro hc
      exact h ⟨o, x, ho, hc⟩

theorem owner_spec {lt : K → K → Bool} {w : MWorld K V} (hi : MInv lt w) {o : Nat} {x : MObj K V} (ho : w.objs o = some x) {e : Elem K V}
    (he : e ∈ x.elems) : w.owner e.node = some (o, x) ∧ x.elems.find? (·.node == e.node) = some e := by
  have hany : x.elems.any (·.node == e.node) = true := by
    rw [List.any_eq_true]; exact ⟨e, he, by simp⟩
  constructor
  · unfold owner
    cases hf : (List.range w.nobjs).findSome? (fun o => match w.objs o with
        | some x => if x.elems.any (·.node == e.node) then some (o, x) else none
        | none => none) with
    | none =>
      rw [List.findSome?_eq_none_iff] at hf
      have := hf o (List.mem_range.mpr (hi.bound o x ho))
      rw [ho] at this
      dsimp only at this
      rw [if_pos hany] at this
      cases this
    | some p =>
      obtain ⟨o', _, h⟩ := List.exists_of_findSome?_eq_some hf
      cases ho' : w.objs o' with
      | none => rw [ho'] at h; cases h
      | some x' =>
        rw [ho'] at h
        dsimp only at h
        split at h
        · next ha =>
          obtain ⟨e', he', hn⟩ := List.any_eq_true.mp ha
          have : o' = o := hi.nodeOne _ _ _ _ ho' ho e' he' e he (by simpa using hn)
          subst this
          rw [ho] at ho'
          cases ho'
          exact h.symm
        · cases h
  · cases hf : x.elems.find? (·.node == e.node) with
    | none =>
      rw [List.find?_eq_none] at hf
      have := hf e he
      simp at this
    | some e' =>
      have h1 := List.mem_of_find?_eq_some hf
      have h2 := List.find?_some hf
      rw [hi.nodeInj o x ho e' h1 e he (by simpa using h2)]

/-! ## What happens to iterators -/

inductive Fate where
  | keep | invalidate | forget

def Fate.apply : Fate → SPos K → SPos K
  | .keep, p => p
  | .invalidate, p => p.invalidated
  | .forget, p => p.forgotten

/-- What must be the case for that fate of the iterators of a container. -/
def Fate.Ok (w w' : MWorld K V) (o : Nat) : Fate → Prop
  | .keep => ∀ x c, w.objs o = some x → x.ctl = some c → ∃ x', w'.objs o = some x' ∧ x'.ctl = some c ∧ ∀ e ∈ x.elems, ∃ e' ∈ x'.elems, e'.node = e.node ∧ e'.key = e.key
  | .invalidate => ∀ x c, w.objs o = some x → x.ctl = some c → ¬ Held w' c
  | .forget => True

theorem itRel_fate {w w' : MWorld K V} {it : MIter} {t : SIter K} (f : Fate) (h : ItRel w it t) (hn : w.nextCtl ≤ w'.nextCtl)
    (hh : ∀ c, c < w.nextCtl → Held w' c → Held w c) (hf : f.Ok w w' t.obj) : ItRel w' it { t with pos := f.apply t.pos } := by
  obtain ⟨h1, h2, h3⟩ := h
  refine ⟨h1, Nat.lt_of_lt_of_le h2 hn, ?_⟩
  have inv : ¬ Held w it.ctl → ¬ Held w' it.ctl := fun a b => a (hh _ h2 b)
  cases hp : t.pos with
  | unspecified => cases f <;> exact trivial
  | invalid =>
    rw [hp] at h3
    cases f <;> exact inv h3
  | fin =>
    rw [hp] at h3
    obtain ⟨g1, g2, x, g3, g4⟩ := h3
    cases f with
    | keep =>
      obtain ⟨x', k1, k2, _⟩ := hf x _ g3 g4
      exact ⟨g1, g2, x', k1, k2⟩
    | invalidate => exact hf x _ g3 g4
    | forget => exact trivial
  | «at» k =>
    rw [hp] at h3
    obtain ⟨g1, x, g3, g4, e, g5, g6, g7⟩ := h3
    cases f with
    | keep =>
      obtain ⟨x', k1, k2, k3⟩ := hf x _ g3 g4
      obtain ⟨e', k4, k5, k6⟩ := k3 e g5
      exact ⟨g1, x', k1, k2, e', k4, by rw [g6, k5], k6.trans g7⟩
    | invalidate => exact hf x _ g3 g4
    | forget => exact trivial

/-- Changes to the containers. -/
theorem rel_change {w w' : MWorld K V} {s s' : SWorld K V} (h : MRel w s) (f : Nat → Fate)
    (hnw : s'.nobjs = w'.nobjs) (hni : s'.nits = s.nits) (hni' : w'.nits = w.nits) (hits : w'.its = w.its)
    (hsits : ∀ i, s'.its i = (s.its i).map fun t => { t with pos := (f t.obj).apply t.pos })
    (hobj : ∀ o, ObjRel o (w'.objs o) (s'.objs o))
    (hn : w.nextCtl ≤ w'.nextCtl) (hh : ∀ c, c < w.nextCtl → Held w' c → Held w c)
    (hf : ∀ o, (f o).Ok w w' o) : MRel w' s' := by
  refine ⟨hnw, by rw [hni, hni', h.nits], hobj, ?_⟩
  intro i
  rw [hits, hsits]
  have := h.its i
  cases hi : w.its i with
  | none => rw [h.itNone hi]; exact trivial
  | some it =>
    obtain ⟨t, ht, hr⟩ := h.itSome hi
    rw [ht]
    exact itRel_fate (f t.obj) hr hn hh (hf t.obj)

theorem keep_its (s : SWorld K V) (i : Nat) : s.its i = (s.its i).map fun t => { t with pos := Fate.keep.apply t.pos } := by
  cases s.its i <;> rfl

theorem fate_its (s : SWorld K V) (o i : Nat) (f : Fate) :
    ((s.its i).map fun t => if t.obj = o then { t with pos := f.apply t.pos } else t) =
    (s.its i).map fun t => { t with pos := ((fun p => if p = o then f else Fate.keep) t.obj).apply t.pos } := by
  cases s.its i with
  | none => rfl
  | some t =>
    dsimp only [Option.map_some]
    split <;> rfl

section
variable [DecidableEq K] [DecidableEq V] {lt : K → K → Bool} (ht : StrictTotal lt)

/-- A container gets new content, in new nodes or ones it had. -/
theorem inv_setObj {w : MWorld K V} (hi : MInv lt w) {o : Nat} {x x' : MObj K V} (ho : w.objs o = some x) {nn : Nat} (hnn : w.nextNode ≤ nn)
    (hs : FMap.Sorted lt (kv x'.elems)) (hin : NodeInj x'.elems)
    (hnd : ∀ e ∈ x'.elems, (∃ e0 ∈ x.elems, e0.node = e.node) ∨ (w.nextNode ≤ e.node ∧ e.node < nn))
    (hc : x'.ctl = x.ctl ∨ x'.ctl = none) : MInv lt { w.setObj o (some x') with nextNode := nn } := by
  have get : ∀ p y, (if p = o then some x' else w.objs p) = some y → (p = o ∧ y = x') ∨ (p ≠ o ∧ w.objs p = some y) := by
    intro p y h
    split at h
    · next he => cases h; exact Or.inl ⟨he, rfl⟩
    · next he => exact Or.inr ⟨he, h⟩
  refine ⟨?_, ?_, ?_, ?_, ?_, ?_, ?_⟩
  · intro p y h
    rcases get p y h with ⟨rfl, rfl⟩ | ⟨_, h⟩
    · exact hi.bound p x ho
    · exact hi.bound p y h
  · intro p y h
    rcases get p y h with ⟨rfl, rfl⟩ | ⟨_, h⟩
    · exact hs
    · exact hi.sorted p y h
  · intro p y h e he
    show e.node < nn
    rcases get p y h with ⟨rfl, rfl⟩ | ⟨_, h⟩
    · rcases hnd e he with ⟨e0, h0, h1⟩ | h0
      · have := hi.nodeLt p x ho e0 h0; omega
      · omega
    · have := hi.nodeLt p y h e he; omega
  · intro p y h
    rcases get p y h with ⟨rfl, rfl⟩ | ⟨_, h⟩
    · exact hin
    · exact hi.nodeInj p y h
  · intro p y q z h g e he e' he' hn
    rcases get p y h with ⟨rfl, rfl⟩ | ⟨hp, h'⟩ <;> rcases get q z g with ⟨rfl, rfl⟩ | ⟨hq, g'⟩
    · rfl
    · rcases hnd e he with ⟨e0, h0, h1⟩ | h0
      · exact hi.nodeOne _ _ _ _ ho g' e0 h0 e' he' (h1.trans hn)
      · have := hi.nodeLt q z g' e' he'; omega
    · rcases hnd e' he' with ⟨e0, h0, h1⟩ | h0
      · exact hi.nodeOne _ _ _ _ h' ho e he e0 h0 (hn.trans h1.symm)
      · have := hi.nodeLt p y h' e he; omega
    · exact hi.nodeOne _ _ _ _ h' g' e he e' he' hn
  · intro p y c h hcc
    rcases get p y h with ⟨rfl, rfl⟩ | ⟨_, h⟩
    · rcases hc with hc | hc
      · exact hi.ctlLt p x c ho (hc ▸ hcc)
      · rw [hc] at hcc; cases hcc
    · exact hi.ctlLt p y c h hcc
  · intro p y q z c h g hy hz
    rcases get p y h with ⟨rfl, rfl⟩ | ⟨hp, h'⟩ <;> rcases get q z g with ⟨rfl, rfl⟩ | ⟨hq, g'⟩
    · rfl
    · rcases hc with hc | hc
      · exact hi.ctlOne _ _ _ _ c ho g' (hc ▸ hy) hz
      · rw [hc] at hy; cases hy
    · rcases hc with hc | hc
      · exact hi.ctlOne _ _ _ _ c h' ho hy (hc ▸ hz)
      · rw [hc] at hz; cases hz
    · exact hi.ctlOne _ _ _ _ c h' g' hy hz

theorem inv_destroy {w : MWorld K V} (hi : MInv lt w) (o : Nat) : MInv lt (w.setObj o none) := by
  have get : ∀ p y, (if p = o then none else w.objs p) = some y → w.objs p = some y := by
    intro p y h
    split at h
    · cases h
    · exact h
  exact ⟨fun p y h => hi.bound p y (get p y h), fun p y h => hi.sorted p y (get p y h), fun p y h => hi.nodeLt p y (get p y h),
    fun p y h => hi.nodeInj p y (get p y h), fun p y q z h g => hi.nodeOne p y q z (get p y h) (get q z g),
    fun p y c h => hi.ctlLt p y c (get p y h), fun p y q z c h g => hi.ctlOne p y q z c (get p y h) (get q z g)⟩

/-- A new container with new nodes. -/
theorem inv_add {w : MWorld K V} (hi : MInv lt w) {x : MObj K V} {nn : Nat} (hnn : w.nextNode ≤ nn) (hs : FMap.Sorted lt (kv x.elems))
    (hin : NodeInj x.elems) (hnd : ∀ e ∈ x.elems, w.nextNode ≤ e.node ∧ e.node < nn) (hc : x.ctl = none) :
    MInv lt ({ w with nextNode := nn }.add x).1 := by
  have get : ∀ p y, (if p = w.nobjs then some x else w.objs p) = some y → (p = w.nobjs ∧ y = x) ∨ (p < w.nobjs ∧ w.objs p = some y) := by
    intro p y h
    split at h
    · next he => cases h; exact Or.inl ⟨he, rfl⟩
    · next he => exact Or.inr ⟨hi.bound p y h, h⟩
  refine ⟨?_, ?_, ?_, ?_, ?_, ?_, ?_⟩
  · intro p y h
    show p < w.nobjs + 1
    rcases get p y h with ⟨h, _⟩ | ⟨h, _⟩ <;> omega
  · intro p y h
    rcases get p y h with ⟨rfl, rfl⟩ | ⟨_, h⟩
    · exact hs
    · exact hi.sorted p y h
  · intro p y h e he
    show e.node < nn
    rcases get p y h with ⟨rfl, rfl⟩ | ⟨_, h⟩
    · exact (hnd e he).2
    · have := hi.nodeLt p y h e he; omega
  · intro p y h
    rcases get p y h with ⟨rfl, rfl⟩ | ⟨_, h⟩
    · exact hin
    · exact hi.nodeInj p y h
  · intro p y q z h g e he e' he' hn
    rcases get p y h with ⟨rfl, rfl⟩ | ⟨hp, h'⟩ <;> rcases get q z g with ⟨rfl, rfl⟩ | ⟨hq, g'⟩
    · rfl
    · have := hi.nodeLt q z g' e' he'; have := hnd e he; omega
    · have := hi.nodeLt p y h' e he; have := hnd e' he'; omega
    · exact hi.nodeOne _ _ _ _ h' g' e he e' he' hn
  · intro p y c h hcc
    rcases get p y h with ⟨rfl, rfl⟩ | ⟨_, h⟩
    · rw [hc] at hcc; cases hcc
    · exact hi.ctlLt p y c h hcc
  · intro p y q z c h g hy hz
    rcases get p y h with ⟨rfl, rfl⟩ | ⟨hp, h'⟩ <;> rcases get q z g with ⟨rfl, rfl⟩ | ⟨hq, g'⟩
    · rfl
    · rw [hc] at hy; cases hy
    · rw [hc] at hz; cases hz
    · exact hi.ctlOne _ _ _ _ c h' g' hy hz

/-- The content of one container changes. -/
theorem rel_setObj {w : MWorld K V} {s : SWorld K V} (hi : MInv lt w) (h : MRel w s) {o nn : Nat} {x x' : MObj K V} {y : SObj K V} (m : FMap K V)
    (ho : w.objs o = some x) (hy : s.objs o = some y) (hm : m = kv x'.elems) (hd : x'.data = x.data) (f : Fate)
    (hf : (f = .keep ∧ x'.ctl = x.ctl ∧ ∀ e ∈ x.elems, ∃ e' ∈ x'.elems, e'.node = e.node ∧ e'.key = e.key) ∨
      (f = .invalidate ∧ x'.ctl = none)) :
    MRel { w.setObj o (some x') with nextNode := nn }
      { (s.setObj o (some { y with m := m })) with its := fun i => (s.its i).map fun t => if t.obj = o then { t with pos := f.apply t.pos } else t } := by
  have hyr := h.objs o
  rw [ho, hy] at hyr
  refine rel_change h (fun p => if p = o then f else .keep) h.nobjs rfl rfl rfl (fun i => fate_its s o i f) ?_ ?_ ?_ ?_
  · intro p
    show ObjRel p (if p = o then some x' else w.objs p) (if p = o then some { y with m := m } else s.objs p)
    split
    · next he => subst he; exact ⟨hm, fun g => hd.trans (hyr.2 g)⟩
    · exact h.objs p
  · exact Nat.le_refl _
  · rintro c hc ⟨p, z, h1, h2⟩
    change (if p = o then some x' else w.objs p) = some z at h1
    split at h1
    · cases h1
      rcases hf with ⟨_, hf, _⟩ | ⟨_, hf⟩
      · exact ⟨o, x, ho, hf ▸ h2⟩
      · rw [hf] at h2; cases h2
    · exact ⟨p, z, h1, h2⟩
  · intro p
    dsimp only
    split
    · next he =>
      subst he
      rcases hf with ⟨rfl, hf, hk⟩ | ⟨rfl, hf⟩
      · intro z c hz hzc
        rw [ho] at hz
        cases hz
        refine ⟨x', ?_, hf.trans hzc, hk⟩
        show (if p = p then some x' else w.objs p) = _
        rw [if_pos rfl]
      · rintro z c hz hzc ⟨q, u, h1, h2⟩
        rw [ho] at hz
        cases hz
        change (if q = p then some x' else w.objs q) = some u at h1
        split at h1
        · cases h1; rw [hf] at h2; cases h2
        · next hq => exact hq (hi.ctlOne _ _ _ _ c h1 ho h2 hzc)
    · next he =>
      intro z c hz hzc
      refine ⟨z, ?_, hzc, fun e he => ⟨e, he, rfl, rfl⟩⟩
      show (if p = o then some x' else w.objs p) = _
      rw [if_neg he]; exact hz

/-- A new container does not disturb. -/
theorem rel_add {w : MWorld K V} {s : SWorld K V} (hi : MInv lt w) (h : MRel w s) {nn : Nat} {x : MObj K V} {y : SObj K V} (hm : y.m = kv x.elems)
    (hd : y.own = true → x.data = w.nobjs) (hc : x.ctl = none) :
    MRel ({ w with nextNode := nn }.add x).1 (s.add y).1 ∧ ({ w with nextNode := nn }.add x).2 = (s.add y).2 := by
  constructor
  · refine rel_change h (fun _ => .keep) (by show s.nobjs + 1 = w.nobjs + 1; rw [h.nobjs]) rfl rfl rfl (fun i => keep_its s i) ?_ ?_ ?_ ?_
    · intro p
      show ObjRel p (if p = w.nobjs then some x else w.objs p) (if p = s.nobjs then some y else s.objs p)
      rw [h.nobjs]
      split
      · next he => exact ⟨hm, fun g => (hd g).trans he.symm⟩
      · exact h.objs p
    · exact Nat.le_refl _
    · rintro c _ ⟨p, z, h1, h2⟩
      change (if p = w.nobjs then some x else w.objs p) = some z at h1
      split at h1
      · cases h1; rw [hc] at h2; cases h2
      · exact ⟨p, z, h1, h2⟩
    · intro p z c hz hzc
      refine ⟨z, ?_, hzc, fun e he => ⟨e, he, rfl, rfl⟩⟩
      show (if p = w.nobjs then some x else w.objs p) = _
      have := hi.bound p z hz
      rw [if_neg (by omega)]; exact hz
  · show Res.ok (MOut.obj w.nobjs) = Res.ok (MOut.obj s.nobjs)
    rw [h.nobjs]

/-- A new iterator. -/
theorem ref_step {w : MWorld K V} {s : SWorld K V} (hi : MInv lt w) (h : MRel w s) {o : Nat} {x : MObj K V} {y : SObj K V} (ho : w.objs o = some x)
    (hy : s.objs o = some y) (hd : y.own = true → x.data = o) (pos : MPos) (spos : SPos K) (c : Bool)
    (hp : (spos = .fin ∧ pos = .fin o) ∨ ∃ e ∈ x.elems, spos = .at e.key ∧ pos = .node e.node) :
    MInv lt (w.ref o x pos c).1 ∧ MRel (w.ref o x pos c).1 (s.ref o y spos c).1 ∧ (w.ref o x pos c).2 = (s.ref o y spos c).2 := by
  have hinv : ∀ cc, (x.ctl = some cc ∨ (x.ctl = none ∧ cc = w.nextCtl)) → ∀ nc, w.nextCtl ≤ nc → cc < nc →
      ∀ its nits, MInv lt { (w.setObj o (some { x with ctl := some cc })) with its := its, nits := nits, nextCtl := nc } ∧
      (∀ q, q < w.nextCtl → Held { (w.setObj o (some { x with ctl := some cc })) with its := its, nits := nits, nextCtl := nc } q → Held w q) := by
    intro cc hcc nc hnc hlt its nits
    have get : ∀ p z, (if p = o then some { x with ctl := some cc } else w.objs p) = some z →
        (p = o ∧ z = { x with ctl := some cc }) ∨ (p ≠ o ∧ w.objs p = some z) := by
      intro p z h
      split at h
      · next he => cases h; exact Or.inl ⟨he, rfl⟩
      · next he => exact Or.inr ⟨he, h⟩
    refine ⟨⟨?_, ?_, ?_, ?_, ?_, ?_, ?_⟩, ?_⟩
    · intro p z h
      rcases get p z h with ⟨rfl, rfl⟩ | ⟨_, h⟩
      · exact hi.bound p x ho
      · exact hi.bound p z h
    · intro p z h
      rcases get p z h with ⟨rfl, rfl⟩ | ⟨_, h⟩
      · exact hi.sorted p x ho
      · exact hi.sorted p z h
    · intro p z h
      rcases get p z h with ⟨rfl, rfl⟩ | ⟨_, h⟩
      · exact hi.nodeLt p x ho
      · exact hi.nodeLt p z h
    · intro p z h
      rcases get p z h with ⟨rfl, rfl⟩ | ⟨_, h⟩
      · exact hi.nodeInj p x ho
      · exact hi.nodeInj p z h
    · intro p z q u h g e he e' he' hn
      rcases get p z h with ⟨rfl, rfl⟩ | ⟨_, h'⟩ <;> rcases get q u g with ⟨rfl, rfl⟩ | ⟨_, g'⟩
      · rfl
      · exact hi.nodeOne _ _ _ _ ho g' e he e' he' hn
      · exact hi.nodeOne _ _ _ _ h' ho e he e' he' hn
      · exact hi.nodeOne _ _ _ _ h' g' e he e' he' hn
    · intro p z k h hk
      show k < nc
      rcases get p z h with ⟨rfl, rfl⟩ | ⟨_, h⟩
      · cases hk; exact hlt
      · have := hi.ctlLt p z k h hk; omega
    · intro p z q u k h g hz hu
      have aux : ∀ q u, w.objs q = some u → u.ctl = some cc → q = o := by
        intro q' u' g0 hu0
        rcases hcc with hx | ⟨hx, he⟩
        · exact hi.ctlOne _ _ _ _ cc g0 ho hu0 hx
        · have := hi.ctlLt q' u' _ g0 hu0; omega
      rcases get p z h with ⟨rfl, rfl⟩ | ⟨_, h'⟩ <;> rcases get q u g with ⟨rfl, rfl⟩ | ⟨_, g'⟩
      · rfl
      · cases hz; exact (aux q u g' hu).symm
      · cases hu; exact aux p z h' hz
      · exact hi.ctlOne _ _ _ _ k h' g' hz hu
    · rintro q hq ⟨p, z, h1, h2⟩
      rcases get p z h1 with ⟨rfl, rfl⟩ | ⟨_, h1⟩
      · cases h2
        rcases hcc with hx | ⟨hx, rfl⟩
        · exact ⟨p, x, ho, hx⟩
        · omega
      · exact ⟨p, z, h1, h2⟩
  have hrel : ∀ cc, (x.ctl = some cc ∨ (x.ctl = none ∧ cc = w.nextCtl)) → ∀ nc, w.nextCtl ≤ nc → cc < nc →
      MRel { (w.setObj o (some { x with ctl := some cc })) with
        its := fun i => if i = w.nits then some ⟨cc, x.data, pos, c⟩ else w.its i, nits := w.nits + 1, nextCtl := nc } (s.ref o y spos c).1 := by
    intro cc hcc nc hnc hlt
    obtain ⟨g1, g2⟩ := hinv cc hcc nc hnc hlt (fun i => if i = w.nits then some ⟨cc, x.data, pos, c⟩ else w.its i) (w.nits + 1)
    have hobjo : (if o = o then some { x with ctl := some cc } else w.objs o) = some { x with ctl := some cc } := if_pos rfl
    refine ⟨h.nobjs, ?_, ?_, ?_⟩
    · show s.nits + 1 = w.nits + 1; rw [h.nits]
    · intro p
      show ObjRel p (if p = o then some { x with ctl := some cc } else w.objs p) (s.objs p)
      split
      · next he => subst he; have := h.objs p; rw [ho, hy] at this; rw [hy]; exact this
      · exact h.objs p
    · intro i
      show OptRel _ (if i = w.nits then some ⟨cc, x.data, pos, c⟩ else w.its i)
        (if i = s.nits then some ⟨o, if y.own then spos else .unspecified, c⟩ else s.its i)
      rw [h.nits]
      split
      · refine ⟨rfl, hlt, ?_⟩
        by_cases hown : y.own = true
        · rw [hown]
          rcases hp with ⟨rfl, rfl⟩ | ⟨e, he, rfl, rfl⟩
          · exact ⟨hd hown, rfl, _, hobjo, rfl⟩
          · exact ⟨hd hown, _, hobjo, rfl, e, he, rfl, rfl⟩
        · rw [Bool.not_eq_true] at hown
          rw [hown]
          exact trivial
      · cases hit : w.its i with
        | none => rw [h.itNone hit]; exact trivial
        | some it =>
          obtain ⟨t, h1, h2⟩ := h.itSome hit
          rw [h1]
          refine itRel_fate .keep h2 hnc g2 ?_
          intro z k hz hzk
          by_cases he : t.obj = o
          · rw [he] at hz ⊢
            rw [ho] at hz
            cases hz
            refine ⟨_, hobjo, ?_, fun e he => ⟨e, he, rfl, rfl⟩⟩
            rcases hcc with hx | ⟨hx, rfl⟩
            · rw [hx] at hzk; exact hzk
            · rw [hx] at hzk; cases hzk
          · refine ⟨z, ?_, hzk, fun e he => ⟨e, he, rfl, rfl⟩⟩
            show (if t.obj = o then _ else w.objs t.obj) = _
            rw [if_neg he]; exact hz
  have hres : (w.ref o x pos c).2 = (s.ref o y spos c).2 := by
    show Res.ok (MOut.iter w.nits) = Res.ok (MOut.iter s.nits)
    rw [h.nits]
  cases hx : x.ctl with
  | some cc =>
    have e : (w.ref o x pos c).1 = { (w.setObj o (some { x with ctl := some cc })) with
        its := fun i => if i = w.nits then some ⟨cc, x.data, pos, c⟩ else w.its i, nits := w.nits + 1, nextCtl := w.nextCtl } := by
      simp only [MWorld.ref, hx]
    have hlt := hi.ctlLt o x cc ho hx
    refine ⟨?_, ?_, hres⟩
    · rw [e]; exact (hinv cc (Or.inl hx) w.nextCtl (Nat.le_refl _) hlt _ _).1
    · rw [e]; exact hrel cc (Or.inl hx) w.nextCtl (Nat.le_refl _) hlt
  | none =>
    have e : (w.ref o x pos c).1 = { (w.setObj o (some { x with ctl := some w.nextCtl })) with
        its := fun i => if i = w.nits then some ⟨w.nextCtl, x.data, pos, c⟩ else w.its i, nits := w.nits + 1, nextCtl := w.nextCtl + 1 } := by
      simp only [MWorld.ref, hx]
    refine ⟨?_, ?_, hres⟩
    · rw [e]; exact (hinv w.nextCtl (Or.inr ⟨hx, rfl⟩) (w.nextCtl + 1) (Nat.le_succ _) (Nat.lt_succ_self _) _ _).1
    · rw [e]; exact hrel w.nextCtl (Or.inr ⟨hx, rfl⟩) (w.nextCtl + 1) (Nat.le_succ _) (Nat.lt_succ_self _)

/-- Contents and control blocks go to other containers. -/
theorem inv_perm {w w' : MWorld K V} (hi : MInv lt w) (ge gc : Nat → Nat) (hnn : w'.nextNode = w.nextNode) (hnc : w'.nextCtl = w.nextCtl)
    (hb : ∀ p z, w'.objs p = some z → p < w'.nobjs)
    (he : ∀ p z, w'.objs p = some z → z.elems ≠ [] → ∃ y, w.objs (ge p) = some y ∧ y.elems = z.elems)
    (hc : ∀ p z, w'.objs p = some z → z.ctl ≠ none → ∃ y, w.objs (gc p) = some y ∧ y.ctl = z.ctl)
    (hei : ∀ p z q u, w'.objs p = some z → w'.objs q = some u → z.elems ≠ [] → u.elems ≠ [] → ge p = ge q → p = q)
    (hci : ∀ p z q u, w'.objs p = some z → w'.objs q = some u → z.ctl ≠ none → u.ctl ≠ none → gc p = gc q → p = q) : MInv lt w' := by
  have ne : ∀ {z : MObj K V} {e : Elem K V}, e ∈ z.elems → z.elems ≠ [] := by
    intro z e h g; rw [g] at h; cases h
  have nc : ∀ {z : MObj K V} {c : Nat}, z.ctl = some c → z.ctl ≠ none := by
    intro z c h g; rw [g] at h; cases h
  refine ⟨hb, ?_, ?_, ?_, ?_, ?_, ?_⟩
  · intro p z h
    by_cases hz : z.elems = []
    · rw [hz]; exact List.Pairwise.nil
    · obtain ⟨y, h1, h2⟩ := he p z h hz
      rw [← h2]; exact hi.sorted _ y h1
  · intro p z h e hm
    obtain ⟨y, h1, h2⟩ := he p z h (ne hm)
    rw [hnn]
    exact hi.nodeLt _ y h1 e (h2 ▸ hm)
  · intro p z h
    by_cases hz : z.elems = []
    · rw [hz]; intro e hm; cases hm
    · obtain ⟨y, h1, h2⟩ := he p z h hz
      rw [← h2]; exact hi.nodeInj _ y h1
  · intro p z q u h g e hm e' hm' hn
    obtain ⟨y, h1, h2⟩ := he p z h (ne hm)
    obtain ⟨y', h1', h2'⟩ := he q u g (ne hm')
    exact hei p z q u h g (ne hm) (ne hm') (hi.nodeOne _ y _ y' h1 h1' e (h2 ▸ hm) e' (h2' ▸ hm') hn)
  · intro p z c h hz
    obtain ⟨y, h1, h2⟩ := hc p z h (nc hz)
    rw [hnc]
    exact hi.ctlLt _ y c h1 (h2.trans hz)
  · intro p z q u c h g hz hu
    obtain ⟨y, h1, h2⟩ := hc p z h (nc hz)
    obtain ⟨y', h1', h2'⟩ := hc q u g (nc hu)
    exact hci p z q u h g (nc hz) (nc hu) (hi.ctlOne _ y _ y' c h1 h1' (h2.trans hz) (h2'.trans hu))

theorem move_step {w : MWorld K V} {s : SWorld K V} (hi : MInv lt w) (h : MRel w s) {o : Nat} {x : MObj K V} {y : SObj K V} (ho : w.objs o = some x)
    (hy : s.objs o = some y) (hm : y.m = kv x.elems) (hd : y.own = true → x.data = o) :
    MInv lt ((w.setObj o (some { x with elems := [], ctl := none })).add x).1 ∧
    MRel ((w.setObj o (some { x with elems := [], ctl := none })).add x).1
      (((s.setObj o (some { y with m := [] })).forget o).add ⟨y.m, false⟩).1 := by
  have hlt := hi.bound o x ho
  have get : ∀ p z, ((w.setObj o (some { x with elems := [], ctl := none })).add x).1.objs p = some z →
      (p = w.nobjs ∧ z = x) ∨ (p = o ∧ z = { x with elems := [], ctl := none }) ∨ (p ≠ o ∧ p < w.nobjs ∧ w.objs p = some z) := by
    intro p z hp
    change (if p = w.nobjs then some x else if p = o then some { x with elems := [], ctl := none } else w.objs p) = some z at hp
    split at hp
    · next e => cases hp; exact Or.inl ⟨e, rfl⟩
    · split at hp
      · next e => cases hp; exact Or.inr (Or.inl ⟨e, rfl⟩)
      · next e => exact Or.inr (Or.inr ⟨e, hi.bound p z hp, hp⟩)
  let g : Nat → Nat := fun p => if p = w.nobjs then o else p
  have gn : g w.nobjs = o := if_pos rfl
  have gl : ∀ p, p < w.nobjs → g p = p := fun p hp => if_neg (by omega)
  constructor
  · refine inv_perm hi g g rfl rfl ?_ ?_ ?_ ?_ ?_
    · intro p z hp
      show p < w.nobjs + 1
      rcases get p z hp with ⟨e, _⟩ | ⟨e, _⟩ | ⟨_, e, _⟩ <;> omega
    · intro p z hp hz
      rcases get p z hp with ⟨e, e'⟩ | ⟨e, e'⟩ | ⟨e1, e2, e3⟩
      · rw [e, gn, e']; exact ⟨x, ho, rfl⟩
      · rw [e'] at hz; exact absurd rfl hz
      · rw [gl p e2]; exact ⟨z, e3, rfl⟩
    · intro p z hp hz
      rcases get p z hp with ⟨e, e'⟩ | ⟨e, e'⟩ | ⟨e1, e2, e3⟩
      · rw [e, gn, e']; exact ⟨x, ho, rfl⟩
      · rw [e'] at hz; exact absurd rfl hz
      · rw [gl p e2]; exact ⟨z, e3, rfl⟩
    · intro p z q u hp hq hz hu hg
      rcases get p z hp with ⟨e, e'⟩ | ⟨e, e'⟩ | ⟨e1, e2, e3⟩
      · rcases get q u hq with ⟨f, f'⟩ | ⟨f, f'⟩ | ⟨f1, f2, f3⟩
        · rw [e, f]
        · rw [f'] at hu; exact absurd rfl hu
        · rw [e, gn, gl q f2] at hg; exact absurd hg.symm f1
      · rw [e'] at hz; exact absurd rfl hz
      · rcases get q u hq with ⟨f, f'⟩ | ⟨f, f'⟩ | ⟨f1, f2, f3⟩
        · rw [f, gn, gl p e2] at hg; exact absurd hg e1
        · rw [f'] at hu; exact absurd rfl hu
        · rw [gl p e2, gl q f2] at hg; exact hg
    · intro p z q u hp hq hz hu hg
      rcases get p z hp with ⟨e, e'⟩ | ⟨e, e'⟩ | ⟨e1, e2, e3⟩
      · rcases get q u hq with ⟨f, f'⟩ | ⟨f, f'⟩ | ⟨f1, f2, f3⟩
        · rw [e, f]
        · rw [f'] at hu; exact absurd rfl hu
        · rw [e, gn, gl q f2] at hg; exact absurd hg.symm f1
      · rw [e'] at hz; exact absurd rfl hz
      · rcases get q u hq with ⟨f, f'⟩ | ⟨f, f'⟩ | ⟨f1, f2, f3⟩
        · rw [f, gn, gl p e2] at hg; exact absurd hg e1
        · rw [f'] at hu; exact absurd rfl hu
        · rw [gl p e2, gl q f2] at hg; exact hg
  · refine rel_change h (fun p => if p = o then .forget else .keep) ?_ rfl rfl rfl (fun i => fate_its s o i .forget) ?_ (Nat.le_refl _) ?_ ?_
    · show s.nobjs + 1 = w.nobjs + 1; rw [h.nobjs]
    · intro p
      show ObjRel p (if p = w.nobjs then some x else if p = o then some { x with elems := [], ctl := none } else w.objs p)
        (if p = s.nobjs then some ⟨y.m, false⟩ else if p = o then some { y with m := [] } else s.objs p)
      rw [h.nobjs]
      split
      · exact ⟨hm, fun e => by cases e⟩
      · split
        · next e => subst e; exact ⟨rfl, hd⟩
        · exact h.objs p
    · rintro c _ ⟨p, z, h1, h2⟩
      rcases get p z h1 with ⟨e, e'⟩ | ⟨e, e'⟩ | ⟨e1, e2, e3⟩
      · subst e'; exact ⟨o, z, ho, h2⟩
      · rw [e'] at h2; cases h2
      · exact ⟨p, z, e3, h2⟩
    · intro p
      split
      · exact trivial
      · next e =>
        intro z c hz hzc
        refine ⟨z, ?_, hzc, fun e he => ⟨e, he, rfl, rfl⟩⟩
        show (if p = w.nobjs then some x else if p = o then some { x with elems := [], ctl := none } else w.objs p) = some z
        have := hi.bound p z hz
        rw [if_neg (by omega), if_neg e]; exact hz

theorem assignMove_step {w : MWorld K V} {s : SWorld K V} (hi : MInv lt w) (h : MRel w s) {d r : Nat} {x z : MObj K V} {y u : SObj K V}
    (hne : d ≠ r) (hd : w.objs d = some x) (hr : w.objs r = some z) (hsd : s.objs d = some y) (hsr : s.objs r = some u) :
    MInv lt ((w.setObj d (some { x with elems := z.elems, ctl := none })).setObj r (some { z with elems := [] })) ∧
    MRel ((w.setObj d (some { x with elems := z.elems, ctl := none })).setObj r (some { z with elems := [] }))
      ((((s.setObj d (some { y with m := u.m })).setObj r (some { u with m := [] })).invalidate d).forget r) := by
  have hrd := h.objs d
  rw [hd, hsd] at hrd
  have hrr := h.objs r
  rw [hr, hsr] at hrr
  have get : ∀ p v, ((w.setObj d (some { x with elems := z.elems, ctl := none })).setObj r (some { z with elems := [] })).objs p = some v →
      (p = r ∧ v = { z with elems := [] }) ∨ (p = d ∧ v = { x with elems := z.elems, ctl := none }) ∨ (p ≠ r ∧ p ≠ d ∧ w.objs p = some v) := by
    intro p v hp
    change (if p = r then some { z with elems := [] } else if p = d then some { x with elems := z.elems, ctl := none } else w.objs p) = some v at hp
    split at hp
    · next e => cases hp; exact Or.inl ⟨e, rfl⟩
    · split at hp
      · next e => cases hp; exact Or.inr (Or.inl ⟨e, rfl⟩)
      · next e e' => exact Or.inr (Or.inr ⟨e, e', hp⟩)
  let g : Nat → Nat := fun p => if p = d then r else p
  have gd : g d = r := if_pos rfl
  have gl : ∀ p, p ≠ d → g p = p := fun p hp => if_neg hp
  constructor
  · refine inv_perm hi g id rfl rfl ?_ ?_ ?_ ?_ ?_
    · intro p v hp
      show p < w.nobjs
      rcases get p v hp with ⟨e, _⟩ | ⟨e, _⟩ | ⟨_, _, e⟩
      · rw [e]; exact hi.bound _ _ hr
      · rw [e]; exact hi.bound _ _ hd
      · exact hi.bound _ _ e
    · intro p v hp hz
      rcases get p v hp with ⟨e, e'⟩ | ⟨e, e'⟩ | ⟨e1, e2, e3⟩
      · rw [e'] at hz; exact absurd rfl hz
      · rw [e, gd, e']; exact ⟨z, hr, rfl⟩
      · rw [gl p e2]; exact ⟨v, e3, rfl⟩
    · intro p v hp hz
      rcases get p v hp with ⟨e, e'⟩ | ⟨e, e'⟩ | ⟨e1, e2, e3⟩
      · rw [e, e']; exact ⟨z, hr, rfl⟩
      · rw [e'] at hz; exact absurd rfl hz
      · exact ⟨v, e3, rfl⟩
    · intro p v q t hp hq hz hu hg
      rcases get p v hp with ⟨e, e'⟩ | ⟨e, e'⟩ | ⟨e1, e2, e3⟩
      · rw [e'] at hz; exact absurd rfl hz
      · rcases get q t hq with ⟨f, f'⟩ | ⟨f, f'⟩ | ⟨f1, f2, f3⟩
        · rw [f'] at hu; exact absurd rfl hu
        · rw [e, f]
        · rw [e, gd, gl q f2] at hg; exact absurd hg.symm f1
      · rcases get q t hq with ⟨f, f'⟩ | ⟨f, f'⟩ | ⟨f1, f2, f3⟩
        · rw [f'] at hu; exact absurd rfl hu
        · rw [f, gd, gl p e2] at hg; exact absurd hg e1
        · rw [gl p e2, gl q f2] at hg; exact hg
    · intro p v q t _ _ _ _ hg; exact hg
  · refine rel_change h (fun p => if p = r then .forget else if p = d then .invalidate else .keep) h.nobjs rfl rfl rfl ?_ ?_ (Nat.le_refl _) ?_ ?_
    · intro i
      show Option.map _ (Option.map _ (s.its i)) = _
      cases s.its i with
      | none => rfl
      | some t =>
        dsimp only [Option.map_some]
        by_cases e : t.obj = d
        · rw [if_pos e, if_neg (show ¬ t.obj = r from fun f => hne (e.symm.trans f)), if_neg (show ¬ t.obj = r from fun f => hne (e.symm.trans f)), if_pos e]
          rfl
        · rw [if_neg e]
          by_cases f : t.obj = r
          · rw [if_pos f, if_pos f]; rfl
          · rw [if_neg f, if_neg f, if_neg e]; rfl
    · intro p
      show ObjRel p (if p = r then some { z with elems := [] } else if p = d then some { x with elems := z.elems, ctl := none } else w.objs p)
        (if p = r then some { u with m := [] } else if p = d then some { y with m := u.m } else s.objs p)
      split
      · next e => subst e; exact ⟨rfl, hrr.2⟩
      · split
        · next e => subst e; exact ⟨hrr.1, hrd.2⟩
        · exact h.objs p
    · rintro c _ ⟨p, v, h1, h2⟩
      rcases get p v h1 with ⟨e, e'⟩ | ⟨e, e'⟩ | ⟨e1, e2, e3⟩
      · rw [e'] at h2; exact ⟨r, z, hr, h2⟩
      · rw [e'] at h2; cases h2
      · exact ⟨p, v, e3, h2⟩
    · intro p
      split
      · exact trivial
      · next hpr =>
        split
        · next e =>
          subst e
          rintro v c hv hvc ⟨q, t, h1, h2⟩
          rw [hd] at hv
          cases hv
          rcases get q t h1 with ⟨e, e'⟩ | ⟨e, e'⟩ | ⟨e1, e2, e3⟩
          · rw [e'] at h2
            exact hne (hi.ctlOne _ _ _ _ c hd hr hvc h2)
          · rw [e'] at h2; cases h2
          · exact e2 (hi.ctlOne _ _ _ _ c e3 hd h2 hvc)
        · next hpd =>
          intro v c hv hvc
          refine ⟨v, ?_, hvc, fun e he => ⟨e, he, rfl, rfl⟩⟩
          show (if p = r then some { z with elems := [] } else if p = d then some { x with elems := z.elems, ctl := none } else w.objs p) = some v
          rw [if_neg hpr, if_neg hpd]; exact hv

/-- A dead container. -/
theorem rel_destroy {w : MWorld K V} {s : SWorld K V} (hi : MInv lt w) (h : MRel w s) {o : Nat} {x : MObj K V} (ho : w.objs o = some x) :
    MRel (w.setObj o none) ((s.setObj o none).invalidate o) := by
  have get : ∀ p z, (if p = o then none else w.objs p) = some z → p ≠ o ∧ w.objs p = some z := by
    intro p z hp
    split at hp
    · cases hp
    · next e => exact ⟨e, hp⟩
  refine rel_change h (fun p => if p = o then .invalidate else .keep) h.nobjs rfl rfl rfl (fun i => fate_its s o i .invalidate) ?_ (Nat.le_refl _) ?_ ?_
  · intro p
    show ObjRel p (if p = o then none else w.objs p) (if p = o then none else s.objs p)
    split
    · exact trivial
    · exact h.objs p
  · rintro c _ ⟨p, z, h1, h2⟩
    exact ⟨p, z, (get p z h1).2, h2⟩
  · intro p
    split
    · next e =>
      subst e
      rintro z c hz hzc ⟨q, u, h1, h2⟩
      obtain ⟨g1, g2⟩ := get q u h1
      exact g1 (hi.ctlOne _ _ _ _ c g2 hz h2 hzc)
    · next e =>
      intro z c hz hzc
      refine ⟨z, ?_, hzc, fun e he => ⟨e, he, rfl, rfl⟩⟩
      show (if p = o then none else w.objs p) = some z
      rw [if_neg e]; exact hz

/-- Moving an iterator. -/
theorem rel_setIter {w : MWorld K V} {s : SWorld K V} (hi : MInv lt w) (h : MRel w s) {i : Nat} {it : MIter} {t : SIter K} (hr : ItRel w it t) :
    MInv lt (w.setIter i it) ∧ MRel (w.setIter i it) { s with its := fun j => if j = i then some t else s.its j } := by
  refine ⟨⟨hi.bound, hi.sorted, hi.nodeLt, hi.nodeInj, hi.nodeOne, hi.ctlLt, hi.ctlOne⟩, h.nobjs, h.nits, h.objs, ?_⟩
  intro j
  show OptRel (ItRel w) (if j = i then some it else w.its j) (if j = i then some t else s.its j)
  split
  · exact hr
  · exact h.its j

theorem its_same {s : SWorld K V} {i : Nat} {t : SIter K} (h : s.its i = some t) : { s with its := fun j => if j = i then some t else s.its j } = s := by
  cases s with
  | mk a b c d =>
    congr 1
    funext j
    dsimp only
    split
    · next e => subst e; exact h.symm
    · rfl

theorem setObj_same {s : SWorld K V} {o : Nat} {y : SObj K V} (h : s.objs o = some y) : s.setObj o (some y) = s := by
  cases s with
  | mk a b c d =>
    unfold SWorld.setObj
    congr 1
    funext j
    dsimp only
    split
    · next e => subst e; exact h.symm
    · rfl

theorem keep_world (s : SWorld K V) (o : Nat) (y : Option (SObj K V)) :
    { (s.setObj o y) with its := fun i => (s.its i).map fun t => if t.obj = o then { t with pos := Fate.keep.apply t.pos } else t } = s.setObj o y := by
  have e : (fun i => (s.its i).map fun t => if t.obj = o then { t with pos := Fate.keep.apply t.pos } else t) = s.its := by
    funext i
    cases s.its i with
    | none => rfl
    | some t =>
      dsimp only [Option.map_some]
      split <;> rfl
  rw [e]
  rfl

include ht

/-- Every operation does what it should, and returns it. -/
theorem sim_step (kind : Kind) {w : MWorld K V} {s : SWorld K V} (hi : MInv lt w) (h : MRel w s) (op : MOp K V) :
    MInv lt (w.exec kind lt op).1 ∧ MRel (w.exec kind lt op).1 (s.ideal kind lt op).1 ∧
    (s.Specified kind op → (w.exec kind lt op).2 = (s.ideal kind lt op).2) := by
  cases op with
  | make init =>
    have h1 := sorted_build ht init w.nextNode ([] : List (Elem K V)) List.Pairwise.nil
    have h2 := build_nodes (lt := lt) init w.nextNode ([] : List (Elem K V)) w.nextNode (fun e he => by cases he) (Nat.le_refl _) (fun e he => by cases he)
    have h3 := rel_add hi h (nn := w.nextNode + init.length) (x := ⟨buildElems lt w.nextNode init [], none, w.nobjs⟩) (y := ⟨FMap.ofList lt init, true⟩)
      h1.2.symm (fun _ => rfl) rfl
    exact ⟨inv_add hi (Nat.le_add_right _ _) h1.1 h2.1 h2.2 rfl, h3.1, fun _ => h3.2⟩
  | copy o =>
    simp only [exec, ideal]
    cases ho : w.objs o with
    | none => rw [h.none ho]; exact ⟨hi, h, fun _ => rfl⟩
    | some x =>
      obtain ⟨y, hy, hm, hd⟩ := h.some ho
      rw [hy]
      have h2 := renumber_nodes w.nextNode x.elems
      have h3 := rel_add hi h (nn := w.nextNode + x.elems.length) (x := ⟨renumber w.nextNode x.elems, none, x.data⟩) (y := ⟨y.m, false⟩)
        (hm.trans (kv_renumber _ _).symm) (fun e => by cases e) rfl
      exact ⟨inv_add hi (Nat.le_add_right _ _) (by rw [kv_renumber]; exact hi.sorted o x ho) h2.1 h2.2 rfl, h3.1, fun _ => h3.2⟩
  | move o =>
    simp only [exec, ideal]
    cases ho : w.objs o with
    | none => rw [h.none ho]; exact ⟨hi, h, fun _ => rfl⟩
    | some x =>
      obtain ⟨y, hy, hm, hd⟩ := h.some ho
      rw [hy]
      have := move_step hi h ho hy hm hd
      refine ⟨this.1, this.2, fun _ => ?_⟩
      show Res.ok (MOut.obj w.nobjs) = Res.ok (MOut.obj s.nobjs)
      rw [h.nobjs]
  | destroy o =>
    simp only [exec, ideal]
    cases ho : w.objs o with
    | none => rw [h.none ho]; exact ⟨hi, h, fun _ => rfl⟩
    | some x =>
      obtain ⟨y, hy, hm, hd⟩ := h.some ho
      rw [hy]
      exact ⟨inv_destroy hi o, rel_destroy hi h ho, fun _ => rfl⟩
  | assignCopy dst src =>
    simp only [exec, ideal]
    cases ho : w.objs dst with
    | none => rw [h.none ho]; exact ⟨hi, h, fun _ => rfl⟩
    | some x =>
      obtain ⟨y, hy, hm, hd⟩ := h.some ho
      rw [hy]
      cases hr : w.objs src with
      | none => rw [h.none hr]; exact ⟨hi, h, fun _ => rfl⟩
      | some z =>
        obtain ⟨u, hu, hm', hd'⟩ := h.some hr
        rw [hu]
        dsimp only
        split
        · exact ⟨hi, h, fun _ => rfl⟩
        · have h2 := renumber_nodes w.nextNode z.elems
          refine ⟨inv_setObj hi ho (Nat.le_add_right _ _) (by rw [kv_renumber]; exact hi.sorted src z hr) h2.1 (fun e he => Or.inr (h2.2 e he)) (Or.inr rfl),
            rel_setObj hi h (x' := { x with elems := renumber w.nextNode z.elems, ctl := none }) u.m ho hy (hm'.trans (kv_renumber _ _).symm) rfl .invalidate (Or.inr ⟨rfl, rfl⟩), fun _ => rfl⟩
  | assignMove dst src =>
    simp only [exec, ideal]
    cases ho : w.objs dst with
    | none => rw [h.none ho]; exact ⟨hi, h, fun _ => rfl⟩
    | some x =>
      obtain ⟨y, hy, hm, hd⟩ := h.some ho
      rw [hy]
      cases hr : w.objs src with
      | none => rw [h.none hr]; exact ⟨hi, h, fun _ => rfl⟩
      | some z =>
        obtain ⟨u, hu, hm', hd'⟩ := h.some hr
        rw [hu]
        dsimp only
        split
        · exact ⟨hi, h, fun _ => rfl⟩
        · next hne =>
          have := assignMove_step hi h hne ho hr hy hu
          exact ⟨this.1, this.2, fun _ => rfl⟩
  | contains o k =>
    simp only [exec, ideal]
    cases ho : w.objs o with
    | none => rw [h.none ho]; exact ⟨hi, h, fun _ => rfl⟩
    | some x =>
      obtain ⟨y, hy, hm, hd⟩ := h.some ho
      rw [hy]
      dsimp only
      rw [hm, findElem_isSome ht (hi.sorted o x ho)]
      exact ⟨hi, h, fun _ => rfl⟩
  | get o k =>
    simp only [exec, ideal]
    cases ho : w.objs o with
    | none => rw [h.none ho]; exact ⟨hi, h, fun _ => rfl⟩
    | some x =>
      obtain ⟨y, hy, hm, hd⟩ := h.some ho
      rw [hy]
      dsimp only
      rw [hm, ← (findElem_spec ht (hi.sorted o x ho)).1]
      refine ⟨hi, h, fun _ => ?_⟩
      cases findElem lt k x.elems <;> rfl
  | getOptional o k =>
    simp only [exec, ideal]
    cases ho : w.objs o with
    | none => rw [h.none ho]; exact ⟨hi, h, fun _ => rfl⟩
    | some x =>
      obtain ⟨y, hy, hm, hd⟩ := h.some ho
      rw [hy]
      dsimp only
      rw [hm, (findElem_spec ht (hi.sorted o x ho)).1]
      exact ⟨hi, h, fun _ => rfl⟩
  | put o k v =>
    simp only [exec, ideal]
    cases ho : w.objs o with
    | none => rw [h.none ho]; exact ⟨hi, h, fun _ => rfl⟩
    | some x =>
      obtain ⟨y, hy, hm, hd⟩ := h.some ho
      rw [hy]
      have hsx := hi.sorted o x ho
      have hf := findElem_isSome ht (k := k) hsx
      cases kind with
      | map =>
        have hka := kv_assign ht w.nextNode k v hsx
        have inv : ∀ c, (c = x.ctl ∨ c = none) →
            MInv lt { w.setObj o (some { x with elems := assignElem lt w.nextNode k v x.elems, ctl := c }) with nextNode := w.nextNode + 1 } := by
          intro c hc
          refine inv_setObj hi ho (Nat.le_succ _) (by rw [hka]; exact sorted_set ht hsx k v) (inj_assignElem ht hsx (hi.nodeInj o x ho) (hi.nodeLt o x ho)) ?_ hc
          intro e he
          rcases mem_assignElem he with g | rfl | ⟨e0, g, rfl, _⟩
          · exact Or.inl ⟨e, g, rfl⟩
          · exact Or.inr ⟨Nat.le_refl _, Nat.lt_succ_self _⟩
          · exact Or.inl ⟨e0, g, rfl⟩
        dsimp only
        rw [hm]
        cases hl : FMap.lookup (kv x.elems) k with
        | none =>
          rw [hl] at hf
          rw [hf]
          exact ⟨inv _ (Or.inr rfl), rel_setObj hi h (x' := { x with elems := assignElem lt w.nextNode k v x.elems, ctl := none })
            (FMap.set lt (kv x.elems) k v) ho hy hka.symm rfl .invalidate (Or.inr ⟨rfl, rfl⟩), fun _ => rfl⟩
        | some v' =>
          rw [hl] at hf
          rw [hf]
          have := rel_setObj hi h (x' := { x with elems := assignElem lt w.nextNode k v x.elems, ctl := x.ctl }) (nn := w.nextNode + 1)
            (FMap.set lt (kv x.elems) k v) ho hy hka.symm rfl .keep (Or.inl ⟨rfl, rfl, fun e he => assignElem_keeps he⟩)
          rw [keep_world] at this
          exact ⟨inv _ (Or.inl rfl), this, fun _ => rfl⟩
      | set =>
        have hka := kv_insert ht w.nextNode k v hsx
        have hin : MInv lt { w.setObj o (some { x with elems := insertElem lt w.nextNode k v x.elems }) with nextNode := w.nextNode + 1 } := by
          refine inv_setObj hi ho (Nat.le_succ _) ?_ (inj_insertElem (hi.nodeInj o x ho) (hi.nodeLt o x ho)) ?_ (Or.inl rfl)
          · rw [hka]
            split
            · exact hsx
            · exact sorted_set ht hsx k v
          · intro e he
            rcases mem_insertElem he with g | rfl
            · exact Or.inl ⟨e, g, rfl⟩
            · exact Or.inr ⟨Nat.le_refl _, Nat.lt_succ_self _⟩
        dsimp only
        rw [hm]
        cases hl : FMap.lookup (kv x.elems) k with
        | none =>
          rw [hl] at hf hka
          have hnn : (findElem lt k x.elems).isNone = true := by cases g : findElem lt k x.elems with | none => rfl | some e => rw [g] at hf; cases hf
          rw [hnn]
          have := rel_setObj hi h (x' := { x with elems := insertElem lt w.nextNode k v x.elems }) (nn := w.nextNode + 1)
            (FMap.set lt (kv x.elems) k v) ho hy hka.symm rfl .keep (Or.inl ⟨rfl, rfl, fun e he => ⟨e, insertElem_keeps he, rfl, rfl⟩⟩)
          rw [keep_world] at this
          exact ⟨hin, this, fun _ => rfl⟩
        | some v' =>
          rw [hl] at hf hka
          have hnn : (findElem lt k x.elems).isNone = false := by cases g : findElem lt k x.elems with | none => rw [g] at hf; cases hf | some e => rfl
          rw [hnn]
          have := rel_setObj hi h (x' := { x with elems := insertElem lt w.nextNode k v x.elems }) (nn := w.nextNode + 1)
            y.m ho hy (hm.trans hka.symm) rfl .keep (Or.inl ⟨rfl, rfl, fun e he => ⟨e, insertElem_keeps he, rfl, rfl⟩⟩)
          rw [keep_world, show ({ y with m := y.m } : SObj K V) = y from rfl, setObj_same hy] at this
          exact ⟨hin, this, fun _ => rfl⟩
  | erase o k =>
    simp only [exec, ideal]
    cases ho : w.objs o with
    | none => rw [h.none ho]; exact ⟨hi, h, fun _ => rfl⟩
    | some x =>
      obtain ⟨y, hy, hm, hd⟩ := h.some ho
      rw [hy]
      have hsx := hi.sorted o x ho
      have hf := findElem_isSome ht (k := k) hsx
      have hke := kv_erase ht k hsx
      have inv : ∀ c, (c = x.ctl ∨ c = none) → MInv lt (w.setObj o (some { x with elems := eraseElem lt k x.elems, ctl := c })) := by
        intro c hc
        refine inv_setObj (nn := w.nextNode) hi ho (Nat.le_refl _) (by rw [hke]; exact sorted_unset ht hsx k) ?_ ?_ hc
        · intro e he e' he' hn
          exact hi.nodeInj o x ho e (mem_eraseElem he) e' (mem_eraseElem he') hn
        · intro e he
          exact Or.inl ⟨e, mem_eraseElem he, rfl⟩
      have drop : MRel (w.setObj o (some { x with elems := eraseElem lt k x.elems, ctl := none }))
          ((s.setObj o (some { y with m := FMap.unset y.m k })).invalidate o) :=
        rel_setObj (nn := w.nextNode) hi h (x' := { x with elems := eraseElem lt k x.elems, ctl := none })
          (FMap.unset y.m k) ho hy (by rw [hm]; exact hke.symm) rfl .invalidate (Or.inr ⟨rfl, rfl⟩)
      dsimp only
      cases hl : FMap.lookup y.m k with
      | none =>
        rw [hm] at hl
        rw [hl] at hf
        rw [hf]
        have hun := unset_none ht hl
        cases kind with
        | map =>
          have hel : eraseElem lt k x.elems = x.elems := by
            have : findElem lt k x.elems = none := by cases g : findElem lt k x.elems with | none => rfl | some e => rw [g] at hf; cases hf
            clear inv drop hke hun hl hf hsx hm ho
            revert this
            generalize x.elems = l
            induction l with
            | nil => intro _; rfl
            | cons e l ih =>
              intro g
              unfold findElem at g
              unfold eraseElem
              split
              · rfl
              · next ha =>
                rw [if_neg ha] at g
                split
                · next hb => rw [if_pos hb] at g; rw [ih g]
                · next hb => rw [if_neg hb] at g; cases g
          have := rel_setObj (nn := w.nextNode) hi h (x' := { x with elems := eraseElem lt k x.elems, ctl := x.ctl })
            y.m ho hy (by dsimp only; rw [hel]; exact hm) rfl .keep (Or.inl ⟨rfl, rfl, fun e he => ⟨e, by dsimp only; rw [hel]; exact he, rfl, rfl⟩⟩)
          rw [keep_world, show ({ y with m := y.m } : SObj K V) = y from rfl, setObj_same hy] at this
          exact ⟨inv _ (Or.inl rfl), this, fun _ => rfl⟩
        | set =>
          rw [hm, hun, ← hm, show ({ y with m := y.m } : SObj K V) = y from rfl, setObj_same hy] at drop
          exact ⟨inv _ (Or.inr rfl), drop, fun _ => rfl⟩
      | some v' =>
        rw [hm] at hl
        rw [hl] at hf
        rw [hf]
        cases kind with
        | map => exact ⟨inv _ (Or.inr rfl), drop, fun _ => rfl⟩
        | set => exact ⟨inv _ (Or.inr rfl), drop, fun _ => rfl⟩
  | clear o =>
    simp only [exec, ideal]
    cases ho : w.objs o with
    | none => rw [h.none ho]; exact ⟨hi, h, fun _ => rfl⟩
    | some x =>
      obtain ⟨y, hy, hm, hd⟩ := h.some ho
      rw [hy]
      refine ⟨inv_setObj (nn := w.nextNode) hi ho (Nat.le_refl _) List.Pairwise.nil (fun e he => by cases he) (fun e he => by cases he) (Or.inr rfl), ?_, fun _ => rfl⟩
      exact rel_setObj (nn := w.nextNode) hi h (x' := { x with elems := [], ctl := none }) [] ho hy rfl rfl .invalidate (Or.inr ⟨rfl, rfl⟩)
  | size o =>
    simp only [exec, ideal]
    cases ho : w.objs o with
    | none => rw [h.none ho]; exact ⟨hi, h, fun _ => rfl⟩
    | some x =>
      obtain ⟨y, hy, hm, hd⟩ := h.some ho
      rw [hy]
      dsimp only
      rw [hm, kv_length]
      exact ⟨hi, h, fun _ => rfl⟩
  | equal a b =>
    simp only [exec, ideal]
    cases ho : w.objs a with
    | none => rw [h.none ho]; exact ⟨hi, h, fun _ => rfl⟩
    | some x =>
      obtain ⟨y, hy, hm, hd⟩ := h.some ho
      rw [hy]
      cases hr : w.objs b with
      | none => rw [h.none hr]; exact ⟨hi, h, fun _ => rfl⟩
      | some z =>
        obtain ⟨u, hu, hm', hd'⟩ := h.some hr
        rw [hu]
        dsimp only
        rw [hm, hm']
        refine ⟨hi, h, fun _ => ?_⟩
        congr 2
        rw [Bool.eq_iff_iff, beq_iff_eq, decide_eq_true_iff]
        exact Iff.rfl
  | begin o c =>
    simp only [exec, ideal]
    cases ho : w.objs o with
    | none => rw [h.none ho]; exact ⟨hi, h, fun _ => rfl⟩
    | some x =>
      obtain ⟨y, hy, hm, hd⟩ := h.some ho
      rw [hy]
      have := ref_step hi h ho hy hd (firstPos o x.elems) (first y.m) c (by
        rw [hm]
        cases hx : x.elems with
        | nil => exact Or.inl ⟨rfl, rfl⟩
        | cons e l => exact Or.inr ⟨e, List.mem_cons_self .., rfl, rfl⟩)
      exact ⟨this.1, this.2.1, fun _ => this.2.2⟩
  | fin o c =>
    simp only [exec, ideal]
    cases ho : w.objs o with
    | none => rw [h.none ho]; exact ⟨hi, h, fun _ => rfl⟩
    | some x =>
      obtain ⟨y, hy, hm, hd⟩ := h.some ho
      rw [hy]
      have := ref_step hi h ho hy hd (.fin o) .fin c (Or.inl ⟨rfl, rfl⟩)
      exact ⟨this.1, this.2.1, fun _ => this.2.2⟩
  | deref i =>
    have e1 : (w.exec kind lt (.deref i)).1 = w := by
      simp only [exec]; (repeat' split) <;> rfl
    have e2 : (s.ideal kind lt (.deref i)).1 = s := by
      simp only [ideal]; (repeat' split) <;> rfl
    rw [e1, e2]
    refine ⟨hi, h, ?_⟩
    intro hsp
    simp only [exec, ideal]
    cases hit : w.its i with
    | none => rw [h.itNone hit]
    | some it =>
      obtain ⟨t, hst, hc, hlt, hr⟩ := h.itSome hit
      have hsp := hsp t hst
      rw [hst]
      dsimp only
      have hex := expired_false hi it.ctl
      cases hp : t.pos with
      | unspecified => exact absurd hp hsp
      | invalid =>
        rw [hp] at hr
        rw [if_pos (hex.mpr hr)]
      | fin =>
        rw [hp] at hr
        obtain ⟨g1, g2, x, g3, g4⟩ := hr
        rw [if_neg (by rw [hex]; exact fun n => n ⟨_, x, g3, g4⟩), g1, g3]
        dsimp only
        rw [if_pos g2]
      | «at» k =>
        rw [hp] at hr
        obtain ⟨g1, x, g3, g4, e, g5, g6, g7⟩ := hr
        obtain ⟨k1, k2⟩ := owner_spec hi g3 g5
        obtain ⟨y, hy, hm, hd⟩ := h.some g3
        rw [if_neg (by rw [hex]; exact fun n => n ⟨_, x, g3, g4⟩), g1, g3, hy]
        dsimp only
        rw [g6, if_neg (by intro n; cases n)]
        dsimp only
        rw [k1]
        dsimp only
        rw [k2, hm, ← g7, lookup_mem ht (hi.sorted _ x g3) g5]
  | incr i =>
    simp only [exec, ideal]
    cases hit : w.its i with
    | none => rw [h.itNone hit]; exact ⟨hi, h, fun _ => rfl⟩
    | some it =>
      obtain ⟨t, hst, hr⟩ := h.itSome hit
      have hrr := hr
      obtain ⟨hc, hlt, hr⟩ := hr
      rw [hst]
      dsimp only
      have hex := expired_false hi it.ctl
      cases hp : t.pos with
      | unspecified =>
        dsimp only
        have hnot : ¬ s.Specified kind (.incr i) := fun n => (n t hst).1 hp
        have hadv : MInv lt (w.advance i it).1 ∧ MRel (w.advance i it).1 s := by
          unfold advance
          split
          · exact ⟨hi, h⟩
          · split
            · exact ⟨hi, h⟩
            · next _ n _ _ o x _ =>
              have := rel_setIter (i := i) hi h (it := { it with pos := nextPos o n x.elems }) (t := t) ⟨hc, hlt, by rw [hp]; exact trivial⟩
              rw [its_same hst] at this
              exact this
        (repeat' split)
        all_goals first
          | exact ⟨hi, h, fun n => absurd n hnot⟩
          | exact ⟨hadv.1, hadv.2, fun n => absurd n hnot⟩
      | invalid =>
        rw [hp] at hr
        rw [if_pos (hex.mpr hr)]
        exact ⟨hi, h, fun _ => rfl⟩
      | fin =>
        rw [hp] at hr
        obtain ⟨g1, g2, x, g3, g4⟩ := hr
        rw [if_neg (by rw [hex]; exact fun n => n ⟨_, x, g3, g4⟩), g1, g3]
        dsimp only
        rw [if_pos g2]
        by_cases hk : it.const = true ∧ kind = .map
        · rw [if_pos hk]
          have : w.advance i it = (w, .ub) := by unfold advance; rw [g2]
          rw [this]
          exact ⟨hi, h, fun n => absurd ⟨hk.2, hc ▸ hk.1, hp⟩ (n t hst).2⟩
        · rw [if_neg hk]
          exact ⟨hi, h, fun _ => rfl⟩
      | «at» k =>
        rw [hp] at hr
        obtain ⟨g1, x, g3, g4, e, g5, g6, g7⟩ := hr
        obtain ⟨k1, k2⟩ := owner_spec hi g3 g5
        obtain ⟨y, hy, hm, hd⟩ := h.some g3
        have hadv : w.advance i it = (w.setIter i { it with pos := nextPos t.obj e.node x.elems }, .ok .none) := by
          unfold advance; rw [g6]; dsimp only; rw [k1]
        obtain ⟨r, q1, q2, q3⟩ := nextPos_spec ht t.obj (hi.sorted _ x g3) (hi.nodeInj _ x g3) g5
        have hrel : ItRel w { it with pos := nextPos t.obj e.node x.elems } { t with pos := first (y.m.filter (fun p => lt k p.1)) } := by
          refine ⟨hc, hlt, ?_⟩
          rw [q1, hm, ← g7, ← q2]
          cases r with
          | nil => exact ⟨g1, rfl, x, g3, g4⟩
          | cons e' r => exact ⟨g1, x, g3, g4, e', q3 e' (List.mem_cons_self ..), rfl, rfl⟩
        have := rel_setIter (i := i) hi h hrel
        rw [if_neg (by rw [hex]; exact fun n => n ⟨_, x, g3, g4⟩), hy]
        by_cases hk : it.const = true ∧ kind = .map
        · rw [if_pos hk, hadv]
          exact ⟨this.1, this.2, fun _ => rfl⟩
        · rw [if_neg hk, g1, g3]
          dsimp only
          rw [if_neg (by rw [g6]; intro n; cases n), hadv]
          exact ⟨this.1, this.2, fun _ => rfl⟩
  | iterEq i j =>
    have e1 : (w.exec kind lt (.iterEq i j)).1 = w := by
      simp only [exec]; (repeat' split) <;> rfl
    have e2 : (s.ideal kind lt (.iterEq i j)).1 = s := by
      simp only [ideal]; (repeat' split) <;> rfl
    rw [e1, e2]
    refine ⟨hi, h, ?_⟩
    intro hsp
    simp only [exec, ideal]
    cases hit : w.its i with
    | none => rw [h.itNone hit]
    | some it =>
      obtain ⟨t, hst, hc, hlt, hr⟩ := h.itSome hit
      cases hjt : w.its j with
      | none => rw [h.itNone hjt, hst]
      | some jt =>
        obtain ⟨u, hsu, hc', hlt', hr'⟩ := h.itSome hjt
        have hsp := hsp t u hst hsu
        rw [hst, hsu]
        dsimp only
        -- a live iterator holds the block of its container
        have live : ∀ (it : MIter) (t : SIter K), ItRel w it t → t.pos ≠ .unspecified → t.pos ≠ .invalid →
            ∃ x, w.objs t.obj = some x ∧ x.ctl = some it.ctl ∧
            ((t.pos = .fin ∧ it.pos = .fin t.obj) ∨ ∃ e ∈ x.elems, t.pos = .at e.key ∧ it.pos = .node e.node) := by
          intro it t hr h1 h2
          obtain ⟨_, _, hr⟩ := hr
          cases hp : t.pos with
          | unspecified => exact absurd hp h1
          | invalid => exact absurd hp h2
          | fin => rw [hp] at hr; obtain ⟨g1, g2, x, g3, g4⟩ := hr; exact ⟨x, g3, g4, Or.inl ⟨rfl, g2⟩⟩
          | «at» k => rw [hp] at hr; obtain ⟨g1, x, g3, g4, e, g5, g6, g7⟩ := hr; exact ⟨x, g3, g4, Or.inr ⟨e, g5, by rw [g7], g6⟩⟩
        by_cases ht1 : t.pos = .invalid
        · have hu1 : u.pos ≠ .invalid := fun n => hsp.2.2 ⟨ht1, n⟩
          obtain ⟨x, g3, g4, _⟩ := live jt u ⟨hc', hlt', hr'⟩ hsp.2.1 hu1
          rw [ht1] at hr
          rw [if_pos (Or.inl ht1), if_pos]
          intro e
          rw [e] at hr
          exact hr ⟨_, x, g3, g4⟩
        · obtain ⟨x, g3, g4, gp⟩ := live it t ⟨hc, hlt, hr⟩ hsp.1 ht1
          by_cases hu1 : u.pos = .invalid
          · rw [hu1] at hr'
            rw [if_pos (Or.inr (Or.inl hu1)), if_pos]
            intro e
            rw [← e] at hr'
            exact hr' ⟨_, x, g3, g4⟩
          · obtain ⟨x', g3', g4', gp'⟩ := live jt u ⟨hc', hlt', hr'⟩ hsp.2.1 hu1
            by_cases ho : t.obj = u.obj
            · rw [← ho, g3] at g3'
              cases g3'
              rw [g4] at g4'
              have hcc : it.ctl = jt.ctl := Option.some.inj g4'
              rw [if_neg (fun n => n hcc), if_neg (by intro n; rcases n with n | n | n; exact ht1 n; exact hu1 n; exact n ho)]
              dsimp only
              congr 2
              rw [Bool.eq_iff_iff, beq_iff_eq, decide_eq_true_iff]
              rcases gp with ⟨a1, a2⟩ | ⟨e, a0, a1, a2⟩ <;> rcases gp' with ⟨b1, b2⟩ | ⟨e', b0, b1, b2⟩
              · rw [a1, a2, b1, b2, ho]; exact ⟨fun _ => rfl, fun _ => rfl⟩
              · rw [a1, a2, b1, b2]; exact ⟨fun n => (by cases n), fun n => (by cases n)⟩
              · rw [a1, a2, b1, b2]; exact ⟨fun n => (by cases n), fun n => (by cases n)⟩
              · rw [a1, a2, b1, b2]
                constructor
                · intro n
                  injection n with n
                  rw [hi.nodeInj _ x g3 e a0 e' b0 n]
                · intro n
                  injection n with n
                  rw [key_inj ht (hi.sorted _ x g3) a0 b0 n]
            · rw [if_pos (Or.inr (Or.inr ho)), if_pos]
              intro e
              rw [e] at g4
              exact ho (hi.ctlOne _ _ _ _ _ g3 g3' g4 g4')

theorem sim_empty : MInv lt (MWorld.empty : MWorld K V) ∧ MRel (MWorld.empty : MWorld K V) SWorld.empty := by
  exact ⟨⟨fun _ _ h => (by cases h), fun _ _ h => (by cases h), fun _ _ h => (by cases h), fun _ _ h => (by cases h),
    fun _ _ _ _ h => (by cases h), fun _ _ _ h => (by cases h), fun _ _ _ _ _ h => (by cases h)⟩,
    rfl, rfl, fun _ => trivial, fun _ => trivial⟩

theorem sim_run (kind : Kind) (ops : List (MOp K V)) : ∀ (w : MWorld K V) (s : SWorld K V), MInv lt w → MRel w s →
    MInv lt (w.run kind lt ops) ∧ MRel (w.run kind lt ops) (s.idealRun kind lt ops) := by
  induction ops with
  | nil => intro w s hi h; exact ⟨hi, h⟩
  | cons op ops ih =>
    intro w s hi h
    obtain ⟨h1, h2, _⟩ := sim_step ht kind hi h op
    exact ih _ _ h1 h2

/-- C38 (partial): after any program, with any number of maps (or sets), copies, moves and iterators, every operation returns what it
    returns for mathematical finite maps, whose pairs are visited in the order of the keys: lookups, sizes, comparisons, and also
    dereferencing, moving and comparing iterators. An iterator of a map that has been changed (a new or removed key), cleared,
    assigned to or destroyed throws.
    What is missing are the cases `SWorld.Specified` excludes: iterators of maps that come from copying or moving another one, and of
    maps that have been moved from (`C38_fails_copy`, `C38_fails_move`, `C38_fails_move_assign`), and the increment of a constant
    iterator at the end (`C38_fails_const_end`). -/
theorem C38_results_partial (kind : Kind) (ops : List (MOp K V)) (op : MOp K V)
    (hs : ((SWorld.empty : SWorld K V).idealRun kind lt ops).Specified kind op) :
    (((MWorld.empty : MWorld K V).run kind lt ops).exec kind lt op).2 = (((SWorld.empty : SWorld K V).idealRun kind lt ops).ideal kind lt op).2 := by
  obtain ⟨h1, h2⟩ := sim_run ht kind ops (MWorld.empty : MWorld K V) SWorld.empty (sim_empty ht).1 (sim_empty ht).2
  exact (sim_step ht kind h1 h2 op).2.2 hs

/-- C38: the content of the maps, whatever is done with copies, moves and iterators: each lookup gives the mathematical result, and
    the pairs are in the order of the keys, each key once. -/
theorem C38_content (kind : Kind) (ops : List (MOp K V)) (o : Nat) :
    ((MWorld.empty : MWorld K V).run kind lt ops).objs o = none ∧ ((SWorld.empty : SWorld K V).idealRun kind lt ops).objs o = none ∨
    ∃ x y, ((MWorld.empty : MWorld K V).run kind lt ops).objs o = some x ∧ ((SWorld.empty : SWorld K V).idealRun kind lt ops).objs o = some y ∧
      x.elems.map (fun e => (e.key, e.val)) = y.m ∧ FMap.Sorted lt y.m ∧ ∀ k, (findElem lt k x.elems).map (·.val) = FMap.lookup y.m k := by
  obtain ⟨h1, h2⟩ := sim_run ht kind ops (MWorld.empty : MWorld K V) SWorld.empty (sim_empty ht).1 (sim_empty ht).2
  cases ho : ((MWorld.empty : MWorld K V).run kind lt ops).objs o with
  | none => exact Or.inl ⟨rfl, h2.none ho⟩
  | some x =>
    obtain ⟨y, hy, hm, _⟩ := h2.some ho
    have hs := h1.sorted o x ho
    refine Or.inr ⟨x, y, rfl, hy, hm.symm, hm ▸ hs, fun k => ?_⟩
    rw [hm]
    exact (findElem_spec ht hs).1

/-- The specification never gets stuck: what it says about an operation is a value or an exception. -/
theorem ideal_defined_map (kind : Kind) (ops : List (MOp K V)) (op : MOp K V)
    (hs : ((SWorld.empty : SWorld K V).idealRun kind lt ops).Specified kind op) :
    (((SWorld.empty : SWorld K V).idealRun kind lt ops).ideal kind lt op).2.Defined := by
  obtain ⟨h1, h2⟩ := sim_run ht kind ops (MWorld.empty : MWorld K V) SWorld.empty (sim_empty ht).1 (sim_empty ht).2
  generalize (SWorld.empty : SWorld K V).idealRun kind lt ops = s at *
  generalize (MWorld.empty : MWorld K V).run kind lt ops = w at *
  have hit : ∀ i t k, s.its i = some t → t.pos = .at k → ∃ y v, s.objs t.obj = some y ∧ FMap.lookup y.m k = some v := by
    intro i t k hi hp
    have hr := h2.its i
    rw [hi] at hr
    cases hw : w.its i with
    | none => rw [hw] at hr; cases hr
    | some it =>
      rw [hw] at hr
      obtain ⟨_, _, hr⟩ := hr
      rw [hp] at hr
      obtain ⟨_, x, g3, _, e, g5, _, g7⟩ := hr
      obtain ⟨y, hy, hm, _⟩ := h2.some g3
      refine ⟨y, e.val, hy, ?_⟩
      rw [hm, ← g7]
      exact lookup_mem ht (h1.sorted _ x g3) g5
  cases op with
  | deref i =>
    simp only [ideal]
    cases hi : s.its i with
    | none => exact trivial
    | some t =>
      have hs := hs t hi
      dsimp only
      cases hp : t.pos with
      | «at» k => obtain ⟨y, v, h3, h4⟩ := hit i t k hi hp; dsimp only; rw [h3]; dsimp only; rw [h4]; exact trivial
      | fin => exact trivial
      | invalid => exact trivial
      | unspecified => exact absurd hp hs
  | incr i =>
    simp only [ideal]
    cases hi : s.its i with
    | none => exact trivial
    | some t =>
      have hs := hs t hi
      dsimp only
      cases hp : t.pos with
      | «at» k => obtain ⟨y, v, h3, h4⟩ := hit i t k hi hp; dsimp only; rw [h3]; exact trivial
      | fin => exact trivial
      | invalid => exact trivial
      | unspecified => exact absurd hp hs.1
  | _ => simp only [ideal, SWorld.add, SWorld.ref]; (repeat' split) <;> exact trivial

/-- C38 (partial): nothing is undefined, except for the cases that `SWorld.Specified` excludes. -/
theorem C38_defined_partial (kind : Kind) (ops : List (MOp K V)) (op : MOp K V)
    (hs : ((SWorld.empty : SWorld K V).idealRun kind lt ops).Specified kind op) :
    (((MWorld.empty : MWorld K V).run kind lt ops).exec kind lt op).2.Defined := by
  rw [C38_results_partial ht kind ops op hs]
  exact ideal_defined_map ht kind ops op hs

end

/-! ## What is excluded -/

/-- The order of numbers. -/
def natLt (a b : Nat) : Bool := decide (a < b)

theorem natLt_total : StrictTotal natLt := by
  constructor
  · intro a; simp [natLt]
  · intro a b c h1 h2; simp [natLt] at *; omega
  · intro a b; simp [natLt]; omega

/-- C38 fails for copies: the end iterator of a copy is not recognized, because the end of the original is looked at. -/
theorem C38_fails_copy : (((MWorld.empty : MWorld Nat Nat).run .map natLt [.make [(1, 10), (2, 20)], .copy 0, .fin 1 false]).exec .map natLt
    (.deref 0)).2 = .ub := by decide

/-- Also after the original is gone, dereferencing a valid iterator of a copy uses it. -/
theorem C38_fails_copy_destroyed : (((MWorld.empty : MWorld Nat Nat).run .map natLt [.make [(1, 10), (2, 20)], .copy 0, .destroy 0, .begin 1 false]).exec
    .map natLt (.deref 0)).2 = .ub := by decide

/-- C38 fails for a map that has been moved to a new one: its iterators look at the old one. -/
theorem C38_fails_move : (((MWorld.empty : MWorld Nat Nat).run .map natLt [.make [(1, 10), (2, 20)], .move 0, .destroy 0, .begin 1 false]).exec
    .map natLt (.deref 0)).2 = .ub := by decide

/-- C38 fails for iterators of a map that is moved to another one by assignment: clearing the other map does not invalidate them. -/
theorem C38_fails_move_assign : (((MWorld.empty : MWorld Nat Nat).run .map natLt
    [.make [(1, 10), (2, 20)], .make [], .begin 0 false, .assignMove 1 0, .clear 1]).exec .map natLt (.deref 0)).2 = .ub := by decide

/-- C38 fails for constant iterators at the end of a map: incrementing them is undefined; for other iterators it throws. -/
theorem C38_fails_const_end :
    (((MWorld.empty : MWorld Nat Nat).run .map natLt [.make [(1, 10)], .fin 0 true]).exec .map natLt (.incr 0)).2 = .ub ∧
    (((MWorld.empty : MWorld Nat Nat).run .map natLt [.make [(1, 10)], .fin 0 false]).exec .map natLt (.incr 0)).2 = .throw .indexError := by decide

-- the hypotheses of the theorems are met by programs with all kinds of operations
example : ((SWorld.empty : SWorld Nat Nat).idealRun .map natLt
    [.make [(5, 50), (1, 10)], .begin 0 false, .incr 0, .put 0 1 11, .copy 0, .begin 0 true]).Specified .map (.deref 0) := by
  intro t h; cases h; intro n; cases n
example : (((MWorld.empty : MWorld Nat Nat).run .map natLt
    [.make [(5, 50), (1, 10)], .begin 0 false, .incr 0, .put 0 1 11, .copy 0, .begin 0 true]).exec .map natLt (.deref 0)).2 = .ok (.elem 5 50) := by decide
example : (((MWorld.empty : MWorld Nat Nat).run .map natLt
    [.make [(5, 50), (1, 10)], .begin 0 false, .incr 0, .put 0 2 11]).exec .map natLt (.deref 0)).2 = .throw .invalidIterator := by decide
example : (((MWorld.empty : MWorld Nat Unit).run .set natLt
    [.make [(5, ()), (1, ())], .begin 0 false, .put 0 2 (), .incr 0]).exec .set natLt (.deref 0)).2 = .ok (.elem 2 ()) := by decide

end Verif.Cont
