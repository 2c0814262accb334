import Verif.Ref.Model

/-!
# The counting invariant and the simulation
-/

namespace Verif.Ref

@[simp] theorem upd_same {α : Type} (f : Nat → α) (i : Nat) (x : α) : upd f i x i = x := by simp [upd]
theorem upd_ne {α : Type} (f : Nat → α) {i j : Nat} (x : α) (h : j ≠ i) : upd f i x j = f j := by simp [upd, h]

/-- What a handle is in the specification. -/
def Handle.bound : Handle → Bound
  | .value (.shared p) => ⟨.value, p⟩
  | .value (.raw p) => ⟨.self, p⟩
  | .strong p => ⟨.strong, p⟩
  | .weak p => ⟨.weak, p⟩

/-- Number of owners a table slot contributes for object `o`. -/
def own1 (x : Option Handle) (o : Nat) : Nat :=
  match x with
  | none => 0
  | some h => if h.owned = some o then 1 else 0

/-- Owners of `o` among the first `n` handles. -/
def owners (f : Nat → Option Handle) (o : Nat) : Nat → Nat
  | 0 => 0
  | n + 1 => owners f o n + own1 (f n) o

theorem owners_congr {f g : Nat → Option Handle} {o n : Nat} (h : ∀ i, i < n → f i = g i) :
    owners f o n = owners g o n := by
  induction n with
  | zero => rfl
  | succ n ih =>
    show owners f o n + own1 (f n) o = owners g o n + own1 (g n) o
    rw [ih (fun i hi => h i (Nat.lt_succ_of_lt hi)), h n (Nat.lt_succ_self n)]

theorem owners_upd {f : Nat → Option Handle} {o n i : Nat} {x : Option Handle} (h : i < n) :
    owners (upd f i x) o n + own1 (f i) o = owners f o n + own1 x o := by
  induction n with
  | zero => omega
  | succ n ih =>
    show owners (upd f i x) o n + own1 (upd f i x n) o + _ = owners f o n + own1 (f n) o + _
    by_cases he : i = n
    · subst he
      rw [upd_same, owners_congr (g := f) (fun j hj => upd_ne f x (by omega))]
      omega
    · rw [upd_ne f x (fun h => he h.symm)]
      have := ih (by omega)
      omega

theorem owners_pos {f : Nat → Option Handle} {o n : Nat} : 0 < owners f o n ↔ ∃ i, i < n ∧ own1 (f i) o = 1 := by
  induction n with
  | zero => exact ⟨fun h => absurd h (Nat.lt_irrefl 0), fun ⟨i, h, _⟩ => absurd h (Nat.not_lt_zero i)⟩
  | succ n ih =>
    show 0 < owners f o n + own1 (f n) o ↔ _
    constructor
    · intro h
      by_cases h0 : 0 < owners f o n
      · obtain ⟨i, hi, hx⟩ := ih.mp h0
        exact ⟨i, by omega, hx⟩
      · refine ⟨n, Nat.lt_succ_self n, ?_⟩
        have hle : own1 (f n) o ≤ 1 := by
          unfold own1; split
          · omega
          · split <;> omega
        omega
    · rintro ⟨i, hi, hx⟩
      by_cases he : i = n
      · subst he; omega
      · have := ih.mpr ⟨i, by omega, hx⟩
        omega

/-- The references of a slot. -/
def toks (x : Option Nat) : List Nat :=
  match x with
  | none => []
  | some o => [o]

theorem own1_toks (x : Handle) (o : Nat) : own1 (some x) o = (toks x.owned).count o := by
  show (if x.owned = some o then 1 else 0) = _
  cases h : x.owned with
  | none => simp [toks]
  | some p =>
    by_cases hp : p = o
    · subst hp; simp [toks]
    · simp [toks, hp]

/-- A cell matches the ideal object: counted exactly, freed exactly when nobody is left. -/
def CellOk (c : Option Cell) (v n : Nat) : Prop :=
  match c with
  | some c => c.val = v ∧ c.count = n ∧ 0 < n
  | none => n = 0

/-- The simulation. `l` lists the owning pointers currently held in temporaries. -/
structure Sim (w : World) (s : Ideal) (l : List Nat) : Prop where
  nextH : s.nextH = w.nextH
  next : s.next = w.next
  hs : ∀ h, s.hs h = (w.hs h).map Handle.bound
  absent : ∀ h, w.nextH ≤ h → w.hs h = none
  cell : ∀ o, CellOk (w.cells o) (s.val o) (owners w.hs o w.nextH + l.count o)
  fresh : ∀ o, w.next ≤ o → w.cells o = none
  target : ∀ h x o, w.hs h = some x → x.bound.target = some o → o < w.next

theorem CellOk.mono {c : Option Cell} {v n m : Nat} (h : CellOk c v n) (e : n = m) : CellOk c v m := e ▸ h

variable {w : World} {s : Ideal} {l : List Nat}

theorem Sim.init : Sim {} {} [] :=
  ⟨rfl, rfl, fun _ => rfl, fun _ _ => rfl, fun _ => rfl, fun _ _ => rfl, fun _ _ _ h => nomatch h⟩

theorem Sim.lt (h : Sim w s l) {i : Nat} {x : Handle} (hx : w.hs i = some x) : i < w.nextH :=
  Classical.byContradiction fun hn => by
    rw [h.absent i (by omega)] at hx
    cases hx

/-- The cell of an object somebody holds is there. -/
theorem Sim.there (h : Sim w s l) {o : Nat} (hp : 0 < owners w.hs o w.nextH + l.count o) :
    ∃ c, w.cells o = some c ∧ c.val = s.val o := by
  have := h.cell o
  cases hc : w.cells o with
  | none => rw [hc] at this; simp only [CellOk] at this; omega
  | some c => rw [hc] at this; exact ⟨c, rfl, this.1⟩

theorem owns_iff (h : Sim w s l) (i o : Nat) : s.owns i o = true ↔ own1 (w.hs i) o = 1 := by
  unfold Ideal.owns own1
  rw [h.hs i]
  cases w.hs i with
  | none => simp
  | some x =>
    cases x with
    | value p =>
      cases p with
      | shared p => by_cases hp : p = some o <;> simp [Handle.bound, Handle.owned, Kind.owning, hp]
      | raw p => simp [Handle.bound, Handle.owned, Kind.owning]
    | strong p => by_cases hp : p = some o <;> simp [Handle.bound, Handle.owned, Kind.owning, hp]
    | weak p => simp [Handle.bound, Handle.owned, Kind.owning]

theorem alive_iff_owned (h : Sim w s l) (o : Nat) : s.alive o = true ↔ 0 < owners w.hs o w.nextH := by
  unfold Ideal.alive
  rw [List.any_eq_true, owners_pos, h.nextH]
  constructor
  · rintro ⟨i, hi, ho⟩
    exact ⟨i, List.mem_range.mp hi, (owns_iff h i o).mp ho⟩
  · rintro ⟨i, hi, ho⟩
    exact ⟨i, List.mem_range.mpr hi, (owns_iff h i o).mpr ho⟩

/-- Without temporaries, an object's memory is there exactly while it is alive. -/
theorem Sim.alive_iff (h : Sim w s []) (o : Nat) : s.alive o = (w.cells o).isSome := by
  have hc := h.cell o
  have ha := alive_iff_owned h o
  rw [List.count_nil, Nat.add_zero] at hc
  cases hcell : w.cells o with
  | none =>
    rw [hcell] at hc
    simp only [CellOk] at hc
    cases hal : s.alive o with
    | true => have := ha.mp hal; omega
    | false => rfl
  | some c =>
    rw [hcell] at hc
    rw [ha.mpr hc.2.2]; rfl

/-! ## Primitives -/

theorem sim_retain (h : Sim w s l) {o : Nat} (hp : 0 < owners w.hs o w.nextH + l.count o) :
    ∃ w', retain o w = .ok w' ∧ Sim w' s (o :: l) ∧ w'.hs = w.hs ∧ w'.nextH = w.nextH ∧ w'.next = w.next := by
  obtain ⟨c, hc, hv⟩ := h.there hp
  refine ⟨{ w with cells := upd w.cells o (some { c with count := c.count + 1 }) }, by simp only [retain, hc], ?_,
    rfl, rfl, rfl⟩
  refine ⟨h.nextH, h.next, h.hs, h.absent, fun o' => ?_, fun o' ho' => ?_, h.target⟩
  · show CellOk (upd w.cells o (some { c with count := c.count + 1 }) o') (s.val o')
      (owners w.hs o' w.nextH + (o :: l).count o')
    by_cases he : o' = o
    · subst he
      rw [upd_same]
      have := h.cell o'
      rw [hc] at this
      simp only [CellOk] at this ⊢
      rw [List.count_cons_self]
      exact ⟨this.1, by omega, by omega⟩
    · rw [upd_ne _ _ he, List.count_cons_of_ne (fun h => he h.symm)]
      exact h.cell o'
  · show upd w.cells o _ o' = none
    have hne : o' ≠ o := by
      intro he; subst he
      have := h.fresh o' ho'
      rw [hc] at this; cases this
    rw [upd_ne _ _ hne]
    exact h.fresh o' ho'

theorem sim_release {o : Nat} (h : Sim w s (o :: l)) :
    ∃ w', release o w = .ok w' ∧ Sim w' s l ∧ w'.hs = w.hs ∧ w'.nextH = w.nextH ∧ w'.next = w.next := by
  obtain ⟨c, hc, hv⟩ := h.there (o := o) (by rw [List.count_cons_self]; omega)
  refine ⟨{ w with cells := upd w.cells o (if c.count ≤ 1 then none else some { c with count := c.count - 1 }) },
    by simp only [release, hc], ?_, rfl, rfl, rfl⟩
  refine ⟨h.nextH, h.next, h.hs, h.absent, fun o' => ?_, fun o' ho' => ?_, h.target⟩
  · show CellOk (upd w.cells o _ o') (s.val o') (owners w.hs o' w.nextH + l.count o')
    by_cases he : o' = o
    · subst he
      rw [upd_same]
      have := h.cell o'
      rw [hc] at this
      simp only [CellOk] at this
      rw [List.count_cons_self] at this
      split
      · show _ = 0; omega
      · exact ⟨this.1, show c.count - 1 = _ by omega, by omega⟩
    · rw [upd_ne _ _ he]
      have := h.cell o'
      rw [List.count_cons_of_ne (fun h => he h.symm)] at this
      exact this
  · show upd w.cells o _ o' = none
    have hne : o' ≠ o := by
      intro he; subst he
      have := h.fresh o' ho'
      rw [hc] at this; cases this
    rw [upd_ne _ _ hne]
    exact h.fresh o' ho'

theorem sim_release? {p : Option Nat} (h : Sim w s (toks p ++ l)) :
    ∃ w', release? p w = .ok w' ∧ Sim w' s l ∧ w'.hs = w.hs ∧ w'.nextH = w.nextH ∧ w'.next = w.next := by
  cases p with
  | none => exact ⟨w, rfl, h, rfl, rfl, rfl⟩
  | some o => exact sim_release h

theorem sim_retain? (h : Sim w s l) {p : Option Nat}
    (hp : ∀ o, p = some o → 0 < owners w.hs o w.nextH + l.count o) :
    ∃ w', retain? p w = .ok w' ∧ Sim w' s (toks p ++ l) ∧ w'.hs = w.hs ∧ w'.nextH = w.nextH ∧ w'.next = w.next := by
  cases p with
  | none => exact ⟨w, rfl, h, rfl, rfl, rfl⟩
  | some o => exact sim_retain h (hp o rfl)

theorem sim_make (h : Sim w s l) (v : Nat) : Sim (make v w) (s.fresh v) (w.next :: l) := by
  have h0 := h.cell w.next
  rw [h.fresh w.next (Nat.le_refl _)] at h0
  simp only [CellOk] at h0
  refine ⟨h.nextH, congrArg (· + 1) h.next, h.hs, h.absent, fun o => ?_, fun o ho => ?_, ?_⟩
  · show CellOk (upd w.cells w.next _ o) (if o = s.next then v else s.val o) (owners w.hs o w.nextH + _)
    rw [h.next]
    by_cases he : o = w.next
    · subst he
      rw [upd_same, if_pos rfl, List.count_cons_self]
      exact ⟨rfl, show 1 = _ by omega, by omega⟩
    · rw [upd_ne _ _ he, if_neg he, List.count_cons_of_ne (fun h => he h.symm)]
      exact h.cell o
  · show upd w.cells w.next _ o = none
    have ho' : w.next + 1 ≤ o := ho
    rw [upd_ne _ _ (by omega)]
    exact h.fresh o (by omega)
  · intro i x o hx ho
    have := h.target i x o hx ho
    show o < w.next + 1
    omega

theorem toks_count (p : Option Nat) (l : List Nat) (o : Nat) : (toks p ++ l).count o = (toks p).count o + l.count o :=
  List.count_append

theorem bound_owned {x : Handle} {o : Nat} (h : x.owned = some o) : x.bound.target = some o := by
  cases x with
  | value p => cases p with
    | shared p => exact h
    | raw p => cases h
  | strong p => exact h
  | weak p => cases h

/-- Overwriting a slot: the tokens of the new pointer go in, those of the old one come out. -/
theorem sim_set {i : Nat} {old x : Handle} (hold : w.hs i = some old) (h : Sim w s (toks x.owned ++ l))
    (ht : ∀ o, x.bound.target = some o → o < w.next) :
    Sim { w with hs := upd w.hs i (some x) } (s.set i (some x.bound)) (toks old.owned ++ l) := by
  have hi := h.lt hold
  refine ⟨h.nextH, h.next, fun j => ?_, fun j hj => ?_, fun o => ?_, h.fresh, ?_⟩
  · show (if j = i then some x.bound else s.hs j) = (upd w.hs i (some x) j).map Handle.bound
    by_cases he : j = i
    · subst he; rw [upd_same, if_pos rfl]; rfl
    · rw [upd_ne _ _ he, if_neg he]; exact h.hs j
  · show upd w.hs i (some x) j = none
    have hj' : w.nextH ≤ j := hj
    rw [upd_ne _ _ (by omega)]
    exact h.absent j hj
  · show CellOk (w.cells o) (s.val o) (owners (upd w.hs i (some x)) o w.nextH + (toks old.owned ++ l).count o)
    refine (h.cell o).mono ?_
    have hu := owners_upd (f := w.hs) (o := o) (x := some x) hi
    rw [hold, own1_toks, own1_toks] at hu
    rw [toks_count, toks_count]
    omega
  · intro j y o hy ho
    have hy' : upd w.hs i (some x) j = some y := hy
    by_cases he : j = i
    · subst he
      rw [upd_same] at hy'
      cases hy'
      exact ht o ho
    · rw [upd_ne _ _ he] at hy'
      exact h.target j y o hy' ho

theorem sim_unset {i : Nat} {old : Handle} (hold : w.hs i = some old) (h : Sim w s l) :
    Sim { w with hs := upd w.hs i none } (s.set i none) (toks old.owned ++ l) := by
  have hi := h.lt hold
  refine ⟨h.nextH, h.next, fun j => ?_, fun j hj => ?_, fun o => ?_, h.fresh, ?_⟩
  · show (if j = i then none else s.hs j) = (upd w.hs i none j).map Handle.bound
    by_cases he : j = i
    · subst he; rw [upd_same, if_pos rfl]; rfl
    · rw [upd_ne _ _ he, if_neg he]; exact h.hs j
  · show upd w.hs i none j = none
    have hj' : w.nextH ≤ j := hj
    rw [upd_ne _ _ (by omega)]
    exact h.absent j hj
  · show CellOk (w.cells o) (s.val o) (owners (upd w.hs i none) o w.nextH + (toks old.owned ++ l).count o)
    refine (h.cell o).mono ?_
    have hu := owners_upd (f := w.hs) (o := o) (x := none) hi
    rw [hold, own1_toks] at hu
    rw [toks_count]
    show _ = _
    simp only [own1] at hu
    omega
  · intro j y o hy ho
    have hy' : upd w.hs i none j = some y := hy
    by_cases he : j = i
    · subst he
      rw [upd_same] at hy'
      cases hy'
    · rw [upd_ne _ _ he] at hy'
      exact h.target j y o hy' ho

theorem sim_create {x : Handle} (h : Sim w s (toks x.owned ++ l)) (ht : ∀ o, x.bound.target = some o → o < w.next) :
    Sim (create x w) (s.push x.bound) l := by
  refine ⟨congrArg (· + 1) h.nextH, h.next, fun j => ?_, fun j hj => ?_, fun o => ?_, h.fresh, ?_⟩
  · show (if j = s.nextH then some x.bound else s.hs j) = (upd w.hs w.nextH (some x) j).map Handle.bound
    rw [h.nextH]
    by_cases he : j = w.nextH
    · subst he; rw [upd_same, if_pos rfl]; rfl
    · rw [upd_ne _ _ he, if_neg he]; exact h.hs j
  · show upd w.hs w.nextH (some x) j = none
    have hj' : w.nextH + 1 ≤ j := hj
    rw [upd_ne _ _ (by omega)]
    exact h.absent j (by omega)
  · show CellOk (w.cells o) (s.val o) (owners (upd w.hs w.nextH (some x)) o w.nextH +
      own1 (upd w.hs w.nextH (some x) w.nextH) o + l.count o)
    refine (h.cell o).mono ?_
    rw [upd_same, own1_toks, toks_count, owners_congr (g := w.hs) (fun j hj => upd_ne _ _ (by omega))]
    omega
  · intro j y o hy ho
    have hy' : upd w.hs w.nextH (some x) j = some y := hy
    by_cases he : j = w.nextH
    · subst he
      rw [upd_same] at hy'
      cases hy'
      exact ht o ho
    · rw [upd_ne _ _ he] at hy'
      exact h.target j y o hy' ho

theorem sim_store (h : Sim w s l) {o : Nat} (v : Nat) (hp : 0 < owners w.hs o w.nextH + l.count o) :
    ∃ w', store o v w = .ok w' ∧ Sim w' (s.put o v) l ∧ w'.hs = w.hs := by
  obtain ⟨c, hc, hv⟩ := h.there hp
  refine ⟨{ w with cells := upd w.cells o (some { c with val := v }) }, by simp only [store, hc], ?_, rfl⟩
  refine ⟨h.nextH, h.next, h.hs, h.absent, fun o' => ?_, fun o' ho' => ?_, h.target⟩
  · show CellOk (upd w.cells o (some { c with val := v }) o') (if o' = o then v else s.val o') _
    by_cases he : o' = o
    · subst he
      rw [upd_same, if_pos rfl]
      have := h.cell o'
      rw [hc] at this
      exact ⟨rfl, this.2.1, this.2.2⟩
    · rw [upd_ne _ _ he, if_neg he]
      exact h.cell o'
  · show upd w.cells o _ o' = none
    have hne : o' ≠ o := by
      intro he; subst he
      have := h.fresh o' ho'
      rw [hc] at this; cases this
    rw [upd_ne _ _ hne]
    exact h.fresh o' ho'

theorem sim_load (h : Sim w s l) {o : Nat} (hp : 0 < owners w.hs o w.nextH + l.count o) :
    load o w = .ok (s.val o) := by
  obtain ⟨c, hc, hv⟩ := h.there hp
  simp only [load, hc, hv]

theorem sim_replace {i : Nat} {old x : Handle} (hold : w.hs i = some old) (h : Sim w s (toks x.owned ++ l))
    (ht : ∀ o, x.bound.target = some o → o < w.next) :
    ∃ w', replace i x w = .ok w' ∧ Sim w' (s.set i (some x.bound)) l ∧ w'.hs = upd w.hs i (some x) ∧
      w'.nextH = w.nextH ∧ w'.next = w.next := by
  obtain ⟨w', h1, h2, h3, h4, h5⟩ := sim_release? (sim_set hold h ht)
  refine ⟨w', ?_, h2, h3, h4, h5⟩
  simp only [replace, hold]
  exact h1

/-- An owner keeps its object there. -/
theorem Sim.holds (h : Sim w s l) {i : Nat} {x : Handle} {o : Nat} (hx : w.hs i = some x) (ho : x.owned = some o) :
    0 < owners w.hs o w.nextH + l.count o := by
  have : 0 < owners w.hs o w.nextH := owners_pos.mpr ⟨i, h.lt hx, by rw [hx, own1_toks, ho]; simp [toks]⟩
  omega

end Verif.Ref
