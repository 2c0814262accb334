import Verif.Stream.ViewLemmas3
import Verif.Stream.Props
/-!
# Views: property theorems

Each theorem is about a view made at some point of a stream's history (`ops`) and used after any further operations
(`more`). The specification is the ideal stream of `Spec.lean`: the view's window is the part of everything ever
appended between the view's begin and its end (or the end of the data). The hypotheses are that no trim went backwards,
that the view's begin has not been trimmed off (otherwise the code throws, `view_begin_trimmed`), and that the view is not
inverted.
-/

namespace Verif.Stream
open Chain

/-- The cells a view from `a` to `b` (open-ended for `none`) shows of an ideal stream. -/
def Ideal.window (s : Ideal) (a : Nat) (b : Option Nat) : List Cell :=
  (s.all.drop a).take ((match b with | some b => b | none => s.all.length) - a)

/-- `View(stream.at(a), stream.at(b))`, or `View(stream.at(a))`. -/
def Chain.viewAt (c : Chain) (a : Nat) (b : Option Nat) : Res View := do
  let i ← c.at a
  match b with
  | none => .ok ⟨i, none⟩
  | some b => do
    let j ← c.at b
    View.mk2 c i j

/-- The views a program can hold after a history `ops`: made from the stream, or obtained from such a view by any of the
    view operations (at any earlier or the current time). -/
inductive Derived : List Op → View → Prop
  | make {ops : List Op} {v : View} (a : Nat) (b : Option Nat) : (({} : Chain).run ops).viewAt a b = .ok v → Derived ops v
  | later {ops : List Op} {v : View} (more : List Op) : Derived ops v → Derived (ops ++ more) v
  | limit {ops : List Op} {v w : View} (n : Nat) : Derived ops v → v.limit (({} : Chain).run ops) n = .ok w → Derived ops w
  | advance {ops : List Op} {v w : View} (n : Nat) : Derived ops v → v.advance (({} : Chain).run ops) n = .ok w →
      Derived ops w
  | advanceTo {ops : List Op} {v : View} {i : Iter} (o : Nat) : Derived ops v → (({} : Chain).run ops).at o = .ok i →
      Derived ops (v.advanceTo i)
  | sub {ops : List Op} {v w : View} (x y : Nat) : Derived ops v → v.sub (({} : Chain).run ops) x y = .ok w → Derived ops w
  | trim {ops : List Op} {v w : View} {i : Iter} (o : Nat) : Derived ops v → (({} : Chain).run ops).at o = .ok i →
      v.trim (({} : Chain).run ops) i = .ok w → Derived ops w
  | extract {ops : List Op} {v w : View} {bs : List Byte} (n : Nat) : Derived ops v →
      v.extract (({} : Chain).run ops) n = .ok (bs, w) → Derived ops w
  | nextData {ops : List Op} {v w : View} : Derived ops v → v.advanceToNextData (({} : Chain).run ops) = .ok w →
      Derived ops w

/-- A view from `a` to `b` was obtained after `ops`, and `more` happened since then. -/
structure ViewOf (ops more : List Op) (a : Nat) (b : Option Nat) (v : View) : Prop where
  forward : ForwardTrims {} (ops ++ more)
  made : Derived ops v
  begin : v.begin.offset = a
  «end» : v.end.map (·.offset) = b
  avail : (({} : Ideal).run (ops ++ more)).start ≤ a
  order : ∀ e, b = some e → a ≤ e

/-- The state of the stream when the view is used. -/
abbrev streamAfter (ops more : List Op) : Chain := ({} : Chain).run (ops ++ more)
/-- The ideal stream at that time. -/
abbrev idealAfter (ops more : List Op) : Ideal := ({} : Ideal).run (ops ++ more)

theorem run_append (c : Chain) (xs ys : List Op) : c.run (xs ++ ys) = (c.run xs).run ys := by
  simp [Chain.run, List.foldl_append]

theorem run_iterOk {c : Chain} (h : c.Live) {i : Iter} (hi : c.IterOk i) (ops : List Op) : (c.run ops).IterOk i := by
  induction ops generalizing c with
  | nil => exact hi
  | cons op ops ih => exact ih (step_live h op).1 (hi.evolves (step_live h op).2.2)

/-- The facts used about a view made earlier. -/
structure Ready (ops more : List Op) (a : Nat) (b : Option Nat) (v : View) : Prop where
  live : (streamAfter ops more).Live
  headPos : (streamAfter ops more).HeadPos
  good : v.Good (streamAfter ops more)
  begin : v.begin.offset = a
  iter : (streamAfter ops more).IterOk v.begin
  endIter : ∀ e, v.end = some e → (streamAfter ops more).IterOk e
  «end» : v.end.map (·.offset) = b
  stop : (streamAfter ops more).stop = max (idealAfter ops more).all.length (idealAfter ops more).start
  window : v.window (streamAfter ops more) = (idealAfter ops more).window a b

theorem ForwardTrims.prefix {s : Ideal} {xs ys : List Op} (h : ForwardTrims s (xs ++ ys)) : ForwardTrims s xs := by
  induction xs generalizing s with
  | nil => trivial
  | cons x xs ih => cases x <;> simp only [List.cons_append, ForwardTrims] at h ⊢ <;> first | exact ⟨h.1, ih h.2⟩ | exact ih h

theorem mk2_inv {c : Chain} {i j : Iter} {v : View} (h : View.mk2 c i j = .ok v) : v = ⟨i, some j⟩ := by
  unfold View.mk2 View.ensureValid at h
  split at h
  · split at h
    · cases h
    · simp only [Res.ok_bind] at h; injection h with h; exact h.symm
  · cases h

/-- The iterators of all views a program can hold are good. -/
theorem Derived.iters {ops : List Op} {v : View} (hd : Derived ops v) (hf : ForwardTrims {} ops) :
    (({} : Chain).run ops).IterOk v.begin ∧ ∀ e, v.end = some e → (({} : Chain).run ops).IterOk e := by
  induction hd with
  | @make ops v a b hm =>
    have hl0 : (({} : Chain).run ops).Live := run_live live_init ops
    obtain ⟨i, i1, i2, i3⟩ := at_spec hl0 a
    unfold viewAt at hm
    rw [i1] at hm
    simp only [Res.ok_bind] at hm
    cases b with
    | none => simp only at hm; injection hm with hm; subst hm; exact ⟨i3, by simp⟩
    | some b =>
      obtain ⟨j, j1, j2, j3⟩ := at_spec hl0 b
      simp only at hm
      rw [j1] at hm
      simp only [Res.ok_bind] at hm
      rw [mk2_inv hm]
      exact ⟨i3, by rintro e ⟨⟩; exact j3⟩
  | @later ops v more _ ih =>
    obtain ⟨h1, h2⟩ := ih hf.prefix
    have hl0 : (({} : Chain).run ops).Live := run_live live_init ops
    rw [run_append]
    exact ⟨run_iterOk hl0 h1 more, fun e he => run_iterOk hl0 (h2 e he) more⟩
  | @limit ops v w n _ hw ih =>
    obtain ⟨h1, h2⟩ := ih hf
    have hl0 : (({} : Chain).run ops).Live := run_live live_init ops
    unfold View.limit at hw
    obtain ⟨j, j1, j2, j3⟩ := incr_spec hl0 h1 (v.limitTo n)
    rw [j1] at hw
    simp only [Res.ok_bind] at hw
    rw [mk2_inv hw]
    exact ⟨h1, by rintro e ⟨⟩; exact j3⟩
  | @advance ops v w n _ hw ih =>
    obtain ⟨h1, h2⟩ := ih hf
    obtain ⟨j, j1, j2, j3⟩ := incr_spec (run_live live_init ops) h1 n
    unfold View.advance at hw
    rw [j1] at hw
    simp only [Res.ok_bind] at hw
    injection hw with hw; subst hw
    exact ⟨j3, h2⟩
  | @advanceTo ops v i o _ hi ih =>
    obtain ⟨j, j1, j2, j3⟩ := at_spec (run_live live_init ops) o
    rw [hi] at j1; injection j1 with j1; subst j1
    exact ⟨j3, (ih hf).2⟩
  | @sub ops v w x y _ hw ih =>
    obtain ⟨h1, h2⟩ := ih hf
    obtain ⟨i, i1, i2, i3⟩ := incr_spec (run_live live_init ops) h1 x
    obtain ⟨j, j1, j2, j3⟩ := incr_spec (run_live live_init ops) h1 y
    unfold View.sub at hw
    rw [i1, j1] at hw
    simp only [Res.ok_bind] at hw
    rw [mk2_inv hw]
    exact ⟨i3, by rintro e ⟨⟩; exact j3⟩
  | @trim ops v w i o _ hi hw ih =>
    obtain ⟨h1, h2⟩ := ih hf
    obtain ⟨j, j1, j2, j3⟩ := at_spec (run_live live_init ops) o
    rw [hi] at j1; injection j1 with j1; subst j1
    unfold View.trim at hw
    cases he : v.end with
    | none =>
      rw [he] at hw
      simp only at hw
      injection hw with hw; subst hw
      exact ⟨j3, by simp⟩
    | some e =>
      rw [he] at hw
      simp only at hw
      split at hw
      · rw [mk2_inv hw]; exact ⟨h2 e he, by rintro e' ⟨⟩; exact h2 e he⟩
      · rw [mk2_inv hw]; exact ⟨j3, by rintro e' ⟨⟩; exact h2 e he⟩
  | @extract ops v w bs n _ hw ih =>
    obtain ⟨h1, h2⟩ := ih hf
    obtain ⟨j, j1, j2, j3⟩ := incr_spec (run_live live_init ops) h1 n
    unfold View.extract at hw
    cases e1 : v.ensureValid (({} : Chain).run ops) with
    | ub => rw [e1] at hw; cases hw
    | throw e => rw [e1] at hw; cases hw
    | ok u =>
      rw [e1] at hw
      simp only [Res.ok_bind] at hw
      cases e2 : v.size (({} : Chain).run ops) with
      | ub => rw [e2] at hw; cases hw
      | throw e => rw [e2] at hw; cases hw
      | ok sz =>
        rw [e2] at hw
        simp only [Res.ok_bind] at hw
        split at hw
        · cases hw
        · cases e3 : (({} : Chain).run ops).findChunk v.begin.offset none with
          | ub => rw [e3] at hw; cases hw
          | throw e => rw [e3] at hw; cases hw
          | ok ks =>
            rw [e3] at hw
            simp only [Res.ok_bind] at hw
            cases e4 : View.extractLoop ks v.begin.offset n with
            | ub => rw [e4] at hw; cases hw
            | throw e => rw [e4] at hw; cases hw
            | ok xs =>
              rw [e4, j1] at hw
              simp only [Res.ok_bind] at hw
              injection hw with hw
              injection hw with _ hw
              subst hw
              exact ⟨j3, h2⟩
  | @nextData ops v w _ hw ih =>
    obtain ⟨h1, h2⟩ := ih hf
    have r := rel_run rel_init ops hf
    obtain ⟨w', w1, w2, w3, w4⟩ := View.advanceToNextData_spec r.live r.headPos h1
    rw [hw] at w1; injection w1 with w1; subst w1
    exact ⟨w3, by rw [w2]; exact h2⟩

theorem ViewOf.ready {ops more : List Op} {a : Nat} {b : Option Nat} {v : View} (hv : ViewOf ops more a b v) :
    Ready ops more a b v := by
  have r := rel_run rel_init (ops ++ more) hv.forward
  have hl0 : (({} : Chain).run ops).Live := run_live live_init ops
  have hstop : (streamAfter ops more).stop = max (idealAfter ops more).all.length (idealAfter ops more).start := by
    rw [stop_eq r.live.inv, r.content, r.start, List.length_drop]
    have hle : (idealAfter ops more).start ≤ (idealAfter ops more).all.length := r.le
    show (idealAfter ops more).start + ((idealAfter ops more).all.length - (idealAfter ops more).start) =
      max (idealAfter ops more).all.length (idealAfter ops more).start
    omega
  have hle : (idealAfter ops more).start ≤ (idealAfter ops more).all.length := r.le
  obtain ⟨i1, i2⟩ := hv.made.iters hv.forward.prefix
  have hb : v.begin.offset = a := hv.begin
  have c2 : v.end.map (·.offset) = b := hv.end
  have it : (streamAfter ops more).IterOk v.begin := by
    unfold streamAfter; rw [run_append]; exact run_iterOk hl0 i1 more
  have ite : ∀ e, v.end = some e → (streamAfter ops more).IterOk e := by
    intro e he
    unfold streamAfter; rw [run_append]; exact run_iterOk hl0 (i2 e he) more
  have hst : (streamAfter ops more).headOffset ≤ a := by
    have := hv.avail
    rw [← r.start] at this; exact this
  have good : v.Good (streamAfter ops more) := by
    refine ⟨it.usable r.live.inv, by rw [hb]; exact hst, fun e he => ⟨(ite e he).usable r.live.inv, ?_⟩⟩
    rw [hb]
    apply hv.order
    rw [← c2, he]; rfl
  refine ⟨r.live, r.headPos, good, hb, it, ite, c2, hstop, ?_⟩
  have hav : (idealAfter ops more).start ≤ a := hv.avail
  unfold View.window View.lim View.endOff Ideal.window Log.slice abs
  simp only
  rw [hb, r.content, List.drop_drop, hstop]
  have e0 : (({} : Chain).run (ops ++ more)).headOffset = (idealAfter ops more).start := r.start
  rw [e0]
  have e1 : (idealAfter ops more).start + (a - (idealAfter ops more).start) = a := by
    have : (idealAfter ops more).start ≤ a := hav
    omega
  rw [e1]
  have key : ∀ m, List.take (min m (max (idealAfter ops more).all.length (idealAfter ops more).start) - a)
      (List.drop a (idealAfter ops more).all) = List.take (m - a) (List.drop a (idealAfter ops more).all) := by
    intro m
    rcases Nat.le_total m (idealAfter ops more).all.length with h | h
    · rw [Nat.min_eq_left (by omega)]
    · rw [List.take_of_length_le, List.take_of_length_le] <;> simp <;> omega
  cases hve : v.end with
  | none =>
    rw [hve] at c2
    simp at c2
    subst c2
    simp only
    rw [Nat.min_self]
    have hmx : max (idealAfter ops more).all.length (idealAfter ops more).start = (idealAfter ops more).all.length := by omega
    exact congrArg (fun n => List.take (n - a) (List.drop a (idealAfter ops more).all)) hmx
  | some e =>
    rw [hve] at c2
    simp at c2
    subst c2
    exact key e.offset

/-- Non-vacuity of `ViewOf`: views across chunks made before more data arrives and before a trim. -/
example : ∃ v, ViewOf [.append [1, 2, 3], .append [4, 5]] [.append [6], .trim 1, .appendGap 2] 1 (some 7) v :=
  ⟨_, by decide, .make 1 (some 7) rfl, rfl, rfl, by decide, by decide⟩
example : ∃ v, ViewOf [.append [1, 2, 3], .append [4, 5]] [.append [6], .trim 1] 1 none v :=
  ⟨_, by decide, .make 1 none rfl, rfl, rfl, by decide, by decide⟩

/-- If the view's begin has been trimmed off, checked observers throw. -/
theorem view_begin_trimmed (c : Chain) (v : View) (h : v.begin.offset < c.headOffset) (n : Nat) (bs : List Byte) (b : Byte) :
    v.extract c n = .throw .invalidIterator ∧ v.find c bs = .throw .invalidIterator ∧
    v.findByte c b = .throw .invalidIterator ∧ v.data c = .throw .invalidIterator ∧
    v.startsWith c bs = .throw .invalidIterator ∧ v.isComplete c = .throw .invalidIterator := by
  have e : v.ensureValid c = .throw .invalidIterator := by
    unfold View.ensureValid
    simp [h]
  simp [View.extract, View.find, View.findByte, View.data, View.firstBlock, View.startsWith, View.isComplete, e]

/-! ## C06: extraction -/

theorem bytesOf_ok {l : List Cell} {bs : List Byte} : bytesOf l = .ok bs ↔ l = bs.map some := by
  induction l generalizing bs with
  | nil => cases bs <;> simp [bytesOf]
  | cons x l ih =>
    cases x with
    | none => cases bs <;> simp [bytesOf]
    | some b =>
      simp only [bytesOf]
      cases bs with
      | nil => cases bytesOf l <;> simp
      | cons b' bs =>
        simp only [List.map_cons, List.cons.injEq, Option.some.injEq]
        rw [← ih]
        cases bytesOf l <;> simp

theorem bytesOf_throw {l : List Cell} (h : none ∈ l) : bytesOf l = .throw .missingData := by
  induction l with
  | nil => cases h
  | cons x l ih =>
    cases x with
    | none => rfl
    | some b =>
      simp at h
      simp only [bytesOf, ih h]

/-- C06. `view.extract(n)`: `WouldBlock` if the view has fewer than `n` bytes available; `MissingData` if there is a gap
    among the first `n`; otherwise exactly those bytes, and the new view starts `n` later with the same end. -/
theorem C06_extract {ops more : List Op} {a : Nat} {b : Option Nat} {v : View} (hv : ViewOf ops more a b v) (n : Nat) :
    let w := (idealAfter ops more).window a b
    let c := streamAfter ops more
    (w.length < n → v.extract c n = .throw .wouldBlock) ∧
    (n ≤ w.length → none ∈ w.take n → v.extract c n = .throw .missingData) ∧
    (∀ bs : List Byte, n ≤ w.length → w.take n = bs.map some →
      ∃ v', v.extract c n = .ok (bs, v') ∧ v'.begin.offset = a + n ∧ v'.end = v.end ∧
        v'.window c = w.drop n) := by
  intro w c
  have r := hv.ready
  have hs := View.extract_spec r.live r.good r.iter n
  have hw : v.window c = w := r.window
  have hc : streamAfter ops more = c := rfl
  rw [hc] at hs
  rw [hw] at hs
  refine ⟨hs.1, fun h1 h2 => ?_, fun bs h1 h2 => ?_⟩
  · have := hs.2 h1
    rw [bytesOf_throw h2] at this
    exact this
  · have := hs.2 h1
    rw [bytesOf_ok.2 h2] at this
    obtain ⟨v', e1, e2, e3, e4⟩ := this
    refine ⟨v', e1, by rw [e2, r.begin], e4, ?_⟩
    rw [← hw]
    unfold View.window View.lim View.endOff
    rw [e4, e2]
    unfold Log.slice
    rw [List.drop_take, List.drop_drop]
    have := r.good.start
    have : c.abs.start = c.headOffset := rfl
    have : (streamAfter ops more).headOffset = c.headOffset := rfl
    congr 1
    · omega
    · congr 1; omega

example : let w := (idealAfter [.append [1, 2, 3], .append [4, 5]] [.append [6], .trim 1, .appendGap 2]).window 1 (some 7)
    w.take 4 = ([2, 3, 4, 5] : List Byte).map some ∧ none ∈ w.take 6 ∧ w.length = 6 := by decide

/-! ## C07: searching for a byte -/

/-- All of the first `p` cells are data other than `b`. -/
def NoneBefore (w : List Cell) (b : Byte) (p : Nat) : Prop := ∀ q < p, ∃ x, w[q]? = some (some x) ∧ x ≠ b

theorem firstByte_cases (b : Byte) (w : List Cell) (p : Nat) (h : NoneBefore w b p) :
    (w[p]? = some (some b) → firstByte b w = .ok (some p)) ∧
    (w[p]? = some none → firstByte b w = .throw .missingData) ∧
    (p = w.length → firstByte b w = .ok none) := by
  induction w generalizing p with
  | nil =>
    refine ⟨by simp, by simp, ?_⟩
    intro _; rfl
  | cons x w ih =>
    cases p with
    | zero =>
      refine ⟨?_, ?_, by simp⟩
      · intro hp; simp at hp; subst hp; simp [firstByte]
      · intro hp; simp at hp; subst hp; simp [firstByte]
    | succ p =>
      obtain ⟨y, hy, hyb⟩ := h 0 (by omega)
      simp at hy
      subst hy
      have := ih p (fun q hq => by have := h (q + 1) (by omega); simpa using this)
      simp only [List.getElem?_cons_succ, List.length_cons, firstByte, hyb, if_false]
      refine ⟨fun h1 => ?_, fun h1 => ?_, fun h1 => ?_⟩
      · rw [this.1 h1]; rfl
      · rw [this.2.1 h1]
      · rw [this.2.2 (by omega)]; rfl

/-- C07. `view.find(b)`: with `p` the first position of the view that does not hold a byte other than `b`, the result is
    the iterator to `p` if `b` is there, `MissingData` if a gap is there, and the view's end if `p` is the end. -/
theorem C07_find_byte {ops more : List Op} {a : Nat} {b : Option Nat} {v : View} (hv : ViewOf ops more a b v) (x : Byte)
    (p : Nat) :
    let w := (idealAfter ops more).window a b
    let c := streamAfter ops more
    NoneBefore w x p →
    (w[p]? = some (some x) → ∃ i, v.findByte c x = .ok i ∧ i.offset = a + p) ∧
    (w[p]? = some none → v.findByte c x = .throw .missingData) ∧
    (p = w.length → ∃ i, v.findByte c x = .ok i ∧ i.offset = match b with | some e => e | none => c.stop) := by
  intro w c hn
  have r := hv.ready
  have hf := fuel_spec r.live.inv v r.good.start
  have hl := lim_le v c
  have hs := View.findByteLoop_spec r.live r.good x (v.fuel c) v.begin.offset r.good.start r.good.endOff
    (by have : c = streamAfter ops more := rfl
        rw [this] at hl ⊢; omega)
  have hw : c.abs.slice v.begin.offset (v.lim c) = w := r.window
  have he : v.findByte c x = v.findByteLoop c x (v.fuel c) ⟨v.begin.offset, c.suffixAt v.begin.offset⟩ := by
    unfold View.findByte
    rw [View.ensureValid_ok r.live r.good, View.unsafeBegin_spec r.live r.good]; rfl
  rw [he]
  have hc : streamAfter ops more = c := rfl
  rw [hc] at hs
  rw [hw] at hs
  obtain ⟨f1, f2, f3⟩ := firstByte_cases x w p hn
  refine ⟨fun h => ?_, fun h => ?_, fun h => ?_⟩
  · rw [f1 h] at hs
    exact ⟨_, hs, by simp [r.begin]⟩
  · rw [f2 h] at hs; exact hs
  · rw [f3 h] at hs
    obtain ⟨i, i1, i2⟩ := hs
    refine ⟨i, i1, ?_⟩
    rw [i2]
    have := r.end
    unfold View.endOff
    cases hve : v.end with
    | none => rw [hve] at this; simp at this; subst this; rfl
    | some e => rw [hve] at this; simp at this; subst this; rfl

/-- The position required by C07 always exists and one of its three cases applies. -/
theorem C07_position_exists (w : List Cell) (x : Byte) : ∃ p, NoneBefore w x p ∧
    (w[p]? = some (some x) ∨ w[p]? = some none ∨ p = w.length) := by
  induction w with
  | nil => exact ⟨0, fun q hq => by omega, by simp⟩
  | cons y w ih =>
    by_cases hy : ∃ z, y = some z ∧ z ≠ x
    · obtain ⟨z, rfl, hz⟩ := hy
      obtain ⟨p, p1, p2⟩ := ih
      refine ⟨p + 1, ?_, by simpa using p2⟩
      intro q hq
      cases q with
      | zero => exact ⟨z, by simp, hz⟩
      | succ q => simpa using p1 q (by omega)
    · refine ⟨0, fun q hq => by omega, ?_⟩
      cases y with
      | none => simp
      | some z =>
        have : z = x := by
          rcases Classical.em (z = x) with h | h
          · exact h
          · exact absurd ⟨z, rfl, h⟩ hy
        simp [this]

/-! ## C08: searching for a sequence -/

/-- C08. `view.find(needle)` on a view whose data up to the first gap (or the end) is `bs`:
    * if `needle` occurs in `bs`, it is found at its first occurrence;
    * otherwise, if there is a gap, `MissingData`;
    * otherwise it is not found, and the position reported is the first one from which on the rest of the data is a
      beginning of `needle` (the end of the data if there is none). -/
theorem C08_find {ops more : List Op} {a : Nat} {b : Option Nat} {v : View} (hv : ViewOf ops more a b v)
    (needle bs : List Byte) (t : List Cell) (hn : needle ≠ []) (ht : t = [] ∨ ∃ r, t = none :: r)
    (hw : (idealAfter ops more).window a b = bs.map some ++ t) :
    let c := streamAfter ops more
    (∀ p, OccursAt needle bs p → (∀ q < p, ¬ OccursAt needle bs q) →
      ∃ i, v.find c needle = .ok (true, i) ∧ i.offset = a + p) ∧
    ((∀ q, ¬ OccursAt needle bs q) → t ≠ [] → v.find c needle = .throw .missingData) ∧
    ((∀ q, ¬ OccursAt needle bs q) → t = [] →
      ∃ i p, v.find c needle = .ok (false, i) ∧ i.offset = a + p ∧ p ≤ bs.length ∧ PartialAt needle bs p ∧
        ∀ q < p, ¬ PartialAt needle bs q) := by
  intro c
  have r := hv.ready
  have hs := View.find_spec r.live r.good hn
  have hw' : v.window c = bs.map some ++ t := by rw [← hw]; exact r.window
  have hc : streamAfter ops more = c := rfl
  rw [hc] at hs
  rw [hw', r.begin] at hs
  rcases searchCells_spec hn bs ht with ⟨p, e1, e2, e3⟩ | ⟨e0, p, e1, e1', e2, e3, e4⟩ | ⟨e0, e1, e2⟩
  · rw [e1] at hs
    refine ⟨fun p' h1 h2 => ?_, fun h => absurd e2 (h p), fun h => absurd e2 (h p)⟩
    have : p = p' := by
      rcases Nat.lt_trichotomy p p' with h | h | h
      · exact absurd e2 (h2 p h)
      · exact h
      · exact absurd h1 (e3 p' h)
    subst this
    exact ⟨_, hs, rfl⟩
  · rw [e1] at hs
    refine ⟨fun p' h1 _ => absurd h1 (e2 p'), fun _ h => absurd e0 h, fun _ _ => ?_⟩
    exact ⟨_, p, hs, rfl, e1', e3, e4⟩
  · rw [e1] at hs
    exact ⟨fun p' h1 _ => absurd h1 (e2 p'), fun _ _ => hs, fun _ h => absurd h e0⟩

/-- C08, resumability: if the needle has not been found in the data `bs` and `p` was reported, then in any continuation of
    the data no occurrence starts before `p`. -/
theorem C08_resume {needle bs : List Byte} {p : Nat} (h1 : ∀ q, ¬ OccursAt needle bs q)
    (h2 : ∀ q < p, ¬ PartialAt needle bs q) (h3 : p ≤ bs.length) (ext : List Byte) (q : Nat)
    (ho : OccursAt needle (bs ++ ext) q) : p ≤ q := by
  rcases Nat.lt_or_ge q p with hq | hq
  · exfalso
    unfold OccursAt at ho
    rw [List.drop_append_of_le_length (by omega)] at ho
    have hpre : bs.drop q <+: bs.drop q ++ ext := List.prefix_append _ _
    rcases Nat.lt_or_ge (bs.drop q).length needle.length with hl | hl
    · apply h2 q hq
      refine ⟨List.prefix_of_prefix_length_le hpre ho (by omega), ?_⟩
      simpa using hl
    · exact h1 q (List.prefix_of_prefix_length_le ho hpre hl)
  · exact hq

/-- C08, resumability at the API: search, append more data, search again: if the first search does not find the needle
    and the second one does, the second result is not before the position the first one reported. -/
theorem C08_resume_find {ops : List Op} {a : Nat} {v : View} {ext needle bs : List Byte} (hn : needle ≠ [])
    (hv : ViewOf ops [] a none v) (hv' : ViewOf ops [.append ext] a none v)
    (hw : (idealAfter ops []).window a none = bs.map some)
    (hw' : (idealAfter ops [.append ext]).window a none = (bs ++ ext).map some)
    {i j : UIter} (h1 : v.find (streamAfter ops []) needle = .ok (false, i))
    (h2 : v.find (streamAfter ops [.append ext]) needle = .ok (true, j)) : i.offset ≤ j.offset := by
  have f1 := C08_find hv needle bs [] hn (Or.inl rfl) (by simpa using hw)
  have f2 := C08_find hv' needle (bs ++ ext) [] hn (Or.inl rfl) (by simpa using hw')
  simp only at f1 f2
  have n1 : ∀ q, ¬ OccursAt needle bs q := by
    rcases searchCells_spec hn bs (t := []) (Or.inl rfl) with ⟨p, _, e2, e3⟩ | ⟨_, p, _, _, e2, _, _⟩ | ⟨e0, _, _⟩
    · obtain ⟨k, k1, _⟩ := f1.1 p e2 e3
      rw [h1] at k1; simp at k1
    · exact e2
    · exact absurd rfl e0
  obtain ⟨i', p, k1, k2, k3, k4, k5⟩ := f1.2.2 n1 trivial
  rw [h1] at k1
  injection k1 with k1
  injection k1 with _ k1
  subst k1
  rcases searchCells_spec hn (bs ++ ext) (t := []) (Or.inl rfl) with ⟨p', _, e2, e3⟩ | ⟨_, p', _, _, e2, _, _⟩ | ⟨e0, _, _⟩
  · obtain ⟨k, m1, m2⟩ := f2.1 p' e2 e3
    rw [h2] at m1
    injection m1 with m1
    injection m1 with _ m1
    subst m1
    have := C08_resume n1 k5 k3 ext p' e2
    omega
  · obtain ⟨k, p'', m1, _⟩ := f2.2.2 e2 trivial
    rw [h2] at m1; simp at m1
  · exact absurd rfl e0

/-- C08: searching for another view's data is searching for its bytes, whatever the chunks of the other stream. -/
theorem C08_find_view {ops more ops' more' : List Op} {a a' : Nat} {b b' : Option Nat} {v w : View}
    (hv : ViewOf ops more a b v) (hw : ViewOf ops' more' a' b' w) (ns : List Byte)
    (hns : (idealAfter ops' more').window a' b' = ns.map some) :
    v.findView (streamAfter ops more) w (streamAfter ops' more') = v.find (streamAfter ops more) ns := by
  have r := hv.ready
  have r' := hw.ready
  exact View.findView_spec r.live r.good r'.live r'.good (by rw [r'.window, hns])

/-- Non-vacuity of C08: a partial match at the end of the data, completed by the next append. -/
example : let ops : List Op := [.append [1, 2, 3], .append [1, 2]]
    (idealAfter ops []).window 0 none = ([1, 2, 3, 1, 2] : List Byte).map some ∧
    ∃ v i j, (({} : Chain).run ops).viewAt 0 none = .ok v ∧ v.find (streamAfter ops []) [2, 3, 4] = .ok (false, i) ∧
      i.offset = 5 - 1 ∧ v.find (streamAfter ops [.append [3, 4]]) [2, 3, 4] = .ok (true, j) ∧ j.offset = 4 :=
  ⟨by decide, _, _, _, rfl, rfl, rfl, rfl, rfl⟩

/-! ## C09: searching backwards -/

/-- C09, partial. `view.find(needle, i, Backward)` for a position `i` inside the available data (all data from the view's
    begin on), at distance `k` from the view's begin: the result is the right-most occurrence whose last byte is at or
    before `i`, except that a needle of `k+1` bytes (which would fill the whole range up to and including `i`) is never
    found. Missing from the full property: positions at the end of the data, where the code is undefined
    (`C09_backward_from_end_undefined`), and the whole-range needle (`C09_backward_misses_whole_range`). -/
theorem C09_find_backward_partial {ops more : List Op} {a : Nat} {b : Option Nat} {v : View} (hv : ViewOf ops more a b v)
    (needle bs : List Byte) (hn : needle ≠ []) (i : Iter) (k : Nat) (hi : (streamAfter ops more).IterOk i)
    (hk : i.offset = a + k) (hin : k < bs.length) (hlim : ∀ e, b = some e → i.offset ≤ e)
    (hw : (idealAfter ops more).window a none = bs.map some) :
    let c := streamAfter ops more
    (k < needle.length → v.rfindAt c needle i = .ok (false, none)) ∧
    (needle.length ≤ k →
      (∃ p j, v.rfindAt c needle i = .ok (true, some j) ∧ j.offset = a + p ∧ OccursAt needle bs p ∧
        p + needle.length ≤ k + 1 ∧ ∀ q, OccursAt needle bs q → q + needle.length ≤ k + 1 → q ≤ p) ∨
      (∃ j, v.rfindAt c needle i = .ok (false, j) ∧ ∀ q, q + needle.length ≤ k + 1 → ¬ OccursAt needle bs q)) := by
  intro c
  have r := hv.ready
  have hc : streamAfter ops more = c := rfl
  have hnl := List.length_pos_iff.2 hn
  -- available data from the view's begin on
  have hsl : c.abs.slice v.begin.offset c.stop = bs.map some := by
    have hr := rel_run rel_init (ops ++ more) hv.forward
    have hle : (idealAfter ops more).start ≤ (idealAfter ops more).all.length := hr.le
    have hst := r.stop
    rw [hc] at hst
    rw [← hw]
    unfold Ideal.window Log.slice abs
    simp only
    have e0 : c.headOffset = (idealAfter ops more).start := hr.start
    have e1 : c.content = (idealAfter ops more).all.drop (idealAfter ops more).start := hr.content
    have hav : (idealAfter ops more).start ≤ a := hv.avail
    rw [r.begin, e0, e1, List.drop_drop, hst,
      show (idealAfter ops more).start + (a - (idealAfter ops more).start) = a by omega]
    rw [List.take_of_length_le, List.take_of_length_le] <;> simp <;> omega
  have hlen : c.stop = a + bs.length := by
    have := congrArg List.length hsl
    have hs := r.good.start
    rw [slice_length (by exact hs) (by rw [stop_abs r.live.inv]; exact Nat.le_refl _), r.begin] at this
    simp at this
    omega
  have hsize : ∃ sz, v.size c = .ok sz ∧ k ≤ sz := by
    refine ⟨_, View.size_spec r.live r.good, ?_⟩
    rw [View.window_length r.live r.good, r.begin]
    rw [hc]
    unfold View.lim View.endOff
    have := r.end
    cases hve : v.end with
    | none => simp only; omega
    | some e =>
      rw [hve] at this
      simp at this
      have := hlim e.offset this.symm
      simp only; omega
  obtain ⟨sz, s1, s2⟩ := hsize
  unfold View.rfindAt View.findBackward
  rw [View.ensureValid_ok r.live r.good, ofSafe_spec r.live (hi.usable r.live.inv)]
  simp only [Res.ok_bind, hn, if_false, hc, s1, r.begin, hk]
  rw [if_neg (by omega), if_neg (by omega), show a + k - a = k by omega]
  constructor
  · intro h; rw [if_pos h]
  · intro h
    rw [if_neg (by omega), udecr_spec r.live _ _ (by omega)]
    simp only [Res.ok_bind]
    have hst : a + k - (needle.length - 1) = v.begin.offset + (k - (needle.length - 1)) := by rw [r.begin]; omega
    rw [hst, hc]
    have hf : k - (needle.length - 1) < v.fuel c + (v.begin.offset + (k - (needle.length - 1))) := by
      have := fuel_spec r.live.inv v r.good.start
      rw [hc] at this
      omega
    rcases View.findBack_spec r.live r.good hn hsl _ _ (by omega) hf with ⟨p, p1, p2, p3, p4⟩ | ⟨p1, p2⟩
    · left
      rw [hc] at p1
      rw [p1]
      refine ⟨p, _, rfl, by simp [r.begin], p3, by omega, ?_⟩
      intro q hq hqk
      exact p4 q (by omega) hq
    · right
      rw [hc] at p1
      rw [p1]
      refine ⟨_, rfl, ?_⟩
      intro q hqk
      exact p2 q (by omega)

/-- Non-vacuity of C09's partial theorem. -/
example : ∃ v i, ViewOf [.append [1, 2, 3], .append [1, 2, 3, 4]] [] 0 none v ∧
    (({} : Chain).run [.append [1, 2, 3], .append [1, 2, 3, 4]]).at 5 = .ok i ∧
    ∃ j, v.rfindAt (streamAfter [.append [1, 2, 3], .append [1, 2, 3, 4]] []) [2, 3] i = .ok (true, some j) ∧ j.offset = 4 :=
  ⟨_, _, ⟨by decide, .make 0 none rfl, rfl, rfl, by decide, by decide⟩, rfl, _, rfl, rfl⟩

/-- C09 is false for searching from the end of the data, which is what `find(needle, Backward)` without a position does
    on an open-ended view: searching a single byte reads past the end of the buffer (`stream.cc` 380, 388), for every
    content of the stream. -/
theorem C09_backward_from_end_undefined (bs : List Byte) (b : Byte) (h : bs ≠ []) :
    ∃ v, (({} : Chain).run [.append bs]).viewAt 0 none = .ok v ∧
      v.rfind (({} : Chain).run [.append bs]) [b] = .ub := by
  have hc : ({} : Chain).run [.append bs] = ofBytes bs := by
    simp [Chain.run, Chain.step, ofBytes_eq_append h]
  have hl : 0 < bs.length := List.length_pos_iff.2 h
  rw [hc]
  have hv : (ofBytes bs).viewAt 0 none = .ok ⟨⟨0, some 0⟩, none⟩ := by
    simp [viewAt, «at», findChunk, findFrom, resolve?, resolve, isValid, ofBytes, Chunk.inRange, Chunk.endOffset,
      Chunk.size, hl]
  refine ⟨_, hv, ?_⟩
  have h1 : (ofBytes bs).endOffset = .ok bs.length := by
    simp [endOffset, resolve?, resolve, ofBytes, Chunk.endOffset, Chunk.size]
  have h2 : (⟨⟨0, some 0⟩, none⟩ : View).size (ofBytes bs) = .ok bs.length := by
    simp [View.size, resolve?, resolve, ofBytes, Chunk.endOffset, Chunk.size]
  have h3 : (⟨⟨0, some 0⟩, none⟩ : View).unsafeEnd (ofBytes bs) =
      .ok ⟨bs.length, [{ id := 0, offset := 0, payload := .data bs, allocated := bs.length }]⟩ := by
    simp only [View.unsafeEnd, h1]
    simp [isValid, resolve?, resolve, ofBytes]
  have h4 : (⟨⟨0, some 0⟩, none⟩ : View).ensureValid (ofBytes bs) = .ok () := by
    simp [View.ensureValid, isValid, ofBytes]
  unfold View.rfind View.findBackward
  rw [h4, h3]
  simp only [Res.ok_bind, h2]
  have e1 : ¬ (bs.length > 0 + bs.length) := by omega
  have e2 : ¬ ([b].length > bs.length - 0) := by simp; omega
  have e3 : ([b] : List Byte).length - 1 = 0 := rfl
  simp only [e1, e2, e3, if_false]
  rw [if_neg (by simp), if_neg (by omega)]
  have e4 : (⟨bs.length, [⟨0, 0, .data bs, bs.length⟩]⟩ : UIter).decr (ofBytes bs) 0 =
      .ok ⟨bs.length, [⟨0, 0, .data bs, bs.length⟩]⟩ := rfl
  rw [e4]
  simp only [Res.ok_bind]
  obtain ⟨f, hf⟩ : ∃ f, (⟨⟨0, some 0⟩, none⟩ : View).fuel (ofBytes bs) + bs.length = f + 1 :=
    ⟨(⟨⟨0, some 0⟩, none⟩ : View).fuel (ofBytes bs) + bs.length - 1, by unfold View.fuel; omega⟩
  rw [hf]
  unfold View.findBackLoop
  have e5 : (⟨bs.length, [⟨0, 0, .data bs, bs.length⟩]⟩ : UIter).deref = .ub := by
    simp [UIter.deref, Chunk.readAt]
  rw [e5]; rfl

/-- C09 is false for a needle that fills the range up to and including the position given: `bcd` is at the beginning of
    the view and `i` points at its last byte, but it is not found. -/
theorem C09_backward_misses_whole_range :
    let c := ({} : Chain).run [.append [98, 99, 100, 101]]
    ∃ v i, c.viewAt 0 none = .ok v ∧ c.at 2 = .ok i ∧ v.rfindAt c [98, 99, 100] i = .ok (false, none) ∧
      v.rfindAt c [99, 100] i ≠ .ok (false, none) :=
  ⟨_, _, rfl, rfl, rfl, by decide⟩

/-- C09 is false for bounded views: the match found lies partly outside of the view. The view is `ab`, but `bc` is
    found in it. -/
theorem C09_backward_finds_outside_of_view :
    let c := ({} : Chain).run [.append [97, 98, 99, 100]]
    ∃ v j, c.viewAt 0 (some 2) = .ok v ∧ v.data c = .ok [97, 98] ∧ v.rfind c [98, 99] = .ok (true, some j) ∧ j.offset = 1 :=
  ⟨_, _, rfl, rfl, rfl, rfl⟩

/-! ## C12: blocks -/

/-- C12. Visiting a view's blocks gives each byte of the view exactly once, in order: the blocks are non-empty, each one
    starts where the one before ended, only the last one says it is last, and their concatenation is the view's data. A
    gap in the view gives `MissingData`. -/
theorem C12_blocks {ops more : List Op} {a : Nat} {b : Option Nat} {v : View} (hv : ViewOf ops more a b v) :
    let w := (idealAfter ops more).window a b
    let c := streamAfter ops more
    (∀ bs : List Byte, w = bs.map some → ∃ bl, v.blocks c = .ok bl ∧ bl.flatMap (·.bytes) = bs ∧ View.BlocksFrom a bl ∧
      v.data c = .ok bs ∧ v.copyRaw c = .ok bs) ∧
    (none ∈ w → v.blocks c = .throw .missingData ∧ v.data c = .throw .missingData ∧
      v.copyRaw c = .throw .missingData) := by
  intro w c
  have r := hv.ready
  have h1 := View.blocks_spec r.live r.good
  have h2 := View.data_spec r.live r.good
  have h3 := View.copyRaw_spec r.live r.good
  rw [r.window] at h1 h2 h3
  constructor
  · intro bs hb
    have hb' := bytesOf_ok.2 hb
    rw [hb'] at h1 h2 h3
    obtain ⟨bl, b1, b2, b3⟩ := h1
    rw [r.begin] at b3
    exact ⟨bl, b1, b2, b3, h2, h3⟩
  · intro hm
    have hb' := bytesOf_throw hm
    rw [hb'] at h1 h2 h3
    exact ⟨h1, h2, h3⟩

/-! ## C02: chunking is unobservable -/

/-- C02. Two views, of two streams with whatever histories (chunks, trims, reuse of cached chunks), that show the same
    cells from the same offset: all observers agree. -/
theorem C02_views_chunking_unobservable {ops more ops' more' : List Op} {a : Nat} {b b' : Option Nat} {v v' : View}
    (hv : ViewOf ops more a b v) (hv' : ViewOf ops' more' a b' v')
    (hw : (idealAfter ops more).window a b = (idealAfter ops' more').window a b') :
    let c := streamAfter ops more
    let c' := streamAfter ops' more'
    v.size c = v'.size c' ∧ v.data c = v'.data c' ∧ v.copyRaw c = v'.copyRaw c' ∧
    (∀ bs, v.startsWith c bs = v'.startsWith c' bs) ∧ (∀ bs, v.eqBytes c bs = v'.eqBytes c' bs) ∧
    (∀ n, (·.1) <$> v.extract c n = (·.1) <$> v'.extract c' n) ∧
    (∀ needle, (fun x => (x.1, x.2.offset)) <$> v.find c needle = (fun x => (x.1, x.2.offset)) <$> v'.find c' needle) ∧
    v.eqView c v' c' = .ok true := by
  intro c c'
  have r := hv.ready
  have r' := hv'.ready
  have e : v.window c = v'.window c' := by
    have e1 : v.window c = _ := r.window
    have e2 : v'.window c' = _ := r'.window
    rw [e1, e2, hw]
  refine ⟨?_, ?_, ?_, fun bs => ?_, fun bs => ?_, fun n => ?_, fun needle => ?_, ?_⟩
  · rw [View.size_spec r.live r.good, View.size_spec r'.live r'.good]
    exact congrArg (fun l => Res.ok l.length) e
  · rw [View.data_spec r.live r.good, View.data_spec r'.live r'.good]; exact congrArg bytesOf e
  · rw [View.copyRaw_spec r.live r.good, View.copyRaw_spec r'.live r'.good]; exact congrArg bytesOf e
  · rw [View.startsWith_spec r.live r.good, View.startsWith_spec r'.live r'.good]
    exact congrArg (View.startsCells bs) e
  · rw [View.eqBytes_spec r.live r.good, View.eqBytes_spec r'.live r'.good]
    exact congrArg (fun l => if l.length = bs.length then View.eqCells l bs else .ok false) e
  · have h1 := View.extract_spec r.live r.good r.iter n
    have h2 := View.extract_spec r'.live r'.good r'.iter n
    have hc : streamAfter ops more = c := rfl
    have hc' : streamAfter ops' more' = c' := rfl
    rw [hc] at h1
    rw [hc'] at h2
    rw [← e] at h2
    by_cases hn : n ≤ (v.window c).length
    · have h1 := h1.2 hn
      have h2 := h2.2 hn
      revert h1 h2
      cases bytesOf ((v.window c).take n) with
      | ok bs =>
        rintro ⟨x, x1, _⟩ ⟨y, y1, _⟩
        rw [x1, y1]; rfl
      | throw ex => intro h1 h2; simp only at h1 h2; rw [h1, h2]
      | ub => exact fun h => h.elim
    · rw [h1.1 (by omega), h2.1 (by omega)]
  · by_cases hn : needle = []
    · subst hn
      simp only [View.find, View.findForward, View.ensureValid_ok r.live r.good, View.ensureValid_ok r'.live r'.good,
        View.unsafeBegin_spec r.live r.good, View.unsafeBegin_spec r'.live r'.good, Res.ok_bind, if_true]
      simp [r.begin, r'.begin, c, c', View.ensureValid_ok r.live r.good, View.ensureValid_ok r'.live r'.good,
        View.unsafeBegin_spec r.live r.good, View.unsafeBegin_spec r'.live r'.good]
    · rw [View.find_spec r.live r.good hn, View.find_spec r'.live r'.good hn, r.window, r'.window, hw, r.begin, r'.begin]
      rcases searchCells needle ((idealAfter ops' more').window a b') with ⟨fd, p⟩ | _ | _ <;> rfl
  · rw [View.eqView_spec r.live r.good r'.live r'.good]
    exact congrArg Res.ok (decide_eq_true e)

example : ∃ v v', ViewOf [.append [1, 2], .append [3]] [] 0 none v ∧ ViewOf [.append [1], .append [2, 3]] [] 0 (some 3) v' ∧
    (idealAfter [.append [1, 2], .append [3]] []).window 0 none =
      (idealAfter [.append [1], .append [2, 3]] []).window 0 (some 3) :=
  ⟨_, _, ⟨by decide, .make 0 none rfl, rfl, rfl, by decide, by decide⟩,
    ⟨by decide, .make 0 (some 3) rfl, rfl, rfl, by decide, by decide⟩, by decide⟩

/-! ## C41: comparison, C42: skipping gaps, C43: completeness, C44: sub-views -/

/-- C41. Views are equal exactly if they show the same cells (a gap equals a gap); a view without gaps equals bytes
    exactly if those are its data. `startsWith` is the prefix test. -/
theorem C41_comparison {ops more ops' more' : List Op} {a a' : Nat} {b b' : Option Nat} {v w : View}
    (hv : ViewOf ops more a b v) (hw : ViewOf ops' more' a' b' w) :
    v.eqView (streamAfter ops more) w (streamAfter ops' more') =
      .ok (decide ((idealAfter ops more).window a b = (idealAfter ops' more').window a' b')) := by
  have r := hv.ready
  have r' := hw.ready
  rw [View.eqView_spec r.live r.good r'.live r'.good, r.window, r'.window]

theorem C41_compare_bytes {ops more : List Op} {a : Nat} {b : Option Nat} {v : View} (hv : ViewOf ops more a b v)
    (xs bs : List Byte) (hw : (idealAfter ops more).window a b = xs.map some) :
    v.eqBytes (streamAfter ops more) bs = .ok (decide (xs = bs)) ∧
    v.startsWith (streamAfter ops more) bs = .ok (decide (bs <+: xs)) := by
  have r := hv.ready
  rw [View.eqBytes_spec r.live r.good, View.startsWith_spec r.live r.good, r.window, hw]
  constructor
  · have : ∀ (xs bs : List Byte), xs.length = bs.length → View.eqCells (xs.map some) bs = .ok (decide (xs = bs)) := by
      intro xs
      induction xs with
      | nil => intro bs hb; cases bs with
        | nil => rfl
        | cons b bs => simp at hb
      | cons x xs ih =>
        intro bs hb
        cases bs with
        | nil => simp at hb
        | cons b bs =>
          simp only [List.map_cons, View.eqCells]
          rw [ih bs (by simpa using hb)]
          by_cases hx : x = b <;> simp [hx]
    simp only [List.length_map]
    split
    · rename_i hl; exact this xs bs hl
    · rename_i hl
      have : xs ≠ bs := fun e => hl (by rw [e])
      simp [this]
  · have : ∀ (bs xs : List Byte), View.startsCells bs (xs.map some) = .ok (decide (bs <+: xs)) := by
      intro bs
      induction bs with
      | nil => intro xs; simp [View.startsCells]
      | cons b bs ih =>
        intro xs
        cases xs with
        | nil => simp [View.startsCells]
        | cons x xs =>
          simp only [List.map_cons, View.startsCells, ih, List.cons_prefix_cons]
          by_cases hx : x = b
          · simp [hx]
          · have : ¬ b = x := fun e => hx e.symm
            simp [hx, this]
    exact this bs xs

/-- C42. `view.advanceToNextData()` moves by at least one byte, to the first position after the view's begin that holds
    data; to the end of the data if only gaps follow; by exactly one byte if no data follows at all. The new begin is not
    before the start of the available data, unless there is none. -/
theorem C42_advance_to_next_data {ops more : List Op} {a : Nat} {v : View} (hf : ForwardTrims {} (ops ++ more))
    (hm : Derived ops v) (hb : v.begin.offset = a) :
    let s := idealAfter ops more
    let from_ := max (a + 1) s.start
    ∃ w, v.advanceToNextData (streamAfter ops more) = .ok w ∧ w.end = v.end ∧
      w.begin.offset = if from_ < s.all.length then from_ + ((s.all.drop from_).takeWhile Option.isNone).length else a + 1 := by
  intro s from_
  have r := rel_run rel_init (ops ++ more) hf
  have hl0 : (({} : Chain).run ops).Live := run_live live_init ops
  have it : (streamAfter ops more).IterOk v.begin := by
    unfold streamAfter; rw [run_append]; exact run_iterOk hl0 (hm.iters hf.prefix).1 more
  obtain ⟨w, w1, w2, w3, w4⟩ := View.advanceToNextData_spec r.live r.headPos it
  refine ⟨w, w1, w2, ?_⟩
  rw [w4]
  have e0 : (({} : Chain).run (ops ++ more)).headOffset = s.start := r.start
  have hle : s.start ≤ s.all.length := r.le
  have hstop : (({} : Chain).run (ops ++ more)).stop = s.all.length := by
    rw [stop_eq r.live.inv, r.content, r.start, List.length_drop]
    have : s = ({} : Ideal).run (ops ++ more) := rfl
    rw [← this]; omega
  rw [hb, e0, hstop]
  have hfrom : from_ = max (a + 1) s.start := rfl
  rw [← hfrom]
  split
  · rename_i hlt
    congr 2
    unfold Log.slice abs
    simp only
    have e1 : (({} : Chain).run (ops ++ more)).content = s.all.drop s.start := r.content
    rw [e0, e1, List.drop_drop, show s.start + (from_ - s.start) = from_ by omega,
      List.take_of_length_le (by simp)]
  · rfl

example : ∃ v, (({} : Chain).run [.append [1], .appendGap 2, .appendGap 1, .append [9]]).viewAt 0 none = .ok v ∧
    ∃ w, v.advanceToNextData (({} : Chain).run [.append [1], .appendGap 2, .appendGap 1, .append [9]]) = .ok w ∧
      w.begin.offset = 4 := ⟨_, rfl, _, rfl, rfl⟩

end Verif.Stream
