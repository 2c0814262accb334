import Verif.Parse.Props
/-!
# What parsers do to the stream

Parsers of all grammars change the stream only by waiting for the host and by trimming. So whatever these two keep up, all
parsers do (`good_run`), for all grammars, whether `Sound` or not.
-/

namespace Verif.Driver
open Verif.Stream Verif.Parse

/-- `Q` holds of the stream and the rest of the schedule at the end; `S` of the stream if the host does not go on. -/
def Post {α : Type} (Q : Chain → Sched → Prop) (S : Chain → Prop) : Out α → Prop
  | .done _ c s => Q c s
  | .throw _ c s => Q c s
  | .suspended c => S c
  | .diverge => True
  | .ub => True

/-- The computation keeps up `Q`. -/
def Good {α : Type} (Q : Chain → Sched → Prop) (S : Chain → Prop) (p : P α) : Prop := ∀ c s, Q c s → Post Q S (p c s)

/-- What keeping up `Q` takes. -/
structure Rules (Q : Chain → Sched → Prop) (S : Chain → Prop) : Prop where
  wait : ∀ cur old c s, Q c s → Post Q S (waitLoop cur old s c)
  trim : ∀ c s o, Q c s → Q (c.trim o).2 s
  inner : ∀ bs (g : Parse.Parser), (∀ t v, Good Q S (g t v)) → ∀ t v, Good Q S (parseFromP bs g t v)

section
variable {Q : Chain → Sched → Prop} {S : Chain → Prop} {α β : Type}

theorem good_bind {x : P α} {f : α → P β} (hx : Good Q S x) (hf : ∀ a, Good Q S (f a)) : Good Q S (x >>= f) := by
  intro c s hq
  have := hx c s hq
  change Post Q S (P.bind x f c s)
  unfold P.bind
  cases hr : x c s with
  | done a c' s' => rw [hr] at this; exact hf a c' s' this
  | throw e c' s' => rw [hr] at this; exact this
  | suspended c' => rw [hr] at this; exact this
  | diverge => trivial
  | ub => trivial

theorem good_pure (a : α) : Good Q S (pure a : P α) := fun _ _ h => h
theorem good_raise (e : Exn) : Good Q S (P.raise e : P α) := fun _ _ h => h
theorem good_diverge : Good Q S (P.diverge : P α) := fun _ _ _ => trivial

theorem good_read (f : Chain → Res α) : Good Q S (P.read f) := by
  intro c s h
  unfold P.read
  cases f c with
  | ok a => exact h
  | throw e => exact h
  | ub => trivial

theorem good_fuel {n : Sched → Nat} {p : Nat → P α} (h : ∀ k, Good Q S (p k)) : Good Q S (fun c s => p (n s) c s) :=
  fun c s hq => h _ c s hq

variable (R : Rules Q S)
include R

theorem good_waitMore (cur : View) : Good Q S (waitMore cur) := by
  intro c s h
  unfold waitMore
  cases cur.size c with
  | ok old => exact R.wait cur old c s h
  | throw e => exact h
  | ub => trivial

theorem good_waitMin (cur : View) (m : Nat) : Good Q S (waitMin cur m) := by
  refine good_fuel (n := fun s => s.length + 1) (p := waitMinLoop cur m) ?_
  intro k
  induction k with
  | zero => exact good_diverge
  | succ k ih =>
    refine good_bind (good_read _) (fun n => ?_)
    split
    · refine good_bind (good_waitMore R cur) (fun b => ?_)
      split
      · exact ih
      · exact good_pure _
    · exact good_pure _

theorem good_waitForInput (cur : View) (m : Nat) : Good Q S (waitForInput cur m) := by
  refine good_bind (good_waitMin R cur m) (fun b => ?_)
  split
  · exact good_pure _
  · exact good_raise _

theorem good_waitForEod (cur : View) : Good Q S (waitForEod cur) :=
  good_bind (good_waitMin R cur _) (fun _ => good_pure _)

theorem good_atEod (cur : View) : Good Q S (atEod cur) := by
  refine good_bind (good_read _) (fun n => ?_)
  split
  · exact good_pure _
  · refine good_bind (good_read _) (fun b => ?_)
    split
    · exact good_pure _
    · exact good_bind (good_waitMore R cur) (fun _ => good_pure _)

theorem good_trimInput (t : Bool) (cur : View) : Good Q S (trimInput t cur) := by
  intro c s h
  unfold trimInput
  split
  · have := R.trim c s cur.begin.offset h
    cases hr : c.trim cur.begin.offset with
    | mk r c' =>
      rw [hr] at this
      cases r with
      | ok u => exact this
      | throw e => exact this
      | ub => trivial
  · exact h

theorem good_advanceInput (t : Bool) (cur : View) (n : Nat) : Good Q S (advanceInput t cur n) :=
  good_bind (good_read _) (fun _ => good_bind (good_trimInput R t _) (fun _ => good_pure _))

theorem good_advanceInputTo (t : Bool) (cur : View) (i : Iter) : Good Q S (advanceInputTo t cur i) :=
  good_bind (good_trimInput R t _) (fun _ => good_pure _)

theorem good_extractBytes (cur : View) (n : Nat) (e : Bool) : Good Q S (extractBytes cur n e) := by
  refine good_bind (good_waitMin R cur n) (fun b => ?_)
  split
  · exact good_read _
  · exact good_raise _

theorem good_expectBytesLiteral (cur : View) (l : List Byte) : Good Q S (expectBytesLiteral cur l) := by
  refine good_bind (good_waitMin R cur _) (fun b => ?_)
  split
  · refine good_bind (good_read _) (fun b => ?_)
    split
    · exact good_pure _
    · exact good_bind (good_read _) (fun _ => good_raise _)
  · exact good_raise _

theorem good_unpackP (w n : Nat) (f : List Byte → Val) (t : Bool) (cur : View) : Good Q S (unpackP w n f t cur) := by
  refine good_bind (good_waitForInput R cur w) (fun _ => good_bind (good_read _) (fun sz => ?_))
  split
  · exact good_raise _
  · exact good_bind (good_read _) (fun r => good_bind (good_trimInput R t _) (fun _ => good_pure _))

theorem good_bytesSizeP (e : Bool) (n : Nat) (t : Bool) (cur : View) : Good Q S (bytesSizeP e n t cur) :=
  good_bind (good_extractBytes R cur n e) (fun _ => good_bind (good_advanceInput R t cur n) (fun _ => good_pure _))

theorem good_litP (l : List Byte) (t : Bool) (cur : View) : Good Q S (litP l t cur) :=
  good_bind (good_expectBytesLiteral R cur l) (fun _ => good_bind (good_advanceInput R t cur _) (fun _ => good_pure _))

theorem good_untilP (needle : List Byte) (incl : Bool) (t : Bool) (cur : View) : Good Q S (untilP needle incl t cur) := by
  refine good_fuel (n := fun s => s.length + 2) (p := fun k => untilLoop needle incl t k cur []) ?_
  intro k
  generalize [] = acc
  induction k generalizing cur acc with
  | zero => exact good_diverge
  | succ k ih =>
    refine good_bind (good_waitForInput R cur _) (fun _ => good_bind (good_read _) (fun r => good_bind (good_read _) (fun m => ?_)))
    split
    · refine good_bind (good_read _) (fun it => good_bind ?_ (fun _ => good_bind (good_advanceInputTo R t cur _) (fun _ => good_pure _)))
      split
      · exact good_read _
      · exact good_pure _
    · exact good_bind (good_advanceInputTo R t cur _) (fun _ => ih _ _)

theorem good_regexP (A : Regex.Auto) (t : Bool) (cur : View) : Good Q S (regexP A t cur) := by
  refine good_fuel (n := fun s => s.length + 2) (p := fun k => regexLoop A t cur k cur (Regex.Pimpl.new A)) ?_
  intro k
  suffices h : ∀ ncur p, Good Q S (regexLoop A t cur k ncur p) from h _ _
  induction k with
  | zero => exact fun _ _ => good_diverge
  | succ k ih =>
    intro ncur p
    refine good_bind (good_read _) (fun r => ?_)
    split
    · exact good_bind (good_waitMore R _) (fun _ => ih _ _)
    · split
      · exact good_raise _
      · exact good_bind (good_read _) (fun _ => good_bind (good_trimInput R t _) (fun _ => good_pure _))

theorem good_eodP (t : Bool) (cur : View) : Good Q S (eodP t cur) :=
  good_bind (good_waitForEod R cur) (fun _ => good_bind (good_read _) (fun _ => good_bind (good_read _)
    (fun _ => good_bind (good_advanceInput R t cur _) (fun _ => good_pure _))))

theorem good_chunkedP (t : Bool) (cur : View) : Good Q S (chunkedP t cur) := by
  refine good_fuel (n := fun s => s.length + 2) (p := fun k => chunkedLoop t k cur []) ?_
  intro k
  generalize [] = acc
  induction k generalizing cur acc with
  | zero => exact good_diverge
  | succ k ih =>
    refine good_bind (good_waitMin R cur 1) (fun more => good_bind (good_read _) (fun n => good_bind ?_ (fun r => ?_)))
    · split
      · exact good_bind (good_read _) (fun _ => good_bind (good_advanceInput R t cur _) (fun _ => good_pure _))
      · exact good_pure _
    · split
      · exact ih _ _
      · exact good_pure _

theorem good_skipP (n : Nat) (t : Bool) (cur : View) : Good Q S (skipP n t cur) := by
  refine good_bind ?_ (fun _ => good_pure _)
  suffices h : ∀ k n cur, Good Q S (skipLoop t k n cur) from h _ _ _
  intro k
  induction k with
  | zero =>
    intro n cur
    unfold skipLoop
    split
    · exact good_diverge
    · exact good_pure _
  | succ k ih =>
    intro n cur
    unfold skipLoop
    split
    · exact good_bind (good_waitForInput R cur 1) (fun _ => good_bind (good_read _) (fun _ =>
        good_bind (good_advanceInput R t cur _) (fun _ => ih _ _)))
    · exact good_pure _

theorem good_skipEodP (t : Bool) (cur : View) : Good Q S (skipEodP t cur) := by
  refine good_bind ?_ (fun _ => good_bind (good_read _) (fun _ => good_bind (good_advanceInput R t _ _) (fun _ => good_pure _)))
  refine good_fuel (n := fun s => s.length + 1) (p := fun k => skipEodLoop t k cur) ?_
  intro k
  induction k generalizing cur with
  | zero => exact good_diverge
  | succ k ih =>
    refine good_bind (good_waitMore R cur) (fun b => ?_)
    split
    · exact good_bind (good_read _) (fun _ => good_bind (good_advanceInput R t cur _) (fun _ => ih _))
    · exact good_pure _

omit R in
theorem good_catchBacktrack {x : P (Val × View)} (h : Good Q S x) (cur : View) : Good Q S (catchBacktrack x cur) := by
  intro c s hq
  have := h c s hq
  unfold catchBacktrack
  split
  · rename_i hr; rw [hr] at this; exact this
  · exact this

theorem good_lahP (lits : List (List Byte)) (cur : View) : Good Q S (lahP lits cur) := by
  refine good_bind (good_atEod R cur) (fun b => ?_)
  split
  · exact good_pure _
  · refine good_bind ?_ (fun r => ?_)
    · suffices h : ∀ ls i best, Good Q S (lahLoop cur ls i best) from h _ _ _
      intro ls
      induction ls with
      | nil => exact fun _ _ => good_pure _
      | cons l ls ih =>
        intro i best
        refine good_bind ?_ (fun here => ?_)
        · refine good_bind (good_waitMin R cur _) (fun b => ?_)
          split
          · exact good_read _
          · exact good_pure _
        · dsimp only
          generalize (if here = true then _ else _ : Nat) = stop
          split
          · exact ih _ _
          · split
            · split
              · exact good_raise _
              · exact ih _ _
            · exact ih _ _
    · split
      · exact good_pure _
      · exact good_pure _

theorem good_runWith {callee : Nat → Parse.Parser} (hc : ∀ i t v, Good Q S (callee i t v)) (f : Nat) (g : G) :
    ∀ t v, Good Q S (runWith callee f g t v) := by
  induction g with
  | ret v => exact fun _ _ => good_pure _
  | fail e => exact fun _ _ => good_raise _
  | offset => exact fun _ _ => good_pure _
  | unpack w n fn => exact good_unpackP R w n fn
  | bytesSize n => exact good_bytesSizeP R _ n
  | bytesSizeEod n => exact good_bytesSizeP R _ n
  | lit bs => exact good_litP R bs
  | «until» nd i => exact good_untilP R nd i
  | eod => exact good_eodP R
  | chunkedEod => exact good_chunkedP R
  | skip n => exact good_skipP R n
  | skipEod => exact good_skipEodP R
  | seq g k ih1 ih2 => exact fun t v => good_bind (ih1 t v) (fun r => ih2 _ t _)
  | limit n g ih =>
    refine fun t v => good_bind (good_read _) (fun l => good_bind (good_read _) (fun _ => good_bind (ih t l) (fun r => ?_)))
    split
    · exact good_raise _
    · exact good_pure _
  | maxSize n g ih =>
    refine fun t v => good_bind (good_read _) (fun l => good_bind (good_read _) (fun _ => good_bind (ih t l) (fun r => ?_)))
    split
    · exact good_raise _
    · exact good_bind (good_read _) (fun _ => good_pure _)
  | try_ g ih =>
    exact fun t v => good_bind (good_catchBacktrack (ih false v) v) (fun r => good_bind (good_trimInput R t _) (fun _ => good_pure _))
  | counter n g stop ih =>
    intro t v
    change Good Q S (counterLoop (runWith callee f g) stop t n v [])
    generalize ([] : List Val) = acc
    induction n generalizing v acc with
    | zero => exact good_pure _
    | succ n ihn =>
      refine good_bind (ih t v) (fun r => ?_)
      split
      · exact ihn _ _
      · exact good_pure _
      · exact good_pure _
  | «foreach» e g stop ih =>
    intro t v
    suffices h : ∀ n v acc, Good Q S (foreachLoop e (runWith callee f g) stop t n v acc) from h _ _ _
    intro n
    induction n with
    | zero => exact fun _ _ => good_diverge
    | succ n ihn =>
      intro v acc
      refine good_bind ?_ (fun b => ?_)
      · unfold foreachCond
        split
        · exact good_bind (good_atEod R v) (fun _ => good_pure _)
        · exact good_pure _
      · split
        · refine good_bind (ih t v) (fun r => ?_)
          split
          · refine good_bind ?_ (fun _ => ihn _ _)
            refine good_bind (good_read _) (fun b => ?_)
            split
            · refine good_bind (good_atEod R _) (fun b => ?_)
              split
              · exact good_pure _
              · exact good_raise _
            · exact good_pure _
          · exact good_pure _
          · exact good_pure _
        · exact good_pure _
  | lah lits k ih => exact fun t v => good_bind (good_lahP R lits v) (fun r => ih _ t v)
  | regexp A => exact good_regexP R A
  | parseFrom bs g ih => exact R.inner bs _ ih
  | random k ih => exact fun t v => ih _ false v
  | parseAt p g ih => exact fun t v => good_bind (good_read _) (fun i => good_bind (ih false _) (fun r => good_pure _))
  | call i => exact hc i

/-- Parsers keep up what waiting and trimming keep up. -/
theorem good_run (Γ : Nat → G) (f : Nat) (g : G) (t : Bool) (v : View) : Good Q S (run Γ f g t v) := by
  induction f generalizing g t v with
  | zero => exact good_diverge
  | succ f ih => exact good_runWith R (fun i => ih (Γ i)) f g t v

end

/-- Waiting keeps up what the host's operations keep up. -/
theorem wait_of_ops {Q : Chain → Prop} (h : ∀ c it, Q c → Q (c.run (Item.ops it))) (cur : View) (old : Nat) (c : Chain) (s : Sched)
    (hq : Q c) : Post (fun c _ => Q c) Q (waitLoop cur old s c) := by
  induction s generalizing c with
  | nil =>
    unfold waitLoop
    cases cur.isComplete c with
    | ok b => cases b <;> exact hq
    | throw e => exact hq
    | ub => trivial
  | cons it s ih =>
    unfold waitLoop
    cases cur.isComplete c with
    | ok b =>
      cases b with
      | true => exact hq
      | false =>
        dsimp only
        cases cur.size (c.run it.ops) with
        | ok n =>
          dsimp only
          split
          · exact ih _ (h c it hq)
          · exact h c it hq
        | throw e => exact h c it hq
        | ub => trivial
    | throw e => exact hq
    | ub => trivial

/-- What all operations on streams keep up, parsers do. -/
theorem rules_of_ops {Q : Chain → Prop} (h : ∀ c op, Q c → Q (c.step op).2) : Rules (fun c _ => Q c) Q := by
  have hr : ∀ (ops : List Op) c, Q c → Q (c.run ops) := by
    intro ops
    induction ops with
    | nil => exact fun _ h => h
    | cons op ops ih => exact fun c hc => ih _ (h c op hc)
  refine ⟨fun cur old c s hq => wait_of_ops (fun c it => hr it.ops c) cur old c s hq, fun c s o hq => h c (.trim o) hq, ?_⟩
  intro bs g hg t v c s hq
  unfold parseFromP
  cases wholeView (Chain.ofBytes bs).freeze with
  | ok w =>
    dsimp only
    cases g false w (Chain.ofBytes bs).freeze [] with
    | done r _ _ => exact hq
    | throw e _ _ => exact hq
    | suspended _ => exact hq
    | diverge => trivial
    | ub => trivial
  | throw e => exact hq
  | ub => trivial

end Verif.Driver
