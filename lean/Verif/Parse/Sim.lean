import Verif.Parse.Spec
import Verif.Stream.ViewProps2
/-! # Parsing: relating the machine to the specification (states, waiting, primitive steps) -/

namespace Verif.Parse
open Verif.Stream

theorem Evolves.trans {a b c : Chain} (h : Chain.Evolves a b) (k : Chain.Evolves b c) : Chain.Evolves a c := by
  refine ⟨Nat.le_trans h.base k.base, fun x => k.headPos (h.headPos x), ?_⟩
  intro x hx
  rcases h.keep x hx with ⟨y, hy, y1, y2, y3⟩ | hlt
  · rcases k.keep y hy with ⟨z, hz, z1, z2, z3⟩ | hge
    · exact Or.inl ⟨z, hz, by rw [z1, y1], by rw [z2, y2], by rw [z3, y3]⟩
    · refine Or.inr ?_
      have : x.endOffset = y.endOffset := by unfold Chunk.endOffset Chunk.size; rw [y2, y3]
      rw [this]; exact hge
  · exact Or.inr (Nat.le_trans hlt k.base)

/-- The stream and the remaining schedule stand for the input `I`. -/
structure Env (I : Input) (c : Chain) (s : Sched) : Prop where
  live : c.Live
  len : c.stop ≤ I.data.length
  content : c.content = ((I.data.take c.stop).drop c.headOffset).map some
  rest : I.data.drop c.stop = if c.isFrozen then [] else total s
  closed : I.closed = (c.isFrozen || closes s)

/-- How the stream can have changed meanwhile; `keep` if nothing was trimmed. -/
structure Step (keep : Bool) (c c' : Chain) : Prop where
  evolves : Chain.Evolves c c'
  stop : c.stop ≤ c'.stop
  head : c.headOffset ≤ c'.headOffset
  keep : keep = true → c'.headOffset = c.headOffset

theorem Step.refl {k : Bool} (c : Chain) : Step k c c := ⟨Chain.Evolves.refl c, Nat.le_refl _, Nat.le_refl _, fun _ => rfl⟩

theorem Step.trans {k : Bool} {a b c : Chain} (h : Step k a b) (h' : Step k b c) : Step k a c :=
  ⟨Evolves.trans h.evolves h'.evolves, Nat.le_trans h.stop h'.stop, Nat.le_trans h.head h'.head,
    fun x => (h'.keep x).trans (h.keep x)⟩

theorem Step.weaken {k : Bool} {a b : Chain} (h : Step true a b) : Step k a b :=
  ⟨h.evolves, h.stop, h.head, fun _ => h.keep rfl⟩

/-- The view `v` is at `pos` with limit `lim`. -/
structure At (c : Chain) (v : View) (pos : Nat) (lim : Option Nat) : Prop where
  iter : c.IterOk v.begin
  off : v.begin.offset = pos
  endIter : ∀ e, v.end = some e → c.IterOk e
  «end» : v.end.map (·.offset) = lim
  start : c.headOffset ≤ pos
  stop : pos ≤ c.stop
  lim : ∀ l, lim = some l → pos ≤ l

/-- End of the data accessible now. -/
def stopNow (c : Chain) (lim : Option Nat) : Nat := match lim with
  | none => c.stop
  | some l => min l c.stop

theorem stopNow_le (c : Chain) (lim : Option Nat) : stopNow c lim ≤ c.stop := by
  cases lim with
  | none => exact Nat.le_refl _
  | some l => exact Nat.min_le_right _ _

theorem At.pos_le {c : Chain} {v : View} {pos : Nat} {lim : Option Nat} (a : At c v pos lim) :
    pos ≤ stopNow c lim := by
  cases hl : lim with
  | none => exact a.stop
  | some l => exact Nat.le_min.2 ⟨a.lim l hl, a.stop⟩

theorem At.good {c : Chain} (h : c.Live) {v : View} {pos : Nat} {lim : Option Nat} (a : At c v pos lim) : v.Good c := by
  refine ⟨a.iter.usable h.inv, by rw [a.off]; exact a.start, ?_⟩
  intro e he
  refine ⟨(a.endIter e he).usable h.inv, ?_⟩
  have := a.end
  rw [he] at this
  rw [a.off]
  exact a.lim e.offset this.symm

theorem At.step {c c' : Chain} {k : Bool} {v : View} {pos : Nat} {lim : Option Nat} (a : At c v pos lim)
    (st : Step k c c') (hk : c'.headOffset ≤ pos) : At c' v pos lim :=
  ⟨a.iter.evolves st.evolves, a.off, fun e he => (a.endIter e he).evolves st.evolves, a.end, hk,
    Nat.le_trans a.stop st.stop, a.lim⟩

theorem At.keep {c c' : Chain} {v : View} {pos : Nat} {lim : Option Nat} (a : At c v pos lim)
    (st : Step true c c') : At c' v pos lim := a.step st (by rw [st.keep rfl]; exact a.start)

theorem At.viewLim {c : Chain} {v : View} {pos : Nat} {lim : Option Nat} (a : At c v pos lim) :
    v.lim c = stopNow c lim := by
  unfold View.lim View.endOff stopNow
  have := a.end
  cases he : v.end with
  | none => rw [he] at this; subst this; simp
  | some e => rw [he] at this; subst this; simp

/-- The data accessible now. -/
theorem At.window {I : Input} {c : Chain} {s : Sched} (env : Env I c s) {v : View} {pos : Nat} {lim : Option Nat}
    (a : At c v pos lim) : v.window c = ((I.data.take (stopNow c lim)).drop pos).map some := by
  unfold View.window
  rw [a.viewLim, a.off]
  unfold Log.slice
  have hs : c.abs.start = c.headOffset := rfl
  have hcc : c.abs.cells = c.content := rfl
  rw [hs, hcc, env.content, ← List.map_drop, ← List.map_take, List.drop_drop]
  have h1 : c.headOffset + (pos - c.headOffset) = pos := by have := a.start; omega
  rw [h1, List.drop_take, List.take_take, List.drop_take]
  have := stopNow_le c lim
  congr 2
  omega

theorem At.length {I : Input} {c : Chain} {s : Sched} (env : Env I c s) {v : View} {pos : Nat} {lim : Option Nat}
    (_a : At c v pos lim) : (((I.data.take (stopNow c lim)).drop pos).map some).length = stopNow c lim - pos := by
  have := stopNow_le c lim
  have := env.len
  simp; omega

theorem At.size {I : Input} {c : Chain} {s : Sched} (env : Env I c s) {v : View} {pos : Nat} {lim : Option Nat}
    (a : At c v pos lim) : v.size c = .ok (stopNow c lim - pos) := by
  rw [View.size_spec env.live (a.good env.live), a.window env, a.length env]

theorem At.data {I : Input} {c : Chain} {s : Sched} (env : Env I c s) {v : View} {pos : Nat} {lim : Option Nat}
    (a : At c v pos lim) : v.data c = .ok ((I.data.take (stopNow c lim)).drop pos) := by
  rw [View.data_spec env.live (a.good env.live), a.window env, bytesOf_map]

/-- Complete now. -/
def completeNow (c : Chain) (lim : Option Nat) : Bool := c.isFrozen || (match lim with
  | none => false
  | some l => decide (l ≤ c.stop))

theorem At.isComplete {I : Input} {c : Chain} {s : Sched} (env : Env I c s) {v : View} {pos : Nat} {lim : Option Nat}
    (a : At c v pos lim) : v.isComplete c = .ok (completeNow c lim) := by
  rw [isComplete_spec env.live (a.good env.live)]
  unfold completeNow
  have := a.end
  cases he : v.end with
  | none => rw [he] at this; subst this; rfl
  | some e => rw [he] at this; subst this; rfl

/-- If the data is complete now, it is what the whole input says. -/
theorem complete_now {I : Input} {c : Chain} {s : Sched} (env : Env I c s) {lim : Option Nat}
    (h : completeNow c lim = true) : I.complete lim = true ∧ stopNow c lim = I.stop lim := by
  unfold completeNow at h
  unfold Input.complete
  rw [env.closed]
  cases hf : c.isFrozen with
  | true =>
    have hr := env.rest
    rw [hf] at hr
    have hl : I.data.length ≤ c.stop := by
      have := congrArg List.length hr
      simp at this; omega
    have he : c.stop = I.data.length := Nat.le_antisymm env.len hl
    refine ⟨by simp, ?_⟩
    unfold stopNow Input.stop
    rw [he]; cases lim <;> rfl
  | false =>
    rw [hf] at h
    cases lim with
    | none => simp at h
    | some l =>
      simp only [Bool.false_or, decide_eq_true_eq] at h
      have := env.len
      refine ⟨by simp; right; omega, ?_⟩
      unfold stopNow Input.stop
      simp only
      omega

theorem stopNow_le_stop {I : Input} {c : Chain} {s : Sched} (env : Env I c s) (lim : Option Nat) :
    stopNow c lim ≤ I.stop lim := by
  have := env.len
  cases lim with
  | none => exact this
  | some l => simp only [stopNow, Input.stop]; omega

/-! ## The host's turn -/

theorem isFrozen_iff (c : Chain) : c.isFrozen = true ↔ c.state = .frozen := by
  unfold Chain.isFrozen; simp

/-- The two ways in which an item appends data. -/
def Appends (op : List Byte → Op) : Prop := op = .append ∨ op = .appendNonOwning

theorem Item.op_appends (it : Item) : Appends it.op := by
  unfold Appends Item.op
  cases it.lent with
  | true => exact .inr rfl
  | false => exact .inl rfl

theorem Appends.spec {op : List Byte → Op} (h : Appends op) {c : Chain} (hi : c.Inv) (hm : c.state = .mutable) (bs : List Byte) :
    ∃ c', c.step (op bs) = (.ok (), c') ∧ Chain.Appended c c' (bs.map some) := by
  rcases h with rfl | rfl
  · obtain ⟨c', e, ap, -⟩ := Chain.append_spec hi hm bs; exact ⟨c', e, ap⟩
  · obtain ⟨c', e, ap, -⟩ := Chain.appendNonOwning_spec hi hm bs; exact ⟨c', e, ap⟩

theorem Appends.frozen {op : List Byte → Op} (h : Appends op) {c : Chain} (hi : c.Inv) (hm : c.state = .frozen) (bs : List Byte) :
    ∃ ca n, (c.step (op bs)).2 = { c with cached := ca, nextId := n } := by
  rcases h with rfl | rfl
  · obtain ⟨ca, n, e, -⟩ := Chain.append_frozen hi hm bs; exact ⟨ca, n, e⟩
  · obtain ⟨ca, n, e, -⟩ := Chain.appendNonOwning_frozen hi hm bs; exact ⟨ca, n, e⟩

theorem append_env {I : Input} {c : Chain} {op : List Byte → Op} (ho : Appends op) (h : c.Live) (hf : c.isFrozen = false)
    (bs t : List Byte) (hlen : c.stop ≤ I.data.length)
    (hc : c.content = ((I.data.take c.stop).drop c.headOffset).map some) (hr : I.data.drop c.stop = bs ++ t) :
    (c.step (op bs)).2.Live ∧ (c.step (op bs)).2.isFrozen = false ∧ (c.step (op bs)).2.stop ≤ I.data.length ∧
      (c.step (op bs)).2.headOffset = c.headOffset ∧
      (c.step (op bs)).2.content = ((I.data.take (c.step (op bs)).2.stop).drop c.headOffset).map some ∧
      I.data.drop (c.step (op bs)).2.stop = t ∧ Step true c (c.step (op bs)).2 := by
  have hm : c.state = .mutable := by
    rcases Chain.state_cases h with h' | h'
    · exact h'
    · rw [(isFrozen_iff c).2 h'] at hf; cases hf
  obtain ⟨c', e, ap⟩ := ho.spec h.inv hm bs
  have hlive := (Chain.step_live h (op bs)).1
  have hev := (Chain.step_live h (op bs)).2.2
  rw [e] at hlive hev ⊢
  simp only at hlive hev ⊢
  have hho : c'.headOffset = c.headOffset := congrArg Log.start ap.abs
  have hcc : c'.content = c.content ++ bs.map some := congrArg Log.cells ap.abs
  have hs' : c'.stop = c.stop + bs.length := by
    rw [Chain.stop_eq hlive.inv, hho, hcc, Chain.stop_eq h.inv]; simp; omega
  have hl2 : c.stop + bs.length ≤ I.data.length := by
    have := congrArg List.length hr
    simp at this; omega
  have hhs := Chain.headOffset_le_stop h.inv
  refine ⟨hlive, ?_, by omega, hho, ?_, ?_, ⟨hev, by omega, by omega, fun _ => hho⟩⟩
  · unfold Chain.isFrozen; rw [ap.state, hm]; rfl
  · rw [hs', hcc, hc, ← List.map_append]
    congr 1
    rw [List.take_add, hr, List.take_left, List.drop_append_of_le_length]
    simp; omega
  · rw [hs', ← List.drop_drop, hr, List.drop_left]

theorem appends_env {I : Input} {op : List Byte → Op} (ho : Appends op) (data : List (List Byte)) :
    ∀ {c : Chain}, c.Live → c.isFrozen = false → (t : List Byte) →
    c.stop ≤ I.data.length → c.content = ((I.data.take c.stop).drop c.headOffset).map some →
    I.data.drop c.stop = data.flatten ++ t →
    let c' := c.run (data.map op)
    c'.Live ∧ c'.isFrozen = false ∧ c'.stop ≤ I.data.length ∧ c'.headOffset = c.headOffset ∧
      c'.content = ((I.data.take c'.stop).drop c.headOffset).map some ∧ I.data.drop c'.stop = t ∧ Step true c c' := by
  induction data with
  | nil => intro c h hf t hl hc hr; exact ⟨h, hf, hl, rfl, hc, hr, Step.refl c⟩
  | cons bs r ih =>
    intro c h hf t hl hc hr
    obtain ⟨a1, a2, a3, a4, a5, a6, a7⟩ := append_env ho h hf bs (r.flatten ++ t) hl hc (by rw [hr]; simp)
    obtain ⟨b1, b2, b3, b4, b5, b6, b7⟩ := ih (c := (c.step (op bs)).2) a1 a2 t a3 (by rw [a4]; exact a5) a6
    exact ⟨b1, b2, b3, b4.trans a4, by rw [← a4]; exact b5, b6, a7.trans b7⟩

theorem frozen_appends {op : List Byte → Op} (ho : Appends op) (data : List (List Byte)) : ∀ {c : Chain}, c.Live → c.isFrozen = true →
    (c.run (data.map op)).Live ∧ (c.run (data.map op)).isFrozen = true ∧
      (c.run (data.map op)).content = c.content ∧ (c.run (data.map op)).headOffset = c.headOffset ∧
      Step true c (c.run (data.map op)) := by
  induction data with
  | nil => intro c h hf; exact ⟨h, hf, rfl, rfl, Step.refl c⟩
  | cons bs r ih =>
    intro c h hf
    obtain ⟨ca, n, e⟩ := ho.frozen h.inv ((isFrozen_iff c).1 hf) bs
    have hlive := (Chain.step_live h (op bs)).1
    have hev := (Chain.step_live h (op bs)).2.2
    have hrun : c.run ((bs :: r).map op) = (c.step (op bs)).2.run (r.map op) := rfl
    rw [hrun]
    rw [e] at hlive hev ⊢
    obtain ⟨b1, b2, b3, b4, b5⟩ := ih hlive hf
    refine ⟨b1, b2, b3, b4, Step.trans ⟨hev, Nat.le_refl _, Nat.le_refl _, fun _ => rfl⟩ b5⟩

/-- Making the stream own its data changes nothing a parser sees. -/
theorem owning_env {I : Input} {c : Chain} {s : Sched} (env : Env I c s) :
    Env I (c.run [.makeOwning]) s ∧ Step true c (c.run [.makeOwning]) ∧ (c.run [.makeOwning]).isFrozen = c.isFrozen := by
  have hlive := (Chain.step_live env.live .makeOwning).1
  have hev := (Chain.step_live env.live .makeOwning).2.2
  have habs : c.makeOwning.abs = c.abs := (Chain.makeOwning_spec env.live.inv).2.1
  have hho : c.makeOwning.headOffset = c.headOffset := congrArg Log.start habs
  have hcc : c.makeOwning.content = c.content := congrArg Log.cells habs
  have hst : c.makeOwning.stop = c.stop := by
    rw [Chain.stop_eq (show c.makeOwning.Inv from hlive.inv), Chain.stop_eq env.live.inv, hho, hcc]
  have hf : c.makeOwning.isFrozen = c.isFrozen := rfl
  change Env I c.makeOwning s ∧ Step true c c.makeOwning ∧ c.makeOwning.isFrozen = c.isFrozen
  refine ⟨⟨hlive, by rw [hst]; exact env.len, by rw [hcc, hst, hho]; exact env.content, ?_, ?_⟩, ⟨hev, ?_, ?_, fun _ => hho⟩, hf⟩
  · rw [hst, hf]; exact env.rest
  · rw [hf]; exact env.closed
  · rw [hst]; exact Nat.le_refl _
  · rw [hho]; exact Nat.le_refl _

theorem freeze_step {c : Chain} (h : c.Live) : c.freeze.Live ∧ c.freeze.isFrozen = true ∧ c.freeze.content = c.content ∧
    c.freeze.headOffset = c.headOffset ∧ c.freeze.stop = c.stop ∧ Step true c c.freeze := by
  have hlive := (Chain.step_live h .freeze).1
  have hev := (Chain.step_live h .freeze).2.2
  simp only [Chain.step] at hlive hev
  have e : c.freeze = { c with state := .frozen } := by unfold Chain.freeze; rw [h.isValid]; rfl
  refine ⟨hlive, by rw [e]; rfl, by rw [e]; rfl, by rw [e], by rw [e]; rfl, hev, ?_, ?_, ?_⟩
  · rw [e]; exact Nat.le_refl _
  · rw [e]; exact Nat.le_refl _
  · intro _; rw [e]

theorem run_append' (c : Chain) (a b : List Op) : c.run (a ++ b) = (c.run a).run b := by
  unfold Chain.run; rw [List.foldl_append]

theorem item_data_env {I : Input} {c : Chain} {it : Item} {s : Sched} (env : Env I c (it :: s)) :
    Env I (c.run (it.data.map it.op ++ (if it.freeze then [.freeze] else []))) s ∧
      Step true c (c.run (it.data.map it.op ++ (if it.freeze then [.freeze] else []))) := by
  have hops : c.run (it.data.map it.op ++ (if it.freeze then [.freeze] else [])) =
      if it.freeze then (c.run (it.data.map it.op)).freeze else c.run (it.data.map it.op) := by
    rw [run_append']
    cases it.freeze <;> rfl
  cases hf : c.isFrozen with
  | true =>
    obtain ⟨b1, b2, b3, b4, b5⟩ := frozen_appends it.op_appends it.data env.live hf
    have hst : (c.run (it.data.map it.op)).stop = c.stop := by
      rw [Chain.stop_eq b1.inv, Chain.stop_eq env.live.inv, b3, b4]
    have hr := env.rest; rw [hf] at hr
    have hc := env.closed; rw [hf] at hc
    have key : Env I (c.run (it.data.map it.op)) s := by
      refine ⟨b1, by rw [hst]; exact env.len, by rw [b3, hst, b4]; exact env.content, ?_, ?_⟩
      · rw [hst, b2]; exact hr
      · rw [b2, hc]; simp
    rw [hops]
    cases it.freeze with
    | false => exact ⟨key, b5⟩
    | true =>
      obtain ⟨f1, f2, f3, f4, f5, f6⟩ := freeze_step b1
      refine ⟨⟨f1, by rw [if_pos rfl, f5]; exact key.len, ?_, ?_, ?_⟩, b5.trans f6⟩
      · rw [if_pos rfl, f3, f5, f4]; exact key.content
      · rw [if_pos rfl, f5, f2]; have := key.rest; rw [b2] at this; exact this
      · rw [if_pos rfl, f2]; have := key.closed; rw [b2] at this; simpa using this
  | false =>
    have hr := env.rest; rw [hf] at hr
    have hc := env.closed; rw [hf] at hc
    simp only [total, Bool.false_eq_true, if_false] at hr
    obtain ⟨a1, a2, a3, a4, a5, a6, a7⟩ := appends_env it.op_appends it.data env.live hf _ env.len env.content hr
    rw [hops]
    cases hz : it.freeze with
    | false =>
      refine ⟨⟨a1, a3, by rw [if_neg (by simp), a4]; exact a5, ?_, ?_⟩, a7⟩
      · rw [if_neg (by simp), a2, a6, hz]
      · rw [if_neg (by simp), a2, hc]; simp [closes, hz]
    | true =>
      obtain ⟨f1, f2, f3, f4, f5, f6⟩ := freeze_step a1
      refine ⟨⟨f1, by rw [if_pos rfl, f5]; exact a3, ?_, ?_, ?_⟩, a7.trans f6⟩
      · rw [if_pos rfl, f3, f5, f4, a4]; exact a5
      · rw [if_pos rfl, f5, f2, a6, hz]
      · rw [if_pos rfl, f2, hc]; simp [closes, hz]

/-- The host carries out an item of its schedule. -/
theorem item_env {I : Input} {c : Chain} {it : Item} {s : Sched} (env : Env I c (it :: s)) :
    Env I (c.run it.ops) s ∧ Step true c (c.run it.ops) := by
  unfold Item.ops
  rw [List.append_assoc, run_append']
  cases hb : it.lent with
  | false => exact item_data_env env
  | true =>
    obtain ⟨h1, h2, -⟩ := owning_env env
    obtain ⟨h3, h4⟩ := item_data_env h1
    exact ⟨h3, h2.trans h4⟩

end Verif.Parse
