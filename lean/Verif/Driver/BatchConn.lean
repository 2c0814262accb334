import Verif.Driver.BatchProps
/-!
# Connections in batches (C68)

What the parsers of the two sides of a connection get, in terms of two states and a shared context.
-/

namespace Verif.Driver
open Verif.Bytes

/-! ## Specification -/

/-- What happens on a connection: one side sends data, or data of it is missing; or it is begun although it exists. -/
inductive Sent where
  | data (resp : Bool) (bs : List Byte)
  | gap (resp : Bool) (n : Nat)
  | again (k : Kind) (po pr : Str)

def Sent.cmd (cid o r : Str) : Sent → Cmd
  | .data s bs => .data (if s then r else o) bs
  | .gap s n => .gap (if s then r else o) n
  | .again k po pr => .beginConn cid k o po r pr

/-- As steps of the parsers: everything that is sent, and at the end both are finished, the originator first. -/
def steps : List Sent → List (Bool × Event)
  | [] => [(false, .finish), (true, .finish)]
  | .data s bs :: es => (s, .data bs) :: steps es
  | .gap s n :: es => (s, .gap n) :: steps es
  | .again _ _ _ :: es => steps es

section
variable (M : Machine) (k : Kind)

/-- The replies of the parsers, given which sides have access to the context, the parsers and their states, and the context. A side without parser is
    ignored. -/
def talk (sees : Bool → Bool) : (Bool → Option (M.Par × M.St)) → Option M.Ctx → List (Bool × Event) → Option (List (Bool × M.Out))
  | _, _, [] => some []
  | st, c, (s, ev) :: es => match st s with
    | none => talk sees st c es
    | some (p, x) => match M.step p k x (if sees s then c else none) ev with
      | none => none
      | some (x', c', out) =>
        (talk sees (fun i => if i = s then some (p, x') else st i) (if sees s then c' else c) es).map (fun l => out.map (s, ·) ++ l)

/-- The replies on a connection whose sides (false: the originator) have these parsers. The context is the one of the originator's parser; if there is
    none, the responder has its own. -/
def converse (par : Bool → Option M.Par) (es : List (Bool × Event)) : Option (List (Bool × M.Out)) :=
  let ctx := fun s => (par s).bind M.context
  talk M k (fun s => (ctx false).isSome || (s && (ctx true).isSome)) (fun s => (par s).map (fun p => (p, M.init p k))) ((ctx false).or (ctx true)) es

end

/-- The commands that mention the ID of a connection or one of its flows. -/
def Cmd.aboutConn (cid o r : Str) : Cmd → Bool
  | .beginFlow i _ _ => i = o ∨ i = r
  | .data i _ => i = o ∨ i = r
  | .gap i _ => i = o ∨ i = r
  | .endFlow i => i = o ∨ i = r
  | .beginConn c _ o' _ r' _ => c = cid ∨ o' = o ∨ o' = r ∨ r' = o ∨ r' = r
  | .endConn c => c = cid

def Cmd.begins : Cmd → Bool
  | .beginFlow _ _ _ => true
  | .beginConn _ _ _ _ _ _ => true
  | _ => false

/-! ## Proof -/

variable {M : Machine}

theorem feed_step {w : World M} {id : Str} {p : M.Par} {k : Kind} {st : M.St} {ref : Str × Nat} {b : Bool} {c : Option M.Ctx} (ev : Event)
    (hf : w.flows id = some ⟨p, k, st, if b then some ref else none⟩) (hc : w.ctxs ref.1 ref.2 = c) :
    match M.step p k st (if b then c else none) ev with
    | none => w.feed id ev = .stuck
    | some (st', c', out) => ∃ w2, w.feed id ev = .ok w2 ∧ w2.flows = set w.flows id (some ⟨p, k, st', if b then some ref else none⟩) ∧
        w2.gen = w.gen ∧ w2.conns = w.conns ∧ w2.ctxs ref.1 ref.2 = (if b then c' else c) ∧ w2.log = w.log ++ out.map (id, ·) := by
  have hx : w.context (if b then some ref else none) = (if b then c else none) := by
    cases b with
    | true => exact hc
    | false => rfl
  unfold World.feed
  rw [hf]
  dsimp only
  rw [hx]
  cases hs : M.step p k st (if b then c else none) ev with
  | none => rfl
  | some x =>
    obtain ⟨st', c', out⟩ := x
    refine ⟨_, rfl, ?_⟩
    cases b with
    | true =>
      refine ⟨rfl, rfl, rfl, ?_, rfl⟩
      simp [World.setContext, set]
    | false => exact ⟨rfl, rfl, rfl, hc, rfl⟩

/-- The name of a side. -/
def side (o r : Str) (s : Bool) : Str := if s then r else o

theorem side_ne {o r : Str} (h : o ≠ r) {i s : Bool} (hi : i ≠ s) : side o r i ≠ side o r s := by
  cases i <;> cases s <;> first | exact absurd rfl hi | exact h | exact Ne.symm h

/-- The world has the connection. -/
structure Has (cid o r : Str) (k : Kind) (sees : Bool → Bool) (ref : Str × Nat) (w : World M) (st : Bool → Option (M.Par × M.St)) (c : Option M.Ctx) : Prop where
  flow : ∀ s, w.flows (side o r s) = (st s).map (fun x => ⟨x.1, k, x.2, if sees s then some ref else none⟩)
  conn : w.conns cid = if st false = none ∧ st true = none then none else
    some ⟨o, r, (st false).map (fun _ => w.gen o), (st true).map (fun _ => w.gen r)⟩
  ctx : w.ctxs ref.1 ref.2 = c

variable {cid o r : Str} {k : Kind} {sees : Bool → Bool} {ref : Str × Nat}

theorem Has.skip {w : World M} {st : Bool → Option (M.Par × M.St)} {c : Option M.Ctx} (h : Has cid o r k sees ref w st c) {s : Bool} (hs : st s = none)
    (ev : Event) : w.feed (side o r s) ev = .ok w := by
  have := h.flow s
  rw [hs] at this
  simp only [World.feed, this, Option.map_none]

theorem Has.feed {w : World M} {st : Bool → Option (M.Par × M.St)} {c : Option M.Ctx} (hor : o ≠ r) (h : Has cid o r k sees ref w st c) {s : Bool}
    {p : M.Par} {x : M.St} (hs : st s = some (p, x)) (ev : Event) :
    match M.step p k x (if sees s then c else none) ev with
    | none => w.feed (side o r s) ev = .stuck
    | some (x', c', out) => ∃ w2, w.feed (side o r s) ev = .ok w2 ∧
        Has cid o r k sees ref w2 (fun i => if i = s then some (p, x') else st i) (if sees s then c' else c) ∧ w2.gen = w.gen ∧
        w2.log = w.log ++ out.map (side o r s, ·) := by
  have hf := h.flow s
  rw [hs] at hf
  have := feed_step ev hf h.ctx
  revert this
  dsimp only
  cases M.step p k x (if sees s then c else none) ev with
  | none => exact id
  | some y =>
    obtain ⟨x', c', out⟩ := y
    rintro ⟨w2, h1, h2, h3, h4, h5, h6⟩
    refine ⟨w2, h1, ⟨fun i => ?_, ?_, h5⟩, h3, h6⟩
    · rw [h2]
      by_cases hi : i = s
      · subst hi; rw [set_same, if_pos rfl]; rfl
      · rw [set_other _ _ (side_ne hor hi), if_neg hi]; exact h.flow i
    · rw [h4, h3, h.conn]
      cases s with
      | false => simp [hs]
      | true => simp [hs]

/-- The log of a connection, by flow IDs. -/
def named (o r : Str) {α : Type} (l : List (Bool × α)) : List (Str × α) := l.map (fun x => (side o r x.1, x.2))

/-- The connection and its flows do not exist. -/
def Gone (cid o r : Str) (w : World M) : Prop := w.conns cid = none ∧ ∀ s, w.flows (side o r s) = none

theorem gone_late {w : World M} (h : Gone cid o r w) (late : List Cmd) (hl : ∀ c ∈ late, c.begins = false ∧ Cmd.aboutConn cid o r c = true) : w.run late = .ok w := by
  induction late with
  | nil => rfl
  | cons c late ih =>
    obtain ⟨h1, h2⟩ := hl c List.mem_cons_self
    have hf : ∀ i, i = o ∨ i = r → w.flows i = none := by
      rintro i (rfl | rfl)
      · exact h.2 false
      · exact h.2 true
    have : w.exec c = .ok w := by
      cases c with
      | beginFlow id k p => cases h1
      | beginConn cid k o po r pr => cases h1
      | data id bs => simp only [World.exec, World.feed, hf id (of_decide_eq_true h2)]
      | gap id n => simp only [World.exec, World.feed, hf id (of_decide_eq_true h2)]
      | endFlow id => simp only [World.exec, hf id (of_decide_eq_true h2)]
      | endConn c => simp only [World.exec, of_decide_eq_true h2, h.1]
    rw [show w.run (c :: late) = (w.exec c).bind (fun w => w.run late) from rfl, this]
    exact ih (fun c hc => hl c (List.mem_cons_of_mem _ hc))

/-- One side is finished at the end of the connection. -/
theorem Has.finish {w : World M} {st : Bool → Option (M.Par × M.St)} {c : Option M.Ctx} (hor : o ≠ r) (h : Has cid o r k sees ref w st c) (s : Bool)
    (rest : List (Bool × Event)) :
    (talk M k sees st c ((s, .finish) :: rest) = none ∧ w.finishPtr (side o r s) ((st s).map (fun _ => w.gen (side o r s))) = .stuck) ∨
    ∃ w2 st2 c2 out, w.finishPtr (side o r s) ((st s).map (fun _ => w.gen (side o r s))) = .ok w2 ∧ Has cid o r k sees ref w2 st2 c2 ∧ w2.gen = w.gen ∧
      (∀ i, (st2 i).isSome = (st i).isSome) ∧ w2.log = w.log ++ named o r out ∧
      talk M k sees st c ((s, .finish) :: rest) = (talk M k sees st2 c2 rest).map (fun l => out ++ l) := by
  cases hs : st s with
  | none =>
    refine Or.inr ⟨w, st, c, [], rfl, h, rfl, fun _ => rfl, by simp [named], ?_⟩
    simp only [talk, hs]
    cases talk M k sees st c rest <;> rfl
  | some y =>
    obtain ⟨p, x⟩ := y
    have hf := h.flow s
    rw [hs] at hf
    have h1 := h.feed hor hs .finish
    have e : w.finishPtr (side o r s) ((some (p, x)).map (fun _ => w.gen (side o r s))) = w.feed (side o r s) .finish := by
      simp only [Option.map_some, World.finishPtr]
      rw [if_pos (show (w.flows (side o r s)).isSome = true ∧ True from ⟨by rw [hf]; rfl, trivial⟩)]
    rw [e]
    simp only [talk, hs]
    revert h1
    cases M.step p k x (if sees s then c else none) .finish with
    | none => exact fun h1 => Or.inl ⟨rfl, h1⟩
    | some z =>
      obtain ⟨x', c', out⟩ := z
      rintro ⟨w2, e2, h2, g2, l2⟩
      refine Or.inr ⟨w2, _, _, out.map (s, ·), e2, h2, g2, fun i => ?_, ?_, rfl⟩
      · by_cases hi : i = s
        · subst hi; simp [hs]
        · simp [hi]
      · rw [l2]; simp [named, Function.comp_def]

theorem Has.end_ {w : World M} {st : Bool → Option (M.Par × M.St)} {c : Option M.Ctx} (hor : o ≠ r) (h : Has cid o r k sees ref w st c) :
    match talk M k sees st c (steps []) with
    | none => w.exec (.endConn cid) = .stuck
    | some l => ∃ w2, w.exec (.endConn cid) = .ok w2 ∧ w2.log = w.log ++ named o r l ∧ Gone cid o r w2 := by
  by_cases hn : st false = none ∧ st true = none
  · simp only [steps, talk, hn.1, hn.2]
    have hc := h.conn
    rw [if_pos hn] at hc
    refine ⟨w, by simp only [World.exec, hc], by simp [named], hc, fun s => ?_⟩
    rw [h.flow s]
    cases s <;> simp [hn]
  · have hc := h.conn
    rw [if_neg hn] at hc
    simp only [steps, World.exec, hc]
    rcases h.finish hor false [(true, .finish)] with ⟨t1, e1⟩ | ⟨w1, st1, c1, out1, e1, h1, g1, i1, l1, t1⟩
    · rw [t1]
      have e1 : w.finishPtr o ((st false).map (fun _ => w.gen o)) = .stuck := e1
      rw [e1]; rfl
    · rw [t1]
      have e1 : w.finishPtr o ((st false).map (fun _ => w.gen o)) = .ok w1 := e1
      rw [e1]
      simp only [Exec.bind]
      have eqp : (st true).map (fun _ => w.gen r) = (st1 true).map (fun _ => w1.gen (side o r true)) := by
        have := i1 true
        rw [g1]
        cases h1 : st true <;> cases h2 : st1 true <;> rw [h1, h2] at this <;> first | rfl | cases this
      rw [eqp]
      rcases h1.finish hor true [] with ⟨t2, e2⟩ | ⟨w2, st2, c2, out2, e2, h2, g2, i2, l2, t2⟩
      · rw [t2]
        have e2 : w1.finishPtr r ((st1 true).map (fun _ => w1.gen (side o r true))) = .stuck := e2
        rw [e2]; rfl
      · rw [t2]
        have e2 : w1.finishPtr r ((st1 true).map (fun _ => w1.gen (side o r true))) = .ok w2 := e2
        rw [e2]
        refine ⟨_, rfl, ?_, ?_, fun s => ?_⟩
        · change w2.log = _
          rw [l2, l1]
          simp [named]
        · simp [set]
        · cases s <;> simp [World.erase, set, side]

theorem Has.run {w : World M} {st : Bool → Option (M.Par × M.St)} {c : Option M.Ctx} (hor : o ≠ r) (h : Has cid o r k sees ref w st c) (es : List Sent)
    (hag : st false = none ∧ st true = none → ∀ k po pr, .again k po pr ∉ es) :
    match talk M k sees st c (steps es) with
    | none => w.run (es.map (Sent.cmd cid o r) ++ [.endConn cid]) = .stuck
    | some l => ∃ w2, w.run (es.map (Sent.cmd cid o r) ++ [.endConn cid]) = .ok w2 ∧ w2.log = w.log ++ named o r l ∧ Gone cid o r w2 := by
  induction es generalizing w st c with
  | nil =>
    have := h.end_ hor
    revert this
    simp only [List.map_nil, List.nil_append, World.run]
    cases talk M k sees st c (steps []) with
    | none => intro e; simp only [e, Exec.bind]
    | some l => rintro ⟨w2, e, l2⟩; exact ⟨w2, by simp only [e, Exec.bind], l2⟩
  | cons e es ih =>
    have hag' : ∀ st' : Bool → Option (M.Par × M.St), (∀ i, (st' i).isSome = (st i).isSome) → st' false = none ∧ st' true = none →
        ∀ k po pr, .again k po pr ∉ es := by
      intro st' hst hn k po pr hm
      have : st false = none ∧ st true = none := by
        have a := hst false
        have b := hst true
        rw [hn.1] at a
        rw [hn.2] at b
        exact ⟨by simpa using a.symm, by simpa using b.symm⟩
      exact hag this k po pr (List.mem_cons_of_mem _ hm)
    have key : ∀ (s : Bool) (ev : Event), (∀ w : World M, w.exec (e.cmd cid o r) = w.feed (side o r s) ev) → steps (e :: es) = (s, ev) :: steps es →
        match talk M k sees st c (steps (e :: es)) with
        | none => w.run ((e :: es).map (Sent.cmd cid o r) ++ [.endConn cid]) = .stuck
        | some l => ∃ w2, w.run ((e :: es).map (Sent.cmd cid o r) ++ [.endConn cid]) = .ok w2 ∧ w2.log = w.log ++ named o r l ∧ Gone cid o r w2 := by
      intro s ev hx hst
      rw [hst]
      simp only [List.map_cons, List.cons_append, World.run, hx]
      cases hs : st s with
      | none =>
        simp only [talk, hs]
        rw [h.skip hs ev]
        exact ih h (hag' st (fun _ => rfl))
      | some y =>
        obtain ⟨p, x⟩ := y
        simp only [talk, hs]
        have h1 := h.feed hor hs ev
        revert h1
        cases M.step p k x (if sees s then c else none) ev with
        | none => intro h1; simp only [h1, Exec.bind]
        | some z =>
          obtain ⟨x', c', out⟩ := z
          rintro ⟨w1, e1, h1, -, l1⟩
          simp only [e1, Exec.bind]
          have h2 := ih h1 (hag' (fun i => if i = s then some (p, x') else st i) (fun i => by
            by_cases hi : i = s
            · subst hi; simp [hs]
            · simp [hi]))
          revert h2
          cases talk M k sees (fun i => if i = s then some (p, x') else st i) (if sees s then c' else c) (steps es) with
          | none => intro h2; simp only [Option.map_none]; exact h2
          | some l =>
            rintro ⟨w2, e2, l2, g2⟩
            simp only [Option.map_some]
            refine ⟨w2, e2, ?_, g2⟩
            rw [l2, l1]
            simp [named, List.map_append, Function.comp_def]
    cases e with
    | data s bs => exact key s (.data bs) (fun _ => rfl) rfl
    | gap s n => exact key s (.gap n) (fun _ => rfl) rfl
    | again k' po pr =>
      have hn : ¬ (st false = none ∧ st true = none) := fun hn => hag hn k' po pr List.mem_cons_self
      have hc := h.conn
      rw [if_neg hn] at hc
      have : w.exec (Sent.cmd cid o r (.again k' po pr)) = .ok w := by simp only [Sent.cmd, World.exec, hc]
      simp only [List.map_cons, List.cons_append, World.run, this, steps, Exec.bind]
      exact ih h (hag' st (fun _ => rfl))

theorem begin_has (hor : o ≠ r) (po pr : Str) (par : Bool → Option M.Par) (hO : M.lookup po = par false) (hR : M.lookup pr = par true) :
    ∃ (ref : Str × Nat) (w : World M), World.exec {} (.beginConn cid k o po r pr) = .ok w ∧ w.log = [] ∧
      Has cid o r k (fun s => ((par false).bind M.context).isSome || (s && ((par true).bind M.context).isSome)) ref w
        (fun s => (par s).map (fun p => (p, M.init p k)))
        (if ((par false).bind M.context).isSome || ((par true).bind M.context).isSome then ((par false).bind M.context).or ((par true).bind M.context)
          else w.ctxs ref.1 ref.2) := by
  simp only [World.exec, World.create, hO, hR]
  cases hp : par false with
  | none =>
    cases hq : par true with
    | none =>
      refine ⟨(r, 0), _, rfl, rfl, ⟨fun s => ?_, ?_, ?_⟩⟩
      · cases s <;> simp [hp, hq, World.erase, set, side]
      · simp [World.erase, hp, hq]
      · simp
    | some q =>
      cases hd : M.context q with
      | none =>
        refine ⟨(r, 0), _, rfl, ?_, ⟨fun s => ?_, ?_, ?_⟩⟩
        · simp [World.contextFor, hd]
        · cases s <;> simp [World.contextFor, hd, hp, hq, set, side, hor]
        · simp [World.contextFor, hd, set, hp, hq]
        · simp [hd]
      | some c =>
        refine ⟨(r, 0), _, rfl, ?_, ⟨fun s => ?_, ?_, ?_⟩⟩
        · simp [World.contextFor, hd]
        · cases s <;> simp [World.contextFor, hd, hp, hq, set, side, hor]
        · simp [World.contextFor, hd, set, hp, hq]
        · simp [World.contextFor, hd, set, Option.or]
  | some p =>
    cases hc : M.context p with
    | some c =>
      cases hq : par true with
      | none =>
        refine ⟨(o, 0), _, rfl, ?_, ⟨fun s => ?_, ?_, ?_⟩⟩
        · simp [World.contextFor, hc]
        · cases s <;> simp [World.contextFor, hc, hp, hq, set, side, hor, Ne.symm hor]
        · simp [World.contextFor, hc, set, hp, hq]
        · simp [World.contextFor, hc, set, Option.or]
      | some q =>
        refine ⟨(o, 0), _, rfl, ?_, ⟨fun s => ?_, ?_, ?_⟩⟩
        · simp [World.contextFor, hc]
        · cases s <;> simp [World.contextFor, hc, hp, hq, set, side, hor]
        · simp [World.contextFor, hc, set, hp, hq]
        · simp [World.contextFor, hc, set, Option.or]
    | none =>
      cases hq : par true with
      | none =>
        refine ⟨(o, 0), _, rfl, ?_, ⟨fun s => ?_, ?_, ?_⟩⟩
        · simp [World.contextFor, hc]
        · cases s <;> simp [World.contextFor, hc, hp, hq, set, side, hor, Ne.symm hor]
        · simp [World.contextFor, hc, set, hp, hq]
        · simp [hc]
      | some q =>
        cases hd : M.context q with
        | none =>
          refine ⟨(o, 0), _, rfl, ?_, ⟨fun s => ?_, ?_, ?_⟩⟩
          · simp [World.contextFor, hc, hd]
          · cases s <;> simp [World.contextFor, hc, hd, hp, hq, set, side, hor]
          · simp [World.contextFor, hc, hd, set, hp, hq]
          · simp [hc, hd]
        | some c =>
          refine ⟨(r, 0), _, rfl, ?_, ⟨fun s => ?_, ?_, ?_⟩⟩
          · simp [World.contextFor, hc, hd]
          · cases s <;> simp [World.contextFor, hc, hd, hp, hq, set, side, hor]
          · simp [World.contextFor, hc, hd, set, hp, hq]
          · simp [World.contextFor, hc, hd, set, Option.or]

theorem run_append (w : World M) (a b : List Cmd) : w.run (a ++ b) = (w.run a).bind (fun w => w.run b) := by
  induction a generalizing w with
  | nil => rfl
  | cons c a ih =>
    rw [List.cons_append, show w.run (c :: (a ++ b)) = (w.exec c).bind (fun w => w.run (a ++ b)) from rfl,
      show w.run (c :: a) = (w.exec c).bind (fun w => w.run a) from rfl]
    cases w.exec c with
    | ok w2 => exact ih w2
    | stuck => rfl
    | ub => rfl

/-- C68. A connection in a batch, whatever else is in it: if the commands about it and its two flows are a beginning, data and gaps of either side, and an
    end, then its parsers get exactly that, in that order, and are both finished at the end; what comes after the end is ignored, and so is beginning it
    again before. The parsers share the context of the originator's one. A side without a known parser is skipped. -/
theorem C68_connection_gets_its_data (cs : List Cmd) (cid o r : Str) (hor : o ≠ r) (k : Kind) (po pr : Str) (es : List Sent) (late : List Cmd)
    (hcs : cs.filter (Cmd.aboutConn cid o r) = .beginConn cid k o po r pr :: (es.map (Sent.cmd cid o r) ++ .endConn cid :: late))
    (hlate : ∀ c ∈ late, c.begins = false) (hag : M.lookup po = none ∧ M.lookup pr = none → ∀ k po pr, .again k po pr ∉ es)
    (w : World M) (h : World.run {} cs = .ok w) :
    converse M k (fun s => M.lookup (if s then pr else po)) (steps es) =
      some ((w.log.filter (fun x => decide (x.1 = o ∨ x.1 = r))).map (fun x => (decide (x.1 = r), x.2))) := by
  have hb : ∀ c ∈ cs, ∀ cid' k' o' po' r' pr', c = .beginConn cid' k' o' po' r' pr' →
      (cid' = cid ∧ o' = o ∧ r' = r) ∨ (cid' ≠ cid ∧ o' ≠ o ∧ o' ≠ r ∧ r' ≠ o ∧ r' ≠ r) := by
    intro c hc cid' k' o' po' r' pr' he
    subst he
    by_cases ha : Cmd.aboutConn cid o r (.beginConn cid' k' o' po' r' pr') = true
    · have : Cmd.beginConn cid' k' o' po' r' pr' ∈ cs.filter (Cmd.aboutConn cid o r) := List.mem_filter.mpr ⟨hc, ha⟩
      rw [hcs] at this
      rcases List.mem_cons.mp this with h | h
      · injection h with h1 h2 h3 h4 h5 h6; exact Or.inl ⟨h1, h3, h5⟩
      · rcases List.mem_append.mp h with h | h
        · obtain ⟨e, -, h⟩ := List.mem_map.mp h
          cases e with
          | data s bs => cases h
          | gap s n => cases h
          | again k2 po2 pr2 => injection h with h1 h2 h3 h4 h5 h6; exact Or.inl ⟨h1.symm, h3.symm, h5.symm⟩
        · rcases List.mem_cons.mp h with h | h
          · cases h
          · cases hlate _ h
    · simp only [Cmd.aboutConn, decide_eq_true_eq, not_or] at ha
      exact Or.inr ha
  obtain ⟨w', h1, h2⟩ := C68_parties_are_independent (fun i => decide (i = o ∨ i = r)) (fun i => decide (i = cid)) cs (by
    intro c hc
    cases c with
    | beginConn cid' k' o' po' r' pr' =>
      rcases hb _ hc cid' k' o' po' r' pr' rfl with ⟨rfl, rfl, rfl⟩ | ⟨a1, a2, a3, a4, a5⟩
      · simp [Cmd.Consistent]
      · simp [Cmd.Consistent, a1, a2, a3, a4, a5]
    | _ => trivial) w h true
  have hfil : cs.filter (fun c => decide (c.party (fun i => decide (i = o ∨ i = r)) (fun i => decide (i = cid)) = true)) =
      cs.filter (Cmd.aboutConn cid o r) := by
    apply List.filter_congr
    intro c hc
    cases c with
    | beginConn cid' k' o' po' r' pr' =>
      rcases hb _ hc cid' k' o' po' r' pr' rfl with ⟨rfl, rfl, rfl⟩ | ⟨a1, a2, a3, a4, a5⟩
      · simp [Cmd.party, Cmd.aboutConn]
      · simp [Cmd.party, Cmd.aboutConn, a1, a2, a3, a4, a5]
    | _ => simp [Cmd.party, Cmd.aboutConn]
  have hlate' : ∀ c ∈ late, c.begins = false ∧ Cmd.aboutConn cid o r c = true := by
    intro c hc
    have : c ∈ cs.filter (Cmd.aboutConn cid o r) := by rw [hcs]; simp [hc]
    exact ⟨hlate c hc, (List.mem_filter.mp this).2⟩
  rw [hfil, hcs, show es.map (Sent.cmd cid o r) ++ .endConn cid :: late = (es.map (Sent.cmd cid o r) ++ [.endConn cid]) ++ late by simp,
    show ∀ l, World.run (M := M) {} (.beginConn cid k o po r pr :: l) =
      (World.exec {} (.beginConn cid k o po r pr)).bind (fun w => w.run l) from fun _ => rfl] at h1
  generalize hpar : (fun s : Bool => M.lookup (if s then pr else po)) = par
  have p1 : M.lookup po = par false := by rw [← hpar]; rfl
  have p2 : M.lookup pr = par true := by rw [← hpar]; rfl
  obtain ⟨ref, w0, e0, l0, hh⟩ := begin_has (cid := cid) (k := k) hor po pr par p1 p2
  rw [e0] at h1
  simp only [Exec.bind] at h1
  rw [run_append] at h1
  have hrun := hh.run hor es (by
    intro hn
    rw [p1, p2] at hag
    exact hag ⟨by simpa using hn.1, by simpa using hn.2⟩)
  have heq : ∀ (sees : Bool → Bool) (hs : ∀ s, sees s = false) (c : Option M.Ctx) (ev : List (Bool × Event)) (st : Bool → Option (M.Par × M.St)),
      talk M k sees st c ev = talk M k sees st none ev := by
    intro sees hs c ev st
    induction ev generalizing c st with
    | nil => rfl
    | cons x ev ih =>
      obtain ⟨s, e⟩ := x
      simp only [talk, hs, Bool.false_eq_true, if_false]
      cases st s with
      | none => exact ih c st
      | some y =>
        obtain ⟨p, x⟩ := y
        dsimp only
        cases M.step p k x none e with
        | none => rfl
        | some y => obtain ⟨st, c', out⟩ := y; dsimp only; rw [ih]
  have hctx : converse M k par (steps es) = talk M k (fun s => ((par false).bind M.context).isSome || (s && ((par true).bind M.context).isSome))
        (fun s => (par s).map (fun p => (p, M.init p k)))
        (if ((par false).bind M.context).isSome || ((par true).bind M.context).isSome then ((par false).bind M.context).or ((par true).bind M.context)
          else w0.ctxs ref.1 ref.2) (steps es) := by
    unfold converse
    dsimp only
    cases hs : ((par false).bind M.context).isSome || ((par true).bind M.context).isSome with
    | true => rfl
    | false =>
      rw [Bool.or_eq_false_iff] at hs
      simp only [hs.1, hs.2, Bool.and_false, Bool.or_false]
      rw [heq _ (fun _ => rfl), heq _ (fun _ => rfl) (if false = true then _ else _)]
  rw [hctx]
  revert hrun
  cases talk M k (fun s => ((par false).bind M.context).isSome || (s && ((par true).bind M.context).isSome))
        (fun s => (par s).map (fun p => (p, M.init p k)))
        (if ((par false).bind M.context).isSome || ((par true).bind M.context).isSome then ((par false).bind M.context).or ((par true).bind M.context)
          else w0.ctxs ref.1 ref.2) (steps es) with
  | none => intro hrun; rw [hrun] at h1; cases h1
  | some l =>
    rintro ⟨w2, e2, l2, g2⟩
    rw [e2] at h1
    simp only [Exec.bind] at h1
    rw [gone_late g2 late hlate'] at h1
    injection h1 with h1
    subst h1
    have hlog : w.log.filter (fun x => decide (x.1 = o ∨ x.1 = r)) = named o r l := by
      rw [l0, List.nil_append] at l2
      rw [← l2, h2]
      apply List.filter_congr
      intro x _
      simp
    rw [hlog]
    congr 1
    unfold named
    rw [List.map_map]
    have : ((fun x : Str × M.Out => (decide (x.1 = r), x.2)) ∘ fun x : Bool × M.Out => (side o r x.1, x.2)) = id := by
      funext x
      obtain ⟨s, y⟩ := x
      cases s <;> simp [hor, side]
    rw [this, List.map_id]

end Verif.Driver
