import Verif.Driver.BatchExtract
import Verif.Driver.BatchConn
/-!
# Batches with the parsers of `Verif.Driver.Feed` (C68), and how batches go wrong (C68, C69)
-/

namespace Verif.Driver
open Verif.Bytes

/-- The parsers of `Verif.Driver.Feed`: `driver.cc` 538-580 call `process` and `finish` of a `ParsingState`. What a gap does is left open. -/
def feedMachine (Γ : Nat → Parse.G) (f : Nat) (lookup : Str → Option Entry) (gap : PState → Nat → Option PState) : Machine where
  Par := Entry
  St := PState
  Ctx := Unit
  Out := Reply
  lookup := lookup
  context := fun _ => none
  init := fun p k => { kind := k, parser := some p }
  step := fun _ _ st c ev => match ev with
    | .data d => if (st.call Γ f (.process d)).1.outcome.returns then some ((st.call Γ f (.process d)).2, c, [(st.call Γ f (.process d)).1]) else none
    | .finish => if (st.call Γ f .finish).1.outcome.returns then some ((st.call Γ f .finish).2, c, [(st.call Γ f .finish).1]) else none
    | .gap n => (gap st n).map (fun st => (st, c, []))

variable {Γ : Nat → Parse.G} {f : Nat} {lookup : Str → Option Entry} {gap : PState → Nat → Option PState}

theorem calls_cons (st : PState) (c : Call) (cs : List Call) : (st.calls Γ f (c :: cs)).1 =
    if (st.call Γ f c).1.outcome.returns then (st.call Γ f c).1 :: ((st.call Γ f c).2.calls Γ f cs).1 else [(st.call Γ f c).1] := by
  rw [show st.calls Γ f (c :: cs) = (if (st.call Γ f c).1.outcome.returns then
    ((st.call Γ f c).1 :: ((st.call Γ f c).2.calls Γ f cs).1, ((st.call Γ f c).2.calls Γ f cs).2) else ([(st.call Γ f c).1], (st.call Γ f c).2)) from rfl]
  split <;> rfl

/-- Everything the parsers have replied. -/
def replies (w : World (feedMachine Γ f lookup gap)) : List (Str × Reply) := w.log

/-- A flow on its own. -/
theorem run_own (id : Str) (kind : Kind) (e : Entry) (ds : List (List Byte)) (w : World (feedMachine Γ f lookup gap)) (st : PState)
    (hf : w.flows id = some ⟨e, kind, st, none⟩) (w2 : World (feedMachine Γ f lookup gap)) (h : w.run (ds.map (.data id) ++ [.endFlow id]) = .ok w2) :
    replies w2 = replies w ++ (st.calls Γ f (ds.map .process ++ [.finish])).1.map (id, ·) ∧ w2.flows id = none := by
  induction ds generalizing w st with
  | nil =>
    simp only [List.map_nil, List.nil_append] at h ⊢
    rw [calls_cons]
    simp only [World.run, World.exec, World.feed, hf, feedMachine] at h
    by_cases hr : (st.call Γ f .finish).1.outcome.returns
    · simp only [if_pos hr, World.setContext, Exec.bind] at h
      injection h with h
      subst h
      rw [if_pos hr]
      exact ⟨rfl, set_same _ _ _⟩
    · simp only [if_neg hr, Exec.bind] at h
      cases h
  | cons d ds ih =>
    simp only [List.map_cons, List.cons_append] at h ⊢
    rw [calls_cons]
    simp only [World.run, World.exec, World.feed, hf, feedMachine] at h
    by_cases hr : (st.call Γ f (.process d)).1.outcome.returns
    · simp only [if_pos hr, World.setContext, Exec.bind] at h
      obtain ⟨i1, i2⟩ := ih _ _ (set_same _ _ _) h
      rw [if_pos hr, i1]
      exact ⟨List.append_assoc (α := Str × Reply) _ _ _, i2⟩
    · simp only [if_neg hr, Exec.bind] at h
      cases h

/-- The commands that mention the ID of a flow. -/
def Cmd.about (id : Str) : Cmd → Bool
  | .beginFlow i _ _ => i = id
  | .data i _ => i = id
  | .gap i _ => i = id
  | .endFlow i => i = id
  | .beginConn _ _ o _ r _ => o = id ∨ r = id
  | .endConn _ => false

/-- C68. A flow in a batch, whatever else is in it: if the commands about its ID are a beginning, pieces of data and an end, then the replies its
    parser gives are the ones a host application gets for these pieces from a parser of its own. What comes after the end is ignored. -/
theorem C68_flow_gets_its_data (cs : List Cmd) (id : Str) (kind : Kind) (parser : Str) (e : Entry) (ds : List (List Byte)) (late : List Cmd)
    (hl : lookup parser = some e) (hcs : cs.filter (Cmd.about id) = .beginFlow id kind parser :: (ds.map (.data id) ++ .endFlow id :: late))
    (hlate : ∀ c ∈ late, c.begins = false)
    (w : World (feedMachine Γ f lookup gap)) (h : World.run {} cs = .ok w) :
    ((replies w).filter (fun x => decide (x.1 = id))).map (·.2) = (PState.calls Γ f { kind := kind, parser := some e } (ds.map .process ++ [.finish])).1 := by
  have hno : ∀ c ∈ cs, ∀ cid k o po r pr, c = .beginConn cid k o po r pr → o ≠ id ∧ r ≠ id := by
    intro c hc cid k o po r pr he
    subst he
    refine Classical.byContradiction (fun hx => ?_)
    have : Cmd.beginConn cid k o po r pr ∈ cs.filter (Cmd.about id) := by
      refine List.mem_filter.mpr ⟨hc, decide_eq_true ?_⟩
      by_cases h1 : o = id
      · exact Or.inl h1
      · exact Or.inr (Classical.byContradiction (fun h2 => hx ⟨h1, h2⟩))
    rw [hcs] at this
    rcases List.mem_cons.mp this with h | h
    · cases h
    · rcases List.mem_append.mp h with h | h
      · obtain ⟨d, -, h⟩ := List.mem_map.mp h; cases h
      · rcases List.mem_cons.mp h with h | h
        · cases h
        · cases hlate _ h
  obtain ⟨w', h1, h2⟩ := C68_parties_are_independent (fun i => decide (i = id)) (fun _ => false) cs (by
    intro c hc
    cases c with
    | beginConn cid k o po r pr =>
      obtain ⟨a, b⟩ := hno _ hc cid k o po r pr rfl
      exact ⟨decide_eq_false a, decide_eq_false b⟩
    | _ => trivial) w h true
  have hfil : cs.filter (fun c => decide (c.party (fun i => decide (i = id)) (fun _ => false) = true)) = cs.filter (Cmd.about id) := by
    apply List.filter_congr
    intro c hc
    cases c with
    | beginConn cid k o po r pr =>
      obtain ⟨a, b⟩ := hno _ hc cid k o po r pr rfl
      simp [Cmd.party, Cmd.about, a, b]
    | _ => simp [Cmd.party, Cmd.about]
  rw [hfil, hcs] at h1
  have hx : (World.exec {} (.beginFlow id kind parser) : Exec (World (feedMachine Γ f lookup gap))) =
      .ok { flows := set (fun _ => none) id (some ⟨e, kind, { kind := kind, parser := some e }, none⟩) } := by
    simp only [World.exec, World.create, feedMachine, hl, World.contextFor]
  rw [show ds.map (.data id) ++ .endFlow id :: late = (ds.map (.data id) ++ [.endFlow id]) ++ late by simp,
    show ∀ l, World.run (M := feedMachine Γ f lookup gap) {} (.beginFlow id kind parser :: l) =
      (World.exec {} (.beginFlow id kind parser)).bind (fun w => w.run l) from fun _ => rfl, hx] at h1
  simp only [Exec.bind] at h1
  rw [run_append] at h1
  obtain ⟨w1, e1, n1⟩ : ∃ w1, World.run (M := feedMachine Γ f lookup gap)
      { flows := set (fun _ => none) id (some ⟨e, kind, { kind := kind, parser := some e }, none⟩) } (ds.map (.data id) ++ [.endFlow id]) = .ok w1 ∧
      w1.run late = .ok w' := by
    revert h1
    cases World.run (M := feedMachine Γ f lookup gap)
      { flows := set (fun _ => none) id (some ⟨e, kind, { kind := kind, parser := some e }, none⟩) } (ds.map (.data id) ++ [.endFlow id]) with
    | ok w1 => exact fun h => ⟨w1, rfl, h⟩
    | stuck => intro h; cases h
    | ub => intro h; cases h
  obtain ⟨this, gone⟩ : replies w1 = [] ++ (PState.calls Γ f { kind := kind, parser := some e } (ds.map .process ++ [.finish])).1.map (id, ·) ∧
      w1.flows id = none :=
    run_own id kind e ds _ { kind := kind, parser := some e } (by simp [set]) w1 e1
  have hw : w1.run late = .ok w1 := by
    have hl : ∀ c ∈ late, c.begins = false ∧ Cmd.about id c = true := by
      intro c hc
      have : c ∈ cs.filter (Cmd.about id) := by rw [hcs]; simp [hc]
      exact ⟨hlate c hc, (List.mem_filter.mp this).2⟩
    clear n1 h1 hcs hlate
    induction late with
    | nil => rfl
    | cons c late ih =>
      obtain ⟨b1, b2⟩ := hl c List.mem_cons_self
      have hex : w1.exec c = .ok w1 := by
        cases c with
        | beginFlow i k p => cases b1
        | beginConn c k o po r pr => cases b1
        | data i bs => rw [show i = id from of_decide_eq_true b2]; simp only [World.exec, World.feed, gone]
        | gap i n => rw [show i = id from of_decide_eq_true b2]; simp only [World.exec, World.feed, gone]
        | endFlow i => rw [show i = id from of_decide_eq_true b2]; simp only [World.exec, gone]
        | endConn c => cases b2
      rw [show w1.run (c :: late) = (w1.exec c).bind (fun w => w.run late) from rfl, hex]
      exact ih (fun c hc => hl c (List.mem_cons_of_mem _ hc))
  rw [hw] at n1
  injection n1 with n1
  subst n1
  have hlog : (replies w).filter (fun x => decide (x.1 = id)) = replies w1 := by
    unfold replies; rw [h2]; apply List.filter_congr; intro x _; simp
  rw [hlog, this, List.nil_append, List.map_map]
  exact List.map_id _

/-- C68. In stream mode that is the meaning of the concatenated data, settled as soon as possible, however the data of the flow was cut and interleaved
    with other flows. -/
theorem C68_flow_means_its_data_partial (hΓ : ∀ i, Parse.Sound (Γ i)) (cs : List Cmd) (hfit : ∀ c ∈ cs, c.Fit) (id parser : Str) {g : Parse.G} (hg : Parse.Sound g)
    (ds : List (List Byte)) (late : List Cmd) (hl : lookup parser = some ⟨g, true⟩)
    (hcs : cs.filter (Cmd.about id) = .beginFlow id .stream parser :: (ds.map (.data id) ++ .endFlow id :: late)) (hlate : ∀ c ∈ late, c.begins = false)
    (hlen : ds.flatten.length < 2 ^ 64 - 1) (hrun : Parse.meaning Γ f g ⟨ds.flatten, true⟩ ≠ .runsOn)
    (w : World (feedMachine Γ f lookup gap)) (h : processBatch _ (batchText cs) = (.ok w, .ok)) :
    let rs := ((replies w).filter (fun x => decide (x.1 = id))).map (·.2)
    ∃ k, k ≤ ds.length ∧ rs.map (·.outcome) =
        List.replicate k .cont ++ answer (Parse.meaning Γ f g ⟨ds.flatten, true⟩) :: List.replicate (ds.length - k) (.done none) ∧
      rs.getLast?.map (·.offset) = some (posOf (Parse.meaning Γ f g ⟨ds.flatten, true⟩)) := by
  unfold processBatch at h
  rw [C68_read_back cs hfit] at h
  injection h with h
  have := C68_flow_gets_its_data cs id .stream parser ⟨g, true⟩ ds late hl hcs hlate w h
  dsimp only
  rw [this]
  obtain ⟨k, a, -, -, b, c⟩ := C67_input_in_pieces_partial hΓ hg f ds hlen hrun
  exact ⟨k, a, b, c⟩

/-! ## How batches go wrong, and non-trivial cases -/

/-- Parsers that reply with the size of a piece, of everything the flow got, and of everything both sides of the connection got. There are two: `P`, and
    `Q` that has no context. -/
def counter : Machine where
  Par := Bool
  St := Nat
  Ctx := Nat
  Out := Nat × Nat × Option Nat
  lookup := fun s => if s = [80] then some true else if s = [81] then some false else none
  context := fun p => if p then some 0 else none
  init := fun _ _ => 0
  step := fun _ _ n c ev => match ev with
    | .data d => some (n + d.length, c.map (· + d.length), [(d.length, n + d.length, c.map (· + d.length))])
    | .gap m => some (n + m, c, [])
    | .finish => some (n, c, [(0, n, c)])

/-- What the parsers have replied. -/
def logOf : Exec (World counter) → Option (List (Str × Nat × Nat × Option Nat))
  | .ok w => some w.log
  | _ => none

def isUb {α : Type} : Exec α → Bool
  | .ub => true
  | _ => false

/-- A connection `c` (flows `o`, `r`) and a flow `f`, interleaved. -/
def sample : List Cmd := [.beginConn [99] .stream [111] [80] [114] [81], .data [111] [1, 2], .beginFlow [102] .block [80], .data [102] [10, 10, 64],
  .data [114] [3], .gap [102] 5, .endFlow [102], .data [111] [4], .endConn [99]]

/-- IDs are used properly, the text can be written and read, and both sides of the connection share the context of the originator. -/
example : Tidy [] [] sample := by simp [sample, Tidy, flowIds]

example : ∀ c ∈ sample, c.Fit := by
  intro c hc
  simp only [sample, List.mem_cons, List.not_mem_nil, or_false] at hc
  rcases hc with rfl | rfl | rfl | rfl | rfl | rfl | rfl | rfl | rfl <;> simp [Cmd.Fit, Word, isWs]

example : logOf (World.run (M := counter) {} sample) = some [([111], 2, 2, some 2), ([102], 3, 3, some 3), ([114], 1, 1, some 3), ([102], 0, 8, some 3),
    ([111], 1, 3, some 4), ([111], 0, 3, some 4), ([114], 0, 1, some 4)] := by decide +kernel

/-- The parties: the connection with its flows, and the flow. -/
example : ∀ c ∈ sample, c.Consistent (fun id => decide (id = [111] ∨ id = [114])) (fun cid => decide (cid = [99])) := by
  intro c hc
  simp only [sample, List.mem_cons, List.not_mem_nil, or_false] at hc
  rcases hc with rfl | rfl | rfl | rfl | rfl | rfl | rfl | rfl | rfl <;> simp [Cmd.Consistent]

/-- The connection of the sample is as `C68_connection_gets_its_data` requires, and this is what its parsers do. -/
example : sample.filter (Cmd.aboutConn [99] [111] [114]) = .beginConn [99] .stream [111] [80] [114] [81] ::
      ([Sent.data false [1, 2], .data true [3], .data false [4]].map (Sent.cmd [99] [111] [114]) ++ [.endConn [99]]) ∧
    converse counter .stream (fun s => counter.lookup (if s then [81] else [80])) (steps [.data false [1, 2], .data true [3], .data false [4]]) =
      some ([(false, 2, 2, some 2), (true, 1, 1, some 3), (false, 1, 3, some 4), (false, 0, 3, some 4), (true, 0, 1, some 4)] :
        List (Bool × Nat × Nat × Option Nat)) := ⟨rfl, rfl⟩

/-- Without a parser for the originator, with a connection begun again and data after its end. -/
example : logOf (World.run (M := counter) {} [.beginConn [99] .stream [111] [85] [114] [80], .data [111] [1], .beginConn [99] .stream [111] [80] [114] [80],
      .data [114] [1, 2], .endConn [99], .data [114] [1], .endConn [99]]) = some [([114], 2, 2, some 2), ([114], 0, 2, some 2)] := by decide +kernel

/-- The text of a batch with data that contains newlines and commands. -/
example : (readBatch (batchText [.beginFlow [102] .block [80], .data [102] [10, 10, 64], .endFlow [102]])).1.map Cmd.words =
    [[sBeginFlow, [102], sBlock, [80]], [sData, [102], [51]], [sEndFlow, [102]]] := by decide +kernel

/-- A flow of a connection and another one, with real parsers (see `Verif.Parse.Props`). -/
example : (replies (Γ := Parse.Γex) (f := 20) (lookup := fun _ => some ⟨Parse.unitG, true⟩) (gap := fun _ _ => none)
    (match World.run {} [.beginFlow [102] .stream [80], .beginConn [99] .stream [111] [80] [114] [80], .data [102] [83, 80, 1], .data [111] [83],
      .data [102] [7], .endFlow [102], .endConn [99]] with
    | .ok w => w
    | _ => {})).map (·.1) = [[102], [111], [102], [102], [111], [114]] := rfl

/-- Finding: ending a flow that belongs to a connection by itself, and then the connection: the flow is used after it has been released
    (`driver.cc` 571-586, 592-606). -/
theorem C68_fails_flow_of_connection_ended :
    isUb (World.run (M := counter) {} [.beginConn [99] .stream [111] [80] [114] [80], .endFlow [111], .endConn [99]]) = true := by decide +kernel

/-- Finding: the same if two connections share a flow. -/
theorem C68_fails_shared_flow :
    isUb (World.run (M := counter) {} [.beginConn [99] .stream [111] [80] [114] [80], .beginConn [100] .stream [111] [80] [115] [80], .endConn [99],
      .endConn [100]]) = true := by decide +kernel

/-- Finding: a connection without parsers takes away a flow with the same ID as one of its flows, without finishing it. -/
theorem C68_fails_unknown_connection_erases :
    logOf (World.run (M := counter) {} [.beginFlow [111] .stream [80], .beginConn [99] .stream [111] [85] [114] [85], .data [111] [1], .endFlow [111]]) = some [] ∧
    logOf (World.run (M := counter) {} [.beginFlow [111] .stream [80], .data [111] [1], .endFlow [111]]) =
      some [([111], 1, 1, some 1), ([111], 0, 1, some 1)] := by
  constructor <;> decide +kernel

/-- Finding: a flow that is begun again, with an unknown parser, is not skipped: its data goes to the parser that was there before. -/
theorem C68_fails_unknown_flow_continues :
    logOf (World.run (M := counter) {} [.beginFlow [102] .stream [80], .data [102] [1], .beginFlow [102] .stream [85], .data [102] [2]]) =
      some [([102], 1, 1, some 1), ([102], 1, 2, some 2)] := by decide +kernel

/-- Finding: `spicy-batch-extract` does not know `@gap`, whether or not it is about what was asked for. -/
theorem C69_fails_gap : (readBatch (batchText [.beginFlow [102] .stream [80], .gap [103] 3, .endFlow [102]])).2 = .ok ∧
    (extract [102] (batchText [.beginFlow [102] .stream [80], .gap [103] 3, .endFlow [102]])).2 = .unknownCommand := by decide +kernel

/-- Finding: asking for one of the flows of a connection gives its data without anything that begins it: nothing is parsed. -/
theorem C69_fails_side_of_connection :
    (selected [[111]] [.beginConn [99] .stream [111] [80] [114] [80], .data [111] [1], .endConn [99]]).map Cmd.words = [[sData, [111], [49]]] ∧
    logOf (World.run (M := counter) {} (selected [[111]] [.beginConn [99] .stream [111] [80] [114] [80], .data [111] [1], .endConn [99]])) = some [] := by
  decide +kernel

/-- Extracting the connection of the sample, without the gap, and the flow. -/
example : (∀ c ∈ sample.filter (fun c => !c.isGap), c.Separate [99] (involved [99] (sample.filter (fun c => !c.isGap)))) ∧
    (∀ c ∈ sample.filter (fun c => !c.isGap), c.Separate [102] (involved [102] (sample.filter (fun c => !c.isGap)))) ∧
    (selected [[99]] (sample.filter (fun c => !c.isGap))).length = 5 ∧ (selected [[102]] (sample.filter (fun c => !c.isGap))).length = 3 := by
  refine ⟨?_, ?_, by decide, by decide⟩
  all_goals
    intro c hc
    simp only [sample, List.filter, Cmd.isGap, Bool.not_true, Bool.not_false, List.mem_cons, List.not_mem_nil, or_false] at hc
    rcases hc with rfl | rfl | rfl | rfl | rfl | rfl | rfl | rfl <;> simp [Cmd.Separate, involved, sample, List.filter, Cmd.isGap]

example : (readBatch (extract [99] (batchText (sample.filter (fun c => !c.isGap)))).1).1.map Cmd.words =
    (selected [[99]] (sample.filter (fun c => !c.isGap))).map Cmd.words := by decide +kernel

end Verif.Driver
