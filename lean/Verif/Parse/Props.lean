import Verif.Parse.Mono
import Verif.Regex.Witness
/-!
# Parsing: property theorems (C13)

`parseUnit` is what a host application sees: it creates a stream, adds a first piece of input, starts the parser, and
resumes it with further pieces (`Item`s). `meaning` is the specification of `Spec.lean`, a function of the whole input.

The theorems are called `_partial` because they need the grammar to be `Sound`: C13 is false for `real` fields, for
`bytes &size=n &eod`, for regular expressions that may have to go back (or have inner assertions), and for parsing from an
empty value; the first three are refuted at the end of this file.
-/

namespace Verif.Parse
open Verif.Stream

/-- What the host sees at the end of its schedule. -/
inductive Result where
  | value (v : Val) (pos : Nat)   -- the parser finished with a value, at this offset
  | error (e : Exn)               -- the parser threw
  | needsMore                     -- the parser waits for more input
  | runsOn                        -- the parser did not finish within the bound on loops
  | undefined                     -- undefined behaviour

/-- `parser-builder.cc` 1505-1521, `spicy/runtime/include/parser.h` 130-180 (`parse1` and friends), `driver.cc` 176-236:
    parsing with a fresh stream. `f` bounds loops and recursion. -/
def parseUnit (Γ : Nat → G) (f : Nat) (g : G) (trim : Bool) (first : Item) (s : Sched) : Result :=
  match wholeView (({} : Chain).run first.ops) with
  | .ok v => match run Γ f g trim v (({} : Chain).run first.ops) s with
    | .done r _ _ => .value r.1 r.2.begin.offset
    | .throw e _ _ => .error e
    | .suspended _ => .needsMore
    | .diverge => .runsOn
    | .ub => .undefined
  | .throw e => .error e
  | .ub => .undefined

/-- The meaning of a grammar on a whole input. -/
def meaning (Γ : Nat → G) (f : Nat) (g : G) (I : Input) : Result :=
  match eval Γ f g I none 0 with
  | .ok r => .value r.1 r.2
  | .fail e => .error e
  | .more => .needsMore
  | .diverge => .runsOn

/-- The input a schedule delivers. -/
def input (s : Sched) : Input := ⟨total s, closes s⟩

theorem init_env (s : Sched) : Env (input s) {} s := by
  refine ⟨Chain.live_init, ?_, ?_, ?_, ?_⟩
  · exact Nat.zero_le _
  · rfl
  · rfl
  · rfl

/-- C13. What the host sees is the meaning of the grammar on all the input it delivers, however it cuts that up. In
    particular there is never undefined behaviour. -/
theorem C13_parse_is_meaning_partial {U : Units} {Γ : Nat → G} (hΓ : UnitsOk U Γ) {g : G} (hg : SoundIn U none g) (f : Nat) (trim : Bool)
    (first : Item) (s : Sched) (hlen : (total (first :: s)).length < 2 ^ 64 - 1) :
    parseUnit Γ f g trim first s = meaning Γ f g (input (first :: s)) := by
  obtain ⟨env, st⟩ := item_env (init_env (first :: s))
  obtain ⟨i, e, ho, hi⟩ := Chain.begin_spec env.live (st.evolves.headPos (by intro k hk; cases hk))
  have hh : (({} : Chain).run first.ops).headOffset = 0 := st.keep rfl
  have a : At (({} : Chain).run first.ops) ⟨i, none⟩ 0 none :=
    ⟨hi, by rw [ho, hh], fun x hx => (by cases hx), rfl, (by rw [hh]; exact Nat.le_refl _), Nat.zero_le _,
      fun l hl => (by cases hl)⟩
  have hv : wholeView (({} : Chain).run first.ops) = .ok ⟨i, none⟩ := by unfold wholeView; rw [e]; rfl
  have sim := (run_refinesIn hΓ f hg).1.plain (input (first :: s)) hlen none trim _ 0 _ s env a
  unfold parseUnit meaning
  rw [hv]
  dsimp only
  cases hr : eval Γ f g (input (first :: s)) none 0 with
  | ok r => rw [hr] at sim; obtain ⟨v, c', s', h1, -, -, h4⟩ := sim; rw [h1]; simp only [h4.off]
  | fail x => rw [hr] at sim; obtain ⟨c', s', h1, -⟩ := sim; rw [h1]
  | more => rw [hr] at sim; obtain ⟨c', h1⟩ := sim; rw [h1]
  | diverge => rw [hr] at sim; rw [show run Γ f g trim _ _ s = .diverge from sim]

/-- C13. Chunking does not matter: two hosts that deliver the same data (and agree on whether they signal its end) see the
    same value at the same position, the same kind of error, or both a waiting parser, whether or not the parser trims. -/
theorem C13_chunking_is_unobservable_partial {U : Units} {Γ : Nat → G} (hΓ : UnitsOk U Γ) {g : G} (hg : SoundIn U none g) (f : Nat)
    (trim trim' : Bool) (first first' : Item) (s s' : Sched) (hlen : (total (first :: s)).length < 2 ^ 64 - 1)
    (hd : total (first :: s) = total (first' :: s')) (hc : closes (first :: s) = closes (first' :: s')) :
    parseUnit Γ f g trim first s = parseUnit Γ f g trim' first' s' := by
  rw [C13_parse_is_meaning_partial hΓ hg f trim first s hlen, C13_parse_is_meaning_partial hΓ hg f trim' first' s' (hd ▸ hlen)]
  unfold input
  rw [hd, hc]

/-- C13. In particular, feeding pieces gives the same as feeding everything at once. -/
theorem C13_same_as_one_piece_partial {U : Units} {Γ : Nat → G} (hΓ : UnitsOk U Γ) {g : G} (hg : SoundIn U none g) (f : Nat) (trim : Bool)
    (pieces : List (List Byte)) (hlen : pieces.flatten.length < 2 ^ 64 - 1) :
    parseUnit Γ f g trim ⟨[], false, false⟩ (pieces.map (fun p => ⟨[p], false, false⟩) ++ [⟨[], true, false⟩]) =
      parseUnit Γ f g trim ⟨[pieces.flatten], true, false⟩ [] := by
  have ht : ∀ ps : List (List Byte), total (ps.map (fun p => (⟨[p], false, false⟩ : Item)) ++ [⟨[], true, false⟩]) = ps.flatten := by
    intro ps
    induction ps with
    | nil => rfl
    | cons p ps ih => simp [total] at ih ⊢; exact ih
  refine C13_chunking_is_unobservable_partial hΓ hg f trim trim _ _ _ _ ?_ ?_ ?_
  · simp only [total, List.flatten_nil, List.nil_append, Bool.false_eq_true, if_false]
    rw [ht]; exact hlen
  · simp only [total, List.flatten_nil, List.nil_append, Bool.false_eq_true, if_false]
    rw [ht]; simp
  · simp [closes]

theorem total_append {s : Sched} (h : closes s = false) (s' : Sched) : total (s ++ s') = total s ++ total s' := by
  induction s with
  | nil => rfl
  | cons it s ih =>
    simp only [closes, List.any_cons, Bool.or_eq_false_iff] at h
    simp only [List.cons_append, total, h.1, Bool.false_eq_true, if_false]
    rw [ih (by simpa [closes] using h.2), List.append_assoc]

/-- C13. Results are final: once a parser has produced a value or an error from the data so far (or does not wait for more and
    yet has no result), further input would not have changed that. -/
theorem C13_results_are_final_partial {U : Units} {Γ : Nat → G} (hΓ : UnitsOk U Γ) {g : G} (hg : SoundIn U none g) (f : Nat) (trim : Bool)
    (first : Item) (s more : Sched) (hlen : (total (first :: s ++ more)).length < 2 ^ 64 - 1)
    (h1 : parseUnit Γ f g trim first s ≠ .needsMore) :
    parseUnit Γ f g trim first (s ++ more) = parseUnit Γ f g trim first s := by
  have hle : Input.Le (input (first :: s)) (input (first :: (s ++ more))) := by
    cases hc : closes (first :: s) with
    | false =>
      refine Or.inr ⟨hc, ?_⟩
      have := total_append hc more
      rw [List.cons_append] at this
      unfold input
      rw [this]
      exact List.prefix_append _ _
    | true =>
      refine Or.inl ?_
      have hcl : ∀ t : Sched, closes t = true → total (t ++ more) = total t ∧ closes (t ++ more) = true := by
        intro t
        induction t with
        | nil => intro h; cases h
        | cons it t ih =>
          intro h
          simp only [List.cons_append, total]
          cases hf : it.freeze with
          | true => exact ⟨rfl, by simp [closes, hf]⟩
          | false =>
            have : closes t = true := by simpa [closes, hf] using h
            obtain ⟨i1, i2⟩ := ih this
            simp only [Bool.false_eq_true, if_false, i1]
            exact ⟨trivial, by simp [closes] at i2 ⊢; right; exact i2⟩
      obtain ⟨e1, e2⟩ := hcl (first :: s) hc
      unfold input
      rw [← List.cons_append, e1, e2, hc]
  have hl0 : (total (first :: s)).length < 2 ^ 64 - 1 := by
    rcases hle with he | ⟨_, hp⟩
    · have := congrArg Input.data he
      have : total (first :: s) = total (first :: (s ++ more)) := this
      rw [this]; exact hlen
    · have := hp.length_le
      exact Nat.lt_of_le_of_lt this hlen
  rw [C13_parse_is_meaning_partial hΓ hg f trim first s hl0] at h1 ⊢
  rw [C13_parse_is_meaning_partial hΓ hg f trim first (s ++ more) hlen]
  unfold meaning at h1 ⊢
  rcases eval_stable Γ f g _ _ none 0 hle with e | e
  · rw [e] at h1; exact absurd rfl h1
  · rw [e]

/-- C13. The bound on loops only matters if it is reached. -/
theorem C13_bound_is_irrelevant_partial {U : Units} {Γ : Nat → G} (hΓ : UnitsOk U Γ) {g : G} (hg : SoundIn U none g) {f f' : Nat} (hf : f ≤ f')
    (trim : Bool) (first : Item) (s : Sched) (hlen : (total (first :: s)).length < 2 ^ 64 - 1)
    (h : parseUnit Γ f g trim first s ≠ .runsOn) : parseUnit Γ f' g trim first s = parseUnit Γ f g trim first s := by
  rw [C13_parse_is_meaning_partial hΓ hg f trim first s hlen] at h ⊢
  rw [C13_parse_is_meaning_partial hΓ hg f' trim first s hlen]
  unfold meaning at h ⊢
  rcases eval_le Γ hf g _ none 0 with e | e
  · rw [e] at h; exact absurd rfl h
  · rw [e]

/-- C13. No schedule leads to undefined behaviour. -/
theorem C13_no_undefined_behaviour_partial {U : Units} {Γ : Nat → G} (hΓ : UnitsOk U Γ) {g : G} (hg : SoundIn U none g) (f : Nat) (trim : Bool)
    (first : Item) (s : Sched) (hlen : (total (first :: s)).length < 2 ^ 64 - 1) :
    parseUnit Γ f g trim first s ≠ .undefined := by
  rw [C13_parse_is_meaning_partial hΓ hg f trim first s hlen]
  unfold meaning
  cases eval Γ f g (input (first :: s)) none 0 <;> simp

/-! ## A non-trivial case -/

/-- The value of a byte. -/
def byteVal (bs : List Byte) : Val := .int ((bs.map UInt8.toNat).headD 0)

/-- `type Msg = unit { n: uint8; body: bytes &size=self.n; };` -/
def msgG : G := .seq (.unpack 1 1 byteVal) (fun v => match v with
  | .int n => .bytesSize n.toNat
  | _ => .fail .parseError)

/-- `type Unit = unit { magic: b"SP"; msgs: Msg[] &eod; };` -/
def unitG : G := .seq (.lit [83, 80]) (fun _ => .foreach true (.call 0) (fun _ => .go))

def Γex : Nat → G := fun _ => msgG

theorem sound_msgG : Sound msgG := by
  refine .seq (.unpack 1 byteVal) (fun v => ?_)
  cases v with
  | int n => exact .bytesSize _
  | _ => exact .fail _

theorem sound_unitG : Sound unitG := .seq (.lit _) (fun _ => .foreach _ _ (.call 0))

/-- A whole message stream, cut up byte by byte. -/
example : parseUnit Γex 20 unitG true ⟨[], false, false⟩
      ([83, 80, 2, 7, 8, 0, 1, 9].map (fun b => (⟨[[b]], false, false⟩ : Item)) ++ [⟨[], true, false⟩]) =
    .value (.list [.bytes [7, 8], .bytes [], .bytes [9]]) 8 := by
  rw [C13_parse_is_meaning_partial (Γ := Γex) (unitsOk_plain (fun _ => sound_msgG)) sound_unitG 20 true _ _ (by decide)]
  rfl

/-- The same without the proof: the machine itself. -/
example : parseUnit Γex 2 (.call 0) true ⟨[[2]], false, false⟩ [⟨[[7]], false, false⟩, ⟨[[8, 0]], true, false⟩] =
    .value (.bytes [7, 8]) 3 := by rfl

/-- Buffers lent to the stream, as `ParsingState::process()` does it. -/
example : parseUnit Γex 2 (.call 0) true ⟨[[2]], false, true⟩ [⟨[[7]], false, true⟩, ⟨[[8, 0]], true, true⟩] =
    .value (.bytes [7, 8]) 3 := by rfl

/-- A truncated message: waiting while the end is open, an error once it is known. -/
example : parseUnit Γex 20 unitG true ⟨[[83, 80, 3, 1]], false, false⟩ [] = .needsMore ∧
    parseUnit Γex 20 unitG true ⟨[[83, 80, 3, 1]], false, false⟩ [⟨[], true, false⟩] = .error .parseError := by
  rw [C13_parse_is_meaning_partial (Γ := Γex) (unitsOk_plain (fun _ => sound_msgG)) sound_unitG 20 true _ _ (by decide),
    C13_parse_is_meaning_partial (Γ := Γex) (unitsOk_plain (fun _ => sound_msgG)) sound_unitG 20 true _ _ (by decide)]
  constructor <;> rfl

/-- `type Line = unit { n: /[0-9]+/; : b" "; body: bytes &size=1; };` -/
def lineG : G := .seq (.regexp Regex.digits) (fun v => .seq (.lit [32]) (fun _ => .seq (.bytesSize 1) (fun b => .ret (.list [v, b]))))

theorem sound_lineG : Sound lineG :=
  .seq (.regexp Regex.plain_digits Regex.noBack_digits) (fun _ => .seq (.lit _) (fun _ => .seq (.bytesSize _) (fun _ => .ret _)))

/-- A regular expression, byte by byte and with the end of the data coming alone. -/
example : parseUnit Γex 20 lineG true ⟨[], false, false⟩
      ([49, 50, 51, 32, 9].map (fun b => (⟨[[b]], false, false⟩ : Item)) ++ [⟨[], true, false⟩]) =
    .value (.list [.bytes [49, 50, 51], .bytes [9]]) 5 := by
  rw [C13_parse_is_meaning_partial (Γ := Γex) (unitsOk_plain (fun _ => sound_msgG)) sound_lineG 20 true _ _ (by decide)]
  rfl

/-- While the number may go on, the parser waits; at the end of the data it is complete. -/
example : parseUnit Γex 20 (.regexp Regex.digits) true ⟨[[49]], false, false⟩ [⟨[[50]], false, false⟩] = .needsMore ∧
    parseUnit Γex 20 (.regexp Regex.digits) true ⟨[[49]], false, false⟩ [⟨[[50]], false, false⟩, ⟨[], true, false⟩] = .value (.bytes [49, 50]) 2 := by
  constructor <;> rfl

/-! ## What fails for grammars outside of `Sound` -/

/-- Finding: a regular expression that may have to go back, `abc(123)?` on "abc12": if the end of the data is known with the
    last byte, it matches "abc". If the end is signalled separately (as `finish()` and the drivers do it), the match is lost and
    parsing fails (or, depending on `jrx_current_accept`, it gets more than the match). -/
theorem C13_regexp_depends_on_chunking :
    parseUnit Γex 5 (.regexp (Regex.abc123 false)) true ⟨[[97, 98, 99, 49, 50]], true, false⟩ [] = .value (.bytes [97, 98, 99]) 3 ∧
    parseUnit Γex 5 (.regexp (Regex.abc123 true)) true ⟨[[97, 98, 99, 49, 50]], true, false⟩ [] = .value (.bytes [97, 98, 99]) 3 ∧
    parseUnit Γex 5 (.regexp (Regex.abc123 false)) true ⟨[[97, 98, 99, 49, 50]], false, false⟩ [⟨[], true, false⟩] = .error .parseError ∧
    parseUnit Γex 5 (.regexp (Regex.abc123 true)) true ⟨[[97, 98, 99, 49, 50]], false, false⟩ [⟨[], true, false⟩] =
      .value (.bytes [97, 98, 99, 49, 50]) 5 := by
  refine ⟨?_, ?_, ?_, ?_⟩ <;> rfl

/-- Finding: `real &type=spicy::RealType::IEEE754_Double` waits for 4 bytes only (`types.cc` 222-227) and then needs 8.
    The same 8 bytes parse if they arrive together, and are an error if they arrive in two pieces. -/
theorem C13_real_depends_on_chunking :
    parseUnit (fun _ => .ret .unit) 5 (.unpack 4 8 .bytes) true ⟨[[1, 2, 3, 4, 5, 6, 7, 8]], true, false⟩ [] =
      .value (.bytes [1, 2, 3, 4, 5, 6, 7, 8]) 8 ∧
    parseUnit (fun _ => .ret .unit) 5 (.unpack 4 8 .bytes) true ⟨[[1, 2, 3, 4]], false, false⟩ [⟨[[5, 6, 7, 8]], true, false⟩] =
      .error .runtimeError := by
  constructor <;> rfl

/-- Finding: inside of a limited field, `bytes &size=n &eod` reads data beyond the limit (`parser.cc` 282-298 takes the
    data from the stream, not from the view): the field is limited to 2 bytes and the value has 3. -/
theorem C13_size_eod_reads_beyond_limit :
    parseUnit (fun _ => .ret .unit) 5 (.limit 2 (.bytesSizeEod 3)) true ⟨[[1, 2, 3, 4]], true, false⟩ [] =
      .value (.bytes [1, 2, 3]) 2 := by rfl

/-- ... and how much depends on the chunking: if the third byte has not arrived when the limit is reached, the value has 2
    bytes. -/
theorem C13_size_eod_depends_on_chunking :
    parseUnit (fun _ => .ret .unit) 5 (.limit 2 (.bytesSizeEod 3)) true ⟨[[1, 2]], false, false⟩ [⟨[[3, 4]], true, false⟩] =
      .value (.bytes [1, 2]) 2 := by rfl

/-- Finding: a list `x[] &until=...` whose elements consume nothing does not terminate at the end of the data: `finishLoopBody`
    lets the loop go on there (`parser-builder.cc` 3113-3121). Whatever the bound, it is reached. -/
theorem C13_foreach_at_end_runs_on (f : Nat) :
    parseUnit (fun _ => .ret .unit) f (.foreach false (.ret .unit) (fun _ => .go)) true ⟨[], true, false⟩ [] = .runsOn := by
  rw [C13_parse_is_meaning_partial (unitsOk_plain (fun _ => .ret _)) (.foreach _ _ (.ret _)) f true _ _ (by decide)]
  unfold meaning
  have h0 : atEnd (input [⟨[], true, false⟩]) none 0 = .ok true := rfl
  have key : ∀ (n m : Nat) (acc : List Val), foreachSpec false (evalWith (fun i => eval (fun _ => .ret .unit) m (.ret .unit)) m (.ret .unit))
      (fun _ => .go) (input [⟨[], true, false⟩]) none n 0 acc = .diverge := by
    intro n m
    induction n with
    | zero => intro acc; rfl
    | succ n ih =>
      intro acc
      unfold foreachSpec
      simp only [Bool.false_eq_true, if_false, SRes.ok_bind, evalWith, if_true, h0, Bool.not_true]
      have := ih (acc ++ [.unit])
      simpa only [evalWith] using this
  cases f with
  | zero => rfl
  | succ f =>
    have := key f f []
    simp only [eval, evalWith] at this ⊢
    rw [this]

end Verif.Parse
