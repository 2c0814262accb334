import Verif.Sync.Ends
import Verif.Parse.Props
/-!
# Error recovery in lists: property theorems (C63, C64)

`parseList` is what a host application sees of a unit that consists of a list `X[]` with `&synchronize`; the host delivers its
input in pieces. `expected` is what a user expects of such a list, as a function of all the input (`Spec.lean`, `idealS`).

The theorems are called `_partial` because the properties are false for elements that fail in a `&requires` or a hook
having consumed at least two bytes when nothing more has arrived; that is refuted in `Witness.lean`.
-/

namespace Verif.Sync
open Verif.Stream Verif.Parse

/-- What the host sees at the end of its schedule. -/
inductive ListResult where
  | list (log : List Ev) (pos : Nat)          -- the list was parsed, up to the offset
  | unconfirmed (log : List Ev) (pos : Nat)   -- an error: a synchronization was never confirmed
  | error (e : Exn)                           -- any other error
  | waiting                                   -- the parser waits for input
  | runsOn                                    -- the parser did not finish within the bound on loops
  | undefined                                 -- undefined behaviour

/-- `pb.cc` 2446-2457: at the end of the top-level unit the parse function checks for an unconfirmed error. -/
def hostResult : Out (Frame × List Ev) → ListResult
  | .done a _ _ => if a.1.err.isSome then .unconfirmed a.2 a.1.cur.begin.offset else .list a.2 a.1.cur.begin.offset
  | .throw e _ _ => .error e
  | .suspended _ => .waiting
  | .diverge => .runsOn
  | .ub => .undefined

/-- `pb.cc` 2400-2462: a host parses with a fresh stream. -/
def parseWith (p : Frame → P (Frame × List Ev)) (first : Item) (s : Sched) : ListResult :=
  match wholeView (({} : Chain).run first.ops) with
  | .ok v => hostResult (p { cur := v } (({} : Chain).run first.ops) s)
  | .throw e => .error e
  | .ub => .undefined

/-- A unit that is a list `X[]` with `&synchronize`; `g` is the rest of an element. `f` bounds loops. -/
def parseList (L : ListField) (g : Parser) (trim : Bool) (f : Nat) (first : Item) (s : Sched) : ListResult :=
  parseWith (fun fr => whileLoop L g trim f f fr []) first s

/-- A unit that is a list `X[n]` with `&synchronize`. -/
def parseCounted (L : ListField) (g : Parser) (trim : Bool) (f n : Nat) (first : Item) (s : Sched) : ListResult :=
  parseWith (fun fr => counterLoop L g trim f n fr []) first s

/-- What a user looks at: the values, where parsing ended. -/
inductive Seen where
  | list (vs : List Val) (pos : Nat)
  | unconfirmed (vs : List Val) (pos : Nat)
  | failed
  | waiting
  | runsOn
  | undefined

def ListResult.seen : ListResult → Seen
  | .list log pos => .list (values log) pos
  | .unconfirmed log pos => .unconfirmed (values log) pos
  | .error _ => .failed
  | .waiting => .waiting
  | .runsOn => .runsOn
  | .undefined => .undefined

/-- What a user expects, from the whole input. -/
def expected (L : ListField) (E : Elem) (trim : Bool) (I : Input) : Seen :=
  match idealS L E trim I none (I.data.length + 1) .look { pos := 0 } with
  | .ok S => if S.err then .unconfirmed (values S.log) S.pos else .list (values S.log) S.pos
  | .fail _ => .failed
  | .more => .waiting
  | .diverge => .runsOn

/-! ## Auxiliary -/

theorem begin_frame (first : Item) (s : Sched) (trim : Bool) : ∃ v, wholeView (({} : Chain).run first.ops) = .ok v ∧
    Env (input (first :: s)) (({} : Chain).run first.ops) s ∧ (({} : Chain).run first.ops).HeadPos ∧
    FrAt (({} : Chain).run first.ops) none trim { cur := v } { pos := 0 } := by
  obtain ⟨env, st⟩ := item_env (init_env (first :: s))
  have hp : (({} : Chain).run first.ops).HeadPos := st.evolves.headPos (by intro k hk; cases hk)
  obtain ⟨i, e, ho, hi⟩ := Chain.begin_spec env.live hp
  have hh : (({} : Chain).run first.ops).headOffset = 0 := st.keep rfl
  have a : At (({} : Chain).run first.ops) ⟨i, none⟩ 0 none :=
    ⟨hi, by rw [ho, hh], fun x hx => (by cases hx), rfl, (by rw [hh]; exact Nat.le_refl _), Nat.zero_le _,
      fun l hl => (by cases hl)⟩
  exact ⟨⟨i, none⟩, by unfold wholeView; rw [e]; rfl, env, hp, a, trivial, rfl, fun _ => hh, fun h => (by cases h)⟩

theorem stop_none (I : Input) : I.stop none = I.data.length := by
  unfold Input.stop
  simp

theorem whileS_more {L : ListField} {E : Elem} {trim : Bool} {I : Input} {lim : Option Nat} {f : Nat} (k : Nat) : ∀ {st : St} {k' : Nat},
    k ≤ k' → whileS L E trim I lim f k st ≠ .diverge → whileS L E trim I lim f k' st = whileS L E trim I lim f k st := by
  induction k with
  | zero => intro st k' _ h; exact absurd rfl h
  | succ k ih =>
    intro st k' hk h
    obtain ⟨k', rfl⟩ : ∃ j, k' = j + 1 := ⟨k' - 1, by omega⟩
    unfold whileS at h ⊢
    cases hr : whileRoundS L E trim I lim f st with
    | ok b =>
      rw [hr] at h
      cases b with
      | next st' => exact ih (by omega) h
      | stop st' => rfl
    | fail x => rfl
    | more => rfl
    | diverge => rfl

/-- What was seen corresponds to the specification. -/
def Same (r : ListResult) : SRes St → Prop
  | .ok st => r = if st.err.isSome then .unconfirmed st.log st.pos else .list st.log st.pos
  | .fail _ => ∃ e, r = .error e
  | .more => r = .waiting
  | .diverge => r = .runsOn

theorem Same.of {I : Input} {trim : Bool} {c : Chain} {bad : Prop} {out : Out (Frame × List Ev)} {r : SRes St}
    (h : Outc (RFr I none trim c) bad out r) (hb : ¬ bad) : Same (hostResult out) r := by
  cases r with
  | ok st =>
    rcases h with ⟨a, c', s', h1, -, -, h4, h5⟩ | ⟨h1, -⟩
    · subst h1
      unfold Same hostResult
      dsimp only
      rw [h4.err, h5, h4.at_.off]
    · exact absurd h1 hb
  | fail e => obtain ⟨x, c', s', h1, -⟩ := h; subst h1; exact ⟨x, rfl⟩
  | more =>
    rcases h with ⟨c', h1⟩ | ⟨h1, -⟩
    · subst h1; rfl
    · exact absurd h1 hb
  | diverge =>
    rcases h with h1 | ⟨h1, -⟩
    · subst h1; rfl
    · exact absurd h1 hb

theorem Same.or {I : Input} {trim : Bool} {c : Chain} {bad : Prop} {out : Out (Frame × List Ev)} {r : SRes St}
    (h : Outc (RFr I none trim c) bad out r) : Same (hostResult out) r ∨ hostResult out = .error .invalidIterator := by
  have lost : (∃ c' s', out = .throw .invalidIterator c' s') → hostResult out = .error .invalidIterator := by
    rintro ⟨c', s', h⟩; rw [h]; rfl
  cases r with
  | ok st =>
    rcases h with h | ⟨-, h⟩
    · exact Or.inl (Same.of (bad := False) (c := c) (I := I) (trim := trim) (r := .ok st) (Or.inl h) id)
    · exact Or.inr (lost h)
  | fail e => exact Or.inl (Same.of (bad := False) (c := c) (I := I) (trim := trim) (r := .fail e) h id)
  | more =>
    rcases h with h | ⟨-, h⟩
    · exact Or.inl (Same.of (bad := False) (c := c) (I := I) (trim := trim) (r := .more) (Or.inl h) id)
    · exact Or.inr (lost h)
  | diverge =>
    rcases h with h | ⟨-, h⟩
    · exact Or.inl (Same.of (bad := False) (c := c) (I := I) (trim := trim) (r := .diverge) (Or.inl h) id)
    · exact Or.inr (lost h)

theorem parseList_same {L : ListField} (hne : L.lit ≠ []) {E : Elem} (fw : Forward E.g) {p : Parser} {trim : Bool}
    (hp : RefinesM trim p E) (first : Item) (s : Sched) (hlen : (total (first :: s)).length < 2 ^ 64 - 1) {f : Nat} (hf : 0 < f)
    (hb : ¬ Bad E (input (first :: s)) none) :
    Same (parseList L p trim f first s) (whileS L E trim (input (first :: s)) none f f { pos := 0 }) := by
  obtain ⟨v, h1, h2, h3, h4⟩ := begin_frame first s trim
  unfold parseList parseWith
  rw [h1]
  exact Same.of (whileLoop_spec hne fw hp hlen hf f h2 h3 h4) hb

theorem parseCounted_same {L : ListField} (hne : L.lit ≠ []) {E : Elem} {p : Parser} {trim : Bool}
    (hp : RefinesM trim p E) (first : Item) (s : Sched) (hlen : (total (first :: s)).length < 2 ^ 64 - 1) {f : Nat} (hf : 0 < f)
    (n : Nat) (hb : ¬ Bad E (input (first :: s)) none) :
    Same (parseCounted L p trim f n first s) (counterS L E trim (input (first :: s)) none f n { pos := 0 }) := by
  obtain ⟨v, h1, h2, h3, h4⟩ := begin_frame first s trim
  unfold parseCounted parseWith
  rw [h1]
  exact Same.of (counterLoop_spec hne hp hlen hf n h2 h3 h4) hb

/-! ## C63 -/

/-- C63. Exactly parse errors, missing data and backtracking are errors one can recover from. -/
theorem C63_recoverable (e : Exn) : recoverable e = true ↔ e = .parseError ∨ e = .missingData ∨ e = .backtrack := by
  cases e <;> simp [recoverable]

/-- The core of C63: what the specification of the code says is what a user expects. -/
theorem seen_expected {L : ListField} (hne : L.lit ≠ []) (hr : L.hook ≠ .reject) {E : Elem} (fw : Forward E.g) {trim : Bool}
    {I : Input} (hE : ∀ q, E.g I none q ≠ .diverge) {f : Nat} (hf : I.data.length < f) {x : ListResult}
    (hs : Same x (whileS L E trim I none f f { pos := 0 })) :
    x.seen = expected L E trim I ∧ expected L E trim I ≠ .runsOn := by
  have hst := stop_none I
  have he := whileS_ends (trim := trim) hne fw hE (f := f) (by omega) (I.data.length + 1) { pos := 0 } (by omega) (by omega)
  rw [whileS_more (I.data.length + 1) (by omega) he] at hs
  have ha := (whileS_agrees (I := I) hne hr E trim none f (I.data.length + 1) _ (Nat.le_refl _)).1 { pos := 0 } { pos := 0 }
    rfl ⟨rfl, rfl, rfl, List.Sublist.refl _⟩
  unfold expected
  generalize whileS L E trim I none f (I.data.length + 1) { pos := 0 } = r at hs ha he
  generalize idealS L E trim I none (I.data.length + 1) .look { pos := 0 } = i at ha
  cases r with
  | ok st =>
    cases i with
    | ok S =>
      have hs : x = _ := hs
      rw [hs]
      have ha : Corr st S := ha
      rw [ha.err]
      dsimp only
      refine ⟨?_, ?_⟩
      · split <;> simp only [ListResult.seen, ha.log.values, ha.pos]
      · split <;> exact (fun h => by cases h)
    | fail x => exact absurd ha id
    | more => exact absurd ha id
    | diverge => exact absurd ha id
  | fail e =>
    cases i with
    | fail y =>
      obtain ⟨y, hs⟩ := hs
      rw [hs]
      exact ⟨rfl, fun h => (by cases h)⟩
    | ok S => exact absurd ha id
    | more => exact absurd ha id
    | diverge => exact absurd ha id
  | more =>
    cases i with
    | more =>
      have hs : x = _ := hs
      rw [hs]
      exact ⟨rfl, fun h => (by cases h)⟩
    | ok S => exact absurd ha id
    | fail x => exact absurd ha id
    | diverge => exact absurd ha id
  | diverge => exact absurd rfl he

/-- C63 for any parser for the rest of an element. -/
theorem recovers {L : ListField} (hne : L.lit ≠ []) (hr : L.hook ≠ .reject) {E : Elem} (fw : Forward E.g) {p : Parser}
    {trim : Bool} (hp : RefinesM trim p E) (first : Item) (s : Sched) (hlen : (total (first :: s)).length < 2 ^ 64 - 1)
    (hE : ∀ q, E.g (input (first :: s)) none q ≠ .diverge) {f : Nat} (hf : (total (first :: s)).length < f)
    (hb : ¬ Bad E (input (first :: s)) none) :
    (parseList L p trim f first s).seen = expected L E trim (input (first :: s)) ∧
    expected L E trim (input (first :: s)) ≠ .runsOn :=
  seen_expected hne hr fw hE hf (parseList_same hne fw hp first s hlen (by omega) hb)

/-- The body never fails in a `&requires` or a hook, for this input. -/
def NeverLate (g : G) (I : Input) : Prop :=
  ∀ p e, bodyS g I none p = .fail e → recoverable e = true → lateOf g I none p = false

theorem not_bad {g : G} {I : Input} (h : NeverLate g I) : ¬ Bad (elemOf g) I none := by
  rintro ⟨p, e, h1, h2, h3⟩
  have := h p e h1 h2
  rw [show lateOf g I none p = true from h3] at this
  cases this

/-- C63. A list with `&synchronize`, however its input is cut up: the host sees the values of the elements, except those with
    errors, up to a follow-up token or the end of the data; after an error parsing goes on at the next place where an
    element can begin. It never runs forever. -/
theorem C63_recovers_partial {L : ListField} (hne : L.lit ≠ []) (hr : L.hook ≠ .reject) {g : G} (hg : Body g) (trim : Bool)
    (first : Item) (s : Sched) (hlen : (total (first :: s)).length < 2 ^ 64 - 1) {f : Nat}
    (hf : (total (first :: s)).length < f) (hl : NeverLate g (input (first :: s))) :
    (parseList L (bodyP g) trim f first s).seen = expected L (elemOf g) trim (input (first :: s)) ∧
    expected L (elemOf g) trim (input (first :: s)) ≠ .runsOn :=
  recovers hne hr (bodyS_forward hg) (body_refinesM trim hg) first s hlen (fun q => bodyS_ends hg q) hf (not_bad hl)

/-- C63. Where nothing is trimmed (input from `&parse-from`, `&parse-at`, inside of `&try`), that holds for elements of all
    kinds of which C13 holds. -/
theorem C63_recovers_untrimmed_partial {L : ListField} (hne : L.lit ≠ []) (hr : L.hook ≠ .reject) {Γ : Nat → G}
    (hΓ : ∀ i, Sound (Γ i)) {g : G} (hg : Sound g) (n : Nat) (first : Item) (s : Sched)
    (hlen : (total (first :: s)).length < 2 ^ 64 - 1) (he : ∀ q, eval Γ n g (input (first :: s)) none q ≠ .diverge) {f : Nat}
    (hf : (total (first :: s)).length < f) :
    (parseList L (run Γ n g) false f first s).seen =
      expected L ⟨eval Γ n g, fun _ _ p => p, fun _ _ _ => false⟩ false (input (first :: s)) ∧
    expected L ⟨eval Γ n g, fun _ _ p => p, fun _ _ _ => false⟩ false (input (first :: s)) ≠ .runsOn := by
  refine recovers (E := ⟨eval Γ n g, fun _ _ p => p, fun _ _ _ => false⟩) hne hr (eval_forward Γ n g)
    (refinesM_of_refines (run_refines hΓ n hg)) first s hlen he hf ?_
  rintro ⟨p, e, h1, h2, h3⟩
  cases h3

/-- C63. Elements that fail in a `&requires` or a hook: the host sees what is expected, or an `InvalidIterator`; nothing is
    misread. -/
theorem C63_recovers_or_invalid {L : ListField} (hne : L.lit ≠ []) (hr : L.hook ≠ .reject) {g : G} (hg : Body g) (trim : Bool)
    (first : Item) (s : Sched) (hlen : (total (first :: s)).length < 2 ^ 64 - 1) {f : Nat}
    (hf : (total (first :: s)).length < f) :
    (parseList L (bodyP g) trim f first s).seen = expected L (elemOf g) trim (input (first :: s)) ∨
    parseList L (bodyP g) trim f first s = .error .invalidIterator := by
  obtain ⟨v, h1, h2, h3, h4⟩ := begin_frame first s trim
  have h5 := whileLoop_spec hne (bodyS_forward hg) (body_refinesM trim hg) hlen (show 0 < f by omega) f h2 h3 h4
  rcases Same.or h5 with h | h
  · refine Or.inl (seen_expected hne hr (bodyS_forward hg) (fun q => bodyS_ends hg q) hf ?_).1
    unfold parseList parseWith
    rw [h1]
    exact h
  · refine Or.inr ?_
    unfold parseList parseWith
    rw [h1]
    exact h

/-- C63. Chunking does not matter. -/
theorem C63_chunking_is_unobservable_partial {L : ListField} (hne : L.lit ≠ []) (hr : L.hook ≠ .reject) {g : G} (hg : Body g)
    (trim : Bool) (first first' : Item) (s s' : Sched) (hlen : (total (first :: s)).length < 2 ^ 64 - 1) {f : Nat}
    (hf : (total (first :: s)).length < f) (hl : NeverLate g (input (first :: s)))
    (hd : total (first :: s) = total (first' :: s')) (hc : closes (first :: s) = closes (first' :: s')) :
    (parseList L (bodyP g) trim f first s).seen = (parseList L (bodyP g) trim f first' s').seen := by
  have hi : input (first :: s) = input (first' :: s') := by unfold input; rw [hd, hc]
  rw [(C63_recovers_partial hne hr hg trim first s hlen hf hl).1,
    (C63_recovers_partial hne hr hg trim first' s' (hd ▸ hlen) (hd ▸ hf) (hi ▸ hl)).1, hi]

/-- Bodies that fail only for want of data or at a literal. -/
inductive Quiet : G → Prop where
  | ret (v) : Quiet (.ret v)
  | offset : Quiet .offset
  | unpack (n f) : Quiet (.unpack n n f)
  | bytesSize (n) : Quiet (.bytesSize n)
  | lit (bs) : Quiet (.lit bs)
  | seq {g k} : Quiet g → (∀ v, Quiet (k v)) → Quiet (.seq g k)

theorem Quiet.body {g : G} (h : Quiet g) : Body g := by
  induction h with
  | ret v => exact .ret v
  | offset => exact .offset
  | unpack n f => exact .unpack n f
  | bytesSize n => exact .bytesSize n
  | lit bs => exact .lit bs
  | seq _ _ ih1 ih2 => exact .seq ih1 ih2

theorem Quiet.late {g : G} (h : Quiet g) (I : Input) : ∀ p, lateOf g I none p = false := by
  induction h with
  | ret v => intro p; rfl
  | offset => intro p; rfl
  | unpack n f => intro p; rfl
  | bytesSize n => intro p; rfl
  | lit bs => intro p; rfl
  | seq _ _ ih1 ih2 =>
    intro p
    unfold lateOf
    split
    · exact ih2 _ _
    · exact ih1 _

theorem Quiet.neverLate {g : G} (h : Quiet g) (I : Input) : NeverLate g I := fun p _ _ _ => h.late I p

/-! ## What a user expects -/

/-- The list without recovery: it fails at the first error. -/
def strictS (L : ListField) (E : Elem) (I : Input) : Nat → Nat → List Val → SRes (List Val × Nat)
  | 0, _, _ => .diverge
  | k + 1, pos, acc => do
    let e ← atEnd I none pos
    if e then (if L.follow.isEmpty then .ok (acc, pos) else .fail .parseError)
    else match lahSpec I none pos (L.lit :: L.follow) 0 none with
      | .ok (some (i, _)) =>
        if i = 0 then match E.g I none (pos + L.lit.length) with
          | .ok r => strictS L E I k r.2 (acc ++ [r.1])
          | .fail x => .fail x
          | .more => .more
          | .diverge => .diverge
        else .ok (acc, pos)
      | .ok none => .fail .parseError
      | .fail x => .fail x
      | .more => .more
      | .diverge => .diverge

theorem ideal_of_strict {L : ListField} {E : Elem} {trim : Bool} {I : Input} (k : Nat) : ∀ {S : Ideal} {vs acc : List Val} {pos : Nat},
    strictS L E I k S.pos acc = .ok (vs, pos) → S.err = false → S.log = acc.map Ev.value →
    idealS L E trim I none k .look S = .ok { pos := pos, err := false, log := vs.map Ev.value } := by
  induction k with
  | zero => intro S vs acc pos h; cases h
  | succ k ih =>
    intro S vs acc pos h he hl
    unfold strictS at h
    unfold idealS
    obtain ⟨e, h1, h⟩ := Parse.bind_ok h
    rw [h1]
    simp only [SRes.ok_bind]
    split at h
    · rename_i hc
      rw [if_pos hc]
      split at h
      · rename_i hc2
        rw [if_pos hc2]
        injection h with h
        injection h with ha hb
        subst ha; subst hb
        rw [← he, ← hl]
      · cases h
    · rename_i hc
      rw [if_neg hc]
      split at h
      · rename_i i n hls
        rw [hls]
        dsimp only
        split at h
        · rename_i hi
          rw [if_pos hi]
          unfold elemStepS
          split at h
          · rename_i r hr
            rw [hr]
            exact ih (S := { S with pos := r.2, log := S.log ++ [.value r.1] }) h he (by simp [hl])
          · cases h
          · cases h
          · cases h
        · rename_i hi
          rw [if_neg hi]
          injection h with h
          injection h with ha hb
          subst ha; subst hb
          rw [← he, ← hl]
      · cases h
      · cases h
      · cases h
      · cases h

theorem values_map (vs : List Val) : values (vs.map Ev.value) = vs := by
  unfold values
  induction vs with
  | nil => rfl
  | cons v vs ih => simp [ih]

/-- C63. Input without errors is not disturbed by `&synchronize`. -/
theorem C63_clean_input_unaffected {L : ListField} {E : Elem} {trim : Bool} {I : Input} {vs : List Val} {pos : Nat}
    (h : strictS L E I (I.data.length + 1) 0 [] = .ok (vs, pos)) : expected L E trim I = .list vs pos := by
  have := ideal_of_strict (L := L) (E := E) (trim := trim) (S := { pos := 0 }) _ h rfl rfl
  unfold expected
  rw [this]
  simp [values_map]

/-- Synchronizations happen where the literal is, and every value comes from a place where it is. -/
theorem ideal_synced {L : ListField} {E : Elem} {trim : Bool} {I : Input} (k : Nat) : ∀ {m : Mode} {S S' : Ideal},
    (∀ q, Ev.synced q ∈ S.log → L.lit <+: I.rest none q) → idealS L E trim I none k m S = .ok S' →
    (∀ q, Ev.synced q ∈ S'.log → L.lit <+: I.rest none q) := by
  induction k with
  | zero => intro m S S' _ h; cases h
  | succ k ih =>
    have resume : ∀ {S S' : Ideal} {p : Nat}, (∀ q, Ev.synced q ∈ S.log → L.lit <+: I.rest none q) →
        resumeS L I none S p (idealS L E trim I none k .elem) = .ok S' →
        (∀ q, Ev.synced q ∈ S'.log → L.lit <+: I.rest none q) := by
      intro S S' p hS h
      unfold resumeS at h
      split at h
      · rename_i q hq
        refine ih ?_ h
        intro q' hq'
        have hmem : Ev.synced q' ∈ S.log ∨ q' = p + q := by
          unfold Ideal.synced at hq'
          split at hq' <;> simp at hq' <;> exact hq'
        rcases hmem with h1 | h1
        · exact hS q' h1
        · subst h1
          rcases firstOcc_spec L.lit (I.rest none p) with ⟨q', e, h2, -⟩ | ⟨e, -⟩
          · rw [e] at hq
            injection hq with hq
            subst hq
            unfold OccursAt at h2
            rw [rest_drop] at h2
            exact h2
          · rw [e] at hq; cases hq
      · split at h <;> cases h
    have elem : ∀ {S S' : Ideal}, (∀ q, Ev.synced q ∈ S.log → L.lit <+: I.rest none q) →
        elemStepS L E trim I none S (idealS L E trim I none k .look) (idealS L E trim I none k .elem) = .ok S' →
        (∀ q, Ev.synced q ∈ S'.log → L.lit <+: I.rest none q) := by
      intro S S' hS h
      unfold elemStepS at h
      split at h
      · exact ih (by intro q hq; simp at hq; exact hS q hq) h
      · split at h
        · exact resume hS h
        · cases h
      · cases h
      · cases h
    intro m S S' hS h
    cases m with
    | elem => exact elem hS h
    | look =>
      unfold idealS at h
      obtain ⟨e, h1, h⟩ := Parse.bind_ok h
      split at h
      · split at h
        · injection h with h; subst h; exact hS
        · cases h
      · split at h
        · split at h
          · exact elem hS h
          · injection h with h; subst h; exact hS
        · exact resume hS h
        · exact resume hS h
        · cases h
        · cases h

/-! ## A hook that rejects -/

theorem recoverS_reject {L : ListField} (hr : L.hook = .reject) {trim : Bool} {I : Input} {lim : Option Nat} {f : Nat}
    {st st' : St} {mark : Nat} {x : Exn} : recoverS L trim I lim f st mark x ≠ .ok st' := by
  intro h
  unfold recoverS at h
  obtain ⟨r, -, h⟩ := Parse.bind_ok h
  rw [hr] at h
  cases h

theorem whileS_reject {L : ListField} (hr : L.hook = .reject) {E : Elem} {trim : Bool} {I : Input} {f : Nat} (k : Nat) :
    ∀ {st st' : St}, whileS L E trim I none f k st = .ok st' → ∃ vs : List Val, st'.log = st.log ++ vs.map Ev.value := by
  induction k with
  | zero => intro st st' h; cases h
  | succ k ih =>
    intro st st' h
    unfold whileS at h
    obtain ⟨b, hb, h⟩ := Parse.bind_ok h
    have hround : ∀ st0 mark x, again (recoverS L trim I none f st0 mark x) ≠ .ok b := by
      intro st0 mark x h'
      obtain ⟨st1, -, h2⟩ := again_next h'
      exact recoverS_reject hr h2
    unfold whileRoundS at hb
    obtain ⟨w, -, hb⟩ := Parse.bind_ok hb
    split at hb
    · cases hb
    · cases hb
    · split at hb
      · exact absurd hb (hround _ _ _)
      · cases hb
    · split at hb
      · injection hb with hb; subst hb; injection h with h; subst h; exact ⟨[], by simp⟩
      · exact absurd hb (hround _ _ _)
    · exact absurd hb (hround _ _ _)
    · injection hb with hb; subst hb; injection h with h; subst h; exact ⟨[], by simp⟩
    · split at hb
      · cases hb
      · cases hb
      · split at hb
        · exact absurd hb (hround _ _ _)
        · cases hb
      · rename_i r _
        injection hb with hb
        subst hb
        obtain ⟨vs, hv⟩ := ih h
        refine ⟨r.1 :: vs, ?_⟩
        rw [hv]
        simp only [List.map_cons, List.append_assoc, List.singleton_append]

/-- C63. If the `%synced` hook rejects, a list that is parsed successfully had no errors. -/
theorem C63_reject_means_no_recovery {L : ListField} (hne : L.lit ≠ []) (hr : L.hook = .reject) {g : G} (hg : Body g) (trim : Bool)
    (first : Item) (s : Sched) (hlen : (total (first :: s)).length < 2 ^ 64 - 1) {f : Nat} (hf : 0 < f) {log : List Ev}
    {pos : Nat} (h : parseList L (bodyP g) trim f first s = .list log pos) : ∀ e ∈ log, ∃ v, e = .value v := by
  obtain ⟨v, h1, h2, h3, h4⟩ := begin_frame first s trim
  have h5 := whileLoop_spec hne (bodyS_forward hg) (body_refinesM trim hg) hlen hf f h2 h3 h4
  unfold parseList parseWith at h
  rw [h1] at h
  dsimp only at h
  rcases Same.or h5 with h6 | h6
  · rw [h] at h6
    cases hw : whileS L (elemOf g) trim (input (first :: s)) none f f { pos := 0 } with
    | ok st =>
      rw [hw] at h6
      have h6 : ListResult.list log pos = _ := h6
      split at h6
      · cases h6
      · injection h6 with h7 h8
        subst h7
        obtain ⟨vs, hv⟩ := whileS_reject hr f hw
        intro e he
        rw [hv] at he
        simp at he
        obtain ⟨v, -, h9⟩ := he
        exact ⟨v, h9.symm⟩
    | fail x => rw [hw] at h6; obtain ⟨e, h6⟩ := h6; cases h6
    | more => rw [hw] at h6; cases h6
    | diverge => rw [hw] at h6; cases h6
  · rw [h] at h6; cases h6

/-! ## C64: counted lists -/

/-- What a counted list gives, from the whole input. -/
def counted (L : ListField) (E : Elem) (trim : Bool) (I : Input) (n : Nat) : Seen :=
  match counterS L E trim I none (I.data.length + 1) n { pos := 0 } with
  | .ok st => if st.err.isSome then .unconfirmed (values st.log) st.pos else .list (values st.log) st.pos
  | .fail _ => .failed
  | .more => .waiting
  | .diverge => .runsOn

theorem searchS_more {lit : List Byte} {I : Input} {lim : Option Nat} (f : Nat) : ∀ {pos : Nat} {lah : SPending} {f' : Nat},
    f ≤ f' → searchS lit I lim f pos lah ≠ .diverge → searchS lit I lim f' pos lah = searchS lit I lim f pos lah := by
  induction f with
  | zero => intro pos lah f' _ h; exact absurd rfl h
  | succ f ih =>
    intro pos lah f' hf h
    obtain ⟨f', rfl⟩ : ∃ j, f' = j + 1 := ⟨f' - 1, by omega⟩
    unfold searchS at h ⊢
    cases ht : tokenS lit I lim pos lah with
    | ok p =>
      rw [ht] at h
      simp only [SRes.ok_bind] at h ⊢
      cases he : atEnd I lim pos with
      | ok e =>
        rw [he] at h
        simp only [SRes.ok_bind] at h ⊢
        split
        · rfl
        · rename_i hc
          rw [if_neg hc] at h
          exact ih (by omega) h
      | fail x => rfl
      | more => rfl
      | diverge => rfl
    | fail x => rfl
    | more => rfl
    | diverge => rfl

theorem syncS_more {lit : List Byte} (hne : lit ≠ []) {I : Input} {lim : Option Nat} {f f' : Nat} (hf : I.stop lim < f) (h : f ≤ f')
    (pos : Nat) (lah : SPending) : syncS lit I lim f' pos lah = syncS lit I lim f pos lah := by
  unfold syncS
  rcases atEnd_cases I lim pos with ⟨k1, k2⟩ | ⟨k1, k2, k3⟩ | ⟨k1, k2, k3⟩
  · rw [searchS_more f h (searchS_ends hne f pos lah (by omega) (by omega))]
  · rw [k1]; rfl
  · rw [k1]; rfl

theorem counterS_more {L : ListField} (hne : L.lit ≠ []) {E : Elem} {trim : Bool} {I : Input} {lim : Option Nat} {f f' : Nat}
    (hf : I.stop lim < f) (h : f ≤ f') (n : Nat) : ∀ (st : St),
    counterS L E trim I lim f' n st = counterS L E trim I lim f n st := by
  induction n with
  | zero => intro st; rfl
  | succ n ih =>
    intro st
    unfold counterS recoverS
    simp only [syncS_more hne hf h]
    have : counterS L E trim I lim f' n = counterS L E trim I lim f n := funext ih
    rw [this]

/-- C64. A counted list, however its input is cut up: the result is a function of the data. It never runs forever. -/
theorem C64_counted_function_of_data_partial {L : ListField} (hne : L.lit ≠ []) {g : G} (hg : Body g) (trim : Bool) (n : Nat)
    (first : Item) (s : Sched) (hlen : (total (first :: s)).length < 2 ^ 64 - 1) {f : Nat}
    (hf : (total (first :: s)).length < f) (hl : NeverLate g (input (first :: s))) :
    (parseCounted L (bodyP g) trim f n first s).seen = counted L (elemOf g) trim (input (first :: s)) n ∧
    counted L (elemOf g) trim (input (first :: s)) n ≠ .runsOn := by
  have hs := parseCounted_same hne (body_refinesM trim hg) first s hlen (f := f) (by omega) n (not_bad hl)
  have hst := stop_none (input (first :: s))
  have hd : (input (first :: s)).data.length < f := hf
  rw [counterS_more hne (f := (input (first :: s)).data.length + 1) (by omega) (by omega)] at hs
  have he := counterS_ends (I := input (first :: s)) (lim := none) (E := elemOf g) (trim := trim) hne
    (fun q => bodyS_ends hg q) (f := (input (first :: s)).data.length + 1) (by omega) n { pos := 0 }
  unfold counted
  generalize counterS L (elemOf g) trim (input (first :: s)) none ((input (first :: s)).data.length + 1) n { pos := 0 } = r at hs he
  cases r with
  | ok st =>
    have hs : parseCounted L (bodyP g) trim f n first s = _ := hs
    rw [hs]
    dsimp only
    constructor
    · split <;> rfl
    · split <;> exact (fun h => by cases h)
  | fail x => obtain ⟨e, hs⟩ := hs; rw [hs]; exact ⟨rfl, fun h => (by cases h)⟩
  | more => have hs : parseCounted L (bodyP g) trim f n first s = _ := hs; rw [hs]; exact ⟨rfl, fun h => (by cases h)⟩
  | diverge => exact absurd rfl he

/-- C64. Chunking does not matter. -/
theorem C64_chunking_is_unobservable_partial {L : ListField} (hne : L.lit ≠ []) {g : G} (hg : Body g) (trim : Bool) (n : Nat)
    (first first' : Item) (s s' : Sched) (hlen : (total (first :: s)).length < 2 ^ 64 - 1) {f : Nat}
    (hf : (total (first :: s)).length < f) (hl : NeverLate g (input (first :: s)))
    (hd : total (first :: s) = total (first' :: s')) (hc : closes (first :: s) = closes (first' :: s')) :
    (parseCounted L (bodyP g) trim f n first s).seen = (parseCounted L (bodyP g) trim f n first' s').seen := by
  have hi : input (first :: s) = input (first' :: s') := by unfold input; rw [hd, hc]
  rw [(C64_counted_function_of_data_partial hne hg trim n first s hlen hf hl).1,
    (C64_counted_function_of_data_partial hne hg trim n first' s' (hd ▸ hlen) (hd ▸ hf) (hi ▸ hl)).1, hi]

/-- Values and synchronizations. -/
def rounds (log : List Ev) : Nat := (log.filter (fun e => match e with | .confirmed => false | _ => true)).length

theorem rounds_append (a b : List Ev) : rounds (a ++ b) = rounds a + rounds b := by
  unfold rounds; rw [List.filter_append, List.length_append]

theorem counterS_rounds {L : ListField} {E : Elem} {trim : Bool} {I : Input} {f : Nat} (n : Nat) : ∀ {st st' : St},
    counterS L E trim I none f n st = .ok st' → rounds st'.log = rounds st.log + n := by
  induction n with
  | zero => intro st st' h; injection h with h; subst h; rfl
  | succ n ih =>
    intro st st' h
    unfold counterS at h
    split at h
    · cases h
    · cases h
    · split at h
      · obtain ⟨st1, h1, h2⟩ := Parse.bind_ok h
        have := ih h2
        unfold recoverS at h1
        obtain ⟨r, -, h1⟩ := Parse.bind_ok h1
        have hr : rounds st1.log = rounds st.log + 1 := by
          cases hk : L.hook with
          | nothing => rw [hk] at h1; injection h1 with h1; subst h1; rw [rounds_append]; rfl
          | confirm =>
            rw [hk] at h1
            injection h1 with h1; subst h1; rw [rounds_append, rounds_append]; rfl
          | reject => rw [hk] at h1; cases h1
        omega
      · cases h
    · have := ih h
      rw [rounds_append] at this
      have h3 : rounds [Ev.value (by assumption : Val × Nat).1] = 1 := rfl
      omega

/-- C64. A list `X[n]` that is parsed successfully has made exactly `n` attempts: every one gave a value or a synchronization.
    In particular there are at most `n` values. -/
theorem C64_exactly_n_rounds {L : ListField} (hne : L.lit ≠ []) {g : G} (hg : Body g) (trim : Bool) (n : Nat)
    (first : Item) (s : Sched) (hlen : (total (first :: s)).length < 2 ^ 64 - 1) {f : Nat} (hf : 0 < f) {log : List Ev} {pos : Nat}
    (h : parseCounted L (bodyP g) trim f n first s = .list log pos) : rounds log = n ∧ (values log).length ≤ n := by
  obtain ⟨v, h1, h2, h3, h4⟩ := begin_frame first s trim
  have h5 := counterLoop_spec hne (body_refinesM trim hg) hlen hf n h2 h3 h4
  have hv : ∀ log : List Ev, (values log).length ≤ rounds log := by
    intro log
    induction log with
    | nil => exact Nat.le_refl _
    | cons e log ih => cases e <;> simp [values, rounds] at ih ⊢ <;> omega
  unfold parseCounted parseWith at h
  rw [h1] at h
  dsimp only at h
  rcases Same.or h5 with h6 | h6
  · rw [h] at h6
    cases hw : counterS L (elemOf g) trim (input (first :: s)) none f n { pos := 0 } with
    | ok st =>
      rw [hw] at h6
      have h6 : ListResult.list log pos = _ := h6
      split at h6
      · cases h6
      · injection h6 with h7 h8
        have := counterS_rounds n hw
        have h9 : rounds ([] : List Ev) = 0 := rfl
        have h10 := hv log
        rw [← h7] at this
        dsimp only at this
        omega
    | fail x => rw [hw] at h6; obtain ⟨e, h6⟩ := h6; cases h6
    | more => rw [hw] at h6; cases h6
    | diverge => rw [hw] at h6; cases h6
  · rw [h] at h6; cases h6

end Verif.Sync
