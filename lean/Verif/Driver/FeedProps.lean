import Verif.Driver.FeedSpec
import Verif.Driver.Owning
/-!
# Feeding data to parsers: property theorems (C67)
-/

namespace Verif.Driver
open Verif.Stream Verif.Parse

/-! ## Starting a parser on an empty stream -/

/-- A stream that is alive, empty and open, at offset 0. -/
structure Empty (c : Chain) : Prop where
  live : c.Live
  state : c.state = .mutable
  chunks : c.chunks = []
  head : c.headOffset = 0

theorem empty_init : Empty {} := ⟨Chain.live_init, rfl, rfl, rfl⟩

theorem empty_reset {c : Chain} (h : c.Live) : Empty c.reset := by
  refine ⟨⟨⟨?_, rfl, ?_, ?_, ?_, ?_, ?_⟩, ?_⟩, rfl, rfl, rfl⟩
  · exact trivial
  · intro k hk; cases hk
  · intro k hk; cases hk
  · have := h.inv.nodup
    rw [List.nodup_append] at this
    exact this.2.1
  · intro i hi
    exact h.inv.fresh i (List.mem_append_right _ hi)
  · intro _; rfl
  · intro hc; cases hc

theorem kept_reset {c : Chain} (h : c.Live) : Kept c.reset := ⟨(empty_reset h).live, fun k hk => by cases hk⟩

theorem empty_env {c : Chain} (h : Empty c) (s : Sched) : Env (input s) c s := by
  have hs : c.stop = 0 := by unfold Chain.stop Chain.base; rw [h.chunks]; simp [rawCells, h.head]
  have hf : c.isFrozen = false := by unfold Chain.isFrozen; rw [h.state]; rfl
  refine ⟨h.live, ?_, ?_, ?_, ?_⟩
  · rw [hs]; exact Nat.zero_le _
  · unfold Chain.content; rw [h.chunks, hs]; simp [rawCells]
  · rw [hs, hf]; rfl
  · rw [hf]; rfl

/-- What the outcome of a parser is to the host. -/
def toResult : Out (Val × View) → Result
  | .done r _ _ => .value r.1 r.2.begin.offset
  | .throw e _ _ => .error e
  | .suspended _ => .needsMore
  | .diverge => .runsOn
  | .ub => .undefined

theorem start_meaning {Γ : Nat → G} (hΓ : ∀ i, Sound (Γ i)) {g : G} (hg : Sound g) (f : Nat) {base : Chain} (hb : Empty base)
    (first : Item) (s : Sched) (hlen : (total (first :: s)).length < 2 ^ 64 - 1) :
    toResult (start Γ f g base first s) = meaning Γ f g (input (first :: s)) := by
  obtain ⟨env, st⟩ := item_env (empty_env hb (first :: s))
  obtain ⟨i, e, ho, hi⟩ := Chain.begin_spec env.live (st.evolves.headPos (by rw [hb.chunks]; intro k hk; cases hk))
  have hh : (base.run first.ops).headOffset = 0 := (st.keep rfl).trans hb.head
  have a : At (base.run first.ops) ⟨i, none⟩ 0 none :=
    ⟨hi, by rw [ho, hh], fun x hx => (by cases hx), rfl, (by rw [hh]; exact Nat.le_refl _), Nat.zero_le _,
      fun l hl => (by cases hl)⟩
  have hv : wholeView (base.run first.ops) = .ok ⟨i, none⟩ := by unfold wholeView; rw [e]; rfl
  have sim := run_refines hΓ f hg (input (first :: s)) hlen none true _ 0 _ s env a
  unfold start meaning
  rw [hv]
  dsimp only
  cases hr : eval Γ f g (input (first :: s)) none 0 with
  | ok r => rw [hr] at sim; obtain ⟨v, c', s', h1, -, -, h4⟩ := sim; rw [h1]; simp only [toResult, h4.off]
  | fail x => rw [hr] at sim; obtain ⟨c', s', h1, -⟩ := sim; rw [h1]; rfl
  | more => rw [hr] at sim; obtain ⟨c', h1⟩ := sim; rw [h1]; rfl
  | diverge => rw [hr] at sim; rw [show run Γ f g true _ _ s = .diverge from sim]; rfl

/-- Whatever a parser does, the stream stays alive, and only its last chunk refers to memory of the host. -/
theorem start_kept (Γ : Nat → G) (f : Nat) (g : G) {base : Chain} (hb : Kept base) (first : Item) (s : Sched) :
    Post (fun c _ => Kept c) Kept (start Γ f g base first s) := by
  have hk := kept_run hb first.ops
  unfold start
  cases wholeView (base.run first.ops) with
  | ok v => exact good_run kept_rules Γ f g true v _ s hk
  | throw e => exact hk
  | ub => trivial

/-- A parser whose input has ended does not wait: for all grammars. -/
theorem start_closed (Γ : Nat → G) (f : Nat) (g : G) {base : Chain} (hb : Empty base) (d : List (List Byte)) (l : Bool) (s : Sched) (c : Chain) :
    start Γ f g base ⟨d, true, l⟩ s ≠ .suspended c := by
  have hi : Closed (base.run (Item.ops ⟨d, true, l⟩)) s := closed_item ⟨hb.live, Or.inr (by simp [closes])⟩
  unfold start
  cases wholeView (base.run (Item.ops ⟨d, true, l⟩)) with
  | ok v => exact closed_never_waits Γ f g true v hi c
  | throw e => intro h; cases h
  | ub => intro h; cases h

/-- The meaning of a whole input is never that more is needed. -/
theorem meaning_closed {Γ : Nat → G} (hΓ : ∀ i, Sound (Γ i)) {g : G} (hg : Sound g) (f : Nat) (d : List Byte)
    (hlen : d.length < 2 ^ 64 - 1) : meaning Γ f g ⟨d, true⟩ ≠ .needsMore := by
  intro h
  have := start_meaning hΓ hg f empty_init ⟨[d], true, false⟩ [] (by simpa [total] using hlen)
  have hi : input [⟨[d], true, false⟩] = ⟨d, true⟩ := by simp [input, total, closes]
  rw [hi, h] at this
  cases hs : start Γ f g {} ⟨[d], true, false⟩ [] with
  | suspended c => exact start_closed Γ f g empty_init _ _ _ c hs
  | done r c s => rw [hs] at this; cases this
  | throw e c s => rw [hs] at this; cases this
  | diverge => rw [hs] at this; cases this
  | ub => rw [hs] at this; cases this

/-! ## The simulation -/

/-- The state of the implementation stands for the session; `used` bounds the data given so far. -/
structure Same (st : PState) (s : Session) (used : Nat) : Prop where
  kind : st.kind = s.kind
  parser : st.parser = s.parser
  skip : st.skip = s.skip
  idle : s.kind = .stream → s.phase = .idle → st.input = none ∧ st.resumable = none ∧ st.done = false
  going : s.kind = .stream → ∀ g data, s.phase = .going g data → st.done = false ∧ Sound g ∧ data.length ≤ used ∧
    ∃ c first sch, st.input = some c ∧ st.resumable = some (.waiting g first sch) ∧ closes (first :: sch) = false ∧ total (first :: sch) = data
  over : s.kind = .stream → ∀ r, s.phase = .over r → st.done = true ∧ st.offset = r.map (·.2)
  block : s.kind = .block → st.done = s.failed ∧ st.offset = s.last ∧ ∀ c, st.input = some c → Kept c

theorem closes_append (a b : Sched) : closes (a ++ b) = (closes a || closes b) := by simp [closes]

theorem piece_total (d : List Byte) (eod : Bool) (s : Sched) : total (piece d eod :: s) = d ++ (if eod then [] else total s) := by
  unfold piece
  simp only [total]
  split
  · rename_i h; subst h; simp
  · simp

/-- A parser that has been started: what `settle` makes of it. -/
theorem settle_spec {Γ : Nat → G} {f : Nat} {st : PState} {s : Session} {used : Nat} (h : Same st s used) (hk : s.kind = .stream)
    (hd : st.done = false) {g : G} (hg : Sound g) {first : Item} {sch : Sched} {eod : Bool} {data : List Byte} {ot : Option Resumed} {used' : Nat}
    (hm : toResult (start Γ f g {} first sch) = meaning Γ f g ⟨data, eod⟩)
    (hcl : eod = true → meaning Γ f g ⟨data, eod⟩ ≠ .needsMore) (hc : eod = false → closes (first :: sch) = false)
    (ht : total (first :: sch) = data) (hu : data.length ≤ used') (hot : ∀ v p, ot ≠ some (.finished v p)) :
    (settle st eod g first sch ot (start Γ f g {} first sch)).1 = answer (meaning Γ f g ⟨data, eod⟩) ∧
    ((answer (meaning Γ f g ⟨data, eod⟩)).returns = true →
      Same (settle st eod g first sch ot (start Γ f g {} first sch)).2 { s with phase := phaseAfter g data (meaning Γ f g ⟨data, eod⟩) } used') := by
  have hkk : st.kind = .stream := h.kind.trans hk
  cases hs : start Γ f g {} first sch with
  | done r c s' =>
    rw [hs] at hm
    rw [← hm]
    refine ⟨rfl, fun _ => ⟨h.kind, h.parser, h.skip, ?_, ?_, ?_, ?_⟩⟩
    · intro _ hp; cases hp
    · intro _ g' d' hp; cases hp
    · intro _ r' hp
      injection hp with hp
      subst hp
      exact ⟨rfl, rfl⟩
    · intro hb; rw [hk] at hb; cases hb
  | throw e c s' =>
    rw [hs] at hm
    rw [← hm]
    refine ⟨rfl, fun _ => ⟨h.kind, h.parser, h.skip, ?_, ?_, ?_, ?_⟩⟩
    · intro _ hp; cases hp
    · intro _ g' d' hp; cases hp
    · intro _ r' hp
      injection hp with hp
      subst hp
      refine ⟨rfl, ?_⟩
      change (match ot with | some (.finished _ pos) => some pos | _ => none) = none
      cases ot with
      | none => rfl
      | some x =>
        cases x with
        | finished v p => exact absurd rfl (hot v p)
        | failed => rfl
        | waiting => rfl
    · intro hb; rw [hk] at hb; cases hb
  | suspended c =>
    rw [hs] at hm
    cases eod with
    | true => exact absurd hm.symm (hcl rfl)
    | false =>
      rw [← hm]
      refine ⟨rfl, fun _ => ⟨h.kind, h.parser, h.skip, ?_, ?_, ?_, ?_⟩⟩
      · intro _ hp; cases hp
      · intro _ g' d' hp
        injection hp with hp1 hp2
        subst hp1
        subst hp2
        refine ⟨?_, hg, hu, c.makeOwning, first, sch, rfl, rfl, hc rfl, ht⟩
        exact hd
      · intro _ r' hp; cases hp
      · intro hb; rw [hk] at hb; cases hb
  | diverge => rw [hs] at hm; rw [← hm]; exact ⟨rfl, fun h => by cases h⟩
  | ub =>
    rw [hs] at hm
    exact absurd hm.symm (by unfold meaning; cases eval Γ f g ⟨data, eod⟩ none 0 <;> simp [toResult])

/-- One piece of data. -/
theorem feed_spec {Γ : Nat → G} (hΓ : ∀ i, Sound (Γ i)) {f : Nat} {st : PState} {s : Session} {used : Nat} (h : Same st s used)
    (hp : ∀ p, s.parser = some p → p.Fine s.kind) (d : List Byte) (eod : Bool) (hu : used + d.length < 2 ^ 64 - 1) :
    (st.feed Γ f d eod).1 = (s.feed Γ f d eod).1 ∧
    ((s.feed Γ f d eod).1.returns = true → Same (st.feed Γ f d eod).2 (s.feed Γ f d eod).2 (used + d.length)) := by
  have mono : Same st s (used + d.length) := ⟨h.kind, h.parser, h.skip, h.idle, fun hk g data hph => by
    obtain ⟨h1, h2, h3, h4⟩ := h.going hk g data hph
    exact ⟨h1, h2, by omega, h4⟩, h.over, h.block⟩
  obtain ⟨kind, parser, skip, phase, last, failed⟩ := s
  obtain ⟨kind', parser', skip', done, inp, res⟩ := st
  have e1 : kind' = kind := h.kind
  have e2 : parser' = parser := h.parser
  have e3 : skip' = skip := h.skip
  subst e1 e2 e3
  cases parser' with
  | none => exact ⟨rfl, fun _ => mono⟩
  | some p =>
    obtain ⟨hg, husable⟩ := hp p rfl
    cases skip' with
    | true => exact ⟨rfl, fun _ => mono⟩
    | false =>
      unfold PState.feed Session.feed
      cases kind' with
      | stream =>
        simp only [Bool.false_eq_true, if_false]
        cases phase with
        | over r =>
          have hd : done = true := (h.over rfl r rfl).1
          subst hd
          exact ⟨rfl, fun _ => mono⟩
        | idle =>
          obtain ⟨h1, h2, h3⟩ := h.idle rfl rfl
          have h1 : inp = none := h1
          have h2 : res = none := h2
          have h3 : done = false := h3
          subst h1 h2 h3
          unfold feedStream
          dsimp only
          cases hus : p.usable with
          | true =>
            have ht : total [piece d eod] = d := by rw [piece_total]; cases eod <;> simp [total]
            have hi : input [piece d eod] = ⟨[] ++ d, eod⟩ := by
              unfold input; rw [ht]; simp [closes, piece]
            have hm := start_meaning hΓ hg f empty_init (piece d eod) [] (by rw [ht]; omega)
            rw [hi] at hm
            simp only [Bool.false_eq_true, if_false, if_true]
            refine settle_spec h rfl rfl hg hm (fun he => ?_) (fun he => ?_) (by rw [ht]; rfl) (by simp) (by simp)
            · subst he; exact meaning_closed hΓ hg f _ (by simp; omega)
            · simp [closes, piece, he]
          | false =>
            simp only [Bool.false_eq_true, if_false]
            refine ⟨trivial, fun _ => ⟨rfl, rfl, rfl, ?_, ?_, ?_, ?_⟩⟩
            · intro _ hp; cases hp
            · intro _ g' d' hp; cases hp
            · intro _ r' hp
              injection hp with hp
              subst hp
              exact ⟨rfl, rfl⟩
            · intro hb; cases hb
        | going g data =>
          obtain ⟨h1, h2, h3, c, first, sch, h4, h5, h6, h7⟩ := h.going rfl g data rfl
          have h1 : done = false := h1
          have h4 : inp = some c := h4
          have h5 : res = some (.waiting g first sch) := h5
          subst h1 h4 h5
          unfold feedStream
          simp only [Bool.false_eq_true, if_false]
          have ht : total (first :: (sch ++ [piece d eod])) = data ++ d := by
            rw [← List.cons_append, total_append h6, h7, piece_total]
            cases eod <;> simp [total]
          have hcc : closes (first :: (sch ++ [piece d eod])) = eod := by
            rw [← List.cons_append, closes_append, h6]; simp [closes, piece]
          have hi : input (first :: (sch ++ [piece d eod])) = ⟨data ++ d, eod⟩ := by unfold input; rw [ht, hcc]
          have hl : (data ++ d).length ≤ used + d.length := by rw [List.length_append]; omega
          have hm := start_meaning hΓ h2 f empty_init first (sch ++ [piece d eod]) (by rw [ht]; omega)
          rw [hi] at hm
          refine settle_spec h rfl rfl h2 hm (fun he => ?_) (fun he => by rw [hcc]; exact he) ht hl (by simp)
          subst he
          exact meaning_closed hΓ h2 f _ (by omega)
      | block =>
        simp only [Bool.false_eq_true, if_false]
        obtain ⟨b1, b2, b3⟩ := h.block rfl
        unfold feedBlock
        rw [if_pos (husable rfl)]
        have hbase : Empty (blockBase inp) ∧ Kept (blockBase inp) := by
          cases hin : inp with
          | none => exact ⟨empty_init, kept_init⟩
          | some c => exact ⟨empty_reset (b3 c hin).1, kept_reset (b3 c hin).1⟩
        have ht : total [piece d true] = d := by rw [piece_total]; simp
        have hi : input [piece d true] = ⟨d, true⟩ := by unfold input; rw [ht]; simp [closes, piece]
        have hm := start_meaning hΓ hg f hbase.1 (piece d true) [] (by rw [ht]; omega)
        rw [hi] at hm
        have hkp := start_kept Γ f p.grammar hbase.2 (piece d true) []
        dsimp only
        cases hs : start Γ f p.grammar (blockBase inp) (piece d true) [] with
        | done r c s' =>
          rw [hs] at hm hkp
          rw [← hm]
          refine ⟨rfl, fun _ => ⟨rfl, rfl, rfl, ?_, ?_, ?_, ?_⟩⟩
          · intro hb; cases hb
          · intro hb; cases hb
          · intro hb; cases hb
          · intro _
            refine ⟨b1, rfl, fun c' hc' => ?_⟩
            injection hc' with hc'
            subst hc'
            exact hkp
        | throw e c s' =>
          rw [hs] at hm hkp
          rw [← hm]
          refine ⟨rfl, fun _ => ⟨rfl, rfl, rfl, ?_, ?_, ?_, ?_⟩⟩
          · intro hb; cases hb
          · intro hb; cases hb
          · intro hb; cases hb
          · intro _
            refine ⟨rfl, b2, fun c' hc' => ?_⟩
            injection hc' with hc'
            subst hc'
            exact hkp
        | suspended c => exact absurd hs (start_closed Γ f p.grammar hbase.1 _ _ _ c)
        | diverge => rw [hs] at hm; rw [← hm]; exact ⟨rfl, fun h => by cases h⟩
        | ub =>
          rw [hs] at hm
          exact absurd hm.symm (by unfold meaning; cases eval Γ f p.grammar ⟨d, true⟩ none 0 <;> simp [toResult])

theorem settle_ne_cont (st : PState) (g : G) (first : Item) (s : Sched) (ot : Option Resumed) (o : Out (Val × View)) :
    (settle st true g first s ot o).1 ≠ .cont := by
  cases o <;> (intro h; cases h)

theorem feed_eod_ne_cont (Γ : Nat → G) (f : Nat) (st : PState) (hk : st.kind = .stream) : (st.feed Γ f [] true).1 ≠ .cont := by
  unfold PState.feed
  rw [hk]
  split
  · intro h; cases h
  · split
    · intro h; cases h
    · dsimp only
      split
      · intro h; cases h
      · unfold feedStream
        split
        · split
          · exact settle_ne_cont _ _ _ _ _ _
          · intro h; cases h
        · split
          · exact settle_ne_cont _ _ _ _ _ _
          · intro h; cases h
          · intro h; cases h

theorem offset_eq {st : PState} {s : Session} {used : Nat} (h : Same st s used) (hk : s.kind = .stream) : st.offset = s.offset := by
  unfold Session.offset
  rw [hk]
  dsimp only
  cases hp : s.phase with
  | idle => unfold PState.offset; rw [(h.idle hk hp).2.1]
  | going g data =>
    obtain ⟨-, -, -, c, first, sch, -, h5, -⟩ := h.going hk g data hp
    unfold PState.offset
    rw [h5]
  | over r => exact (h.over hk r hp).2

/-- The data of a call. -/
def Call.volume : Call → Nat
  | .process d => d.length
  | _ => 0

theorem volume_cons (c : Call) (cs : List Call) : Driver.volume (c :: cs) = c.volume + Driver.volume cs := by
  cases c <;> simp [Driver.volume, Call.volume]

theorem Session.feed_kind (Γ : Nat → G) (f : Nat) (s : Session) (d : List Byte) (eod : Bool) :
    (s.feed Γ f d eod).2.kind = s.kind ∧ (s.feed Γ f d eod).2.parser = s.parser := by
  unfold Session.feed
  split
  · exact ⟨rfl, rfl⟩
  · split
    · exact ⟨rfl, rfl⟩
    · split
      · split
        · exact ⟨rfl, rfl⟩
        · exact ⟨rfl, rfl⟩
        · split <;> exact ⟨rfl, rfl⟩
      · split <;> exact ⟨rfl, rfl⟩

/-- One call. -/
theorem call_spec {Γ : Nat → G} (hΓ : ∀ i, Sound (Γ i)) {f : Nat} {st : PState} {s : Session} {used : Nat} (h : Same st s used)
    (hp : ∀ p, s.parser = some p → p.Fine s.kind) (c : Call) (hu : used + c.volume < 2 ^ 64 - 1) :
    (st.call Γ f c).1 = (s.call Γ f c).1 ∧
    ((s.call Γ f c).1.outcome.returns = true → Same (st.call Γ f c).2 (s.call Γ f c).2 (used + c.volume)) := by
  cases c with
  | process d =>
    obtain ⟨h1, h2⟩ := feed_spec hΓ (f := f) h hp d false hu
    simp only [PState.call, Session.call]
    exact ⟨by rw [h1], h2⟩
  | finish =>
    obtain ⟨h1, h2⟩ := feed_spec hΓ (f := f) h hp [] true hu
    cases hk : s.kind with
    | block =>
      simp only [PState.call, Session.call, h.kind, hk]
      exact ⟨by rw [(h.block hk).2.1], fun _ => h⟩
    | stream =>
      simp only [PState.call, Session.call, h.kind, hk]
      have hne := feed_eod_ne_cont Γ f st (h.kind.trans hk)
      have hk2 := (Session.feed_kind Γ f s [] true).1.trans hk
      rw [← h1] at h2
      cases ho : (st.feed Γ f [] true).1 with
      | done v =>
        rw [ho] at h1 h2
        rw [← h1]
        have hs := h2 rfl
        exact ⟨by rw [offset_eq hs hk2], fun _ => hs⟩
      | cont => exact absurd ho hne
      | throw e => rw [ho] at h1 h2; rw [← h1]; exact ⟨rfl, fun _ => h2 rfl⟩
      | hangs => rw [ho] at h1; rw [← h1]; exact ⟨rfl, fun h => by cases h⟩
      | undefined => rw [ho] at h1; rw [← h1]; exact ⟨rfl, fun h => by cases h⟩
      | aborts => rw [ho] at h1; rw [← h1]; exact ⟨rfl, fun h => by cases h⟩
  | setParser p => exact ⟨rfl, fun _ => ⟨h.kind, rfl, h.skip, h.idle, h.going, h.over, h.block⟩⟩
  | skipRemaining => exact ⟨rfl, fun _ => ⟨h.kind, h.parser, rfl, h.idle, h.going, h.over, h.block⟩⟩
  | reset =>
    refine ⟨rfl, fun _ => ⟨h.kind, h.parser, rfl, fun _ _ => ⟨rfl, rfl, rfl⟩, ?_, ?_, ?_⟩⟩
    · intro _ g data hph; cases hph
    · intro _ r hph; cases hph
    · intro _; exact ⟨rfl, rfl, fun c hc => by cases hc⟩
  | isFinished =>
    refine ⟨?_, fun _ => h⟩
    simp only [PState.call, Session.call]
    rw [h.skip, Bool.or_comm]
    cases hk : s.kind with
    | block => rw [(h.block hk).1]
    | stream =>
      dsimp only
      cases hph : s.phase with
      | idle => rw [(h.idle hk hph).2.2]
      | going g data => rw [(h.going hk g data hph).1]
      | over r => rw [(h.over hk r hph).1]

theorem Session.call_kind (Γ : Nat → G) (f : Nat) (s : Session) (c : Call) : (s.call Γ f c).2.kind = s.kind ∧
    ((s.call Γ f c).2.parser = s.parser ∨ ∃ p, c = .setParser p ∧ (s.call Γ f c).2.parser = p) := by
  cases c with
  | process d =>
    obtain ⟨h1, h2⟩ := Session.feed_kind Γ f s d false
    exact ⟨h1, Or.inl h2⟩
  | finish =>
    obtain ⟨h1, h2⟩ := Session.feed_kind Γ f s [] true
    simp only [Session.call]
    split
    · exact ⟨rfl, Or.inl rfl⟩
    · split <;> exact ⟨h1, Or.inl h2⟩
  | setParser p => exact ⟨rfl, Or.inr ⟨p, rfl, rfl⟩⟩
  | skipRemaining => exact ⟨rfl, Or.inl rfl⟩
  | reset => exact ⟨rfl, Or.inl rfl⟩
  | isFinished => exact ⟨rfl, Or.inl rfl⟩

theorem parsers_mem {p : Entry} (c : Call) (cs : List Call) (h : p ∈ parsers cs) : p ∈ parsers (c :: cs) := by
  cases c with
  | setParser q =>
    cases q with
    | none => exact h
    | some q => exact List.mem_cons_of_mem _ h
  | _ => exact h

theorem calls_spec {Γ : Nat → G} (hΓ : ∀ i, Sound (Γ i)) {f : Nat} (cs : List Call) {st : PState} {s : Session} {used : Nat}
    (h : Same st s used) (hp : ∀ p, s.parser = some p → p.Fine s.kind) (hps : ∀ p ∈ parsers cs, p.Fine s.kind)
    (hu : used + Driver.volume cs < 2 ^ 64 - 1) : (st.calls Γ f cs).1 = s.calls Γ f cs := by
  induction cs generalizing st s used with
  | nil => rfl
  | cons c cs ih =>
    rw [volume_cons] at hu
    obtain ⟨h1, h2⟩ := call_spec hΓ (f := f) h hp c (by omega)
    obtain ⟨k1, k2⟩ := Session.call_kind Γ f s c
    unfold PState.calls Session.calls
    dsimp only
    rw [h1]
    cases hr : (s.call Γ f c).1.outcome.returns with
    | false => rfl
    | true =>
      rw [if_pos rfl, if_pos rfl]
      have := ih (h2 hr) (fun p hpp => by
        rw [k1]
        rcases k2 with k2 | ⟨q, k2, k3⟩
        · exact hp p (k2.symm.trans hpp)
        · rw [k3] at hpp
          subst hpp k2
          exact hps p List.mem_cons_self) (fun p hpp => by
        rw [k1]
        exact hps p (parsers_mem c cs hpp)) (by omega)
      dsimp only
      rw [this]

/-- C67. Whatever a host does with a `ParsingState`, in stream mode or block mode, with or without setting parsers, skipping,
    resetting: it gets exactly the answers of the specification, which depend only on `meaning` for the data given since the
    start of the input (for the block). In particular no call ends in `internalError` or undefined behaviour (`answer` and
    `meaning` do not know these), and no finished parser is resumed. -/
theorem C67_host_sees_meaning_partial {Γ : Nat → G} (hΓ : ∀ i, Sound (Γ i)) (f : Nat) (kind : Kind) (p : Option Entry) (cs : List Call)
    (hp : ∀ q, p = some q → q.Fine kind) (hps : ∀ q ∈ parsers cs, q.Fine kind) (hu : Driver.volume cs < 2 ^ 64 - 1) :
    (PState.calls Γ f { kind := kind, parser := p } cs).1 = Session.calls Γ f { kind := kind, parser := p } cs := by
  refine calls_spec hΓ cs (used := 0) ⟨rfl, rfl, rfl, fun _ _ => ⟨rfl, rfl, rfl⟩, ?_, ?_, ?_⟩ hp hps (by omega)
  · intro _ g data hph; cases hph
  · intro _ r hph; cases hph
  · intro _; exact ⟨rfl, rfl, fun c hc => by cases hc⟩

/-! ## What that means for an input given in pieces -/

/-- The session has a parser for `g` that has been given `old` and is not finished. -/
def Open (s : Session) (g : G) (old : List Byte) : Prop :=
  s.kind = .stream ∧ s.skip = false ∧ ∃ p, s.parser = some p ∧
    ((s.phase = .idle ∧ p.grammar = g ∧ p.usable = true ∧ old = []) ∨ s.phase = .going g old)

theorem Open.feed {Γ : Nat → G} {f : Nat} {s : Session} {g : G} {old : List Byte} (h : Open s g old) (d : List Byte) (eod : Bool) :
    s.feed Γ f d eod = s.give Γ f g old d eod := by
  obtain ⟨h1, h2, p, h3, h4⟩ := h
  unfold Session.feed
  split
  · rename_i hx; rw [hx] at h3; cases h3
  · rename_i q hx
    rw [hx] at h3
    injection h3 with h3
    subst h3
    rw [if_neg (by rw [h2]; simp)]
    split
    · split
      · rename_i r hr
        rcases h4 with ⟨h4, -⟩ | h4 <;> rw [hr] at h4 <;> cases h4
      · rename_i g' old' hr
        rcases h4 with ⟨h4, -⟩ | h4 <;> rw [hr] at h4
        · cases h4
        · injection h4 with e1 e2
          subst e1 e2
          rfl
      · rename_i hr
        rcases h4 with ⟨-, h5, h6, h7⟩ | h4
        · rw [if_pos h6, h5, h7]
        · rw [hr] at h4; cases h4
    · rename_i hk; rw [hk] at h1; cases h1

theorem Open.give {Γ : Nat → G} {f : Nat} {s : Session} {g : G} {old : List Byte} (h : Open s g old) (d : List Byte)
    (hm : meaning Γ f g ⟨old ++ d, false⟩ = .needsMore) : Open (s.give Γ f g old d false).2 g (old ++ d) := by
  obtain ⟨h1, h2, p, h3, -⟩ := h
  refine ⟨h1, h2, p, h3, Or.inr ?_⟩
  unfold Session.give
  rw [hm]
  rfl

/-- Where the input was left. -/
def posOf : Result → Option Nat
  | .value _ pos => some pos
  | _ => none

/-- A finished session takes no notice of anything. -/
theorem over_calls {Γ : Nat → G} {f : Nat} (ds : List (List Byte)) {s : Session} {r : Option (Val × Nat)} (hk : s.kind = .stream)
    (hr : s.phase = .over r) :
    s.calls Γ f (ds.map .process ++ [.finish]) = ds.map (fun _ => ({} : Reply)) ++ [({ offset := r.map (·.2) } : Reply)] := by
  have hf : ∀ d e, s.feed Γ f d e = (.done none, s) := by
    intro d e
    unfold Session.feed
    split
    · rfl
    · split
      · rfl
      · rw [hk, hr]
  induction ds with
  | nil =>
    simp only [List.map_nil, List.nil_append, Session.calls, Session.call, hk, hf, Outcome.returns, if_true, Session.offset, hr]
  | cons d ds ih =>
    simp only [List.map_cons, List.cons_append, Session.calls, Session.call, hf, Outcome.returns, if_true]
    rw [ih]

theorem meaning_stable {Γ : Nat → G} {f : Nat} {g : G} {d d' : List Byte} {e : Bool} (h : meaning Γ f g ⟨d, false⟩ ≠ .needsMore)
    (hd : d <+: d') : meaning Γ f g ⟨d', e⟩ = meaning Γ f g ⟨d, false⟩ := by
  unfold meaning at h ⊢
  rcases eval_stable Γ f g ⟨d, false⟩ ⟨d', e⟩ none 0 (Or.inr ⟨rfl, hd⟩) with x | x
  · rw [x] at h; exact absurd rfl h
  · rw [x]

theorem over_shape (x : Reply) (ds : List (List Byte)) (y : Option Nat) (o : Outcome) (ho : x.outcome = o) :
    (x :: (ds.map (fun _ => ({} : Reply)) ++ [({ offset := y } : Reply)])).map (·.outcome) =
      List.replicate 0 .cont ++ o :: List.replicate (ds.length + 1 - 0) (.done none) ∧
    (x :: (ds.map (fun _ => ({} : Reply)) ++ [({ offset := y } : Reply)])).getLast?.map (·.offset) = some y := by
  constructor
  · simp only [List.map_cons, List.map_append, List.map_map, List.map_nil, List.replicate_zero, List.nil_append, ho, Nat.sub_zero]
    congr 1
    induction ds with
    | nil => rfl
    | cons d ds ih => simp only [List.map_cons, List.cons_append, ih, List.length_cons, List.replicate_succ]; rfl
  · rw [← List.cons_append, List.getLast?_append]
    rfl

theorem session_pieces {Γ : Nat → G} (hΓ : ∀ i, Sound (Γ i)) {f : Nat} {g : G} (hg : Sound g) (ds : List (List Byte)) {s : Session}
    {old : List Byte} (h : Open s g old) (hlen : (old ++ ds.flatten).length < 2 ^ 64 - 1)
    (hrun : meaning Γ f g ⟨old ++ ds.flatten, true⟩ ≠ .runsOn) :
    ∃ k, k ≤ ds.length ∧ (∀ j, j < k → meaning Γ f g ⟨old ++ (ds.take (j + 1)).flatten, false⟩ = .needsMore) ∧
      (k < ds.length → meaning Γ f g ⟨old ++ (ds.take (k + 1)).flatten, false⟩ ≠ .needsMore) ∧
      (s.calls Γ f (ds.map .process ++ [.finish])).map (·.outcome) =
        List.replicate k .cont ++ answer (meaning Γ f g ⟨old ++ ds.flatten, true⟩) :: List.replicate (ds.length - k) (.done none) ∧
      (s.calls Γ f (ds.map .process ++ [.finish])).getLast?.map (·.offset) = some (posOf (meaning Γ f g ⟨old ++ ds.flatten, true⟩)) := by
  induction ds generalizing s old with
  | nil =>
    refine ⟨0, Nat.le_refl _, fun j hj => by omega, fun hj => by simp at hj, ?_⟩
    have hcl := meaning_closed hΓ hg f old (by simpa using hlen)
    simp only [List.flatten_nil, List.append_nil] at hrun ⊢
    simp only [List.map_nil, List.nil_append, Session.calls, Session.call, h.1, h.feed, Session.give, List.append_nil]
    cases hm : meaning Γ f g ⟨old, true⟩ with
    | value v pos => simp [answer, Outcome.returns, posOf, phaseAfter, Session.offset]
    | error e => simp [answer, Outcome.returns, posOf]
    | needsMore => exact absurd hm hcl
    | runsOn => exact absurd hm hrun
    | undefined => simp [answer, Outcome.returns, posOf]
  | cons d ds ih =>
    have hfl : old ++ (d :: ds).flatten = old ++ d ++ ds.flatten := by simp [List.append_assoc]
    by_cases hm : meaning Γ f g ⟨old ++ d, false⟩ = .needsMore
    · obtain ⟨k, h1, h2, h3, h4, h5⟩ := ih (h.give d hm) (by rw [← hfl]; exact hlen) (by rw [← hfl]; exact hrun)
      have hout : (s.give Γ f g old d false).1 = .cont := by unfold Session.give; rw [hm]; rfl
      refine ⟨k + 1, by simp; omega, ?_, ?_, ?_, ?_⟩
      · intro j hj
        cases j with
        | zero => simpa using hm
        | succ j =>
          have := h2 j (by omega)
          simpa [List.append_assoc] using this
      · intro hk
        have := h3 (by simp at hk; omega)
        simpa [List.append_assoc] using this
      · simp only [List.map_cons, List.cons_append, Session.calls, Session.call, h.feed, hout, Outcome.returns, if_true]
        rw [h4, hfl]
        simp [List.replicate_succ]
      · simp only [List.map_cons, List.cons_append, Session.calls, Session.call, h.feed, hout, Outcome.returns, if_true]
        rw [List.getLast?_cons_of_ne_nil, h5, hfl]
        intro hn
        rw [hn] at h5
        cases h5
    · have hst : meaning Γ f g ⟨old ++ (d :: ds).flatten, true⟩ = meaning Γ f g ⟨old ++ d, false⟩ := by
        rw [hfl]; exact meaning_stable hm (List.prefix_append _ _)
      rw [hst] at hrun ⊢
      refine ⟨0, Nat.zero_le _, fun j hj => by omega, fun _ => by simpa using hm, ?_⟩
      simp only [List.map_cons, List.cons_append, Session.calls, Session.call, h.feed]
      have hout : (s.give Γ f g old d false).1 = answer (meaning Γ f g ⟨old ++ d, false⟩) := rfl
      have hph : (s.give Γ f g old d false).2.phase = phaseAfter g (old ++ d) (meaning Γ f g ⟨old ++ d, false⟩) := rfl
      have hkd : (s.give Γ f g old d false).2.kind = .stream := h.1
      rw [hout]
      cases hmm : meaning Γ f g ⟨old ++ d, false⟩ with
      | needsMore => exact absurd hmm hm
      | runsOn => exact absurd hmm hrun
      | undefined =>
        exfalso
        unfold meaning at hmm
        cases he : eval Γ f g ⟨old ++ d, false⟩ none 0 <;> rw [he] at hmm <;> cases hmm
      | value v pos =>
        rw [hmm] at hph
        simp only [answer, Outcome.returns, if_true, over_calls ds hkd hph]
        exact over_shape _ ds _ _ rfl
      | error e =>
        rw [hmm] at hph
        simp only [answer, Outcome.returns, if_true, over_calls ds hkd hph]
        exact over_shape _ ds _ _ rfl

/-- C67. An input given in pieces: the host is asked for more until the data given so far settles what the parser does with the
    whole input (at the first piece for which that is so), gets that answer once, and after that all further data is ignored. If
    nothing settles it, the call of `finish()` gets that answer. It is the meaning of the whole input, however it is cut up.
    `finish()` returns where the input was left. -/
theorem C67_input_in_pieces_partial {Γ : Nat → G} (hΓ : ∀ i, Sound (Γ i)) {g : G} (hg : Sound g) (f : Nat) (pieces : List (List Byte))
    (hlen : pieces.flatten.length < 2 ^ 64 - 1) (hrun : meaning Γ f g ⟨pieces.flatten, true⟩ ≠ .runsOn) :
    let M := meaning Γ f g ⟨pieces.flatten, true⟩
    let replies := (PState.calls Γ f { kind := .stream, parser := some ⟨g, true⟩ } (pieces.map .process ++ [.finish])).1
    ∃ k, k ≤ pieces.length ∧ (∀ j, j < k → meaning Γ f g ⟨(pieces.take (j + 1)).flatten, false⟩ = .needsMore) ∧
      (k < pieces.length → meaning Γ f g ⟨(pieces.take (k + 1)).flatten, false⟩ ≠ .needsMore) ∧
      replies.map (·.outcome) = List.replicate k .cont ++ answer M :: List.replicate (pieces.length - k) (.done none) ∧
      replies.getLast?.map (·.offset) = some (posOf M) := by
  have hv : ∀ ds : List (List Byte), Driver.volume (ds.map .process ++ [.finish]) = ds.flatten.length := by
    intro ds
    induction ds with
    | nil => rfl
    | cons d ds ih => simp only [List.map_cons, List.cons_append, Driver.volume, ih, List.flatten_cons, List.length_append]
  have hq : ∀ ds : List (List Byte), parsers (ds.map .process ++ [.finish]) = [] := by
    intro ds
    induction ds with
    | nil => rfl
    | cons d ds ih => simp only [List.map_cons, List.cons_append, parsers, ih]
  dsimp only
  rw [C67_host_sees_meaning_partial hΓ f .stream (some ⟨g, true⟩) _
    (fun q hx => by injection hx with hx; subst hx; exact ⟨hg, fun _ => rfl⟩)
    (fun q hx => by rw [hq] at hx; cases hx) (by rw [hv]; exact hlen)]
  have h0 : Open { kind := .stream, parser := some ⟨g, true⟩ } g [] := ⟨rfl, rfl, _, rfl, Or.inl ⟨rfl, rfl, rfl, rfl⟩⟩
  have := session_pieces hΓ (f := f) hg pieces h0 (by simpa using hlen) (by simpa using hrun)
  simpa only [List.nil_append] using this

/-- C67. Two hosts that give the same input in different pieces see the same value, or the same error, and are told the same
    position at the end. -/
theorem C67_cutting_is_unobservable_partial {Γ : Nat → G} (hΓ : ∀ i, Sound (Γ i)) {g : G} (hg : Sound g) (f : Nat)
    (pieces pieces' : List (List Byte)) (hsame : pieces.flatten = pieces'.flatten) (hlen : pieces.flatten.length < 2 ^ 64 - 1)
    (hrun : meaning Γ f g ⟨pieces.flatten, true⟩ ≠ .runsOn) :
    let replies := fun ps : List (List Byte) =>
      (PState.calls Γ f { kind := .stream, parser := some ⟨g, true⟩ } (ps.map .process ++ [.finish])).1
    let said := fun ps => (replies ps).filterMap (fun r => match r.outcome with
      | .done none => none
      | .cont => none
      | o => some o)
    said pieces = said pieces' ∧ (said pieces).length = 1 ∧ (replies pieces).getLast?.map (·.offset) = (replies pieces').getLast?.map (·.offset) := by
  dsimp only
  obtain ⟨k, -, -, -, h1, h2⟩ := C67_input_in_pieces_partial hΓ hg f pieces hlen hrun
  obtain ⟨k', -, -, -, h1', h2'⟩ := C67_input_in_pieces_partial hΓ hg f pieces' (hsame ▸ hlen) (hsame ▸ hrun)
  rw [← hsame] at h1' h2'
  have hcl := meaning_closed hΓ hg f pieces.flatten hlen
  have key : ∀ (rs : List Reply) (k n : Nat) (M : Result), M ≠ .needsMore → rs.map (·.outcome) = List.replicate k .cont ++ answer M :: List.replicate n (.done none) →
      rs.filterMap (fun r => match r.outcome with
        | .done none => none
        | .cont => none
        | o => some o) = [answer M] := by
    intro rs k n M hM he
    have : rs.filterMap (fun r => match r.outcome with
        | .done none => none
        | .cont => none
        | o => some o) = (rs.map (·.outcome)).filterMap (fun o => match o with
        | .done none => none
        | .cont => none
        | o => some o) := by rw [List.filterMap_map]; rfl
    rw [this, he, List.filterMap_append, List.filterMap_cons]
    have z1 : ∀ k, (List.replicate k Outcome.cont).filterMap (fun o => match o with
        | .done none => none
        | .cont => none
        | o => some o) = [] := by
      intro k
      induction k with
      | zero => rfl
      | succ k ih => rw [List.replicate_succ, List.filterMap_cons]; exact ih
    have z2 : ∀ k, (List.replicate k (Outcome.done none)).filterMap (fun o => match o with
        | .done none => none
        | .cont => none
        | o => some o) = [] := by
      intro k
      induction k with
      | zero => rfl
      | succ k ih => rw [List.replicate_succ, List.filterMap_cons]; exact ih
    rw [z1, z2]
    cases M with
    | needsMore => exact absurd rfl hM
    | _ => rfl
  rw [key _ _ _ _ hcl h1, key _ _ _ _ hcl h1', h2, h2']
  exact ⟨rfl, rfl, rfl⟩

/-- C67. In block mode each block is parsed for itself: what is said about it is the meaning of that block as a whole input,
    whatever came before; and `finish()` returns the position of the last block that could be parsed. -/
theorem C67_blocks_are_independent_partial {Γ : Nat → G} (hΓ : ∀ i, Sound (Γ i)) {g : G} (hg : Sound g) (f : Nat) (blocks : List (List Byte))
    (hlen : blocks.flatten.length < 2 ^ 64 - 1) (hrun : ∀ b ∈ blocks, meaning Γ f g ⟨b, true⟩ ≠ .runsOn) :
    let replies := (PState.calls Γ f { kind := .block, parser := some ⟨g, true⟩ } (blocks.map .process ++ [.finish])).1
    replies = blocks.map (fun b => { outcome := answer (meaning Γ f g ⟨b, true⟩) }) ++
      [{ offset := (blocks.filterMap (fun b => posOf (meaning Γ f g ⟨b, true⟩))).getLast? }] := by
  have hv : ∀ ds : List (List Byte), Driver.volume (ds.map .process ++ [.finish]) = ds.flatten.length := by
    intro ds
    induction ds with
    | nil => rfl
    | cons d ds ih => simp only [List.map_cons, List.cons_append, Driver.volume, ih, List.flatten_cons, List.length_append]
  have hq : ∀ ds : List (List Byte), parsers (ds.map .process ++ [.finish]) = [] := by
    intro ds
    induction ds with
    | nil => rfl
    | cons d ds ih => simp only [List.map_cons, List.cons_append, parsers, ih]
  dsimp only
  rw [C67_host_sees_meaning_partial hΓ f .block (some ⟨g, true⟩) _
    (fun q hx => by injection hx with hx; subst hx; exact ⟨hg, fun _ => rfl⟩)
    (fun q hx => by rw [hq] at hx; cases hx) (by rw [hv]; exact hlen)]
  have key : ∀ (bs : List (List Byte)) (s : Session), s.kind = .block → s.parser = some ⟨g, true⟩ → s.skip = false → bs.flatten.length < 2 ^ 64 - 1 →
      (∀ b ∈ bs, meaning Γ f g ⟨b, true⟩ ≠ .runsOn) →
      s.calls Γ f (bs.map .process ++ [.finish]) = bs.map (fun b => ({ outcome := answer (meaning Γ f g ⟨b, true⟩) } : Reply)) ++
        [({ offset := (bs.filterMap (fun b => posOf (meaning Γ f g ⟨b, true⟩))).getLast?.or s.last } : Reply)] := by
    intro bs
    induction bs with
    | nil =>
      intro s hk hp hs _ _
      simp only [List.map_nil, List.nil_append, Session.calls, Session.call, hk, Outcome.returns, if_true]
      rfl
    | cons b bs ih =>
      intro s hk hp hs hl hr
      have hl2 : b.length + bs.flatten.length < 2 ^ 64 - 1 := by simpa using hl
      have hcl := meaning_closed hΓ hg f b (by omega)
      simp only [List.map_cons, List.cons_append, Session.calls, Session.call, Session.feed, hp, hs, hk, Bool.false_eq_true, if_false]
      cases hm : meaning Γ f g ⟨b, true⟩ with
      | value v pos =>
        simp only [answer, Outcome.returns, if_true]
        rw [ih _ rfl rfl rfl (by omega) (fun b hb => hr b (List.mem_cons_of_mem _ hb))]
        rw [List.filterMap_cons, hm]
        simp only [posOf]
        congr 3
        cases hgl : (bs.filterMap (fun b => posOf (meaning Γ f g ⟨b, true⟩))).getLast? with
        | none => rw [List.getLast?_eq_none_iff] at hgl; simp only [posOf] at hgl; rw [hgl]; rfl
        | some x => rw [List.getLast?_cons]; simp only [posOf] at hgl; rw [hgl]; rfl
      | error e =>
        simp only [answer, Outcome.returns, if_true]
        rw [ih _ rfl rfl rfl (by omega) (fun b hb => hr b (List.mem_cons_of_mem _ hb))]
        rw [List.filterMap_cons, hm]
        rfl
      | needsMore => exact absurd hm hcl
      | runsOn => exact absurd hm (hr b List.mem_cons_self)
      | undefined =>
        exfalso
        unfold meaning at hm
        cases he : eval Γ f g ⟨b, true⟩ none 0 <;> rw [he] at hm <;> cases hm
  rw [key blocks _ rfl rfl rfl hlen hrun, Option.or_none]

/-! ## Buffers of the host -/

/-- Nothing refers to memory of the host as long as the stream will be looked at again. -/
def Released (st : PState) : Prop := st.kind = .stream → st.done = false → ∀ c, st.input = some c → ∀ k ∈ c.chunks, ¬ Borrows k

theorem released_settle {st : PState} (h : Released st) (Γ : Nat → G) (f : Nat) (eod : Bool) (g : G) (first : Item) (s : Sched) (ot : Option Resumed) :
    Released (settle st eod g first s ot (start Γ f g {} first s)).2 := by
  have hk := start_kept Γ f g kept_init first s
  cases hs : start Γ f g {} first s with
  | done r c s' => intro _ hd; cases hd
  | throw e c s' => intro _ hd; cases hd
  | suspended c =>
    rw [hs] at hk
    cases eod with
    | true => exact h
    | false =>
      intro _ _ c' hc'
      injection hc' with hc'
      subst hc'
      exact owned_makeOwning hk.1 hk.2
  | diverge => exact h
  | ub => exact h

theorem released_feed {st : PState} (h : Released st) (Γ : Nat → G) (f : Nat) (d : List Byte) (eod : Bool) : Released (st.feed Γ f d eod).2 := by
  unfold PState.feed
  split
  · exact h
  · split
    · exact h
    · split
      · rename_i hk
        intro hk2
        have : ∀ p, (feedBlock Γ f st p d).2.kind = .block := by
          intro p
          unfold feedBlock
          split
          · split <;> exact hk
          · split <;> exact hk
        rw [this] at hk2
        cases hk2
      · split
        · exact h
        · unfold feedStream
          split
          · split
            · exact released_settle h _ _ _ _ _ _ _
            · intro _ hd; cases hd
          · split
            · exact released_settle h _ _ _ _ _ _ _
            · intro _ hd; cases hd
            · exact h

theorem released_call {st : PState} (h : Released st) (Γ : Nat → G) (f : Nat) (c : Call) : Released (st.call Γ f c).2 := by
  cases c with
  | process d => exact released_feed h Γ f d false
  | finish =>
    simp only [PState.call]
    split
    · exact h
    · split <;> exact released_feed h Γ f [] true
  | setParser p => exact h
  | skipRemaining => exact h
  | reset => intro _ _ c hc; cases hc
  | isFinished => exact h

/-- C67. The data given to `process()` belongs to the host again once the call has returned: whatever the host has done, and
    whatever the grammars, as long as the input goes on no part of the stream refers to a buffer of the host. (Once the parser is
    finished the stream is not looked at any more; block mode starts with an empty one each time.) -/
theorem C67_lent_buffers_are_returned (Γ : Nat → G) (f : Nat) (kind : Kind) (p : Option Entry) (cs : List Call) :
    Released (PState.calls Γ f { kind := kind, parser := p } cs).2 := by
  suffices h : ∀ (cs : List Call) (st : PState), Released st → Released (st.calls Γ f cs).2 from
    h cs _ (fun _ _ c hc => by cases hc)
  intro cs
  induction cs with
  | nil => exact fun _ h => h
  | cons c cs ih =>
    intro st h
    unfold PState.calls
    dsimp only
    split
    · exact ih _ (released_call h Γ f c)
    · exact released_call h Γ f c

/-! ## `Driver::processInput` -/

theorem reads_spec (len : Nat) (hl : 0 < len) (n : Nat) (rest : List Byte) (h : rest.length < n) :
    closes (reads len n rest) = true ∧ total (reads len n rest) = rest := by
  induction n generalizing rest with
  | zero => omega
  | succ n ih =>
    unfold reads
    dsimp only
    have hfl : (if rest.take len = [] then [] else [rest.take len] : List (List Byte)).flatten = rest.take len := by
      split
      · rename_i hx; rw [hx]; rfl
      · simp
    by_cases hd : rest.drop len = []
    · rw [if_pos hd]
      refine ⟨by simp [closes, hd], ?_⟩
      simp only [total, hfl, hd, decide_true, if_true, List.append_nil]
      have := List.take_append_drop len rest
      rw [hd, List.append_nil] at this
      exact this
    · rw [if_neg hd]
      have hlen : (rest.drop len).length < n := by
        have h1 : (rest.drop len).length ≠ 0 := fun hz => hd (List.length_eq_zero_iff.mp hz)
        rw [List.length_drop] at h1 ⊢
        omega
      obtain ⟨i1, i2⟩ := ih _ hlen
      refine ⟨by simp [closes] at i1 ⊢; exact Or.inr i1, ?_⟩
      simp only [total, hfl, hd, decide_false, Bool.false_eq_true, if_false, i2]
      exact List.take_append_drop _ _

theorem readLength_pos (i : Int) : 0 < readLength i := by
  unfold readLength
  split
  · omega
  · decide

/-- C67. Parsing an input through the driver gives the meaning of its content, whatever the increment, as long as that is not more than
    the 4096 bytes of the buffer (or the content is not). -/
theorem C67_process_input_partial {Γ : Nat → G} (hΓ : ∀ i, Sound (Γ i)) {g : G} (hg : Sound g) (f : Nat) (content : List Byte) (increment : Int)
    (hlen : content.length < 2 ^ 64 - 1) (hb : increment ≤ 4096 ∨ content.length ≤ 4096) :
    processInput Γ f g content increment = meaning Γ f g ⟨content, true⟩ := by
  obtain ⟨h1, h2⟩ := reads_spec (readLength increment) (readLength_pos increment) (content.length + 1) content (Nat.lt_succ_self _)
  unfold processInput
  rw [if_neg (show ¬ (readLength increment > bufferSize ∧ content.length > bufferSize) by
    rintro ⟨a, b⟩
    unfold readLength at a
    unfold bufferSize at a b
    split at a <;> omega)]
  cases hr : reads (readLength increment) (content.length + 1) content with
  | nil => rw [hr] at h1; cases h1
  | cons first s =>
    dsimp only
    rw [hr] at h1 h2
    rw [C13_parse_is_meaning_partial (unitsOk_plain hΓ) hg f true first s (by rw [h2]; exact hlen)]
    unfold input
    rw [h1, h2]

/-- C67. Whatever the grammar, the parser has come to an end when the driver returns the unit. -/
theorem C67_process_input_finishes (Γ : Nat → G) (f : Nat) (g : G) (content : List Byte) (increment : Int) :
    processInput Γ f g content increment ≠ .needsMore := by
  obtain ⟨h1, -⟩ := reads_spec (readLength increment) (readLength_pos increment) (content.length + 1) content (Nat.lt_succ_self _)
  unfold processInput
  split
  · intro h; cases h
  · cases hr : reads (readLength increment) (content.length + 1) content with
    | nil => rw [hr] at h1; cases h1
    | cons first s => rw [hr] at h1; exact C67_closed_input_is_settled Γ f g true first s h1

/-- Finding: with an increment of more than 4096, an input of more than 4096 bytes is read beyond the end of the buffer on the
    stack (`driver.cc` 186-197): for every grammar. -/
theorem C67_fails_large_increment (Γ : Nat → G) (f : Nat) (g : G) (content : List Byte) (increment : Int) (hi : 4096 < increment)
    (hc : 4096 < content.length) : processInput Γ f g content increment = .undefined := by
  unfold processInput
  rw [if_pos]
  unfold readLength bufferSize
  rw [if_pos (by omega)]
  omega

/-- Finding: in block mode, a unit type that requires arguments is only noticed with the first block. The second one calls a
    function through a null pointer (`driver.cc` 287-313). -/
theorem C67_fails_unusable_blocks (Γ : Nat → G) (f : Nat) (g : G) (a b : List Byte) :
    (PState.calls Γ f { kind := .block, parser := some ⟨g, false⟩ } [.process a, .process b]).1.map (·.outcome) =
      [.throw .invalidArgument, .undefined] := rfl

/-- Finding: in block mode `isFinished()` says that everything is over once some block could not be parsed; the next one is parsed
    nevertheless. -/
theorem C67_fails_finished_after_error {Γ : Nat → G} {f : Nat} {g : G} (a b : List Byte) (hΓ : ∀ i, Sound (Γ i)) (hg : Sound g) (e : Exn) (v : Val)
    (pos : Nat) (ha : meaning Γ f g ⟨a, true⟩ = .error e) (hb : meaning Γ f g ⟨b, true⟩ = .value v pos) (hl : a.length + b.length < 2 ^ 64 - 1) :
    (PState.calls Γ f { kind := .block, parser := some ⟨g, true⟩ } [.process a, .isFinished, .process b]).1 =
      [{ outcome := .throw e }, { flag := true }, { outcome := .done (some (v, pos)) }] := by
  rw [C67_host_sees_meaning_partial hΓ f .block (some ⟨g, true⟩) _
    (fun q hx => by injection hx with hx; subst hx; exact ⟨hg, fun _ => rfl⟩)
    (fun q hx => by cases hx) (by simpa [Driver.volume] using hl)]
  simp only [Session.calls, Session.call, Session.feed, ha, hb, answer, Outcome.returns, Bool.false_eq_true, if_false, if_true, Bool.false_or]

/-! ## Non-trivial cases -/

/-- Two messages in three pieces, and garbage after a unit that ends by itself. -/
example : (PState.calls Γex 20 { kind := .stream, parser := some ⟨unitG, true⟩ }
      [.process [83], .process [80, 2, 7], .isFinished, .process [8, 1, 9], .finish, .isFinished, .process [1]]).1 =
    [{ outcome := .cont }, { outcome := .cont }, {}, { outcome := .cont },
      { outcome := .done (some (.list [.bytes [7, 8], .bytes [9]], 7)), offset := some 7 }, { flag := true }, {}] := by
  rw [C67_host_sees_meaning_partial (Γ := Γex) (fun _ => sound_msgG) 20 .stream _ _
    (fun q hx => by injection hx with hx; subst hx; exact ⟨sound_unitG, fun _ => rfl⟩) (fun q hx => by cases hx) (by decide)]
  rfl

/-- A unit that is complete before the input ends: the rest is ignored. -/
example : (PState.calls Γex 20 { kind := .stream, parser := some ⟨msgG, true⟩ } [.process [2, 7], .process [8, 1, 9], .process [5], .finish]).1 =
    [{ outcome := .cont }, { outcome := .done (some (.bytes [7, 8], 3)) }, {}, { offset := some 3 }] := by rfl

/-- Blocks: the second one cannot be parsed. -/
example : (PState.calls Γex 20 { kind := .block, parser := some ⟨msgG, true⟩ } [.process [1, 7], .process [2, 7], .process [0], .finish]).1 =
    [{ outcome := .done (some (.bytes [7], 2)) }, { outcome := .throw .parseError }, { outcome := .done (some (.bytes [], 1)) },
      { offset := some 1 }] := by rfl

/-- The buffer of the host is in the stream while the parser runs, and not after. -/
example : (∃ k ∈ (({} : Chain).run (piece [2, 7] false).ops).chunks, Borrows k) ∧
    ∃ c, (PState.calls Γex 20 { kind := .stream, parser := some ⟨msgG, true⟩ } [.process [2, 7]]).2.input = some c ∧ c.chunks ≠ [] := by
  refine ⟨⟨_, List.mem_cons_self, ⟨[2, 7], rfl, by simp⟩, rfl⟩, _, rfl, ?_⟩
  intro h
  cases h

/-- The driver, one byte at a time. -/
example : processInput Γex 20 unitG [83, 80, 2, 7, 8] 1 = .value (.list [.bytes [7, 8]]) 5 := by
  rw [C67_process_input_partial (Γ := Γex) (fun _ => sound_msgG) sound_unitG 20 _ _ (by decide) (by decide)]
  rfl

end Verif.Driver
