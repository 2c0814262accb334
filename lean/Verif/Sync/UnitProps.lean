import Verif.Sync.UnitSim
import Verif.Sync.Witness
/-!
# Error recovery in units: property theorems (C65)

`parseSync` is what a host sees of a unit with a literal marked `&synchronize`; `expectedUnit` says what it is to see, from all the input.
The theorems about `parseSync` are `_partial`: when trimming, the fields must be literals, integers, `bytes &size=n`, computed values or
`&requires`; for a sub-unit that fails having consumed input the property is false (`C65_fails_for_subunits`).
-/

namespace Verif.Sync
open Verif.Stream Verif.Parse

variable {I : Input}

/-! ## The specification comes to an end -/

theorem fieldsS_ends {trim : Bool} {F : Fields} (hF : F.Ok trim) : ∀ {pos : Nat} {err : Option Exn} {log : List Ev},
    fieldsS I F pos err log ≠ .diverge := by
  induction hF with
  | done => intro pos err log h; cases h
  | @field g hook rest hg _ ih =>
    intro pos err log h
    unfold fieldsS at h
    have hb := bodyS_ends (I := I) hg.1 (lim := none) pos
    cases hr : bodyS g I none pos with
    | ok r =>
      rw [hr] at h
      dsimp only at h
      cases hh : runHook (hook r.1) err (log ++ [.value r.1]) with
      | ok y => rw [hh] at h; exact ih r.1 h
      | error x => rw [hh] at h; cases h
    | fail e => rw [hr] at h; dsimp only at h; split at h <;> cases h
    | more => rw [hr] at h; cases h
    | diverge => exact hb hr

theorem fieldsS_forward {trim : Bool} {F : Fields} (hF : F.Ok trim) : ∀ {pos : Nat} {err : Option Exn} {log : List Ev} {t : Place},
    pos ≤ I.stop none → fieldsS I F pos err log = .ok t → pos ≤ t.pos ∧ t.pos ≤ I.stop none := by
  induction hF with
  | done => intro pos err log t hp h; injection h with h; subst h; exact ⟨Nat.le_refl _, hp⟩
  | @field g hook rest hg _ ih =>
    intro pos err log t hp h
    unfold fieldsS at h
    cases hr : bodyS g I none pos with
    | ok r =>
      rw [hr] at h
      have hf := bodyS_forward hg.1 I none pos r hp hr
      dsimp only at h
      cases hh : runHook (hook r.1) err (log ++ [.value r.1]) with
      | ok y =>
        rw [hh] at h
        have := ih r.1 hf.2 h
        omega
      | error x => rw [hh] at h; injection h with h; subst h; exact hf
    | fail e =>
      rw [hr] at h
      dsimp only at h
      split at h
      · injection h with h; subst h; exact ⟨Nat.le_refl _, hp⟩
      · cases h
    | more => rw [hr] at h; cases h
    | diverge => rw [hr] at h; cases h

theorem afterS_ends {trim : Bool} {U : SyncUnit} (hF : U.after.Ok trim) {pos : Nat} {err : Option Exn} {log : List Ev} :
    afterS U I pos err log ≠ .diverge := by
  intro h
  unfold afterS at h
  rcases has_cases I none pos U.lit.length with ⟨h1, -⟩ | ⟨h1, -, -⟩ | ⟨h1, -, -⟩
  · rw [h1] at h
    dsimp only at h
    split at h
    · exact fieldsS_ends hF h
    · cases h
  · rw [h1] at h; cases h
  · rw [h1] at h; cases h

theorem afterS_forward {trim : Bool} {U : SyncUnit} (hF : U.after.Ok trim) {pos : Nat} {err : Option Exn} {log : List Ev} {t : Place}
    (hp : pos ≤ I.stop none) (h : afterS U I pos err log = .ok t) : pos ≤ t.pos ∧ t.pos ≤ I.stop none := by
  unfold afterS at h
  rcases has_cases I none pos U.lit.length with ⟨h1, h2⟩ | ⟨h1, -, -⟩ | ⟨h1, -, -⟩
  · rw [h1] at h
    dsimp only at h
    split at h
    · have := fieldsS_forward hF h2 h
      omega
    · injection h with h; subst h; exact ⟨Nat.le_refl _, hp⟩
  · rw [h1] at h; injection h with h; subst h; exact ⟨Nat.le_refl _, hp⟩
  · rw [h1] at h; cases h

theorem firstOcc_room {lit : List Byte} (hne : lit ≠ []) {pos q : Nat} (h : firstOcc lit (I.rest none pos) = some q) :
    pos + q < I.stop none ∧ lit <+: I.rest none (pos + q) := by
  rcases firstOcc_spec lit (I.rest none pos) with ⟨p, e, k, -⟩ | ⟨e, -⟩
  · rw [h] at e
    injection e with e
    subst e
    have k : lit <+: I.rest none (pos + q) := by rw [← rest_drop]; exact k
    have h1 := prefix_room hne k
    have h2 : 0 < lit.length := List.length_pos_iff.2 hne
    exact ⟨by omega, k⟩
  · rw [h] at e; cases e

theorem trialS_ends {trim : Bool} {U : SyncUnit} (hne : U.lit ≠ []) (hF : U.after.Ok trim) (k : Nat) : ∀ {pos : Nat} {err : Option Exn}
    {log : List Ev}, 0 < k → I.stop none + 1 < pos + k → trialS U I k pos err log ≠ .diverge := by
  induction k with
  | zero => intro pos err log h; omega
  | succ k ih =>
    intro pos err log _ hk h
    cases err with
    | none =>
      unfold trialS at h
      have he := afterS_ends (I := I) hF (pos := pos) (err := none) (log := log)
      cases ha : afterS U I pos none log with
      | ok t => rw [ha] at h; dsimp only [SRes.ok_bind] at h; split at h <;> cases h
      | fail e => rw [ha] at h; cases h
      | more => rw [ha] at h; cases h
      | diverge => exact he ha
    | some e0 =>
      unfold trialS at h
      cases ho : firstOcc U.lit (I.rest none pos) with
      | none => rw [ho] at h; dsimp only at h; split at h <;> cases h
      | some q =>
        rw [ho] at h
        dsimp only at h
        obtain ⟨h1, -⟩ := firstOcc_room hne ho
        cases hh : runHook U.hook (some e0) (log ++ [.synced (pos + q)]) with
        | error x => rw [hh] at h; cases h
        | ok y =>
          rw [hh] at h
          dsimp only at h
          have he := afterS_ends (I := I) hF (pos := pos + q) (err := y.1) (log := y.2)
          cases ha : afterS U I (pos + q) y.1 y.2 with
          | ok t =>
            rw [ha] at h
            dsimp only [SRes.ok_bind] at h
            have := afterS_forward hF (by omega) ha
            split at h
            · cases h
            · split at h
              · exact ih (by omega) (by omega) h
              · cases h
          | fail e => rw [ha] at h; cases h
          | more => rw [ha] at h; cases h
          | diverge => exact he ha

theorem trialS_more {U : SyncUnit} (k : Nat) : ∀ {k' pos : Nat} {err : Option Exn} {log : List Ev},
    k ≤ k' → trialS U I k pos err log ≠ .diverge → trialS U I k' pos err log = trialS U I k pos err log := by
  induction k with
  | zero => intro k' pos err log _ h; exact absurd (by unfold trialS; rfl) h
  | succ k ih =>
    intro k' pos err log hk h
    obtain ⟨k', rfl⟩ : ∃ j, k' = j + 1 := ⟨k' - 1, by omega⟩
    cases err with
    | none => unfold trialS; rfl
    | some e0 =>
      unfold trialS at h ⊢
      cases ho : firstOcc U.lit (I.rest none pos) with
      | none => rfl
      | some q =>
        rw [ho] at h
        dsimp only at h ⊢
        cases hh : runHook U.hook (some e0) (log ++ [.synced (pos + q)]) with
        | error x => rfl
        | ok y =>
          rw [hh] at h
          dsimp only at h ⊢
          cases ha : afterS U I (pos + q) y.1 y.2 with
          | ok t =>
            rw [ha] at h
            dsimp only [SRes.ok_bind] at h ⊢
            cases hst : t.stopped with
            | none => rfl
            | some x =>
              rw [hst] at h
              dsimp only at h ⊢
              by_cases hE : t.err.isSome = true
              · rw [if_pos hE] at h ⊢
                rw [if_pos hE]
                exact ih (by omega) h
              · rw [if_neg hE, if_neg hE]
          | fail e => rfl
          | more => rfl
          | diverge => rfl

/-! ## The host sees what is specified -/

theorem hostResult_of {out : Out (Frame × List Ev)} {r : SRes Place} (h : SimUnit out r) : hostResult out = unitResult r := by
  cases r with
  | ok t =>
    obtain ⟨fr, c, s, rfl, h2, h3⟩ := h
    unfold hostResult unitResult
    dsimp only
    rw [h2, h3]
  | fail e => obtain ⟨c, s, rfl⟩ := h; rfl
  | more => obtain ⟨c, rfl⟩ := h; rfl
  | diverge => cases h; rfl

/-- C65. A unit with a literal marked `&synchronize`, however its input is cut up, is parsed as specified, as a function of all the input. -/
theorem C65_parses_as_specified_partial {U : SyncUnit} (hne : U.lit ≠ []) (trim : Bool) (hb : U.before.Ok trim) (ha : U.after.Ok trim)
    (first : Item) (s : Sched) (hlen : (total (first :: s)).length < 2 ^ 64 - 1) {f : Nat}
    (hf : (total (first :: s)).length + 2 ≤ f) : parseSync U trim f first s = expectedUnit U (input (first :: s)) := by
  obtain ⟨v, h1, h2, h3, h4⟩ := begin_frame first s trim
  unfold parseSync parseWith
  rw [h1]
  dsimp only
  have hI : (input (first :: s)).data.length < 2 ^ 64 - 1 := hlen
  have hst := stop_none (input (first :: s))
  have hd : (input (first :: s)).data.length + 2 ≤ f := hf
  unfold expectedUnit
  refine hostResult_of ?_
  unfold unitP unitS
  rw [P.bind_apply]
  have hbf := fieldsP_spec trim hI hb (fr := { cur := v }) (log := []) ⟨h2, h3, h4.at_, h4.head⟩ rfl
  dsimp only at hbf
  generalize fieldsP trim U.before { cur := v } [] (({} : Chain).run first.ops) s = out at hbf ⊢
  cases hr : fieldsS (input (first :: s)) U.before 0 none [] with
  | ok t =>
    rw [hr] at hbf
    obtain ⟨fr, c1, s1, rfl, k1, k2, k3⟩ := hbf
    dsimp only [SRes.ok_bind]
    cases hstp : t.stopped with
    | none =>
      dsimp only
      have hl := trialLoop_spec hne trim hI ha (f := f) (by omega) f (fr := fr) (log := t.log) (.here k1) (fun _ => k1) k2
      rw [k3, trialS_more _ hd (trialS_ends hne ha _ (by omega) (by omega))] at hl
      exact hl
    | some x =>
      dsimp only
      have hl := trialLoop_spec hne trim hI ha (f := f) (by omega) f (fr := { fr with err := some x }) (log := t.log) (.here k1)
        (fun _ => k1) k2
      rw [trialS_more _ hd (trialS_ends hne ha _ (by omega) (by omega))] at hl
      exact hl
  | fail e => rw [hr] at hbf; obtain ⟨c1, s1, rfl⟩ := hbf; exact ⟨c1, s1, rfl⟩
  | more => rw [hr] at hbf; obtain ⟨c1, rfl⟩ := hbf; exact ⟨c1, rfl⟩
  | diverge => rw [hr] at hbf; cases hbf; rfl

/-- C65. It never runs forever, and nothing is undefined. -/
theorem C65_ends_partial {U : SyncUnit} (hne : U.lit ≠ []) (trim : Bool) (hb : U.before.Ok trim) (ha : U.after.Ok trim)
    (first : Item) (s : Sched) (hlen : (total (first :: s)).length < 2 ^ 64 - 1) {f : Nat}
    (hf : (total (first :: s)).length + 2 ≤ f) :
    parseSync U trim f first s ≠ .runsOn ∧ parseSync U trim f first s ≠ .undefined := by
  rw [C65_parses_as_specified_partial hne trim hb ha first s hlen hf]
  have hst := stop_none (input (first :: s))
  have hd : unitS U (input (first :: s)) ≠ .diverge := by
    intro h
    unfold unitS at h
    cases hr : fieldsS (input (first :: s)) U.before 0 none [] with
    | ok t =>
      rw [hr] at h
      dsimp only [SRes.ok_bind] at h
      split at h
      · exact trialS_ends hne ha _ (by omega) (by omega) h
      · exact trialS_ends hne ha _ (by omega) (by omega) h
    | fail e => rw [hr] at h; cases h
    | more => rw [hr] at h; cases h
    | diverge => exact fieldsS_ends hb hr
  unfold expectedUnit unitResult
  cases hr : unitS U (input (first :: s)) with
  | ok t => dsimp only; split <;> exact ⟨(fun h => by cases h), (fun h => by cases h)⟩
  | fail e => exact ⟨(fun h => by cases h), (fun h => by cases h)⟩
  | more => exact ⟨(fun h => by cases h), (fun h => by cases h)⟩
  | diverge => exact absurd hr hd

/-- C65. Chunking does not matter. -/
theorem C65_chunking_is_unobservable_partial {U : SyncUnit} (hne : U.lit ≠ []) (trim : Bool) (hb : U.before.Ok trim) (ha : U.after.Ok trim)
    (first first' : Item) (s s' : Sched) (hlen : (total (first :: s)).length < 2 ^ 64 - 1) {f : Nat}
    (hf : (total (first :: s)).length + 2 ≤ f) (hd : total (first :: s) = total (first' :: s'))
    (hc : closes (first :: s) = closes (first' :: s')) :
    parseSync U trim f first s = parseSync U trim f first' s' := by
  have hi : input (first :: s) = input (first' :: s') := by unfold input; rw [hd, hc]
  rw [C65_parses_as_specified_partial hne trim hb ha first s hlen hf,
    C65_parses_as_specified_partial hne trim hb ha first' s' (hd ▸ hlen) (hd ▸ hf), hi]

/-! ## What the specification says -/

/-- Where the unit was synchronized. -/
def syncs (log : List Ev) : List Nat := log.filterMap (fun e => match e with | .synced o => some o | _ => none)

theorem syncs_append (a b : List Ev) : syncs (a ++ b) = syncs a ++ syncs b := List.filterMap_append

/-- Has a hook confirmed? -/
def Confirmed (log : List Ev) : Prop := Ev.confirmed ∈ log

/-- No unconfirmed error: nothing was synchronized, or it was confirmed. -/
def Settled (err : Option Exn) (log : List Ev) : Prop := err = none → syncs log = [] ∨ Confirmed log

theorem runHook_log {h : Hook} {err : Option Exn} {log : List Ev} {y : Option Exn × List Ev} (e : runHook h err log = .ok y) :
    syncs y.2 = syncs log ∧ (y.1 = err ∨ y.1 = none ∧ Confirmed y.2) ∧ (Confirmed log → Confirmed y.2) := by
  unfold runHook at e
  cases h with
  | nothing => injection e with e; subst e; exact ⟨rfl, Or.inl rfl, id⟩
  | confirm =>
    cases err with
    | none => injection e with e; subst e; exact ⟨rfl, Or.inl rfl, id⟩
    | some x =>
      injection e with e; subst e
      refine ⟨by rw [syncs_append]; simp [syncs], Or.inr ⟨rfl, ?_⟩, fun h => ?_⟩
      · exact List.mem_append_right _ (List.mem_singleton.2 rfl)
      · exact List.mem_append_left _ h
  | reject => cases err <;> cases e

theorem Settled.hook {h : Hook} {err : Option Exn} {log : List Ev} {y : Option Exn × List Ev} (e : runHook h err log = .ok y)
    (hs : Settled err log) : Settled y.1 y.2 := by
  obtain ⟨h1, h2, h3⟩ := runHook_log e
  intro hn
  rcases h2 with h2 | ⟨-, h2⟩
  · rw [h1]
    rcases hs (by rw [← h2]; exact hn) with h | h
    · exact Or.inl h
    · exact Or.inr (h3 h)
  · exact Or.inr h2

theorem Settled.value {err : Option Exn} {log : List Ev} (v : Val) (hs : Settled err log) : Settled err (log ++ [.value v]) := by
  intro hn
  rcases hs hn with h | h
  · exact Or.inl (by rw [syncs_append, h]; rfl)
  · exact Or.inr (List.mem_append_left _ h)

theorem fieldsS_log (F : Fields) : ∀ {pos : Nat} {err : Option Exn} {log : List Ev} {t : Place},
    fieldsS I F pos err log = .ok t → syncs t.log = syncs log ∧ (Settled err log → Settled t.err t.log) ∧
      (t.err = err ∨ t.err = none) := by
  induction F with
  | done => intro pos err log t h; injection h with h; subst h; exact ⟨rfl, id, Or.inl rfl⟩
  | field g hook rest ih =>
    intro pos err log t h
    unfold fieldsS at h
    cases hr : bodyS g I none pos with
    | ok r =>
      rw [hr] at h
      dsimp only at h
      have hv : syncs (log ++ [.value r.1]) = syncs log := by rw [syncs_append]; simp [syncs]
      cases hh : runHook (hook r.1) err (log ++ [.value r.1]) with
      | ok y =>
        rw [hh] at h
        obtain ⟨k1, k2, k3⟩ := ih r.1 h
        obtain ⟨j1, j2, -⟩ := runHook_log hh
        refine ⟨by rw [k1, j1, hv], fun hs => k2 ((hs.value r.1).hook hh), ?_⟩
        rcases k3 with k3 | k3
        · rcases j2 with j2 | ⟨j2, -⟩
          · exact Or.inl (k3.trans j2)
          · exact Or.inr (k3.trans j2)
        · exact Or.inr k3
      | error x => rw [hh] at h; injection h with h; subst h; exact ⟨hv, fun hs => hs.value r.1, Or.inl rfl⟩
    | fail e =>
      rw [hr] at h
      dsimp only at h
      split at h
      · injection h with h; subst h; exact ⟨rfl, id, Or.inl rfl⟩
      · cases h
    | more => rw [hr] at h; cases h
    | diverge => rw [hr] at h; cases h

theorem afterS_log {U : SyncUnit} {pos : Nat} {err : Option Exn} {log : List Ev} {t : Place}
    (h : afterS U I pos err log = .ok t) : syncs t.log = syncs log ∧ (Settled err log → Settled t.err t.log) ∧
      (t.err = err ∨ t.err = none) := by
  unfold afterS at h
  have hv : syncs (log ++ [.value (.bytes U.lit)]) = syncs log := by rw [syncs_append]; simp [syncs]
  rcases has_cases I none pos U.lit.length with ⟨h1, -⟩ | ⟨h1, -, -⟩ | ⟨h1, -, -⟩
  · rw [h1] at h
    dsimp only at h
    split at h
    · obtain ⟨k1, k2, k3⟩ := fieldsS_log U.after h
      exact ⟨by rw [k1, hv], fun hs => k2 (hs.value _), k3⟩
    · injection h with h; subst h; exact ⟨rfl, id, Or.inl rfl⟩
  · rw [h1] at h; injection h with h; subst h; exact ⟨rfl, id, Or.inl rfl⟩
  · rw [h1] at h; cases h

/-- The log of the loop: synchronizations go forward, and are at places where the literal is. -/
theorem trialS_log {trim : Bool} {U : SyncUnit} (hne : U.lit ≠ []) (hF : U.after.Ok trim) (k : Nat) : ∀ {pos : Nat} {err : Option Exn}
    {log : List Ev} {t : Place}, trialS U I k pos err log = .ok t →
    (∃ offs : List Nat, syncs t.log = syncs log ++ offs ∧ offs.Pairwise (· < ·) ∧
      (∀ o ∈ offs, pos ≤ o ∧ U.lit <+: I.rest none o) ∧ (err = none → offs = []) ∧
      (err ≠ none → ∃ q, firstOcc U.lit (I.rest none pos) = some q ∧ offs.head? = some (pos + q))) ∧
    (Settled err log → Settled t.err t.log) ∧ (err = none → t.err = none) := by
  induction k with
  | zero => intro pos err log t h; unfold trialS at h; cases h
  | succ k ih =>
    intro pos err log t h
    cases err with
    | none =>
      unfold trialS at h
      obtain ⟨t', ha, h⟩ := Parse.bind_ok h
      obtain ⟨k1, k2, k3⟩ := afterS_log ha
      split at h
      · injection h with h; subst h
        exact ⟨⟨[], by simp [k1], List.Pairwise.nil, (fun o ho => by cases ho), fun _ => rfl, fun h => absurd rfl h⟩, k2,
          fun _ => k3.elim id id⟩
      · cases h
    | some e0 =>
      unfold trialS at h
      cases ho : firstOcc U.lit (I.rest none pos) with
      | none => rw [ho] at h; dsimp only at h; split at h <;> cases h
      | some q =>
        rw [ho] at h
        dsimp only at h
        obtain ⟨h1, h2⟩ := firstOcc_room hne ho
        cases hh : runHook U.hook (some e0) (log ++ [.synced (pos + q)]) with
        | error x => rw [hh] at h; cases h
        | ok y =>
          rw [hh] at h
          dsimp only at h
          obtain ⟨t', ha, h⟩ := Parse.bind_ok h
          obtain ⟨k1, k2, k3⟩ := afterS_log ha
          have hfw := afterS_forward hF (by omega) ha
          obtain ⟨j1, j2, -⟩ := runHook_log hh
          have hs : syncs t'.log = syncs log ++ [pos + q] := by
            rw [k1, j1, syncs_append]; simp [syncs]
          have hset : Settled t'.err t'.log := k2 (Settled.hook hh (fun hn => by cases hn))
          split at h
          · injection h with h; subst h
            refine ⟨⟨[pos + q], hs, List.pairwise_singleton _ _, ?_, (fun h => by cases h), fun _ => ⟨q, rfl, rfl⟩⟩, fun _ => hset,
              (fun h => by cases h)⟩
            intro o ho
            rw [List.mem_singleton] at ho
            subst ho
            exact ⟨by omega, h2⟩
          · split at h
            · obtain ⟨⟨offs, o1, o2, o3, -, -⟩, o4, -⟩ := ih h
              refine ⟨⟨(pos + q) :: offs, by rw [o1, hs]; simp, ?_, ?_, (fun h => by cases h), fun _ => ⟨q, rfl, rfl⟩⟩, fun _ => o4 hset,
                (fun h => by cases h)⟩
              · rw [List.pairwise_cons]
                exact ⟨fun o ho => by have := (o3 o ho).1; omega, o2⟩
              · intro o ho
                rcases List.mem_cons.1 ho with ho | ho
                · subst ho; exact ⟨by omega, h2⟩
                · have := o3 o ho; exact ⟨by omega, this.2⟩
            · cases h

theorem unitS_log {trim : Bool} {U : SyncUnit} (hne : U.lit ≠ []) (hF : U.after.Ok trim) {t : Place} (h : unitS U I = .ok t) :
    ∃ b, fieldsS I U.before 0 none [] = .ok b ∧ (syncs t.log).Pairwise (· < ·) ∧
      (∀ o ∈ syncs t.log, b.pos ≤ o ∧ U.lit <+: I.rest none o) ∧ Settled t.err t.log ∧
      (b.stopped = none → syncs t.log = [] ∧ t.err = none) ∧
      (b.stopped ≠ none → ∃ q, firstOcc U.lit (I.rest none b.pos) = some q ∧ (syncs t.log).head? = some (b.pos + q)) := by
  unfold unitS at h
  obtain ⟨b, hb, h⟩ := Parse.bind_ok h
  obtain ⟨b1, b2, b3⟩ := fieldsS_log U.before hb
  have b1 : syncs b.log = [] := b1
  have b3 : b.err = none := b3.elim id id
  refine ⟨b, hb, ?_⟩
  cases hst : b.stopped with
  | none =>
    rw [hst, b3] at h
    obtain ⟨⟨offs, o1, o2, o3, o4, o5⟩, o6, o7⟩ := trialS_log hne hF _ h
    have o4 := o4 rfl
    subst o4
    rw [b1] at o1
    rw [o1]
    exact ⟨List.Pairwise.nil, (fun o ho => by cases ho), o6 (fun _ => Or.inl b1), fun _ => ⟨rfl, o7 rfl⟩, fun h => absurd rfl h⟩
  | some x =>
    rw [hst] at h
    obtain ⟨⟨offs, o1, o2, o3, o4, o5⟩, o6, -⟩ := trialS_log hne hF _ h
    rw [b1, List.nil_append] at o1
    rw [o1]
    exact ⟨o2, o3, o6 (fun h => by cases h), (fun h => by cases h), fun _ => o5 (fun h => by cases h)⟩

/-- What the host is told about a unit that was parsed to its end. -/
def ListResult.log? : ListResult → Option (List Ev)
  | .list log _ => some log
  | .unconfirmed log _ => some log
  | _ => none

theorem log?_unitS {U : SyncUnit} {log : List Ev} (h : (expectedUnit U I).log? = some log) : ∃ t, unitS U I = .ok t ∧ t.log = log := by
  unfold expectedUnit unitResult at h
  cases hu : unitS U I with
  | ok t =>
    rw [hu] at h
    dsimp only at h
    refine ⟨t, rfl, ?_⟩
    split at h <;> (injection h with h)
  | fail e => rw [hu] at h; cases h
  | more => rw [hu] at h; cases h
  | diverge => rw [hu] at h; cases h

/-- C65. The unit is only ever resumed where the marked literal is, each time further on in the input. -/
theorem C65_resumes_at_literal {trim : Bool} {U : SyncUnit} (hne : U.lit ≠ []) (hF : U.after.Ok trim) {log : List Ev}
    (h : (expectedUnit U I).log? = some log) :
    (∀ o ∈ syncs log, U.lit <+: I.data.drop o) ∧ (syncs log).Pairwise (· < ·) := by
  obtain ⟨t, h1, rfl⟩ := log?_unitS h
  obtain ⟨b, -, h2, h3, -⟩ := unitS_log hne hF h1
  refine ⟨fun o ho => ?_, h2⟩
  have := (h3 o ho).2
  unfold Input.rest at this
  rw [stop_none, List.take_length] at this
  exact this

/-- C65. A unit that was synchronized is only a success if a hook has confirmed. -/
theorem C65_success_is_confirmed {trim : Bool} {U : SyncUnit} (hne : U.lit ≠ []) (hF : U.after.Ok trim) {log : List Ev} {pos : Nat}
    (h : expectedUnit U I = .list log pos) : syncs log = [] ∨ Ev.confirmed ∈ log := by
  unfold expectedUnit unitResult at h
  cases hu : unitS U I with
  | ok t =>
    rw [hu] at h
    dsimp only at h
    split at h
    · cases h
    · rename_i hE
      injection h with h1 h2
      subst h1
      obtain ⟨b, -, -, -, hs, -⟩ := unitS_log hne hF hu
      exact hs (by cases he : t.err with
        | none => rfl
        | some x => rw [he] at hE; exact absurd rfl hE)
  | fail e => rw [hu] at h; cases h
  | more => rw [hu] at h; cases h
  | diverge => rw [hu] at h; cases h

/-! ## Units without errors before the literal -/

/-- Fields of a unit without `&synchronize`: the first error is the error of the unit. -/
def plainFields (I : Input) : Fields → Nat → List Ev → SRes (Nat × List Ev)
  | .done, pos, log => .ok (pos, log)
  | .field g hook rest, pos, log => do
    let r ← bodyS g I none pos
    if hook r.1 = .reject then .fail .parseError else plainFields I (rest r.1) r.2 (log ++ [.value r.1])

/-- The same unit without `&synchronize`. -/
def plainUnit (U : SyncUnit) (I : Input) : ListResult :=
  match (do
    let b ← plainFields I U.before 0 []
    let r ← bodyS (.lit U.lit) I none b.1
    plainFields I U.after r.2 (b.2 ++ [.value r.1]) : SRes (Nat × List Ev)) with
  | .ok r => .list r.2 r.1
  | .fail x => .error x
  | .more => .waiting
  | .diverge => .runsOn

/-- How fields and plain fields correspond when there is no error to confirm. -/
theorem fieldsS_plain (F : Fields) : ∀ (pos : Nat) (log : List Ev), match plainFields I F pos log with
    | .ok r => fieldsS I F pos none log = .ok ⟨r.1, none, r.2, none⟩
    | .fail x => (recoverable x = true ∧ ∃ p l, fieldsS I F pos none log = .ok ⟨p, none, l, some x⟩) ∨
        (recoverable x = false ∧ fieldsS I F pos none log = .fail x)
    | .more => fieldsS I F pos none log = .more
    | .diverge => fieldsS I F pos none log = .diverge := by
  induction F with
  | done => intro pos log; rfl
  | field g hook rest ih =>
    intro pos log
    unfold plainFields fieldsS
    cases hr : bodyS g I none pos with
    | ok r =>
      dsimp only [SRes.ok_bind]
      cases hk : hook r.1 with
      | nothing =>
        rw [if_neg (fun h => by cases h)]
        exact ih r.1 r.2 (log ++ [.value r.1])
      | confirm =>
        rw [if_neg (fun h => by cases h)]
        exact ih r.1 r.2 (log ++ [.value r.1])
      | reject =>
        rw [if_pos rfl]
        exact Or.inl ⟨rfl, _, _, rfl⟩
    | fail x =>
      show (recoverable x = true ∧ _) ∨ (recoverable x = false ∧ _)
      dsimp only
      cases hx : recoverable x with
      | true => exact Or.inl ⟨rfl, pos, log, by simp⟩
      | false => exact Or.inr ⟨rfl, by simp⟩
    | more => rfl
    | diverge => rfl

/-- C65. If no field before the literal fails (with an error one can recover from), `&synchronize` changes nothing: neither
    for units without errors nor for errors after the literal. -/
theorem C65_no_error_no_change {U : SyncUnit} (h : ∀ x, plainFields I U.before 0 [] = .fail x → recoverable x = false) :
    expectedUnit U I = plainUnit U I := by
  unfold expectedUnit plainUnit unitS
  have hb := fieldsS_plain (I := I) U.before 0 []
  cases hp : plainFields I U.before 0 [] with
  | ok r =>
    rw [hp] at hb
    dsimp only at hb
    rw [hb]
    dsimp only [SRes.ok_bind]
    unfold trialS afterS
    have hl : bodyS (.lit U.lit) I none r.1 = (I.has none r.1 U.lit.length >>= fun h =>
        if h = true then if U.lit <+: I.rest none r.1 then .ok (.bytes U.lit, r.1 + U.lit.length) else .fail .parseError
        else .fail .parseError) := by
      simp only [bodyS, evalWith]
    rw [hl]
    rcases has_cases I none r.1 U.lit.length with ⟨h1, -⟩ | ⟨h1, -, -⟩ | ⟨h1, -, -⟩
    · rw [h1]
      dsimp only [SRes.ok_bind]
      rw [if_pos rfl]
      by_cases hpre : U.lit <+: I.rest none r.1
      · rw [if_pos hpre, if_pos hpre]
        dsimp only [SRes.ok_bind]
        have ha := fieldsS_plain (I := I) U.after (r.1 + U.lit.length) (r.2 ++ [.value (.bytes U.lit)])
        cases hpa : plainFields I U.after (r.1 + U.lit.length) (r.2 ++ [.value (.bytes U.lit)]) with
        | ok y => rw [hpa] at ha; dsimp only at ha; rw [ha]; rfl
        | fail x =>
          rw [hpa] at ha
          rcases ha with ⟨-, p, l, ha⟩ | ⟨-, ha⟩ <;> rw [ha] <;> rfl
        | more => rw [hpa] at ha; dsimp only at ha; rw [ha]; rfl
        | diverge => rw [hpa] at ha; dsimp only at ha; rw [ha]; rfl
      · rw [if_neg hpre, if_neg hpre]; rfl
    · rw [h1]; rfl
    · rw [h1]; rfl
  | fail x =>
    rw [hp] at hb
    rcases hb with ⟨hx, -⟩ | ⟨-, hb⟩
    · rw [h x hp] at hx; cases hx
    · rw [hb]; rfl
  | more => rw [hp] at hb; dsimp only at hb; rw [hb]; rfl
  | diverge => rw [hp] at hb; dsimp only at hb; rw [hb]; rfl

/-- C65. If a field before the literal fails, the unit is resumed, if at all, at the first place from there on where the literal is. -/
theorem C65_resumes_at_first {trim : Bool} {U : SyncUnit} (hne : U.lit ≠ []) (hF : U.after.Ok trim) {b : Place} {x : Exn}
    (hb : fieldsS I U.before 0 none [] = .ok b) (hx : b.stopped = some x) :
    match firstOcc U.lit (I.rest none b.pos) with
    | none => expectedUnit U I = if I.complete none then .error .parseError else .waiting
    | some q => ∀ log, (expectedUnit U I).log? = some log → (syncs log).head? = some (b.pos + q) := by
  cases ho : firstOcc U.lit (I.rest none b.pos) with
  | none =>
    dsimp only
    unfold expectedUnit unitS
    rw [hb]
    dsimp only [SRes.ok_bind]
    rw [hx]
    dsimp only
    unfold trialS
    rw [ho]
    dsimp only
    cases I.complete none <;> rfl
  | some q =>
    intro log h
    obtain ⟨t, h1, rfl⟩ := log?_unitS h
    obtain ⟨b', h2, -, -, -, -, h3⟩ := unitS_log hne hF h1
    rw [hb] at h2
    injection h2 with h2
    subst h2
    obtain ⟨q', h4, h5⟩ := h3 (by rw [hx]; exact fun h => by cases h)
    rw [ho] at h4
    injection h4 with h4
    subst h4
    exact h5

end Verif.Sync
