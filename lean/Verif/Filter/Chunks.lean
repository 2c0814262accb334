import Verif.Filter.Events
import Verif.Driver.Shape
/-!
# Filters: the loop over pieces of data
-/

namespace Verif.Filter
open Verif.Stream Verif.Parse

variable {σ : Type} {piece : σ → List Byte → Except Exn (List Byte × σ)}

/-- A piece has the effect of two smaller ones. -/
def Law (piece : σ → List Byte → Except Exn (List Byte × σ)) : Prop := ∀ s a b, a ≠ [] → b ≠ [] →
    piece s (a ++ b) = (do
      let x ← piece s a
      let y ← piece x.2 b
      .ok (x.1 ++ y.1, y.2))

theorem feed_nil (fz : Bool) (st : σ) : feed piece fz st [] = ([], .ok st) := rfl

theorem feed_cons (fz : Bool) (st : σ) (b : Byte) (bs : List Byte) : feed piece fz st (b :: bs) = (match piece st [b] with
    | .ok x =>
      if x.1 ≠ [] ∧ fz = true then ([], .error .frozen) else (x.1 ++ (feed piece fz x.2 bs).1, (feed piece fz x.2 bs).2)
    | .error e => ([], .error e)) := rfl

/-- Nothing gets through a closed output. -/
theorem feed_closed (st : σ) (bs : List Byte) : (feed piece true st bs).1 = [] := by
  induction bs generalizing st with
  | nil => rfl
  | cons b bs ih =>
    rw [feed_cons]
    cases piece st [b] with
    | error e => rfl
    | ok x =>
      dsimp only
      by_cases hx : x.1 = []
      · rw [if_neg (fun h => h.1 hx)]
        simp only [hx, ih, List.append_nil]
      · rw [if_pos ⟨hx, rfl⟩]

theorem feed_append (fz : Bool) (st : σ) (a b : List Byte) : feed piece fz st (a ++ b) = (match feed piece fz st a with
    | (o, .ok st') => (o ++ (feed piece fz st' b).1, (feed piece fz st' b).2)
    | (o, .error e) => (o, .error e)) := by
  induction a generalizing st with
  | nil => simp only [List.nil_append, feed_nil]
  | cons x a ih =>
    rw [List.cons_append, feed_cons, feed_cons]
    cases piece st [x] with
    | error e => rfl
    | ok y =>
      dsimp only
      split
      · rfl
      · rw [ih]
        cases hf : feed piece fz y.2 a with
        | mk o r =>
          cases r with
          | ok st' => simp only [List.append_assoc]
          | error e => rfl

/-- A piece and its bytes. -/
theorem piece_feed (law : Law piece) (fz : Bool) (bs : List Byte) (hb : bs ≠ []) : ∀ st : σ,
    (∀ x, piece st bs = .ok x → ¬ (x.1 ≠ [] ∧ fz = true) → feed piece fz st bs = (x.1, .ok x.2)) ∧
    (∀ x, piece st bs = .ok x → x.1 ≠ [] ∧ fz = true → feed piece fz st bs = ([], .error .frozen)) ∧
    (∀ e, piece st bs = .error e → ∃ o e', feed piece fz st bs = (o, .error e') ∧ (e' = e ∨ e' = .frozen)) := by
  induction bs with
  | nil => exact absurd rfl hb
  | cons b bs ih =>
    intro st
    rw [feed_cons]
    by_cases hbs : bs = []
    · subst hbs
      refine ⟨fun x hx hn => ?_, fun x hx hp => ?_, fun e he => ?_⟩
      · rw [hx]; dsimp only; rw [if_neg hn, feed_nil]; simp
      · rw [hx]; dsimp only; rw [if_pos hp]
      · rw [he]; exact ⟨[], e, rfl, Or.inl rfl⟩
    · have hl := law st [b] bs (by simp) hbs
      rw [List.singleton_append] at hl
      rw [hl]
      cases h1 : piece st [b] with
      | error e =>
        refine ⟨fun x hx => ?_, fun x hx => ?_, fun e' he => ?_⟩
        · cases hx
        · cases hx
        · injection he with he; subst he; exact ⟨[], e, rfl, Or.inl rfl⟩
      | ok y =>
        obtain ⟨i1, i2, i3⟩ := ih hbs y.2
        dsimp only
        cases h2 : piece y.2 bs with
        | error e =>
          refine ⟨fun x hx => ?_, fun x hx => ?_, fun e' he => ?_⟩
          · simp only [bind, Except.bind, h2] at hx; cases hx
          · simp only [bind, Except.bind, h2] at hx; cases hx
          · simp only [bind, Except.bind, h2] at he
            injection he with he; subst he
            obtain ⟨o, e'', j1, j2⟩ := i3 e h2
            by_cases hp : y.1 ≠ [] ∧ fz = true
            · rw [if_pos hp]; exact ⟨[], _, rfl, Or.inr rfl⟩
            · rw [if_neg hp, j1]; exact ⟨_, e'', rfl, j2⟩
        | ok z =>
          refine ⟨fun x hx hn => ?_, fun x hx hp => ?_, fun e' he => ?_⟩
          · simp only [bind, Except.bind, h2] at hx
            injection hx with hx; subst hx
            have hy : ¬ (y.1 ≠ [] ∧ fz = true) := fun h => hn ⟨by simp [h.1], h.2⟩
            have hz : ¬ (z.1 ≠ [] ∧ fz = true) := fun h => hn ⟨by simp [h.1], h.2⟩
            rw [if_neg hy, i1 z h2 hz]
          · simp only [bind, Except.bind, h2] at hx
            injection hx with hx; subst hx
            by_cases hy : y.1 ≠ [] ∧ fz = true
            · rw [if_pos hy]
            · have hy0 : y.1 = [] := Classical.byContradiction (fun h => hy ⟨h, hp.2⟩)
              have hz : z.1 ≠ [] ∧ fz = true := ⟨fun h => hp.1 (by simp [hy0, h]), hp.2⟩
              rw [if_neg hy, i2 z h2 hz, hy0]
              rfl
          · simp only [bind, Except.bind, h2] at he; cases he

/-- What the loop does, in terms of all the data there will be. -/
def ChunkSim (I : Input) (lim : Option Nat) (piece : σ → List Byte → Except Exn (List Byte × σ)) (st : σ) (fz : Bool) (pos : Nat)
    (len : Nat) (r : List Ev × COut σ) : Prop :=
  Tidy fz r.1 ∧ eodIn r.1 = false ∧ match r.2 with
  | .done st' v' c' s' => feed piece fz st (I.rest lim pos) = (bytesOf r.1, .ok st') ∧ I.complete lim = true ∧ Env I c' s' ∧
      At c' v' (I.stop lim) lim ∧ s'.length ≤ len ∧ Tagged s'.length len r.1
  | .stop .waiting => (∃ st', feed piece fz st (I.rest lim pos) = (bytesOf r.1, .ok st')) ∧ I.complete lim = false ∧ Tagged 0 len r.1
  | .stop (.threw e m) => (∃ o e', feed piece fz st (I.rest lim pos) = (o, .error e') ∧ (e' = e ∨ e' = .frozen) ∧ bytesOf r.1 <+: o) ∧
      m ≤ len ∧ Tagged m len r.1
  | .stop _ => False

theorem emit_data (m : Nat) (fz : Bool) (bs : List Byte) : emit m fz [.data bs] =
    if bs = [] then ([], .ok fz) else if fz then ([], .error .frozen) else ([(m, .data bs)], .ok fz) := by
  simp only [emit]

theorem takeAll_spec {I : Input} {v : View} {pos : Nat} {lim : Option Nat} {c : Chain} {s : Sched} (env : Env I c s) (a : At c v pos lim) :
    ∃ v' c', takeAll v c s = .done ((I.rest lim pos).take (stopNow c lim - pos), v') c' s ∧ Env I c' s ∧
      At c' v' (stopNow c lim) lim ∧ stopNow c' lim = stopNow c lim := by
  have hp := a.pos_le
  obtain ⟨v2, c2, h1, h2, h3, h4, h5, h6⟩ := advanceInput_spec true env a (n := stopNow c lim - pos) (by omega)
  have hpe : pos + (stopNow c lim - pos) = stopNow c lim := by omega
  rw [hpe] at h4
  refine ⟨v2, c2, ?_, h2, h4, stopNow_eq h5 lim⟩
  unfold takeAll
  rw [P.bind_done (P.read_ok (a.data env) s), P.bind_done (P.read_ok (a.size env) s), P.bind_done h1, now_rest env]
  rfl

theorem chunk_sim {I : Input} (law : Law piece) (f : Nat) : ∀ {lim : Option Nat} {v : View} {pos : Nat} {c : Chain} {s : Sched}
    (st : σ) (fz : Bool), Env I c s → At c v pos lim → s.length + (if stopNow c lim = pos then 0 else 1) < f →
    ChunkSim I lim piece st fz pos s.length (chunkLoop piece f st fz v c s) := by
  induction f with
  | zero => intro lim v pos c s st fz env a hf; omega
  | succ f ih =>
    intro lim v pos c s st fz env a hf
    have hu : chunkLoop piece (f + 1) st fz v c s = (match waitMin v 1 c s with
      | .done true c1 s1 => match takeAll v c1 s1 with
        | .done r c2 s2 => match piece st r.1 with
          | .ok x => match emit s2.length fz [.data x.1] with
            | (evs, .ok fz') => (evs ++ (chunkLoop piece f x.2 fz' r.2 c2 s2).1, (chunkLoop piece f x.2 fz' r.2 c2 s2).2)
            | (evs, .error e) => (evs, .stop (.threw e s2.length))
          | .error e => ([], .stop (.threw e s2.length))
        | .throw e _ s2 => ([], .stop (.threw e s2.length))
        | .suspended _ => ([], .stop .waiting)
        | .diverge => ([], .stop .diverge)
        | .ub => ([], .stop .ub)
      | .done false c1 s1 => ([], .done st v c1 s1)
      | .throw e _ s1 => ([], .stop (.threw e s1.length))
      | .suspended _ => ([], .stop .waiting)
      | .diverge => ([], .stop .diverge)
      | .ub => ([], .stop .ub)) := rfl
    rw [hu]
    have hw := waitMin_spec 1 env a
    generalize waitMin v 1 c s = o at hw ⊢
    cases hw with
    | yes w1 w2 w3 w4 w5 w6 =>
      rename_i c' s'
      have a' := a.keep w3
      have hp := a'.pos_le
      obtain ⟨v2, c2, t1, t2, t3, t4⟩ := takeAll_spec w2 a'
      dsimp only
      rw [t1]
      dsimp only
      have hne : (I.rest lim pos).take (stopNow c' lim - pos) ≠ [] := by
        intro h0
        have := congrArg List.length h0
        have hst := stopNow_le_stop w2 lim
        rw [List.length_take, rest_length] at this
        simp only [List.length_nil] at this
        omega
      have hsplit : I.rest lim pos = (I.rest lim pos).take (stopNow c' lim - pos) ++ I.rest lim (stopNow c' lim) := by
        have : I.rest lim (stopNow c' lim) = (I.rest lim pos).drop (stopNow c' lim - pos) := by
          rw [rest_drop]; congr 1; omega
        rw [this, List.take_append_drop]
      obtain ⟨p1, p2, p3⟩ := piece_feed law fz _ hne st
      have hfa := feed_append (piece := piece) fz st ((I.rest lim pos).take (stopNow c' lim - pos)) (I.rest lim (stopNow c' lim))
      rw [← hsplit] at hfa
      cases hpc : piece st ((I.rest lim pos).take (stopNow c' lim - pos)) with
      | error e =>
        dsimp only
        obtain ⟨o, e', j1, j2⟩ := p3 e hpc
        rw [j1] at hfa
        exact ⟨trivial, rfl, ⟨o, e', hfa, j2, List.nil_prefix⟩, w5, trivial⟩
      | ok x =>
        dsimp only
        rw [emit_data]
        by_cases hp2 : x.1 ≠ [] ∧ fz = true
        · rw [if_neg hp2.1, if_pos hp2.2]
          rw [p2 x hpc hp2] at hfa
          exact ⟨trivial, rfl, ⟨[], _, hfa, Or.inr rfl, List.nil_prefix⟩, w5, trivial⟩
        · rw [p1 x hpc hp2] at hfa
          dsimp only at hfa
          have hlt : s'.length + (if stopNow c2 lim = stopNow c' lim then 0 else 1) < f := by
            rw [t4, if_pos rfl]
            by_cases hz : stopNow c lim = pos
            · have := w6 (by omega); omega
            · rw [if_neg hz] at hf; omega
          have hsim := ih x.2 fz t2 t3 hlt
          -- the events of this round
          have hev : ∃ evs, (if x.1 = [] then (([], .ok fz) : List Ev × Except Exn Bool) else if fz then ([], .error .frozen) else
              ([(s'.length, .data x.1)], .ok fz)) = (evs, .ok fz) ∧ bytesOf evs = x.1 ∧ Tidy fz evs ∧ eodIn evs = false ∧
              Tagged s'.length s'.length evs := by
            by_cases hx : x.1 = []
            · rw [if_pos hx]; exact ⟨[], rfl, hx.symm, trivial, rfl, trivial⟩
            · have hz : fz = false := by
                cases fz with
                | false => rfl
                | true => exact absurd ⟨hx, rfl⟩ hp2
              subst hz
              rw [if_neg hx, if_neg (by simp)]
              exact ⟨_, rfl, by simp [bytesOf], ⟨rfl, trivial⟩, rfl, ⟨Nat.le_refl _, Nat.le_refl _, trivial⟩⟩
          obtain ⟨evs, e1, e2, e3, e4, e5⟩ := hev
          rw [e1]
          dsimp only
          generalize chunkLoop piece f x.2 fz v2 c2 s' = r at hsim ⊢
          obtain ⟨q1, q2, q3⟩ := hsim
          refine ⟨?_, ?_, ?_⟩
          · rw [tidy_append]; exact ⟨e3, by rw [e4, Bool.or_false]; exact q1⟩
          · rw [eodIn_append, e4, q2]; rfl
          · dsimp only
            rw [bytesOf_append, e2]
            obtain ⟨revs, rr⟩ := r
            cases rr with
            | done st' v' c'' s'' =>
              obtain ⟨k1, k2, k3, k4, k5, k6⟩ := q3
              rw [k1] at hfa
              refine ⟨hfa, k2, k3, k4, Nat.le_trans k5 w5, ?_⟩
              exact Tagged.append (e5.mono w5) k6 k5 w5
            | stop en =>
              cases en with
              | waiting =>
                obtain ⟨⟨st', k1⟩, k2, k3⟩ := q3
                rw [k1] at hfa
                exact ⟨⟨st', hfa⟩, k2, Tagged.append (e5.mono w5) k3 (Nat.zero_le _) w5⟩
              | threw e m =>
                obtain ⟨⟨o, e', k1, k2, k3⟩, k4, k5⟩ := q3
                rw [k1] at hfa
                exact ⟨⟨x.1 ++ o, e', hfa, k2, (List.prefix_append_right_inj _).mpr k3⟩, Nat.le_trans k4 w5,
                  Tagged.append (e5.mono w5) k5 k4 w5⟩
              | finished m => exact q3
              | diverge => exact q3
              | ub => exact q3
    | no w1 w2 w3 w4 w5 =>
      rename_i c' s'
      have a' := a.keep w3
      have hp := a'.pos_le
      obtain ⟨k1, k2⟩ := complete_now w2 w4
      have hlt := has_false w1
      have hz : I.stop lim = pos := by omega
      have hr : I.rest lim pos = [] := List.eq_nil_of_length_eq_zero (by rw [rest_length]; omega)
      dsimp only
      refine ⟨trivial, rfl, ?_⟩
      dsimp only
      rw [hr, hz]
      exact ⟨rfl, k1, w2, a', w5, trivial⟩
    | wait w1 =>
      have hc := has_more w1
      have hr : I.rest lim pos = [] := by
        have hns : ¬ pos + 1 ≤ I.stop lim := by
          intro h
          unfold Input.has at w1
          rw [if_pos h] at w1
          cases w1
        exact List.eq_nil_of_length_eq_zero (by rw [rest_length]; omega)
      dsimp only
      refine ⟨trivial, rfl, ?_⟩
      dsimp only
      rw [hr]
      exact ⟨⟨st, rfl⟩, hc, trivial⟩

end Verif.Filter
