import Verif.Filter.Chunks
import Verif.Driver.Owning
/-!
# Filters: the machine does what the specification says
-/

namespace Verif.Filter
open Verif.Stream Verif.Parse

/-- The schedule never gets longer. -/
theorem len_rules (N : Nat) : Driver.Rules (fun _ s => s.length ≤ N) (fun _ => True) := by
  refine ⟨?_, fun _ _ _ h => h, ?_⟩
  · intro cur old c s h
    induction s generalizing c with
    | nil =>
      unfold waitLoop
      cases cur.isComplete c with
      | ok b => cases b <;> first | exact h | trivial
      | throw e => exact h
      | ub => trivial
    | cons it s ih =>
      have h' : s.length ≤ N := by simp only [List.length_cons] at h; omega
      unfold waitLoop
      cases cur.isComplete c with
      | ok b =>
        cases b with
        | true => exact h
        | false =>
          dsimp only
          cases cur.size (c.run it.ops) with
          | ok n =>
            dsimp only
            split
            · exact ih _ h'
            · exact h'
          | throw e => exact h'
          | ub => trivial
      | throw e => exact h
      | ub => trivial
  · intro bs g hg t v c s hq
    unfold parseFromP
    cases wholeView (Chain.ofBytes bs).freeze with
    | ok w =>
      dsimp only
      cases g false w (Chain.ofBytes bs).freeze [] with
      | done r _ _ => exact hq
      | throw e _ _ => exact hq
      | suspended _ => trivial
      | diverge => trivial
      | ub => trivial
    | throw e => exact hq
    | ub => trivial

theorem run_len_done {Γ : Nat → G} {f : Nat} {g : G} {t : Bool} {v : View} {c c' : Chain} {s s' : Sched} {r : Val × View}
    (h : run Γ f g t v c s = .done r c' s') : s'.length ≤ s.length := by
  have := Driver.good_run (len_rules s.length) Γ f g t v c s (Nat.le_refl _)
  rw [h] at this; exact this

theorem run_len_throw {Γ : Nat → G} {f : Nat} {g : G} {t : Bool} {v : View} {c c' : Chain} {s s' : Sched} {e : Exn}
    (h : run Γ f g t v c s = .throw e c' s') : s'.length ≤ s.length := by
  have := Driver.good_run (len_rules s.length) Γ f g t v c s (Nat.le_refl _)
  rw [h] at this; exact this

/-- A parser that waits has not seen the end of the data. -/
theorem not_closed {Γ : Nat → G} {f : Nat} {g : G} {t : Bool} {v : View} {c c' : Chain} {s : Sched} {I : Input} (env : Env I c s)
    (h : run Γ f g t v c s = .suspended c') : I.closed = false := by
  cases hc : I.closed with
  | false => rfl
  | true =>
    have hq : Driver.Closed c s := ⟨env.live, by have := env.closed; rw [hc] at this; simpa [Chain.isFrozen] using this.symm⟩
    have := Driver.good_run Driver.closed_rules Γ f g t v c s hq
    rw [h] at this
    exact absurd this (by simp [Driver.Post])

/-- If a filter fails with `e'`, it may throw `e`. (A filter that goes on after closing its output may get another exception than
    `Frozen`, depending on how its input is cut up.) -/
def Throws (e' e : Exn) : Prop := e' = e ∨ e' = .frozen

/-- What a filter's fiber does, in terms of all the data there will be. -/
def ExecSim (closed fz : Bool) (len : Nat) (r : List Ev × End) (x : Effect) : Prop :=
  Tidy fz r.1 ∧ match r.2 with
  | .waiting => x = ⟨⟨bytesOf r.1, fz || eodIn r.1⟩, .waits⟩ ∧ Tagged 0 len r.1 ∧ closed = false
  | .finished m => x = ⟨⟨bytesOf r.1, true⟩, .done⟩ ∧ eodIn r.1 = true ∧ m ≤ len ∧ Tagged m len r.1
  | .threw e m => (∃ e', x.fate = .fails e' ∧ Throws e' e) ∧ m ≤ len ∧ Tagged m len r.1 ∧
      Input.Le ⟨bytesOf r.1, fz || eodIn r.1⟩ x.out
  | .diverge => x.fate = .runsOn
  | .ub => False

theorem Le.after {bs : List Byte} {a b : Input} (h : Input.Le a b) : Input.Le ⟨bs ++ a.data, a.closed⟩ ⟨bs ++ b.data, b.closed⟩ := by
  rcases h with rfl | ⟨h1, h2⟩
  · exact Or.inl rfl
  · exact Or.inr ⟨h1, (List.prefix_append_right_inj _).mpr h2⟩

/-- Going on after having forwarded something. -/
theorem ExecSim.after {cl fz fz' : Bool} {len len' : Nat} {evs : List Ev} {r : List Ev × End} {x : Effect} (bs : List Byte)
    (h : ExecSim cl fz' len' r x) (hb : bytesOf evs = bs) (ht : Tidy fz evs) (hf : fz' = (fz || eodIn evs)) (hg : Tagged len' len evs)
    (hl : len' ≤ len) : ExecSim cl fz len (evs ++ r.1, r.2) (x.after bs) := by
  subst hf
  obtain ⟨h1, h2⟩ := h
  refine ⟨by rw [tidy_append]; exact ⟨ht, h1⟩, ?_⟩
  dsimp only
  obtain ⟨revs, en⟩ := r
  dsimp only at h1 h2 ⊢
  rw [bytesOf_append, eodIn_append, hb, ← Bool.or_assoc]
  cases en with
  | waiting =>
    obtain ⟨k1, k2, k3⟩ := h2
    rw [k1]
    exact ⟨rfl, Tagged.append hg k2 (Nat.zero_le _) hl, k3⟩
  | finished m =>
    obtain ⟨k1, k2, k3, k4⟩ := h2
    rw [k1, k2]
    exact ⟨rfl, by simp, Nat.le_trans k3 hl, Tagged.append hg k4 k3 hl⟩
  | threw e m =>
    obtain ⟨k1, k2, k3, k4⟩ := h2
    exact ⟨k1, Nat.le_trans k2 hl, Tagged.append hg k3 k2 hl, Le.after k4⟩
  | diverge => exact h2
  | ub => exact h2

/-- A hook that forwards something, and what comes then. -/
theorem emit_sim {cl fz : Bool} {len len' : Nat} (l : List Fwd) (hl : len' ≤ len) (kr : Bool → List Ev × End) (kx : Bool → Effect)
    (h : ∀ fz', ExecSim cl fz' len' (kr fz') (kx fz')) :
    ExecSim cl fz len (match emit len' fz l with
      | (evs, .ok fz') => (evs ++ (kr fz').1, (kr fz').2)
      | (evs, .error e) => (evs, .threw e len')) (match forwarded fz l with
      | (bs, .ok fz') => (kx fz').after bs
      | (bs, .error e) => ⟨⟨bs, true⟩, .fails e⟩) := by
  obtain ⟨h1, h2, h3, h4, h5, h6⟩ := emit_spec len' l fz
  cases he : emit len' fz l with
  | mk evs r =>
    cases hf : forwarded fz l with
    | mk bs r' =>
      rw [he, hf] at h1 h2
      rw [he] at h3 h4 h5 h6
      dsimp only at h1 h2 h3 h4 h5 h6
      subst h2
      cases r with
      | ok fz' => exact ExecSim.after bs (h fz') h1 h3 (h5 fz' rfl) (h4.mono hl) hl
      | error e =>
        refine ⟨h3, ⟨e, rfl, Or.inl rfl⟩, hl, h4.mono hl, ?_⟩
        rw [h6 e rfl, h1]
        exact Or.inl rfl

theorem exec_sim {Γ : Nat → G} (hΓ : ∀ i, Parse.Sound (Γ i)) (f : Nat) {F : Filter} (hF : F.Sound) {I : Input}
    (hlen : I.data.length < 2 ^ 64 - 1) {lim : Option Nat} (n : Nat) : ∀ (st : F.σ) (fz : Bool) {v : View} {pos : Nat} {c : Chain} {s : Sched},
    Env I c s → At c v pos lim →
    ExecSim I.closed fz s.length (exec Γ f F n st fz v c s) (effect Γ f F I lim n st fz pos) := by
  induction n with
  | zero => intro st fz v pos c s env a; exact ⟨trivial, rfl⟩
  | succ n ih =>
    intro st fz v pos c s env a
    have hu : exec Γ f F (n + 1) st fz v c s = (match F.next st with
      | .finish => ([(s.length, .eod)], .finished s.length)
      | .parse g k => match run Γ f g true v c s with
        | .done r c1 s1 => match emit s1.length fz (k r.1).1 with
          | (evs, .ok fz') =>
            (evs ++ (exec Γ f F n (k r.1).2 fz' r.2 c1 s1).1, (exec Γ f F n (k r.1).2 fz' r.2 c1 s1).2)
          | (evs, .error e) => (evs, .threw e s1.length)
        | .throw e _ s1 => ([], .threw e s1.length)
        | .suspended _ => ([], .waiting)
        | .diverge => ([], .diverge)
        | .ub => ([], .ub)
      | .chunks piece k => match chunkLoop piece (s.length + 2) st fz v c s with
        | (evs, .stop e) => (evs, e)
        | (evs, .done st1 cur1 c1 s1) => match emit s1.length fz (k st1).1 with
          | (evs', .ok fz') => (evs ++ (evs' ++ (exec Γ f F n (k st1).2 fz' cur1 c1 s1).1), (exec Γ f F n (k st1).2 fz' cur1 c1 s1).2)
          | (evs', .error e) => (evs ++ evs', .threw e s1.length)) := rfl
    have hx : effect Γ f F I lim (n + 1) st fz pos = (match F.next st with
      | .finish => ⟨⟨[], true⟩, .done⟩
      | .parse g k => match eval Γ f g I lim pos with
        | .ok r => match forwarded fz (k r.1).1 with
          | (bs, .ok fz') => (effect Γ f F I lim n (k r.1).2 fz' r.2).after bs
          | (bs, .error e) => ⟨⟨bs, true⟩, .fails e⟩
        | .fail e => ⟨⟨[], fz⟩, .fails e⟩
        | .more => ⟨⟨[], fz⟩, .waits⟩
        | .diverge => ⟨⟨[], fz⟩, .runsOn⟩
      | .chunks piece k => match feed piece fz st (I.rest lim pos) with
        | (bs, .error e) => ⟨⟨bs, fz⟩, .fails e⟩
        | (bs, .ok st') =>
          if I.complete lim then match forwarded fz (k st').1 with
            | (bs', .ok fz') => (effect Γ f F I lim n (k st').2 fz' (I.stop lim)).after (bs ++ bs')
            | (bs', .error e) => ⟨⟨bs ++ bs', true⟩, .fails e⟩
          else ⟨⟨bs, fz⟩, .waits⟩) := rfl
    rw [hu, hx]
    cases hn : F.next st with
    | finish =>
      dsimp only
      exact ⟨trivial, rfl, rfl, Nat.le_refl _, Nat.le_refl _, Nat.le_refl _, trivial⟩
    | parse g k =>
      dsimp only
      have sim := run_refines hΓ f (hF.parse st g k hn) I hlen lim true v pos c s env a
      cases hr : eval Γ f g I lim pos with
      | ok r =>
        rw [hr] at sim
        obtain ⟨v', c', s', h1, h2, -, h4⟩ := sim
        rw [h1]
        dsimp only
        exact emit_sim _ (run_len_done h1) (fun fz' => exec Γ f F n (k r.1).2 fz' v' c' s')
          (fun fz' => effect Γ f F I lim n (k r.1).2 fz' r.2) (fun fz' => ih _ fz' h2 h4)
      | fail e =>
        rw [hr] at sim
        obtain ⟨c', s', h1, -⟩ := sim
        rw [h1]
        exact ⟨trivial, ⟨e, rfl, Or.inl rfl⟩, run_len_throw h1, trivial, Or.inl (by simp [bytesOf, eodIn])⟩
      | more =>
        rw [hr] at sim
        obtain ⟨c', h1⟩ := sim
        rw [h1]
        exact ⟨trivial, by simp [bytesOf, eodIn], trivial, not_closed env h1⟩
      | diverge =>
        rw [hr] at sim
        rw [show run Γ f g true v c s = .diverge from sim]
        exact ⟨trivial, rfl⟩
    | chunks piece k =>
      dsimp only
      have hs : s.length + (if stopNow c lim = pos then 0 else 1) < s.length + 2 := by split <;> omega
      obtain ⟨q1, q2, q3⟩ := chunk_sim (I := I) (hF.chunks st piece k hn) (s.length + 2) st fz env a hs
      cases hc : chunkLoop piece (s.length + 2) st fz v c s with
      | mk evs r =>
        rw [hc] at q1 q2 q3
        dsimp only at q1 q2 q3
        cases r with
        | done st' v' c' s' =>
          obtain ⟨k1, k2, k3, k4, k5, k6⟩ := q3
          dsimp only
          rw [k1]
          dsimp only
          rw [if_pos k2]
          have hm := emit_sim (fz := fz) (len := s'.length) (k st').1 (Nat.le_refl _) (fun fz' => exec Γ f F n (k st').2 fz' v' c' s')
            (fun fz' => effect Γ f F I lim n (k st').2 fz' (I.stop lim)) (fun fz' => ih _ fz' k3 k4)
          have := ExecSim.after (fz := fz) (len := s.length) (evs := evs) (bytesOf evs) hm rfl q1 (by rw [q2, Bool.or_false]) k6 k5
          cases hem : emit s'.length fz (k st').1 with
          | mk evs' r1 =>
            cases hfo : forwarded fz (k st').1 with
            | mk bs' r2 =>
              obtain ⟨-, e2, -⟩ := emit_spec s'.length (k st').1 fz
              rw [hem, hfo] at e2
              dsimp only at e2
              subst e2
              rw [hem, hfo] at this
              cases r1 with
              | ok fz' =>
                dsimp only at this ⊢
                have hh : ∀ x : Effect, (x.after bs').after (bytesOf evs) = x.after (bytesOf evs ++ bs') := by
                  intro x; simp only [Effect.after, List.append_assoc]
                rw [hh] at this
                exact this
              | error e => exact this
        | stop en =>
          cases en with
          | waiting =>
            obtain ⟨⟨st', k1⟩, k2, k3⟩ := q3
            dsimp only
            rw [k1]
            dsimp only
            rw [k2, if_neg (by simp)]
            exact ⟨q1, by simp [q2], k3, by unfold Input.complete at k2; simp only [Bool.or_eq_false_iff] at k2; exact k2.1⟩
          | threw e m =>
            obtain ⟨⟨o, e', k1, k2, k3⟩, k4, k5⟩ := q3
            dsimp only
            rw [k1]
            refine ⟨q1, ⟨e', rfl, k2⟩, k4, k5, ?_⟩
            dsimp only
            rw [q2, Bool.or_false]
            cases fz with
            | false => exact Or.inr ⟨rfl, k3⟩
            | true =>
              have h0 := feed_closed (piece := piece) st (I.rest lim pos)
              rw [k1] at h0
              dsimp only at h0
              rw [h0, tidy_true q1]
              exact Or.inl rfl
          | finished m => exact absurd q3 (by simp)
          | diverge => exact absurd q3 (by simp)
          | ub => exact absurd q3 (by simp)

end Verif.Filter
