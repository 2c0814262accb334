import Verif.Parse.Sim3
/-! # Parsing: searching for a delimiter -/

namespace Verif.Parse
open Verif.Stream

variable {I : Input}

theorem firstOcc_cons_zero (needle : List Byte) (b : Byte) (r : List Byte) :
    OccursAt needle (b :: r) 0 ↔ needle <+: b :: r := by simp [OccursAt]

theorem occursAt_succ (needle : List Byte) (b : Byte) (r : List Byte) (q : Nat) :
    OccursAt needle (b :: r) (q + 1) ↔ OccursAt needle r q := by simp [OccursAt]

theorem firstOcc_spec (needle bs : List Byte) :
    (∃ p, firstOcc needle bs = some p ∧ OccursAt needle bs p ∧ ∀ q < p, ¬ OccursAt needle bs q) ∨
    (firstOcc needle bs = none ∧ ∀ q, ¬ OccursAt needle bs q) := by
  induction bs with
  | nil =>
    by_cases h : needle = []
    · exact Or.inl ⟨0, by simp [firstOcc, h], by simp [OccursAt, h], fun q hq => by omega⟩
    · exact Or.inr ⟨by simp [firstOcc, h], fun q hq => h (by simpa [OccursAt] using hq)⟩
  | cons b r ih =>
    by_cases h : needle <+: b :: r
    · exact Or.inl ⟨0, by simp [firstOcc, h], by simpa [OccursAt] using h, fun q hq => by omega⟩
    · rcases ih with ⟨p, h1, h2, h3⟩ | ⟨h1, h2⟩
      · refine Or.inl ⟨p + 1, by simp [firstOcc, h, h1], (occursAt_succ ..).2 h2, ?_⟩
        intro q hq hc
        cases q with
        | zero => exact h ((firstOcc_cons_zero ..).1 hc)
        | succ q => exact h3 q (by omega) ((occursAt_succ ..).1 hc)
      · refine Or.inr ⟨by simp [firstOcc, h, h1], ?_⟩
        intro q hc
        cases q with
        | zero => exact h ((firstOcc_cons_zero ..).1 hc)
        | succ q => exact h2 q ((occursAt_succ ..).1 hc)

theorem firstOcc_eq_some {needle bs : List Byte} {p : Nat} (h : OccursAt needle bs p)
    (h' : ∀ q < p, ¬ OccursAt needle bs q) : firstOcc needle bs = some p := by
  rcases firstOcc_spec needle bs with ⟨p', e, h1, h2⟩ | ⟨_, h1⟩
  · have a : ¬ p' < p := fun hl => h' p' hl h1
    have b : ¬ p < p' := fun hl => h2 p hl h
    rw [e]; congr 1; omega
  · exact absurd h (h1 p)

theorem firstOcc_eq_none {needle bs : List Byte} (h : ∀ q, ¬ OccursAt needle bs q) : firstOcc needle bs = none := by
  rcases firstOcc_spec needle bs with ⟨p', _, h1, _⟩ | ⟨e, _⟩
  · exact absurd h1 (h p')
  · exact e

theorem firstOcc_short {needle bs : List Byte} (h : bs.length < needle.length) : firstOcc needle bs = none := by
  apply firstOcc_eq_none
  intro q hq
  have := hq.length_le
  simp at this; omega

theorem firstOcc_shift {needle bs : List Byte} {k : Nat} (h : ∀ q, OccursAt needle bs q → k ≤ q) :
    firstOcc needle bs = (firstOcc needle (bs.drop k)).map (· + k) := by
  have key : ∀ q, OccursAt needle (bs.drop k) q ↔ OccursAt needle bs (q + k) := by
    intro q; unfold OccursAt; rw [List.drop_drop, Nat.add_comm]
  rcases firstOcc_spec needle (bs.drop k) with ⟨p, e, h1, h2⟩ | ⟨e, h1⟩
  · rw [e]
    refine firstOcc_eq_some ((key p).1 h1) (fun q hq hc => ?_)
    have := h q hc
    refine h2 (q - k) (by have : q < p + k := hq; omega) ((key _).2 ?_)
    rw [Nat.sub_add_cancel this]; exact hc
  · rw [e]
    refine firstOcc_eq_none (fun q hc => ?_)
    have := h q hc
    refine h1 (q - k) ((key _).2 ?_)
    rw [Nat.sub_add_cancel this]; exact hc

/-- The result of `find` on what is accessible now, in terms of all the data. -/
theorem find_now {c : Chain} {s : Sched} (env : Env I c s) {lim : Option Nat} {pos : Nat} {v : View}
    (a : At c v pos lim) (needle : List Byte) :
    (∃ p, v.find c needle = .ok (true, ⟨pos + p, c.suffixAt (pos + p)⟩) ∧ pos + p + needle.length ≤ stopNow c lim ∧
      firstOcc needle (I.rest lim pos) = some p) ∨
    (∃ p, v.find c needle = .ok (false, ⟨pos + p, c.suffixAt (pos + p)⟩) ∧ pos + p ≤ stopNow c lim ∧
      stopNow c lim < pos + p + needle.length ∧
      firstOcc needle (I.rest lim pos) = (firstOcc needle (I.rest lim (pos + p))).map (· + p)) := by
  have hp := a.pos_le
  have hss := stopNow_le_stop env lim
  by_cases hn : needle = []
  · subst hn
    refine Or.inl ⟨0, ?_, by simpa using hp, ?_⟩
    · unfold View.find View.findForward
      rw [View.ensureValid_ok env.live (a.good env.live), View.unsafeBegin_spec env.live (a.good env.live)]
      simp [a.off]
    · exact firstOcc_eq_some (by simp [OccursAt]) (fun q hq => by omega)
  · rw [View.find_spec env.live (a.good env.live) hn, a.window env, a.off]
    have hlen : ((I.data.take (stopNow c lim)).drop pos).length = stopNow c lim - pos := by
      have := a.length env; simpa using this
    have hsplit : (I.rest lim pos) = (I.data.take (stopNow c lim)).drop pos ++ (I.rest lim pos).drop (stopNow c lim - pos) := by
      rw [now_rest env, List.take_append_drop]
    rcases searchCells_spec hn ((I.data.take (stopNow c lim)).drop pos) (t := []) (Or.inl rfl) with
      ⟨p, e1, e2, e3⟩ | ⟨_, p, e1, e1', e2, e3, e4⟩ | ⟨e0, _, _⟩
    · rw [List.append_nil] at e1
      rw [e1]
      have hle := e2.length_le
      rw [List.length_drop, hlen] at hle
      have hnl : 0 < needle.length := List.length_pos_iff.2 hn
      refine Or.inl ⟨p, rfl, by omega, ?_⟩
      have tr : ∀ q, q ≤ p → (OccursAt needle (I.rest lim pos) q ↔ OccursAt needle ((I.data.take (stopNow c lim)).drop pos) q) := by
        intro q hq
        rw [now_rest env]
        unfold OccursAt
        rw [List.drop_take]
        exact (prefix_take (by omega)).symm
      exact firstOcc_eq_some ((tr p (Nat.le_refl _)).2 e2) (fun q hq hc => e3 q hq ((tr q (by omega)).1 hc))
    · rw [List.append_nil] at e1
      rw [e1]
      obtain ⟨q1, q2⟩ := e3
      rw [hlen] at e1' q2
      refine Or.inr ⟨p, rfl, by omega, by omega, ?_⟩
      rw [← rest_drop]
      refine firstOcc_shift (fun q hq => ?_)
      rw [hsplit] at hq
      exact C08_resume e2 e4 (by rw [hlen]; omega) _ q hq
    · exact absurd rfl e0

/-- The result of `&until`, with data collected before. -/
def untilSpec (needle : List Byte) (incl : Bool) (acc : List Byte) : SParser := fun I lim pos =>
  match firstOcc needle (I.rest lim pos) with
  | some p => .ok (.bytes (acc ++ (I.rest lim pos).take (if incl then p + needle.length else p)), pos + p + needle.length)
  | none => if I.complete lim then .fail .parseError else .more

theorem untilFound_spec {c : Chain} {s : Sched} (env : Env I c s) {lim : Option Nat} {pos : Nat} {v : View} (trim : Bool)
    (a : At c v pos lim) {i : Iter} {p len : Nat} (incl : Bool) (acc : List Byte) (hi : c.IterOk i)
    (ho : i.offset = pos + p) (hn : pos + p + len ≤ stopNow c lim) :
    ∃ v' c', untilFound trim v len incl i (acc ++ (I.rest lim pos).take p) c s =
        .done (.bytes (acc ++ (I.rest lim pos).take (if incl then p + len else p)), v') c' s ∧
      Env I c' s ∧ Step (!trim) c c' ∧ At c' v' (pos + p + len) lim := by
  obtain ⟨j, e, hoj, hj⟩ := Chain.incr_spec env.live hi len
  obtain ⟨h1, h2⟩ := piece_data env (lim := lim) (pos := pos) (n := p) (m := len) hi ho hj (by omega) a.start (by omega)
  obtain ⟨v2, c2, g1, g2, g3, g4, -, -⟩ := advanceInputTo_spec trim env a (i := j) (n := p + len) hj (by omega) (by omega)
  rw [← Nat.add_assoc] at g4
  refine ⟨v2, c2, ?_, g2, g3, g4⟩
  unfold untilFound
  rw [P.bind_done (P.read_ok e s)]
  cases incl with
  | false =>
    simp only [Bool.false_eq_true, if_false]
    rw [P.pure_bind, P.bind_done g1, P.pure_apply, List.append_nil]
  | true =>
    simp only [if_true]
    have : (do let v ← subFromTo i j c; v.data c : Res (List Byte)) = .ok (((I.rest lim pos).drop p).take len) := by
      unfold subFromTo; rw [h1]; simp only [Res.ok_bind]; exact h2
    rw [P.bind_done (P.read_ok this s), P.bind_done g1, P.pure_apply, List.take_add, List.append_assoc]

theorem until_loop (needle : List Byte) (incl trim : Bool) (f : Nat) : ∀ {lim : Option Nat} {v : View} {pos : Nat}
    {c : Chain} {s : Sched} (acc : List Byte), Env I c s → At c v pos lim →
    s.length + (if pos + needle.length ≤ stopNow c lim then 1 else 0) < f →
    Sim I lim (!trim) c (untilLoop needle incl trim f v acc c s) (untilSpec needle incl acc I lim pos) := by
  induction f with
  | zero => intro lim v pos c s acc env a hf; omega
  | succ f ih =>
    intro lim v pos c s acc env a hf
    unfold untilLoop waitForInput
    have hpos := a.pos_le
    have hss := stopNow_le_stop env lim
    rw [P.bind_assoc, P.bind_apply]
    have hw := waitMin_spec needle.length env a
    generalize waitMin v needle.length c s = o at hw ⊢
    cases hw with
    | yes w1 w2 w3 w4 w5 w6 =>
      rename_i c' s'
      have a' := a.keep w3
      have hp := a'.pos_le
      simp only [if_true]
      rw [P.pure_bind]
      refine Sim.from w3.weaken ?_
      rcases find_now w2 a' needle with ⟨p, e1, e2, e3⟩ | ⟨p, e1, e2, e3, e4⟩
      · rw [P.bind_done (P.read_ok e1 s')]
        have hi : c'.IterOk (toSafe ⟨pos + p, c'.suffixAt (pos + p)⟩) := Chain.iterOk_suffixAt c' (pos + p)
        obtain ⟨h1, h2⟩ := piece_data w2 (lim := lim) (pos := pos) (n := 0) (m := p) a'.iter (by rw [a'.off]; rfl) hi rfl
          a'.start (by omega)
        have hd : (do let w ← subTo v (toSafe ⟨pos + p, c'.suffixAt (pos + p)⟩) c'; w.data c' : Res (List Byte)) =
            .ok ((I.rest lim pos).take p) := by
          unfold subTo; rw [h1]; simp only [Res.ok_bind]; exact h2
        rw [P.bind_done (P.read_ok hd s')]
        simp only [if_true]
        obtain ⟨v2, c2, g1, g2, g3, g4⟩ := untilFound_spec w2 trim a' (len := needle.length) incl acc hi rfl (by omega)
        rw [g1]
        unfold untilSpec
        rw [e3]
        exact ⟨v2, c2, s', rfl, g2, g3, g4⟩
      · rw [P.bind_done (P.read_ok e1 s')]
        have hi : c'.IterOk (toSafe ⟨pos + p, c'.suffixAt (pos + p)⟩) := Chain.iterOk_suffixAt c' (pos + p)
        obtain ⟨h1, h2⟩ := piece_data w2 (lim := lim) (pos := pos) (n := 0) (m := p) a'.iter (by rw [a'.off]; rfl) hi rfl
          a'.start (by omega)
        have hd : (do let w ← subTo v (toSafe ⟨pos + p, c'.suffixAt (pos + p)⟩) c'; w.data c' : Res (List Byte)) =
            .ok ((I.rest lim pos).take p) := by
          unfold subTo; rw [h1]; simp only [Res.ok_bind]; exact h2
        rw [P.bind_done (P.read_ok hd s')]
        simp only [Bool.false_eq_true, if_false]
        obtain ⟨v2, c2, g1, g2, g3, g4, g5, g6⟩ := advanceInputTo_spec trim w2 a' (n := p) hi rfl (by omega)
        rw [P.bind_done g1]
        refine Sim.from g3 ?_
        have := ih (acc ++ (I.rest lim pos).take p) g2 g4 (by
          rw [stopNow_eq g5 lim, if_neg (by omega)]
          by_cases hz : pos + needle.length ≤ stopNow c lim
          · rw [if_pos hz] at hf; omega
          · have := w6 (by omega); omega)
        have heq : untilSpec needle incl (acc ++ (I.rest lim pos).take p) I lim (pos + p) = untilSpec needle incl acc I lim pos := by
          unfold untilSpec
          rw [e4]
          cases hfo : firstOcc needle (I.rest lim (pos + p)) with
          | none => rfl
          | some q =>
            simp only [Option.map_some]
            rw [← rest_drop]
            congr 1
            congr 1
            · congr 1
              rw [List.append_assoc]
              congr 1
              have : (if incl = true then q + p + needle.length else q + p) = p + (if incl = true then q + needle.length else q) := by
                split <;> omega
              rw [this, List.take_add]
            · omega
        rw [← heq]; exact this
    | no w1 w2 w3 w4 w5 =>
      obtain ⟨k1, k2⟩ := complete_now w2 w4
      have hlt := has_false w1
      unfold untilSpec
      rw [firstOcc_short (by rw [rest_length]; omega)]
      simp only [k1, if_true]
      exact ⟨_, _, rfl, w2, w3.weaken⟩
    | wait w1 =>
      have hc := has_more w1
      have hlt : I.stop lim < pos + needle.length := by
        unfold Input.has at w1
        split at w1
        · cases w1
        · omega
      unfold untilSpec
      rw [firstOcc_short (by rw [rest_length]; omega), hc]
      exact ⟨_, rfl⟩

theorem until_refines (needle : List Byte) (incl : Bool) : Refines (untilP needle incl) (fun I lim pos =>
    match firstOcc needle (I.rest lim pos) with
    | some p => .ok (.bytes ((I.rest lim pos).take (if incl then p + needle.length else p)), pos + p + needle.length)
    | none => if I.complete lim then .fail .parseError else .more) := by
  intro I hI lim trim v pos c s env a
  have := until_loop (I := I) needle incl trim (s.length + 2) [] env a (by split <;> omega)
  unfold untilP
  unfold untilSpec at this
  simpa only [List.nil_append] using this

end Verif.Parse
