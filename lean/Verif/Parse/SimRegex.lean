import Verif.Parse.Sim4
import Verif.Regex.View
/-! # Parsing: regular expressions refine their specification -/

namespace Verif.Parse
open Verif.Stream Verif.Regex

variable {I : Input}

/-- Moving a view by an offset, in either direction. -/
theorem remaining_spec {v : View} {pos : Nat} {lim : Option Nat} {c : Chain} (h : c.Live) (a : At c v pos lim) {off : Int}
    {q : Nat} (hq : (q : Int) = pos + off) (h1 : c.headOffset ≤ q) (h2 : q ≤ stopNow c lim) :
    ∃ v', remaining v c off = .ok v' ∧ At c v' q lim := by
  have hs := stopNow_le c lim
  have hl : ∀ l, lim = some l → q ≤ l := by
    intro l hl; subst hl; simp only [stopNow] at h2; omega
  have fin : ∀ j : Iter, j.offset = q → c.IterOk j → ∃ v', v.trim c j = .ok v' ∧ At c v' q lim := by
    intro j ho hj
    unfold View.trim
    have hend := a.end
    cases he : v.end with
    | none =>
      rw [he] at hend
      exact ⟨⟨j, none⟩, rfl, hj, ho, (fun e h => by cases h), hend, h1, by omega, hl⟩
    | some e =>
      rw [he] at hend
      have := hl e.offset hend.symm
      dsimp only
      rw [if_neg (by omega), mk2_ok h (by omega)]
      refine ⟨⟨j, some e⟩, rfl, hj, ho, ?_, hend, h1, by omega, hl⟩
      intro e' he'
      injection he' with he'
      subst he'
      exact a.endIter e he
  unfold remaining
  by_cases ho : off ≥ 0
  · rw [if_pos ho]
    obtain ⟨j, e, hoj, hj⟩ := Chain.incr_spec h a.iter off.toNat
    rw [e]
    simp only [Res.bind]
    exact fin j (by rw [hoj, a.off]; omega) hj
  · rw [if_neg ho]
    have := Chain.decr_spec h a.iter (-off).toNat
    rw [if_neg (by rw [a.off]; omega)] at this
    obtain ⟨j, e, hoj, hj⟩ := this
    rw [e]
    simp only [Res.bind]
    exact fin j (by rw [hoj, a.off]; omega) hj

/-- Moving on always works. -/
theorem remaining_forward {v : View} {pos : Nat} {lim : Option Nat} {c : Chain} (h : c.Live) (a : At c v pos lim) {off : Int}
    (ho : 0 ≤ off) : ∃ v', remaining v c off = .ok v' := by
  unfold remaining
  rw [if_pos ho]
  obtain ⟨j, e, hoj, hj⟩ := Chain.incr_spec h a.iter off.toNat
  rw [e]
  simp only [Res.bind]
  unfold View.trim
  have hs := a.start
  have hoff := a.off
  have hend := a.end
  cases he : v.end with
  | none => exact ⟨_, rfl⟩
  | some e =>
    rw [he] at hend
    have := a.lim e.offset hend.symm
    dsimp only
    split
    · rw [mk2_ok h (by omega)]; exact ⟨_, rfl⟩
    · rw [mk2_ok h (by omega)]; exact ⟨_, rfl⟩

/-- The specification, once the matter is decided by the data `W` that is there. -/
theorem regexSpec_decided {A : Auto} {lim : Option Nat} {pos : Nat} {W x : List Byte} (hr : I.rest lim pos = W ++ x)
    (h : (I.complete lim = true ∧ x = []) ∨ (W ≠ [] ∧ A.more (Regex.run A W) = false)) :
    regexSpec A I lim pos = match longest A W with
      | some n => .ok (.bytes (W.take n), pos + n)
      | none => .fail .parseError := by
  unfold regexSpec
  rw [hr]
  rcases h with ⟨h1, h2⟩ | ⟨h1, h2⟩
  · subst h2
    rw [if_neg (by rw [h1]; simp), List.append_nil]
    rfl
  · have hne : W ++ x ≠ [] := fun h => h1 (List.append_eq_nil_iff.1 h).1
    rw [if_neg (by rw [more_append h2]; simp [hne])]
    obtain ⟨e1, e2⟩ := longest_append h2 x
    rw [e1]
    cases hl : longest A W with
    | none => rfl
    | some n => dsimp only; rw [e2 n hl]

theorem regex_loop {A : Auto} (pl : Plain A) (nb : NoBack A) (trim : Bool) {lim : Option Nat} {v : View} {pos : Nat} (f : Nat) :
    ∀ {c : Chain} {s : Sched} {k : Nat} {nv : View} {p : Pimpl}, Env I c s → At c v pos lim → At c nv (pos + k) lim →
      Open A ((I.rest lim pos).take k) p →
      s.length + (if completeNow c lim = true ∧ stopNow c lim = pos + k then 0 else 1) < f →
      Sim I lim (!trim) c (regexLoop A trim v f nv p c s) (regexSpec A I lim pos) := by
  induction f with
  | zero => intro c s k nv p env a b o hf; omega
  | succ f ih =>
    intro c s k nv p env a b o hf
    have hpos := b.pos_le
    have hss := stopNow_le_stop env lim
    have hst := a.start
    -- the data
    have hk : ((I.rest lim pos).take k).length = k := by
      rw [List.length_take, rest_length]; omega
    have hW : (I.rest lim pos).take k ++ (I.data.take (stopNow c lim)).drop (pos + k) =
        (I.rest lim pos).take (stopNow c lim - pos) := by
      rw [now_rest env lim (pos + k), ← rest_drop, ← List.take_add]
      congr 1; omega
    have hlenW : ((I.rest lim pos).take (stopNow c lim - pos)).length = stopNow c lim - pos := by
      rw [List.length_take, rest_length]; omega
    have hdlen : ((I.data.take (stopNow c lim)).drop (pos + k)).length = stopNow c lim - (pos + k) := by
      have := congrArg List.length hW
      rw [List.length_append, hk, hlenW] at this
      omega
    have hrest : I.rest lim pos = (I.rest lim pos).take (stopNow c lim - pos) ++ (I.rest lim pos).drop (stopNow c lim - pos) :=
      (List.take_append_drop _ _).symm
    obtain ⟨bl, m1, m2, m3⟩ := advanceViewRaw_ok A env.live (b.good env.live) (b.window env) (completeNow c lim) p
    have hround := round_spec pl nb o m1 m2 (completeNow c lim)
    have hoff := advanceBlocks_offset A bl (completeNow c lim) p (by rcases o.acc with h | h <;> omega)
    rw [hW] at hround
    have hadv : advanceView A nv c p = (remaining nv c (advanceBlocks A bl (completeNow c lim) p).1.2).bind fun nd =>
        .ok (((advanceBlocks A bl (completeNow c lim) p).1.1, nd), (finish (advanceBlocks A bl (completeNow c lim) p)).2) := by
      unfold advanceView
      rw [if_neg (by rw [o.done]; decide), b.isComplete env]
      simp only [Res.bind]
      rw [m3]
    generalize advanceBlocks A bl (completeNow c lim) p = r at hround hoff hadv
    obtain ⟨⟨rc, off⟩, p'⟩ := r
    dsimp only at hround hoff hadv
    have decided : (completeNow c lim = true ∨ ((I.rest lim pos).take (stopNow c lim - pos) ≠ [] ∧
        A.more (Regex.run A ((I.rest lim pos).take (stopNow c lim - pos))) = false)) →
        (I.complete lim = true ∧ (I.rest lim pos).drop (stopNow c lim - pos) = []) ∨
        ((I.rest lim pos).take (stopNow c lim - pos) ≠ [] ∧
          A.more (Regex.run A ((I.rest lim pos).take (stopNow c lim - pos))) = false) := by
      intro h
      rcases h with h | h
      · obtain ⟨k1, k2⟩ := complete_now env h
        refine Or.inl ⟨k1, ?_⟩
        apply List.eq_nil_of_length_eq_zero
        rw [List.length_drop, rest_length, k2]; omega
      · exact Or.inr h
    unfold regexLoop
    rcases hround with ⟨h1, h2, h3⟩ | ⟨n, h1, h2, h3, h4⟩ | ⟨h1, h2, h3, h4⟩
    · -- no match
      obtain ⟨nv', hn⟩ := remaining_forward env.live b (hoff (by omega))
      rw [hn] at hadv
      rw [P.bind_done (P.read_ok hadv s)]
      dsimp only
      rw [if_neg (by omega), if_pos h1, regexSpec_decided hrest (decided h3), longest_eq_none h2]
      exact ⟨c, s, rfl, env, Step.refl c⟩
    · -- a match
      have hle := h1.le
      rw [hlenW] at hle
      rw [hk] at h3
      obtain ⟨nv', hn, a'⟩ := remaining_spec env.live b (off := off) (q := pos + n) (by omega) (by omega) (by omega)
      rw [hn] at hadv
      rw [P.bind_done (P.read_ok hadv s)]
      have hhit := h1.hit
      dsimp only
      rw [if_neg (by omega), if_neg (by omega), regexSpec_decided hrest (decided h4), longest_eq_some h1]
      obtain ⟨d1, d2⟩ := piece_data env (lim := lim) (pos := pos) (n := 0) (m := n) a.iter (by rw [a.off]; rfl) a'.iter
        (by rw [a'.off]; rfl) a.start (by omega)
      have hd : (do let w ← subTo v nv'.begin c; w.data c : Res (List Byte)) = .ok ((I.rest lim pos).take n) := by
        unfold subTo; rw [d1]; simp only [Res.ok_bind]; exact d2
      rw [P.bind_done (P.read_ok hd s)]
      obtain ⟨c', t1, t2, t3, t4, -, -⟩ := trimInput_spec trim env a'
      rw [P.bind_done t1]
      refine ⟨nv', c', s, ?_, t2, t3, t4⟩
      rw [P.pure_apply]
      dsimp only
      rw [List.take_take, Nat.min_eq_left hle]
    · -- undecided
      obtain ⟨nv', hn, a'⟩ := remaining_spec env.live b (off := off) (q := stopNow c lim) (by rw [h2, hdlen]; omega) (by omega)
        (Nat.le_refl _)
      rw [hn] at hadv
      rw [P.bind_done (P.read_ok hadv s)]
      dsimp only
      rw [if_pos h1]
      have hfin : finish ((rc, off), p') = ((rc, off), p') := by unfold finish; rw [if_neg (by dsimp only; omega)]
      rw [hfin]
      have hpk : pos + (stopNow c lim - pos) = stopNow c lim := by omega
      rw [← hpk] at a'
      have hnot : ¬ (completeNow c lim = true ∧ stopNow c lim = pos + k) := by
        rintro ⟨x1, x2⟩
        exact h4 x1 (List.eq_nil_of_length_eq_zero (by rw [hdlen]; omega))
      rw [if_neg hnot] at hf
      rcases waitMore_spec env a' with ⟨c', s', w1, w2, w3, w4, w5⟩ | ⟨c', s', w1, w2, w3, w4, w5, w6⟩ | ⟨c', w1, w2, w3⟩
      · rw [P.bind_done w1]
        exact Sim.from w3.weaken (ih w2 (a.keep w3) (a'.keep w3) h3 (by split <;> omega))
      · rw [P.bind_done w1]
        exact Sim.from w3.weaken (ih w2 (a.keep w3) (a'.keep w3) h3 (by rw [if_pos ⟨w4, by omega⟩]; omega))
      · rw [P.bind_suspended w1]
        have hall : (I.rest lim pos).take (stopNow c lim - pos) = I.rest lim pos := by
          apply List.take_of_length_le
          rw [rest_length]; omega
        rw [hall] at h3
        unfold regexSpec
        rw [if_pos]
        · exact ⟨c', rfl⟩
        · refine ⟨w2, ?_⟩
          by_cases hnil : I.rest lim pos = []
          · exact Or.inl hnil
          · exact Or.inr (h3.more hnil)

theorem regex_refines {A : Auto} (pl : Plain A) (nb : NoBack A) : Refines (regexP A) (regexSpec A) := by
  intro I hI lim trim v pos c s env a
  unfold regexP
  refine regex_loop (k := 0) pl nb trim _ env a a ?_ (by split <;> omega)
  rw [List.take_zero]
  exact open_new A

theorem regex_forward (A : Auto) (I : Input) (lim : Option Nat) (pos : Nat) (r : Val × Nat) (hp : pos ≤ I.stop lim)
    (h : regexSpec A I lim pos = .ok r) : pos ≤ r.2 ∧ r.2 ≤ I.stop lim := by
  unfold regexSpec at h
  split at h
  · cases h
  · rcases longest_cases A (I.rest lim pos) with ⟨n, h1, h2⟩ | ⟨h1, -⟩
    · rw [h1] at h
      injection h with h
      subst h
      have := h2.le
      rw [rest_length] at this
      exact ⟨Nat.le_add_right _ _, by dsimp only; omega⟩
    · rw [h1] at h; cases h

end Verif.Parse
