import Verif.Stream.ViewProps
/-!
# Views: completeness and view arithmetic (C43, C44)
-/

namespace Verif.Stream
open Chain

theorem ideal_run_append (s : Ideal) (xs ys : List Op) : s.run (xs ++ ys) = (s.run xs).run ys := by
  simp [Ideal.run, List.foldl_append]

/-- What `isComplete` computes. -/
theorem isComplete_spec {v : View} {c : Chain} (h : c.Live) (g : v.Good c) :
    v.isComplete c = .ok (c.isFrozen || (match v.end with | some e => decide (e.offset ≤ c.stop) | none => false)) := by
  unfold View.isComplete
  rw [View.ensureValid_ok h g]
  simp only [Res.ok_bind, endOffset_eq h.inv]
  cases c.isFrozen <;> cases v.end <;> simp

/-- Operations other than appending and unfreezing keep a frozen stream's data as it is; nothing ever changes the cells
    already there. -/
theorem ideal_step_prefix (s : Ideal) (op : Op) : s.all <+: (s.step op).all := by
  cases op <;> simp only [Ideal.step] <;> repeat' split
  all_goals first | exact List.prefix_append _ _ | exact List.prefix_rfl

theorem ideal_run_prefix (s : Ideal) (ops : List Op) : s.all <+: (s.run ops).all := by
  induction ops generalizing s with
  | nil => exact List.prefix_rfl
  | cons op ops ih => exact List.IsPrefix.trans (ideal_step_prefix s op) (ih _)

/-- A frozen ideal stream stays frozen without `unfreeze`, and what is added to its data (by trims beyond the end) lies
    before the start. -/
theorem ideal_frozen_run (s : Ideal) (hs : s.frozen = true) (hle : s.start ≤ s.all.length) (ops : List Op)
    (hu : Op.unfreeze ∉ ops) :
    (s.run ops).frozen = true ∧ s.start ≤ (s.run ops).start ∧ (s.run ops).start ≤ (s.run ops).all.length ∧
      ((s.run ops).all.length ≤ s.all.length ∨ (s.run ops).all.length ≤ (s.run ops).start) := by
  induction ops generalizing s with
  | nil => exact ⟨hs, Nat.le_refl _, hle, Or.inl (Nat.le_refl _)⟩
  | cons op ops ih =>
    simp only [List.mem_cons, not_or] at hu
    have key : (s.step op).frozen = true ∧ s.start ≤ (s.step op).start ∧ (s.step op).start ≤ (s.step op).all.length ∧
        ((s.step op).all.length ≤ s.all.length ∨ (s.step op).all.length ≤ (s.step op).start) := by
      cases op with
      | unfreeze => exact absurd rfl hu.1
      | trim o =>
        simp only [Ideal.step]
        split
        · exact ⟨hs, Nat.le_refl _, hle, Or.inl (Nat.le_refl _)⟩
        · simp only [List.length_append, List.length_replicate]
          refine ⟨hs, ?_, ?_, ?_⟩ <;> omega
      | _ => simp [Ideal.step, hs, hle]
    obtain ⟨k1, k2, k3, k4⟩ := key
    have := ih _ k1 k3 hu.2
    obtain ⟨i1, i2, i3, i4⟩ := this
    refine ⟨i1, ?_, i3, ?_⟩
    · exact Nat.le_trans k2 i2
    · show ((s.step op).run ops).all.length ≤ _ ∨ ((s.step op).run ops).all.length ≤ ((s.step op).run ops).start
      omega

/-- A window that lies inside the data does not change when data is added. -/
theorem window_prefix {s s' : Ideal} (h : s.all <+: s'.all) {a e : Nat} (he : e ≤ s.all.length) :
    s'.window a (some e) = s.window a (some e) := by
  obtain ⟨t, ht⟩ := h
  unfold Ideal.window
  simp only
  rw [← ht]
  rcases Nat.le_total a s.all.length with ha | ha
  · rw [List.drop_append_of_le_length ha, List.take_append_of_le_length]
    simp; omega
  · have : e - a = 0 := by omega
    simp [this]

/-- C43. Once a view reports being complete, it stays complete and its content never changes again (as long as the stream
    is not unfrozen, and until the view's begin is trimmed off). -/
theorem C43_complete_is_final {ops more later : List Op} {a : Nat} {b : Option Nat} {v : View}
    (hv : ViewOf ops more a b v) (hv' : ViewOf ops (more ++ later) a b v) (hu : Op.unfreeze ∉ later)
    (h : v.isComplete (streamAfter ops more) = .ok true) :
    v.isComplete (streamAfter ops (more ++ later)) = .ok true ∧
    v.size (streamAfter ops (more ++ later)) = v.size (streamAfter ops more) ∧
    v.data (streamAfter ops (more ++ later)) = v.data (streamAfter ops more) ∧
    v.copyRaw (streamAfter ops (more ++ later)) = v.copyRaw (streamAfter ops more) := by
  have r := hv.ready
  have r' := hv'.ready
  have rel := rel_run rel_init (ops ++ more) hv.forward
  have rel' := rel_run rel_init (ops ++ (more ++ later)) hv'.forward
  rw [isComplete_spec r.live r.good] at h
  injection h with h
  have hs : idealAfter ops (more ++ later) = (idealAfter ops more).run later := by
    unfold idealAfter; rw [← List.append_assoc, ideal_run_append]
  have hstop := r.stop
  have hstop' := r'.stop
  have hle : (idealAfter ops more).start ≤ (idealAfter ops more).all.length := rel.le
  have hle' : (idealAfter ops (more ++ later)).start ≤ (idealAfter ops (more ++ later)).all.length := rel'.le
  have hav' : (idealAfter ops (more ++ later)).start ≤ a := hv'.avail
  have hpre : (idealAfter ops more).all <+: (idealAfter ops (more ++ later)).all := by
    rw [hs]; exact ideal_run_prefix _ _
  have hlen := hpre.length_le
  have key : v.isComplete (streamAfter ops (more ++ later)) = .ok true ∧
      (idealAfter ops (more ++ later)).window a b = (idealAfter ops more).window a b := by
    rw [isComplete_spec r'.live r'.good]
    cases hfr : (streamAfter ops more).isFrozen with
    | true =>
      have hf : (idealAfter ops more).frozen = true := by
        apply rel.frozen.1
        simpa [isFrozen] using hfr
      obtain ⟨f1, f2, f3, f4⟩ := ideal_frozen_run _ hf hle later hu
      rw [← hs] at f1 f2 f3 f4
      have : (streamAfter ops (more ++ later)).isFrozen = true := by
        simpa [isFrozen] using rel'.frozen.2 f1
      refine ⟨by simp [this], ?_⟩
      rcases f4 with f4 | f4
      · rw [hpre.eq_of_length (by omega : _ = _).symm.symm |> fun e => (show (idealAfter ops (more ++ later)).window a b =
          (idealAfter ops more).window a b by unfold Ideal.window; rw [e])]
      · have e1 : (idealAfter ops (more ++ later)).all.drop a = [] := by
          apply List.drop_eq_nil_of_le; omega
        have e2 : (idealAfter ops more).all.drop a = [] := by
          apply List.drop_eq_nil_of_le; omega
        unfold Ideal.window
        rw [e1, e2]; simp
    | false =>
      rw [hfr, Bool.false_or] at h
      have hend := r.end
      cases he : v.end with
      | none => rw [he] at h; simp at h
      | some e =>
        rw [he] at h hend
        simp only [decide_eq_true_eq] at h
        simp only [Option.map_some] at hend
        subst hend
        refine ⟨by simp; right; omega, window_prefix hpre (by omega)⟩
  refine ⟨key.1, ?_, ?_, ?_⟩
  · rw [View.size_spec r'.live r'.good, View.size_spec r.live r.good, r'.window, r.window, key.2]
  · rw [View.data_spec r'.live r'.good, View.data_spec r.live r.good, r'.window, r.window, key.2]
  · rw [View.copyRaw_spec r'.live r'.good, View.copyRaw_spec r.live r.good, r'.window, r.window, key.2]

/-- C43, the other direction: a view reports being incomplete exactly if the stream is not frozen and the view is open-ended
    or its end lies beyond the data received so far. -/
theorem C43_incomplete {ops more : List Op} {a : Nat} {b : Option Nat} {v : View} (hv : ViewOf ops more a b v) :
    v.isComplete (streamAfter ops more) = .ok ((idealAfter ops more).frozen ||
      (match b with | some e => decide (e ≤ (idealAfter ops more).all.length) | none => false)) := by
  have r := hv.ready
  have rel := rel_run rel_init (ops ++ more) hv.forward
  have hle : (idealAfter ops more).start ≤ (idealAfter ops more).all.length := rel.le
  have hst := r.stop
  have hm : max (idealAfter ops more).all.length (idealAfter ops more).start = (idealAfter ops more).all.length := by omega
  rw [isComplete_spec r.live r.good, hst, hm]
  have hf : (streamAfter ops more).isFrozen = (idealAfter ops more).frozen := by
    have := rel.frozen
    rw [Bool.eq_iff_iff]
    simpa [isFrozen] using this
  rw [hf]
  have hend := r.end
  cases he : v.end with
  | none => rw [he] at hend; simp at hend; subst hend; rfl
  | some e => rw [he] at hend; simp at hend; subst hend; rfl

example : ∃ v, ViewOf [.append [1, 2]] [.append [3]] 0 (some 3) v ∧
    ViewOf [.append [1, 2]] ([.append [3]] ++ [.append [4], .freeze]) 0 (some 3) v ∧
    v.isComplete (streamAfter [.append [1, 2]] []) = .ok false ∧
    v.isComplete (streamAfter [.append [1, 2]] [.append [3]]) = .ok true :=
  ⟨_, ⟨by decide, .make 0 (some 3) rfl, rfl, rfl, by decide, by decide⟩,
    ⟨by decide, .make 0 (some 3) rfl, rfl, rfl, by decide, by decide⟩, rfl, rfl⟩

/-! ## C44: view arithmetic -/

/-- `x`, but not beyond the end `b` (if there is one). -/
def capAt (b : Option Nat) (x : Nat) : Nat := match b with
  | none => x
  | some e => min x e

theorem ViewOf.derived {ops more : List Op} {a : Nat} {b : Option Nat} {v : View} (hv : ViewOf ops more a b v) :
    Derived (ops ++ more) v := .later more hv.made

/-- A new view made at a valid position from two good iterators. -/
theorem mk2_ok {c : Chain} (h : c.Live) {i j : Iter} (hs : c.headOffset ≤ i.offset) :
    View.mk2 c i j = .ok ⟨i, some j⟩ := by
  unfold View.mk2 View.ensureValid
  simp [h.isValid, Nat.not_lt.2 hs]

/-- C44. `view.limit(n)` is the view of the first `n` bytes: the new view starts where the old one starts and ends `n` bytes
    later, but not after the old one. From then on it is a view like any other (so all theorems about `ViewOf` apply to it,
    also after more data has arrived). -/
theorem C44_limit {ops more : List Op} {a : Nat} {b : Option Nat} {v : View} (hv : ViewOf ops more a b v) (n : Nat) :
    ∃ w, v.limit (streamAfter ops more) n = .ok w ∧
      ViewOf (ops ++ more) [] a (some (capAt b (a + n))) w := by
  have r := hv.ready
  obtain ⟨j, j1, j2, j3⟩ := incr_spec r.live r.iter (v.limitTo n)
  have e : v.limit (streamAfter ops more) n = .ok ⟨v.begin, some j⟩ := by
    unfold View.limit
    rw [j1]
    simp only [Res.ok_bind]
    exact mk2_ok r.live r.good.start
  refine ⟨_, e, by simpa using hv.forward, .limit n hv.derived e, r.begin, ?_, by simpa using hv.avail, ?_⟩
  · have hend := r.end
    have hb := r.begin
    simp only [Option.map_some, j2]
    unfold View.limitTo
    cases he : v.end with
    | none => rw [he] at hend; simp at hend; subst hend; simp [hb, capAt]
    | some e =>
      rw [he] at hend; simp at hend; subst hend
      have ho := hv.order _ rfl
      simp only [hb, if_pos ho, capAt]
      congr 1; omega
  · rintro x ⟨⟩
    cases b with
    | none => simp [capAt]
    | some e =>
      have ho := hv.order _ rfl
      simp [capAt]; omega

/-- C44. What a limited view shows: the first `n` cells, now and (if the original view is open-ended or longer) as data
    arrives. -/
theorem C44_limit_window (s : Ideal) (a n : Nat) (b : Option Nat) :
    s.window a (some (capAt b (a + n))) = (s.window a b).take n := by
  unfold Ideal.window capAt
  cases b with
  | none =>
    simp only [List.take_take]
    rcases Nat.le_total n (s.all.length - a) with h | h
    · congr 1; omega
    · rw [List.take_of_length_le, List.take_of_length_le] <;> simp <;> omega
  | some e =>
    simp only [List.take_take]
    congr 1; omega

/-- C44. `view.advance(n)`: the new view starts `n` later and has the same end. -/
theorem C44_advance {ops more : List Op} {a : Nat} {b : Option Nat} {v : View} (hv : ViewOf ops more a b v) (n : Nat)
    (hn : ∀ e, b = some e → a + n ≤ e) :
    ∃ w, v.advance (streamAfter ops more) n = .ok w ∧ ViewOf (ops ++ more) [] (a + n) b w := by
  have r := hv.ready
  obtain ⟨j, j1, j2, j3⟩ := incr_spec r.live r.iter n
  have e : v.advance (streamAfter ops more) n = .ok ⟨j, v.end⟩ := by
    unfold View.advance; rw [j1]; rfl
  have := hv.avail
  refine ⟨_, e, by simpa using hv.forward, .advance n hv.derived e, by rw [j2, r.begin], r.end, ?_, hn⟩
  simp only [List.append_nil]; omega

theorem C44_advance_window (s : Ideal) (a n : Nat) (b : Option Nat) : s.window (a + n) b = (s.window a b).drop n := by
  unfold Ideal.window
  rw [List.drop_take, List.drop_drop]
  congr 1; omega

/-- C44. `view.sub(x, y)`: the cells from position `x` (relative to the view's begin) up to, not including, position `y`;
    the result may reach beyond the end of the view, which is not consulted. -/
theorem C44_sub {ops more : List Op} {a : Nat} {b : Option Nat} {v : View} (hv : ViewOf ops more a b v) {x y : Nat}
    (hxy : x ≤ y) :
    ∃ w, v.sub (streamAfter ops more) x y = .ok w ∧ ViewOf (ops ++ more) [] (a + x) (some (a + y)) w := by
  have r := hv.ready
  obtain ⟨i, i1, i2, i3⟩ := incr_spec r.live r.iter x
  obtain ⟨j, j1, j2, j3⟩ := incr_spec r.live r.iter y
  have hs := r.good.start
  have e : v.sub (streamAfter ops more) x y = .ok ⟨i, some j⟩ := by
    unfold View.sub; rw [i1, j1]
    simp only [Res.ok_bind]
    exact mk2_ok r.live (by omega)
  have := hv.avail
  refine ⟨_, e, by simpa using hv.forward, .sub x y hv.derived e, by rw [i2, r.begin], by simp [j2, r.begin], ?_, ?_⟩
  · simp only [List.append_nil]; omega
  · rintro _ ⟨⟩; omega

/-- C44. `sub` of a view: inside the view it shows the cells between the two positions. -/
theorem C44_sub_window (s : Ideal) (a x y : Nat) (b : Option Nat) (hy : ∀ e, b = some e → a + y ≤ e)  :
    s.window (a + x) (some (a + y)) = ((s.window a b).take y).drop x := by
  have : (s.window a b).take y = s.window a (some (a + y)) := by
    rw [← C44_limit_window]
    cases b with
    | none => rfl
    | some e => have := hy e rfl; simp only [capAt]; congr 2; omega
  rw [this, C44_advance_window]

/-- C44. `view.trim(position)`: the new view starts at the position, or at the view's end if the position is after that. -/
theorem C44_trim {ops more : List Op} {a : Nat} {b : Option Nat} {v : View} (hv : ViewOf ops more a b v) (o : Nat)
    (ho : a ≤ o) :
    ∃ i w, (streamAfter ops more).at o = .ok i ∧ v.trim (streamAfter ops more) i = .ok w ∧
      ViewOf (ops ++ more) [] (capAt b o) b w := by
  have r := hv.ready
  obtain ⟨i, i1, i2, i3⟩ := at_spec r.live o
  have hs := r.good.start
  have hb := r.begin
  have hend := r.end
  have hav := hv.avail
  cases he : v.end with
  | none =>
    rw [he] at hend; simp at hend; subst hend
    have e : v.trim (streamAfter ops more) i = .ok ⟨i, none⟩ := by unfold View.trim; rw [he]
    refine ⟨i, _, i1, e, by simpa using hv.forward, .trim o hv.derived i1 e, i2, rfl, ?_, by simp⟩
    simp only [List.append_nil, capAt]; omega
  | some e =>
    rw [he] at hend; simp at hend; subst hend
    have hord := hv.order _ rfl
    by_cases hgt : i.offset > e.offset
    · have ee : v.trim (streamAfter ops more) i = .ok ⟨e, some e⟩ := by
        unfold View.trim; rw [he]; simp only [if_pos hgt]
        exact mk2_ok r.live (by omega)
      refine ⟨i, _, i1, ee, by simpa using hv.forward, .trim o hv.derived i1 ee, ?_, rfl, ?_, ?_⟩
      · simp only [capAt]; omega
      · simp only [List.append_nil, capAt]; omega
      · rintro _ ⟨⟩; simp only [capAt]; omega
    · have ee : v.trim (streamAfter ops more) i = .ok ⟨i, some e⟩ := by
        unfold View.trim; rw [he]; simp only [if_neg hgt]
        exact mk2_ok r.live (by omega)
      refine ⟨i, _, i1, ee, by simpa using hv.forward, .trim o hv.derived i1 ee, ?_, rfl, ?_, ?_⟩
      · simp only [capAt]; omega
      · simp only [List.append_nil, capAt]; omega
      · rintro _ ⟨⟩; simp only [capAt]; omega

/-- C44 needs its hypothesis that the view is not inverted: advancing a limited view beyond its end gives a view whose end is
    before its begin, and limiting that one computes its size with wrapping arithmetic, so the "limited" view is longer than
    the view it was made from. -/
theorem C44_limit_of_inverted_view_grows :
    ∃ v w x, (({} : Chain).run [.append [1, 2, 3, 4, 5, 6]]).viewAt 0 (some 2) = .ok v ∧
      v.advance (({} : Chain).run [.append [1, 2, 3, 4, 5, 6]]) 3 = .ok w ∧
      w.size (({} : Chain).run [.append [1, 2, 3, 4, 5, 6]]) = .ok 0 ∧
      w.limit (({} : Chain).run [.append [1, 2, 3, 4, 5, 6]]) 2 = .ok x ∧
      x.data (({} : Chain).run [.append [1, 2, 3, 4, 5, 6]]) = .ok [4, 5] :=
  ⟨_, _, _, rfl, rfl, rfl, rfl, rfl⟩

example : ∃ v w, (({} : Chain).run [.append [1, 2, 3], .append [4, 5]]).viewAt 1 none = .ok v ∧
    v.limit (({} : Chain).run [.append [1, 2, 3], .append [4, 5]]) 3 = .ok w ∧
    w.data (({} : Chain).run [.append [1, 2, 3], .append [4, 5]]) = .ok [2, 3, 4] := ⟨_, _, rfl, rfl, rfl⟩

end Verif.Stream
