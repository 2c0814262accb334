import Verif.Prof.Main

/-!
# The profiler: all histories
-/

namespace Verif.Prof

theorem join_none {o : Opened} {i : Nat} (h : ∀ b, o[i]? ≠ some (some b)) : (o[i]?).join = none := by
  cases e : o[i]? with
  | none => rfl
  | some x =>
    cases x with
    | none => rfl
    | some b => exact absurd e (h b)

theorem stop_inv {n : String} {o : Opened} {k C A : Nat} {V : List Int} {s : S} (h : Inv n o k C A V s)
    (hk : k + 1 < M) (hA : s.clock < M) (i : Nat) (v : Option Nat) (hv : ∀ w, v = some w → w < M) :
    Inv n (o.next (.stop i v)) (k + 1) (C + (if isFor n ((o[i]?).join) then 1 else 0)) A
      (V ++ volumeOf n o i v) (step (.stop i v) s) := by
  have hlek := h.lek
  have hCk := h.Ck
  by_cases hex : ∃ b, o[i]? = some (some b)
  · obtain ⟨b, hi⟩ := hex
    obtain ⟨p, hp, e2, e3, e4, e5, e6⟩ := h.live i b hi
    have hil : i < o.length := (List.getElem?_eq_some_iff.mp hi).1
    have hpl : i < s.profs.length := (List.getElem?_eq_some_iff.mp hp).1
    rw [stop_open v hp (by rw [e2]; exact e3), next_stop]
    have hlive : ∀ (j : Nat) c, (o.set i none)[j]? = some (some c) →
        j ≠ i ∧ o[j]? = some (some c) := fun j c hc => get_set_some o i j c hc
    have hj : (o[i]?).join = some b := by rw [hi]; rfl
    have L : (s.profs.set i { p with name := "" }).length = (o.set i none).length := by
      simp only [List.length_set, h.len]
    have Lv : ∀ (j : Nat) c, (o.set i none)[j]? = some (some c) →
        ∃ q, (s.profs.set i { p with name := "" })[j]? = some q ∧ q.name = c.name ∧ c.name ≠ "" ∧
          q.start.volume = c.volume ∧ (∀ v, c.volume = some v → v < M) ∧ q.start.time ≤ s.clock := by
      intro j c hc
      obtain ⟨hji, hc⟩ := hlive j c hc
      obtain ⟨q, f1, f2⟩ := h.live j c hc
      exact ⟨q, by rw [List.getElem?_set_ne (fun h => hji h.symm)]; exact f1, f2⟩
    have Dd : ∀ j : Nat, (o.set i none)[j]? = some none →
        ∃ q, (s.profs.set i { p with name := "" })[j]? = some q ∧ q.name = "" := by
      intro j hc
      by_cases hji : j = i
      · subst hji
        exact ⟨_, List.getElem?_set_self hpl, rfl⟩
      · rw [List.getElem?_set_ne (fun h => hji h.symm)] at hc ⊢
        exact h.dead j hc
    by_cases hb : b.name = n
    · have R := record_get h hk hA i b p v hv hi hp hb
      dsimp only at R
      obtain ⟨r1, r2, r3, r4⟩ := R
      have hpn : p.name = n := by rw [e2, hb]
      have hle := h.le i b p hi hp hb
      have hle0 := h.le0
      refine ⟨L, Lv, Dd, ?_, ?_, ?_, ?_, h.Ac, ?_, ?_, ?_⟩
      · simp only [hpn, upd_self]; exact r1
      · simp only [List.length_set]; omega
      · simp only [S.get, hpn, upd_self, hj, isFor, hb, beq_self_eq_true, if_true]; exact r2
      · split <;> omega
      · simp only [S.get, hpn, upd_self] at hle0 hle ⊢
        rw [r3]
        simp only [S.get]
        split <;> omega
      · intro j c q hc hq hcn
        obtain ⟨hji, hc'⟩ := hlive j c hc
        have hq' : s.profs[j]? = some q := by
          have hq0 : (s.profs.set i { p with name := "" })[j]? = some q := hq
          rw [List.getElem?_set_ne (fun h => hji h.symm)] at hq0
          exact hq0
        have ha : Opened.active (o.set i none) n = true := (active_iff _ n).mpr ⟨j, c, hc, hcn⟩
        have := h.le j c q hc' hq' hcn
        simp only [S.get, hpn, upd_self] at this ⊢
        rw [r3, ha]
        simp only [S.get, if_true]
        omega
      · simp only [S.get, hpn, upd_self]
        rw [r4]
        simp only [volumeOf, hj, hb, true_and, next_stop]
        cases Opened.active (o.set i none) n <;> simp
    · have hpn : ¬ n = p.name := by rw [e2]; exact fun h => hb h.symm
      have hc := countP_set_none o n i b hi
      rw [if_neg hb] at hc
      have hg : ∀ (cl : Nat) (pr : List Prof), S.get ⟨cl, upd s.table p.name
          (recordEntry (s.table p.name) p.start (snapshot s.clock v)), pr⟩ n = s.get n := by
        intro cl pr
        simp only [S.get, upd_ne _ _ hpn]
      refine ⟨L, Lv, Dd, ?_, ?_, ?_, ?_, h.Ac, ?_, ?_, ?_⟩
      · simp only [upd_ne _ _ hpn]
        have := h.inst
        omega
      · simp only [List.length_set]; omega
      · rw [hg, h.count, hj]
        have : isFor n (some b) = false := by simp [isFor, hb]
        simp [this]
      · split <;> omega
      · rw [hg]; exact h.le0
      · intro j c q hcj hq hcn
        obtain ⟨hji, hc'⟩ := hlive j c hcj
        have hq' : s.profs[j]? = some q := by
          have hq0 : (s.profs.set i { p with name := "" })[j]? = some q := hq
          rw [List.getElem?_set_ne (fun h => hji h.symm)] at hq0
          exact hq0
        rw [hg]
        exact h.le j c q hc' hq' hcn
      · rw [hg, h.vol]
        simp [volumeOf, hj, hb]
  · have hno : ∀ b, o[i]? ≠ some (some b) := fun b e => hex ⟨b, e⟩
    rw [stop_nothing h i v hno, next_stop, set_none_self o i hno, join_none hno]
    have hv0 : volumeOf n o i v = [] := by simp only [volumeOf, join_none hno]
    rw [hv0, List.append_nil]
    simp only [isFor, Bool.false_eq_true, if_false, Nat.add_zero]
    exact ⟨h.len, h.live, h.dead, h.inst, by omega, h.count, by omega, h.Ac, h.le0, h.le, h.vol⟩

theorem stop_eqv {n : String} {o : Opened} {k C A : Nat} {V : List Int} {s : S} (h : Inv n o k C A V s)
    (q : Eqv n o A s) (hk : k + 1 < M) (hA : s.clock < M) (i : Nat) (v : Option Nat) (hv : ∀ w, v = some w → w < M)
    (hN : ∀ b, o[i]? = some (some b) → ∀ j > i, ∀ c, o[j]? = some (some c) → c.name ≠ b.name) :
    Eqv n (o.next (.stop i v)) A (step (.stop i v) s) := by
  by_cases hex : ∃ b, o[i]? = some (some b)
  · obtain ⟨b, hi⟩ := hex
    obtain ⟨p, hp, e2, e3, e4, e5, e6⟩ := h.live i b hi
    have hlive : ∀ (j : Nat) c, (o.set i none)[j]? = some (some c) →
        j ≠ i ∧ o[j]? = some (some c) := fun j c hc => get_set_some o i j c hc
    have hset : ∀ (j : Nat) c, j ≠ i → o[j]? = some (some c) → (o.set i none)[j]? = some (some c) := by
      intro j c hji hc
      rw [List.getElem?_set_ne (fun h => hji h.symm)]
      exact hc
    rw [stop_open v hp (by rw [e2]; exact e3), next_stop]
    by_cases hb : b.name = n
    · have R := record_get h hk hA i b p v hv hi hp hb
      dsimp only at R
      obtain ⟨_, _, r3, _⟩ := R
      have hpn : p.name = n := by rw [e2, hb]
      refine ⟨?_, ?_⟩
      · intro ha
        have hfirst : ∀ j < i, ∀ c, o[j]? = some (some c) → c.name ≠ n := by
          intro j hj c hc hcn
          have : Opened.active (o.set i none) n = true :=
            (active_iff _ n).mpr ⟨j, c, hset j c (by omega) hc, hcn⟩
          rw [ha] at this
          cases this
        have := q.first i b p hi hp hb hfirst
        simp only [S.get, hpn, upd_self] at this ⊢
        rw [r3, ha]
        simp only [S.get, Bool.false_eq_true, if_false]
        exact this
      · intro j c r hc hr hcn hf
        obtain ⟨hji, hc'⟩ := hlive j c hc
        have hr' : s.profs[j]? = some r := by
          have hq0 : (s.profs.set i { p with name := "" })[j]? = some r := hr
          rw [List.getElem?_set_ne (fun h => hji h.symm)] at hq0
          exact hq0
        have ha : Opened.active (o.set i none) n = true := (active_iff _ n).mpr ⟨j, c, hc, hcn⟩
        have hjlt : j < i := by
          rcases Nat.lt_or_gt_of_ne hji with hlt | hgt
          · exact hlt
          · exact absurd (hcn.trans hb.symm) (hN b hi j hgt c hc')
        have := q.first j c r hc' hr' hcn (fun l hl d hd => hf l hl d (hset l d (by omega) hd))
        simp only [S.get, hpn, upd_self] at this ⊢
        rw [r3, ha]
        simp only [S.get, if_true]
        omega
    · have hpn : ¬ n = p.name := by rw [e2]; exact fun h => hb h.symm
      have hg : ∀ (cl : Nat) (pr : List Prof), S.get ⟨cl, upd s.table p.name
          (recordEntry (s.table p.name) p.start (snapshot s.clock v)), pr⟩ n = s.get n := by
        intro cl pr
        simp only [S.get, upd_ne _ _ hpn]
      refine ⟨?_, ?_⟩
      · intro ha
        rw [hg]
        refine q.none ?_
        rw [active_countP] at ha ⊢
        have hc := countP_set_none o n i b hi
        rw [if_neg hb] at hc
        omega
      · intro j c r hc hr hcn hf
        obtain ⟨hji, hc'⟩ := hlive j c hc
        have hr' : s.profs[j]? = some r := by
          have hq0 : (s.profs.set i { p with name := "" })[j]? = some r := hr
          rw [List.getElem?_set_ne (fun h => hji h.symm)] at hq0
          exact hq0
        rw [hg]
        refine q.first j c r hc' hr' hcn (fun l hl d hd hdn => ?_)
        refine hf l hl d (hset l d ?_ hd) hdn
        rintro rfl
        rw [hi] at hd
        injection hd with hd
        injection hd with hd
        subst hd
        exact hb hdn
  · have hno : ∀ b, o[i]? ≠ some (some b) := fun b e => hex ⟨b, e⟩
    rw [stop_nothing h i v hno, next_stop, set_none_self o i hno]
    exact q

/-- Volumes given are 64-bit numbers. -/
def Fits (ops : List Op) : Prop :=
  ∀ w, (∀ n, Op.start n (some w) ∈ ops → w < M) ∧ (∀ i, Op.stop i (some w) ∈ ops → w < M)

theorem run_inv (n : String) : ∀ (ops : List Op) {o : Opened} {k C A : Nat} {V : List Int} {s : S},
    Inv n o k C A V s → k + ops.length < M → s.clock + duration ops < M → Named ops → Fits ops →
    Inv n (o.after ops) (k + ops.length) (C + stops n ops o) (A + activeTime n ops o) (V ++ volumes n ops o)
      (run ops s) ∧
    (Eqv n o A s → Nested ops o → Eqv n (o.after ops) (A + activeTime n ops o) (run ops s))
  | [], o, k, C, A, V, s, h, _, _, _, _ => by
    simp only [Opened.after, stops, activeTime, volumes, run, List.append_nil, List.length_nil, Nat.add_zero]
    exact ⟨h, fun q _ => q⟩
  | op :: ops, o, k, C, A, V, s, h, hk, hd, hm, hf => by
    simp only [List.length_cons] at hk
    have hm' : Named ops := fun v hv => hm v (List.mem_cons_of_mem _ hv)
    have hf' : Fits ops := fun w => ⟨fun n hn => (hf w).1 n (List.mem_cons_of_mem _ hn),
      fun i hi => (hf w).2 i (List.mem_cons_of_mem _ hi)⟩
    have el : k + (op :: ops).length = k + 1 + ops.length := by simp only [List.length_cons]; omega
    cases op with
    | tick d =>
      simp only [duration] at hd
      have h1 := tick_inv h d
      have IH := run_inv n ops h1 (by omega) (by simp only [step]; omega) hm' hf'
      have ea : A + activeTime n (.tick d :: ops) o = A + (if o.active n then d else 0) + activeTime n ops o := by
        simp only [activeTime]; omega
      rw [el, ea]
      refine ⟨IH.1, fun q hn => IH.2 (tick_eqv h q d) hn⟩
    | start m v =>
      simp only [duration] at hd
      have h1 := start_inv h (by omega) m v
        (fun e => hm v (by rw [← e]; exact List.mem_cons_self ..))
        (fun w hw => (hf w).1 m (by rw [← hw]; exact List.mem_cons_self ..))
      have IH := run_inv n ops h1 (by omega) hd hm' hf'
      rw [el]
      exact ⟨IH.1, fun q hn => IH.2 (start_eqv h q m v) hn⟩
    | stop i v =>
      simp only [duration] at hd
      have hv : ∀ w, v = some w → w < M := fun w hw => (hf w).2 i (by rw [← hw]; exact List.mem_cons_self ..)
      have h1 := stop_inv h (by omega) (by omega) i v hv
      have hcl : (step (.stop i v) s).clock = s.clock := by
        simp only [step, record]
        split
        · rfl
        · split <;> rfl
      have IH := run_inv n ops h1 (by omega) (by rw [hcl]; exact hd) hm' hf'
      have es : C + stops n (.stop i v :: ops) o =
          C + (if isFor n ((o[i]?).join) then 1 else 0) + stops n ops (o.next (.stop i v)) := by
        simp only [stops]; omega
      have ev : V ++ volumes n (.stop i v :: ops) o = V ++ volumeOf n o i v ++ volumes n ops (o.next (.stop i v)) := by
        simp only [volumes, List.append_assoc]
      rw [el, es, ev]
      exact ⟨IH.1, fun q hn => IH.2 (stop_eqv h q (by omega) (by omega) i v hv hn.1) hn.2⟩

theorem init_inv (n : String) (c : Nat) : Inv n [] 0 0 0 [] (init c) := by
  refine ⟨rfl, fun i b h => ?_, fun i h => ?_, rfl, Nat.le_refl _, rfl, Nat.le_refl _, Nat.zero_le _, Nat.le_refl _,
    fun i b p h => ?_, rfl⟩ <;> simp at h

theorem init_eqv (n : String) (c : Nat) : Eqv n [] 0 (init c) := by
  refine ⟨fun _ => rfl, fun i b p h => ?_⟩
  simp at h

/-- **What the profiler says**: blocks are counted whenever they are stopped; the volume is the sum of the volumes of
the blocks whose stop leaves no block of the name open; the time is never more than the time during which blocks of the
name were open. -/
theorem measured (c : Nat) (ops : List Op) (n : String) (hl : ops.length < 2 ^ 64)
    (hc : c + duration ops < 2 ^ 64) (hn : Named ops)
    (hv : ∀ w, (∀ m, Op.start m (some w) ∈ ops → w < 2 ^ 64) ∧ (∀ i, Op.stop i (some w) ∈ ops → w < 2 ^ 64)) :
    ((run ops (init c)).get n).count = stops n ops [] ∧
    ((run ops (init c)).get n).time ≤ activeTime n ops [] ∧
    ((run ops (init c)).get n).volume =
      if volumes n ops [] = [] then none else some (((volumes n ops []).sum % 2 ^ 64).toNat) := by
  have I := (run_inv n ops (init_inv n c) (by unfold M; omega) hc hn hv).1
  simp only [Nat.zero_add, List.nil_append] at I
  exact ⟨I.count, I.le0, I.vol⟩

/-- **The time is exact** if blocks of the same name are nested and all are stopped: it is the time during which blocks
of the name were open. -/
theorem measured_time (c : Nat) (ops : List Op) (n : String) (hl : ops.length < 2 ^ 64)
    (hc : c + duration ops < 2 ^ 64) (hn : Named ops)
    (hv : ∀ w, (∀ m, Op.start m (some w) ∈ ops → w < 2 ^ 64) ∧ (∀ i, Op.stop i (some w) ∈ ops → w < 2 ^ 64))
    (hnest : Nested ops []) (hend : ∀ b, some b ∈ Opened.after [] ops → b.name ≠ n) :
    ((run ops (init c)).get n).time = activeTime n ops [] := by
  have E := (run_inv n ops (init_inv n c) (by unfold M; omega) hc hn hv).2 (init_eqv n c) hnest
  rw [Nat.zero_add] at E
  refine E.none ?_
  rw [← Bool.not_eq_true, active_iff]
  rintro ⟨i, b, hi, hb⟩
  exact hend b (List.mem_iff_getElem?.mpr ⟨i, hi⟩) hb

end Verif.Prof
