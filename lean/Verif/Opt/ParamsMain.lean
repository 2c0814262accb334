import Verif.Opt.ParamsKeep
import Verif.Opt.DeadStaticMain

/-!
# Optimizing parameters keeps what programs do (C84)
-/

namespace Verif.Opt.Whole

variable {M : Sem}

theorem get_map (t : Fn → Fun → Fun) (f : Fn) : ∀ (P : Prog), Prog.get (P.map fun x => (x.1, t x.1 x.2)) f = (P.get f).map (t f)
  | [] => rfl
  | (g, F) :: P => by
    simp only [List.map_cons, Prog.get]
    by_cases h : f = g
    · rw [if_pos h, if_pos h, h]; rfl
    · simp only [if_neg h]; exact get_map t f P

theorem get_promote (P : Prog) (f : Fn) : (promote P).get f = (P.get f).map (Fun.promote P.kinds) := get_map (fun _ F => F.promote P.kinds) f P

theorem get_prune (r : Fn → Nat → Bool) (pr : Fn → Bool) (rank : Fn → Nat) (P : Prog) (f : Fn) :
    (pruneProg r pr rank P).get f = (P.get f).map (Fun.prune r pr rank f) := get_map (Fun.prune r pr rank) f P

/-! ## Kinds -/

theorem KindsR.length {ks ks' : List Kind} (h : KindsR ks ks') : ks'.length = ks.length := by
  induction ks generalizing ks' with
  | nil => cases ks' with
    | nil => rfl
    | cons => simp [KindsR] at h
  | cons k ks ih => cases ks' with
    | nil => simp [KindsR] at h
    | cons k' ks' => simp [ih h.2]

theorem KindsR.refl : ∀ (ks : List Kind), KindsR ks ks
  | [] => trivial
  | _ :: ks => ⟨.inl rfl, KindsR.refl ks⟩

theorem KindsR.fits {d : Nat} : ∀ {ks ks' : List Kind} {args : List Arg}, KindsR ks ks' → Fits d ks args → Fits d ks' args
  | [], [], _, _, h => h
  | [], _ :: _, _, hk, _ => by simp [KindsR] at hk
  | _ :: _, [], _, hk, _ => by simp [KindsR] at hk
  | k :: ks, k' :: ks', [], _, h => by cases k <;> simp [Fits] at h
  | k :: ks, k' :: ks', .val v :: as, hk, h => by
    have : Fits d ks as := by cases k <;> simpa [Fits] using h
    have := KindsR.fits hk.2 this
    cases k' <;> simpa [Fits] using this
  | k :: ks, k' :: ks', .ref l :: as, hk, h => by
    have hc : k ≠ .copy := by rintro rfl; simp [Fits] at h
    have hc' : k' ≠ .copy := by rcases hk.1 with h | h <;> rw [h] <;> simp [hc]
    cases l with
    | glob g =>
      have : Fits d ks as := by cases k <;> simp [Fits] at h <;> exact h
      have := KindsR.fits hk.2 this
      cases k' <;> simp [Fits] at hc' ⊢ <;> exact this
    | slot e y =>
      have : e ≤ d ∧ Fits d ks as := by cases k <;> simp [Fits] at h <;> exact h
      have := And.intro this.1 (KindsR.fits hk.2 this.2)
      cases k' <;> simp [Fits] at hc' ⊢ <;> exact this

theorem promoteKinds_rel (m : List Nat) : ∀ (ps : List Nat) (ks : List Kind), KindsR ks (promoteKinds m ps ks)
  | [], ks => by simp only [promoteKinds]; exact .refl ks
  | _ :: _, [] => by simp only [promoteKinds]; trivial
  | p :: ps, k :: ks => by
    simp only [promoteKinds]
    exact ⟨by split <;> simp, promoteKinds_rel m ps ks⟩

theorem promoteKinds_get (m : List Nat) : ∀ (ps : List Nat) (ks : List Kind) (j : Nat) {x : Nat} {k : Kind}, ps[j]? = some x → ks[j]? = some k →
    (promoteKinds m ps ks)[j]? = some (if m.contains x then k else Kind.in_)
  | [], ks, j, x, k, h, _ => by simp at h
  | _ :: _, [], j, x, k, _, h => by simp at h
  | p :: ps, k0 :: ks, 0, x, k, h, h' => by
    simp only [List.getElem?_cons_zero, Option.some.injEq] at h h'
    subst h; subst h'; simp [promoteKinds]
  | p :: ps, k0 :: ks, j + 1, x, k, h, h' => by
    simp only [List.getElem?_cons_succ] at h h'
    simp only [promoteKinds, List.getElem?_cons_succ]
    exact promoteKinds_get m ps ks j h h'

theorem promoteProto_rel {ks : List Kind} : ∀ (old ik ik' acc : List Kind), KindsR ks acc → KindsR ks (promoteProto old ik ik' acc) := by
  induction ks with
  | nil =>
    intro old ik ik' acc h
    cases acc with
    | nil => cases old <;> cases ik <;> cases ik' <;> exact h
    | cons => simp [KindsR] at h
  | cons k ks ih =>
    intro old ik ik' acc h
    cases acc with
    | nil => simp [KindsR] at h
    | cons a acc =>
      cases old with
      | nil => exact h
      | cons o old => cases ik with
        | nil => exact h
        | cons i ik => cases ik' with
          | nil => exact h
          | cons i' ik' =>
            simp only [promoteProto]
            refine ⟨?_, ih old ik ik' acc h.2⟩
            split
            · exact .inr rfl
            · exact h.1

theorem promoteProto_get : ∀ (old ik ik' acc : List Kind) (j : Nat) {o i i' a : Kind}, old[j]? = some o → ik[j]? = some i → ik'[j]? = some i' →
    acc[j]? = some a → (promoteProto old ik ik' acc)[j]? = some (if i = o ∧ i' = Kind.in_ then Kind.in_ else a)
  | [], _, _, _, j, _, _, _, _, h, _, _, _ => by simp at h
  | _ :: _, [], _, _, j, _, _, _, _, _, h, _, _ => by simp at h
  | _ :: _, _ :: _, [], _, j, _, _, _, _, _, _, h, _ => by simp at h
  | _ :: _, _ :: _, _ :: _, [], j, _, _, _, _, _, _, _, h => by simp at h
  | o0 :: old, i0 :: ik, j0 :: ik', a0 :: acc, 0, o, i, i', a, h1, h2, h3, h4 => by
    simp only [List.getElem?_cons_zero, Option.some.injEq] at h1 h2 h3 h4
    subst h1; subst h2; subst h3; subst h4; simp only [promoteProto, List.getElem?_cons_zero]
  | o0 :: old, i0 :: ik, j0 :: ik', a0 :: acc, j + 1, o, i, i', a, h1, h2, h3, h4 => by
    simp only [List.getElem?_cons_succ] at h1 h2 h3 h4
    simp only [promoteProto, List.getElem?_cons_succ]
    exact promoteProto_get old ik ik' acc j h1 h2 h3 h4

theorem some_of_length {α : Type} {l : List α} {j n : Nat} (h : l.length = n) (hj : j < n) : ∃ a, l[j]? = some a :=
  ⟨l[j]'(by omega), List.getElem?_eq_getElem _⟩

theorem lt_of_some {α : Type} {l : List α} {j : Nat} {a : α} (h : l[j]? = some a) : j < l.length :=
  (List.getElem?_eq_some_iff.mp h).1

section
variable {K : Fn → List Kind} {ks : List Kind}

/-- The kinds of a prototype while its implementations are visited. -/
def fold (K : Fn → List Kind) (ks : List Kind) (l : List Impl) (acc : List Kind) : List Kind :=
  l.foldl (fun acc i => promoteProto ks i.kinds (i.promote K).kinds acc) acc

theorem fold_cons (i : Impl) (l : List Impl) (acc : List Kind) :
    fold K ks (i :: l) acc = fold K ks l (promoteProto ks i.kinds (i.promote K).kinds acc) := rfl

theorem fold_rel : ∀ (l : List Impl) {acc : List Kind}, KindsR ks acc → KindsR ks (fold K ks l acc)
  | [], acc, h => h
  | i :: l, acc, h => by rw [fold_cons]; exact fold_rel l (promoteProto_rel _ _ _ _ h)

theorem promote_kinds_length {i : Impl} (h : i.kinds = ks) : (i.promote K).kinds.length = ks.length := by
  rw [← h]; exact (promoteKinds_rel _ _ _).length

theorem fold_get : ∀ (l : List Impl) {acc : List Kind} (_ : ∀ i ∈ l, i.kinds = ks) (j : Nat) {a : Kind}, acc.length = ks.length → acc[j]? = some a →
    (fold K ks l acc)[j]? = some a ∨ ((fold K ks l acc)[j]? = some Kind.in_ ∧ ∃ i ∈ l, (i.promote K).kinds[j]? = some Kind.in_)
  | [], acc, _, j, a, hl, h => .inl h
  | i :: l, acc, hi, j, a, hl, h => by
    rw [fold_cons]
    have hik := hi i (by simp)
    have hj : j < ks.length := by have := lt_of_some h; omega
    obtain ⟨o, ho⟩ := some_of_length (rfl : ks.length = ks.length) hj
    obtain ⟨k', hk'⟩ := some_of_length (promote_kinds_length (K := K) hik) hj
    have hp := promoteProto_get ks i.kinds (i.promote K).kinds acc j ho (by rw [hik]; exact ho) hk' h
    have hlen : (promoteProto ks i.kinds (i.promote K).kinds acc).length = ks.length := by
      have := (promoteProto_rel (ks := acc) ks i.kinds (i.promote K).kinds acc (.refl acc)).length
      omega
    rcases fold_get l (fun i h => hi i (by simp [h])) j hlen hp with h1 | ⟨h1, i', h2, h3⟩
    · by_cases hc : o = o ∧ k' = Kind.in_
      · rw [if_pos hc] at h1
        exact .inr ⟨h1, i, by simp, by rw [hk', hc.2]⟩
      · rw [if_neg hc] at h1; exact .inl h1
    · exact .inr ⟨h1, i', by simp [h2], h3⟩

theorem fold_in : ∀ (l : List Impl) {acc : List Kind} (_ : ∀ i ∈ l, i.kinds = ks) (j : Nat), acc.length = ks.length → j < ks.length →
    (acc[j]? = some Kind.in_ ∨ ∃ i ∈ l, (i.promote K).kinds[j]? = some Kind.in_) → (fold K ks l acc)[j]? = some Kind.in_
  | [], acc, _, j, hl, hj, h => by
    rcases h with h | ⟨i, h, _⟩
    · exact h
    · simp at h
  | i :: l, acc, hi, j, hl, hj, h => by
    rw [fold_cons]
    have hik := hi i (by simp)
    obtain ⟨o, ho⟩ := some_of_length (rfl : ks.length = ks.length) hj
    obtain ⟨a, ha⟩ := some_of_length hl hj
    obtain ⟨k', hk'⟩ := some_of_length (promote_kinds_length (K := K) hik) hj
    have hp := promoteProto_get ks i.kinds (i.promote K).kinds acc j ho (by rw [hik]; exact ho) hk' ha
    have hlen : (promoteProto ks i.kinds (i.promote K).kinds acc).length = ks.length := by
      have := (promoteProto_rel (ks := acc) ks i.kinds (i.promote K).kinds acc (.refl acc)).length
      omega
    refine fold_in l (fun i h => hi i (by simp [h])) j hlen hj ?_
    rcases h with h | ⟨i', h, h'⟩
    · left
      rw [ha] at h; injection h with h
      rw [hp, h]; split <;> rfl
    · simp only [List.mem_cons] at h
      rcases h with h | h
      · left
        subst h
        rw [hk'] at h'; injection h' with h'
        rw [hp, if_pos ⟨rfl, h'⟩]
      · exact .inr ⟨i', h, h'⟩
end

theorem Fun.promote_ext (K : Fn → List Kind) (F : Fun) : (F.promote K).ext = F.ext := by unfold Fun.promote; split <;> rfl
theorem Fun.promote_dflt (K : Fn → List Kind) (F : Fun) : (F.promote K).dflt = F.dflt := by unfold Fun.promote; split <;> rfl
theorem Fun.promote_fixed {K : Fn → List Kind} {F : Fun} (h : F.fixed = true) : F.promote K = F := by unfold Fun.promote; rw [if_pos h]
theorem Fun.promote_kinds {K : Fn → List Kind} {F : Fun} (h : F.fixed = false) : (F.promote K).kinds = fold K F.kinds F.impls F.kinds := by
  unfold Fun.promote; rw [if_neg (by simp [h])]; rfl
theorem Fun.promote_impls {K : Fn → List Kind} {F : Fun} (h : F.fixed = false) : (F.promote K).impls = F.impls.map (Impl.promote K) := by
  unfold Fun.promote; rw [if_neg (by simp [h])]

theorem promote_rel (K : Fn → List Kind) (F : Fun) : KindsR F.kinds (F.promote K).kinds := by
  cases h : F.fixed with
  | true => rw [Fun.promote_fixed h]; exact .refl _
  | false => rw [Fun.promote_kinds h]; exact fold_rel _ (.refl _)

theorem kinds_promote (P : Prog) (f : Fn) : KindsR (P.kinds f) ((promote P).kinds f) := by
  simp only [Prog.kinds, get_promote]
  cases P.get f with
  | none => trivial
  | some F => exact promote_rel _ F

/-! ## Positions -/

theorem dropAt_eq {α : Type} : ∀ (a b : List α) {r : Nat → Bool}, a.length = b.length → dropAt r a = dropAt r b →
    (∀ j, r j = true → j < a.length → a[j]? = b[j]?) → a = b
  | [], [], _, _, _, _ => rfl
  | [], _ :: _, _, h, _, _ => by simp at h
  | _ :: _, [], _, h, _, _ => by simp at h
  | x :: a, y :: b, r, hl, h, hj => by
    simp only [List.length_cons, Nat.add_right_cancel_iff] at hl
    rw [dropAt_cons, dropAt_cons] at h
    have hj' : ∀ j, shift r j = true → j < a.length → a[j]? = b[j]? := fun j h1 h2 => by
      simpa using hj (j + 1) h1 (by simpa using h2)
    cases h0 : r 0 with
    | true =>
      have := hj 0 h0 (by simp)
      simp only [List.getElem?_cons_zero, Option.some.injEq] at this
      simp only [h0, if_true] at h
      rw [this, dropAt_eq a b hl h hj']
    | false =>
      simp only [h0, Bool.false_eq_true, if_false, List.cons.injEq] at h
      rw [h.1, dropAt_eq a b hl h.2 hj']

theorem zip_get {x : Nat} {k : Kind} {ps : List Nat} {ks : List Kind} (h : (x, k) ∈ ps.zip ks) : ∃ j : Nat, ps[j]? = some x ∧ ks[j]? = some k := by
  obtain ⟨j, hj⟩ := List.mem_iff_getElem?.mp h
  exact ⟨j, List.getElem?_zip_eq_some.mp hj⟩

theorem zip_mem {x : Nat} {k : Kind} {ps : List Nat} {ks : List Kind} {j : Nat} (h : ps[j]? = some x) (h' : ks[j]? = some k) : (x, k) ∈ ps.zip ks :=
  List.mem_iff_getElem?.mpr ⟨j, List.getElem?_zip_eq_some.mpr ⟨h, h'⟩⟩

theorem dropAt_zip {x : Nat} {k : Kind} : ∀ (ps : List Nat) (ks : List Kind) {r : Nat → Bool} (j : Nat), r j = false → ps[j]? = some x → ks[j]? = some k →
    (x, k) ∈ (dropAt r ps).zip (dropAt r ks)
  | [], _, _, _, _, h, _ => by simp at h
  | _ :: _, [], _, _, _, _, h => by simp at h
  | p :: ps, k0 :: ks, r, 0, hr, h, h' => by
    simp only [List.getElem?_cons_zero, Option.some.injEq] at h h'
    subst h; subst h'
    rw [dropAt_cons, dropAt_cons, hr]; simp
  | p :: ps, k0 :: ks, r, j + 1, hr, h, h' => by
    simp only [List.getElem?_cons_succ] at h h'
    have ih := dropAt_zip ps ks (r := shift r) j hr h h'
    rw [dropAt_cons, dropAt_cons]
    split
    · exact ih
    · simp [ih]

/-! ## What is removed -/

theorem unused_spec {P : Prog} {f : Fn} {j : Nat} (h : P.unused f j = true) : ∃ F, P.get f = some F ∧ F.fixed = false ∧ j < F.kinds.length ∧
    ∀ i ∈ F.impls, ∀ x, i.params[j]? = some x → x ∉ i.body.locs := by
  unfold Prog.unused at h
  cases hF : P.get f with
  | none => simp [hF] at h
  | some F =>
    simp only [hF, Bool.and_eq_true, Bool.not_eq_true', decide_eq_true_eq, List.all_eq_true] at h
    refine ⟨F, rfl, h.1.1.1.1.1, h.1.2, fun i hi x hx => ?_⟩
    have := h.2 i hi
    simp only [hx, List.contains_eq_mem] at this
    simpa using this

theorem unused_unmentioned {P : Prog} {f : Fn} {j : Nat} (h : P.unused f j = true) : Unmentioned P f j := by
  obtain ⟨F, h1, h2, _, h3⟩ := unused_spec h
  exact ⟨F, h1, h2, h3⟩

theorem unused_fixed {P : Prog} {f : Fn} {F : Fun} (h : P.get f = some F) (hx : F.fixed = true) (j : Nat) : P.unused f j = false := by
  cases hu : P.unused f j with
  | false => rfl
  | true =>
    obtain ⟨G, h1, h2, _⟩ := unused_spec hu
    rw [h] at h1; injection h1 with h1; subst h1; rw [hx] at h2; cases h2

/-! ## The program between the two steps -/

section
variable {P : Prog} (hP : Compiles P) (hQ : Compiles (optimizeParams P)) (hi : IdleArgs M P)

theorem get_opt {f : Fn} {F : Fun} (h : P.get f = some F) :
    (optimizeParams P).get f = some ((F.promote P.kinds).prune P.unused P.prunes P.rank f) := by
  unfold optimizeParams
  rw [get_prune, get_promote, h]; rfl

include hP hQ hi

theorem dropPlain {f : Fn} {F : Fun} (h : P.get f = some F) {i : Impl} (hm : i ∈ F.impls) : ∀ c ∈ i.body.invocations, DropPlain P.unused c :=
  fun c hc j e he hu => (hi f F h i hm c hc j e he (unused_unmentioned hu)).2

/-- A parameter that is promoted is not changed. -/
theorem promoted_hidden {f : Fn} {F : Fun} (h : P.get f = some F) (hx : F.fixed = false) {i : Impl} (hm : i ∈ F.impls) {j : Nat} {x : Nat}
    (hj : i.params[j]? = some x) (hk : x ∉ i.body.changed P.kinds) : x ∉ i.body.hidden := by
  intro hh
  cases hu : P.unused f j with
  | true =>
    obtain ⟨F', h1, _, _, h2⟩ := unused_spec hu
    rw [h] at h1; injection h1 with h1; subst h1
    exact h2 i hm x hj (hidden_locs i.body hh)
  | false =>
    have hc := hQ.const f _ (get_opt h) (Impl.mk (dropAt (P.unused f) i.params) (dropAt (P.unused f) (i.promote P.kinds).kinds)
      (prunes' P.unused P.prunes P.rank i.body)) (by
        simp only [Fun.prune, List.mem_map]
        exact ⟨i.promote P.kinds, by rw [Fun.promote_impls hx]; exact List.mem_map_of_mem hm, rfl⟩) x
    have hik : i.kinds = F.kinds := (hP.consistent f F h).2 i hm |>.1
    have hpl : i.params.length = F.kinds.length := (hP.consistent f F h).2 i hm |>.2.1
    obtain ⟨k, hk0⟩ := some_of_length (l := i.kinds) (n := i.params.length) (by rw [hik, hpl]) (lt_of_some hj)
    have hkj := promoteKinds_get (i.body.changed P.kinds) i.params i.kinds j hj hk0
    rw [if_neg (by simpa [List.contains_eq_mem] using hk)] at hkj
    exact hc (dropAt_zip _ _ j hu hj hkj) (hidden_prune_b i.body (dropPlain hP hQ hi h hm) hh)

theorem promote_consistent : Consistent (promote P) := by
  intro f G hG
  rw [get_promote] at hG
  cases hF : P.get f with
  | none => rw [hF] at hG; simp at hG
  | some F =>
    rw [hF] at hG
    simp only [Option.map_some, Option.some.injEq] at hG
    subst hG
    have hc := hP.consistent f F hF
    cases hx : F.fixed with
    | true => rw [Fun.promote_fixed hx]; exact hc
    | false =>
      rw [Fun.promote_ext, Fun.promote_impls hx]
      refine ⟨fun h => by rw [hc.1 h]; rfl, fun i' hi' => ?_⟩
      obtain ⟨i, hm, rfl⟩ := List.mem_map.mp hi'
      have hci := hc.2 i hm
      have hlen : (i.promote P.kinds).kinds.length = (F.promote P.kinds).kinds.length := by
        rw [promote_kinds_length hci.1, (promote_rel P.kinds F).length]
      refine ⟨?_, by rw [(promote_rel P.kinds F).length]; exact hci.2.1, hci.2.2⟩
      refine dropAt_eq _ _ (r := P.unused f) hlen ?_ fun j hu hj => ?_
      · have := (hQ.consistent f _ (get_opt hF)).2 (Impl.mk (dropAt (P.unused f) i.params) (dropAt (P.unused f) (i.promote P.kinds).kinds)
          (prunes' P.unused P.prunes P.rank i.body)) (by
            simp only [Fun.prune, List.mem_map]
            exact ⟨i.promote P.kinds, by rw [Fun.promote_impls hx]; exact List.mem_map_of_mem hm, rfl⟩)
        exact this.1
      · obtain ⟨F', h1, _, _, h2⟩ := unused_spec hu
        rw [hF] at h1; injection h1 with h1; subst h1
        rw [promote_kinds_length hci.1] at hj
        obtain ⟨x, hpx⟩ := some_of_length hci.2.1 hj
        obtain ⟨k, hk0⟩ := some_of_length (l := i.kinds) (by rw [hci.1]) hj
        have hkj := promoteKinds_get (i.body.changed P.kinds) i.params i.kinds j hpx hk0
        rw [if_neg (by
          rw [List.contains_eq_mem]
          simpa using fun h => h2 i hm x hpx (changed_locs_b i.body h))] at hkj
        rw [Fun.promote_kinds hx, fold_in F.impls (fun i h => (hc.2 i h).1) j rfl hj (.inr ⟨i, hm, hkj⟩)]
        exact hkj

/-- A parameter that is `in` after promotion is not changed. -/
theorem promoted_const {f : Fn} {F : Fun} (h : P.get f = some F) (hx : F.fixed = false) {i : Impl} (hm : i ∈ F.impls) {j x : Nat}
    (hj : i.params[j]? = some x) (hk : (i.promote P.kinds).kinds[j]? = some Kind.in_) : x ∉ i.body.writes P.kinds := by
  have hc := (hP.consistent f F h).2 i hm
  obtain ⟨k, hk0⟩ := some_of_length (l := i.kinds) (n := i.params.length) (by rw [hc.1, hc.2.1]) (lt_of_some hj)
  have hkj := promoteKinds_get (i.body.changed P.kinds) i.params i.kinds j hj hk0
  have hk' : (promoteKinds (i.body.changed P.kinds) i.params i.kinds)[j]? = some Kind.in_ := hk
  rw [hk'] at hkj
  injection hkj with hkj
  by_cases hcx : x ∈ i.body.changed P.kinds
  · rw [if_pos (by simpa [List.contains_eq_mem] using hcx)] at hkj
    subst hkj
    exact hP.const f F h i hm x (zip_mem hj hk0)
  · intro hw
    rcases writes_changed_b (K := P.kinds) (K' := P.kinds) (fun f => .refl _) i.body hw with h' | h'
    · exact hcx h'
    · exact promoted_hidden hP hQ hi h hx hm hj hcx h'

theorem promotes : ExternalFixed P → SafeCopies P → Promotes P (promote P) := by
  intro he hs f
  cases hF : P.get f with
  | none => exact .inl ⟨rfl, by rw [get_promote, hF]; rfl⟩
  | some F =>
    have hG : (promote P).get f = some (F.promote P.kinds) := by rw [get_promote, hF]; rfl
    refine .inr ⟨F, _, rfl, hG, Fun.promote_ext _ _, Fun.promote_dflt _ _, fun h => by rw [Fun.promote_fixed (he f F hF h)], promote_rel _ _, ?_⟩
    have hc := hP.consistent f F hF
    have hcG := promote_consistent hP hQ hi f _ hG
    have hK : (promote P).kinds f = (F.promote P.kinds).kinds := by simp only [Prog.kinds, hG]
    have hK0 : P.kinds f = F.kinds := by simp only [Prog.kinds, hF]
    -- the conditions on calls
    have safe : ∀ i ∈ F.impls, ∀ c ∈ i.body.invocations, SafeCall P.kinds (promote P).kinds (OwnVariable i) c := by
      intro i hm c hcm j n hn h1 h2
      have hu : Unchanged P c.1 j := by
        cases hD : P.get c.1 with
        | none => simp [Prog.kinds, hD] at h1
        | some D =>
          have hDG : (promote P).get c.1 = some (D.promote P.kinds) := by rw [get_promote, hD]; rfl
          simp only [Prog.kinds, hD] at h1
          simp only [Prog.kinds, hDG] at h2
          cases hx : D.fixed with
          | true => rw [Fun.promote_fixed hx, h1] at h2; injection h2 with h2; cases h2
          | false =>
            have hcD := hP.consistent c.1 D hD
            have hcD' := promote_consistent hP hQ hi c.1 _ hDG
            rw [Fun.promote_impls hx] at hcD'
            have h2' := h2
            rw [Fun.promote_kinds hx] at h2'
            rcases fold_get (K := P.kinds) D.impls (fun i h => (hcD.2 i h).1) j rfl h1 with h3 | ⟨h3, i0, h4, h5⟩
            · rw [h2'] at h3; injection h3 with h3; cases h3
            refine ⟨D, hD, hx, fun h => by rw [h] at h4; simp at h4, fun i' hm' x hxj => ?_⟩
            refine promoted_const hP hQ hi hD hx hm' hxj ?_
            rw [(hcD'.2 _ (List.mem_map_of_mem hm')).1]
            exact h2
      obtain ⟨x, a1, a2, a3, a4⟩ := hs f F hF i hm c hcm j n hn h1 hu
      exact ⟨x, a1, a2, fun h => a3 (inouts_mono _ (kinds_promote P c.1) h), fun h => a4 (writes_mono' (kinds_promote P) _ h)⟩
    cases hx : F.fixed with
    | true =>
      have e1 : F.promote P.kinds = F := Fun.promote_fixed hx
      rw [e1] at hK ⊢
      refine Impls.refl _ fun i hm => ⟨rfl, rfl, by rw [hK0]; exact (hc.2 i hm).1, (hc.2 i hm).2.2, fun x hz hw => ?_, safe i hm⟩
      rw [hK, ← (hc.2 i hm).1] at hz
      exact hP.const f F hF i hm x hz (writes_mono_b (kinds_promote P) _ hw)
    | false =>
      rw [Fun.promote_impls hx] at hcG ⊢
      refine Impls.map (Impl.promote P.kinds) _ fun i hm => ⟨rfl, rfl, by rw [hK0]; exact (hc.2 i hm).1, (hc.2 i hm).2.2, fun x hz hw => ?_, safe i hm⟩
      obtain ⟨j, hj1, hj2⟩ := zip_get hz
      rw [hK, ← (hcG.2 _ (List.mem_map_of_mem hm)).1] at hj2
      exact promoted_const hP hQ hi hF hx hm hj1 hj2 (writes_mono_b (kinds_promote P) _ hw)

theorem promote_impl {f : Fn} {F : Fun} (_h : P.get f = some F) {i' : Impl} (hm : i' ∈ (F.promote P.kinds).impls) :
    ∃ i ∈ F.impls, i'.params = i.params ∧ i'.body = i.body := by
  cases hx : F.fixed with
  | true => rw [Fun.promote_fixed hx] at hm; exact ⟨i', hm, rfl, rfl⟩
  | false =>
    rw [Fun.promote_impls hx] at hm
    obtain ⟨i, hm', rfl⟩ := List.mem_map.mp hm
    exact ⟨i, hm', rfl, rfl⟩

theorem drops (he : ExternalFixed P) : Drops M P.unused P.prunes P.rank (promote P) (optimizeParams P) := by
  refine ⟨fun f hp j hj => ?_, fun f => ?_⟩
  · rw [(kinds_promote P f).length] at hj
    unfold Prog.prunes at hp
    rw [List.any_eq_false] at hp
    have := hp j (List.mem_range.mpr hj)
    simpa using this
  · cases hF : P.get f with
    | none => exact .inl ⟨by rw [get_promote, hF]; rfl, by unfold optimizeParams; rw [get_prune, get_promote, hF]; rfl⟩
    | some F =>
      have hG : (promote P).get f = some (F.promote P.kinds) := by rw [get_promote, hF]; rfl
      refine .inr ⟨_, _, hG, get_opt hF, rfl, rfl, fun h j => ?_, rfl, ?_⟩
      · rw [Fun.promote_ext] at h
        exact unused_fixed hF (he f F hF h) j
      · refine Impls.map (fun i : Impl => Impl.mk (dropAt (P.unused f) i.params) (dropAt (P.unused f) i.kinds) (prunes' P.unused P.prunes P.rank i.body))
          _ fun i' hm' => ⟨rfl, rfl, ?_, ?_, ?_, ?_⟩
        · have := promote_consistent hP hQ hi f _ hG
          simp only [Prog.kinds, hG]
          exact (this.2 i' hm').2.1
        · obtain ⟨i, hm, e1, e2⟩ := promote_impl hP hQ hi hF hm'
          rw [e1, e2]
          intro x hx hr
          obtain ⟨j, hj1, hj2⟩ := remAt_get hr
          obtain ⟨F', h1, _, _, h2⟩ := unused_spec hj2
          rw [hF] at h1; injection h1 with h1; subst h1
          exact h2 i hm x hj1 hx
        · obtain ⟨i, hm, e1, e2⟩ := promote_impl hP hQ hi hF hm'
          rw [e2]
          intro c hc
          refine ⟨fun j e he hu => (hi f F hF i hm c hc j e he (unused_unmentioned hu)).1, ?_⟩
          rw [(kinds_promote P c.1).length]
          exact hP.arity f F hF i hm c hc
        · exact hQ.arity f _ (get_opt hF) (Impl.mk (dropAt (P.unused f) i'.params) (dropAt (P.unused f) i'.kinds) (prunes' P.unused P.prunes P.rank i'.body))
            (by simp only [Fun.prune, List.mem_map]; exact ⟨i', hm', rfl⟩)

/-- Calls do the same before and after, with the arguments that are left. -/
theorem optimize_calls (he : ExternalFixed P) (hs : SafeCopies P) (n : Nat) {f : Fn} {args : List Arg} {d : Nat} (s : St M)
    (hf : Fits d (P.kinds f) args) : callN M P n f args d s = callN M (optimizeParams P) n f (dropAt (P.unused f) args) d s := by
  rw [promotes_same (promotes hP hQ hi he hs) n s hf]
  exact drops_same (drops hP hQ hi he) n s ((kinds_promote P f).fits hf)
end

/-- **Optimizing parameters keeps what programs do**: a function whose parameters may not be changed (`public`, `&cxxname`, `&always-emit`, exported) does the same
    before and after the pass, if the generated code compiles before and after, arguments for unused parameters have no effects, and variables passed for `copy` parameters
    that are not changed are not changed during the call. -/
theorem optimize_parameters_partial {P : Prog} (hP : Compiles P) (hQ : Compiles (optimizeParams P)) (he : ExternalFixed P) (hi : IdleArgs M P)
    (hs : SafeCopies P) {f : Fn} {F : Fun} (hf : P.get f = some F) (hx : F.fixed = true) {args : List Arg} {d : Nat} (ha : Fits d F.kinds args)
    (s : St M) (r : Ev M) : Does M P f args d s r ↔ Does M (optimizeParams P) f args d s r := by
  have ha' : Fits d (P.kinds f) args := by simpa only [Prog.kinds, hf] using ha
  have e1 : dropAt (P.unused f) args = args := dropAt_id _ fun j _ => unused_fixed hf hx j
  unfold Does
  constructor
  · rintro ⟨n, h⟩
    exact ⟨n, by rw [← h, optimize_calls hP hQ hi he hs n s ha', e1]⟩
  · rintro ⟨n, h⟩
    exact ⟨n, by rw [← h, optimize_calls hP hQ hi he hs n s ha', e1]⟩

end Verif.Opt.Whole
