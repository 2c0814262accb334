import Verif.Front.OverloadSpec
import Verif.Front.CoerceLaws
/-!
# Function calls: the theorems
-/

namespace Verif.Front.Overload

open Verif.Front.Coerce

/-! ## One argument -/

theorem direct_iff (wild : Int) (e : E) (t : Ty) : ∀ n, sizeOf t ≤ n →
    ((∃ x, coerceExpr wild n (callStyle false) e t = some x) ↔ Wraps e.ty t) := by
  induction t with
  | optional d ih =>
    intro n hn
    obtain ⟨m, rfl⟩ : ∃ m, n = m + 1 := ⟨n - 1, by simp at hn; omega⟩
    have ih := ih m (by simp at hn; omega)
    unfold coerceExpr
    by_cases he : e.ty = .optional d
    · rw [if_pos (by simp [callStyle, he])]
      exact ⟨fun _ => he ▸ .same, fun _ => ⟨_, rfl⟩⟩
    · rw [if_neg (by simp [callStyle, he])]
      have hs : (callStyle false).assign || (callStyle false).call := rfl
      rw [if_pos hs]
      dsimp only
      generalize coerceExpr wild m (callStyle false) e d = q at ih
      cases q with
      | none =>
        refine ⟨fun ⟨x, h⟩ => (by cases h), fun h => ?_⟩
        generalize e.ty = s at he h ih
        cases h with
        | same => exact absurd rfl he
        | optional h => obtain ⟨x, hx⟩ := ih.2 h; cases hx
      | some y => exact ⟨fun _ => .optional (ih.1 ⟨_, rfl⟩), fun _ => ⟨_, rfl⟩⟩
  | result d ih =>
    intro n hn
    obtain ⟨m, rfl⟩ : ∃ m, n = m + 1 := ⟨n - 1, by simp at hn; omega⟩
    have ih := ih m (by simp at hn; omega)
    unfold coerceExpr
    by_cases he : e.ty = .result d
    · rw [if_pos (by simp [callStyle, he])]
      exact ⟨fun _ => he ▸ .same, fun _ => ⟨_, rfl⟩⟩
    · rw [if_neg (by simp [callStyle, he])]
      have hs : (callStyle false).assign || (callStyle false).call := rfl
      rw [if_pos hs]
      dsimp only
      generalize coerceExpr wild m (callStyle false) e d = q at ih
      cases q with
      | none =>
        refine ⟨fun ⟨x, h⟩ => (by cases h), fun h => ?_⟩
        generalize e.ty = s at he h ih
        cases h with
        | same => exact absurd rfl he
        | result h => obtain ⟨x, hx⟩ := ih.2 h; cases hx
      | some y => exact ⟨fun _ => .result (ih.1 ⟨_, rfl⟩), fun _ => ⟨_, rfl⟩⟩
  | _ =>
    intro n hn
    obtain ⟨m, rfl⟩ : ∃ m, n = m + 1 := ⟨n - 1, by simp at hn; omega⟩
    unfold coerceExpr
    split
    · rename_i hc
      simp [callStyle] at hc
      exact ⟨fun _ => hc ▸ .same, fun _ => ⟨_, rfl⟩⟩
    · rename_i hc
      simp [callStyle] at hc
      refine ⟨fun ⟨x, h⟩ => (by simp [callStyle] at h), fun h => ?_⟩
      generalize e.ty = s at hc h
      cases h
      exact absurd rfl hc

theorem coerceArg_direct (wild : Int) (e : E) (t : Ty) : (∃ x, coerceArg wild false e t = some x) ↔ Wraps e.ty t :=
  direct_iff wild e t _ (Nat.le_add_left _ _)

theorem coerceArg_all (wild : Int) (e : E) (t : Ty) : (∃ x, coerceArg wild true e t = some x) ↔ Converts wild e t := by
  unfold coerceArg Converts
  constructor
  · rintro ⟨x, hx⟩
    exact ⟨sizeOf e + sizeOf t, fun n hn => ⟨x, (((coerce_enough wild _).1 n (callStyle true) e t (Nat.le_refl _) hn).symm.trans hx)⟩⟩
  · rintro ⟨m, hm⟩
    obtain ⟨x, hx⟩ := hm (m + (sizeOf e + sizeOf t)) (Nat.le_add_right _ _)
    exact ⟨x, ((coerce_enough wild _).1 (m + (sizeOf e + sizeOf t)) (callStyle true) e t (Nat.le_refl _) (Nat.le_add_left _ _)).trans hx⟩

/-- What is no constant gets the very type. -/
theorem coerce_type (wild : Int) (n : Nat) (c : Bool) (e x : E) (t : Ty) (hc : e.const? = none)
    (h : coerceExpr wild n (callStyle c) e t = some x) : (x = e ∧ e.ty = t) ∨ x.ty = t := by
  cases n with
  | zero => cases h
  | succ n =>
    unfold coerceExpr at h
    split at h
    · rename_i he
      simp [callStyle] at he
      injection h with h
      exact .inl ⟨h.symm, he⟩
    · right
      rw [hc] at h
      have hs : (callStyle c).assign || (callStyle c).call := rfl
      rw [if_pos hs] at h
      split at h
      · rename_i y hy
        injection h with h
        subst h
        split at hy
        · simp only [Option.map_eq_some_iff] at hy
          obtain ⟨z, _, rfl⟩ := hy
          rfl
        · simp only [Option.map_eq_some_iff] at hy
          obtain ⟨z, _, rfl⟩ := hy
          rfl
        · cases hy
      · split at h
        · dsimp only at h
          split at h
          · injection h with h
            subst h
            rfl
          · cases h
        · cases h

/-- What has the very type stays as it is. -/
theorem coerceArg_same (wild : Int) (c : Bool) (e : E) : coerceArg wild c e e.ty = some e := by
  unfold coerceArg
  obtain ⟨m, hm⟩ : ∃ m, sizeOf e + sizeOf e.ty = m + 1 := ⟨sizeOf e + sizeOf e.ty - 1, by
    generalize e.ty = t
    cases t <;> simp <;> omega⟩
  rw [hm]
  unfold coerceExpr
  rw [if_pos (by simp [callStyle])]

theorem wraps_converts (wild : Int) (e : E) (t : Ty) (h : Wraps e.ty t) : Converts wild e t := by
  induction h with
  | same => exact (coerceArg_all wild e e.ty).1 ⟨_, coerceArg_same wild true e⟩
  | @optional t _ ih =>
    obtain ⟨m, hm⟩ := ih
    refine ⟨m + 1, fun n hn => ?_⟩
    obtain ⟨k, rfl⟩ : ∃ k, n = k + 1 := ⟨n - 1, by omega⟩
    obtain ⟨x, hx⟩ := hm k (by omega)
    unfold coerceExpr
    split
    · exact ⟨_, rfl⟩
    · dsimp only
      rw [hx]
      exact ⟨_, rfl⟩
  | @result t _ ih =>
    obtain ⟨m, hm⟩ := ih
    refine ⟨m + 1, fun n hn => ?_⟩
    obtain ⟨k, rfl⟩ : ∃ k, n = k + 1 := ⟨n - 1, by omega⟩
    obtain ⟨x, hx⟩ := hm k (by omega)
    unfold coerceExpr
    split
    · exact ⟨_, rfl⟩
    · dsimp only
      rw [hx]
      exact ⟨_, rfl⟩

/-! ## All arguments -/

theorem matchArgs_iff (wild : Int) (c : Bool) (may : E → Ty → Prop)
    (hm : ∀ e t, (∃ x, coerceArg wild c e t = some x) ↔ may e t) (ps : List Param) :
    ∀ (as : List Arg), (∃ es, matchArgs wild c ps as = some es) ↔ Fits may ps as := by
  induction ps with
  | nil =>
    intro as
    cases as with
    | nil => exact ⟨fun _ => .nil, fun _ => ⟨_, rfl⟩⟩
    | cons a as => exact ⟨fun ⟨es, h⟩ => by (unfold matchArgs at h; cases h), fun h => (by cases h)⟩
  | cons p ps ih =>
    intro as
    cases as with
    | nil =>
      have ih := ih []
      unfold matchArgs
      cases hd : p.dflt with
      | none =>
        refine ⟨fun ⟨es, h⟩ => (by cases h), fun h => ?_⟩
        cases h with
        | omitted h1 => rw [hd] at h1; cases h1
      | some d =>
        dsimp only
        generalize matchArgs wild c ps [] = q at ih
        cases q with
        | none =>
          refine ⟨fun ⟨es, h⟩ => (by cases h), fun h => ?_⟩
          cases h with
          | omitted h1 h2 => obtain ⟨x, hx⟩ := ih.2 h2; cases hx
        | some es => exact ⟨fun _ => .omitted hd (ih.1 ⟨_, rfl⟩), fun _ => ⟨_, rfl⟩⟩
    | cons a as =>
      have ih := ih as
      unfold matchArgs
      by_cases hn : ∃ d, p.dflt = some d ∧ a.e.ty = .null
      · obtain ⟨d, hd, hn⟩ := hn
        have h0 : nullDefault p a = some d := by
          unfold nullDefault
          rw [hd]
          dsimp only
          rw [if_pos hn]
        rw [h0]
        dsimp only
        generalize matchArgs wild c ps as = q at ih
        cases q with
        | none =>
          refine ⟨fun ⟨es, h⟩ => (by cases h), fun h => ?_⟩
          have : Fits may ps as := by
            cases h with
            | null _ _ h => exact h
            | value _ _ _ h => exact h
            | var _ _ _ _ _ h => exact h
          obtain ⟨x, hx⟩ := ih.2 this; cases hx
        | some es => exact ⟨fun _ => .null hd hn (ih.1 ⟨_, rfl⟩), fun _ => ⟨_, rfl⟩⟩
      · have hg : p.dflt = none ∨ a.e.ty ≠ .null := by
          cases hd : p.dflt with
          | none => exact .inl rfl
          | some d => exact .inr fun h => hn ⟨d, hd, h⟩
        have h0 : nullDefault p a = none := by
          unfold nullDefault
          rcases hg with h | h
          · rw [h]
          · cases p.dflt with
            | none => rfl
            | some d => dsimp only; rw [if_neg h]
        rw [h0]
        dsimp only
        have hm := hm a.e p.ty
        by_cases hk : p.kind = .inout
        · by_cases hc : a.isConstant = true
          · rw [if_pos ⟨hk, hc⟩]
            refine ⟨fun ⟨es, h⟩ => (by cases h), fun h => ?_⟩
            cases h with
            | null h1 h2 => exact absurd ⟨_, h1, h2⟩ hn
            | value _ h1 => exact absurd hk h1
            | var _ _ h1 h2 => simp [Arg.isConstant, h1, h2] at hc
          · rw [if_neg (fun h => hc h.2)]
            have hc1 : a.e.const? = none ∧ a.const = false := by
              simp [Arg.isConstant] at hc
              exact hc
            by_cases he : a.e.ty = p.ty
            · rw [← he, coerceArg_same]
              dsimp only
              rw [if_neg (fun h => h.2 rfl)]
              generalize matchArgs wild c ps as = q at ih
              cases q with
              | none =>
                refine ⟨fun ⟨es, h⟩ => (by cases h), fun h => ?_⟩
                cases h with
                | null h1 h2 => exact absurd ⟨_, h1, h2⟩ hn
                | value _ h1 => exact absurd hk h1
                | var _ _ _ _ _ h => obtain ⟨x, hx⟩ := ih.2 h; cases hx
              | some es => exact ⟨fun _ => .var hg hk hc1.1 hc1.2 he (ih.1 ⟨_, rfl⟩), fun _ => ⟨_, rfl⟩⟩
            · have hno : ¬ Fits may (p :: ps) (a :: as) := by
                intro h
                cases h with
                | null h1 h2 => exact absurd ⟨_, h1, h2⟩ hn
                | value _ h1 => exact absurd hk h1
                | var _ _ _ _ h => exact he h
              refine ⟨fun ⟨es, h⟩ => ?_, fun h => absurd h hno⟩
              split at h
              · cases h
              · rename_i x hx
                rcases coerce_type wild _ c a.e x p.ty hc1.1 hx with ⟨_, h'⟩ | h'
                · exact absurd h' he
                · rw [if_pos ⟨hk, fun h'' => he (h''.symm.trans h')⟩] at h
                  cases h
        · rw [if_neg (fun h => hk h.1)]
          generalize coerceArg wild c a.e p.ty = r at hm
          cases r with
          | none =>
            refine ⟨fun ⟨es, h⟩ => (by cases h), fun h => ?_⟩
            cases h with
            | null h1 h2 => exact absurd ⟨_, h1, h2⟩ hn
            | value _ _ h => obtain ⟨x, hx⟩ := hm.2 h; cases hx
            | var _ h1 => exact absurd h1 hk
          | some x =>
            dsimp only
            rw [if_neg (fun h => hk h.1)]
            generalize matchArgs wild c ps as = q at ih
            cases q with
            | none =>
              refine ⟨fun ⟨es, h⟩ => (by cases h), fun h => ?_⟩
              cases h with
              | null h1 h2 => exact absurd ⟨_, h1, h2⟩ hn
              | value _ _ _ h => obtain ⟨x, hx⟩ := ih.2 h; cases hx
              | var _ h1 => exact absurd h1 hk
            | some es => exact ⟨fun _ => .value hg hk (hm.1 ⟨_, rfl⟩) (ih.1 ⟨_, rfl⟩), fun _ => ⟨_, rfl⟩⟩

theorem match_direct (wild : Int) (f : Fn) (as : List Arg) : (∃ es, matchArgs wild false f.params as = some es) ↔ Directly f as :=
  matchArgs_iff wild false _ (coerceArg_direct wild) f.params as

theorem match_all (wild : Int) (f : Fn) (as : List Arg) : (∃ es, matchArgs wild true f.params as = some es) ↔ Loosely wild f as :=
  matchArgs_iff wild true _ (coerceArg_all wild) f.params as

theorem Fits.imp {may may' : E → Ty → Prop} (h : ∀ e t, may e t → may' e t) {ps : List Param} {as : List Arg} (hf : Fits may ps as) :
    Fits may' ps as := by
  induction hf with
  | nil => exact .nil
  | omitted a _ ih => exact .omitted a ih
  | null a b _ ih => exact .null a b ih
  | value a b c _ ih => exact .value a b (h _ _ c) ih
  | var a b c d e _ ih => exact .var a b c d e ih

theorem Directly.loosely (wild : Int) {f : Fn} {as : List Arg} (h : Directly f as) : Loosely wild f as :=
  Fits.imp (wraps_converts wild) h

/-! ## All functions -/

theorem filterMap_nil {α β : Type} (g : α → Option β) (xs : List α) : xs.filterMap g = [] ↔ ∀ x ∈ xs, ¬ ∃ y, g x = some y := by
  rw [List.filterMap_eq_nil_iff]
  refine ⟨fun h x hx ⟨y, hy⟩ => (by rw [h x hx] at hy; cases hy), fun h x hx => ?_⟩
  cases hg : g x with
  | none => rfl
  | some y => exact absurd ⟨y, hg⟩ (h x hx)

theorem filterMap_one {α β : Type} (g : α → Option β) (xs : List α) (y : β) (h : xs.filterMap g = [y]) :
    ∃ x ∈ xs, g x = some y ∧ ∀ z ∈ xs, (∃ w, g z = some w) → z = x := by
  induction xs with
  | nil => cases h
  | cons x xs ih =>
    rw [List.filterMap_cons] at h
    cases hg : g x with
    | none =>
      rw [hg] at h
      obtain ⟨z, h1, h2, h3⟩ := ih h
      refine ⟨z, List.mem_cons_of_mem _ h1, h2, fun w hw he => ?_⟩
      rcases List.mem_cons.1 hw with rfl | hw
      · obtain ⟨u, hu⟩ := he
        rw [hg] at hu; cases hu
      · exact h3 w hw he
    | some u =>
      rw [hg] at h
      injection h with h1 h2
      subst h1
      refine ⟨x, List.mem_cons_self .., hg, fun w hw he => ?_⟩
      rcases List.mem_cons.1 hw with rfl | hw
      · rfl
      · exact absurd he ((filterMap_nil g xs).1 h2 w hw)

theorem filterMap_unique {α β : Type} (g : α → Option β) (xs : List α) (nd : xs.Nodup) (x : α) (hx : x ∈ xs) (y : β)
    (h : g x = some y) (hu : ∀ z ∈ xs, (∃ w, g z = some w) → z = x) : xs.filterMap g = [y] := by
  induction xs with
  | nil => cases hx
  | cons a xs ih =>
    rw [List.nodup_cons] at nd
    rw [List.filterMap_cons]
    by_cases ha : a = x
    · subst ha
      rw [h]
      dsimp only
      rw [(filterMap_nil g xs).2]
      intro z hz he
      rw [hu z (List.mem_cons_of_mem _ hz) he] at hz
      exact nd.1 hz
    · have : g a = none := by
        cases hg : g a with
        | none => rfl
        | some u => exact absurd (hu a (List.mem_cons_self ..) ⟨u, hg⟩) ha
      rw [this]
      dsimp only
      rcases List.mem_cons.1 hx with rfl | hx
      · exact absurd rfl ha
      · exact ih nd.2 hx fun z hz => hu z (List.mem_cons_of_mem _ hz)

/-- What matters of the seven styles. -/
theorem firstMatches_eq (wild : Int) (fs : List Fn) (as : List Arg) :
    firstMatches wild fs as styles =
      match allMatches wild false fs as with
      | [] => allMatches wild true fs as
      | m :: ms => m :: ms := by
  unfold styles
  simp only [firstMatches]
  cases allMatches wild false fs as with
  | cons m ms => rfl
  | nil => cases allMatches wild true fs as <;> rfl

theorem some_match {wild : Int} {c : Bool} {f : Fn} {as : List Arg} :
    (∃ y, (matchArgs wild c f.params as).map (fun es => (f, es)) = some y) ↔ ∃ es, matchArgs wild c f.params as = some es := by
  cases matchArgs wild c f.params as with
  | none => exact ⟨fun ⟨_, h⟩ => (by cases h), fun ⟨_, h⟩ => (by cases h)⟩
  | some es => exact ⟨fun _ => ⟨_, rfl⟩, fun _ => ⟨_, rfl⟩⟩

theorem no_direct {wild : Int} {fs : List Fn} {as : List Arg} : allMatches wild false fs as = [] ↔ ∀ f ∈ fs, ¬ Directly f as := by
  unfold allMatches
  rw [filterMap_nil]
  refine forall_congr' fun f => forall_congr' fun _ => ?_
  rw [some_match, match_direct]

theorem no_loose {wild : Int} {fs : List Fn} {as : List Arg} : allMatches wild true fs as = [] ↔ ∀ f ∈ fs, ¬ Loosely wild f as := by
  unfold allMatches
  rw [filterMap_nil]
  refine forall_congr' fun f => forall_congr' fun _ => ?_
  rw [some_match, match_all]

/-- **A call means the function that fits best**: if it is resolved to a function, that is the only one that takes the arguments directly
or, if there is none, the only one that takes them with conversions; what its parameters get is as its way of matching says. -/
theorem call_is_best (wild : Int) (fs : List Fn) (as : List Arg) (f : Fn) (es : List E) (h : resolve wild fs as = .call f es) :
    Best wild fs as f ∧ ∃ c, matchArgs wild c f.params as = some es := by
  unfold resolve at h
  rw [firstMatches_eq] at h
  split at h
  · cases h
  · rename_i m hm
    injection h with h1 h2
    subst h1 h2
    cases hd : allMatches wild false fs as with
    | nil =>
      rw [hd] at hm
      dsimp only at hm
      obtain ⟨x, h1, h2, h3⟩ := filterMap_one _ fs m hm
      have h4 := no_direct.1 hd
      cases hq : matchArgs wild true x.params as with
      | none => rw [hq] at h2; cases h2
      | some es =>
        rw [hq] at h2
        injection h2 with h2
        subst h2
        exact ⟨⟨h1, .inr ⟨h4, (match_all wild x as).1 ⟨_, hq⟩, fun g hg hl => h3 g hg (some_match.2 ((match_all wild g as).2 hl))⟩⟩, true, hq⟩
    | cons m' ms =>
      rw [hd] at hm
      dsimp only at hm
      injection hm with hm1 hm2
      subst hm1 hm2
      obtain ⟨x, h1, h2, h3⟩ := filterMap_one _ fs m' hd
      cases hq : matchArgs wild false x.params as with
      | none => rw [hq] at h2; cases h2
      | some es =>
        rw [hq] at h2
        injection h2 with h2
        subst h2
        exact ⟨⟨h1, .inl ⟨(match_direct wild x as).1 ⟨_, hq⟩, fun g hg hl => h3 g hg (some_match.2 ((match_direct wild g as).2 hl))⟩⟩, false, hq⟩
  · cases h

/-- If one function is the best choice, then the call means it. -/
theorem best_is_called (wild : Int) (fs : List Fn) (as : List Arg) (nd : fs.Nodup) (f : Fn) (h : Best wild fs as f) :
    ∃ es, resolve wild fs as = .call f es := by
  obtain ⟨hf, ⟨h1, h2⟩ | ⟨h1, h2, h3⟩⟩ := h
  · obtain ⟨es, he⟩ := (match_direct wild f as).2 h1
    have : allMatches wild false fs as = [(f, es)] :=
      filterMap_unique _ fs nd f hf _ (by rw [he]; rfl) fun z hz hw => h2 z hz ((match_direct wild z as).1 (some_match.1 hw))
    refine ⟨es, ?_⟩
    unfold resolve
    rw [firstMatches_eq, this]
  · obtain ⟨es, he⟩ := (match_all wild f as).2 h2
    have h4 : allMatches wild false fs as = [] := no_direct.2 h1
    have : allMatches wild true fs as = [(f, es)] :=
      filterMap_unique _ fs nd f hf _ (by rw [he]; rfl) fun z hz hw => h3 z hz ((match_all wild z as).1 (some_match.1 hw))
    refine ⟨es, ?_⟩
    unfold resolve
    rw [firstMatches_eq, h4, this]

/-- **A call is rejected for want of a function exactly if none takes the arguments.** -/
theorem nothing_iff (wild : Int) (fs : List Fn) (as : List Arg) :
    resolve wild fs as = .nothing ↔ ∀ f ∈ fs, ¬ Loosely wild f as := by
  unfold resolve
  rw [firstMatches_eq]
  constructor
  · intro h
    cases hd : allMatches wild false fs as with
    | nil =>
      rw [hd] at h
      dsimp only at h
      cases hl : allMatches wild true fs as with
      | nil => exact no_loose.1 hl
      | cons m ms => rw [hl] at h; cases ms <;> cases h
    | cons m ms => rw [hd] at h; cases ms <;> cases h
  · intro h
    rw [no_direct.2 fun f hf hd => h f hf (hd.loosely wild), no_loose.2 h]

/-- **A call is ambiguous exactly if some function takes the arguments, but none is the best choice.** -/
theorem ambiguous_iff (wild : Int) (fs : List Fn) (as : List Arg) (nd : fs.Nodup) :
    resolve wild fs as = .ambiguous ↔ (∃ f ∈ fs, Loosely wild f as) ∧ ∀ f, ¬ Best wild fs as f := by
  constructor
  · intro h
    constructor
    · apply Classical.byContradiction
      intro hn
      rw [(nothing_iff wild fs as).2 fun f hf hl => hn ⟨f, hf, hl⟩] at h
      cases h
    · intro f hb
      obtain ⟨es, he⟩ := best_is_called wild fs as nd f hb
      rw [he] at h; cases h
  · rintro ⟨⟨f, hf, hl⟩, hn⟩
    cases hr : resolve wild fs as with
    | call g es => exact absurd (call_is_best wild fs as g es hr).1 (hn g)
    | ambiguous => rfl
    | nothing => exact absurd hl ((nothing_iff wild fs as).1 hr f hf)

/-- **The order of declarations does not matter.** -/
theorem order_irrelevant (wild : Int) (fs gs : List Fn) (as : List Arg) (h : fs.Perm gs) : resolve wild fs as = resolve wild gs as := by
  have hp : ∀ c, (allMatches wild c fs as).Perm (allMatches wild c gs as) := fun c => h.filterMap _
  have key : ∀ {l l' : List (Fn × List E)}, l.Perm l' →
      (match l with | [] => Outcome.nothing | [m] => .call m.1 m.2 | _ => .ambiguous) =
      (match l' with | [] => Outcome.nothing | [m] => .call m.1 m.2 | _ => .ambiguous) := by
    intro l l' hl
    match l, l', hl.length_eq with
    | [], [], _ => rfl
    | [m], [m'], _ => rw [List.perm_singleton.1 hl]
    | _ :: _ :: _, _ :: _ :: _, _ => rfl
  unfold resolve
  rw [firstMatches_eq, firstMatches_eq]
  have h1 := hp false
  have h2 := hp true
  generalize allMatches wild false fs as = a at h1
  generalize allMatches wild false gs as = b at h1
  match a, b, h1.length_eq with
  | [], [], _ => exact key h2
  | _ :: _, _ :: _, _ => exact key h1

/-- **Another function changes nothing about a call that does without conversions, unless it takes the arguments without, too.** -/
theorem new_overload_harmless (wild : Int) (fs : List Fn) (as : List Arg) (nd : fs.Nodup) (f g : Fn) (es : List E)
    (h : resolve wild fs as = .call f es) (hf : Directly f as) (hg : ¬ Directly g as) :
    resolve wild (g :: fs) as = .call f es := by
  obtain ⟨⟨h0, h1⟩, c, hc⟩ := call_is_best wild fs as f es h
  have hu : ∀ k ∈ fs, Directly k as → k = f := by
    rcases h1 with ⟨_, h⟩ | ⟨h, _⟩
    · exact h
    · exact absurd hf (h f h0)
  obtain ⟨es', he⟩ := (match_direct wild f as).2 hf
  have h2 : allMatches wild false fs as = [(f, es')] :=
    filterMap_unique _ fs nd f h0 _ (by rw [he]; rfl) fun z hz hw => hu z hz ((match_direct wild z as).1 (some_match.1 hw))
  have h3 : allMatches wild false (g :: fs) as = [(f, es')] := by
    have hn : matchArgs wild false g.params as = none := by
      cases hq : matchArgs wild false g.params as with
      | none => rfl
      | some x => exact absurd ((match_direct wild g as).1 ⟨x, hq⟩) hg
    unfold allMatches at h2 ⊢
    rw [List.filterMap_cons, hn]
    exact h2
  unfold resolve at h ⊢
  rw [firstMatches_eq, h2] at h
  rw [firstMatches_eq, h3]
  exact h

/-! ## What the parameters get -/

theorem matchArgs_length (wild : Int) (c : Bool) (ps : List Param) : ∀ (as : List Arg) (es : List E), matchArgs wild c ps as = some es →
    es.length = ps.length := by
  induction ps with
  | nil =>
    intro as es h
    cases as with
    | nil => injection h with h; subst h; rfl
    | cons a as => unfold matchArgs at h; cases h
  | cons p ps ih =>
    intro as es h
    cases as with
    | nil =>
      unfold matchArgs at h
      split at h
      · cases h
      · split at h
        · cases h
        · rename_i h'
          injection h with h
          subst h
          simp [ih _ _ h']
    | cons a as =>
      unfold matchArgs at h
      split at h
      · split at h
        · cases h
        · rename_i h'
          injection h with h
          subst h
          simp [ih _ _ h']
      · split at h
        · cases h
        · split at h
          · cases h
          · split at h
            · cases h
            · split at h
              · cases h
              · rename_i h'
                injection h with h
                subst h
                simp [ih _ _ h']

theorem matchArgs_gets (wild : Int) (hw : toDouble wild < 2 ^ 63) (c : Bool) (ps : List Param) :
    ∀ (as : List Arg) (es : List E), (∀ p ∈ ps, Plain p.ty) → (∀ a ∈ as, Wt a.e) → matchArgs wild c ps as = some es →
    ∀ (i : Nat) p x, ps[i]? = some p → es[i]? = some x → Gets p as[i]? x := by
  induction ps with
  | nil => intro as es _ _ _ i p x hp; simp at hp
  | cons p ps ih =>
    intro as es hpl hwt h i q x hq hx
    have hpl' : ∀ p ∈ ps, Plain p.ty := fun p hp => hpl p (List.mem_cons_of_mem _ hp)
    cases as with
    | nil =>
      unfold matchArgs at h
      split at h
      · cases h
      · rename_i d hd
        split at h
        · cases h
        · rename_i es' h'
          injection h with h
          subst h
          cases i with
          | zero => simp at hq hx; subst hq hx; exact hd
          | succ i => simpa using ih [] es' hpl' hwt h' i q x (by simpa using hq) (by simpa using hx)
    | cons a as =>
      have hwt' : ∀ a ∈ as, Wt a.e := fun a ha => hwt a (List.mem_cons_of_mem _ ha)
      unfold matchArgs at h
      split at h
      · rename_i d hd
        split at h
        · cases h
        · rename_i es' h'
          injection h with h
          subst h
          cases i with
          | zero =>
            simp at hq hx
            subst hq hx
            simp only [List.getElem?_cons_zero, Gets]
            unfold nullDefault at hd
            cases hpd : p.dflt with
            | none => rw [hpd] at hd; cases hd
            | some d' =>
              rw [hpd] at hd
              dsimp only at hd
              split at hd
              · rename_i hn
                injection hd with hd
                subst hd
                exact .inl ⟨rfl, hn⟩
              · cases hd
          | succ i => simpa using ih as es' hpl' hwt' h' i q x (by simpa using hq) (by simpa using hx)
      · split at h
        · cases h
        · rename_i hc
          split at h
          · cases h
          · rename_i y hy
            split at h
            · cases h
            · rename_i hin
              split at h
              · cases h
              · rename_i es' h'
                injection h with h
                subst h
                cases i with
                | zero =>
                  simp at hq hx
                  subst hq hx
                  simp only [List.getElem?_cons_zero, Gets]
                  right
                  by_cases hk : p.kind = .inout
                  · left
                    refine ⟨hk, ?_⟩
                    have hcn : a.e.const? = none := by
                      cases hq : a.e.const? with
                      | none => rfl
                      | some k => exact absurd ⟨hk, by simp [Arg.isConstant, hq]⟩ hc
                    have hty : y.ty = a.e.ty := Classical.byContradiction fun h => hin ⟨hk, h⟩
                    rcases coerce_type wild _ c a.e y p.ty hcn hy with ⟨h1, _⟩ | h1
                    · exact h1
                    · rw [← h1, hty, coerceArg_same] at hy
                      injection hy with hy
                      exact hy.symm
                  · right
                    obtain ⟨v, v', h1, h2, _, h3, h4⟩ := conversions_keep_values wild hw _ (callStyle c) a.e y p.ty
                      (by intro h; cases h) (hpl p (List.mem_cons_self ..)) (hwt a (List.mem_cons_self ..)) hy
                    exact ⟨hk, v, v', h1, h2, h3, h4⟩
                | succ i => simpa using ih as es' hpl' hwt' h' i q x (by simpa using hq) (by simpa using hx)

/-- **The parameters get the arguments.** Every parameter gets an expression: its default if there is no argument or if that is `Null`, the
variable itself if it is `inout`, and else one with the value of its type that stands for the value of the argument. -/
theorem parameters_get (wild : Int) (hw : toDouble wild < 2 ^ 63) (fs : List Fn) (as : List Arg) (f : Fn) (es : List E)
    (hpl : ∀ p ∈ f.params, Plain p.ty) (hwt : ∀ a ∈ as, Wt a.e) (h : resolve wild fs as = .call f es) :
    as.length ≤ f.params.length ∧ es.length = f.params.length ∧
    ∀ (i : Nat) p x, f.params[i]? = some p → es[i]? = some x → Gets p as[i]? x := by
  obtain ⟨⟨_, hb⟩, c, hc⟩ := call_is_best wild fs as f es h
  refine ⟨?_, matchArgs_length wild c _ _ _ hc, matchArgs_gets wild hw c _ _ _ hpl hwt hc⟩
  have hl : Loosely wild f as := by
    rcases hb with ⟨h, _⟩ | ⟨_, h, _⟩
    · exact h.loosely wild
    · exact h
  unfold Loosely at hl
  generalize f.params = ps at hl
  clear hpl hwt h hb hc
  induction hl with
  | nil => exact Nat.le_refl _
  | omitted => simp
  | null _ _ _ ih => simpa using ih
  | value _ _ _ _ ih => simpa using ih
  | var _ _ _ _ _ _ ih => simpa using ih

/-! ## Valid overloads -/

/-- Parameters that leave no room: all `in`, without defaults, neither optionals nor results. -/
def Simple (f : Fn) : Prop := ∀ p ∈ f.params, p.kind = .in_ ∧ p.dflt = none ∧ (∀ t, p.ty ≠ .optional t) ∧ (∀ t, p.ty ≠ .result t)

theorem simple_types {ps : List Param} {as : List Arg}
    (hs : ∀ p ∈ ps, p.kind = .in_ ∧ p.dflt = none ∧ (∀ t, p.ty ≠ .optional t) ∧ (∀ t, p.ty ≠ .result t))
    (h : Fits (fun e t => Wraps e.ty t) ps as) : ps.map (·.ty) = as.map (·.e.ty) := by
  induction h with
  | nil => rfl
  | omitted h => have := (hs _ (List.mem_cons_self ..)).2.1; rw [this] at h; cases h
  | null h => have := (hs _ (List.mem_cons_self ..)).2.1; rw [this] at h; cases h
  | @value p ps a as _ _ hm _ ih =>
    obtain ⟨_, _, h1, h2⟩ := hs p (List.mem_cons_self ..)
    rw [List.map_cons, List.map_cons, ih fun p hp => hs p (List.mem_cons_of_mem _ hp)]
    congr 1
    generalize p.ty = t at hm h1 h2
    generalize a.e.ty = s at hm
    cases hm with
    | same => rfl
    | optional => exact absurd rfl (h1 _)
    | result => exact absurd rfl (h2 _)
  | var _ h => have := (hs _ (List.mem_cons_self ..)).1; rw [this] at h; cases h

theorem equivalent_of_types (ps : List Param) : ∀ (qs : List Param),
    (∀ p ∈ ps, p.kind = .in_ ∧ p.dflt = none) → (∀ p ∈ qs, p.kind = .in_ ∧ p.dflt = none) →
    ps.map (·.ty) = qs.map (·.ty) → equivalent ps qs = true := by
  induction ps with
  | nil =>
    intro qs _ _ h
    cases qs with
    | nil => rfl
    | cons q qs => cases h
  | cons p ps ih =>
    intro qs h1 h2 h
    cases qs with
    | nil => cases h
    | cons q qs =>
      simp only [List.map_cons] at h
      injection h with ha hb
      obtain ⟨k1, d1⟩ := h1 p (List.mem_cons_self ..)
      obtain ⟨k2, d2⟩ := h2 q (List.mem_cons_self ..)
      have := ih qs (fun p hp => h1 p (List.mem_cons_of_mem _ hp)) (fun p hp => h2 p (List.mem_cons_of_mem _ hp)) hb
      simp [equivalent, Param.equivalent, k1, k2, d1, d2, ha, this]

theorem validOverload_not_equivalent {f g : Fn} (h : validOverload f g = true) : equivalent f.params g.params = false := by
  cases he : equivalent f.params g.params with
  | false => rfl
  | true =>
    unfold validOverload at h
    rw [he] at h
    by_cases hr : f.result = g.result
    · simp [hr] at h
    · simp [hr] at h

theorem simple_unique (fs : List Fn) : validScope fs = true → (∀ f ∈ fs, Simple f) → ∀ as, ∀ f ∈ fs, ∀ g ∈ fs,
    Directly f as → Directly g as → f = g := by
  have main : ∀ f g : Fn, Simple f → Simple g → validOverload g f = true → ∀ as, Directly f as → Directly g as → False := by
    intro f g sf sg hv as hf hg
    have h1 := simple_types sf hf
    have h2 := simple_types sg hg
    have h3 := equivalent_of_types g.params f.params (fun p hp => ⟨(sg p hp).1, (sg p hp).2.1⟩) (fun p hp => ⟨(sf p hp).1, (sf p hp).2.1⟩)
      (h2.trans h1.symm)
    rw [validOverload_not_equivalent hv] at h3
    cases h3
  induction fs with
  | nil => intro _ _ _ f hf; cases hf
  | cons k fs ih =>
    intro hv hs as f hf g hg h1 h2
    unfold validScope at hv
    simp only [Bool.and_eq_true, List.all_eq_true] at hv
    rcases List.mem_cons.1 hf with hf' | hf' <;> rcases List.mem_cons.1 hg with hg' | hg'
    · rw [hf', hg']
    · subst hf'
      exact (main f g (hs f hf) (hs g hg) (hv.1 g hg') as h1 h2).elim
    · subst hg'
      exact (main g f (hs g hg) (hs f hf) (hv.1 f hf') as h2 h1).elim
    · exact ih hv.2 (fun f hf => hs f (List.mem_cons_of_mem _ hf)) as f hf' g hg' h1 h2

/-- **Functions that the validator accepts can be told apart**: whatever the arguments are, if one of them takes the arguments directly then
the call means that one. For `in` parameters without defaults, and neither optionals nor results. -/
theorem valid_overloads_told_apart_partial (wild : Int) (fs : List Fn) (as : List Arg) (nd : fs.Nodup) (hv : validScope fs = true)
    (hs : ∀ f ∈ fs, Simple f) (f : Fn) (hf : f ∈ fs) (h : Directly f as) : ∃ es, resolve wild fs as = .call f es :=
  best_is_called wild fs as nd f ⟨hf, .inl ⟨h, fun g hg hd => simple_unique fs hv hs as g hg f hf hd h⟩⟩

/-! ## Rounds -/

/-- **However the rounds of the resolver go**: a call that is resolved means a function that takes the arguments, the best choice among
those known in some round. -/
theorem settled_fits (wild : Int) (fs : List Fn) (as : List Arg) (rounds : List (Fn → Bool)) (f : Fn) (es : List E)
    (h : settle wild fs as rounds = .call f es) :
    f ∈ fs ∧ Loosely wild f as ∧ ∃ ready ∈ rounds, ready f = true ∧ resolve wild (fs.filter ready) as = .call f es := by
  have one : ∀ ready : Fn → Bool, resolve wild (fs.filter ready) as = .call f es → f ∈ fs ∧ Loosely wild f as ∧ ready f = true := by
    intro ready h
    obtain ⟨⟨h1, h2⟩, _⟩ := call_is_best wild _ as f es h
    rw [List.mem_filter] at h1
    refine ⟨h1.1, ?_, h1.2⟩
    rcases h2 with ⟨h, _⟩ | ⟨_, h, _⟩
    · exact h.loosely wild
    · exact h
  induction rounds with
  | nil => cases h
  | cons ready rest ih =>
    cases hr : resolve wild (fs.filter ready) as with
    | call g es' =>
      have : settle wild fs as (ready :: rest) = .call g es' := by
        cases rest with
        | nil => exact hr
        | cons r rs => unfold settle; rw [hr]
      rw [this] at h
      injection h with h1 h2
      subst h1 h2
      obtain ⟨h1, h2, h3⟩ := one ready hr
      exact ⟨h1, h2, ready, List.mem_cons_self .., h3, hr⟩
    | _ =>
      cases rest with
      | nil => unfold settle at h; rw [hr] at h; cases h
      | cons r rs =>
        unfold settle at h
        rw [hr] at h
        obtain ⟨h1, h2, k, hk, h3⟩ := ih h
        exact ⟨h1, h2, k, List.mem_cons_of_mem _ hk, h3⟩

/-- **A call that one function takes directly means that one, in whatever round the others become known.** -/
theorem settled_direct (wild : Int) (fs : List Fn) (as : List Arg) (nd : fs.Nodup) (rounds : List (Fn → Bool)) (hr : rounds ≠ [])
    (f : Fn) (hf : f ∈ fs) (hd : Directly f as) (hu : ∀ g ∈ fs, Directly g as → g = f) (hk : ∀ ready ∈ rounds, ready f = true) :
    ∃ es, settle wild fs as rounds = .call f es := by
  cases rounds with
  | nil => exact absurd rfl hr
  | cons ready rest =>
    obtain ⟨es, he⟩ := best_is_called wild (fs.filter ready) as (nd.sublist List.filter_sublist) f
      ⟨List.mem_filter.2 ⟨hf, hk ready (List.mem_cons_self ..)⟩, .inl ⟨hd, fun g hg => hu g (List.mem_filter.1 hg).1⟩⟩
    refine ⟨es, ?_⟩
    cases rest with
    | nil => exact he
    | cons r rs => unfold settle; rw [he]

/-- If all functions are known from the first round on, the rounds do not matter. -/
theorem settled_all_known (wild : Int) (fs : List Fn) (as : List Arg) (rounds : List (Fn → Bool)) (hr : rounds ≠ [])
    (hk : ∀ ready ∈ rounds, ∀ f ∈ fs, ready f = true) : settle wild fs as rounds = resolve wild fs as := by
  induction rounds with
  | nil => exact absurd rfl hr
  | cons ready rest ih =>
    have h1 : fs.filter ready = fs := List.filter_eq_self.2 (hk ready (List.mem_cons_self ..))
    cases rest with
    | nil => unfold settle; rw [h1]
    | cons r rs =>
      have ih := ih (by simp) fun k hk' => hk k (List.mem_cons_of_mem _ hk')
      unfold settle
      rw [h1]
      cases h : resolve wild fs as with
      | call f es => rfl
      | _ => dsimp only; rw [ih, h]

end Verif.Front.Overload
