import Verif.Opt.ParamsPrune

/-!
# Removing unused parameters keeps what programs do: programs (C84)
-/

namespace Verif.Opt.Whole

variable {M : Sem} {B : Loc → Prop} {d : Nat}

/-- Parameters that are removed. -/
def remAt : (Nat → Bool) → List Nat → Nat → Prop
  | _, [], _ => False
  | r, p :: ps, x => (r 0 = true ∧ x = p) ∨ remAt (shift r) ps x

theorem remAt_get {x : Nat} : ∀ {ps : List Nat} {r : Nat → Bool}, remAt r ps x → ∃ j : Nat, ps[j]? = some x ∧ r j = true
  | [], _, h => by simp [remAt] at h
  | p :: ps, r, h => by
    simp only [remAt] at h
    rcases h with ⟨h0, h⟩ | h
    · exact ⟨0, by simp [h], h0⟩
    · obtain ⟨j, h1, h2⟩ := remAt_get h
      exact ⟨j + 1, by simpa using h1, h2⟩

theorem bindEnv_drop {D x : Nat} : ∀ (ps : List Nat) (as : List Arg) {r : Nat → Bool}, ¬ remAt r ps x → ps.length = as.length →
    bindEnv D (dropAt r ps) (dropAt r as) x = bindEnv D ps as x
  | [], [], r, _, _ => rfl
  | [], _ :: _, r, _, hl => by simp at hl
  | _ :: _, [], r, _, hl => by simp at hl
  | p :: ps, a :: as, r, h, hl => by
    simp only [remAt, not_or, not_and] at h
    simp only [List.length_cons, Nat.add_right_cancel_iff] at hl
    have ih := bindEnv_drop (D := D) ps as h.2 hl
    rw [dropAt_cons, dropAt_cons]
    cases h0 : r 0 with
    | true =>
      have hp : x ≠ p := h.1 h0
      simp only [if_true, ih]
      cases a <;> simp [bindEnv, hp]
    | false =>
      simp only [Bool.false_eq_true, if_false]
      cases a <;> simp only [bindEnv, ih]

theorem bindEnv_kept {x : Nat} : ∀ (ps : List Nat) (as : List Arg) {r : Nat → Bool}, ¬ remAt r ps x → KeptOk B d r as →
    bindEnv (d + 1) ps as x = .slot (d + 1) x ∨ (¬ B (bindEnv (d + 1) ps as x) ∧ ∀ e y, bindEnv (d + 1) ps as x = .slot e y → e ≤ d)
  | [], as, r, _, _ => .inl (bindEnv_nil _ _ _)
  | _ :: _, [], r, _, _ => .inl (bindEnv_nil' _ _ _)
  | p :: ps, a :: as, r, h, hk => by
    simp only [remAt, not_or, not_and] at h
    by_cases hp : x = p
    · have h0 : r 0 = false := by
        cases h0 : r 0 with
        | true => exact absurd hp (h.1 h0)
        | false => rfl
      cases a with
      | val v => left; simp [bindEnv, hp]
      | ref l =>
        right
        have := hk.1 h0 l rfl
        simp only [bindEnv, if_pos hp]; exact this
    · have ih := bindEnv_kept (x := x) ps as h.2 hk.2
      have e1 : bindEnv (d + 1) (p :: ps) (a :: as) x = bindEnv (d + 1) ps as x := by cases a <;> simp [bindEnv, hp]
      rw [e1]; exact ih

theorem enter_drop {D : Nat} {s s' : St M} (ha : Agree B s s') : ∀ (ps : List Nat) (as : List Arg) {r : Nat → Bool}, ps.length = as.length →
    Agree (fun l => B l ∨ ∃ x, l = .slot D x ∧ remAt r ps x) (enter D ps as s) (enter D (dropAt r ps) (dropAt r as) s')
  | [], [], r, _ => by simp only [dropAt, enter_nil]; exact ha.mono fun l h => .inl h
  | [], _ :: _, r, hl => by simp at hl
  | _ :: _, [], r, hl => by simp at hl
  | p :: ps, a :: as, r, hl => by
    simp only [List.length_cons, Nat.add_right_cancel_iff] at hl
    have ih := (enter_drop (D := D) ha ps as (r := shift r) hl).mono (B' := fun l => B l ∨ ∃ x, l = .slot D x ∧ remAt r (p :: ps) x)
      fun l hl => hl.imp id fun ⟨x, h1, h2⟩ => ⟨x, h1, .inr h2⟩
    rw [dropAt_cons, dropAt_cons]
    cases h0 : r 0 with
    | true =>
      simp only [if_true]
      cases a with
      | ref l => simp only [enter]; exact ih
      | val v =>
        simp only [enter]
        refine ⟨fun l hl => ?_, ih.w⟩
        simp only [St.set]
        rw [if_neg, ih.mem l hl]
        intro he
        exact hl (.inr ⟨p, he, .inl ⟨h0, rfl⟩⟩)
    | false =>
      simp only [Bool.false_eq_true, if_false]
      cases a with
      | ref l => simp only [enter]; exact ih
      | val v => simp only [enter]; exact ih.set _ _

theorem entered_prune (hB : Low d B) (ps : List Nat) (as : List Arg) {r : Nat → Bool} (hl : ps.length = as.length) (hk : KeptOk B d r as) :
    FrameP (fun l => B l ∨ ∃ x, l = .slot (d + 1) x ∧ remAt r ps x) (fun x => ¬ remAt r ps x) (d + 1)
      (bindEnv (d + 1) ps as) (bindEnv (d + 1) (dropAt r ps) (dropAt r as)) where
  lowB := by
    rintro l (h | ⟨x, h, _⟩)
    · obtain ⟨e, x, he, hle⟩ := hB l h; exact ⟨e, x, he, by omega⟩
    · exact ⟨d + 1, x, h, Nat.le_refl _⟩
  name := by
    intro x hx
    refine ⟨(bindEnv_drop ps as hx hl).symm, ?_⟩
    rcases bindEnv_kept (B := B) (d := d) ps as hx hk with h | ⟨h1, h2⟩
    · rw [h]
      rintro (h' | ⟨y, hy, h'⟩)
      · exact hB.not x (by omega) h'
      · injection hy with _ hy; subst hy; exact hx h'
    · rintro (h' | ⟨y, hy, _⟩)
      · exact h1 h'
      · have := h2 _ _ hy; omega
  far := by
    intro x hx e y he
    rcases bindEnv_kept (B := B) (d := d) ps as hx hk with h | ⟨_, h2⟩
    · rw [h] at he; injection he; omega
    · have := h2 _ _ he; omega

/-- Implementations before and after. -/
def ImplP (M : Sem) (K K' : Fn → List Kind) (r : Fn → Nat → Bool) (pr : Fn → Bool) (rank : Fn → Nat) (f : Fn) (i i' : Impl) : Prop :=
  i'.params = dropAt (r f) i.params ∧ i'.body = prunes' r pr rank i.body ∧ i.params.length = (K f).length ∧
    (∀ x ∈ i.body.locs, ¬ remAt (r f) i.params x) ∧ (∀ c ∈ i.body.invocations, DropOk M K r c) ∧
    ∀ c ∈ (prunes' r pr rank i.body).invocations, c.2.toList.length = (K' c.1).length

theorem runImpls_prune {c c' : Calls M} {K K' : Fn → List Kind} {r : Fn → Nat → Bool} {pr : Fn → Bool} {rank : Fn → Nat}
    (hc : CallsP K r c c') (hK : ∀ f, K' f = dropAt (r f) (K f)) (hpr : ∀ f, pr f = false → ∀ j, j < (K f).length → r f j = false)
    (n : Nat) (dflt : Val) {f : Fn} {args : List Arg} (hB : Low d B) (hk : KeptOk B d (r f) args) (hn : args.length = (K f).length)
    {l l' : List Impl} (hl : Impls (ImplP M K K' r pr rank f) l l') : ∀ {s s' : St M}, Agree B s s' →
    EvP B (runImpls c K n dflt args d l s) (runImpls c' K' n dflt (dropAt (r f) args) d l' s') := by
  induction hl with
  | nil => intro s s' ha; exact .val ha
  | @cons i i' l l' hi _ ih =>
    intro s s' ha
    obtain ⟨h1, h2, h3, h4, h5, h6⟩ := hi
    have hlen : i.params.length = args.length := by rw [h3, hn]
    have hf := entered_prune hB i.params args hlen hk
    have h := execs_prune hc hK hpr hf n i.body (enter_drop (D := d + 1) ha i.params args (r := r f) hlen) h4 h5 h6
    simp only [runImpls, h1, h2]
    generalize execs c K (bindEnv (d + 1) i.params args) (d + 1) n i.body (enter (d + 1) i.params args s) = o at h
    generalize execs c' K' (bindEnv (d + 1) (dropAt (r f) i.params) (dropAt (r f) args)) (d + 1) n (prunes' r pr rank i.body)
      (enter (d + 1) (dropAt (r f) i.params) (dropAt (r f) args) s') = o' at h
    have fin : ∀ {s1 s1' : St M}, Agree (fun l => B l ∨ ∃ x, l = .slot (d + 1) x ∧ remAt (r f) i.params x) s1 s1' →
        Agree B (s.back d s1) (s'.back d s1') := fun a => ha.back a (by
      rintro l hd (h | ⟨x, h, _⟩)
      · exact h
      · have := hd _ _ h; omega)
    cases h with
    | none => exact .none
    | norm a => exact ih (fin a)
    | brk a => exact ih (fin a)
    | cont a => exact ih (fin a)
    | exn a => exact .exn (fin a)
    | @ret v s1 s1' a =>
      cases v with
      | none => exact ih (fin a)
      | some v => exact .val (fin a)

theorem KeptOk.all {r : Nat → Bool} (hr : ∀ j, r j = false) : ∀ {as : List Arg}, KeptOk B d r as → KeptOk B d (fun _ => false) as
  | [], _ => trivial
  | _ :: _, h => ⟨fun _ => h.1 (hr 0), KeptOk.all (r := shift _) (fun j => hr (j + 1)) h.2⟩

theorem writeBack_prune : ∀ {ks : List Kind} {as : List Arg} (vs : List Val) {s s' : St M}, Agree B s s' →
    Agree B (writeBack ks as vs s) (writeBack ks as vs s')
  | [], _, _, _, _, ha => by simp only [writeBack]; exact ha
  | k :: ks, [], _, _, _, ha => by cases k <;> simp only [writeBack] <;> exact ha
  | k :: ks, a :: as, [], _, _, ha => by cases k <;> cases a <;> simp only [writeBack] <;> exact ha
  | k :: ks, a :: as, v :: vs, s, s', ha => by
    have skip := writeBack_prune (ks := ks) (as := as) vs ha
    cases k with
    | copy => simpa only [writeBack] using skip
    | in_ => simpa only [writeBack] using skip
    | inout =>
      cases a with
      | val w => simpa only [writeBack] using skip
      | ref l => simp only [writeBack]; exact writeBack_prune vs (ha.set l v)

/-- Programs before and after. -/
def Drops (M : Sem) (r : Fn → Nat → Bool) (pr : Fn → Bool) (rank : Fn → Nat) (P Q : Prog) : Prop :=
  (∀ f, pr f = false → ∀ j, j < (P.kinds f).length → r f j = false) ∧
  ∀ f, (P.get f = none ∧ Q.get f = none) ∨ ∃ F G, P.get f = some F ∧ Q.get f = some G ∧ G.ext = F.ext ∧ G.dflt = F.dflt ∧
    (F.ext = true → ∀ j, r f j = false) ∧ G.kinds = dropAt (r f) F.kinds ∧ Impls (ImplP M P.kinds Q.kinds r pr rank f) F.impls G.impls

theorem Drops.kinds {r : Fn → Nat → Bool} {pr : Fn → Bool} {rank : Fn → Nat} {P Q : Prog} (h : Drops M r pr rank P Q) (f : Fn) :
    Q.kinds f = dropAt (r f) (P.kinds f) := by
  rcases h.2 f with ⟨h1, h2⟩ | ⟨F, G, h1, h2, _, _, _, h3, _⟩
  · simp only [Prog.kinds, h1, h2]; rfl
  · simp only [Prog.kinds, h1, h2]; exact h3

theorem callN_prune {r : Fn → Nat → Bool} {pr : Fn → Bool} {rank : Fn → Nat} {P Q : Prog} (h : Drops M r pr rank P Q) :
    ∀ n, CallsP P.kinds r (callN M P n) (callN M Q n)
  | 0 => by
    intro f args d s s' B hB ha hk hn
    simp only [callN]; exact .none
  | n + 1 => by
    intro f args d s s' B hB ha hk hn
    simp only [callN]
    rcases h.2 f with ⟨h1, h2⟩ | ⟨F, G, h1, h2, h3, h4, h5, h6, h7⟩
    · simp only [h1, h2]; exact .none
    · simp only [h1, h2, h3, h4]
      by_cases he : F.ext = true
      · simp only [if_pos he]
        have hr := h5 he
        have e1 : dropAt (r f) args = args := dropAt_id args fun j _ => hr j
        have e2 : G.kinds = F.kinds := by rw [h6, dropAt_id _ fun j _ => hr j]
        have hv := map_get_kept ha (hk.all hr)
        simp only [callExt, e1, e2, hv, ← ha.w]
        generalize M.ext f (args.map (Arg.get s')) s.w = q
        have b1 : Agree B (writeBack F.kinds args q.2.1 ({ s with w := q.2.2 } : St M)) (writeBack F.kinds args q.2.1 ({ s' with w := q.2.2 } : St M)) :=
          writeBack_prune q.2.1 ⟨ha.mem, rfl⟩
        cases q.1 with
        | none => exact .exn b1
        | some v => exact .val b1
      · simp only [if_neg he]
        exact runImpls_prune (callN_prune h n) h.kinds h.1 (n + 1) F.dflt hB hk hn h7 ha

theorem fits_kept {ks : List Kind} {args : List Arg} (r : Nat → Bool) (h : Fits d ks args) : KeptOk (fun _ => False) d r args := by
  induction args generalizing ks r with
  | nil => trivial
  | cons a as ih =>
    cases ks with
    | nil => cases a <;> simp [Fits] at h
    | cons k ks =>
      cases a with
      | val v =>
        have : Fits d ks as := by cases k <;> simpa [Fits] using h
        exact ⟨(fun _ l h => by cases h), ih _ this⟩
      | ref l =>
        have h' : (∀ e y, l = .slot e y → e ≤ d) ∧ Fits d ks as := by
          cases l with
          | glob g => cases k <;> simp [Fits] at h <;> exact ⟨(fun e y he => by cases he), h⟩
          | slot e y => cases k <;> simp [Fits] at h <;> exact ⟨(fun e' y' he => by cases he; exact h.1), h.2⟩
        exact ⟨(fun _ l' h => by injection h with h; subst h; exact ⟨(fun h => h), h'.1⟩), ih _ h'.2⟩

theorem fits_length {ks : List Kind} {args : List Arg} (h : Fits d ks args) : args.length = ks.length := by
  induction args generalizing ks with
  | nil => cases ks with
    | nil => rfl
    | cons k ks => cases k <;> simp [Fits] at h
  | cons a as ih =>
    cases ks with
    | nil => cases a <;> simp [Fits] at h
    | cons k ks =>
      have : Fits d ks as := by
        cases a with
        | val v => cases k <;> simpa [Fits] using h
        | ref l => cases l <;> cases k <;> simp [Fits] at h <;> first | exact h | exact h.2
      simp [ih this]

/-- Calls do the same before and after. -/
theorem drops_same {r : Fn → Nat → Bool} {pr : Fn → Bool} {rank : Fn → Nat} {P Q : Prog} (h : Drops M r pr rank P Q) (n : Nat) {f : Fn}
    {args : List Arg} {d : Nat} (s : St M) (hf : Fits d (P.kinds f) args) :
    callN M P n f args d s = callN M Q n f (dropAt (r f) args) d s := by
  have h := callN_prune (M := M) h n f args d s s (fun _ => False) (fun _ h => h.elim) ⟨fun _ _ => rfl, rfl⟩ (fits_kept _ hf) (fits_length hf)
  generalize callN M P n f args d s = o at h
  generalize callN M Q n f (dropAt (r f) args) d s = o' at h
  cases h with
  | none => rfl
  | val ha => rw [ha.eq]
  | exn ha => rw [ha.eq]

end Verif.Opt.Whole
