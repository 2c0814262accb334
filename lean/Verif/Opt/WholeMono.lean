import Verif.Opt.Whole

/-!
# What code does depends only on what the functions it calls do, and more steps change nothing
-/

namespace Verif.Opt.Whole

variable {M : Sem}

/-- Calls of these functions that end in `c` end the same way in `c'`. -/
def LeOn (S : List Fn) (c c' : Calls M) : Prop :=
  ∀ f ∈ S, ∀ args d s r, c f args d s = some r → c' f args d s = some r

/-- The same kinds of parameters for these functions. -/
def KOn (S : List Fn) (K K' : Fn → List Kind) : Prop := ∀ f ∈ S, K f = K' f

theorem LeOn.sub {S T : List Fn} {c c' : Calls M} (h : LeOn S c c') (hs : ∀ f ∈ T, f ∈ S) : LeOn T c c' :=
  fun f hf => h f (hs f hf)

theorem KOn.sub {S T : List Fn} {K K' : Fn → List Kind} (h : KOn S K K') (hs : ∀ f ∈ T, f ∈ S) : KOn T K K' :=
  fun f hf => h f (hs f hf)

variable {c c' : Calls M} {K K' : Fn → List Kind} {env : Nat → Loc} {d : Nat}

mutual
theorem eval_mono : (e : Expr) → LeOn e.calls c c' → KOn e.calls K K' → ∀ s r,
    eval c K env d e s = some r → eval c' K' env d e s = some r
  | .lit v, _, _, s, r, h => by simpa only [eval] using h
  | .name x, _, _, s, r, h => by simpa only [eval] using h
  | .mod o x, _, _, s, r, h => by simpa only [eval] using h
  | .op o as, hc, hk, s, r, h => by
    have ih := evalArgs_mono as (by simpa only [Expr.calls] using hc) (by simpa only [Expr.calls] using hk) []
    simp only [eval] at h ⊢
    cases h1 : evalArgs c K env d [] as s with
    | none => rw [h1] at h; exact absurd h (by simp)
    | some q => rw [h1] at h; rw [ih s q h1]; exact h
  | .assign x e, hc, hk, s, r, h => by
    have ih := eval_mono e (by simpa only [Expr.calls] using hc) (by simpa only [Expr.calls] using hk)
    simp only [eval] at h ⊢
    cases h1 : eval c K env d e s with
    | none => rw [h1] at h; exact absurd h (by simp)
    | some q => rw [h1] at h; rw [ih s q h1]; exact h
  | .tern q a b, hc, hk, s, r, h => by
    simp only [Expr.calls] at hc hk
    have ihq := eval_mono q (hc.sub (by intro f hf; simp [hf])) (hk.sub (by intro f hf; simp [hf]))
    have iha := eval_mono a (hc.sub (by intro f hf; simp [hf])) (hk.sub (by intro f hf; simp [hf]))
    have ihb := eval_mono b (hc.sub (by intro f hf; simp [hf])) (hk.sub (by intro f hf; simp [hf]))
    simp only [eval] at h ⊢
    cases h1 : eval c K env d q s with
    | none => rw [h1] at h; exact absurd h (by simp)
    | some w =>
      rw [h1] at h; rw [ihq s w h1]
      cases w with
      | exn s1 => exact h
      | val v s1 =>
        cases hv : v.truth with
        | true =>
          have h' : eval c K env d a s1 = some r := by simpa [hv] using h
          simpa [hv] using iha s1 r h'
        | false =>
          have h' : eval c K env d b s1 = some r := by simpa [hv] using h
          simpa [hv] using ihb s1 r h'
  | .call f as, hc, hk, s, r, h => by
    simp only [Expr.calls] at hc hk
    have ih := evalArgs_mono as (hc.sub (by intro f hf; simp [hf])) (hk.sub (by intro f hf; simp [hf])) (K f)
    simp only [eval] at h ⊢
    rw [← hk f (by simp)]
    cases h1 : evalArgs c K env d (K f) as s with
    | none => rw [h1] at h; exact absurd h (by simp)
    | some q =>
      rw [h1] at h; rw [ih s q h1]
      cases q with
      | exn s1 => exact h
      | vals vs s1 => exact hc f (by simp) _ _ _ _ h
theorem evalArgs_mono : (as : Exprs) → LeOn as.calls c c' → KOn as.calls K K' → ∀ ks s r,
    evalArgs c K env d ks as s = some r → evalArgs c' K' env d ks as s = some r
  | .nil, _, _, ks, s, r, h => by simpa only [evalArgs] using h
  | .cons e t, hc, hk, ks, s, r, h => by
    simp only [Exprs.calls] at hc hk
    have ihe := eval_mono e (hc.sub (by intro f hf; simp [hf])) (hk.sub (by intro f hf; simp [hf]))
    have iht := evalArgs_mono t (hc.sub (by intro f hf; simp [hf])) (hk.sub (by intro f hf; simp [hf])) ks.tail
    simp only [evalArgs] at h ⊢
    cases hb : byRef env (ks.headD .copy) e with
    | some l =>
      simp only [hb] at h ⊢
      cases h1 : evalArgs c K env d ks.tail t s with
      | none => rw [h1] at h; exact absurd h (by simp)
      | some q => rw [h1] at h; rw [iht s q h1]; exact h
    | none =>
      simp only [hb] at h ⊢
      cases h1 : eval c K env d e s with
      | none => rw [h1] at h; exact absurd h (by simp)
      | some q =>
        rw [h1] at h; rw [ihe s q h1]
        cases q with
        | exn s1 => exact h
        | val v s1 =>
          simp only at h ⊢
          cases h2 : evalArgs c K env d ks.tail t s1 with
          | none => rw [h2] at h; exact absurd h (by simp)
          | some q => rw [h2] at h; rw [iht s1 q h2]; exact h
end

theorem evalInit_mono (i : Option (Nat × Expr)) (hc : LeOn (initCalls i) c c') (hk : KOn (initCalls i) K K') (s : St M) (r : Ev M)
    (h : evalInit c K env d i s = some r) : evalInit c' K' env d i s = some r := by
  cases i with
  | none => exact h
  | some p =>
    obtain ⟨x, e⟩ := p
    simp only [evalInit] at h ⊢
    cases h1 : eval c K env d e s with
    | none => rw [h1] at h; exact absurd h (by simp)
    | some q => rw [h1] at h; rw [eval_mono e hc hk s q h1]; exact h

theorem loop_mono {q q' : St M → Option (Ev M)} {b b' e e' : St M → Option (Out M)}
    (hq : ∀ s r, q s = some r → q' s = some r) (hb : ∀ s r, b s = some r → b' s = some r)
    (he : ∀ s r, e s = some r → e' s = some r) :
    ∀ n n', n ≤ n' → ∀ s r, loop q b e n s = some r → loop q' b' e' n' s = some r
  | 0, _, _, s, r, h => by simp [loop] at h
  | n + 1, 0, hn, s, r, h => absurd hn (by omega)
  | n + 1, n' + 1, hn, s, r, h => by
    have ih := loop_mono hq hb he n n' (by omega)
    simp only [loop] at h ⊢
    cases h1 : q s with
    | none => rw [h1] at h; exact absurd h (by simp)
    | some w =>
      rw [h1] at h; rw [hq s w h1]
      cases w with
      | exn s1 => exact h
      | val v s1 =>
        simp only at h ⊢
        by_cases hv : v.truth = true
        · rw [if_pos hv] at h ⊢
          cases h2 : b s1 with
          | none => rw [h2] at h; exact absurd h (by simp)
          | some o =>
            rw [h2] at h; rw [hb s1 o h2]
            cases o with
            | norm s2 => exact ih s2 r h
            | cont s2 => exact ih s2 r h
            | brk s2 => exact h
            | ret w s2 => exact h
            | exn s2 => exact h
        · rw [if_neg hv] at h ⊢
          exact he s1 r h

variable {n n' : Nat}

mutual
theorem exec_mono (hn : n ≤ n') : (a : Stmt) → LeOn a.calls c c' → KOn a.calls K K' → ∀ s r,
    exec c K env d n a s = some r → exec c' K' env d n' a s = some r
  | .expr e, hc, hk, s, r, h => by
    simp only [Stmt.calls] at hc hk
    simp only [exec] at h ⊢
    cases h1 : eval c K env d e s with
    | none => rw [h1] at h; exact absurd h (by simp)
    | some q => rw [h1] at h; rw [eval_mono e hc hk s q h1]; exact h
  | .decl x e, hc, hk, s, r, h => by
    simp only [Stmt.calls] at hc hk
    simp only [exec] at h ⊢
    cases h1 : evalInit c K env d (some (x, e)) s with
    | none => rw [h1] at h; exact absurd h (by simp)
    | some q => rw [h1] at h; rw [evalInit_mono (some (x, e)) hc hk s q h1]; exact h
  | .ret none, hc, hk, s, r, h => by simpa only [exec] using h
  | .ret (some e), hc, hk, s, r, h => by
    simp only [Stmt.calls, optCalls] at hc hk
    simp only [exec] at h ⊢
    cases h1 : eval c K env d e s with
    | none => rw [h1] at h; exact absurd h (by simp)
    | some q => rw [h1] at h; rw [eval_mono e hc hk s q h1]; exact h
  | .throw_ e, hc, hk, s, r, h => by
    simp only [Stmt.calls] at hc hk
    simp only [exec] at h ⊢
    cases h1 : eval c K env d e s with
    | none => rw [h1] at h; exact absurd h (by simp)
    | some q => rw [h1] at h; rw [eval_mono e hc hk s q h1]; exact h
  | .brk, hc, hk, s, r, h => by simpa only [exec] using h
  | .cont, hc, hk, s, r, h => by simpa only [exec] using h
  | .block b, hc, hk, s, r, h => by
    simp only [Stmt.calls] at hc hk
    simp only [exec] at h ⊢
    exact execs_mono hn b hc hk s r h
  | .ite i q t e, hc, hk, s, r, h => by
    simp only [Stmt.calls] at hc hk
    have iht := execs_mono hn t (hc.sub (by intro f hf; simp [hf])) (hk.sub (by intro f hf; simp [hf]))
    have ihe := execs_mono hn e (hc.sub (by intro f hf; simp [hf])) (hk.sub (by intro f hf; simp [hf]))
    have ihi := evalInit_mono (env := env) (d := d) i (hc.sub (by intro f hf; simp [hf])) (hk.sub (by intro f hf; simp [hf]))
    have ihq := eval_mono (env := env) (d := d) q (hc.sub (by intro f hf; simp [hf])) (hk.sub (by intro f hf; simp [hf]))
    simp only [exec] at h ⊢
    cases h1 : evalInit c K env d i s with
    | none => rw [h1] at h; exact absurd h (by simp)
    | some w =>
      rw [h1] at h; rw [ihi s w h1]
      cases w with
      | exn s1 => exact h
      | val v s1 =>
        simp only at h ⊢
        cases h2 : eval c K env d q s1 with
        | none => rw [h2] at h; exact absurd h (by simp)
        | some w =>
          rw [h2] at h; rw [ihq s1 w h2]
          cases w with
          | exn s2 => exact h
          | val v s2 =>
            simp only at h ⊢
            by_cases hv : v.truth = true
            · rw [if_pos hv] at h ⊢; exact iht s2 r h
            · rw [if_neg hv] at h ⊢; exact ihe s2 r h
  | .while_ i q b e, hc, hk, s, r, h => by
    simp only [Stmt.calls] at hc hk
    have ihb := execs_mono hn b (hc.sub (by intro f hf; simp [hf])) (hk.sub (by intro f hf; simp [hf]))
    have ihe := execs_mono hn e (hc.sub (by intro f hf; simp [hf])) (hk.sub (by intro f hf; simp [hf]))
    have ihi := evalInit_mono (env := env) (d := d) i (hc.sub (by intro f hf; simp [hf])) (hk.sub (by intro f hf; simp [hf]))
    have ihq := eval_mono (env := env) (d := d) q (hc.sub (by intro f hf; simp [hf])) (hk.sub (by intro f hf; simp [hf]))
    simp only [exec] at h ⊢
    cases h1 : evalInit c K env d i s with
    | none => rw [h1] at h; exact absurd h (by simp)
    | some w =>
      rw [h1] at h; rw [ihi s w h1]
      cases w with
      | exn s1 => exact h
      | val v s1 => exact loop_mono ihq ihb ihe n n' hn s1 r h
  | .try_ b g, hc, hk, s, r, h => by
    simp only [Stmt.calls] at hc hk
    have ihb := execs_mono hn b (hc.sub (by intro f hf; simp [hf])) (hk.sub (by intro f hf; simp [hf]))
    have ihg := execs_mono hn g (hc.sub (by intro f hf; simp [hf])) (hk.sub (by intro f hf; simp [hf]))
    simp only [exec] at h ⊢
    cases h1 : execs c K env d n b s with
    | none => rw [h1] at h; exact absurd h (by simp)
    | some o =>
      rw [h1] at h; rw [ihb s o h1]
      cases o with
      | exn s1 => exact ihg s1 r h
      | norm s2 => exact h
      | cont s2 => exact h
      | brk s2 => exact h
      | ret w s2 => exact h
theorem execs_mono (hn : n ≤ n') : (b : Stmts) → LeOn b.calls c c' → KOn b.calls K K' → ∀ s r,
    execs c K env d n b s = some r → execs c' K' env d n' b s = some r
  | .nil, hc, hk, s, r, h => by simpa only [execs] using h
  | .cons a t, hc, hk, s, r, h => by
    simp only [Stmts.calls] at hc hk
    have iha := exec_mono hn a (hc.sub (by intro f hf; simp [hf])) (hk.sub (by intro f hf; simp [hf]))
    have iht := execs_mono hn t (hc.sub (by intro f hf; simp [hf])) (hk.sub (by intro f hf; simp [hf]))
    simp only [execs] at h ⊢
    cases h1 : exec c K env d n a s with
    | none => rw [h1] at h; exact absurd h (by simp)
    | some o =>
      rw [h1] at h; rw [iha s o h1]
      cases o with
      | norm s1 => exact iht s1 r h
      | exn s2 => exact h
      | cont s2 => exact h
      | brk s2 => exact h
      | ret w s2 => exact h
end

/-- Implementations that do at least what others do. -/
inductive Impls (R : Impl → Impl → Prop) : List Impl → List Impl → Prop
  | nil : Impls R [] []
  | cons {i j : Impl} {r t : List Impl} : R i j → Impls R r t → Impls R (i :: r) (j :: t)

theorem runImpls_le {c c' : Calls M} {K K' : Fn → List Kind} {n n' : Nat} (dflt : Val) (args : List Arg) (d : Nat)
    {l l' : List Impl}
    (h : Impls (fun i j => i.params = j.params ∧ ∀ env s r, execs c K env (d + 1) n i.body s = some r →
      execs c' K' env (d + 1) n' j.body s = some r) l l') :
    ∀ s r, runImpls c K n dflt args d l s = some r → runImpls c' K' n' dflt args d l' s = some r := by
  induction h with
  | nil => intro s r h; exact h
  | @cons i j _ _ hij _ ih =>
    intro s r h
    obtain ⟨hp, hb⟩ := hij
    simp only [runImpls] at h ⊢
    rw [← hp]
    cases h1 : execs c K (bindEnv (d + 1) i.params args) (d + 1) n i.body (enter (d + 1) i.params args s) with
    | none => rw [h1] at h; exact absurd h (by simp)
    | some o =>
      rw [h1] at h; rw [hb _ _ o h1]
      cases o with
      | norm s1 => exact ih _ _ h
      | brk s1 => exact ih _ _ h
      | cont s1 => exact ih _ _ h
      | exn s1 => exact h
      | ret v s1 =>
        cases v with
        | none => exact ih _ _ h
        | some v => exact h

theorem Impls.refl {R : Impl → Impl → Prop} : ∀ (l : List Impl), (∀ i ∈ l, R i i) → Impls R l l
  | [], _ => .nil
  | i :: l, h => .cons (h i (by simp)) (Impls.refl l fun j hj => h j (by simp [hj]))

theorem KOn.rfl {S : List Fn} {K : Fn → List Kind} : KOn S K K := fun _ _ => Eq.refl _

/-- More steps change nothing. -/
theorem callN_mono (P : Prog) : ∀ n n', n ≤ n' → ∀ f args d s r,
    callN M P n f args d s = some r → callN M P n' f args d s = some r
  | 0, _, _, f, args, d, s, r, h => by simp [callN] at h
  | n + 1, 0, hn, f, args, d, s, r, h => absurd hn (by omega)
  | n + 1, n' + 1, hn, f, args, d, s, r, h => by
    simp only [callN] at h ⊢
    cases hF : P.get f with
    | none => rw [hF] at h; exact absurd h (by simp)
    | some F =>
      rw [hF] at h
      simp only at h ⊢
      by_cases he : F.ext = true
      · rw [if_pos he] at h ⊢; exact h
      · rw [if_neg he] at h ⊢
        refine runImpls_le F.dflt args d (Impls.refl _ fun i _ => ⟨rfl, fun env s r h => ?_⟩) s r h
        exact execs_mono (by omega) i.body (fun f _ => callN_mono P n n' (by omega) f) KOn.rfl s r h

/-- What a call does is unique. -/
theorem Does.unique {P : Prog} {f : Fn} {args : List Arg} {d : Nat} {s : St M} {r r' : Ev M}
    (h : Does M P f args d s r) (h' : Does M P f args d s r') : r = r' := by
  obtain ⟨n, h⟩ := h
  obtain ⟨n', h'⟩ := h'
  have h1 := callN_mono P n (max n n') (by omega) _ _ _ _ _ h
  have h2 := callN_mono P n' (max n n') (by omega) _ _ _ _ _ h'
  rw [h1] at h2; injection h2

end Verif.Opt.Whole
