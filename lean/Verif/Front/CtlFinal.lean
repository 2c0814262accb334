import Verif.Front.CtlMain
/-! # The C++ for the body of a function -/

namespace Verif.Front.Ctl

variable {V W : Type}

/-- **The C++ for a function does what its statements say**: the same rounds of every loop, the same values and exceptions, the same
changes to variables and everything else, in the same order. -/
theorem body_compiled (L : Lib V W) (hL : ∀ b, L.truth (L.bool b) = b) (t : Bool) (cur : Nat) (b : Stmts V) (h : OkB t cur b)
    (hb : b.breaks = false) (n : Nat) (σ : St V W) : Agree (srcB L n b σ) (cxxB L n (genB t cur b) σ) := by
  rw [genB_run L hL n t b cur σ h]
  have hn := srcB_noBrk L n t cur b σ h hb
  generalize srcB L n b σ = r at hn ⊢
  rcases r with _ | ⟨o, σ'⟩
  · exact .none
  · cases o with
    | norm => exact .norm σ'
    | brk => exact absurd rfl (hn σ')
    | cont => exact .cont σ'
    | goto l => exact l.elim
    | ret v => exact .ret v σ'
    | exn v => exact .exn v σ'
    | ub => exact .ub σ'

/-- `break` leaves the innermost loop: in C++ it goes to the label behind that loop. -/
theorem break_compiled (L : Lib V W) (hL : ∀ b, L.truth (L.bool b) = b) (t : Bool) (cur : Nat) (b : Stmts V) (h : OkB t cur b)
    (n : Nat) (σ σ' : St V W) : srcB L n b σ = some (.brk, σ') ↔ cxxB L n (genB t cur b) σ = some (.goto cur, σ') := by
  rw [genB_run L hL n t b cur σ h]
  generalize srcB L n b σ = r
  rcases r with _ | ⟨o, σ₁⟩
  · exact ⟨(fun h => by cases h), (fun h => by cases h)⟩
  · cases o with
    | brk => exact ⟨(fun h => by cases h; rfl), (fun h => by cases h; rfl)⟩
    | goto l => exact l.elim
    | _ => exact ⟨(fun h => by cases h), (fun h => by cases h)⟩

/-! ### More rounds -/

/-- The second result is that of the first, if there is one. -/
def Le {G : Type} (r r' : Run V W G) : Prop := ∀ p, r = some p → r' = some p

theorem Le.refl {G : Type} (r : Run V W G) : Le r r := fun _ h => h

theorem le_leave {G : Type} {r r' : Run V W G} (σ : St V W) (h : Le r r') : Le (leave σ r) (leave σ r') := by
  intro p e
  rcases r with _ | q
  · cases e
  · rw [h q rfl]; exact e

theorem le_andThen {G : Type} (p : R V × St V W) {k k' : V → St V W → Run V W G} (h : ∀ v σ, Le (k v σ) (k' v σ)) :
    Le (andThen p k) (andThen p k') := by
  rcases p with ⟨r, σ⟩
  cases r with
  | val v => exact h v σ
  | exn v => exact .refl _
  | ub => exact .refl _

theorem le_while {G : Type} (L : Lib V W) (test : St V W → R V × St V W) {b b' e e' : St V W → Run V W G} (hb : ∀ σ, Le (b σ) (b' σ))
    (he : ∀ σ, Le (e σ) (e' σ)) : ∀ m σ, Le (whileN L test b e m σ) (whileN L test b' e' (m + 1) σ)
  | 0, _ => fun p h => by cases h
  | m + 1, σ => by
    rw [whileN, whileN]
    rcases test σ with ⟨r, σ₁⟩
    cases r with
    | exn v => exact .refl _
    | ub => exact .refl _
    | val v =>
      dsimp only
      split
      · have hl := le_leave σ (hb σ₁)
        rcases hr : leave σ (b σ₁) with _ | ⟨o, σ₂⟩
        · exact fun p h => by cases h
        · rw [hl _ hr]
          cases o <;> first | exact le_while L test hb he m σ₂ | exact .refl _
      · exact le_leave σ (he σ₁)

theorem le_each {G : Type} (L : Lib V W) (x : Nat) {b b' : St V W → Run V W G} (hb : ∀ σ, Le (b σ) (b' σ)) :
    ∀ m v σ, Le (eachN L x b m v σ) (eachN L x b' (m + 1) v σ)
  | 0, _, _ => fun p h => by cases h
  | m + 1, v, σ => by
    rw [eachN, eachN]
    cases L.next v σ.2 with
    | none => exact .refl _
    | some p =>
      dsimp only
      have hl := le_leave σ (hb (bind x p.1 σ))
      rcases hr : leave σ (b (bind x p.1 σ)) with _ | ⟨o, σ₂⟩
      · exact fun p h => by cases h
      · rw [hl _ hr]
        cases o <;> first | exact le_each L x hb m p.2 σ₂ | exact .refl _

mutual
theorem src_le (L : Lib V W) (n : Nat) : ∀ (s : Stmt V) (σ : St V W), Le (src L n s σ) (src L (n + 1) s σ)
  | .expr _, _ => .refl _
  | .decl _ _, _ => .refl _
  | .block b, σ => le_leave σ (srcB_le L n b σ)
  | .assert _ _, _ => .refl _
  | .ite none c a b, σ => le_andThen _ fun v σ' => le_leave σ' (by
      split
      · exact srcB_le L n a σ'
      · exact srcB_le L n b σ')
  | .ite (some (x, e)) c a b, σ => le_leave σ (le_andThen _ fun _ τ => le_andThen _ fun v σ' => le_leave σ' (by
      split
      · exact srcB_le L n a σ'
      · exact srcB_le L n b σ'))
  | .loop _ h body hasElse els, σ => by
      have he : ∀ τ : St V W, Le (if hasElse then srcB L n els τ else some (.norm, τ))
          (if hasElse then srcB L (n + 1) els τ else some (.norm, τ)) := fun τ => by
        split
        · exact srcB_le L n els τ
        · exact .refl _
      cases h with
      | cond c => exact le_while L _ (srcB_le L n body) he n σ
      | init x e => exact le_while L _ (srcB_le L n body) he n σ
      | both x e c => exact le_leave σ (le_andThen _ fun v τ => le_while L _ (srcB_le L n body) he n _)
  | .each _ x e _ body, σ => le_andThen _ fun v τ => le_each L x (srcB_le L n body) n v τ
  | .switch x e _ cs hasDefault d, σ => le_leave σ (le_andThen _ fun v τ => srcC_le L n x cs (fun ρ => by
      split
      · exact le_leave ρ (srcB_le L n d ρ)
      · exact .refl _) _)
  | .brk, _ => .refl _
  | .cont, _ => .refl _
  | .ret _, _ => .refl _
  | .throw _, _ => .refl _
  | .try_ b cs, σ => by
      have hl := le_leave σ (srcB_le L n b σ)
      rw [src, src]
      rcases hr : leave σ (srcB L n b σ) with _ | ⟨o, σ₂⟩
      · exact fun p h => by cases h
      · rw [hl _ hr]
        cases o <;> first | exact srcH_le L n cs _ σ₂ | exact .refl _
theorem srcB_le (L : Lib V W) (n : Nat) : ∀ (b : Stmts V) (σ : St V W), Le (srcB L n b σ) (srcB L (n + 1) b σ)
  | .nil, _ => .refl _
  | .cons s ss, σ => by
    have hl := src_le L n s σ
    rw [srcB, srcB]
    rcases hr : src L n s σ with _ | ⟨o, σ₂⟩
    · exact fun p h => by cases h
    · rw [hl _ hr]
      cases o <;> first | exact srcB_le L n ss σ₂ | exact .refl _
theorem srcC_le (L : Lib V W) (n : Nat) (x : Nat) : ∀ (cs : Cases V) {d d' : St V W → Run V W Empty}, (∀ τ, Le (d τ) (d' τ)) →
    ∀ σ, Le (srcC L n x cs d σ) (srcC L (n + 1) x cs d' σ)
  | .nil, _, _, hd, σ => hd σ
  | .cons es b cs, _, _, hd, σ => le_andThen _ fun v σ' => by
    split
    · exact le_leave σ' (srcB_le L n b σ')
    · exact srcC_le L n x cs hd σ'
theorem srcH_le (L : Lib V W) (n : Nat) : ∀ (cs : Catches V) (v : V) (σ : St V W), Le (srcH L n cs v σ) (srcH L (n + 1) cs v σ)
  | .nil, _, _ => .refl _
  | .cons none b _, _, σ => le_leave σ (srcB_le L n b σ)
  | .cons (some (t, x)) b cs, v, σ => by
    rw [srcH, srcH]
    split
    · exact le_leave σ (srcB_le L n b _)
    · exact srcH_le L n cs v σ
end

/-- With more rounds allowed the result is the same. -/
theorem rounds_enough (L : Lib V W) (b : Stmts V) (σ : St V W) {n m : Nat} (h : n ≤ m) {p} (hp : srcB L n b σ = some p) :
    srcB L m b σ = some p := by
  induction h with
  | refl => exact hp
  | step _ ih => exact srcB_le L _ b σ p ih

/-- **The C++ comes to an end when the statements do, with the same result.** -/
theorem ends_together (L : Lib V W) (hL : ∀ b, L.truth (L.bool b) = b) (t : Bool) (cur : Nat) (b : Stmts V) (h : OkB t cur b)
    (hb : b.breaks = false) (σ σ' : St V W) (v : V) :
    ((∃ n, srcB L n b σ = some (.ret v, σ')) ↔ ∃ n, cxxB L n (genB t cur b) σ = some (.ret v, σ')) ∧
    ((∃ n, srcB L n b σ = some (.exn v, σ')) ↔ ∃ n, cxxB L n (genB t cur b) σ = some (.exn v, σ')) ∧
    ((∃ n, srcB L n b σ = some (.norm, σ')) ↔ ∃ n, cxxB L n (genB t cur b) σ = some (.norm, σ')) := by
  have key := fun n => body_compiled L hL t cur b h hb n σ
  have rw1 : ∀ {n o} {o' : O V Nat}, Agree (some (o, σ')) (some (o', σ')) → (∀ r', Agree (some (o, σ')) r' → r' = some (o', σ')) →
      (∀ r, Agree r (some (o', σ')) → r = some (o, σ')) → (srcB L n b σ = some (o, σ') ↔ cxxB L n (genB t cur b) σ = some (o', σ')) :=
    fun {n o o'} _ f g => ⟨fun e => f _ (e ▸ key n), fun e => g _ (e ▸ key n)⟩
  refine ⟨exists_congr fun n => rw1 (.ret v σ') ?_ ?_, exists_congr fun n => rw1 (.exn v σ') ?_ ?_,
    exists_congr fun n => rw1 (.norm σ') ?_ ?_⟩ <;>
  · intro r hr
    cases hr
    rfl

end Verif.Front.Ctl
