import Verif.Front.EmitMain

/-!
# What codegen groups differently, and how to write it instead (C87)

Each exclusion of `Plain` is needed: for all operands, the text that codegen writes is grouped differently by C++. And no
meaning is lost: with parentheses around every operand, the text means what the source means.
-/

namespace Verif.Front.Emit

/-! ### Findings -/

/-- the bit operators on bools -/
def boolBit : BOp → Option SBin
  | .band => some .bAnd
  | .bor => some .bOr
  | .bxor => some .bXor
  | _ => none

/-- **`a & b == c` on bools means `a & (b == c)`.** The parser groups it as `(a & b) == c`, which is what the documentation says; codegen writes it
without parentheses, and in C++ `==` binds tighter than `&`, `|`, `^`. This is so for all operands. -/
theorem bool_bit_misgrouped (o : BOp) (s : SBin) (ho : boolBit o = some s) {a b c : Ex}
    (ha : Parsed s.prec a) (hb : Parsed (s.prec + 1) b) (hc : Parsed 7 c) (pa : Plain a) (pb : Plain b) (pc : Plain c)
    (hb' : isBoolBit b = false) (hc' : isBoolBit c = false) (cmp : SBin) (x : BOp) (hx : cmp = .eq ∧ x = .eq ∨ cmp = .ne ∧ x = .ne) (t : Tree) :
    Parsed 1 (.bin cmp false (.bin s false a b) c) ∧
    means (.bin cmp false (.bin s false a b) c) = .bin x (.bin o (means a) (means b)) (means c) ∧
    (Cxx 0 (emit (.bin cmp false (.bin s false a b) c)) t ↔
      t = .bin o (means a) (.bin x (means b) (means c))) := by
  have da := emit_sound ha pa
  have db := emit_sound hb pb
  have dc := emit_sound hc pc
  have la := levels ha
  have lb := levels hb
  have lc := levels hc
  rw [hb'] at lb
  rw [hc'] at lc
  simp only [Bool.false_eq_true, false_or] at lb lc
  have up : ∀ {k l e}, Parsed (k + l) e → k + l < 18 → Parsed l e := by
    intro k
    induction k with
    | zero => intro l e h _; simpa using h
    | succ k ih =>
      intro l e h hl
      exact ih (.up (by omega) (by rw [show k + l + 1 = k + 1 + l by omega]; exact h)) (by omega)
  have hp : Parsed s.prec (.bin s false a b) := by
    refine .bin ?_ ha hb
    rintro rfl
    cases o <;> simp [boolBit] at ho
  have h6 : Parsed 6 (.bin s false a b) := by
    cases o <;> simp only [boolBit, Option.some.injEq, reduceCtorEq] at ho <;> subst ho
    · exact up (k := 2) hp (by decide)
    · exact up (k := 3) hp (by decide)
    · exact up (k := 4) hp (by decide)
  have hin : Cxx x.level (emit b ++ .op x :: emit c) (.bin x (means b) (means c)) := by
    refine cxx_bin x db ?_ dc ?_
    · cases o <;> simp only [boolBit, Option.some.injEq, reduceCtorEq] at ho <;> subst ho <;>
        rcases hx with ⟨_, rfl⟩ | ⟨_, rfl⟩ <;> simp only [SBin.prec, BOp.level, least, least'] at lb ⊢ <;> omega
    · rcases hx with ⟨_, rfl⟩ | ⟨_, rfl⟩ <;> simp only [BOp.level, least, least'] at lc ⊢ <;> omega
  have hx7 : x.level = 7 := by rcases hx with ⟨_, rfl⟩ | ⟨_, rfl⟩ <;> rfl
  have hout : Cxx o.level (emit a ++ .op o :: (emit b ++ .op x :: emit c))
      (.bin o (means a) (.bin x (means b) (means c))) := by
    refine cxx_bin o da ?_ hin ?_
    · cases o <;> simp only [boolBit, Option.some.injEq, reduceCtorEq] at ho <;> subst ho <;>
        simp only [SBin.prec, BOp.level, least] at la ⊢ <;> omega
    · rw [hx7]
      cases o <;> simp only [boolBit, Option.some.injEq, reduceCtorEq] at ho <;> simp only [BOp.level] <;> omega
  have htext : emit (.bin cmp false (.bin s false a b) c) = emit a ++ .op o :: (emit b ++ .op x :: emit c) := by
    cases o <;> simp only [boolBit, Option.some.injEq, reduceCtorEq] at ho <;> subst ho <;>
      rcases hx with ⟨rfl, rfl⟩ | ⟨rfl, rfl⟩ <;> simp [emit, SBin.fmt, Fmt.text]
  refine ⟨?_, ?_, ?_⟩
  · rcases hx with ⟨rfl, rfl⟩ | ⟨rfl, rfl⟩
    · exact up (k := 5) (.bin (o := .eq) (by decide) h6 hc) (by decide)
    · exact up (k := 5) (.bin (o := .ne) (by decide) h6 hc) (by decide)
  · cases o <;> simp only [boolBit, Option.some.injEq, reduceCtorEq] at ho <;> subst ho <;>
      rcases hx with ⟨rfl, rfl⟩ | ⟨rfl, rfl⟩ <;> rfl
  · rw [htext]
    constructor
    · exact fun ht => cxx_unique ht (hout.down (Nat.zero_le _))
    · rintro rfl
      exact hout.down (Nat.zero_le _)

/-- the value of an expression on bools -/
def evalB (env : String → Bool) : Tree → Option Bool
  | .name n => some (env n)
  | .bin .band a b => do return (← evalB env a) && (← evalB env b)
  | .bin .bor a b => do return (← evalB env a) || (← evalB env b)
  | .bin .bxor a b => do return (← evalB env a) != (← evalB env b)
  | .bin .eq a b => do return (← evalB env a) == (← evalB env b)
  | .bin .ne a b => do return (← evalB env a) != (← evalB env b)
  | _ => none

/-- `(a & b) == c` with everything false is true; the program computes false. -/
theorem bool_bit_wrong : ∃ e env t, Parsed 1 e ∧ Cxx 0 (emit e) t ∧
    evalB env (means e) = some true ∧ evalB env t = some false := by
  have hn : ∀ n, Parsed 17 (.name n) := .name
  have u : ∀ n, Parsed 11 (.name n) := fun n =>
    .up (by omega) (.up (by omega) (.up (by omega) (.up (by omega) (.up (by omega) (.up (by omega) (hn n))))))
  have h := bool_bit_misgrouped .band .bAnd rfl (a := .name "a") (b := .name "b") (c := .name "c")
    (.up (by decide) (u _)) (u _) (.up (by omega) (.up (by omega) (.up (by omega) (.up (by omega) (u _)))))
    trivial trivial trivial rfl rfl .eq .eq (Or.inl ⟨rfl, rfl⟩)
  exact ⟨_, fun _ => false, _, (h (.name "")).1, ((h _).2.2).2 rfl, rfl, rfl⟩

/-- an assignment operator of Spicy and that of C++ -/
def assignOp : AOp → SBin
  | .set => .set
  | .addA => .addA
  | .subA => .subA
  | .mulA => .mulA
  | .divA => .divA

/-- **`a -= b -= c` means `a -= (b -= c)`.** The parser groups it as `(a -= b) -= c`, which is what the documentation says; in C++ assignments
group from right to left. -/
theorem assign_misgrouped (o p : AOp) {a b c : Ex} (ha : Parsed 2 a) (hb : Parsed 2 b) (hc : Parsed 2 c)
    (pa : Plain a) (pb : Plain b) (pc : Plain c) (t : Tree) :
    Parsed 1 (.bin (assignOp p) false (.bin (assignOp o) false a b) c) ∧
    means (.bin (assignOp p) false (.bin (assignOp o) false a b) c) = .asg p (.asg o (means a) (means b)) (means c) ∧
    (Cxx 0 (emit (.bin (assignOp p) false (.bin (assignOp o) false a b) c)) t ↔
      t = .asg o (means a) (.asg p (means b) (means c))) := by
  have da := emit_sound ha pa
  have db := emit_sound hb pb
  have dc := emit_sound hc pc
  have la := (levels ha).1
  have lb := (levels hb).1
  have lc := (levels hc).1
  simp only [least] at la lb lc
  have hp : ∀ o, (assignOp o).prec = 1 := by intro o; cases o <;> rfl
  have hpow : ∀ o, assignOp o ≠ .pow := by intro o; cases o <;> simp [assignOp]
  have hf : ∀ o, (assignOp o).fmt = .assign o := by intro o; cases o <;> rfl
  have hout : Cxx 1 (emit a ++ .asg o :: (emit b ++ .asg p :: emit c))
      (.asg o (means a) (.asg p (means b) (means c))) :=
    .asg o (da.down la) (.asg p (db.down lb) (dc.down (by omega)))
  have hin : Parsed 1 (.bin (assignOp o) false a b) := by
    have := Parsed.bin (sw := false) (hpow o) (a := a) (b := b) (by rw [hp]; exact .up (by omega) ha) (by rw [hp]; exact hb)
    rwa [hp] at this
  refine ⟨?_, ?_, ?_⟩
  · have := Parsed.bin (sw := false) (hpow p) (a := .bin (assignOp o) false a b) (b := c) (by rw [hp]; exact hin) (by rw [hp]; exact hc)
    rwa [hp] at this
  · simp [means, hf, Fmt.tree]
  · have htext : emit (.bin (assignOp p) false (.bin (assignOp o) false a b) c) =
        emit a ++ .asg o :: (emit b ++ .asg p :: emit c) := by simp [emit, hf, Fmt.text]
    rw [htext]
    constructor
    · exact fun ht => cxx_unique ht (hout.down (Nat.zero_le _))
    · rintro rfl
      exact hout.down (Nat.zero_le _)

/-- runs an assignment: the variable it yields and the values of the variables after it. The right operand is evaluated first. -/
def run (s : String → Int) : Tree → Option (String × (String → Int))
  | .name n => some (n, s)
  | .asg o a b =>
    match run s b with
    | none => none
    | some (m, s1) =>
      match run s1 a with
      | none => none
      | some (n, s2) =>
        some (n, fun k => if k = n then (match o with
          | .set => s2 m
          | .addA => s2 n + s2 m
          | .subA => s2 n - s2 m
          | .mulA => s2 n * s2 m
          | .divA => s2 n / s2 m) else s2 k)
  | _ => none

/-- a name at any level -/
theorem parsed_name (n : String) : ∀ l, l < 18 → Parsed l (.name n) := by
  intro l hl
  obtain ⟨d, hd⟩ : ∃ d, l + d = 17 := ⟨17 - l, by omega⟩
  induction d generalizing l with
  | zero =>
    have : l = 17 := by omega
    subst this
    exact .name n
  | succ d ih => exact .up (by omega) (ih (l + 1) (by omega) (by omega))

/-- With `a = 10`, `b = 3`, `c = 1`, the statement `a -= b -= c` should leave `a = 6` and `b = 3`; the program leaves `a = 8` and `b = 2`. -/
theorem assign_wrong : ∃ e s t, Parsed 1 e ∧ Cxx 0 (emit e) t ∧
    ((run s (means e)).map fun r => (r.2 "a", r.2 "b")) = some (6, 3) ∧
    ((run s t).map fun r => (r.2 "a", r.2 "b")) = some (8, 2) := by
  have h := assign_misgrouped .subA .subA (a := .name "a") (b := .name "b") (c := .name "c")
    (parsed_name _ _ (by omega)) (parsed_name _ _ (by omega)) (parsed_name _ _ (by omega)) trivial trivial trivial
  exact ⟨_, fun n => if n = "a" then 10 else if n = "b" then 3 else 1, _, (h (.name "")).1, ((h _).2.2).2 rfl,
    by decide, by decide⟩

/-- **`|a + b|` means `a + |b|`**: codegen calls the method `size()` on the text of the operand. (The C++ compiler reports it, as no type has an operator for
that.) -/
theorem size_misgrouped {a b : Ex} (ha : Parsed 12 a) (hb : Parsed 16 b) (pa : Plain a) (pb : Plain b) (t : Tree) :
    means (.un .size (.bin .add false a b)) = .call0 (.field (.bin .add (means a) (means b)) "size") ∧
    (Cxx 0 (emit (.un .size (.bin .add false a b))) t ↔
      t = .bin .add (means a) (.call0 (.field (means b) "size"))) := by
  have la := (levels ha).1
  have lb := (levels hb).1
  simp only [least] at la lb
  refine ⟨rfl, ?_⟩
  have hout := cxx_bin .add (emit_sound ha pa) (by simpa [BOp.level] using la) (cxx_method0 "size" (emit_sound hb pb) lb)
    (by simp [BOp.level])
  have htext : emit (.un .size (.bin .add false a b)) =
      emit a ++ .op .add :: ((emit b ++ [.dot, .name "size"]) ++ [.lpar, .rpar]) := by
    simp [emit, SUn.text, SBin.fmt, Fmt.text]
  rw [htext]
  constructor
  · exact fun ht => cxx_unique ht (hout.down (Nat.zero_le _))
  · rintro rfl
    exact hout.down (Nat.zero_le _)

/-- **`x in a + b` means `a + (x in b)`** for maps, sets, networks: codegen calls `contains()` on the text of the operand. -/
theorem in_misgrouped {x a b : Ex} (hx : Parsed 5 x) (ha : Parsed 12 a) (hb : Parsed 16 b) (px : Plain x) (pa : Plain a)
    (pb : Plain b) (t : Tree) :
    means (.bin .inMap false x (.bin .add false a b)) =
      .call (.field (.bin .add (means a) (means b)) "contains") (means x) ∧
    (Cxx 0 (emit (.bin .inMap false x (.bin .add false a b))) t ↔
      t = .bin .add (means a) (.call (.field (means b) "contains") (means x))) := by
  have la := (levels ha).1
  have lb := (levels hb).1
  simp only [least] at la lb
  refine ⟨rfl, ?_⟩
  have hout := cxx_bin .add (emit_sound ha pa) (by simpa [BOp.level] using la)
    (cxx_method "contains" (emit_sound hb pb) lb (emit_sound hx px)) (by simp [BOp.level])
  have htext : emit (.bin .inMap false x (.bin .add false a b)) =
      emit a ++ .op .add :: methodText (emit b) "contains" (emit x) := by
    simp [emit, SBin.fmt, Fmt.text, methodText]
  rw [htext]
  constructor
  · exact fun ht => cxx_unique ht (hout.down (Nat.zero_le _))
  · rintro rfl
    exact hout.down (Nat.zero_le _)

/-- **Swapped operands lose their grouping**: with intervals `i`, `j` and a time `t`, `i - j + t` is resolved as `t + (i - j)`, and written so that it means
`(t + i) - j`. The same for `r / 2.0 * i` with a real `r`, which becomes `(i * r) / 2.0`. -/
theorem swap_misgrouped {a b c : Ex} (ha : Parsed 12 a) (hb : Parsed 13 b) (hc : Parsed 13 c) (pa : Plain a) (pb : Plain b)
    (pc : Plain c) (ha' : 11 ≤ lev a) (t : Tree) :
    Parsed 12 (.bin .add true (.bin .sub false a b) c) ∧
    means (.bin .add true (.bin .sub false a b) c) = .bin .add (means c) (.bin .sub (means a) (means b)) ∧
    (Cxx 0 (emit (.bin .add true (.bin .sub false a b) c)) t ↔
      t = .bin .sub (.bin .add (means c) (means a)) (means b)) := by
  have lb := (levels hb).1
  have lc := (levels hc).1
  simp only [least] at lb lc
  refine ⟨.bin (o := .add) (by decide) (.bin (o := .sub) (by decide) ha hb) hc, rfl, ?_⟩
  have hin := cxx_bin .add (emit_sound hc pc) (by simp only [BOp.level]; omega) (emit_sound ha pa) (by simpa [BOp.level] using ha')
  have hout := cxx_bin .sub hin (by simp [BOp.level]) (emit_sound hb pb) (by simpa [BOp.level] using lb)
  have htext : emit (.bin .add true (.bin .sub false a b) c) =
      (emit c ++ .op .add :: emit a) ++ .op .sub :: emit b := by
    simp [emit, SBin.fmt, Fmt.text]
  rw [htext]
  constructor
  · exact fun ht => cxx_unique ht (hout.down (Nat.zero_le _))
  · rintro rfl
    exact hout.down (Nat.zero_le _)

/-- **`a ? b : c ? d : e` is `(a ? b : c) ? d : e`**, unlike in C, C++ and Python: without parentheses, no source text yields a ternary operator in
the last operand of another. Codegen puts parentheses around it, so this is what the program does. -/
theorem ternary_left (a b c d e : Ex) : ∀ l, 1 ≤ l → ¬ Parsed l (.tern a b (.tern c d e)) := by
  have key : ∀ l x, Parsed l x → ∀ c d e, x = .tern c d e → l ≤ 2 := by
    intro l x h
    induction h with
    | up _ _ ih => intro c d e hx; have := ih c d e hx; omega
    | tern => intros; omega
    | _ => intro c d e hx; cases hx
  have main : ∀ l x, Parsed l x → x = .tern a b (.tern c d e) → False := by
    intro l x h
    induction h with
    | up _ _ ih => exact ih
    | tern hc ha hb =>
      intro hx
      injection hx with _ _ h3
      have := key _ _ hb c d e h3
      omega
    | _ => intro hx; cases hx
  exact fun l _ h => main l _ h rfl

/-! ### Parentheses always help -/

/-- puts parentheses around every operator -/
def parAll : Ex → Ex
  | .name n => .name n
  | .group e => parAll e
  | .bin o sw a b => .group (.bin o sw (parAll a) (parAll b))
  | .tern c a b => .group (.tern (parAll c) (parAll a) (parAll b))
  | .un o a => .group (.un o (parAll a))
  | .index a i => .group (.index (parAll a) (parAll i))
  | .field a f => .group (.field (parAll a) f)
  | .call0 f => .group (.call0 (parAll f))
  | .call f args => .group (.call (parAll f) (parAll args))
  | .comma a b => .comma (parAll a) (parAll b)
  | .co k a => .group (.co k (parAll a))

/-- any AST in which commas occur only between arguments, and only commutative operators are swapped -/
def Wf : Bool → Ex → Prop
  | _, .name _ => True
  | _, .group e => Wf false e
  | _, .bin o sw a b => (sw = true → o.isComm = true) ∧ Wf false a ∧ Wf false b
  | _, .tern c a b => Wf false c ∧ Wf false a ∧ Wf false b
  | _, .un _ a => Wf false a
  | _, .index a i => Wf false a ∧ Wf false i
  | _, .field a _ => Wf false a
  | _, .call0 f => Wf false f
  | _, .call f args => Wf false f ∧ Wf true args
  | args, .comma a b => args = true ∧ Wf true a ∧ Wf false b
  | _, .co _ a => Wf false a

/-- a name or in parentheses -/
def isClosed : Ex → Bool
  | .name _ | .group _ => true
  | _ => false

theorem closed_facts {e : Ex} (h : isClosed e = true) :
    isBoolBit e = false ∧ isLogic e = false ∧ isAssign e = false ∧ isInfix e = false ∧ isBare e = false ∧
    ∀ o, sameLevel o e = false := by
  cases e <;> simp [isClosed, isBoolBit, isLogic, isAssign, isInfix, isBare, isPre, sameLevel] at h ⊢

theorem parsed_down {l : Nat} {e : Ex} (h : Parsed l e) : ∀ {k : Nat}, k ≤ l → Parsed k e := by
  intro k hk
  have h18 := parsed_le h
  obtain ⟨d, rfl⟩ : ∃ d, l = k + d := ⟨l - k, by omega⟩
  induction d with
  | zero => exact h
  | succ d ih => exact ih (.up (by omega) h) (by omega) (by omega)

/-- a binary operator in parentheses -/
theorem parsed_group_bin (o : SBin) (sw : Bool) {a b : Ex} (ha : Parsed 17 a) (hb : Parsed 17 b) :
    Parsed 17 (.group (.bin o sw a b)) := by
  refine .group ?_
  by_cases ho : o = .pow
  · subst ho
    exact parsed_down (.pow (parsed_down ha (by omega)) (parsed_down hb (by omega))) (by omega)
  · have hp : o.prec ≤ 13 := by cases o <;> simp [SBin.prec] at ho ⊢
    have h1 : 1 ≤ o.prec := by cases o <;> simp [SBin.prec]
    exact parsed_down (.bin ho (parsed_down ha (by omega)) (parsed_down hb (by omega))) h1

theorem parAll_spec : ∀ (e : Ex) (f : Bool), Wf f e →
    Plain (parAll e) ∧ means (parAll e) = means e ∧ Parsed 0 (parAll e) ∧
    (f = false → isClosed (parAll e) = true ∧ Parsed 17 (parAll e)) := by
  intro e
  induction e with
  | name n => exact fun f _ => ⟨trivial, rfl, parsed_name n 0 (by omega), fun _ => ⟨rfl, .name n⟩⟩
  | group e ih =>
    intro f h
    obtain ⟨h1, h2, h3, h4⟩ := ih false h
    exact ⟨h1, h2, h3, fun _ => h4 rfl⟩
  | bin o sw a b iha ihb =>
    intro f h
    obtain ⟨hs, ha, hb⟩ := h
    obtain ⟨a1, a2, _, a4⟩ := iha false ha
    obtain ⟨b1, b2, _, b4⟩ := ihb false hb
    obtain ⟨ca, pa⟩ := a4 rfl
    obtain ⟨cb, pb⟩ := b4 rfl
    have fa := closed_facts ca
    have fb := closed_facts cb
    have hp : Parsed 17 (parAll (.bin o sw a b)) := parsed_group_bin o sw pa pb
    refine ⟨⟨a1, b1, fun _ => ⟨fa.1, fb.1⟩, fun _ => fa.2.2.1, fun _ => fb.2.2.2.2.1, fun _ => fa.2.2.2.2.1,
      fun h => ⟨hs h, fa.2.2.2.2.2 o⟩⟩, ?_, parsed_down hp (by omega), fun _ => ⟨rfl, hp⟩⟩
    cases sw <;> simp [parAll, means, a2, b2]
  | tern c a b ihc iha ihb =>
    intro f h
    obtain ⟨hc, ha, hb⟩ := h
    obtain ⟨c1, c2, _, c4⟩ := ihc false hc
    obtain ⟨a1, a2, _, a4⟩ := iha false ha
    obtain ⟨b1, b2, _, b4⟩ := ihb false hb
    have hp : Parsed 17 (parAll (.tern c a b)) := .group (parsed_down (.tern (parsed_down (c4 rfl).2 (by omega))
      (parsed_down (a4 rfl).2 (by omega)) (parsed_down (b4 rfl).2 (by omega))) (by omega))
    exact ⟨⟨c1, a1, b1⟩, by simp [parAll, means, a2, b2, c2], parsed_down hp (by omega), fun _ => ⟨rfl, hp⟩⟩
  | un o a iha =>
    intro f h
    obtain ⟨a1, a2, _, a4⟩ := iha false h
    obtain ⟨ca, pa⟩ := a4 rfl
    have fa := closed_facts ca
    have hp : Parsed 17 (parAll (.un o a)) := by
      refine .group ?_
      have hk : o.isPrefix = true ∨ o.isSize = true ∨ o.isPostfix = true := by
        cases o <;> simp [SUn.isPrefix, SUn.isSize, SUn.isPostfix]
      rcases hk with hk | hk | hk
      · exact parsed_down (.pre hk (parsed_down pa (by omega))) (by omega)
      · exact parsed_down (.size hk (parsed_down pa (by omega))) (by omega)
      · exact parsed_down (.post hk (parsed_down pa (by omega))) (by omega)
    exact ⟨⟨a1, fun _ => fa.2.2.2.2.1⟩, by simp [parAll, means, a2], parsed_down hp (by omega), fun _ => ⟨rfl, hp⟩⟩
  | index a i iha ihi =>
    intro f h
    obtain ⟨a1, a2, _, a4⟩ := iha false h.1
    obtain ⟨i1, i2, _, i4⟩ := ihi false h.2
    have hp : Parsed 17 (parAll (.index a i)) := .group (parsed_down (.index (parsed_down (a4 rfl).2 (by omega))
      (parsed_down (i4 rfl).2 (by omega))) (by omega))
    exact ⟨⟨a1, i1⟩, by simp [parAll, means, a2, i2], parsed_down hp (by omega), fun _ => ⟨rfl, hp⟩⟩
  | field a n iha =>
    intro f h
    obtain ⟨a1, a2, _, a4⟩ := iha false h
    have hp : Parsed 17 (parAll (.field a n)) := .group (parsed_down (.field n (parsed_down (a4 rfl).2 (by omega))) (by omega))
    exact ⟨a1, by simp [parAll, means, a2], parsed_down hp (by omega), fun _ => ⟨rfl, hp⟩⟩
  | call0 g ihg =>
    intro f h
    obtain ⟨a1, a2, _, a4⟩ := ihg false h
    have hp : Parsed 17 (parAll (.call0 g)) := .group (parsed_down (.call0 (parsed_down (a4 rfl).2 (by omega))) (by omega))
    exact ⟨a1, by simp [parAll, means, a2], parsed_down hp (by omega), fun _ => ⟨rfl, hp⟩⟩
  | call g args ihg iha =>
    intro f h
    obtain ⟨a1, a2, _, a4⟩ := ihg false h.1
    obtain ⟨i1, i2, i3, _⟩ := iha true h.2
    have hp : Parsed 17 (parAll (.call g args)) := .group (parsed_down (.call (parsed_down (a4 rfl).2 (by omega)) i3) (by omega))
    exact ⟨⟨a1, i1⟩, by simp [parAll, means, a2, i2], parsed_down hp (by omega), fun _ => ⟨rfl, hp⟩⟩
  | comma a b iha ihb =>
    intro f h
    obtain ⟨hf, ha, hb⟩ := h
    obtain ⟨a1, a2, a3, _⟩ := iha true ha
    obtain ⟨b1, b2, _, b4⟩ := ihb false hb
    refine ⟨⟨a1, b1⟩, by simp [parAll, means, a2, b2], .comma a3 (parsed_down (b4 rfl).2 (by omega)), fun h => ?_⟩
    rw [hf] at h
    cases h
  | co k a iha =>
    intro f h
    obtain ⟨a1, a2, _, a4⟩ := iha false h
    obtain ⟨ca, pa⟩ := a4 rfl
    have fa := closed_facts ca
    have hp : Parsed 17 (parAll (.co k a)) := .group (.co (by omega) (parsed_down pa (by omega)))
    exact ⟨⟨a1, fun _ => fa.2.2.2.2.1, fun _ => fa.2.2.2.1, fun _ => ⟨fa.2.2.1, fa.2.1, fa.1⟩⟩, by simp [parAll, means, a2],
      parsed_down hp (by omega), fun _ => ⟨rfl, hp⟩⟩

/-- **Parentheses always help**: whatever an expression means, with parentheses around its operators the C++ compiler groups it as the source does. No
exception is left. -/
theorem parenthesized_groups (e : Ex) (h : Wf false e) (t : Tree) : Cxx 0 (emit (parAll e)) t ↔ t = means e := by
  obtain ⟨h1, h2, _, h4⟩ := parAll_spec e false h
  rw [← h2]
  exact emit_groups_partial (parsed_down (h4 rfl).2 (by omega)) h1 t

/-! ### The hypotheses are met -/

/-- `x = a + b * c == d && !e ? |v[i]| : f(g, -h)`: without any parentheses, and covered by `emit_groups_partial`. -/
def sample : Ex :=
  .bin .set false (.name "x")
    (.tern
      (.bin .land false (.bin .eq false (.bin .add false (.name "a") (.bin .mul false (.name "b") (.name "c"))) (.name "d"))
        (.un .not (.name "e")))
      (.un .size (.index (.name "v") (.name "i")))
      (.call (.name "f") (.comma (.name "g") (.un .neg (.name "h")))))

theorem sample_parsed : Parsed 1 sample := by
  have n := parsed_name
  refine .bin (o := .set) (by decide) (n _ _ (by decide)) ?_
  refine .tern (.up (by omega) (.up (by omega) ?_)) ?_ ?_
  · refine .bin (o := .land) (by decide) (.up (by decide) (.up (by decide) ?_)) ?_
    · refine .bin (o := .eq) (by decide) ?_ (n _ _ (by decide))
      exact parsed_down (.bin (o := .add) (by decide) (n _ _ (by decide))
        (.bin (o := .mul) (by decide) (n _ _ (by decide)) (n _ _ (by decide)))) (by decide)
    · exact parsed_down (.pre (o := .not) rfl (n _ _ (by omega))) (by decide)
  · exact parsed_down (.size (o := .size) rfl (parsed_down (.index (n _ _ (by omega)) (n _ _ (by omega))) (by omega))) (by omega)
  · exact parsed_down (.call (n _ _ (by omega)) (.comma (n _ _ (by omega))
      (parsed_down (.pre (o := .neg) rfl (n _ _ (by omega))) (by omega)))) (by omega)

theorem sample_plain : Plain sample := by
  simp [sample, Plain, SBin.isCmp, SBin.isAssignOp, SBin.isRecvRight, isBoolBit, isAssign, isBare, isInfix, isPre]

/-- the text of `sample`, as written by the code generator -/
example : emit sample =
    [.name "x", .asg .set,
     .lpar, .lpar, .name "a", .op .add, .name "b", .op .mul, .name "c", .op .eq, .name "d", .rpar, .op .land,
       .lpar, .bang, .lpar, .name "e", .rpar, .rpar,
     .quest, .name "v", .lbrack, .name "i", .rbrack, .dot, .name "size", .lpar, .rpar,
     .colon, .name "f", .lpar, .name "g", .op .comma, .lpar, .op .sub, .name "h", .rpar, .rpar, .rpar] := by
  rfl

example (t : Tree) : Cxx 0 (emit sample) t ↔ t = means sample := emit_groups_partial sample_parsed sample_plain t

end Verif.Front.Emit
