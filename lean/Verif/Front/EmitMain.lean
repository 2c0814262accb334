import Verif.Front.EmitCxx
import Verif.Front.Emit

/-!
# The C++ text groups the operands as the source does (C87)
-/

namespace Verif.Front.Emit

theorem Cxx.down {m : Nat} {ts : List Tok} {t : Tree} (h : Cxx m ts t) : ∀ {k : Nat}, k ≤ m → Cxx k ts t := by
  intro k hk
  obtain ⟨d, rfl⟩ : ∃ d, m = k + d := ⟨m - k, by omega⟩
  induction d with
  | zero => exact h
  | succ d ih =>
    have h14 := cxx_le h
    exact ih (.up (by omega) h) (by omega)

/-- the C++ level of the text of a binary operator -/
def Fmt.lev : Fmt → Nat
  | .infix o => o.level
  | .assign _ => 1
  | .paren _ => 14
  | .wrapped o => o.level
  | .fn _ | .method _ | .methodRev _ | .fnMethodRev _ _ => 13
  | .notMethodRev _ | .notFnMethodRev _ _ => 12

/-- the C++ level of the text of an expression -/
def lev : Ex → Nat
  | .name _ | .group _ | .tern _ _ _ => 14
  | .bin o _ _ _ => o.fmt.lev
  | .un .not _ | .un .derefIt _ | .un .compl _ | .un .inc _ | .un .dec _ => 12
  | .un .derefRef _ | .un .neg _ => 14
  | .un .derefOpt _ | .un .size _ | .un .sizeStr _ | .un .incP _ | .un .decP _ => 13
  | .index _ _ | .field _ _ | .call0 _ | .call _ _ => 13
  | .comma _ _ => 0
  | .co .fn _ | .co .method _ => 13
  | .co .star _ | .co .nonzero _ => 14

theorem lev_of_not_bare {e : Ex} (h : isBare e = false) : 13 ≤ lev e := by
  cases e with
  | bin o sw a b => cases o <;> revert h <;> simp [isBare, isInfix, isPre, SBin.fmt, Fmt.isInfix, lev, Fmt.lev]
  | un o a => cases o <;> revert h <;> simp [isBare, isInfix, isPre, lev]
  | co k a => cases k <;> simp [lev]
  | comma a b => simp [isBare, isInfix] at h
  | _ => simp [lev]

theorem lev_of_not_infix {e : Ex} (h : isInfix e = false) : 12 ≤ lev e := by
  cases e with
  | bin o sw a b => cases o <;> revert h <;> simp [isInfix, SBin.fmt, Fmt.isInfix, lev, Fmt.lev]
  | un o a => cases o <;> simp [lev]
  | co k a => cases k <;> simp [lev]
  | comma a b => simp [isInfix] at h
  | _ => simp [lev]

theorem lev_of_not_low {e : Ex} (h0 : 1 ≤ lev e) (h1 : isAssign e = false) (h2 : isLogic e = false)
    (h3 : isBoolBit e = false) : 7 ≤ lev e := by
  cases e with
  | bin o sw a b =>
    cases o <;> revert h1 h2 h3 <;> simp [isAssign, isLogic, isBoolBit, SBin.fmt, lev, Fmt.lev, BOp.level]
  | un o a => cases o <;> simp [lev]
  | co k a => cases k <;> simp [lev]
  | comma a b => simp [lev] at h0
  | _ => simp [lev]

theorem lev_of_not_assign {e : Ex} (h0 : 1 ≤ lev e) (h1 : isAssign e = false) : 2 ≤ lev e := by
  cases e with
  | bin o sw a b =>
    cases o <;> revert h1 <;> simp [isAssign, SBin.fmt, lev, Fmt.lev, BOp.level]
  | un o a => cases o <;> simp [lev]
  | co k a => cases k <;> simp [lev]
  | comma a b => simp [lev] at h0
  | _ => simp [lev]

/-- the least C++ level of what the parser makes of text of level `l` -/
def least : Nat → Nat
  | 0 => 0
  | 1 => 1
  | 2 | 3 => 2
  | 4 => 3
  | 5 | 6 | 7 | 8 => 4
  | 9 => 5
  | 10 => 6
  | 11 | 12 => 10
  | 13 => 11
  | 14 | 15 => 12
  | _ => 13

/-- the same if it is not a bit operator on bools -/
def least' : Nat → Nat
  | 0 => 0
  | 1 => 1
  | 2 | 3 => 2
  | 4 => 3
  | 5 | 6 => 7
  | 7 => 8
  | 8 | 9 | 10 | 11 | 12 => 10
  | 13 => 11
  | 14 | 15 => 12
  | _ => 13

theorem least_mono : ∀ l, l < 17 → least l ≤ least (l + 1) := by decide

theorem least'_mono : ∀ l, l < 17 → least' l ≤ least' (l + 1) := by decide

theorem least_le : ∀ l, l < 18 → least l ≤ 13 ∧ least' l ≤ 13 := by decide

theorem parsed_le {l : Nat} {e : Ex} (h : Parsed l e) : l < 18 := by
  induction h with
  | @bin o => cases o <;> simp [SBin.prec]
  | _ => omega

theorem levels {l : Nat} {e : Ex} (h : Parsed l e) :
    least l ≤ lev e ∧ (isBoolBit e = true ∨ least' l ≤ lev e) := by
  induction h with
  | @up l e hl h ih =>
    exact ⟨Nat.le_trans (least_mono l hl) ih.1, ih.2.imp id (Nat.le_trans (least'_mono l hl))⟩
  | @bin o sw a b ho ha hb iha ihb =>
    cases o <;> simp [SBin.prec, lev, SBin.fmt, Fmt.lev, BOp.level, least, least', isBoolBit] at ho ⊢
  | pow => simp [lev, SBin.fmt, Fmt.lev, least, least']
  | tern => simp [lev, least, least']
  | @pre o a ho ha ih => cases o <;> simp [SUn.isPrefix, lev, least, least'] at ho ⊢
  | @size o a ho ha ih => cases o <;> simp [SUn.isSize, lev, least, least'] at ho ⊢
  | @post o a ho ha ih => cases o <;> simp [SUn.isPostfix, lev, least, least'] at ho ⊢
  | index => simp [lev, least, least']
  | field => simp [lev, least, least']
  | call0 => simp [lev, least, least']
  | call => simp [lev, least, least']
  | comma => simp [lev, least, least']
  | group => simp [lev, least, least']
  | name => simp [lev, least, least']
  | @co k l a hl h ih =>
    have h13 : 13 ≤ lev (.co k a) := by cases k <;> simp [lev]
    have b := least_le l (parsed_le h)
    exact ⟨by omega, Or.inr (by omega)⟩

/-! ### Texts in the grammar -/

theorem cxx_par {l : Nat} {ts : List Tok} {t : Tree} (h : Cxx l ts t) : Cxx 14 (par ts) t :=
  .par (h.down (Nat.zero_le _))

theorem cxx_fn {l : Nat} {ts : List Tok} {t : Tree} (f : String) (h : Cxx l ts t) :
    Cxx 13 (fnText f ts) (.call (.name f) t) :=
  .call ((Cxx.name f).down (by omega)) (h.down (Nat.zero_le _))

theorem cxx_method {l m : Nat} {xs ys : List Tok} {x y : Tree} (n : String) (hx : Cxx l xs x) (hl : 13 ≤ l)
    (hy : Cxx m ys y) : Cxx 13 (methodText xs n ys) (.call (.field x n) y) :=
  .call (.field n (hx.down hl)) (hy.down (Nat.zero_le _))

theorem cxx_method0 {l : Nat} {xs : List Tok} {x : Tree} (n : String) (hx : Cxx l xs x) (hl : 13 ≤ l) :
    Cxx 13 ((xs ++ [.dot, .name n]) ++ [.lpar, .rpar]) (.call0 (.field x n)) :=
  .call0 (.field n (hx.down hl))

theorem cxx_bin (o : BOp) {l m : Nat} {xs ys : List Tok} {x y : Tree} (hx : Cxx l xs x) (hl : o.level ≤ l)
    (hy : Cxx m ys y) (hm : o.level + 1 ≤ m) : Cxx o.level (xs ++ .op o :: ys) (.bin o x y) :=
  .bin o (hx.down hl) (hy.down hm)

/-- What the format of a binary operator asks of the levels of its operands. -/
def Fmt.fits : Fmt → Nat → Nat → Prop
  | .infix o, x, y => o.level ≤ x ∧ o.level + 1 ≤ y
  | .assign _, x, y => 2 ≤ x ∧ 1 ≤ y
  | .paren o, x, y => o.level ≤ x ∧ o.level + 1 ≤ y
  | .wrapped _, _, _ => True
  | .fn _, _, y => 1 ≤ y
  | .method _, x, _ => 13 ≤ x
  | .methodRev _, _, y | .fnMethodRev _ _, _, y | .notMethodRev _, _, y | .notFnMethodRev _ _, _, y => 13 ≤ y

theorem cxx_fmt (f : Fmt) {l m : Nat} {xs ys : List Tok} {x y : Tree} (hx : Cxx l xs x) (hy : Cxx m ys y)
    (hf : f.fits l m) : Cxx f.lev (f.text xs ys) (f.tree x y) := by
  cases f with
  | «infix» o => exact cxx_bin o hx hf.1 hy hf.2
  | assign o => exact .asg o (hx.down hf.1) (hy.down hf.2)
  | paren o => exact cxx_par (cxx_bin o hx hf.1 hy hf.2)
  | wrapped o =>
    have := level_le o
    exact cxx_bin o (cxx_par hx) (by omega) (cxx_par hy) (by omega)
  | fn f => exact cxx_fn f (cxx_bin .comma hx (Nat.zero_le _) hy hf)
  | method n => exact cxx_method n hx hf hy
  | methodRev n => exact cxx_method n hy hf hx
  | fnMethodRev f n => exact cxx_fn f (cxx_method n hy hf hx)
  | notMethodRev n => exact .pre .not ((cxx_par (cxx_method n hy hf hx)).down (by omega))
  | notFnMethodRev f n => exact .pre .not ((cxx_par (cxx_fn f (cxx_method n hy hf hx))).down (by omega))

/-- the level of the operator in the format -/
def Fmt.opLev : Fmt → Nat
  | .infix o | .paren o => o.level
  | _ => 0

/-- the tables agree on swapped operands -/
def swapOk (o o' : SBin) : Bool :=
  !o.isComm || (o'.prec == o.prec && o'.fmt.isInfix) || (o.isCmp && isBoolBit (.bin o' false (.name "") (.name ""))) ||
  decide (o'.fmt.lev < least o.prec) || decide (o'.fmt.lev < least' o.prec && !isBoolBit (.bin o' false (.name "") (.name ""))) ||
  decide (o.fmt.opLev + 1 ≤ o'.fmt.lev)

set_option maxRecDepth 4000 in
theorem swapOk_all (o o' : SBin) : swapOk o o' = true := by
  cases o <;> cases o' <;> rfl

theorem isBoolBit_bin (o : SBin) (sw : Bool) (x y : Ex) :
    isBoolBit (.bin o sw x y) = isBoolBit (.bin o false (.name "") (.name "")) := by cases o <;> rfl

/-- a swapped operand that is not of the same level -/
theorem lev_swapped {o : SBin} {a : Ex} (ho : o.isComm = true) (h : Parsed o.prec a) (hs : sameLevel o a = false)
    (hc : o.isCmp = true → isBoolBit a = false) : o.fmt.opLev + 1 ≤ lev a := by
  have hlv := levels h
  have h12 : o.fmt.opLev + 1 ≤ 12 := by cases o <;> decide
  cases a with
  | bin o' sw x y =>
    have hk := swapOk_all o o'
    rw [isBoolBit_bin] at hc hlv
    simp only [lev, sameLevel] at hlv hs ⊢
    simp only [swapOk, ho, hs, Bool.not_true, Bool.false_or, Bool.or_eq_true, decide_eq_true_eq, Bool.and_eq_true,
      Bool.not_eq_true', decide_eq_true_eq] at hk
    rcases hk with ((hk | hk) | hk) | hk
    · rw [hc hk.1] at hk
      simp at hk
    · omega
    · rcases hlv.2 with hb | hb
      · rw [hb] at hk
        simp at hk
      · omega
    · exact hk
  | un u x => cases u <;> simp only [lev] <;> omega
  | co k x => cases k <;> simp only [lev] <;> omega
  | comma x y =>
    cases o <;> simp [SBin.isComm, SBin.prec, least, lev] at ho hlv
  | _ => simp only [lev]; omega

/-- **Codegen and the parser's table agree**: the operands of every binary operator the parser builds fit into its format. -/
theorem fits_bin {o : SBin} {a b : Ex} (ho : o ≠ .pow) (ha : Parsed o.prec a) (hb : Parsed (o.prec + 1) b)
    (h1 : o.isCmp = true → isBoolBit a = false ∧ isBoolBit b = false)
    (h2 : o.isAssignOp = true → isAssign a = false)
    (h3 : o.isRecvRight = true → isBare b = false)
    (h4 : o = .append → isBare a = false) : o.fmt.fits (lev a) (lev b) := by
  have la := levels ha
  have lb := levels hb
  cases o <;> simp only [SBin.prec, SBin.fmt, Fmt.fits, BOp.level, least, least'] at la lb ⊢ <;>
    first
    | trivial
    | exact absurd rfl ho
    | omega
    | exact ⟨lev_of_not_assign (by omega) (h2 rfl), by omega⟩
    | exact lev_of_not_bare (h4 rfl)
    | exact lev_of_not_bare (h3 rfl)
    | (have hc := h1 rfl
       rw [hc.1] at la
       rw [hc.2] at lb
       simp only [Bool.false_eq_true, false_or] at la lb
       omega)

theorem fits_swapped {o : SBin} {a b : Ex} (ho : o.isComm = true) (ha : Parsed o.prec a) (hb : Parsed (o.prec + 1) b)
    (h1 : o.isCmp = true → isBoolBit a = false ∧ isBoolBit b = false) (hs : sameLevel o a = false) :
    o.fmt.fits (lev b) (lev a) := by
  have la := lev_swapped ho ha hs (fun h => (h1 h).1)
  have lb := levels hb
  cases o <;> simp only [SBin.isComm, Bool.false_eq_true] at ho <;>
    simp only [SBin.prec, SBin.fmt, Fmt.fits, Fmt.opLev, BOp.level, least, least'] at la lb ⊢ <;>
    first
    | omega
    | (have hc := h1 rfl
       rw [hc.2] at lb
       simp only [Bool.false_eq_true, false_or] at lb
       omega)

/-- The text of an expression has the tree of the expression. -/
theorem emit_sound {l : Nat} {e : Ex} (h : Parsed l e) : Plain e → Cxx (lev e) (emit e) (means e) := by
  induction h with
  | up _ _ ih => exact ih
  | @bin o sw a b ho ha hb iha ihb =>
    intro hp
    obtain ⟨pa, pb, h1, h2, h3, h4, h5⟩ := hp
    cases sw with
    | false => exact cxx_fmt o.fmt (iha pa) (ihb pb) (fits_bin ho ha hb h1 h2 h3 h4)
    | true =>
      have h5 := h5 rfl
      exact cxx_fmt o.fmt (ihb pb) (iha pa) (fits_swapped h5.1 ha hb h1 h5.2)
  | @pow sw a b ha hb iha ihb =>
    intro hp
    obtain ⟨pa, pb, h1, h2, h3, h4, h5⟩ := hp
    have la := levels ha
    have lb := levels hb
    simp only [least] at la lb
    cases sw with
    | false => exact cxx_fmt (Fmt.fn "::hilti::rt::pow") (iha pa) (ihb pb) (by simp only [Fmt.fits]; omega)
    | true => exact absurd (h5 rfl).1 (by decide)
  | @tern c a b hc ha hb ihc iha ihb =>
    intro hp
    obtain ⟨pc, pa, pb⟩ := hp
    have lc := levels hc
    have lb := levels hb
    simp only [least] at lc lb
    exact .par (.up (by omega) (.cond ((ihc pc).down (by omega)) ((iha pa).down (Nat.zero_le _))
      ((ihb pb).down (by omega))))
  | @pre o a ho ha ih =>
    intro hp
    obtain ⟨pa, h1⟩ := hp
    have la := levels ha
    simp only [least] at la
    have d := ih pa
    cases o <;> simp only [SUn.isPrefix, Bool.false_eq_true] at ho
    · exact .pre .not ((cxx_par d).down (by omega))
    · exact .pre .deref (d.down (by omega))
    · exact cxx_par (.pre .deref (d.down (by omega)))
    · exact cxx_method0 _ d (lev_of_not_bare (h1 (Or.inr rfl)))
    · exact .pre .compl (d.down (by omega))
    · exact cxx_par (.pre .neg (d.down (by omega)))
    · exact .pre .inc (d.down (by omega))
    · exact .pre .dec (d.down (by omega))
  | @size o a ho ha ih =>
    intro hp
    obtain ⟨pa, h1⟩ := hp
    have d := ih pa
    cases o <;> simp only [SUn.isSize, Bool.false_eq_true] at ho
    · exact cxx_method0 _ d (lev_of_not_bare (h1 (Or.inl rfl)))
    · exact cxx_fn _ d
  | @post o a ho ha ih =>
    intro hp
    have la := levels ha
    simp only [least] at la
    have d := ih hp.1
    cases o <;> simp only [SUn.isPostfix, Bool.false_eq_true] at ho
    · exact .post true (d.down (by omega))
    · exact .post false (d.down (by omega))
  | @index a i ha hi iha ihi =>
    intro hp
    have la := levels ha
    simp only [least] at la
    exact .sub ((iha hp.1).down (by omega)) ((ihi hp.2).down (Nat.zero_le _))
  | @field a f ha ih =>
    intro hp
    have la := levels ha
    simp only [least] at la
    exact .field f ((ih hp).down (by omega))
  | @call0 f hf ih =>
    intro hp
    have la := levels hf
    simp only [least] at la
    exact .call0 ((ih hp).down (by omega))
  | @call f args hf ha ihf iha =>
    intro hp
    have la := levels hf
    simp only [least] at la
    exact .call ((ihf hp.1).down (by omega)) ((iha hp.2).down (Nat.zero_le _))
  | @comma a b ha hb iha ihb =>
    intro hp
    have lb := levels hb
    simp only [least] at lb
    exact cxx_bin .comma (iha hp.1) (Nat.zero_le _) (ihb hp.2) (by simp only [BOp.level]; omega)
  | group _ ih => exact fun hp => cxx_par (ih hp)
  | name n => exact fun _ => .name n
  | @co k l a hl ha ih =>
    intro hp
    obtain ⟨pa, h1, h2, h3⟩ := hp
    have d := ih pa
    have la := levels ha
    have h18 := parsed_le ha
    have l1 : 1 ≤ least l := by
      have key : ∀ l, l < 18 → 1 ≤ l → 1 ≤ least l := by decide
      exact key l h18 hl
    cases k with
    | fn => exact cxx_fn _ d
    | star => exact cxx_par (.pre .deref (d.down (lev_of_not_infix (h2 rfl))))
    | method => exact cxx_method0 _ d (lev_of_not_bare (h1 rfl))
    | nonzero =>
      obtain ⟨a1, a2, a3⟩ := h3 rfl
      exact cxx_par (cxx_bin .ne d (lev_of_not_low (by omega) a1 a2 a3) (Cxx.name _)
        (by simp only [BOp.level]; omega))

/-- **The C++ text means what the source means** (C87). If the parser has built `e`, and no operand of `e` is one of
those codegen writes without the parentheses it needs, then the C++ compiler finds exactly the grouping of the AST in the text:
the tree of `e`, and no other. -/
theorem emit_groups_partial {e : Ex} (h : Parsed 1 e) (hp : Plain e) (t : Tree) : Cxx 0 (emit e) t ↔ t = means e := by
  have hs : Cxx 0 (emit e) (means e) := (emit_sound h hp).down (Nat.zero_le _)
  constructor
  · exact fun ht => cxx_unique ht hs
  · rintro rfl
    exact hs

end Verif.Front.Emit
