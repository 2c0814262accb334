import Verif.Opt.FieldsRel

/-!
# Removing unused fields: the programs behave alike
-/

namespace Verif.Opt.Fields

/-- Related contents of a new struct. -/
structure CellRel (decl : Fld → Decl) (M : Fld → Mode) (c c' : Fld → Option Val) : Prop where
  same : ∀ f, (M f = .keep ∨ M f = .noReads) → c' f = c f
  init : ∀ f, M f = .noReads → c f = initCell (decl f)

/-- The values of the items that remain. -/
def sel (O : Ops) (M : Fld → Mode) : Items → List Val → List Val
  | .cons t e rest, v :: vs => if dropItem O M t e then sel O M rest vs else v :: sel O M rest vs
  | _, _ => []

section
variable {O : Ops} {decl : Fld → Decl} {M : Fld → Mode}

theorem isNoWrites_iff (m : Mode) : m.isNoWrites = true ↔ m = .noWrites := by cases m <;> simp [Mode.isNoWrites]
theorem isNoReads_iff (m : Mode) : m.isNoReads = true ↔ m = .noReads := by cases m <;> simp [Mode.isNoReads]
theorem isDrop_iff (m : Mode) : m.isDrop = true ↔ m = .drop := by cases m <;> simp [Mode.isDrop]

theorem CellRel.set {c c' : Fld → Option Val} (h : CellRel decl M c c') (f : Fld) (v : Option Val)
    (hf : M f ≠ .noReads) :
    CellRel decl M (fun f' => if f' = f then v else c f') (fun f' => if f' = f then v else c' f') := by
  constructor
  · intro f' hm
    split
    · rfl
    · exact h.same f' hm
  · intro f' hm
    have : f' ≠ f := by intro e; subst e; exact hf hm
    rw [if_neg this]
    exact h.init f' hm

theorem CellRel.setLeft {c c' : Fld → Option Val} (h : CellRel decl M c c') (f : Fld) (v : Option Val)
    (hf : M f = .noWrites) :
    CellRel decl M (fun f' => if f' = f then v else c f') c' := by
  have hne : ∀ f', (M f' = .keep ∨ M f' = .noReads) → f' ≠ f := by
    intro f' hm e
    subst e
    rw [hf] at hm
    rcases hm with hm | hm <;> cases hm
  constructor
  · intro f' hm
    rw [if_neg (hne f' hm)]
    exact h.same f' hm
  · intro f' hm
    rw [if_neg (hne f' (.inr hm))]
    exact h.init f' hm

/-- The new program's declarations. -/
abbrev newDecl (decl : Fld → Decl) (M : Fld → Mode) : Fld → Decl := fun f => trDecl (decl f) (M f)

theorem RR.ctorExprs (hL : O.Law) (hM : Modes decl M)
    (hq : ∀ f d, M f = .noWrites → (decl f).dflt = .expr d → quietD O d = true)
    (fs : List Fld) {c c' : Fld → Option Val} {s s' : St} {k k' : (Fld → Option Val) → St → Option R}
    (hc : CellRel decl M c c') (h : Rel decl M s s')
    (hk : ∀ c c' s s', CellRel decl M c c' → Rel decl M s s' → RR decl M (k c s) (k' c' s')) :
    RR decl M (Fields.ctorExprs O decl fs c s k) (Fields.ctorExprs O (newDecl decl M) fs c' s' k') := by
  induction fs generalizing c c' s s' with
  | nil => exact hk _ _ _ _ hc h
  | cons f fs ih =>
    have hnone : ∀ d : Decl, d.dflt.isExpr = false → ∀ m, (trDecl d m).dflt.isExpr = false := by
      intro d hd m
      unfold trDecl
      cases m <;> simp [hd]
    have skip : ∀ (dl : Fld → Decl) c s k, (dl f).dflt.isExpr = false →
        Fields.ctorExprs O dl (f :: fs) c s k = Fields.ctorExprs O dl fs c s k := by
      intro dl c s k hd
      cases hdf : (dl f).dflt with
      | none => simp only [Fields.ctorExprs, hdf]
      | const v => simp only [Fields.ctorExprs, hdf]
      | expr e => rw [hdf] at hd; cases hd
    cases hdf : (decl f).dflt with
    | none =>
      have hd : (decl f).dflt.isExpr = false := by rw [hdf]; rfl
      rw [skip decl c s k hd, skip (newDecl decl M) c' s' k' (hnone _ hd _)]
      exact ih hc h
    | const v =>
      have hd : (decl f).dflt.isExpr = false := by rw [hdf]; rfl
      rw [skip decl c s k hd, skip (newDecl decl M) c' s' k' (hnone _ hd _)]
      exact ih hc h
    | expr e =>
      have hd : (decl f).dflt.isExpr = true := by rw [hdf]; rfl
      cases hm : M f with
      | noReads => rw [hM.dflt f (.inl hm)] at hd; cases hd
      | drop => rw [hM.dflt f (.inr hm)] at hd; cases hd
      | keep =>
        have hs : newDecl decl M f = decl f := trDecl_same (.inl hm)
        simp only [Fields.ctorExprs, hs, hdf]
        split
        · exact ih hc h
        · refine (RR.evalD e h).bind fun v s s' h => ?_
          exact ih (hc.set f (some v) (by rw [hm]; intro h; cases h)) h
      | noWrites =>
        have hn : (newDecl decl M f).dflt.isExpr = false := by
          simp only [newDecl, trDecl, hm, hd, if_true]
          rfl
        rw [skip (newDecl decl M) c' s' k' hn]
        simp only [Fields.ctorExprs, hdf]
        split
        · exact ih hc h
        · obtain ⟨v, hv⟩ := evalD_quiet hL e (hq f e hm hdf) s
          rw [hv]
          simp only [Fields.bind]
          exact ih (hc.setLeft f (some v) hm) h

theorem fitsIs_cons {t : Tgt} {e : E} {rest : Items} (h : FitsIs M (.cons t e rest)) :
    (∀ f, (M f = .noReads ∨ M f = .drop) → t.writes f = false) ∧ Fits M e ∧ FitsIs M rest := by
  refine ⟨fun f hf => ?_, fun f => ⟨fun hf => ?_, fun hf => ?_⟩, fun f => ⟨fun hf => ?_, fun hf => ?_⟩⟩
  · have := (h f).2 hf; simp only [writesIs, Bool.or_eq_false_iff] at this; exact this.1.1
  · have := (h f).1 hf; simp only [readsIs, Bool.or_eq_false_iff] at this; exact this.1
  · have := (h f).2 hf; simp only [writesIs, Bool.or_eq_false_iff] at this; exact this.1.2
  · have := (h f).1 hf; simp only [readsIs, Bool.or_eq_false_iff] at this; exact this.2
  · have := (h f).2 hf; simp only [writesIs, Bool.or_eq_false_iff] at this; exact this.2

theorem applyInits_rel (is : Items) (hF : FitsIs M is) (vs : List Val) {c c' : Fld → Option Val}
    (hc : CellRel decl M c c') (decl' : Fld → Decl) :
    CellRel decl M (applyInits is vs c) (applyInits (trIs O decl' M is) (sel O M is vs) c') := by
  match is, vs with
  | .nil, vs => cases vs <;> simpa only [applyInits, trIs, sel] using hc
  | .cons t e rest, [] =>
    have hnil : ∀ is c, applyInits is [] c = c := by
      intro is c
      match is with
      | .nil => simp only [applyInits]
      | .cons t _ _ => cases t <;> simp only [applyInits]
    simp only [sel]
    rw [hnil, hnil]
    exact hc
  | .cons t e rest, v :: vs =>
    obtain ⟨ht, he, hr⟩ := fitsIs_cons hF
    simp only [trIs, sel]
    cases hd : dropItem O M t e with
    | true =>
      simp only [if_true]
      cases t with
      | loc n => simp only [applyInits]; exact applyInits_rel rest hr vs hc decl'
      | fld b f => simp only [applyInits]; exact applyInits_rel rest hr vs hc decl'
      | init f =>
        simp only [applyInits]
        simp only [dropItem, Bool.and_eq_true, isNoWrites_iff] at hd
        exact applyInits_rel rest hr vs (hc.setLeft f (some v) hd.1) decl'
    | false =>
      simp only [Bool.false_eq_true, if_false]
      cases t with
      | loc n => simp only [applyInits]; exact applyInits_rel rest hr vs hc decl'
      | fld b f => simp only [applyInits]; exact applyInits_rel rest hr vs hc decl'
      | init f =>
        simp only [applyInits]
        refine applyInits_rel rest hr vs (hc.set f (some v) ?_) decl'
        intro hm
        have := ht f (.inl hm)
        simp [Tgt.writes] at this

theorem RR.alloc {s s' : St} (h : Rel decl M s s') {c c' : Fld → Option Val} (hc : CellRel decl M c c') :
    RR decl M (Fields.alloc s c) (Fields.alloc s' c') := by
  unfold Fields.alloc
  rw [h.next]
  refine .ok ⟨h.loc, h.glob, h.out, rfl, ?_, ?_⟩
  · intro o f hm
    dsimp only
    rw [hc.same f hm, h.heap o f hm]
  · intro o f hm ho
    dsimp only at ho ⊢
    split
    · exact hc.init f hm
    · exact h.init o f hm (by omega)

theorem RR.assignAll (hL : O.Law)
    (hq : ∀ f d, M f = .noWrites → (decl f).dflt = .expr d → quietD O d = true)
    (is : Items) (hF : FitsIs M is) (vs : List Val) {s s' : St} (h : Rel decl M s s') :
    RR decl M (Fields.assignAll O decl is vs s)
      (Fields.assignAll O (newDecl decl M) (trIs O decl M is) (sel O M is vs) s') := by
  match is, vs with
  | .nil, vs =>
    cases vs <;> simp only [Fields.assignAll, trIs, sel] <;> exact .ok h
  | .cons t e rest, [] =>
    have hnil : ∀ decl is s, Fields.assignAll O decl is [] s = some (.ok .null s) := by
      intro decl is s
      match is with
      | .nil => simp only [Fields.assignAll]
      | .cons t _ _ => cases t <;> simp only [Fields.assignAll]
    simp only [sel]
    rw [hnil, hnil]
    exact .ok h
  | .cons t e rest, v :: vs =>
    obtain ⟨ht, he, hr⟩ := fitsIs_cons hF
    simp only [trIs, sel]
    cases hd : dropItem O M t e with
    | true =>
      simp only [if_true]
      cases t with
      | loc n => simp [dropItem] at hd
      | init f => simp only [Fields.assignAll]; exact RR.assignAll hL hq rest hr vs h
      | fld b f =>
        simp only [Fields.assignAll]
        simp only [dropItem, isNoWrites_iff] at hd
        exact RR.writeLeft hL hq h _ f v hd _ fun s h => RR.assignAll hL hq rest hr vs h
    | false =>
      simp only [Bool.false_eq_true, if_false]
      cases t with
      | loc n => simp only [Fields.assignAll]; exact RR.assignAll hL hq rest hr vs (h.setLoc n v)
      | init f => simp only [Fields.assignAll]; exact RR.assignAll hL hq rest hr vs h
      | fld b f =>
        simp only [Fields.assignAll]
        have hm : M f = .keep := by
          have hw := ht f
          simp only [Tgt.writes, beq_self_eq_true] at hw
          cases hm : M f with
          | keep => rfl
          | noWrites => simp [dropItem, hm, Mode.isNoWrites] at hd
          | noReads => exact absurd (hw (.inl hm)) (by simp)
          | drop => exact absurd (hw (.inr hm)) (by simp)
        rw [h.loc]
        exact (RR.writeFld h (s.loc b) f v hm).bind fun _ s s' h => RR.assignAll hL hq rest hr vs h

theorem fronts_nil (hL : O.Law) (nf : Nat) (is : Items) (hS : safeIs O decl nf M is = true) :
    fronts O decl M is = [] := by
  match is with
  | .nil => simp only [fronts]
  | .cons t e rest =>
    simp only [safeIs, Bool.and_eq_true] at hS
    have ih := fronts_nil hL nf rest hS.2
    simp only [fronts, ih]
    rw [if_neg]
    intro hd
    simp only [Bool.and_eq_true] at hd
    cases t with
    | loc n => simp [dropItem] at hd
    | init f => simp [dropItem, hd.2] at hd
    | fld b f =>
      have hs := hS.1.1
      have hm : M f = .noWrites := by
        have := hd.1
        simpa only [dropItem, isNoWrites_iff] using this
      simp only [safeItem, hm, bne_self_eq_false, Bool.false_or] at hs
      rw [quiet_not_eff hL e hs] at hd
      exact absurd hd.2 (by simp)

theorem isVar_eval {decl : Fld → Decl} {nf : Nat} {H : Handler} {b : E} (h : isVar b = true) (s : St) :
    ∃ v, evalE O decl nf H b s = some (.ok v s) := by
  match b with
  | .loc n => exact ⟨s.loc n, by simp only [evalE]⟩
  | .glob n => exact ⟨s.glob n, by simp only [evalE]⟩
  | .lit _ | .ext _ _ _ | .read _ _ | .tryRead _ _ | .has _ _ | .assign _ _ _ | .upd _ _ _ _ | .unset _ _ | .new _
  | .tasg _ | .call _ _ _ | .seq _ _ | .ite _ _ _ | .loop _ _ | .setl _ _ | .setg _ _ | .ret _ | .raise _
  | .shw _ => simp [isVar] at h

theorem RR.loopN (n : Nat) {c b c' b' : St → Option R}
    (hc : ∀ s s', Rel decl M s s' → RR decl M (c s) (c' s'))
    (hb : ∀ s s', Rel decl M s s' → RR decl M (b s) (b' s')) {s s' : St} (h : Rel decl M s s') :
    RR decl M (Fields.loopN n c b s) (Fields.loopN n c' b' s') := by
  induction n generalizing s s' with
  | zero => exact .none
  | succ n ih =>
    simp only [Fields.loopN]
    refine (hc _ _ h).bind fun v s s' h => ?_
    split
    · exact (hb _ _ h).bind fun _ s s' h => ih h
    · exact .ok h

/-- Handlers whose functions behave alike. -/
def HRel (decl : Fld → Decl) (M : Fld → Mode) (H H' : Handler) : Prop :=
  H'.fuel = H.fuel ∧ ∀ g a b s s', Rel decl M s s' → RR decl M (H.call g a b s) (H'.call g a b s')

theorem shown_rel {nf : Nat} (hS : allStay M nf = true) {s s' : St} (h : Rel decl M s s') (v : Val) :
    shown (newDecl decl M) nf v s' = shown decl nf v s := by
  cases v with
  | ref o =>
    have hst : ∀ f, f ∈ List.range nf → M f = .keep ∨ M f = .noReads := by
      intro f hf
      simp only [allStay, List.all_eq_true] at hS
      have := hS f hf
      cases hm : M f with
      | keep => exact .inl rfl
      | noReads => exact .inr rfl
      | noWrites => rw [hm] at this; exact absurd this (by decide)
      | drop => rw [hm] at this; exact absurd this (by decide)
    simp only [shown]
    have h1 : ((List.range nf).filter fun f => ! (newDecl decl M f).gone)
        = ((List.range nf).filter fun f => ! (decl f).gone) := by
      apply List.filter_congr
      intro f hf
      simp only [newDecl, trDecl_same (hst f hf)]
    rw [h1]
    apply List.map_congr_left
    intro f hf
    rw [h.heap o f (hst f (List.mem_filter.mp hf).1)]
  | int i => rfl
  | bool b => rfl
  | null => rfl

theorem fits_sub {e a : E} (h : Fits M e) (hr : ∀ f, reads f e = false → reads f a = false)
    (hw : ∀ f, writes f e = false → writes f a = false) : Fits M a :=
  fun f => ⟨fun hf => hr f ((h f).1 hf), fun hf => hw f ((h f).2 hf)⟩

theorem fitsIs_sub {e : E} {is : Items} (h : Fits M e) (hr : ∀ f, reads f e = false → readsIs f is = false)
    (hw : ∀ f, writes f e = false → writesIs f is = false) : FitsIs M is :=
  fun f => ⟨fun hf => hr f ((h f).1 hf), fun hf => hw f ((h f).2 hf)⟩

/-- A field that is read is not one whose writes go, nor removed. -/
theorem mode_of_read {e : E} (h : Fits M e) {f : Fld} (hr : reads f e = true) : M f = .keep ∨ M f = .noReads := by
  cases hm : M f with
  | keep => exact .inl rfl
  | noReads => exact .inr rfl
  | noWrites => rw [(h f).1 (.inl hm)] at hr; cases hr
  | drop => rw [(h f).1 (.inr hm)] at hr; cases hr

/-- A field that is written is not one whose reads go, nor removed. -/
theorem mode_of_write {e : E} (h : Fits M e) {f : Fld} (hr : writes f e = true) : M f = .keep ∨ M f = .noWrites := by
  cases hm : M f with
  | keep => exact .inl rfl
  | noWrites => exact .inr rfl
  | noReads => rw [(h f).2 (.inl hm)] at hr; cases hr
  | drop => rw [(h f).2 (.inr hm)] at hr; cases hr

section
variable (hL : O.Law) (hM : Modes decl M)
  (hq : ∀ f d, M f = .noWrites → (decl f).dflt = .expr d → quietD O d = true)
  (nf : Nat) (H H' : Handler) (hH : HRel decl M H H')
include hL hM hq hH

set_option linter.unusedSimpArgs false in
set_option linter.unusedSectionVars false in
mutual
theorem sim (e : E) (hF : Fits M e) (hS : safeE O decl nf M e = true) (s s' : St) (h : Rel decl M s s') :
    RR decl M (evalE O decl nf H e s) (evalE O (newDecl decl M) nf H' (tr O decl M e) s') := by
  match e with
  | .lit v => simp only [evalE, tr]; exact .ok h
  | .loc n => simp only [evalE, tr, h.loc]; exact .ok h
  | .glob n => simp only [evalE, tr, h.glob]; exact .ok h
  | .raise attr => simp only [evalE, tr]; exact .exn h
  | .ext k a b =>
    simp only [safeE, Bool.and_eq_true] at hS
    have ha := fits_sub (a := a) hF (by intro f; simp +contextual [reads]) (by intro f; simp +contextual [writes])
    have hb := fits_sub (a := b) hF (by intro f; simp +contextual [reads]) (by intro f; simp +contextual [writes])
    simp only [evalE, tr]
    exact (sim a ha hS.1 s s' h).bind fun va s s' h =>
      (sim b hb hS.2 s s' h).bind fun vb s s' h => RR.apply h k va vb
  | .call g a b =>
    simp only [safeE, Bool.and_eq_true] at hS
    have ha := fits_sub (a := a) hF (by intro f; simp +contextual [reads]) (by intro f; simp +contextual [writes])
    have hb := fits_sub (a := b) hF (by intro f; simp +contextual [reads]) (by intro f; simp +contextual [writes])
    simp only [evalE, tr]
    exact (sim a ha hS.1 s s' h).bind fun va s s' h =>
      (sim b hb hS.2 s s' h).bind fun vb s s' h => hH.2 g va vb s s' h
  | .seq a b =>
    simp only [safeE, Bool.and_eq_true] at hS
    have ha := fits_sub (a := a) hF (by intro f; simp +contextual [reads]) (by intro f; simp +contextual [writes])
    have hb := fits_sub (a := b) hF (by intro f; simp +contextual [reads]) (by intro f; simp +contextual [writes])
    simp only [evalE, tr]
    exact (sim a ha hS.1 s s' h).bind fun va s s' h => sim b hb hS.2 s s' h
  | .loop a b =>
    simp only [safeE, Bool.and_eq_true] at hS
    have ha := fits_sub (a := a) hF (by intro f; simp +contextual [reads]) (by intro f; simp +contextual [writes])
    have hb := fits_sub (a := b) hF (by intro f; simp +contextual [reads]) (by intro f; simp +contextual [writes])
    simp only [evalE, tr, hH.1]
    exact RR.loopN H.fuel (fun s s' h => sim a ha hS.1 s s' h) (fun s s' h => sim b hb hS.2 s s' h) h
  | .ite c a b =>
    simp only [safeE, Bool.and_eq_true] at hS
    have hc := fits_sub (a := c) hF (by intro f; simp +contextual [reads]) (by intro f; simp +contextual [writes])
    have ha := fits_sub (a := a) hF (by intro f; simp +contextual [reads]) (by intro f; simp +contextual [writes])
    have hb := fits_sub (a := b) hF (by intro f; simp +contextual [reads]) (by intro f; simp +contextual [writes])
    simp only [evalE, tr]
    refine (sim c hc hS.1.1 s s' h).bind fun v s s' h => ?_
    split
    · exact sim a ha hS.1.2 s s' h
    · exact sim b hb hS.2 s s' h
  | .setl n e =>
    simp only [safeE] at hS
    have he := fits_sub (a := e) hF (by intro f; simp +contextual [reads]) (by intro f; simp +contextual [writes])
    simp only [evalE, tr]
    exact (sim e he hS s s' h).bind fun v s s' h => .ok (h.setLoc n v)
  | .setg n e =>
    simp only [safeE] at hS
    have he := fits_sub (a := e) hF (by intro f; simp +contextual [reads]) (by intro f; simp +contextual [writes])
    simp only [evalE, tr]
    exact (sim e he hS s s' h).bind fun v s s' h => .ok (h.setGlob n v)
  | .ret e =>
    simp only [safeE] at hS
    have he := fits_sub (a := e) hF (by intro f; simp +contextual [reads]) (by intro f; simp +contextual [writes])
    simp only [evalE, tr]
    exact (sim e he hS s s' h).bind fun v s s' h => .ret h
  | .shw e =>
    simp only [safeE, Bool.and_eq_true] at hS
    have he := fits_sub (a := e) hF (by intro f; simp +contextual [reads]) (by intro f; simp +contextual [writes])
    simp only [evalE, tr]
    refine (sim e he hS.1 s s' h).bind fun v s s' h => ?_
    rw [shown_rel hS.2 h v, h.out]
    exact .ok (h.withOut _)
  | .read b f =>
    simp only [safeE, Bool.and_eq_true] at hS
    have hb := fits_sub (a := b) hF (by intro f; simp +contextual [reads]) (by intro f; simp +contextual [writes])
    have hf := mode_of_read hF (f := f) (by simp [reads])
    simp only [evalE, tr]
    cases hn : (M f).isNoReads with
    | true =>
      have hm := (isNoReads_iff _).mp hn
      simp only [if_true]
      have hv : isVar b = true := by simpa [hm] using hS.2
      obtain ⟨v, hv⟩ := isVar_eval (O := O) (decl := decl) (nf := nf) (H := H) hv s
      rw [hv]
      simp only [Fields.bind]
      exact RR.derefLeft v fun o ho => RR.replRead hM h false o f hm ho _ nf H'
    | false =>
      simp only [Bool.false_eq_true, if_false, evalE]
      refine (sim b hb hS.1 s s' h).bind fun v s s' h => RR.deref h v fun o _ => ?_
      exact RR.readFld h false o f hf
  | .tryRead b f =>
    simp only [safeE, Bool.and_eq_true] at hS
    have hb := fits_sub (a := b) hF (by intro f; simp +contextual [reads]) (by intro f; simp +contextual [writes])
    have hf := mode_of_read hF (f := f) (by simp [reads])
    simp only [evalE, tr]
    cases hn : (M f).isNoReads with
    | true =>
      have hm := (isNoReads_iff _).mp hn
      simp only [if_true]
      have hv : isVar b = true := by simpa [hm] using hS.2
      obtain ⟨v, hv⟩ := isVar_eval (O := O) (decl := decl) (nf := nf) (H := H) hv s
      rw [hv]
      simp only [Fields.bind]
      exact RR.derefLeft v fun o ho => RR.replRead hM h true o f hm ho _ nf H'
    | false =>
      simp only [Bool.false_eq_true, if_false, evalE]
      refine (sim b hb hS.1 s s' h).bind fun v s s' h => RR.deref h v fun o _ => ?_
      exact RR.readFld h true o f hf
  | .has b f =>
    simp only [safeE, Bool.and_eq_true] at hS
    have hb := fits_sub (a := b) hF (by intro f; simp +contextual [reads]) (by intro f; simp +contextual [writes])
    have hf := mode_of_read hF (f := f) (by simp [reads])
    simp only [evalE, tr]
    cases hn : (M f).isNoReads with
    | true =>
      have hm := (isNoReads_iff _).mp hn
      simp only [if_true, evalE]
      cases ho : (decl f).opt with
      | false => simp only [Bool.false_eq_true, if_false, Bool.not_false]; exact .ok h
      | true =>
        simp only [if_true, Bool.not_true]
        have hv : isVar b = true := by simpa [hm, ho] using hS.2
        obtain ⟨v, hv⟩ := isVar_eval (O := O) (decl := decl) (nf := nf) (H := H) hv s
        rw [hv]
        simp only [Fields.bind]
        refine RR.derefLeft v fun o hlt => ?_
        rw [h.init o f hm hlt]
        simp only [initCell, hM.emitted f hm, ho, Bool.false_eq_true, if_false, if_true, Option.isSome_none]
        exact .ok h
    | false =>
      simp only [Bool.false_eq_true, if_false, evalE, newDecl, trDecl_opt]
      split
      · refine (sim b hb hS.1 s s' h).bind fun v s s' h => RR.deref h v fun o _ => ?_
        rw [h.heap o f hf]
        exact .ok h
      · exact .ok h
  | .assign b f src =>
    simp only [safeE, Bool.and_eq_true] at hS
    have hb := fits_sub (a := b) hF (by intro f; simp +contextual [reads]) (by intro f; simp +contextual [writes])
    have hsrc := fits_sub (a := src) hF (by intro f; simp +contextual [reads]) (by intro f; simp +contextual [writes])
    have hf := mode_of_write hF (f := f) (by simp [writes])
    simp only [evalE, tr]
    cases hn : (M f).isNoWrites with
    | true =>
      have hm := (isNoWrites_iff _).mp hn
      simp only [if_true]
      have hv : isVar b = true := by simpa [hm] using hS.2
      have key := (sim src hsrc hS.1.2 s s' h).bind (k' := fun v s => some (.ok v s))
        (k := fun v s => Fields.bind (evalE O decl nf H b s) fun vb s => Fields.writeFld O (decl f) vb f v s) (by
          intro v s s' h
          obtain ⟨w, hw⟩ := isVar_eval (O := O) (decl := decl) (nf := nf) (H := H) hv s
          rw [hw]
          have := RR.writeLeft hL hq h w f v hm (fun v s => some (.ok v s)) (r := some (.ok v s'))
            fun s h => .ok h
          have hid : ∀ r : Option R, Fields.bind r (fun v s => some (.ok v s)) = r := by
            intro r; rcases r with _ | r
            · rfl
            · cases r <;> rfl
          rw [hid] at this
          exact this)
      have hid : ∀ r : Option R, Fields.bind r (fun v s => some (.ok v s)) = r := by
        intro r; rcases r with _ | r
        · rfl
        · cases r <;> rfl
      rw [hid] at key
      exact key
    | false =>
      have hm : M f = .keep := by
        rcases hf with hf | hf
        · exact hf
        · rw [hf] at hn; cases hn
      simp only [Bool.false_eq_true, if_false, evalE]
      exact (sim src hsrc hS.1.2 s s' h).bind fun v s s' h => (sim b hb hS.1.1 s s' h).bind fun vb s s' h =>
        RR.writeFld h vb f v hm
  | .upd b f k a =>
    simp only [safeE, Bool.and_eq_true] at hS
    have hb := fits_sub (a := b) hF (by intro f; simp +contextual [reads]) (by intro f; simp +contextual [writes])
    have ha := fits_sub (a := a) hF (by intro f; simp +contextual [reads]) (by intro f; simp +contextual [writes])
    have hm : M f = .keep := by
      rcases mode_of_read hF (f := f) (by simp [reads]) with hm | hm
      · exact hm
      · rcases mode_of_write hF (f := f) (by simp [writes]) with hm' | hm' <;> rw [hm] at hm' <;> cases hm'
    simp only [evalE, tr]
    refine (sim a ha hS.2 s s' h).bind fun v s s' h => (sim b hb hS.1 s s' h).bind fun vb s s' h =>
      RR.deref h vb fun o _ => ?_
    refine (RR.readFld h false o f (.inl hm)).bind fun w s s' h => ?_
    refine (RR.apply h k w v).bind fun r s s' h => ?_
    exact .ok (h.store o f (some r) (fun h => by rw [hm] at h; cases h))
  | .unset b f =>
    simp only [safeE] at hS
    have hb := fits_sub (a := b) hF (by intro f; simp +contextual [reads]) (by intro f; simp +contextual [writes])
    simp only [evalE, tr]
    cases hn : (M f).isDrop with
    | true =>
      have hm := (isDrop_iff _).mp hn
      simp only [if_true]
      have key := (sim b hb hS s s' h).bind (k' := fun v s => some (.ok v s))
        (k := fun v s => Fields.deref v s fun o => some (.ok v (if (decl f).opt then Fields.store s o f none else s))) (by
          intro v s s' h
          refine RR.derefLeft v fun o _ => .ok ?_
          split
          · exact h.storeLeft o f none (.inr hm)
          · exact h)
      have hid : ∀ r : Option R, Fields.bind r (fun v s => some (.ok v s)) = r := by
        intro r; rcases r with _ | r
        · rfl
        · cases r <;> rfl
      rw [hid] at key
      exact key
    | false =>
      simp only [Bool.false_eq_true, if_false, evalE, newDecl, trDecl_opt]
      refine (sim b hb hS s s' h).bind fun v s s' h => RR.deref h v fun o _ => .ok ?_
      split
      · rename_i ho
        refine h.store o f none fun hm => ?_
        simp only [initCell, hM.emitted f hm, ho, Bool.false_eq_true, if_false, if_true]
      · exact h
  | .new is =>
    simp only [safeE] at hS
    have hi := fitsIs_sub (is := is) hF (by intro f; simp +contextual [reads]) (by intro f; simp +contextual [writes])
    simp only [evalE, tr]
    refine simIs is hi hS s s' _ _ h fun vs s s' h => ?_
    refine RR.ctorExprs hL hM hq (List.range nf) ?_ h fun c c' s s' hc h =>
      RR.alloc h (applyInits_rel is hi vs hc decl)
    constructor
    · intro f hf
      simp only [newDecl, trDecl_same hf]
    · intro f _
      rfl
  | .tasg is =>
    simp only [safeE] at hS
    have hi := fitsIs_sub (is := is) hF (by intro f; simp +contextual [reads]) (by intro f; simp +contextual [writes])
    simp only [evalE, tr, fronts_nil hL nf is hS, group]
    exact simIs is hi hS s s' _ _ h fun vs s s' h => RR.assignAll hL hq is hi vs h
  termination_by sizeOf e

theorem simIs (is : Items) (hF : FitsIs M is) (hS : safeIs O decl nf M is = true) (s s' : St)
    (k k' : List Val → St → Option R) (h : Rel decl M s s')
    (hk : ∀ vs s s', Rel decl M s s' → RR decl M (k vs s) (k' (sel O M is vs) s')) :
    RR decl M (evalIs O decl nf H is s k) (evalIs O (newDecl decl M) nf H' (trIs O decl M is) s' k') := by
  match is with
  | .nil =>
    simp only [evalIs, trIs]
    have := hk [] s s' h
    simpa only [sel] using this
  | .cons t e rest =>
    obtain ⟨ht, he, hr⟩ := fitsIs_cons hF
    simp only [safeIs, Bool.and_eq_true] at hS
    simp only [evalIs, trIs]
    cases hd : dropItem O M t e with
    | true =>
      simp only [if_true]
      have hqe : quietE O e = true := by
        have hs := hS.1.1
        cases t with
        | loc n => simp [dropItem] at hd
        | init f =>
          simp only [dropItem, Bool.and_eq_true, isNoWrites_iff, Bool.not_eq_true'] at hd
          simp only [safeItem, hd.1, bne_self_eq_false, Bool.false_or, Bool.or_eq_true] at hs
          rcases hs with hs | hs
          · rw [loud_eff e hs] at hd; cases hd.2
          · exact hs
        | fld b f =>
          simp only [dropItem, isNoWrites_iff] at hd
          simpa [safeItem, hd] using hs
      obtain ⟨v, hv⟩ := evalE_quiet hL nf H e hqe s (decl := decl)
      rw [hv]
      simp only [Fields.bind]
      refine simIs rest hr hS.2 s s' _ _ h fun vs s s' h => ?_
      have := hk (v :: vs) s s' h
      simpa only [sel, hd, if_true] using this
    | false =>
      simp only [Bool.false_eq_true, if_false, evalIs]
      refine (sim e he hS.1.2 s s' h).bind fun v s s' h => ?_
      refine simIs rest hr hS.2 s s' _ _ h fun vs s s' h => ?_
      have := hk (v :: vs) s s' h
      simpa only [sel, hd, Bool.false_eq_true, if_false] using this
  termination_by sizeOf is
end

end

end

end Verif.Opt.Fields
