import Verif.Opt.FieldsSpec

/-!
# Removing unused fields: the simulation relation
-/

namespace Verif.Opt.Fields

/-- The states of the original and the changed program. -/
structure Rel (decl : Fld → Decl) (M : Fld → Mode) (s s' : St) : Prop where
  loc : s'.loc = s.loc
  glob : s'.glob = s.glob
  out : s'.out = s.out
  next : s'.next = s.next
  heap : ∀ o f, (M f = .keep ∨ M f = .noReads) → s'.heap o f = s.heap o f
  init : ∀ o f, M f = .noReads → o < s.next → s.heap o f = initCell (decl f)

/-- The results of the original and the changed program. -/
inductive RR (decl : Fld → Decl) (M : Fld → Mode) : Option R → Option R → Prop
  | null : RR decl M (some (.exn .nullRef s)) r
  | none : RR decl M none none
  | ok : Rel decl M s s' → RR decl M (some (.ok v s)) (some (.ok v s'))
  | ret : Rel decl M s s' → RR decl M (some (.ret v s)) (some (.ret v s'))
  | exn : Rel decl M s s' → RR decl M (some (.exn x s)) (some (.exn x s'))

/-- What is known about the modes. -/
structure Modes (decl : Fld → Decl) (M : Fld → Mode) : Prop where
  dflt : ∀ f, (M f = .noReads ∨ M f = .drop) → (decl f).dflt.isExpr = false
  emitted : ∀ f, M f = .noReads → (decl f).gone = false

/-- What is known about an expression of the program. -/
def Fits (M : Fld → Mode) (e : E) : Prop :=
  ∀ f, ((M f = .noWrites ∨ M f = .drop) → reads f e = false) ∧ ((M f = .noReads ∨ M f = .drop) → writes f e = false)

/-- The same for items. -/
def FitsIs (M : Fld → Mode) (is : Items) : Prop :=
  ∀ f, ((M f = .noWrites ∨ M f = .drop) → readsIs f is = false) ∧
    ((M f = .noReads ∨ M f = .drop) → writesIs f is = false)

section
variable {O : Ops} {decl : Fld → Decl} {M : Fld → Mode}

theorem RR.bind {a b : Option R} {k k' : Val → St → Option R} (h : RR decl M a b)
    (hk : ∀ v s s', Rel decl M s s' → RR decl M (k v s) (k' v s')) :
    RR decl M (Fields.bind a k) (Fields.bind b k') := by
  cases h with
  | null => exact .null
  | none => exact .none
  | ok h => exact hk _ _ _ h
  | ret h => exact .ret h
  | exn h => exact .exn h

theorem Rel.withOut {s s' : St} (h : Rel decl M s s') (out : List Val) :
    Rel decl M { s with out := out } { s' with out := out } :=
  ⟨h.loc, h.glob, rfl, h.next, h.heap, h.init⟩

theorem Rel.setLoc {s s' : St} (h : Rel decl M s s') (n : Nat) (v : Val) :
    Rel decl M (setLoc s n v) (setLoc s' n v) := by
  refine ⟨?_, h.glob, h.out, h.next, h.heap, h.init⟩
  simp only [Fields.setLoc, h.loc]

theorem Rel.setGlob {s s' : St} (h : Rel decl M s s') (n : Nat) (v : Val) :
    Rel decl M (setGlob s n v) (setGlob s' n v) := by
  refine ⟨h.loc, ?_, h.out, h.next, h.heap, h.init⟩
  simp only [Fields.setGlob, h.glob]

/-- Storing the same into a field that both programs write. -/
theorem Rel.store {s s' : St} (h : Rel decl M s s') (o : Nat) (f : Fld) (v : Option Val)
    (hf : M f = .noReads → v = initCell (decl f)) :
    Rel decl M (store s o f v) (store s' o f v) := by
  refine ⟨h.loc, h.glob, h.out, h.next, ?_, ?_⟩
  · intro o' f' hm
    simp only [Fields.store]
    split
    · rfl
    · exact h.heap o' f' hm
  · intro o' f' hm ho
    simp only [Fields.store]
    split
    · rename_i hc
      rw [hc.2] at hm ⊢
      exact hf hm
    · exact h.init o' f' hm ho

/-- A store only the original program makes. -/
theorem Rel.storeLeft {s s' : St} (h : Rel decl M s s') (o : Nat) (f : Fld) (v : Option Val)
    (hf : M f = .noWrites ∨ M f = .drop) : Rel decl M (Fields.store s o f v) s' := by
  have hne : ∀ f', (M f' = .keep ∨ M f' = .noReads) → f' ≠ f := by
    intro f' hm e
    subst e
    rcases hf with hf | hf <;> rcases hm with hm | hm <;> rw [hf] at hm <;> cases hm
  refine ⟨h.loc, h.glob, h.out, h.next, ?_, ?_⟩
  · intro o' f' hm
    simp only [Fields.store]
    rw [if_neg (fun hc => hne f' hm hc.2)]
    exact h.heap o' f' hm
  · intro o' f' hm ho
    simp only [Fields.store]
    rw [if_neg (fun hc => hne f' (.inr hm) hc.2)]
    exact h.init o' f' hm ho

theorem RR.apply {s s' : St} (h : Rel decl M s s') (k : Nat) (a b : Val) :
    RR decl M (Fields.apply O k a b s) (Fields.apply O k a b s') := by
  unfold Fields.apply
  rw [h.out]
  rcases O.run k a b s.out with ⟨r, out⟩
  cases r with
  | ok v => exact .ok (h.withOut out)
  | error c => exact .exn (h.withOut out)

theorem RR.evalD (d : DE) {s s' : St} (h : Rel decl M s s') :
    RR decl M (Fields.evalD O d s) (Fields.evalD O d s') := by
  induction d generalizing s s' with
  | lit v => exact .ok h
  | glob n =>
    simp only [Fields.evalD, h.glob]
    exact .ok h
  | ext k a b iha ihb =>
    simp only [Fields.evalD]
    exact (iha h).bind fun va s s' h => (ihb h).bind fun vb s s' h => RR.apply h k va vb

theorem RR.deref {s s' : St} (h : Rel decl M s s') (v : Val) {k k' : Nat → Option R}
    (hk : ∀ o, o < s.next → RR decl M (k o) (k' o)) :
    RR decl M (Fields.deref v s k) (Fields.deref v s' k') := by
  unfold Fields.deref
  cases v with
  | ref o =>
    simp only [h.next]
    split
    · rename_i ho
      exact hk o ho
    · exact .null
  | int i => exact .null
  | bool b => exact .null
  | null => exact .null

/-- A dereference only the original program makes. -/
theorem RR.derefLeft {s : St} (v : Val) {k : Nat → Option R} {r : Option R}
    (hk : ∀ o, o < s.next → RR decl M (k o) r) :
    RR decl M (Fields.deref v s k) r := by
  unfold Fields.deref
  cases v with
  | ref o =>
    dsimp only
    split
    · rename_i ho
      exact hk o ho
    · exact .null
  | int i => exact .null
  | bool b => exact .null
  | null => exact .null

theorem trDecl_same {d : Decl} {m : Mode} (h : m = .keep ∨ m = .noReads) : trDecl d m = d := by
  rcases h with h | h <;> subst h <;> rfl

theorem trDecl_opt (d : Decl) (m : Mode) : (trDecl d m).opt = d.opt := by
  unfold trDecl
  cases m <;> try rfl
  dsimp only
  split <;> rfl

/-- Reading a field both programs have. -/
theorem RR.readFld {s s' : St} (h : Rel decl M s s') (attr : Bool) (o : Nat) (f : Fld) (hf : M f = .keep ∨ M f = .noReads) :
    RR decl M (Fields.readFld O (decl f) attr o f s) (Fields.readFld O (trDecl (decl f) (M f)) attr o f s') := by
  rw [trDecl_same hf]
  unfold Fields.readFld
  split
  · cases hd : (decl f).dflt with
    | none =>
      dsimp only
      rw [h.heap o f hf]
      cases s.heap o f with
      | some v => exact .ok h
      | none => exact .exn h
    | const v =>
      dsimp only
      rw [h.heap o f hf]
      exact .ok h
    | expr e =>
      dsimp only
      refine (RR.evalD e h).bind ?_
      intro v s s' h
      rw [h.heap o f hf]
      exact .ok h
  · rw [h.heap o f hf]
    exact .ok h

/-- A read of a field that is never written, as the original makes it, against its replacement. -/
theorem RR.replRead {s s' : St} (hM : Modes decl M) (h : Rel decl M s s') (attr : Bool) (o : Nat) (f : Fld) (hf : M f = .noReads)
    (ho : o < s.next) (decl' : Fld → Decl) (nf : Nat) (H : Handler) :
    RR decl M (Fields.readFld O (decl f) attr o f s) (evalE O decl' nf H (Fields.replRead (decl f) attr) s') := by
  have hi := h.init o f hf ho
  have hg := hM.emitted f hf
  have hd := hM.dflt f (.inl hf)
  unfold Fields.readFld Fields.replRead
  rw [hi]
  unfold initCell
  simp only [hg, Bool.false_eq_true, if_false]
  cases hopt : (decl f).opt with
  | true =>
    simp only [if_true]
    cases hdf : (decl f).dflt with
    | none => simp only [evalE]; exact .exn h
    | const v => simp only [evalE, Option.getD_none]; exact .ok h
    | expr e => rw [hdf] at hd; cases hd
  | false =>
    simp only [Bool.false_eq_true, if_false]
    cases hdf : (decl f).dflt with
    | none => simp only [evalE, Option.getD_some]; exact .ok h
    | const v => simp only [evalE, Option.getD_some]; exact .ok h
    | expr e => rw [hdf] at hd; cases hd

theorem RR.preWrite {s s' : St} (h : Rel decl M s s') (f : Fld) (hf : M f = .keep ∨ M f = .noReads) :
    RR decl M (Fields.preWrite O (decl f) s) (Fields.preWrite O (trDecl (decl f) (M f)) s') := by
  rw [trDecl_same hf]
  unfold Fields.preWrite
  split
  · cases hd : (decl f).dflt with
    | none => exact .ok h
    | const v => exact .ok h
    | expr e => exact (RR.evalD e h).bind fun v s s' h => .ok h
  · exact .ok h

/-- Writing a field both programs write. -/
theorem RR.writeFld {s s' : St} (h : Rel decl M s s') (b : Val) (f : Fld) (v : Val) (hf : M f = .keep) :
    RR decl M (Fields.writeFld O (decl f) b f v s) (Fields.writeFld O (trDecl (decl f) (M f)) b f v s') := by
  unfold Fields.writeFld
  refine RR.deref h b fun o ho => ?_
  refine (RR.preWrite h f (.inl hf)).bind fun _ s s' h => ?_
  exact .ok (h.store o f (some v) (fun hm => by rw [hf] at hm; cases hm))

/-- A quiet default expression. -/
theorem evalD_quiet (hL : O.Law) (d : DE) (h : quietD O d = true) (s : St) : ∃ v, Fields.evalD O d s = some (.ok v s) := by
  induction d with
  | lit v => exact ⟨v, rfl⟩
  | glob n => exact ⟨_, rfl⟩
  | ext k a b iha ihb =>
    simp only [quietD, Bool.and_eq_true] at h
    obtain ⟨va, ha⟩ := iha h.1.2
    obtain ⟨vb, hb⟩ := ihb h.2
    obtain ⟨v, hv⟩ := (hL k h.1.1).2 va vb s.out
    refine ⟨v, ?_⟩
    simp only [Fields.evalD, ha, hb, Fields.bind, Fields.apply, hv]

/-- A quiet expression. -/
theorem evalE_quiet (hL : O.Law) (nf : Nat) (H : Handler) (e : E) (h : quietE O e = true) (s : St) :
    ∃ v, evalE O decl nf H e s = some (.ok v s) := by
  match e with
  | .lit v => exact ⟨v, by simp only [evalE]⟩
  | .loc n => exact ⟨s.loc n, by simp only [evalE]⟩
  | .glob n => exact ⟨s.glob n, by simp only [evalE]⟩
  | .ext k a b =>
    simp only [quietE, Bool.and_eq_true] at h
    obtain ⟨va, ha⟩ := evalE_quiet hL nf H a h.1.2 s
    obtain ⟨vb, hb⟩ := evalE_quiet hL nf H b h.2 s
    obtain ⟨v, hv⟩ := (hL k h.1.1).2 va vb s.out
    refine ⟨v, ?_⟩
    simp only [evalE, ha, hb, Fields.bind, Fields.apply, hv]
  | .read _ _ | .tryRead _ _ | .has _ _ | .assign _ _ _ | .upd _ _ _ _ | .unset _ _ | .new _ | .tasg _ | .call _ _ _
  | .seq _ _ | .ite _ _ _ | .loop _ _ | .setl _ _ | .setg _ _ | .ret _ | .raise _ | .shw _ => simp [quietE] at h

theorem quiet_not_eff (hL : O.Law) (e : E) (h : quietE O e = true) : mayEff O e = false := by
  match e with
  | .lit v => simp [mayEff]
  | .loc n => simp [mayEff]
  | .glob n => simp [mayEff]
  | .ext k a b =>
    simp only [quietE, Bool.and_eq_true] at h
    simp only [mayEff, (hL k h.1.1).1, quiet_not_eff hL a h.1.2, quiet_not_eff hL b h.2, Bool.or_self]
  | .read _ _ | .tryRead _ _ | .has _ _ | .assign _ _ _ | .upd _ _ _ _ | .unset _ _ | .new _ | .tasg _ | .call _ _ _
  | .seq _ _ | .ite _ _ _ | .loop _ _ | .setl _ _ | .setg _ _ | .ret _ | .raise _ | .shw _ => simp [quietE] at h

theorem loud_eff (e : E) (h : loudE O e = true) : mayEff O e = true := by
  match e with
  | .lit v => simp [loudE] at h
  | .loc n => simp [loudE] at h
  | .glob n => simp [loudE] at h
  | .ext k a b =>
    simp only [loudE, Bool.or_eq_true] at h
    rcases h with (h | h) | h
    · simp [mayEff, h]
    · simp [mayEff, loud_eff a h]
    · simp [mayEff, loud_eff b h]
  | .read b _ | .tryRead b _ | .has b _ =>
    simp only [loudE] at h
    simp [mayEff, loud_eff b h]
  | .assign _ _ _ | .upd _ _ _ _ | .unset _ _ | .new _ | .tasg _ | .call _ _ _
  | .seq _ _ | .ite _ _ _ | .loop _ _ | .setl _ _ | .setg _ _ | .ret _ | .raise _ | .shw _ => simp [mayEff]

/-- Writes of a field that is never read, made by the original only. -/
theorem RR.writeLeft (hL : O.Law) (hq : ∀ f d, M f = .noWrites → (decl f).dflt = .expr d → quietD O d = true)
    {s s' : St} (h : Rel decl M s s') (b : Val) (f : Fld) (v : Val) (hf : M f = .noWrites) (k : Val → St → Option R)
    {r : Option R} (hk : ∀ s, Rel decl M s s' → RR decl M (k v s) r) :
    RR decl M (Fields.bind (Fields.writeFld O (decl f) b f v s) k) r := by
  unfold Fields.writeFld Fields.deref
  have key : ∀ o, RR decl M (Fields.bind (Fields.bind (Fields.preWrite O (decl f) s) fun _ s =>
      some (.ok v (Fields.store s o f (some v)))) k) r := by
    intro o
    have hp : ∃ w, Fields.preWrite O (decl f) s = some (.ok w s) := by
      unfold Fields.preWrite
      split
      · cases hd : (decl f).dflt with
        | none => exact ⟨_, rfl⟩
        | const v => exact ⟨_, rfl⟩
        | expr e =>
          obtain ⟨w, hw⟩ := evalD_quiet hL e (hq f e hf hd) s
          exact ⟨.null, by simp only [hw, Fields.bind]⟩
      · exact ⟨_, rfl⟩
    obtain ⟨w, hw⟩ := hp
    rw [hw]
    simp only [Fields.bind]
    exact hk _ (h.storeLeft o f (some v) (.inl hf))
  cases b with
  | ref o =>
    dsimp only
    split
    · exact key o
    · exact .null
  | int i => exact .null
  | bool b => exact .null
  | null => exact .null

end

end Verif.Opt.Fields
