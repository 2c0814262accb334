import Verif.Opt.FieldsGone

/-!
# Removing unused fields: a field that is only written is gone after two rounds
-/

namespace Verif.Opt.Fields

mutual
/-- Every initialiser of the field in a struct constructor is without side effects. -/
def initsOk (O : Ops) (f : Fld) : E → Bool
  | .lit _ | .loc _ | .glob _ | .raise _ => true
  | .ext _ a b | .call _ a b | .seq a b | .loop a b => initsOk O f a && initsOk O f b
  | .read b _ | .tryRead b _ | .has b _ | .unset b _ => initsOk O f b
  | .assign b _ src => initsOk O f b && initsOk O f src
  | .upd b _ _ a => initsOk O f b && initsOk O f a
  | .new is | .tasg is => initsOkIs O f is
  | .ite c a b => initsOk O f c && initsOk O f a && initsOk O f b
  | .setl _ e | .setg _ e | .ret e | .shw e => initsOk O f e
/-- The same for items. -/
def initsOkIs (O : Ops) (f : Fld) : Items → Bool
  | .nil => true
  | .cons t e rest => (t != .init f || ! loudE O e) && initsOk O f e && initsOkIs O f rest
end

theorem eff_loud {O : Ops} (e : E) (h : mayEff O e = true) : loudE O e = true := by
  match e with
  | .lit v => simp [mayEff] at h
  | .loc n => simp [mayEff] at h
  | .glob n => simp [mayEff] at h
  | .ext k a b =>
    simp only [mayEff, Bool.or_eq_true] at h
    rcases h with (h | h) | h
    · simp [loudE, h]
    · simp [loudE, eff_loud a h]
    · simp [loudE, eff_loud b h]
  | .read b _ | .tryRead b _ | .has b _ =>
    simp only [mayEff] at h
    simp [loudE, eff_loud b h]
  | .assign _ _ _ | .upd _ _ _ _ | .unset _ _ | .new _ | .tasg _ | .call _ _ _
  | .seq _ _ | .ite _ _ _ | .loop _ _ | .setl _ _ | .setg _ _ | .ret _ | .raise _ | .shw _ => simp [loudE]

section
variable (O : Ops) (decl : Fld → Decl) (M : Fld → Mode) (f : Fld)

theorem writes_group (ps : List E) (e : E) : writes f (group ps e) = (ps.any (writes f) || writes f e) := by
  induction ps with
  | nil => simp [group]
  | cons p ps ih => simp [group, writes, ih, Bool.or_assoc]

theorem reads_group (ps : List E) (e : E) : reads f (group ps e) = (ps.any (reads f) || reads f e) := by
  induction ps with
  | nil => simp [group]
  | cons p ps ih => simp [group, reads, ih, Bool.or_assoc]

theorem writes_replRead (d : Decl) (attr : Bool) : writes f (replRead d attr) = false := by
  unfold replRead
  split <;> split <;> simp [writes]

theorem reads_replRead (d : Decl) (attr : Bool) : reads f (replRead d attr) = false := by
  unfold replRead
  split <;> split <;> simp [reads]

mutual
theorem reads_tr (e : E) (h : reads f e = false) : reads f (tr O decl M e) = false := by
  match e with
  | .lit _ | .loc _ | .glob _ | .raise _ => simp [tr, reads]
  | .ext _ a b | .call _ a b | .seq a b | .loop a b =>
    simp only [reads, Bool.or_eq_false_iff] at h
    simp [tr, reads, reads_tr a h.1, reads_tr b h.2]
  | .ite c a b =>
    simp only [reads, Bool.or_eq_false_iff] at h
    simp [tr, reads, reads_tr c h.1.1, reads_tr a h.1.2, reads_tr b h.2]
  | .read b g =>
    simp only [reads, Bool.or_eq_false_iff] at h
    simp only [tr]
    split
    · exact reads_replRead f _ _
    · simp [reads, h.1, reads_tr b h.2]
  | .tryRead b g =>
    simp only [reads, Bool.or_eq_false_iff] at h
    simp only [tr]
    split
    · exact reads_replRead f _ _
    · simp [reads, h.1, reads_tr b h.2]
  | .has b g =>
    simp only [reads, Bool.or_eq_false_iff] at h
    simp only [tr]
    split
    · simp [reads]
    · simp [reads, h.1, reads_tr b h.2]
  | .assign b g src =>
    simp only [reads, Bool.or_eq_false_iff] at h
    simp only [tr]
    split
    · exact reads_tr src h.2
    · simp [reads, reads_tr b h.1, reads_tr src h.2]
  | .upd b g k a =>
    simp only [reads, Bool.or_eq_false_iff] at h
    simp [tr, reads, h.1.1, reads_tr b h.1.2, reads_tr a h.2]
  | .unset b g =>
    simp only [reads] at h
    simp only [tr]
    split
    · exact reads_tr b h
    · simp [reads, reads_tr b h]
  | .new is =>
    simp only [reads] at h
    simp [tr, reads, (reads_trIs is h).1]
  | .tasg is =>
    simp only [reads] at h
    simp only [tr, reads_group, reads, (reads_trIs is h).1, Bool.or_false]
    rw [List.any_eq_false]
    intro p hp
    simp [(reads_trIs is h).2 p hp]
  | .setl _ e | .setg _ e | .ret e | .shw e =>
    simp only [reads] at h
    simp [tr, reads, reads_tr e h]
theorem reads_trIs (is : Items) (h : readsIs f is = false) :
    readsIs f (trIs O decl M is) = false ∧ ∀ p, p ∈ fronts O decl M is → reads f p = false := by
  match is with
  | .nil => simp [trIs, fronts, readsIs]
  | .cons t e rest =>
    simp only [readsIs, Bool.or_eq_false_iff] at h
    have he := reads_tr e h.1
    obtain ⟨h1, h2⟩ := reads_trIs rest h.2
    constructor
    · simp only [trIs]
      split
      · exact h1
      · simp [readsIs, he, h1]
    · intro p hp
      simp only [fronts] at hp
      split at hp
      · rcases List.mem_cons.mp hp with hp | hp
        · subst hp; exact he
        · exact h2 p hp
      · exact h2 p hp
end

mutual
/-- Removing the writes of a field removes all of them. -/
theorem writes_tr (hM : M f = .noWrites) (e : E) (hr : reads f e = false) (hi : initsOk O f e = true) :
    writes f (tr O decl M e) = false := by
  match e with
  | .lit _ | .loc _ | .glob _ | .raise _ => simp [tr, writes]
  | .ext _ a b | .call _ a b | .seq a b | .loop a b =>
    simp only [reads, initsOk, Bool.or_eq_false_iff, Bool.and_eq_true] at hr hi
    simp [tr, writes, writes_tr hM a hr.1 hi.1, writes_tr hM b hr.2 hi.2]
  | .ite c a b =>
    simp only [reads, initsOk, Bool.or_eq_false_iff, Bool.and_eq_true] at hr hi
    simp [tr, writes, writes_tr hM c hr.1.1 hi.1.1, writes_tr hM a hr.1.2 hi.1.2, writes_tr hM b hr.2 hi.2]
  | .read b g =>
    simp only [reads, initsOk, Bool.or_eq_false_iff] at hr hi
    simp only [tr]
    split
    · exact writes_replRead f _ _
    · simp [writes, writes_tr hM b hr.2 hi]
  | .tryRead b g =>
    simp only [reads, initsOk, Bool.or_eq_false_iff] at hr hi
    simp only [tr]
    split
    · exact writes_replRead f _ _
    · simp [writes, writes_tr hM b hr.2 hi]
  | .has b g =>
    simp only [reads, initsOk, Bool.or_eq_false_iff] at hr hi
    simp only [tr]
    split
    · simp [writes]
    · simp [writes, writes_tr hM b hr.2 hi]
  | .assign b g src =>
    simp only [reads, initsOk, Bool.or_eq_false_iff, Bool.and_eq_true] at hr hi
    simp only [tr]
    split
    · exact writes_tr hM src hr.2 hi.2
    · rename_i hg
      have : (g == f) = false := by
        rw [beq_eq_false_iff_ne]
        intro e
        subst e
        rw [hM] at hg
        exact hg rfl
      simp [writes, this, writes_tr hM b hr.1 hi.1, writes_tr hM src hr.2 hi.2]
  | .upd b g k a =>
    simp only [reads, initsOk, Bool.or_eq_false_iff, Bool.and_eq_true] at hr hi
    simp [tr, writes, hr.1.1, writes_tr hM b hr.1.2 hi.1, writes_tr hM a hr.2 hi.2]
  | .unset b g =>
    simp only [reads, initsOk] at hr hi
    simp only [tr]
    split
    · exact writes_tr hM b hr hi
    · simp [writes, writes_tr hM b hr hi]
  | .new is =>
    simp only [reads, initsOk] at hr hi
    simp [tr, writes, (writes_trIs hM is hr hi).1]
  | .tasg is =>
    simp only [reads, initsOk] at hr hi
    simp only [tr, writes_group, writes, (writes_trIs hM is hr hi).1, Bool.or_false]
    rw [List.any_eq_false]
    intro p hp
    simp [(writes_trIs hM is hr hi).2 p hp]
  | .setl _ e | .setg _ e | .ret e | .shw e =>
    simp only [reads, initsOk] at hr hi
    simp [tr, writes, writes_tr hM e hr hi]
theorem writes_trIs (hM : M f = .noWrites) (is : Items) (hr : readsIs f is = false) (hi : initsOkIs O f is = true) :
    writesIs f (trIs O decl M is) = false ∧ ∀ p, p ∈ fronts O decl M is → writes f p = false := by
  match is with
  | .nil => simp [trIs, fronts, writesIs]
  | .cons t e rest =>
    simp only [readsIs, initsOkIs, Bool.or_eq_false_iff, Bool.and_eq_true] at hr hi
    have he := writes_tr hM e hr.1 hi.1.2
    obtain ⟨h1, h2⟩ := writes_trIs hM rest hr.2 hi.2
    constructor
    · simp only [trIs]
      split
      · exact h1
      · rename_i hd
        have ht : t.writes f = false := by
          cases t with
          | loc n => rfl
          | fld b g =>
            simp only [Tgt.writes, beq_eq_false_iff_ne]
            intro e
            subst e
            simp [dropItem, hM, Mode.isNoWrites] at hd
          | init g =>
            simp only [Tgt.writes, beq_eq_false_iff_ne]
            intro e
            subst e
            have h1 := hi.1.1
            simp only [bne_self_eq_false, Bool.false_or] at h1
            simp [dropItem, hM, Mode.isNoWrites] at hd
            have := eff_loud e hd
            rw [this] at h1
            cases h1
        simp [writesIs, ht, he, h1]
    · intro p hp
      simp only [fronts] at hp
      split at hp
      · rcases List.mem_cons.mp hp with hp | hp
        · subst hp; exact he
        · exact h2 p hp
      · exact h2 p hp
end
end

/-- The places where the field is read, as the English has it. -/
inductive ReadsIt (f : Fld) : E → Prop
  | read : ReadsIt f (.read b f)
  | tryRead : ReadsIt f (.tryRead b f)
  | has : ReadsIt f (.has b f)
  | upd : ReadsIt f (.upd b f k a)

section
variable (f : Fld)
mutual
theorem reads_reason {e : E} (h : reads f e = true) : ∃ x, Within x e ∧ ReadsIt f x := by
  match e with
  | .lit _ | .loc _ | .glob _ | .raise _ => simp [reads] at h
  | .ext k a b =>
    simp only [reads, Bool.or_eq_true] at h
    rcases h with h | h
    · obtain ⟨x, hx, ha⟩ := reads_reason h; exact ⟨x, .ext1 hx, ha⟩
    · obtain ⟨x, hx, ha⟩ := reads_reason h; exact ⟨x, .ext2 hx, ha⟩
  | .call k a b =>
    simp only [reads, Bool.or_eq_true] at h
    rcases h with h | h
    · obtain ⟨x, hx, ha⟩ := reads_reason h; exact ⟨x, .call1 hx, ha⟩
    · obtain ⟨x, hx, ha⟩ := reads_reason h; exact ⟨x, .call2 hx, ha⟩
  | .seq a b =>
    simp only [reads, Bool.or_eq_true] at h
    rcases h with h | h
    · obtain ⟨x, hx, ha⟩ := reads_reason h; exact ⟨x, .seq1 hx, ha⟩
    · obtain ⟨x, hx, ha⟩ := reads_reason h; exact ⟨x, .seq2 hx, ha⟩
  | .loop a b =>
    simp only [reads, Bool.or_eq_true] at h
    rcases h with h | h
    · obtain ⟨x, hx, ha⟩ := reads_reason h; exact ⟨x, .loop1 hx, ha⟩
    · obtain ⟨x, hx, ha⟩ := reads_reason h; exact ⟨x, .loop2 hx, ha⟩
  | .ite c a b =>
    simp only [reads, Bool.or_eq_true] at h
    rcases h with (h | h) | h
    · obtain ⟨x, hx, ha⟩ := reads_reason h; exact ⟨x, .ite1 hx, ha⟩
    · obtain ⟨x, hx, ha⟩ := reads_reason h; exact ⟨x, .ite2 hx, ha⟩
    · obtain ⟨x, hx, ha⟩ := reads_reason h; exact ⟨x, .ite3 hx, ha⟩
  | .read b g =>
    simp only [reads, Bool.or_eq_true, beq_iff_eq] at h
    rcases h with h | h
    · subst h; exact ⟨_, .refl _, .read⟩
    · obtain ⟨x, hx, ha⟩ := reads_reason h; exact ⟨x, .read hx, ha⟩
  | .tryRead b g =>
    simp only [reads, Bool.or_eq_true, beq_iff_eq] at h
    rcases h with h | h
    · subst h; exact ⟨_, .refl _, .tryRead⟩
    · obtain ⟨x, hx, ha⟩ := reads_reason h; exact ⟨x, .tryRead hx, ha⟩
  | .has b g =>
    simp only [reads, Bool.or_eq_true, beq_iff_eq] at h
    rcases h with h | h
    · subst h; exact ⟨_, .refl _, .has⟩
    · obtain ⟨x, hx, ha⟩ := reads_reason h; exact ⟨x, .has hx, ha⟩
  | .assign b g src =>
    simp only [reads, Bool.or_eq_true] at h
    rcases h with h | h
    · obtain ⟨x, hx, ha⟩ := reads_reason h; exact ⟨x, .assign1 hx, ha⟩
    · obtain ⟨x, hx, ha⟩ := reads_reason h; exact ⟨x, .assign2 hx, ha⟩
  | .upd b g k a =>
    simp only [reads, Bool.or_eq_true, beq_iff_eq] at h
    rcases h with (h | h) | h
    · subst h; exact ⟨_, .refl _, .upd⟩
    · obtain ⟨x, hx, ha⟩ := reads_reason h; exact ⟨x, .upd1 hx, ha⟩
    · obtain ⟨x, hx, ha⟩ := reads_reason h; exact ⟨x, .upd2 hx, ha⟩
  | .unset b g =>
    simp only [reads] at h
    obtain ⟨x, hx, ha⟩ := reads_reason h; exact ⟨x, .unset hx, ha⟩
  | .new is =>
    simp only [reads] at h
    obtain ⟨x, hx, ha⟩ := readsIs_reason h; exact ⟨x, .new hx, ha⟩
  | .tasg is =>
    simp only [reads] at h
    obtain ⟨x, hx, ha⟩ := readsIs_reason h; exact ⟨x, .tasg hx, ha⟩
  | .setl n e =>
    simp only [reads] at h
    obtain ⟨x, hx, ha⟩ := reads_reason h; exact ⟨x, .setl hx, ha⟩
  | .setg n e =>
    simp only [reads] at h
    obtain ⟨x, hx, ha⟩ := reads_reason h; exact ⟨x, .setg hx, ha⟩
  | .ret e =>
    simp only [reads] at h
    obtain ⟨x, hx, ha⟩ := reads_reason h; exact ⟨x, .ret hx, ha⟩
  | .shw e =>
    simp only [reads] at h
    obtain ⟨x, hx, ha⟩ := reads_reason h; exact ⟨x, .shw hx, ha⟩
theorem readsIs_reason {is : Items} (h : readsIs f is = true) : ∃ x, WithinIs x is ∧ ReadsIt f x := by
  match is with
  | .nil => simp [readsIs] at h
  | .cons t e rest =>
    simp only [readsIs, Bool.or_eq_true] at h
    rcases h with h | h
    · obtain ⟨x, hx, ha⟩ := reads_reason h; exact ⟨x, .head hx, ha⟩
    · obtain ⟨x, hx, ha⟩ := readsIs_reason h; exact ⟨x, .tail hx, ha⟩
end
end

section
variable (f : Fld)
mutual
/-- A read in a part is a read in the whole. -/
theorem readsUp {x e : E} (h : Within x e) (hx : reads f x = true) : reads f e = true := by
  cases h with
  | refl => exact hx
  | new h => simp only [reads]; exact readsUpIs h hx
  | tasg h => simp only [reads]; exact readsUpIs h hx
  | ext1 h | ext2 h | read h | tryRead h | has h | assign1 h | assign2 h | upd1 h | upd2 h | unset h | call1 h | call2 h
  | seq1 h | seq2 h | ite1 h | ite2 h | ite3 h | loop1 h | loop2 h | setl h | setg h | ret h | shw h =>
    simp [reads, readsUp h hx]
theorem readsUpIs {x : E} {is : Items} (h : WithinIs x is) (hx : reads f x = true) : readsIs f is = true := by
  cases h with
  | head h => simp [readsIs, readsUp h hx]
  | tail h => simp [readsIs, readsUpIs h hx]
end
end

/-- **A field nothing reads is gone after two rounds**, if it may be removed and whatever initialises it has no side
effects. -/
theorem unread_gone (O : Ops) (P : Prog) (f : Fld) (hk : (P.decl f).keep = false)
    (hr : ∀ e x, (e = P.main ∨ e ∈ P.funs) → Within x e → ¬ ReadsIt f x)
    (hi : ∀ e, (e = P.main ∨ e ∈ P.funs) → initsOk O f e = true) :
    ((pass O (pass O P)).decl f).gone = true := by
  have keepGone : ∀ (d : Decl) m, d.gone = true → (trDecl d m).gone = true := by
    intro d m h
    unfold trDecl
    cases m <;> try (first | exact h | rfl)
    dsimp only
    split <;> exact h
  have hr' : ∀ e, (e = P.main ∨ e ∈ P.funs) → reads f e = false := by
    intro e he
    cases hx : reads f e with
    | false => rfl
    | true =>
      obtain ⟨x, hw, ha⟩ := reads_reason f hx
      exact absurd ha (hr e x he hw)
  cases hg : (P.decl f).gone with
  | true => exact keepGone _ _ (keepGone _ _ hg)
  | false =>
    have hrP : readsP P f = false := by
      simp only [readsP, Bool.or_eq_false_iff, List.any_eq_false]
      exact ⟨hr' _ (.inl rfl), fun e he => by simp [hr' e (.inr he)]⟩
    cases hw : writesP P f with
    | false =>
      have hm : mode P f = .drop := by simp [mode, hk, hg, hrP, hw]
      refine keepGone _ _ ?_
      simp only [pass, hm, trDecl]
    | true =>
      have hm : mode P f = .noWrites := by simp [mode, hk, hg, hrP, hw]
      have hd : ((pass O P).decl f).keep = false ∧ ((pass O P).decl f).gone = false ∧
          ((pass O P).decl f).dflt.isExpr = false := by
        simp only [pass, hm, trDecl]
        cases hx : (P.decl f).dflt.isExpr with
        | true => simp [hk, hg, Dflt.isExpr]
        | false => simp [hk, hg, hx]
      have hr2 : readsP (pass O P) f = false := by
        simp only [readsP, pass, Bool.or_eq_false_iff, List.any_eq_false, List.mem_map]
        refine ⟨reads_tr O P.decl (mode P) f _ (hr' _ (.inl rfl)), ?_⟩
        rintro e' ⟨e, he, rfl⟩
        simp [reads_tr O P.decl (mode P) f e (hr' e (.inr he))]
      have hw2 : writesP (pass O P) f = false := by
        simp only [writesP, hd.2.2, Bool.false_or, Bool.or_eq_false_iff, List.any_eq_false]
        simp only [pass, List.mem_map]
        refine ⟨writes_tr O P.decl (mode P) f hm _ (hr' _ (.inl rfl)) (hi _ (.inl rfl)), ?_⟩
        rintro e' ⟨e, he, rfl⟩
        simp [writes_tr O P.decl (mode P) f hm e (hr' e (.inr he)) (hi e (.inr he))]
      have hm2 : mode (pass O P) f = .drop := by simp [mode, hd.1, hd.2.1, hr2, hw2]
      change (trDecl ((pass O P).decl f) (mode (pass O P) f)).gone = true
      rw [hm2]
      rfl

end Verif.Opt.Fields
