import Verif.Opt.FieldsThm

/-!
# Removing unused fields: which fields go, and that nothing refers to them afterwards
-/

namespace Verif.Opt.Fields

mutual
/-- Any access to the field (auxiliary). -/
def ment (f : Fld) : E → Bool
  | .lit _ | .loc _ | .glob _ | .raise _ => false
  | .ext _ a b | .call _ a b | .seq a b | .loop a b => ment f a || ment f b
  | .read b g | .tryRead b g | .has b g => g == f || ment f b
  | .assign b g src => g == f || ment f b || ment f src
  | .upd b g _ a => g == f || ment f b || ment f a
  | .unset b g => g == f || ment f b
  | .new is | .tasg is => mentIs f is
  | .ite c a b => ment f c || ment f a || ment f b
  | .setl _ e | .setg _ e | .ret e | .shw e => ment f e
/-- The same for items (auxiliary). -/
def mentIs (f : Fld) : Items → Bool
  | .nil => false
  | .cons t e rest => t.writes f || ment f e || mentIs f rest
end

mutual
theorem ment_within {f : Fld} {e : E} (h : ment f e = true) :
    ∃ x, Within x e ∧ Accesses f x := by
  match e with
  | .lit _ | .loc _ | .glob _ | .raise _ => simp [ment] at h
  | .ext k a b =>
    simp only [ment, Bool.or_eq_true] at h
    rcases h with h | h
    · obtain ⟨x, hx, ha⟩ := ment_within h; exact ⟨x, .ext1 hx, ha⟩
    · obtain ⟨x, hx, ha⟩ := ment_within h; exact ⟨x, .ext2 hx, ha⟩
  | .call k a b =>
    simp only [ment, Bool.or_eq_true] at h
    rcases h with h | h
    · obtain ⟨x, hx, ha⟩ := ment_within h; exact ⟨x, .call1 hx, ha⟩
    · obtain ⟨x, hx, ha⟩ := ment_within h; exact ⟨x, .call2 hx, ha⟩
  | .seq a b =>
    simp only [ment, Bool.or_eq_true] at h
    rcases h with h | h
    · obtain ⟨x, hx, ha⟩ := ment_within h; exact ⟨x, .seq1 hx, ha⟩
    · obtain ⟨x, hx, ha⟩ := ment_within h; exact ⟨x, .seq2 hx, ha⟩
  | .loop a b =>
    simp only [ment, Bool.or_eq_true] at h
    rcases h with h | h
    · obtain ⟨x, hx, ha⟩ := ment_within h; exact ⟨x, .loop1 hx, ha⟩
    · obtain ⟨x, hx, ha⟩ := ment_within h; exact ⟨x, .loop2 hx, ha⟩
  | .ite c a b =>
    simp only [ment, Bool.or_eq_true] at h
    rcases h with (h | h) | h
    · obtain ⟨x, hx, ha⟩ := ment_within h; exact ⟨x, .ite1 hx, ha⟩
    · obtain ⟨x, hx, ha⟩ := ment_within h; exact ⟨x, .ite2 hx, ha⟩
    · obtain ⟨x, hx, ha⟩ := ment_within h; exact ⟨x, .ite3 hx, ha⟩
  | .read b g =>
    simp only [ment, Bool.or_eq_true, beq_iff_eq] at h
    rcases h with h | h
    · subst h; exact ⟨_, .refl _, .read⟩
    · obtain ⟨x, hx, ha⟩ := ment_within h; exact ⟨x, .read hx, ha⟩
  | .tryRead b g =>
    simp only [ment, Bool.or_eq_true, beq_iff_eq] at h
    rcases h with h | h
    · subst h; exact ⟨_, .refl _, .tryRead⟩
    · obtain ⟨x, hx, ha⟩ := ment_within h; exact ⟨x, .tryRead hx, ha⟩
  | .has b g =>
    simp only [ment, Bool.or_eq_true, beq_iff_eq] at h
    rcases h with h | h
    · subst h; exact ⟨_, .refl _, .has⟩
    · obtain ⟨x, hx, ha⟩ := ment_within h; exact ⟨x, .has hx, ha⟩
  | .assign b g src =>
    simp only [ment, Bool.or_eq_true, beq_iff_eq] at h
    rcases h with (h | h) | h
    · subst h; exact ⟨_, .refl _, .assign⟩
    · obtain ⟨x, hx, ha⟩ := ment_within h; exact ⟨x, .assign1 hx, ha⟩
    · obtain ⟨x, hx, ha⟩ := ment_within h; exact ⟨x, .assign2 hx, ha⟩
  | .upd b g k a =>
    simp only [ment, Bool.or_eq_true, beq_iff_eq] at h
    rcases h with (h | h) | h
    · subst h; exact ⟨_, .refl _, .upd⟩
    · obtain ⟨x, hx, ha⟩ := ment_within h; exact ⟨x, .upd1 hx, ha⟩
    · obtain ⟨x, hx, ha⟩ := ment_within h; exact ⟨x, .upd2 hx, ha⟩
  | .unset b g =>
    simp only [ment, Bool.or_eq_true, beq_iff_eq] at h
    rcases h with h | h
    · subst h; exact ⟨_, .refl _, .unset⟩
    · obtain ⟨x, hx, ha⟩ := ment_within h; exact ⟨x, .unset hx, ha⟩
  | .new is =>
    simp only [ment] at h
    rcases mentIs_within h with ⟨x, hx, ha⟩ | ⟨t, ht, hn⟩
    · exact ⟨x, .new hx, ha⟩
    · exact ⟨_, .refl _, .new ht hn⟩
  | .tasg is =>
    simp only [ment] at h
    rcases mentIs_within h with ⟨x, hx, ha⟩ | ⟨t, ht, hn⟩
    · exact ⟨x, .tasg hx, ha⟩
    · exact ⟨_, .refl _, .tasg ht hn⟩
  | .setl n e =>
    simp only [ment] at h
    obtain ⟨x, hx, ha⟩ := ment_within h; exact ⟨x, .setl hx, ha⟩
  | .setg n e =>
    simp only [ment] at h
    obtain ⟨x, hx, ha⟩ := ment_within h; exact ⟨x, .setg hx, ha⟩
  | .ret e =>
    simp only [ment] at h
    obtain ⟨x, hx, ha⟩ := ment_within h; exact ⟨x, .ret hx, ha⟩
  | .shw e =>
    simp only [ment] at h
    obtain ⟨x, hx, ha⟩ := ment_within h; exact ⟨x, .shw hx, ha⟩
theorem mentIs_within {f : Fld} {is : Items} (h : mentIs f is = true) :
    (∃ x, WithinIs x is ∧ Accesses f x) ∨ ∃ t, HasTgt t is ∧ Names f t := by
  match is with
  | .nil => simp [mentIs] at h
  | .cons t e rest =>
    simp only [mentIs, Bool.or_eq_true] at h
    rcases h with (h | h) | h
    · right
      cases t with
      | loc n => simp [Tgt.writes] at h
      | fld b g => simp only [Tgt.writes, beq_iff_eq] at h; subst h; exact ⟨_, .head, .fld⟩
      | init g => simp only [Tgt.writes, beq_iff_eq] at h; subst h; exact ⟨_, .head, .init⟩
    · obtain ⟨x, hx, ha⟩ := ment_within h; exact .inl ⟨x, .head hx, ha⟩
    · rcases mentIs_within h with ⟨x, hx, ha⟩ | ⟨t, ht, hn⟩
      · exact .inl ⟨x, .tail hx, ha⟩
      · exact .inr ⟨t, .tail ht, hn⟩
end

theorem hasTgt_mentIs {f : Fld} {t : Tgt} {is : Items} (h : HasTgt t is) (hn : Names f t) : mentIs f is = true := by
  induction h with
  | head => cases hn <;> simp [mentIs, Tgt.writes]
  | tail _ ih => simp [mentIs, ih]

theorem accesses_ment {f : Fld} {x : E} (h : Accesses f x) : ment f x = true := by
  cases h with
  | new ht hn => simp only [ment]; exact hasTgt_mentIs ht hn
  | tasg ht hn => simp only [ment]; exact hasTgt_mentIs ht hn
  | _ => simp [ment]

mutual
theorem within_ment {f : Fld} {x e : E} (h : Within x e) (hx : ment f x = true) : ment f e = true := by
  cases h with
  | refl => exact hx
  | new h => simp only [ment]; exact withinIs_ment h hx
  | tasg h => simp only [ment]; exact withinIs_ment h hx
  | ext1 h | ext2 h | read h | tryRead h | has h | assign1 h | assign2 h | upd1 h | upd2 h | unset h | call1 h | call2 h
  | seq1 h | seq2 h | ite1 h | ite2 h | ite3 h | loop1 h | loop2 h | setl h | setg h | ret h | shw h =>
    simp [ment, within_ment h hx]
theorem withinIs_ment {f : Fld} {x : E} {is : Items} (h : WithinIs x is) (hx : ment f x = true) :
    mentIs f is = true := by
  cases h with
  | head h => simp [mentIs, within_ment h hx]
  | tail h => simp [mentIs, withinIs_ment h hx]
end

theorem mentioned_iff (f : Fld) (P : Prog) :
    Mentioned f P ↔ ∃ e, (e = P.main ∨ e ∈ P.funs) ∧ ment f e = true := by
  constructor
  · rintro ⟨e, x, he, hw, ha⟩
    exact ⟨e, he, within_ment hw (accesses_ment ha)⟩
  · rintro ⟨e, he, hm⟩
    obtain ⟨x, hw, ha⟩ := ment_within hm
    exact ⟨e, x, he, hw, ha⟩

theorem ment_replRead (f : Fld) (d : Decl) (attr : Bool) : ment f (replRead d attr) = false := by
  unfold replRead
  split <;> split <;> simp [ment]

theorem ment_group (f : Fld) (ps : List E) (e : E) : ment f (group ps e) = (ps.any (ment f) || ment f e) := by
  induction ps with
  | nil => simp [group]
  | cons p ps ih => simp [group, ment, ih, Bool.or_assoc]

section
variable (O : Ops) (decl : Fld → Decl) (M : Fld → Mode) (f : Fld)

mutual
/-- The mutator adds no access. -/
theorem ment_tr (e : E) (h : ment f e = false) : ment f (tr O decl M e) = false := by
  match e with
  | .lit _ | .loc _ | .glob _ | .raise _ => simp [tr, ment]
  | .ext _ a b | .call _ a b | .seq a b | .loop a b =>
    simp only [ment, Bool.or_eq_false_iff] at h
    simp [tr, ment, ment_tr a h.1, ment_tr b h.2]
  | .ite c a b =>
    simp only [ment, Bool.or_eq_false_iff] at h
    simp [tr, ment, ment_tr c h.1.1, ment_tr a h.1.2, ment_tr b h.2]
  | .read b g =>
    simp only [ment, Bool.or_eq_false_iff] at h
    simp only [tr]
    split
    · exact ment_replRead f _ _
    · simp [ment, h.1, ment_tr b h.2]
  | .tryRead b g =>
    simp only [ment, Bool.or_eq_false_iff] at h
    simp only [tr]
    split
    · exact ment_replRead f _ _
    · simp [ment, h.1, ment_tr b h.2]
  | .has b g =>
    simp only [ment, Bool.or_eq_false_iff] at h
    simp only [tr]
    split
    · simp [ment]
    · simp [ment, h.1, ment_tr b h.2]
  | .assign b g src =>
    simp only [ment, Bool.or_eq_false_iff] at h
    simp only [tr]
    split
    · exact ment_tr src h.2
    · simp [ment, h.1.1, ment_tr b h.1.2, ment_tr src h.2]
  | .upd b g k a =>
    simp only [ment, Bool.or_eq_false_iff] at h
    simp [tr, ment, h.1.1, ment_tr b h.1.2, ment_tr a h.2]
  | .unset b g =>
    simp only [ment, Bool.or_eq_false_iff] at h
    simp only [tr]
    split
    · exact ment_tr b h.2
    · simp [ment, h.1, ment_tr b h.2]
  | .new is =>
    simp only [ment] at h
    simp [tr, ment, (ment_trIs is h).1]
  | .tasg is =>
    simp only [ment] at h
    simp only [tr, ment_group, ment, (ment_trIs is h).1, Bool.or_false]
    rw [List.any_eq_false]
    intro p hp
    simp [(ment_trIs is h).2 p hp]
  | .setl _ e | .setg _ e | .ret e | .shw e =>
    simp only [ment] at h
    simp [tr, ment, ment_tr e h]
theorem ment_trIs (is : Items) (h : mentIs f is = false) :
    mentIs f (trIs O decl M is) = false ∧ ∀ p, p ∈ fronts O decl M is → ment f p = false := by
  match is with
  | .nil => simp [trIs, fronts, mentIs]
  | .cons t e rest =>
    simp only [mentIs, Bool.or_eq_false_iff] at h
    have he := ment_tr e h.1.2
    obtain ⟨h1, h2⟩ := ment_trIs rest h.2
    constructor
    · simp only [trIs]
      split
      · exact h1
      · simp [mentIs, h.1.1, he, h1]
    · intro p hp
      simp only [fronts] at hp
      split at hp
      · rcases List.mem_cons.mp hp with hp | hp
        · subst hp; exact he
        · exact h2 p hp
      · exact h2 p hp
end

mutual
/-- Nothing refers to a removed field in the changed code. -/
theorem ment_tr_drop (hM : M f = .drop) (e : E) (hr : reads f e = false) (hw : writes f e = false) :
    ment f (tr O decl M e) = false := by
  match e with
  | .lit _ | .loc _ | .glob _ | .raise _ => simp [tr, ment]
  | .ext _ a b | .call _ a b | .seq a b | .loop a b =>
    simp only [reads, writes, Bool.or_eq_false_iff] at hr hw
    simp [tr, ment, ment_tr_drop hM a hr.1 hw.1, ment_tr_drop hM b hr.2 hw.2]
  | .ite c a b =>
    simp only [reads, writes, Bool.or_eq_false_iff] at hr hw
    simp [tr, ment, ment_tr_drop hM c hr.1.1 hw.1.1, ment_tr_drop hM a hr.1.2 hw.1.2, ment_tr_drop hM b hr.2 hw.2]
  | .read b g =>
    simp only [reads, writes, Bool.or_eq_false_iff] at hr hw
    simp only [tr]
    split
    · exact ment_replRead f _ _
    · simp [ment, hr.1, ment_tr_drop hM b hr.2 hw]
  | .tryRead b g =>
    simp only [reads, writes, Bool.or_eq_false_iff] at hr hw
    simp only [tr]
    split
    · exact ment_replRead f _ _
    · simp [ment, hr.1, ment_tr_drop hM b hr.2 hw]
  | .has b g =>
    simp only [reads, writes, Bool.or_eq_false_iff] at hr hw
    simp only [tr]
    split
    · simp [ment]
    · simp [ment, hr.1, ment_tr_drop hM b hr.2 hw]
  | .assign b g src =>
    simp only [reads, writes, Bool.or_eq_false_iff] at hr hw
    simp only [tr]
    split
    · exact ment_tr_drop hM src hr.2 hw.2
    · simp [ment, hw.1.1, ment_tr_drop hM b hr.1 hw.1.2, ment_tr_drop hM src hr.2 hw.2]
  | .upd b g k a =>
    simp only [reads, writes, Bool.or_eq_false_iff] at hr hw
    simp [tr, ment, hw.1.1, ment_tr_drop hM b hr.1.2 hw.1.2, ment_tr_drop hM a hr.2 hw.2]
  | .unset b g =>
    simp only [reads, writes] at hr hw
    simp only [tr]
    split
    · exact ment_tr_drop hM b hr hw
    · rename_i hg
      have : (g == f) = false := by
        rw [beq_eq_false_iff_ne]
        intro e
        subst e
        rw [hM] at hg
        exact hg rfl
      simp [ment, this, ment_tr_drop hM b hr hw]
  | .new is =>
    simp only [reads, writes] at hr hw
    simp [tr, ment, (ment_trIs_drop hM is hr hw).1]
  | .tasg is =>
    simp only [reads, writes] at hr hw
    simp only [tr, ment_group, ment, (ment_trIs_drop hM is hr hw).1, Bool.or_false]
    rw [List.any_eq_false]
    intro p hp
    simp [(ment_trIs_drop hM is hr hw).2 p hp]
  | .setl _ e | .setg _ e | .ret e | .shw e =>
    simp only [reads, writes] at hr hw
    simp [tr, ment, ment_tr_drop hM e hr hw]
theorem ment_trIs_drop (hM : M f = .drop) (is : Items) (hr : readsIs f is = false) (hw : writesIs f is = false) :
    mentIs f (trIs O decl M is) = false ∧ ∀ p, p ∈ fronts O decl M is → ment f p = false := by
  match is with
  | .nil => simp [trIs, fronts, mentIs]
  | .cons t e rest =>
    simp only [readsIs, writesIs, Bool.or_eq_false_iff] at hr hw
    have he := ment_tr_drop hM e hr.1 hw.1.2
    obtain ⟨h1, h2⟩ := ment_trIs_drop hM rest hr.2 hw.2
    constructor
    · simp only [trIs]
      split
      · exact h1
      · simp [mentIs, hw.1.1, he, h1]
    · intro p hp
      simp only [fronts] at hp
      split at hp
      · rcases List.mem_cons.mp hp with hp | hp
        · subst hp; exact he
        · exact h2 p hp
      · exact h2 p hp
end
end

theorem trDecl_gone (d : Decl) (m : Mode) (h : (trDecl d m).gone = true) : d.gone = true ∨ m = .drop := by
  unfold trDecl at h
  cases m with
  | drop => exact .inr rfl
  | keep => exact .inl h
  | noReads => exact .inl h
  | noWrites =>
    dsimp only at h
    split at h <;> exact .inl h

/-- **Nothing refers to a field that is not emitted**: if that holds before the pass, it holds after it — the C++ code
never names a member the struct no longer has. -/
theorem gone_not_mentioned (O : Ops) (P : Prog) (h : ∀ f, (P.decl f).gone = true → ¬ Mentioned f P) (f : Fld)
    (hf : ((pass O P).decl f).gone = true) : ¬ Mentioned f (pass O P) := by
  rw [mentioned_iff]
  rintro ⟨e', he', hm'⟩
  have hsrc : ∃ e, (e = P.main ∨ e ∈ P.funs) ∧ e' = tr O P.decl (mode P) e := by
    rcases he' with rfl | he'
    · exact ⟨P.main, .inl rfl, rfl⟩
    · simp only [pass, List.mem_map] at he'
      obtain ⟨e, he, rfl⟩ := he'
      exact ⟨e, .inr he, rfl⟩
  obtain ⟨e, he, rfl⟩ := hsrc
  have hfit : Fits (mode P) e := by
    rcases he with rfl | he
    · exact fits_main P
    · exact fits_fun P he
  rcases trDecl_gone _ _ hf with hg | hd
  · have hn : ment f e = false := by
      cases hx : ment f e with
      | false => rfl
      | true => exact absurd ((mentioned_iff f P).mpr ⟨e, he, hx⟩) (h f hg)
    rw [ment_tr O P.decl (mode P) f e hn] at hm'
    cases hm'
  · rw [ment_tr_drop O P.decl (mode P) f hd e ((hfit f).1 (.inr hd)) ((hfit f).2 (.inr hd))] at hm'
    cases hm'

/-- The accesses that are no `unset`. -/
def IsUnset : E → Prop
  | .unset _ _ => True
  | _ => False

section
variable (f : Fld)
mutual
theorem found {x e : E} (h : Within x e) (hx : reads f x = true ∨ writes f x = true) :
    reads f e = true ∨ writes f e = true := by
  cases h with
  | refl => exact hx
  | new h => simp only [reads, writes]; exact foundIs h hx
  | tasg h => simp only [reads, writes]; exact foundIs h hx
  | ext1 h | ext2 h | read h | tryRead h | has h | assign1 h | assign2 h | upd1 h | upd2 h | unset h | call1 h | call2 h
  | seq1 h | seq2 h | ite1 h | ite2 h | ite3 h | loop1 h | loop2 h | setl h | setg h | ret h | shw h =>
    rcases found h hx with h | h <;> simp [reads, writes, h]
theorem foundIs {x : E} {is : Items} (h : WithinIs x is) (hx : reads f x = true ∨ writes f x = true) :
    readsIs f is = true ∨ writesIs f is = true := by
  cases h with
  | head h => rcases found h hx with h | h <;> simp [readsIs, writesIs, h]
  | tail h => rcases foundIs h hx with h | h <;> simp [readsIs, writesIs, h]
end
end

/-- **Only untouched fields go**: a field the pass stops emitting was considered, has no non-constant default, and the
code does nothing with it except, possibly, to unset it. -/
theorem gone_only_untouched (O : Ops) (P : Prog) (f : Fld) (h0 : (P.decl f).gone = false)
    (hf : ((pass O P).decl f).gone = true) :
    (P.decl f).keep = false ∧ (∀ d, (P.decl f).dflt ≠ .expr d) ∧
    ∀ e x, (e = P.main ∨ e ∈ P.funs) → Within x e → Accesses f x → IsUnset x := by
  have hd : mode P f = .drop := by
    rcases trDecl_gone _ _ hf with hg | hd
    · rw [h0] at hg; cases hg
    · exact hd
  refine ⟨(mode_considered (by rw [hd]; intro h; cases h)).1, ?_, ?_⟩
  · intro d hx
    have := (modes_mode P).dflt f (.inr hd)
    rw [hx] at this
    cases this
  · intro e x he hw ha
    have hfit : Fits (mode P) e := by
      rcases he with rfl | he
      · exact fits_main P
      · exact fits_fun P he
    have hr := (hfit f).1 (.inr hd)
    have hwr := (hfit f).2 (.inr hd)
    have no : ¬ (reads f x = true ∨ writes f x = true) := by
      intro hx
      rcases found f hw hx with h | h
      · rw [hr] at h; cases h
      · rw [hwr] at h; cases h
    have tgts : ∀ is t, HasTgt t is → Names f t → writesIs f is = true := by
      intro is t ht hn
      induction ht with
      | head => cases hn <;> simp [writesIs, Tgt.writes]
      | tail _ ih => simp [writesIs, ih]
    cases ha with
    | unset => exact trivial
    | read => exact absurd (.inl (by simp [reads])) no
    | tryRead => exact absurd (.inl (by simp [reads])) no
    | has => exact absurd (.inl (by simp [reads])) no
    | upd => exact absurd (.inl (by simp [reads])) no
    | assign => exact absurd (.inr (by simp [writes])) no
    | new ht hn => exact absurd (.inr (by simp only [writes]; exact tgts _ _ ht hn)) no
    | tasg ht hn => exact absurd (.inr (by simp only [writes]; exact tgts _ _ ht hn)) no

/-- A field the user keeps (public, `&always-emit`, static, ..) stays as it is declared. -/
theorem kept_as_declared (O : Ops) (P : Prog) (f : Fld) (h : (P.decl f).keep = true) :
    (pass O P).decl f = P.decl f := by
  have hm : mode P f = .keep := by simp [mode, h]
  simp only [pass, hm, trDecl]

end Verif.Opt.Fields
