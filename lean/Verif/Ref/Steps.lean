import Verif.Ref.Inv

/-!
# Every operation follows the specification
-/

namespace Verif.Ref

/-- Same outcome, and the simulation goes on. -/
def Match : Res (World × Out) → Res (Ideal × Out) → Prop
  | .ok (w, o), .ok (s, o') => o = o' ∧ Sim w s []
  | .throw e, .throw e' => e = e'
  | .ub, .ub => True
  | _, _ => False

variable {w : World} {s : Ideal}

theorem Sim.slot (h : Sim w s []) {i : Nat} {x : Handle} (hx : w.hs i = some x) : s.hs i = some x.bound := by
  rw [h.hs i, hx]; rfl
theorem Sim.noslot (h : Sim w s []) {i : Nat} (hx : w.hs i = none) : s.hs i = none := by
  rw [h.hs i, hx]; rfl

theorem match_ill (h : Sim w s []) : Match (.ok (w, .illTyped)) (.ok (s, .illTyped)) := ⟨rfl, h⟩

theorem match_give {x : Handle} {b : Bound} (h : Sim w s (toks x.owned)) (hb : b = x.bound)
    (ht : ∀ o, x.bound.target = some o → o < w.next) : Match (give x w) (s.give b) := by
  subst hb
  refine ⟨congrArg Out.handle h.nextH.symm, ?_⟩
  refine sim_create (l := []) ?_ ht
  rw [List.append_nil]; exact h

theorem match_replace {i : Nat} {old x : Handle} {b : Bound} (hold : w.hs i = some old) (h : Sim w s (toks x.owned))
    (hb : b = x.bound) (ht : ∀ o, x.bound.target = some o → o < w.next) :
    Match ((replace i x w).bind fun w => .ok (w, .unit)) (.ok (s.set i (some b), .unit)) := by
  subst hb
  obtain ⟨w', h1, h2, _⟩ := sim_replace (l := []) hold (by rw [List.append_nil]; exact h) ht
  rw [h1]
  exact ⟨rfl, h2⟩

/-- Following a handle. -/
theorem deref_match (h : Sim w s []) {i : Nat} {x : Handle} (hx : w.hs i = some x) :
    (∃ o, derefPtr x w = .ok o ∧ s.deref x.bound = .ok o ∧ load o w = .ok (s.val o) ∧
      0 < owners w.hs o w.nextH + ([] : List Nat).count o ∧ o < w.next) ∨
    (∃ e, derefPtr x w = .throw e ∧ s.deref x.bound = .throw e) ∨
    (∃ o, derefPtr x w = .ok o ∧ w.cells o = none ∧ s.deref x.bound = .ub ∧ x = .value (.raw (some o)) ∧
      s.alive o = false) := by
  have owned : ∀ o, x.owned = some o → 0 < owners w.hs o w.nextH + ([] : List Nat).count o :=
    fun o ho => h.holds hx ho
  cases x with
  | value p =>
    cases p with
    | shared p =>
      cases p with
      | none => exact Or.inr (Or.inl ⟨_, rfl, rfl⟩)
      | some o => exact Or.inl ⟨o, rfl, rfl, sim_load h (owned o rfl), owned o rfl, h.target _ _ o hx rfl⟩
    | raw p =>
      cases p with
      | none => exact Or.inr (Or.inl ⟨_, rfl, rfl⟩)
      | some o =>
        have ha := h.alive_iff o
        cases hc : w.cells o with
        | none =>
          rw [hc] at ha
          refine Or.inr (Or.inr ⟨o, rfl, hc, ?_, rfl, ha⟩)
          show (if s.alive o then Res.ok o else .ub) = _
          rw [ha]; rfl
        | some c =>
          rw [hc] at ha
          have hp : 0 < owners w.hs o w.nextH + ([] : List Nat).count o := by
            have := (alive_iff_owned h o).mp ha
            omega
          refine Or.inl ⟨o, rfl, ?_, sim_load h hp, hp, h.target _ _ o hx rfl⟩
          show (if s.alive o then Res.ok o else .ub) = _
          rw [ha]; rfl
  | strong p =>
    cases p with
    | none => exact Or.inr (Or.inl ⟨_, rfl, rfl⟩)
    | some o => exact Or.inl ⟨o, rfl, rfl, sim_load h (owned o rfl), owned o rfl, h.target _ _ o hx rfl⟩
  | weak p =>
    cases p with
    | none => exact Or.inr (Or.inl ⟨_, rfl, rfl⟩)
    | some o =>
      have ha := h.alive_iff o
      cases hc : w.cells o with
      | none =>
        rw [hc] at ha
        refine Or.inr (Or.inl ⟨.expiredReference, ?_, ?_⟩)
        · show (if (w.cells o).isNone then _ else _) = _
          rw [hc]; rfl
        · show (if s.alive o then Res.ok o else .throw .expiredReference) = _
          rw [ha]; rfl
      | some c =>
        rw [hc] at ha
        have hp : 0 < owners w.hs o w.nextH + ([] : List Nat).count o := by
          have := (alive_iff_owned h o).mp ha
          omega
        refine Or.inl ⟨o, ?_, ?_, sim_load h hp, hp, h.target _ _ o hx rfl⟩
        · simp only [derefPtr, weakExpired, lockGet, hc]; rfl
        · show (if s.alive o then Res.ok o else .throw .expiredReference) = _
          rw [ha]; rfl

/-- Making a counted pointer from a value reference. -/
theorem asShared_match (h : Sim w s []) {i : Nat} {p : VPtr} (hx : w.hs i = some (.value p)) :
    (∃ t w', asShared p w = .ok (t, w') ∧ s.shared (Handle.value p).bound = .ok t ∧ Sim w' s (toks t) ∧
      w'.hs = w.hs ∧ w'.nextH = w.nextH ∧ w'.next = w.next ∧ ∀ o, t = some o → o < w.next) ∨
    (∃ e, asShared p w = .throw e ∧ s.shared (Handle.value p).bound = .throw e) ∨
    (asShared p w = .ub ∧ s.shared (Handle.value p).bound = .ub) := by
  cases p with
  | shared p =>
    obtain ⟨w', h1, h2, h3, h4, h5⟩ := sim_retain? h (p := p) (fun o ho => h.holds hx (by rw [ho]; rfl))
    rw [List.append_nil] at h2
    refine Or.inl ⟨p, w', ?_, rfl, h2, h3, h4, h5, fun o ho => h.target _ _ o hx (by rw [ho]; rfl)⟩
    show (retain? p w).bind _ = _
    rw [h1]; rfl
  | raw p =>
    cases p with
    | none => exact Or.inr (Or.inl ⟨_, rfl, rfl⟩)
    | some o =>
      have ha := h.alive_iff o
      cases hc : w.cells o with
      | none =>
        rw [hc] at ha
        refine Or.inr (Or.inr ⟨?_, ?_⟩)
        · simp only [asShared, retain, hc]; rfl
        · show (if s.alive o then Res.ok (some o) else .ub) = _
          rw [ha]; rfl
      | some c =>
        rw [hc] at ha
        obtain ⟨w', h1, h2, h3, h4, h5⟩ := sim_retain h (o := o) (by
          have := (alive_iff_owned h o).mp ha
          omega)
        refine Or.inl ⟨some o, w', ?_, ?_, h2, h3, h4, h5, ?_⟩
        · show (retain o w).bind _ = _
          rw [h1]; rfl
        · show (if s.alive o then Res.ok (some o) else .ub) = _
          rw [ha]; rfl
        · intro o' ho'
          cases ho'
          exact h.target _ _ o hx rfl

theorem lock_match (h : Sim w s []) {i : Nat} {p : Option Nat} (hx : w.hs i = some (.weak p)) :
    ∃ t w', lock p w = .ok (t, w') ∧ s.shared ⟨.weak, p⟩ = .ok t ∧ Sim w' s (toks t) ∧
      w'.next = w.next ∧ ∀ o, t = some o → o < w.next := by
  cases p with
  | none => exact ⟨none, w, rfl, rfl, h, rfl, fun o ho => nomatch ho⟩
  | some o =>
    have ha := h.alive_iff o
    cases hc : w.cells o with
    | none =>
      rw [hc] at ha
      refine ⟨none, w, ?_, ?_, h, rfl, fun o ho => nomatch ho⟩
      · simp only [lock, lockGet, hc]
      · show Res.ok ((some o).filter s.alive) = _
        simp [Option.filter, ha]
    | some c =>
      rw [hc] at ha
      obtain ⟨w', h1, h2, h3, h4, h5⟩ := sim_retain h (o := o) (by
        have := (alive_iff_owned h o).mp ha
        omega)
      refine ⟨some o, w', ?_, ?_, h2, h5, ?_⟩
      · simp only [lock, lockGet, hc, h1]; rfl
      · show Res.ok ((some o).filter s.alive) = _
        simp [Option.filter, ha]
      · intro o' ho'
        cases ho'
        exact h.target _ _ o hx rfl

theorem vptr_get (p : VPtr) : (Handle.value p).bound.target = p.get := by cases p <;> rfl
theorem vptr_kind (p : VPtr) : (Handle.value p).bound.kind.isValue = true := by cases p <;> rfl

theorem deref_some {p : VPtr} {o : Nat} (h : p.get = some o) : derefPtr (.value p) w = .ok o := by
  cases p <;> (simp only [VPtr.get] at h; subst h; rfl)

theorem vbound_some {p : VPtr} {o : Nat} (h : p.get = some o) :
    (⟨(Handle.value p).bound.kind, some o⟩ : Bound) = (Handle.value p).bound := by
  rw [← h, ← vptr_get]

/-- Reading through a non-null value reference: its value, or undefined on both sides. -/
theorem value_access (h : Sim w s []) {i : Nat} {p : VPtr} {o : Nat} (hx : w.hs i = some (.value p))
    (hg : p.get = some o) :
    (s.deref (Handle.value p).bound = .ok o ∧ load o w = .ok (s.val o) ∧
      0 < owners w.hs o w.nextH + ([] : List Nat).count o) ∨
    (s.deref (Handle.value p).bound = .ub ∧ w.cells o = none) := by
  have hd := deref_some (w := w) hg
  rcases deref_match h hx with ⟨o', a, b, c, d, _⟩ | ⟨e, a, b⟩ | ⟨o', a, b, c, _⟩
  · rw [hd] at a; injection a with a; subst a
    exact Or.inl ⟨b, c, d⟩
  · rw [hd] at a; cases a
  · rw [hd] at a; injection a with a; subst a
    exact Or.inr ⟨c, b⟩

theorem target_in (h : Sim w s []) {i : Nat} {x : Handle} (hx : w.hs i = some x) :
    ∀ o, x.bound.target = some o → o < w.next := fun o ho => h.target i x o hx ho

theorem match_assignValue (h : Sim w s []) {d : Nat} {p : VPtr} (v : Nat) (hx : w.hs d = some (.value p)) :
    (∃ w' s', assignValue d p v w = .ok w' ∧ s.assignValue d (Handle.value p).bound v = .ok s' ∧ Sim w' s' [] ∧
      (p.get ≠ none → w'.hs = w.hs)) ∨
    (assignValue d p v w = .ub ∧ s.assignValue d (Handle.value p).bound v = .ub) := by
  cases hg : p.get with
  | none =>
    have hb : (Handle.value p).bound.target = none := by rw [vptr_get, hg]
    obtain ⟨w', h1, h2, _⟩ := sim_replace (w := make v w) (s := s.fresh v) (l := []) (i := d) (old := .value p)
      (x := .value (.shared (some w.next))) hx (sim_make h v) (fun o ho => by cases ho; exact Nat.lt_succ_self _)
    refine Or.inl ⟨w', _, ?_, ?_, h2, fun hn => absurd rfl hn⟩
    · simp only [assignValue, hg]; exact h1
    · simp only [Ideal.assignValue, hb, h.next]; rfl
  | some o =>
    have hb : (Handle.value p).bound.target = some o := by rw [vptr_get, hg]
    rcases value_access h hx hg with ⟨a, b, c⟩ | ⟨a, b⟩
    · obtain ⟨w', h1, h2, h3⟩ := sim_store h v c
      refine Or.inl ⟨w', s.put o v, ?_, ?_, h2, fun _ => h3⟩
      · simp only [assignValue, hg]; exact h1
      · simp only [Ideal.assignValue, hb]
        rw [vbound_some hg, a]; rfl
    · refine Or.inr ⟨?_, ?_⟩
      · simp only [assignValue, hg, store, b]
      · simp only [Ideal.assignValue, hb]
        rw [vbound_some hg, a]; rfl

theorem set_set (s : Ideal) (i : Nat) (a b : Option Bound) : (s.set i a).set i b = s.set i b := by
  simp only [Ideal.set]
  congr 1
  funext j
  by_cases h : j = i <;> simp [h]

theorem set_comm (s : Ideal) {i j : Nat} (a b : Option Bound) (h : i ≠ j) :
    (s.set i a).set j b = (s.set j b).set i a := by
  simp only [Ideal.set]
  congr 1
  funext k
  by_cases h1 : k = i
  · subst h1; simp [h]
  · simp [h1]

theorem match_assignVV (mv : Bool) (h : Sim w s []) {d c : Nat} {pd pc : VPtr} (hd : w.hs d = some (.value pd))
    (hc : w.hs c = some (.value pc)) :
    Match ((assignVV mv d c pd pc w).bind fun w => .ok (w, .unit))
      (s.assign mv d c (Handle.value pd).bound (Handle.value pc).bound) := by
  simp only [Ideal.assign, vptr_kind, Bool.and_self, if_true, vptr_get]
  unfold assignVV
  by_cases he : d = c
  · rw [if_pos he, if_pos he]; exact ⟨rfl, h⟩
  rw [if_neg he, if_neg he]
  cases hg : pc.get with
  | none =>
    rw [if_pos rfl]
    exact match_replace hd h rfl (fun o ho => nomatch ho)
  | some oc =>
    rw [if_neg (fun hn => nomatch hn)]
    dsimp only
    have hpk : s.peek (Handle.value pc).bound = (s.deref (Handle.value pc).bound).bind fun o => .ok (some (s.val o)) := by
      simp only [Ideal.peek]
      rw [vptr_get, hg]
      dsimp only
      rw [vbound_some hg]
    rw [hpk]
    rcases value_access h hc hg with ⟨a, b, cc⟩ | ⟨a, b⟩
    · rw [a, b]
      dsimp only [Res.bind, Option.getD]
      cases hgd : pd.get with
      | none =>
        have hb : (Handle.value pd).bound.target = none := by rw [vptr_get, hgd]
        obtain ⟨w', h1, h2, _⟩ := sim_replace (w := make (s.val oc) w) (s := s.fresh (s.val oc)) (l := []) (i := d)
          (old := .value pd) (x := .value (.shared (some w.next))) hd (sim_make h _)
          (fun o ho => by cases ho; exact Nat.lt_succ_self _)
        dsimp only
        rw [h1]
        have : s.assignValue d (Handle.value pd).bound (s.val oc) =
            .ok ((s.fresh (s.val oc)).set d (some ⟨.value, some w.next⟩)) := by
          simp only [Ideal.assignValue, hb, h.next]
        rw [this]
        refine ⟨rfl, ?_⟩
        simp only [bne_self_eq_false, Bool.and_false]
        exact h2
      | some od =>
        dsimp only
        rcases value_access h hd hgd with ⟨a', b', cc'⟩ | ⟨a', b'⟩
        · obtain ⟨w', h1, h2, h3⟩ := sim_store h (s.val oc) cc'
          rw [h1]
          have : s.assignValue d (Handle.value pd).bound (s.val oc) = .ok (s.put od (s.val oc)) := by
            simp only [Ideal.assignValue]
            rw [vptr_get, hgd]
            dsimp only
            rw [vbound_some hgd, a']; rfl
          rw [this]
          dsimp only [Res.bind]
          cases mv with
          | false => exact ⟨rfl, h2⟩
          | true =>
            rw [if_pos rfl]
            obtain ⟨w'', g1, g2, _⟩ := sim_replace (l := []) (i := c) (old := .value pc) (x := .value (.raw none))
              (w := w') (by rw [h3]; exact hc) h2 (fun o ho => nomatch ho)
            rw [g1]
            exact ⟨rfl, g2⟩
        · have e1 : store od (s.val oc) w = .ub := by simp only [store, b']
          have e2 : s.assignValue d (Handle.value pd).bound (s.val oc) = .ub := by
            simp only [Ideal.assignValue]
            rw [vptr_get, hgd]
            dsimp only
            rw [vbound_some hgd, a']; rfl
          rw [e1, e2]
          trivial
    · have e1 : load oc w = .ub := by simp only [load, b]
      rw [e1, a]
      trivial

theorem match_assignVS (mv : Bool) (h : Sim w s []) {d c : Nat} {pd : VPtr} {pc : Option Nat}
    (hd : w.hs d = some (.value pd)) (hc : w.hs c = some (.strong pc)) :
    Match ((assignVS mv d c pd pc w).bind fun w => .ok (w, .unit))
      (s.assign mv d c (Handle.value pd).bound ⟨.strong, pc⟩) := by
  have hne : d ≠ c := by intro he; subst he; rw [hd] at hc; cases hc
  have ht := target_in h hc
  have hsp : s.assign mv d c (Handle.value pd).bound ⟨.strong, pc⟩ =
      .ok (if mv then (if pd.get = pc then s else s.set d (some ⟨.value, pc⟩)).set c (some ⟨.strong, none⟩)
        else (if pd.get = pc then s else s.set d (some ⟨.value, pc⟩)), .unit) := by
    simp only [Ideal.assign, vptr_kind, vptr_get]
    rfl
  rw [hsp]
  unfold assignVS
  cases mv with
  | false =>
    obtain ⟨w', h1, h2, h3, h4, h5⟩ := sim_retain? h (p := pc) (fun o ho => h.holds hc (by rw [ho]; rfl))
    rw [List.append_nil] at h2
    show Match (Res.bind ((retain? pc w).bind _) _) _
    rw [h1]
    dsimp only [Res.bind]
    by_cases he : pd.get = pc
    · rw [if_pos he]
      obtain ⟨w'', g1, g2, _⟩ := sim_release? (l := []) (p := pc) (by rw [List.append_nil]; exact h2)
      rw [g1, if_neg (by simp), if_pos he]
      exact ⟨rfl, g2⟩
    · rw [if_neg he, if_neg (by simp), if_neg he]
      exact match_replace (x := .value (.shared pc)) (old := .value pd) (by rw [h3]; exact hd) h2 rfl
        (by rw [h5]; exact ht)
  | true =>
    have hset := sim_set (l := []) (x := .strong none) hc h (fun o ho => nomatch ho)
    show Match (Res.bind (if pd.get = pc then release? pc { w with hs := upd w.hs c (some (.strong none)) }
      else replace d (.value (.shared pc)) { w with hs := upd w.hs c (some (.strong none)) }) _)
      (Res.ok ((if pd.get = pc then s else s.set d (some ⟨.value, pc⟩)).set c (some ⟨.strong, none⟩), .unit))
    have hd' : upd w.hs c (some (.strong none)) d = some (.value pd) := by rw [upd_ne _ _ hne]; exact hd
    by_cases he : pd.get = pc
    · rw [if_pos he, if_pos he]
      obtain ⟨w'', g1, g2, _⟩ := sim_release? (l := []) (p := pc) hset
      show Match (Res.bind (release? pc _) _) _
      rw [g1]
      exact ⟨rfl, g2⟩
    · rw [if_neg he, if_neg he, set_comm s _ _ hne]
      rw [List.append_nil] at hset
      exact match_replace (x := .value (.shared pc)) (old := .value pd) hd' hset rfl ht

theorem match_strong_value (mv : Bool) (h : Sim w s []) {d c : Nat} {p : Option Nat} {pc : VPtr}
    (hd : w.hs d = some (.strong p)) (hc : w.hs c = some (.value pc)) :
    Match (assign mv d c (.strong p) (.value pc) w) (s.assign mv d c ⟨.strong, p⟩ (Handle.value pc).bound) := by
  have hsp : s.assign mv d c ⟨.strong, p⟩ (Handle.value pc).bound =
      (s.shared (Handle.value pc).bound).bind fun t => .ok (s.set d (some ⟨.strong, t⟩), .unit) := by
    simp only [Ideal.assign, vptr_kind]; rfl
  rw [hsp]
  simp only [assign]
  rcases asShared_match h hc with ⟨t, w', h1, h2, h3, h4, h5, h6, h7⟩ | ⟨e, h1, h2⟩ | ⟨h1, h2⟩
  · rw [h1, h2]
    exact match_replace (x := .strong t) (old := .strong p) (by rw [h4]; exact hd) h3 rfl (by rw [h6]; exact h7)
  · rw [h1, h2]; rfl
  · rw [h1, h2]; trivial

theorem match_weak_value (mv : Bool) (h : Sim w s []) {d c : Nat} {p : Option Nat} {pc : VPtr}
    (hd : w.hs d = some (.weak p)) (hc : w.hs c = some (.value pc)) :
    Match (assign mv d c (.weak p) (.value pc) w) (s.assign mv d c ⟨.weak, p⟩ (Handle.value pc).bound) := by
  have hsp : s.assign mv d c ⟨.weak, p⟩ (Handle.value pc).bound =
      (s.shared (Handle.value pc).bound).bind fun t => .ok (s.set d (some ⟨.weak, t⟩), .unit) := by
    simp only [Ideal.assign, vptr_kind]; rfl
  rw [hsp]
  simp only [assign]
  rcases asShared_match h hc with ⟨t, w', h1, h2, h3, h4, h5, h6, h7⟩ | ⟨e, h1, h2⟩ | ⟨h1, h2⟩
  · rw [h1, h2]
    dsimp only [Res.bind]
    obtain ⟨w'', g1, g2, _⟩ := sim_replace (w := w') (x := .weak t) (old := .weak p) (l := toks t) (i := d)
      (by rw [h4]; exact hd) h3 (by rw [h6]; exact h7)
    rw [g1]
    obtain ⟨w3, k1, k2, _⟩ := sim_release? (l := []) (p := t) (by rw [List.append_nil]; exact g2)
    dsimp only
    rw [k1]
    exact ⟨rfl, k2⟩
  · rw [h1, h2]; rfl
  · rw [h1, h2]; trivial

theorem match_strong_strong (mv : Bool) (h : Sim w s []) {d c : Nat} {p q : Option Nat}
    (hd : w.hs d = some (.strong p)) (hc : w.hs c = some (.strong q)) :
    Match (assign mv d c (.strong p) (.strong q) w) (s.assign mv d c ⟨.strong, p⟩ ⟨.strong, q⟩) := by
  have ht := target_in h hc
  have hsp : s.assign mv d c ⟨.strong, p⟩ ⟨.strong, q⟩ = if d = c then .ok (s, .unit) else
      .ok (if mv then (s.set d (some ⟨.strong, q⟩)).set c (some ⟨.strong, none⟩) else s.set d (some ⟨.strong, q⟩), .unit) := rfl
  rw [hsp]
  simp only [assign]
  by_cases he : d = c
  · rw [if_pos he, if_pos he]; exact ⟨rfl, h⟩
  rw [if_neg he, if_neg he]
  cases mv with
  | false =>
    obtain ⟨w', h1, h2, h3, h4, h5⟩ := sim_retain? h (p := q) (fun o ho => h.holds hc (by rw [ho]; rfl))
    rw [List.append_nil] at h2
    rw [if_neg (by simp), h1, if_neg (by simp)]
    exact match_replace (x := .strong q) (old := .strong p) (by rw [h3]; exact hd) h2 rfl (by rw [h5]; exact ht)
  | true =>
    have hset := sim_set (l := []) (x := .strong none) hc h (fun o ho => nomatch ho)
    rw [List.append_nil] at hset
    have hd' : upd w.hs c (some (.strong none)) d = some (.strong p) := by rw [upd_ne _ _ he]; exact hd
    rw [if_pos rfl, if_pos rfl, set_comm s _ _ he]
    exact match_replace (x := .strong q) (old := .strong p) hd' hset rfl ht

theorem match_weak_weak (mv : Bool) (h : Sim w s []) {d c : Nat} {p q : Option Nat}
    (hd : w.hs d = some (.weak p)) (hc : w.hs c = some (.weak q)) :
    Match (assign mv d c (.weak p) (.weak q) w) (s.assign mv d c ⟨.weak, p⟩ ⟨.weak, q⟩) := by
  have ht := target_in h hc
  have hsp : s.assign mv d c ⟨.weak, p⟩ ⟨.weak, q⟩ = if d = c then .ok (s, .unit) else
      .ok (if mv then (s.set d (some ⟨.weak, q⟩)).set c (some ⟨.weak, none⟩) else s.set d (some ⟨.weak, q⟩), .unit) := rfl
  rw [hsp]
  simp only [assign]
  by_cases he : d = c
  · rw [if_pos he, if_pos he]; exact ⟨rfl, h⟩
  rw [if_neg he, if_neg he]
  obtain ⟨w', h1, h2, h3, h4, h5⟩ := sim_replace (x := .weak q) (old := .weak p) (l := []) hd h ht
  rw [h1]
  dsimp only [Res.bind]
  cases mv with
  | false => exact ⟨rfl, h2⟩
  | true =>
    rw [if_pos rfl, if_pos rfl]
    refine match_replace (x := .weak none) (old := .weak q) ?_ h2 rfl (fun o ho => nomatch ho)
    rw [h3, upd_ne _ _ (fun hh => he hh.symm)]
    exact hc

theorem match_weak_strong (mv : Bool) (h : Sim w s []) {d c : Nat} {p q : Option Nat}
    (hd : w.hs d = some (.weak p)) (hc : w.hs c = some (.strong q)) :
    Match (assign mv d c (.weak p) (.strong q) w) (s.assign mv d c ⟨.weak, p⟩ ⟨.strong, q⟩) :=
  match_replace (x := .weak q) (old := .weak p) hd h rfl (fun o ho => target_in h hc o ho)

theorem match_assign (mv : Bool) (h : Sim w s []) {d c : Nat} {xd xc : Handle} (hd : w.hs d = some xd)
    (hc : w.hs c = some xc) : Match (assign mv d c xd xc w) (s.assign mv d c xd.bound xc.bound) := by
  cases xd with
  | value pd =>
    cases xc with
    | value pc => exact match_assignVV mv h hd hc
    | strong pc => exact match_assignVS mv h hd hc
    | weak pc => cases pd <;> exact match_ill h
  | strong pd =>
    cases xc with
    | value pc => exact match_strong_value mv h hd hc
    | strong pc => exact match_strong_strong mv h hd hc
    | weak pc => exact match_ill h
  | weak pd =>
    cases xc with
    | value pc => exact match_weak_value mv h hd hc
    | strong pc => exact match_weak_strong mv h hd hc
    | weak pc => exact match_weak_weak mv h hd hc

theorem match_step (h : Sim w s []) (op : Op) : Match (step w op) (s.step op) := by
  have newTok : ∀ v, ∀ o, some w.next = some o → o < (make v w).next := fun v o ho => by
    cases ho; exact Nat.lt_succ_self _
  cases op with
  | newValue v =>
    simp only [step, Ideal.step]
    exact match_give (sim_make h v) (by rw [h.next]; rfl) (newTok v)
  | newStrong v =>
    simp only [step, Ideal.step]
    exact match_give (sim_make h v) (by rw [h.next]; rfl) (newTok v)
  | nullStrong => exact match_give (x := .strong none) h rfl (fun o ho => nomatch ho)
  | nullWeak => exact match_give (x := .weak none) h rfl (fun o ho => nomatch ho)
  | selfOf i =>
    simp only [step, Ideal.step]
    cases hx : w.hs i with
    | none => rw [h.noslot hx]; exact match_ill h
    | some x =>
      rw [h.slot hx]
      dsimp only
      rcases deref_match h hx with ⟨o, a, b, c, d, e⟩ | ⟨e, a, b⟩ | ⟨o, a, b, c, _⟩
      · rw [a, b]
        dsimp only [Res.bind]
        rw [c]
        exact match_give (x := .value (.raw (some o))) h rfl (fun o' ho' => by cases ho'; exact e)
      · rw [a, b]; rfl
      · rw [a, c]
        simp only [Res.bind, load, b]; trivial
  | copyValue i =>
    simp only [step, Ideal.step]
    cases hx : w.hs i with
    | none => rw [h.noslot hx]; exact match_ill h
    | some x =>
      rw [h.slot hx]
      cases x with
      | strong p => exact match_ill h
      | weak p => exact match_ill h
      | value p =>
        dsimp only
        rw [if_pos (vptr_kind p)]
        cases hg : p.get with
        | none =>
          have : s.peek (Handle.value p).bound = .ok none := by simp only [Ideal.peek]; rw [vptr_get, hg]
          rw [this]
          exact match_give (x := .value (.shared none)) h rfl (fun o ho => nomatch ho)
        | some o =>
          have hpk : s.peek (Handle.value p).bound =
              (s.deref (Handle.value p).bound).bind fun o => .ok (some (s.val o)) := by
            simp only [Ideal.peek]
            rw [vptr_get, hg]
            dsimp only
            rw [vbound_some hg]
          rw [hpk]
          rcases value_access h hx hg with ⟨a, b, _⟩ | ⟨a, b⟩
          · rw [a]
            dsimp only [Res.bind]
            rw [b]
            exact match_give (sim_make h _) (by rw [h.next]; rfl) (newTok _)
          · rw [a]
            simp only [Res.bind, load, b]; trivial
  | move i =>
    simp only [step, Ideal.step]
    cases hx : w.hs i with
    | none => rw [h.noslot hx]; exact match_ill h
    | some x =>
      rw [h.slot hx]
      have ht := target_in h hx
      cases x with
      | strong p =>
        have hset := sim_set (l := []) (x := .strong none) hx h (fun o ho => nomatch ho)
        rw [List.append_nil] at hset
        exact match_give (x := .strong p) hset rfl ht
      | weak p =>
        have hset := sim_set (l := []) (x := .weak none) hx h (fun o ho => nomatch ho)
        exact match_give (x := .weak p) hset rfl ht
      | value p =>
        cases p with
        | shared p =>
          have hset := sim_set (l := []) (x := .value (.shared none)) hx h (fun o ho => nomatch ho)
          rw [List.append_nil] at hset
          exact match_give (x := .value (.shared p)) hset rfl ht
        | raw p => exact match_give (x := .value (.raw p)) h rfl ht
  | strongOf i =>
    simp only [step, Ideal.step]
    cases hx : w.hs i with
    | none => rw [h.noslot hx]; exact match_ill h
    | some x =>
      rw [h.slot hx]
      have ht := target_in h hx
      cases x with
      | weak p => exact match_ill h
      | strong p =>
        obtain ⟨w', h1, h2, h3, h4, h5⟩ := sim_retain? h (p := p) (fun o ho => h.holds hx (by rw [ho]; rfl))
        rw [List.append_nil] at h2
        dsimp only
        rw [h1]
        exact match_give (x := .strong p) h2 rfl (by rw [h5]; exact ht)
      | value p =>
        dsimp only
        have hk : (Handle.value p).bound.kind ≠ .weak := by cases p <;> (intro hh; cases hh)
        rw [if_neg hk]
        rcases asShared_match h hx with ⟨t, w', h1, h2, h3, h4, h5, h6, h7⟩ | ⟨e, h1, h2⟩ | ⟨h1, h2⟩
        · rw [h1, h2]
          exact match_give (x := .strong t) h3 rfl (by rw [h6]; exact h7)
        · rw [h1, h2]; rfl
        · rw [h1, h2]; trivial
  | weakOf i =>
    simp only [step, Ideal.step]
    cases hx : w.hs i with
    | none => rw [h.noslot hx]; exact match_ill h
    | some x =>
      rw [h.slot hx]
      have ht := target_in h hx
      cases x with
      | weak p => exact match_give (x := .weak p) h rfl ht
      | strong p => exact match_give (x := .weak p) h rfl ht
      | value p =>
        dsimp only
        have hk : (Handle.value p).bound.kind ≠ .weak := by cases p <;> (intro hh; cases hh)
        rw [if_neg hk]
        rcases asShared_match h hx with ⟨t, w', h1, h2, h3, h4, h5, h6, h7⟩ | ⟨e, h1, h2⟩ | ⟨h1, h2⟩
        · rw [h1, h2]
          obtain ⟨w3, k1, k2, k3, k4, k5⟩ := sim_release? (l := []) (p := t) (by rw [List.append_nil]; exact h3)
          dsimp only [Res.bind]
          rw [k1]
          exact match_give (x := .weak t) k2 rfl (by rw [k5, h6]; exact h7)
        · rw [h1, h2]; rfl
        · rw [h1, h2]; trivial
  | valueOf i =>
    simp only [step, Ideal.step]
    cases hx : w.hs i with
    | none => rw [h.noslot hx]; exact match_ill h
    | some x =>
      rw [h.slot hx]
      have ht := target_in h hx
      cases x with
      | value p =>
        dsimp only
        rw [if_pos (vptr_kind p)]
        exact match_ill h
      | strong p =>
        obtain ⟨w', h1, h2, h3, h4, h5⟩ := sim_retain? h (p := p) (fun o ho => h.holds hx (by rw [ho]; rfl))
        rw [List.append_nil] at h2
        dsimp only
        rw [h1]
        exact match_give (x := .value (.shared p)) h2 rfl (by rw [h5]; exact ht)
      | weak p =>
        obtain ⟨t, w', h1, h2, h3, h4, h5⟩ := lock_match h hx
        dsimp only
        rw [h1]
        rw [if_neg (by simp [Handle.bound, Kind.isValue]), show (Handle.weak p).bound = ⟨.weak, p⟩ from rfl, h2]
        exact match_give (x := .value (.shared t)) h3 rfl (by rw [h4]; exact h5)
  | assignT i v =>
    simp only [step, Ideal.step]
    cases hx : w.hs i with
    | none => rw [h.noslot hx]; exact match_ill h
    | some x =>
      rw [h.slot hx]
      cases x with
      | weak p => exact match_ill h
      | strong p =>
        show Match ((replace i _ _).bind _) (.ok ((s.fresh v).set i (some ⟨.strong, some s.next⟩), .unit))
        rw [h.next]
        exact match_replace (w := make v w) (x := .strong (some w.next)) (old := .strong p) hx (sim_make h v) rfl
          (newTok v)
      | value p =>
        dsimp only
        rw [if_pos (vptr_kind p)]
        rcases match_assignValue h v hx with ⟨w', s', h1, h2, h3, _⟩ | ⟨h1, h2⟩
        · rw [h1, h2]; exact ⟨rfl, h3⟩
        · rw [h1, h2]; trivial
  | assign d c =>
    simp only [step, Ideal.step]
    cases hd : w.hs d with
    | none => rw [h.noslot hd]; exact match_ill h
    | some xd =>
      rw [h.slot hd]
      cases hc : w.hs c with
      | none => rw [h.noslot hc]; exact match_ill h
      | some xc =>
        rw [h.slot hc]
        exact match_assign false h hd hc
  | assignMove d c =>
    simp only [step, Ideal.step]
    cases hd : w.hs d with
    | none => rw [h.noslot hd]; exact match_ill h
    | some xd =>
      rw [h.slot hd]
      cases hc : w.hs c with
      | none => rw [h.noslot hc]; exact match_ill h
      | some xc =>
        rw [h.slot hc]
        exact match_assign true h hd hc
  | reset i =>
    simp only [step, Ideal.step]
    cases hx : w.hs i with
    | none => rw [h.noslot hx]; exact match_ill h
    | some x =>
      rw [h.slot hx]
      cases x with
      | weak p => exact match_replace (x := .weak none) hx h rfl (fun o ho => nomatch ho)
      | strong p => exact match_replace (x := .strong none) hx h rfl (fun o ho => nomatch ho)
      | value p =>
        cases p <;> exact match_replace (x := .value (.shared none)) hx h rfl (fun o ho => nomatch ho)
  | read i =>
    simp only [step, Ideal.step]
    cases hx : w.hs i with
    | none => rw [h.noslot hx]; exact match_ill h
    | some x =>
      rw [h.slot hx]
      dsimp only
      rcases deref_match h hx with ⟨o, a, b, c, d, e⟩ | ⟨e, a, b⟩ | ⟨o, a, b, c, _⟩
      · rw [a, b]
        dsimp only [Res.bind]
        rw [c]
        exact ⟨rfl, h⟩
      · rw [a, b]; rfl
      · rw [a, c]
        simp only [Res.bind, load, b]; trivial
  | write i v =>
    simp only [step, Ideal.step]
    cases hx : w.hs i with
    | none => rw [h.noslot hx]; exact match_ill h
    | some x =>
      rw [h.slot hx]
      dsimp only
      rcases deref_match h hx with ⟨o, a, b, c, d, e⟩ | ⟨e, a, b⟩ | ⟨o, a, b, c, _⟩
      · rw [a, b]
        obtain ⟨w', h1, h2, _⟩ := sim_store h v d
        dsimp only [Res.bind]
        rw [h1]
        exact ⟨rfl, h2⟩
      · rw [a, b]; rfl
      · rw [a, c]
        simp only [Res.bind, store, b]; trivial
  | isNull i =>
    simp only [step, Ideal.step]
    cases hx : w.hs i with
    | none => rw [h.noslot hx]; exact match_ill h
    | some x =>
      rw [h.slot hx]
      cases x with
      | value p =>
        refine ⟨?_, h⟩
        cases p with
        | shared p => cases p <;> rfl
        | raw p => cases p <;> rfl
      | strong p => exact ⟨by cases p <;> rfl, h⟩
      | weak p =>
        refine ⟨?_, h⟩
        congr 1
        cases p with
        | none => rfl
        | some o =>
          show weakNull (some o) w = !s.alive o
          rw [h.alive_iff o]
          simp only [weakNull, lockGet]
          cases w.cells o <;> rfl
  | isExpired i =>
    simp only [step, Ideal.step]
    cases hx : w.hs i with
    | none => rw [h.noslot hx]; exact match_ill h
    | some x =>
      rw [h.slot hx]
      cases x with
      | value p => cases p <;> exact match_ill h
      | strong p => exact match_ill h
      | weak p =>
        refine ⟨?_, h⟩
        congr 1
        cases p with
        | none => rfl
        | some o =>
          show (w.cells o).isNone = !s.alive o
          rw [h.alive_iff o]
          cases w.cells o <;> rfl
  | equal i j =>
    simp only [step, Ideal.step]
    cases hx : w.hs i with
    | none => rw [h.noslot hx]; exact match_ill h
    | some x =>
      rw [h.slot hx]
      cases hy : w.hs j with
      | none => rw [h.noslot hy]; cases x <;> exact match_ill h
      | some y =>
        rw [h.slot hy]
        dsimp only
        cases x with
        | strong p => exact match_ill h
        | weak p => exact match_ill h
        | value p =>
          cases y with
          | strong q => cases p <;> exact match_ill h
          | weak q => cases p <;> exact match_ill h
          | value q =>
            dsimp only
            rw [vptr_kind, vptr_kind, if_pos (by rfl), vptr_get, vptr_get]
            cases hp : p.get with
            | none =>
              have : p.safeGet = .throw .nullReference := by
                cases p <;> (simp only [VPtr.get] at hp; subst hp; rfl)
              rw [this, if_pos (Or.inl rfl)]; rfl
            | some o =>
              have e1 : p.safeGet = .ok o := deref_some (w := w) hp
              rw [e1]
              cases hq : q.get with
              | none =>
                have : q.safeGet = .throw .nullReference := by
                  cases q <;> (simp only [VPtr.get] at hq; subst hq; rfl)
                rw [this, if_pos (Or.inr rfl)]; rfl
              | some o' =>
                have e2 : q.safeGet = .ok o' := deref_some (w := w) hq
                rw [e2, if_neg (by simp)]
                dsimp only [Res.bind]
                rcases value_access h hx hp with ⟨a, b, _⟩ | ⟨a, b⟩
                · rw [a, b]
                  dsimp only
                  rcases value_access h hy hq with ⟨a', b', _⟩ | ⟨a', b'⟩
                  · rw [a', b']; exact ⟨rfl, h⟩
                  · rw [a']; simp only [load, b']; trivial
                · rw [a]; simp only [load, b]; trivial
  | drop i =>
    simp only [step, Ideal.step]
    cases hx : w.hs i with
    | none => rw [h.noslot hx]; exact match_ill h
    | some x =>
      rw [h.slot hx]
      obtain ⟨w', h1, h2, _⟩ := sim_release? (sim_unset (l := []) hx h)
      dsimp only
      rw [h1]
      exact ⟨rfl, h2⟩

/-- Same outcome of a whole history. -/
def MatchRun : Res (World × List Out) → Res (Ideal × List Out) → Prop
  | .ok (w, o), .ok (s, o') => o = o' ∧ Sim w s []
  | .ub, .ub => True
  | _, _ => False

theorem match_run (ops : List Op) : ∀ {w : World} {s : Ideal}, Sim w s [] → MatchRun (run w ops) (s.run ops) := by
  induction ops with
  | nil => intro w s h; exact ⟨rfl, h⟩
  | cons op ops ih =>
    intro w s h
    have hm := match_step h op
    simp only [run, Ideal.run]
    cases h1 : step w op with
    | ok x =>
      obtain ⟨w', o⟩ := x
      cases h2 : s.step op with
      | ok y =>
        obtain ⟨s', o'⟩ := y
        rw [h1, h2] at hm
        obtain ⟨ho, hs⟩ := hm
        have := ih hs
        dsimp only
        cases h3 : run w' ops with
        | ok x =>
          cases h4 : s'.run ops with
          | ok y => rw [h3, h4] at this; exact ⟨by rw [ho, this.1], this.2⟩
          | throw e => rw [h3, h4] at this; exact this
          | ub => rw [h3, h4] at this; exact this
        | throw e => rw [h3] at this; cases h4 : s'.run ops <;> (rw [h4] at this; exact this.elim)
        | ub =>
          cases h4 : s'.run ops with
          | ok y => rw [h3, h4] at this; exact this
          | throw e => rw [h3, h4] at this; exact this
          | ub => trivial
      | throw e => rw [h1, h2] at hm; exact hm.elim
      | ub => rw [h1, h2] at hm; exact hm.elim
    | throw e =>
      cases h2 : s.step op with
      | ok y => rw [h1, h2] at hm; exact hm.elim
      | throw e' =>
        rw [h1, h2] at hm
        have he : e = e' := hm
        have := ih h
        dsimp only
        cases h3 : run w ops with
        | ok x =>
          cases h4 : s.run ops with
          | ok y => rw [h3, h4] at this; exact ⟨by rw [he, this.1], this.2⟩
          | throw e => rw [h3, h4] at this; exact this
          | ub => rw [h3, h4] at this; exact this
        | throw e => rw [h3] at this; cases h4 : s.run ops <;> (rw [h4] at this; exact this.elim)
        | ub =>
          cases h4 : s.run ops with
          | ok y => rw [h3, h4] at this; exact this
          | throw e => rw [h3, h4] at this; exact this
          | ub => trivial
      | ub => rw [h1, h2] at hm; exact hm.elim
    | ub =>
      cases h2 : s.step op with
      | ok y => rw [h1, h2] at hm; exact hm.elim
      | throw e => rw [h1, h2] at hm; exact hm.elim
      | ub => trivial

end Verif.Ref
