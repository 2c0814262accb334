import Verif.Driver.BatchSpec
/-!
# Batches: commands act on whom they are for, and on nobody else
-/

namespace Verif.Driver
open Verif.Bytes

variable {M : Machine} {K : Type} [DecidableEq K] {fp cp : Str → K}

/-- What refers to something refers to something of the same party. -/
structure Inv (fp cp : Str → K) (w : World M) : Prop where
  conn : ∀ cid c, w.conns cid = some c → fp c.origId = cp cid ∧ fp c.respId = cp cid
  ctx : ∀ id f r, w.flows id = some f → f.ctx = some r → fp r.1 = fp id

/-- Two worlds are the same for a party; the log of the second one is just the party's. -/
structure Agree (fp cp : Str → K) (k : K) (w w' : World M) : Prop where
  flows : ∀ id, fp id = k → w'.flows id = w.flows id
  gen : ∀ id, fp id = k → w'.gen id = w.gen id
  made : ∀ id, fp id = k → w'.made id = w.made id
  ctxs : ∀ id, fp id = k → w'.ctxs id = w.ctxs id
  conns : ∀ cid, cp cid = k → w'.conns cid = w.conns cid
  log : w'.log = w.log.filter (fun x => decide (fp x.1 = k))

/-- Nothing but what belongs to the party has changed. -/
structure Frame (fp cp : Str → K) (p : K) (w w2 : World M) : Prop where
  flows : ∀ id, fp id ≠ p → w2.flows id = w.flows id
  gen : ∀ id, fp id ≠ p → w2.gen id = w.gen id
  made : ∀ id, fp id ≠ p → w2.made id = w.made id
  ctxs : ∀ id, fp id ≠ p → w2.ctxs id = w.ctxs id
  conns : ∀ cid, cp cid ≠ p → w2.conns cid = w.conns cid
  log : ∃ ext, w2.log = w.log ++ ext ∧ ∀ x ∈ ext, fp x.1 = p

omit [DecidableEq K] in
theorem Frame.refl (p : K) (w : World M) : Frame fp cp p w w :=
  ⟨fun _ _ => rfl, fun _ _ => rfl, fun _ _ => rfl, fun _ _ => rfl, fun _ _ => rfl, [], by simp, by intro x hx; cases hx⟩

omit [DecidableEq K] in
theorem Frame.trans {p : K} {a b c : World M} (h : Frame fp cp p a b) (g : Frame fp cp p b c) : Frame fp cp p a c := by
  obtain ⟨x, h1, h2⟩ := h.log
  obtain ⟨y, g1, g2⟩ := g.log
  refine ⟨fun i hi => (g.flows i hi).trans (h.flows i hi), fun i hi => (g.gen i hi).trans (h.gen i hi),
    fun i hi => (g.made i hi).trans (h.made i hi), fun i hi => (g.ctxs i hi).trans (h.ctxs i hi),
    fun i hi => (g.conns i hi).trans (h.conns i hi), x ++ y, ?_, ?_⟩
  · rw [g1, h1, List.append_assoc]
  · intro z hz
    rcases List.mem_append.mp hz with hz | hz
    · exact h2 z hz
    · exact g2 z hz

theorem Agree.frame {p k : K} {w w2 w' : World M} (h : Agree fp cp k w w') (f : Frame fp cp p w w2) (hk : k ≠ p) : Agree fp cp k w2 w' := by
  have ne : ∀ {x : K}, x = k → x ≠ p := fun e e2 => hk (e.symm.trans e2)
  obtain ⟨ext, f1, f2⟩ := f.log
  refine ⟨fun i hi => (h.flows i hi).trans (f.flows i (ne hi)).symm, fun i hi => (h.gen i hi).trans (f.gen i (ne hi)).symm,
    fun i hi => (h.made i hi).trans (f.made i (ne hi)).symm, fun i hi => (h.ctxs i hi).trans (f.ctxs i (ne hi)).symm,
    fun i hi => (h.conns i hi).trans (f.conns i (ne hi)).symm, ?_⟩
  rw [f1, List.filter_append, h.log]
  have : ext.filter (fun x => decide (fp x.1 = k)) = [] := by
    rw [List.filter_eq_nil_iff]
    intro x hx
    rw [f2 x hx]
    simp [Ne.symm hk]
  rw [this, List.append_nil]

/-- The outcomes are the same for a party. -/
inductive SimRes (fp cp : Str → K) (p : K) : Exec (World M) → Exec (World M) → Prop
  | ok {w w'} : Agree fp cp p w w' → SimRes fp cp p (.ok w) (.ok w')
  | stuck : SimRes fp cp p .stuck .stuck
  | ub : SimRes fp cp p .ub .ub

/-- An operation acts only on the party, and only depends on what belongs to it. -/
structure Local (fp cp : Str → K) (p : K) (F : World M → Exec (World M)) : Prop where
  inv : ∀ w w2, Inv fp cp w → F w = .ok w2 → Inv fp cp w2 ∧ Frame fp cp p w w2
  sim : ∀ w w', Inv fp cp w → Agree fp cp p w w' → SimRes fp cp p (F w) (F w')

theorem Local.bind {p : K} {F G : World M → Exec (World M)} (hF : Local fp cp p F) (hG : Local fp cp p G) :
    Local fp cp p (fun w => (F w).bind G) := by
  constructor
  · intro w w2 hi h
    cases hf : F w with
    | ok w1 =>
      rw [hf] at h
      obtain ⟨i1, f1⟩ := hF.inv w w1 hi hf
      obtain ⟨i2, f2⟩ := hG.inv w1 w2 i1 h
      exact ⟨i2, f1.trans f2⟩
    | stuck => rw [hf] at h; cases h
    | ub => rw [hf] at h; cases h
  · intro w w' hi ha
    have hs := hF.sim w w' hi ha
    cases hf : F w with
    | ok w1 =>
      obtain ⟨i1, -⟩ := hF.inv w w1 hi hf
      rw [hf] at hs
      generalize F w' = r at hs
      cases hs with
      | ok h1 => exact hG.sim _ _ i1 h1
    | stuck => rw [hf] at hs; generalize F w' = r at hs; cases hs; exact .stuck
    | ub => rw [hf] at hs; generalize F w' = r at hs; cases hs; exact .ub

theorem Local.ite {p : K} {C : World M → Prop} [∀ w, Decidable (C w)] {F G : World M → Exec (World M)} (hF : Local fp cp p F) (hG : Local fp cp p G)
    (hC : ∀ w w', Agree fp cp p w w' → (C w ↔ C w')) : Local fp cp p (fun w => if C w then F w else G w) := by
  constructor
  · intro w w2 hi h
    split at h
    · exact hF.inv w w2 hi h
    · exact hG.inv w w2 hi h
  · intro w w' hi ha
    have := hC w w' ha
    by_cases hc : C w
    · rw [if_pos hc, if_pos (this.mp hc)]; exact hF.sim w w' hi ha
    · rw [if_neg hc, if_neg (fun x => hc (this.mpr x))]; exact hG.sim w w' hi ha

theorem Local.const {p : K} {r : Exec (World M)} (hr : ∀ w, r ≠ .ok w) : Local fp cp p (fun _ => r) := by
  constructor
  · intro w w2 _ h; exact absurd h (hr w2)
  · intro w w' _ _
    cases r with
    | ok w => exact absurd rfl (hr w)
    | stuck => exact .stuck
    | ub => exact .ub

theorem Local.id (p : K) : Local (M := M) fp cp p (fun w => .ok w) := by
  constructor
  · intro w w2 hi h; injection h with h; subst h; exact ⟨hi, .refl p w⟩
  · intro w w' _ ha; exact .ok ha

theorem set_same {β : Type} (f : Str → β) (k : Str) (v : β) : set f k v k = v := by simp [set]

theorem set_other {β : Type} (f : Str → β) {k x : Str} (v : β) (h : x ≠ k) : set f k v x = f x := by simp [set, h]

theorem set_congr {β : Type} {f g : Str → β} {k x : Str} {v u : β} (h : f x = g x) (hv : v = u) : set f k v x = set g k u x := by
  unfold set; split
  · exact hv
  · exact h

theorem set_eq {β : Type} {f : Str → β} {k x : Str} {v y : β} (h : set f k v x = y) : (x = k ∧ v = y) ∨ (x ≠ k ∧ f x = y) := by
  unfold set at h; split at h
  · rename_i e; exact Or.inl ⟨e, h⟩
  · rename_i e; exact Or.inr ⟨e, h⟩

theorem local_erase {p : K} {id : Str} (hid : fp id = p) : Local (M := M) fp cp p (fun w => .ok (w.erase id)) := by
  constructor
  · intro w w2 hi h
    injection h with h
    subst h
    refine ⟨⟨hi.conn, ?_⟩, ⟨?_, ?_, fun _ _ => rfl, fun _ _ => rfl, fun _ _ => rfl, [], by simp [World.erase], by intro x hx; cases hx⟩⟩
    · intro i f r hf hr
      rcases set_eq hf with ⟨-, hx⟩ | ⟨-, hx⟩
      · cases hx
      · exact hi.ctx i f r hx hr
    · intro i hne; exact set_other _ _ (fun e => hne (e ▸ hid))
    · intro i hne; exact set_other _ _ (fun e => hne (e ▸ hid))
  · intro w w' _ ha
    refine .ok ⟨?_, ?_, ha.made, ha.ctxs, ha.conns, ha.log⟩
    · intro i hp; exact set_congr (ha.flows i hp) rfl
    · intro i hp; exact set_congr (ha.gen i hp) (by rw [ha.gen id hid])

/-- A reference to a context of the party, or none. -/
def CtxOk (fp : Str → K) (p : K) (r : Option (Str × Nat)) : Prop := ∀ x, r = some x → fp x.1 = p

theorem contextFor_spec {p : K} {id : Str} (hid : fp id = p) (par : M.Par) {r : Option (Str × Nat)} (hr : CtxOk fp p r) (w : World M) (hi : Inv fp cp w) :
    Inv fp cp (w.contextFor par id r).1 ∧ Frame fp cp p w (w.contextFor par id r).1 ∧ CtxOk fp p (w.contextFor par id r).2 ∧
    ∀ w', Agree fp cp p w w' → (w'.contextFor par id r).2 = (w.contextFor par id r).2 ∧
      Agree fp cp p (w.contextFor par id r).1 (w'.contextFor par id r).1 := by
  cases r with
  | some c => exact ⟨hi, .refl p w, hr, fun w' ha => ⟨rfl, ha⟩⟩
  | none =>
    unfold World.contextFor
    cases M.context par with
    | none => exact ⟨hi, .refl p w, hr, fun w' ha => ⟨rfl, ha⟩⟩
    | some c =>
      refine ⟨⟨hi.conn, hi.ctx⟩, ⟨fun _ _ => rfl, fun _ _ => rfl, ?_, ?_, fun _ _ => rfl, [], by simp, by intro x hx; cases hx⟩, ?_, ?_⟩
      · intro i hne; exact set_other _ _ (fun e => hne (e ▸ hid))
      · intro i hne; exact set_other _ _ (fun e => hne (e ▸ hid))
      · intro x hx; injection hx with hx; subst hx; exact hid
      · intro w' ha
        have hm : w'.made id = w.made id := ha.made id hid
        refine ⟨by dsimp only; rw [hm], ha.flows, ha.gen, ?_, ?_, ha.conns, ha.log⟩
        · intro i hp; exact set_congr (ha.made i hp) (by rw [hm])
        · intro i hp; exact set_congr (ha.ctxs i hp) (by rw [hm, ha.ctxs id hid])

theorem create_spec {p : K} {id : Str} (hid : fp id = p) (kind : Kind) (parser : Str) {r : Option (Str × Nat)} (hr : CtxOk fp p r) (w : World M)
    (hi : Inv fp cp w) :
    Inv fp cp (w.create kind parser id r).1 ∧ Frame fp cp p w (w.create kind parser id r).1 ∧ CtxOk fp p ((w.create kind parser id r).2.getD none) ∧
    ∀ w', Agree fp cp p w w' → (w'.create kind parser id r).2 = (w.create kind parser id r).2 ∧
      Agree fp cp p (w.create kind parser id r).1 (w'.create kind parser id r).1 := by
  unfold World.create
  cases M.lookup parser with
  | none => exact ⟨hi, .refl p w, (fun x hx => by cases hx), fun w' ha => ⟨rfl, ha⟩⟩
  | some par =>
    obtain ⟨c1, c2, c3, c4⟩ := contextFor_spec (cp := cp) hid par hr w hi
    dsimp only
    refine ⟨⟨c1.conn, ?_⟩, c2.trans ⟨?_, fun _ _ => rfl, fun _ _ => rfl, fun _ _ => rfl, fun _ _ => rfl, [], by simp, by intro x hx; cases hx⟩, c3, ?_⟩
    · intro i f x hf hx
      rcases set_eq hf with ⟨he, hy⟩ | ⟨-, hy⟩
      · injection hy with hy
        subst hy
        exact (c3 x hx).trans (he ▸ hid.symm)
      · exact c1.ctx i f x hy hx
    · intro i hne; exact set_other _ _ (fun e => hne (e ▸ hid))
    · intro w' ha
      obtain ⟨d1, d2⟩ := c4 w' ha
      refine ⟨by rw [d1], ?_, d2.gen, d2.made, d2.ctxs, d2.conns, d2.log⟩
      intro i hp
      exact set_congr (d2.flows i hp) (by rw [d1])

theorem local_feed {p : K} {id : Str} (hid : fp id = p) (ev : Event) : Local (M := M) fp cp p (fun w => w.feed id ev) := by
  constructor
  · intro w w2 hi h
    unfold World.feed at h
    cases hf : w.flows id with
    | none => rw [hf] at h; injection h with h; subst h; exact ⟨hi, .refl p w⟩
    | some f =>
      rw [hf] at h
      dsimp only at h
      cases hs : M.step f.par f.kind f.st (w.context f.ctx) ev with
      | none => rw [hs] at h; cases h
      | some x =>
        obtain ⟨st, c, out⟩ := x
        rw [hs] at h
        injection h with h
        subst h
        have hlog : ∀ y ∈ out.map ((id, ·) : M.Out → Str × M.Out), fp y.1 = p := by
          intro y hy
          rw [List.mem_map] at hy
          obtain ⟨o, -, rfl⟩ := hy
          exact hid
        cases hc : f.ctx with
        | none =>
          refine ⟨⟨hi.conn, ?_⟩, ⟨?_, fun _ _ => rfl, fun _ _ => rfl, fun _ _ => rfl, fun _ _ => rfl, _, rfl, hlog⟩⟩
          · intro i g r hg hr
            rcases set_eq hg with ⟨he, hy⟩ | ⟨-, hy⟩
            · injection hy with hy
              subst hy
              cases hr
            · exact hi.ctx i g r hy hr
          · intro i hne; exact set_other _ _ (fun e => hne (e ▸ hid))
        | some r0 =>
          have hr0 : fp r0.1 = p := (hi.ctx id f r0 hf hc).trans hid
          refine ⟨⟨hi.conn, ?_⟩, ⟨?_, fun _ _ => rfl, fun _ _ => rfl, ?_, fun _ _ => rfl, _, rfl, hlog⟩⟩
          · intro i g r hg hr
            rcases set_eq hg with ⟨he, hy⟩ | ⟨-, hy⟩
            · injection hy with hy
              subst hy
              injection hr with hr
              subst hr
              rw [he]
              exact hi.ctx id f _ hf hc
            · exact hi.ctx i g r hy hr
          · intro i hne; exact set_other _ _ (fun e => hne (e ▸ hid))
          · intro i hne; exact set_other _ _ (fun e => hne (e ▸ hr0))
  · intro w w' hi ha
    unfold World.feed
    rw [ha.flows id hid]
    cases hf : w.flows id with
    | none => exact .ok ha
    | some f =>
      dsimp only
      have hctx : w'.context f.ctx = w.context f.ctx := by
        unfold World.context
        cases hc : f.ctx with
        | none => rfl
        | some r => dsimp only; rw [ha.ctxs r.1 ((hi.ctx id f r hf hc).trans hid)]
      rw [hctx]
      cases hs : M.step f.par f.kind f.st (w.context f.ctx) ev with
      | none => exact .stuck
      | some x =>
        obtain ⟨st, c, out⟩ := x
        have hlog : (out.map ((id, ·) : M.Out → Str × M.Out)).filter (fun x => decide (fp x.1 = p)) = out.map (id, ·) := by
          rw [List.filter_eq_self]
          intro y hy
          rw [List.mem_map] at hy
          obtain ⟨o, -, rfl⟩ := hy
          simpa using hid
        refine .ok ?_
        cases hc : f.ctx with
        | none =>
          refine ⟨?_, ha.gen, ha.made, ha.ctxs, ha.conns, ?_⟩
          · intro i hp; exact set_congr (ha.flows i hp) rfl
          · simp only [World.setContext, List.filter_append, hlog, ha.log]
        | some r0 =>
          have hr0 : fp r0.1 = p := (hi.ctx id f r0 hf hc).trans hid
          refine ⟨?_, ha.gen, ha.made, ?_, ha.conns, ?_⟩
          · intro i hp; exact set_congr (ha.flows i hp) rfl
          · intro i hp; exact set_congr (ha.ctxs i hp) (by rw [ha.ctxs r0.1 hr0])
          · simp only [World.setContext, List.filter_append, hlog, ha.log]

theorem local_finishPtr {p : K} {id : Str} (hid : fp id = p) (ptr : Option Nat) : Local (M := M) fp cp p (fun w => w.finishPtr id ptr) := by
  cases ptr with
  | none => exact Local.id p
  | some n =>
    refine Local.ite (C := fun w => (w.flows id).isSome ∧ w.gen id = n) (local_feed hid .finish) (Local.const (fun w h => by cases h)) ?_
    intro w w' ha
    rw [ha.flows id hid, ha.gen id hid]

theorem local_setConn {p : K} {cid : Str} (hcid : cp cid = p) (c : Option Conn) (hc : ∀ x, c = some x → fp x.origId = p ∧ fp x.respId = p) :
    Local (M := M) fp cp p (fun w => .ok { w with conns := set w.conns cid c }) := by
  constructor
  · intro w w2 hi h
    injection h with h
    subst h
    refine ⟨⟨?_, hi.ctx⟩, ⟨fun _ _ => rfl, fun _ _ => rfl, fun _ _ => rfl, fun _ _ => rfl, ?_, [], by simp, by intro x hx; cases hx⟩⟩
    · intro i x hx
      rcases set_eq hx with ⟨rfl, hy⟩ | ⟨-, hy⟩
      · have := hc x hy
        rw [hcid]; exact this
      · exact hi.conn i x hy
    · intro i hne; exact set_other _ _ (fun e => hne (e ▸ hcid))
  · intro w w' _ ha
    refine .ok ⟨ha.flows, ha.gen, ha.made, ha.ctxs, ?_, ha.log⟩
    intro i hp; exact set_congr (ha.conns i hp) rfl

theorem Local.of_option {β : Type} {p : K} {F : World M → Exec (World M)} (sel : World M → Option β) (G : β → World M → Exec (World M))
    (H : World M → Exec (World M)) (hsel : ∀ w w', Agree fp cp p w w' → sel w' = sel w)
    (hF : ∀ w, F w = match sel w with | some b => G b w | none => H w)
    (hG : ∀ b, (∃ w : World M, Inv fp cp w ∧ sel w = some b) → Local fp cp p (G b)) (hH : Local fp cp p H) : Local fp cp p F := by
  constructor
  · intro w w2 hi h
    rw [hF] at h
    cases hs : sel w with
    | none => rw [hs] at h; exact hH.inv w w2 hi h
    | some b => rw [hs] at h; exact (hG b ⟨w, hi, hs⟩).inv w w2 hi h
  · intro w w' hi ha
    rw [hF, hF, hsel w w' ha]
    cases hs : sel w with
    | none => exact hH.sim w w' hi ha
    | some b => exact (hG b ⟨w, hi, hs⟩).sim w w' hi ha

/-- A command acts on whom it is for. -/
theorem local_exec {c : Cmd} (hc : c.Consistent fp cp) : Local (M := M) fp cp (c.party fp cp) (fun w => w.exec c) := by
  cases c with
  | beginFlow id kind parser =>
    constructor
    · intro w w2 hi h
      injection h with h
      subst h
      obtain ⟨h1, h2, -⟩ := create_spec (fp := fp) (cp := cp) (p := fp id) rfl kind parser (r := none) (fun x hx => by cases hx) w hi
      exact ⟨h1, h2⟩
    · intro w w' hi ha
      obtain ⟨-, -, -, h4⟩ := create_spec (fp := fp) (cp := cp) (p := fp id) rfl kind parser (r := none) (fun x hx => by cases hx) w hi
      exact .ok (h4 w' ha).2
  | data id bs => exact local_feed rfl (.data bs)
  | gap id n => exact local_feed rfl (.gap n)
  | endFlow id =>
    refine Local.of_option (fun w => w.flows id) (fun _ w => (w.feed id .finish).bind (fun w => .ok (w.erase id))) (fun w => .ok w)
      (fun w w' ha => ha.flows id rfl) (fun w => ?_) (fun _ _ => (local_feed rfl .finish).bind (local_erase rfl)) (Local.id _)
    simp only [World.exec]
    cases w.flows id <;> rfl
  | endConn cid =>
    refine Local.of_option (fun w => w.conns cid) (fun c w => (w.finishPtr c.origId c.orig).bind (fun w =>
        (w.finishPtr c.respId c.resp).bind (fun w => (Exec.ok (w.erase c.origId)).bind (fun w => (Exec.ok (w.erase c.respId)).bind (fun w =>
          .ok { w with conns := set w.conns cid none }))))) (fun w => .ok w)
      (fun w w' ha => ha.conns cid rfl) (fun w => ?_) ?_ (Local.id _)
    · simp only [World.exec]
      cases w.conns cid <;> rfl
    · intro c ⟨w, hi, hw⟩
      obtain ⟨h1, h2⟩ := hi.conn cid c hw
      exact (local_finishPtr h1 _).bind ((local_finishPtr h2 _).bind ((local_erase h1).bind ((local_erase h2).bind
        (local_setConn rfl none (fun x hx => by cases hx)))))
  | beginConn cid kind o po r pr =>
    obtain ⟨ho, hr⟩ := hc
    refine Local.of_option (fun w => w.conns cid) (fun _ w => .ok w) (fun w => (
      let x := w.create kind po o none
      let y := x.1.create kind pr r (x.2.getD none)
      if x.2.isNone ∧ y.2.isNone then .ok ((y.1.erase o).erase r)
      else .ok { y.1 with conns := set y.1.conns cid (some ⟨o, r, x.2.map (fun _ => y.1.gen o), y.2.map (fun _ => y.1.gen r)⟩) }))
      (fun w w' ha => ha.conns cid rfl) (fun w => ?_) (fun _ _ => Local.id _) ?_
    · simp only [World.exec]
      cases w.conns cid <;> rfl
    · have he : Local (M := M) fp cp (cp cid) (fun w => .ok ((w.erase o).erase r)) := (local_erase ho).bind (local_erase hr)
      constructor
      · intro w w2 hi h
        dsimp only at h
        obtain ⟨x1, x2, x3, -⟩ := create_spec (fp := fp) (cp := cp) ho kind po (r := none) (fun x hx => by cases hx) w hi
        obtain ⟨y1, y2, -, -⟩ := create_spec (fp := fp) (cp := cp) hr kind pr x3 _ x1
        split at h
        · obtain ⟨z1, z2⟩ := he.inv _ _ y1 h
          exact ⟨z1, (x2.trans y2).trans z2⟩
        · obtain ⟨z1, z2⟩ := (local_setConn (fp := fp) (cp := cp) (p := cp cid) rfl _ (fun x hx => by injection hx with hx; subst hx; exact ⟨ho, hr⟩)).inv _ _ y1 h
          exact ⟨z1, (x2.trans y2).trans z2⟩
      · intro w w' hi ha
        dsimp only
        obtain ⟨x1, -, x3, x4⟩ := create_spec (fp := fp) (cp := cp) ho kind po (r := none) (fun x hx => by cases hx) w hi
        obtain ⟨a1, a2⟩ := x4 w' ha
        obtain ⟨y1, -, -, y4⟩ := create_spec (fp := fp) (cp := cp) hr kind pr x3 _ x1
        obtain ⟨b1, b2⟩ := y4 _ a2
        rw [a1, b1]
        split
        · exact he.sim _ _ y1 b2
        · rw [b2.gen o ho, b2.gen r hr]
          exact (local_setConn (fp := fp) (cp := cp) (p := cp cid) rfl _ (fun x hx => by injection hx with hx; subst hx; exact ⟨ho, hr⟩)).sim _ _ y1 b2

omit [DecidableEq K] in
theorem inv_init : Inv (M := M) fp cp {} := ⟨(fun _ _ h => by cases h), (fun _ _ _ h => by cases h)⟩

theorem agree_init (k : K) : Agree (M := M) fp cp k {} {} :=
  ⟨fun _ _ => rfl, fun _ _ => rfl, fun _ _ => rfl, fun _ _ => rfl, fun _ _ => rfl, rfl⟩

/-- The outcomes of a batch and of its parts. -/
def Parts (fp : Str → K) (r : Exec (World M)) (rs : K → Exec (World M)) : Prop := match r with
  | .ok w => ∀ k, ∃ w', rs k = .ok w' ∧ w'.log = w.log.filter (fun x => decide (fp x.1 = k))
  | .stuck => ∃ k, rs k = .stuck
  | .ub => ∃ k, rs k = .ub

theorem run_parts (cs : List Cmd) (hc : ∀ c ∈ cs, c.Consistent fp cp) (w : World M) (ws : K → World M) (hi : Inv fp cp w)
    (ha : ∀ k, Agree fp cp k w (ws k)) :
    Parts fp (w.run cs) (fun k => (ws k).run (cs.filter (fun c => decide (c.party fp cp = k)))) := by
  induction cs generalizing w ws with
  | nil => exact fun k => ⟨ws k, rfl, (ha k).log⟩
  | cons c cs ih =>
    have hl := local_exec (M := M) (hc c List.mem_cons_self)
    have hs := hl.sim w (ws (c.party fp cp)) hi (ha _)
    rw [show w.run (c :: cs) = (w.exec c).bind (fun w => w.run cs) from rfl]
    cases hx : w.exec c with
    | ok w2 =>
      obtain ⟨i2, f2⟩ := hl.inv w w2 hi hx
      rw [hx] at hs
      generalize hy : (ws (c.party fp cp)).exec c = r at hs
      cases hs with
      | @ok _ w2' h2 =>
        have := ih (fun x hx => hc x (List.mem_cons_of_mem _ hx)) w2 (fun k => if k = c.party fp cp then w2' else ws k) i2 (by
          intro k
          split
          · rename_i e; rw [e]; exact h2
          · rename_i e; exact (ha k).frame f2 e)
        have hfun : (fun k => (if k = c.party fp cp then w2' else ws k).run (cs.filter (fun c => decide (c.party fp cp = k)))) =
            (fun k => (ws k).run ((c :: cs).filter (fun c => decide (c.party fp cp = k)))) := by
          funext k
          rw [List.filter_cons]
          by_cases hk : c.party fp cp = k
          · subst hk
            rw [if_pos rfl, if_pos (by simp), World.run, hy]
            rfl
          · rw [if_neg (fun e => hk e.symm), if_neg (by simpa using hk)]
        rw [hfun] at this
        exact this
    | stuck =>
      refine ⟨c.party fp cp, ?_⟩
      dsimp only
      rw [hx] at hs
      rw [List.filter_cons, if_pos (by simp)]
      simp only [World.run]
      generalize (ws (c.party fp cp)).exec c = r at hs
      cases hs
      rfl
    | ub =>
      refine ⟨c.party fp cp, ?_⟩
      dsimp only
      rw [hx] at hs
      rw [List.filter_cons, if_pos (by simp)]
      simp only [World.run]
      generalize (ws (c.party fp cp)).exec c = r at hs
      cases hs
      rfl

end Verif.Driver
