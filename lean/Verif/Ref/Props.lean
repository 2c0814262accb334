import Verif.Ref.Steps

/-!
# C46: value references have value semantics; strong and weak references share; expiry is detected exactly
-/

namespace Verif.Ref

/-- What an observer sees of a history: the reports of all operations, or that it was undefined. -/
def outs {σ : Type} : Res (σ × List Out) → Option (List Out)
  | .ok (_, os) => some os
  | _ => none

/-- C46: every history of operations on references reports exactly what the specification says, for every operation
    including all exceptions, and is undefined exactly when the specification is (a `self` wrapper used after its
    object is gone). -/
theorem C46_refines (ops : List Op) : outs (run {} ops) = outs (Ideal.run {} ops) := by
  have h := match_run ops Sim.init
  cases h1 : run {} ops with
  | ok x =>
    cases h2 : Ideal.run {} ops with
    | ok y => rw [h1, h2] at h; exact congrArg some h.1
    | throw e => rw [h1, h2] at h; exact h.elim
    | ub => rw [h1, h2] at h; exact h.elim
  | throw e => rw [h1] at h; cases h2 : Ideal.run {} ops <;> (rw [h2] at h; exact h.elim)
  | ub =>
    cases h2 : Ideal.run {} ops with
    | ok y => rw [h1, h2] at h; exact h.elim
    | throw e => rfl
    | ub => rfl

/-- States histories lead to. -/
def Reach (w : World) : Prop := ∃ ops os, run {} ops = .ok (w, os)

theorem reach_sim {ops : List Op} {w : World} {os : List Out} (h : run {} ops = .ok (w, os)) :
    ∃ s, Ideal.run {} ops = .ok (s, os) ∧ Sim w s [] := by
  have hm := match_run ops Sim.init
  rw [h] at hm
  cases h2 : Ideal.run {} ops with
  | ok y => rw [h2] at hm; obtain ⟨s, o'⟩ := y; exact ⟨s, by rw [hm.1], hm.2⟩
  | throw e => rw [h2] at hm; exact hm.elim
  | ub => rw [h2] at hm; exact hm.elim

/-- C46: after every history, an object's memory is allocated exactly if some value or strong reference owns it:
    nothing is freed too early and nothing leaks. -/
theorem C46_no_leak {w : World} (h : Reach w) (o : Nat) :
    w.cells o ≠ none ↔ ∃ i x, w.hs i = some x ∧ x.owned = some o := by
  obtain ⟨ops, os, hr⟩ := h
  obtain ⟨s, _, hs⟩ := reach_sim hr
  have hc := hs.cell o
  rw [List.count_nil, Nat.add_zero] at hc
  constructor
  · intro hn
    cases hcell : w.cells o with
    | none => exact absurd hcell hn
    | some c =>
      rw [hcell] at hc
      obtain ⟨i, hi, ho⟩ := owners_pos.mp hc.2.2
      cases hx : w.hs i with
      | none => rw [hx] at ho; cases ho
      | some x =>
        refine ⟨i, x, hx, ?_⟩
        rw [hx] at ho
        simp only [own1] at ho
        split at ho
        · assumption
        · cases ho
  · rintro ⟨i, x, hx, ho⟩ hn
    have := hs.holds hx ho
    rw [List.count_nil, Nat.add_zero] at this
    rw [hn] at hc
    simp only [CellOk] at hc
    omega

/-- C46: a weak reference reports expiry exactly when it was bound to an object nobody owns any more. -/
theorem C46_expired_iff {w : World} (h : Reach w) {k : Nat} {p : Option Nat} (hk : w.hs k = some (.weak p)) :
    step w (.isExpired k) = .ok (w, .bool true) ↔
      ∃ o, p = some o ∧ ¬ ∃ i x, w.hs i = some x ∧ x.owned = some o := by
  simp only [step, hk, weakExpired]
  cases p with
  | none =>
    constructor
    · intro hh; cases hh
    · rintro ⟨o, ho, _⟩; cases ho
  | some o =>
    have hl := C46_no_leak h o
    constructor
    · intro hh
      refine ⟨o, rfl, fun hn => ?_⟩
      have := hl.mpr hn
      injection hh with hh
      injection hh with _ hh
      injection hh with hh
      cases hc : w.cells o with
      | none => exact this hc
      | some c =>
        dsimp only at hh
        rw [hc] at hh; cases hh
    · rintro ⟨o', ho', hn⟩
      cases ho'
      cases hc : w.cells o with
      | none => dsimp only; rw [hc]; rfl
      | some c => exact absurd (hl.mp (by rw [hc]; intro hh; cases hh)) hn

/-! ## How operations change who refers to what -/

/-- `k` is the only handle that may get a new non-null target; `shr` allows value references to existing objects. -/
structure Change (shr : Prop) (s s' : Ideal) (k : Nat) : Prop where
  others : ∀ j, j ≠ k → s'.hs j = s.hs j ∨ ∀ b, s'.hs j = some b → b.target = none
  dest : ∀ b, s'.hs k = some b → s.hs k = some b ∨ b.target = none ∨ b.kind = .weak ∨ b.kind = .strong ∨
    (b = ⟨.value, some s.next⟩ ∧ s'.next = s.next + 1) ∨
    (∃ c, c ≠ k ∧ s.hs c = some b ∧ (b.kind = .self ∨ ∀ b', s'.hs c = some b' → b'.target = none)) ∨
    (shr ∧ b.kind = .value)

variable {s s' : Ideal} {shr : Prop}

theorem Change.same {k : Nat} (h : s'.hs = s.hs) : Change shr s s' k :=
  ⟨fun j _ => Or.inl (by rw [h]), fun b hb => Or.inl (by rw [← h]; exact hb)⟩

/-- Changing one handle. -/
theorem Change.one {k : Nat} {x : Option Bound} (h : ∀ j, s'.hs j = if j = k then x else s.hs j)
    (hx : ∀ b, x = some b → b.target = none ∨ b.kind = .weak ∨ b.kind = .strong ∨
      (b = ⟨.value, some s.next⟩ ∧ s'.next = s.next + 1) ∨ (b.kind = .self ∧ ∃ c, c ≠ k ∧ s.hs c = some b) ∨
      (shr ∧ b.kind = .value)) : Change shr s s' k := by
  refine ⟨fun j hj => Or.inl (by rw [h j, if_neg hj]), fun b hb => ?_⟩
  rw [h k, if_pos rfl] at hb
  rcases hx b hb with a | a | a | a | ⟨a, c, hc, hb⟩ | a
  · exact Or.inr (Or.inl a)
  · exact Or.inr (Or.inr (Or.inl a))
  · exact Or.inr (Or.inr (Or.inr (Or.inl a)))
  · exact Or.inr (Or.inr (Or.inr (Or.inr (Or.inl a))))
  · exact Or.inr (Or.inr (Or.inr (Or.inr (Or.inr (Or.inl ⟨c, hc, hb, Or.inl a⟩)))))
  · exact Or.inr (Or.inr (Or.inr (Or.inr (Or.inr (Or.inr a)))))

/-- An operation that may make a value reference refer to an object that already exists: `derefAsValue()`, `self`,
    and assigning a strong reference to a value reference. -/
def Shares (s : Ideal) : Op → Prop
  | .valueOf _ => True
  | .selfOf _ => True
  | .assign d c | .assignMove d c =>
    ∃ bd bc, s.hs d = some bd ∧ s.hs c = some bc ∧ bd.kind.isValue = true ∧ bc.kind = .strong
  | _ => False

theorem ok_inj {α : Type} {a b : α} (h : Res.ok a = Res.ok b) : a = b := by injection h

theorem assignValue_change {d : Nat} {b : Bound} {v : Nat} (h : s.assignValue d b v = .ok s') :
    (s'.hs = s.hs ∧ b.target ≠ none) ∨
    ((∀ j, s'.hs j = if j = d then some ⟨.value, some s.next⟩ else s.hs j) ∧ s'.next = s.next + 1 ∧ b.target = none) := by
  unfold Ideal.assignValue at h
  split at h
  · rename_i hn
    cases ok_inj h
    exact Or.inr ⟨fun j => rfl, rfl, hn⟩
  · rename_i o ho
    cases hd : s.deref ⟨b.kind, some o⟩ with
    | ok o' => rw [hd] at h; cases ok_inj h; exact Or.inl ⟨rfl, by rw [ho]; intro hh; cases hh⟩
    | throw e => rw [hd] at h; cases h
    | ub => rw [hd] at h; cases h

theorem assign_change {mv : Bool} {d c : Nat} {bd bc : Bound} {o : Out} (hd : s.hs d = some bd) (hc : s.hs c = some bc)
    (h : s.assign mv d c bd bc = .ok (s', o)) (hshr : bd.kind.isValue = true → bc.kind = .strong → shr) :
    ∃ k, Change shr s s' k := by
  unfold Ideal.assign at h
  split at h
  · split at h
    · cases ok_inj h; exact ⟨0, Change.same rfl⟩
    · split at h
      · cases ok_inj h
        exact ⟨d, Change.one (fun j => rfl) (fun b hb => by cases hb; exact Or.inl rfl)⟩
      · cases hp : s.peek bc with
        | throw e => rw [hp] at h; cases h
        | ub => rw [hp] at h; cases h
        | ok v =>
          rw [hp] at h
          dsimp only [Res.bind] at h
          cases ha : s.assignValue d bd (v.getD 0) with
          | throw e => rw [ha] at h; cases h
          | ub => rw [ha] at h; cases h
          | ok s1 =>
            rw [ha] at h
            dsimp only at h
            rcases assignValue_change ha with ⟨h1, h2⟩ | ⟨h1, h2, h3⟩
            · split at h
              · cases ok_inj h
                refine ⟨c, Change.one (x := some ⟨.self, none⟩) (fun j => ?_)
                  (fun b hb => by cases hb; exact Or.inl rfl)⟩
                show (if j = c then _ else s1.hs j) = _
                rw [h1]
              · cases ok_inj h; exact ⟨0, Change.same h1⟩
            · rw [h3] at h
              simp only [bne_self_eq_false, Bool.and_false] at h
              cases ok_inj h
              exact ⟨d, Change.one h1 (fun b hb => by cases hb; exact Or.inr (Or.inr (Or.inr (Or.inl ⟨rfl, h2⟩))))⟩
  · split at h
    · rename_i hk
      rw [Bool.and_eq_true] at hk
      have hs : shr := hshr hk.1 (by have := hk.2; revert this; cases bc.kind <;> intro hh <;> first | rfl | (cases hh))
      have hne : d ≠ c := by
        intro he; subst he
        rw [hd] at hc; cases hc
        obtain ⟨k1, k2⟩ := hk
        revert k1 k2; cases bd.kind <;> intro k1 k2 <;> first | (cases k1; done) | (cases k2; done)
      dsimp only at h
      split at h
      · cases ok_inj h
        split
        · refine ⟨c, Change.one (x := some ⟨.strong, none⟩) (fun j => rfl) (fun b hb => by cases hb; exact Or.inl rfl)⟩
        · refine ⟨d, ⟨fun j hj => ?_, fun b hb => ?_⟩⟩
          · by_cases hjc : j = c
            · right
              intro b hb
              have hb' : (if j = c then some (⟨.strong, none⟩ : Bound) else _) = some b := hb
              rw [if_pos hjc] at hb'; cases hb'; rfl
            · left
              show (if j = c then _ else if j = d then _ else s.hs j) = _
              rw [if_neg hjc, if_neg hj]
          · have hb' : (if d = c then some (⟨.strong, none⟩ : Bound) else
              if d = d then some ⟨.value, bc.target⟩ else s.hs d) = some b := hb
            rw [if_neg hne, if_pos rfl] at hb'
            cases hb'
            exact Or.inr (Or.inr (Or.inr (Or.inr (Or.inr (Or.inr ⟨hs, rfl⟩)))))
      · cases ok_inj h
        split
        · exact ⟨0, Change.same rfl⟩
        · exact ⟨d, Change.one (x := some ⟨.value, bc.target⟩) (fun j => rfl) (fun b hb => by
            cases hb; exact Or.inr (Or.inr (Or.inr (Or.inr (Or.inr ⟨hs, rfl⟩)))))⟩
    · split at h
      · rename_i hk
        cases ht : s.shared bc with
        | throw e => rw [ht] at h; cases h
        | ub => rw [ht] at h; cases h
        | ok t =>
          rw [ht] at h
          cases ok_inj h
          refine ⟨d, Change.one (x := some ⟨bd.kind, t⟩) (fun j => rfl) (fun b hb => ?_)⟩
          cases hb
          revert hk
          cases bd.kind <;> intro hk <;> simp_all
      · split at h
        · cases ok_inj h
          exact ⟨d, Change.one (x := some ⟨.weak, bc.target⟩) (fun j => rfl) (fun b hb => by
            cases hb; exact Or.inr (Or.inl rfl))⟩
        · split at h
          · split at h
            · cases ok_inj h; exact ⟨0, Change.same rfl⟩
            · rename_i hn1 hn2 hn3 hn4 hkk hne
              have hbk : bc.kind = .weak ∨ bc.kind = .strong := by
                revert hn1 hkk
                cases bd.kind <;> cases bc.kind <;> simp [Kind.isValue]
              dsimp only at h
              split at h
              · cases ok_inj h
                refine ⟨d, ⟨fun j hj => ?_, fun b hb => ?_⟩⟩
                · by_cases hjc : j = c
                  · right
                    intro b hb
                    have hb' : (if j = c then some (⟨bc.kind, none⟩ : Bound) else _) = some b := hb
                    rw [if_pos hjc] at hb'; cases hb'; rfl
                  · left
                    show (if j = c then _ else if j = d then _ else s.hs j) = _
                    rw [if_neg hjc, if_neg hj]
                · have hb' : (if d = c then some (⟨bc.kind, none⟩ : Bound) else
                    if d = d then some bc else s.hs d) = some b := hb
                  rw [if_neg hne, if_pos rfl] at hb'
                  cases hb'
                  rcases hbk with a | a
                  · exact Or.inr (Or.inr (Or.inl a))
                  · exact Or.inr (Or.inr (Or.inr (Or.inl a)))
              · cases ok_inj h
                refine ⟨d, Change.one (x := some bc) (fun j => rfl) (fun b hb => ?_)⟩
                cases hb
                rcases hbk with a | a
                · exact Or.inr (Or.inl a)
                · exact Or.inr (Or.inr (Or.inl a))
          · cases ok_inj h; exact ⟨0, Change.same rfl⟩

theorem give_change {s0 : Ideal} {b : Bound} {o : Out} (h : s0.give b = .ok (s', o)) (e : s0.hs = s.hs)
    (hb : b.target = none ∨ b.kind = .weak ∨ b.kind = .strong ∨
      (b = ⟨.value, some s.next⟩ ∧ s0.next = s.next + 1) ∨ (b.kind = .self ∧ ∃ c, c ≠ s0.nextH ∧ s.hs c = some b) ∨
      (shr ∧ b.kind = .value)) : ∃ k, Change shr s s' k := by
  cases ok_inj h
  refine ⟨s0.nextH, Change.one (x := some b) (fun j => ?_) (fun b' hb' => ?_)⟩
  · show (if j = s0.nextH then some b else s0.hs j) = _
    rw [e]
  · cases hb'
    exact hb

theorem step_change {w : World} (hsim : Sim w s []) {op : Op} {o : Out} (h : s.step op = .ok (s', o))
    (hself : ∀ i, op ≠ .selfOf i) (hshr : Shares s op → shr) : ∃ k, Change shr s s' k := by
  have lt : ∀ {i b}, s.hs i = some b → i < s.nextH := by
    intro i b hb
    cases hx : w.hs i with
    | none => rw [hsim.noslot hx] at hb; cases hb
    | some x => have := hsim.lt hx; rw [hsim.nextH]; exact this
  cases op with
  | newValue v =>
    exact give_change h rfl (Or.inr (Or.inr (Or.inr (Or.inl ⟨rfl, rfl⟩))))
  | newStrong v => exact give_change h rfl (Or.inr (Or.inr (Or.inl rfl)))
  | nullStrong => exact give_change h rfl (Or.inl rfl)
  | nullWeak => exact give_change h rfl (Or.inl rfl)
  | selfOf i => exact absurd rfl (hself i)
  | copyValue i =>
    simp only [Ideal.step] at h
    cases hb : s.hs i with
    | none => rw [hb] at h; cases ok_inj h; exact ⟨0, Change.same rfl⟩
    | some b =>
      rw [hb] at h
      dsimp only at h
      split at h
      · cases hp : s.peek b with
        | throw e => rw [hp] at h; cases h
        | ub => rw [hp] at h; cases h
        | ok v =>
          rw [hp] at h
          cases v with
          | none => exact give_change h rfl (Or.inl rfl)
          | some v => exact give_change h rfl (Or.inr (Or.inr (Or.inr (Or.inl ⟨rfl, rfl⟩))))
      · cases ok_inj h; exact ⟨0, Change.same rfl⟩
  | move i =>
    simp only [Ideal.step] at h
    cases hb : s.hs i with
    | none => rw [hb] at h; cases ok_inj h; exact ⟨0, Change.same rfl⟩
    | some b =>
      rw [hb] at h
      have hi := lt hb
      dsimp only at h
      split at h
      · rename_i hk
        exact give_change h rfl (Or.inr (Or.inr (Or.inr (Or.inr (Or.inl ⟨hk, i, by omega, hb⟩)))))
      · cases ok_inj h
        refine ⟨s.nextH, ⟨fun j hj => ?_, fun b' hb' => ?_⟩⟩
        · have e : ((s.set i (some ⟨b.kind, none⟩)).push b).hs j = if j = s.nextH then some b else
            if j = i then some ⟨b.kind, none⟩ else s.hs j := rfl
          rw [e, if_neg hj]
          by_cases hji : j = i
          · right; intro b' hb'; rw [if_pos hji] at hb'; cases hb'; rfl
          · left; rw [if_neg hji]
        · have e : ((s.set i (some ⟨b.kind, none⟩)).push b).hs s.nextH = if s.nextH = s.nextH then some b else _ := rfl
          rw [e, if_pos rfl] at hb'
          cases hb'
          refine Or.inr (Or.inr (Or.inr (Or.inr (Or.inr (Or.inl ⟨i, by omega, hb, Or.inr fun b' hb' => ?_⟩)))))
          have e2 : ((s.set i (some ⟨b.kind, none⟩)).push b).hs i = if i = s.nextH then some b else
            if i = i then some ⟨b.kind, none⟩ else s.hs i := rfl
          rw [e2, if_neg (by omega), if_pos rfl] at hb'
          cases hb'; rfl
  | strongOf i =>
    simp only [Ideal.step] at h
    cases hb : s.hs i with
    | none => rw [hb] at h; cases ok_inj h; exact ⟨0, Change.same rfl⟩
    | some b =>
      rw [hb] at h
      dsimp only at h
      split at h
      · cases ok_inj h; exact ⟨0, Change.same rfl⟩
      · cases ht : s.shared b with
        | throw e => rw [ht] at h; cases h
        | ub => rw [ht] at h; cases h
        | ok t => rw [ht] at h; exact give_change h rfl (Or.inr (Or.inr (Or.inl rfl)))
  | weakOf i =>
    simp only [Ideal.step] at h
    cases hb : s.hs i with
    | none => rw [hb] at h; cases ok_inj h; exact ⟨0, Change.same rfl⟩
    | some b =>
      rw [hb] at h
      dsimp only at h
      split at h
      · rename_i hk; exact give_change h rfl (Or.inr (Or.inl hk))
      · cases ht : s.shared b with
        | throw e => rw [ht] at h; cases h
        | ub => rw [ht] at h; cases h
        | ok t => rw [ht] at h; exact give_change h rfl (Or.inr (Or.inl rfl))
  | valueOf i =>
    simp only [Ideal.step] at h
    cases hb : s.hs i with
    | none => rw [hb] at h; cases ok_inj h; exact ⟨0, Change.same rfl⟩
    | some b =>
      rw [hb] at h
      dsimp only at h
      split at h
      · cases ok_inj h; exact ⟨0, Change.same rfl⟩
      · cases ht : s.shared b with
        | throw e => rw [ht] at h; cases h
        | ub => rw [ht] at h; cases h
        | ok t =>
          rw [ht] at h
          exact give_change h rfl (Or.inr (Or.inr (Or.inr (Or.inr (Or.inr ⟨hshr trivial, rfl⟩)))))
  | assignT i v =>
    simp only [Ideal.step] at h
    cases hb : s.hs i with
    | none => rw [hb] at h; cases ok_inj h; exact ⟨0, Change.same rfl⟩
    | some b =>
      rw [hb] at h
      dsimp only at h
      split at h
      · cases ha : s.assignValue i b v with
        | throw e => rw [ha] at h; cases h
        | ub => rw [ha] at h; cases h
        | ok s1 =>
          rw [ha] at h
          cases ok_inj h
          rcases assignValue_change ha with ⟨h1, h2⟩ | ⟨h1, h2, h3⟩
          · exact ⟨0, Change.same h1⟩
          · exact ⟨i, Change.one h1 (fun b hb => by cases hb; exact Or.inr (Or.inr (Or.inr (Or.inl ⟨rfl, h2⟩))))⟩
      · split at h
        · cases ok_inj h
          exact ⟨i, Change.one (x := some ⟨.strong, some s.next⟩) (fun j => rfl) (fun b hb => by
            cases hb; exact Or.inr (Or.inr (Or.inl rfl)))⟩
        · cases ok_inj h; exact ⟨0, Change.same rfl⟩
  | assign d c =>
    simp only [Ideal.step] at h
    cases hd : s.hs d with
    | none => rw [hd] at h; cases ok_inj h; exact ⟨0, Change.same rfl⟩
    | some bd =>
      rw [hd] at h
      cases hc : s.hs c with
      | none => rw [hc] at h; cases ok_inj h; exact ⟨0, Change.same rfl⟩
      | some bc =>
        rw [hc] at h
        exact assign_change hd hc h (fun a b => hshr ⟨bd, bc, hd, hc, a, b⟩)
  | assignMove d c =>
    simp only [Ideal.step] at h
    cases hd : s.hs d with
    | none => rw [hd] at h; cases ok_inj h; exact ⟨0, Change.same rfl⟩
    | some bd =>
      rw [hd] at h
      cases hc : s.hs c with
      | none => rw [hc] at h; cases ok_inj h; exact ⟨0, Change.same rfl⟩
      | some bc =>
        rw [hc] at h
        exact assign_change hd hc h (fun a b => hshr ⟨bd, bc, hd, hc, a, b⟩)
  | reset i =>
    simp only [Ideal.step] at h
    cases hb : s.hs i with
    | none => rw [hb] at h; cases ok_inj h; exact ⟨0, Change.same rfl⟩
    | some b =>
      rw [hb] at h
      cases ok_inj h
      exact ⟨i, Change.one (x := some ⟨_, none⟩) (fun j => rfl) (fun b hb => by cases hb; exact Or.inl rfl)⟩
  | read i =>
    simp only [Ideal.step] at h
    cases hb : s.hs i with
    | none => rw [hb] at h; cases ok_inj h; exact ⟨0, Change.same rfl⟩
    | some b =>
      rw [hb] at h
      dsimp only at h
      cases hd : s.deref b with
      | throw e => rw [hd] at h; cases h
      | ub => rw [hd] at h; cases h
      | ok x => rw [hd] at h; cases ok_inj h; exact ⟨0, Change.same rfl⟩
  | write i v =>
    simp only [Ideal.step] at h
    cases hb : s.hs i with
    | none => rw [hb] at h; cases ok_inj h; exact ⟨0, Change.same rfl⟩
    | some b =>
      rw [hb] at h
      dsimp only at h
      cases hd : s.deref b with
      | throw e => rw [hd] at h; cases h
      | ub => rw [hd] at h; cases h
      | ok x => rw [hd] at h; cases ok_inj h; exact ⟨0, Change.same rfl⟩
  | isNull i =>
    simp only [Ideal.step] at h
    cases hb : s.hs i with
    | none => rw [hb] at h; cases ok_inj h; exact ⟨0, Change.same rfl⟩
    | some b => rw [hb] at h; cases ok_inj h; exact ⟨0, Change.same rfl⟩
  | isExpired i =>
    simp only [Ideal.step] at h
    cases hb : s.hs i with
    | none => rw [hb] at h; cases ok_inj h; exact ⟨0, Change.same rfl⟩
    | some b =>
      rw [hb] at h
      dsimp only at h
      split at h <;> (cases ok_inj h; exact ⟨0, Change.same rfl⟩)
  | equal i j =>
    simp only [Ideal.step] at h
    split at h
    · split at h
      · split at h
        · cases h
        · rename_i b b' _ _ _ _
          cases h1 : s.deref b with
          | throw e => rw [h1] at h; cases h
          | ub => rw [h1] at h; cases h
          | ok x =>
            rw [h1] at h
            dsimp only [Res.bind] at h
            cases h2 : s.deref b' with
            | throw e => rw [h2] at h; cases h
            | ub => rw [h2] at h; cases h
            | ok y => rw [h2] at h; cases ok_inj h; exact ⟨0, Change.same rfl⟩
      · cases ok_inj h; exact ⟨0, Change.same rfl⟩
    · cases ok_inj h; exact ⟨0, Change.same rfl⟩
  | drop i =>
    simp only [Ideal.step] at h
    cases hb : s.hs i with
    | none => rw [hb] at h; cases ok_inj h; exact ⟨0, Change.same rfl⟩
    | some b =>
      rw [hb] at h
      cases ok_inj h
      exact ⟨i, Change.one (x := none) (fun j => rfl) (fun b hb => by cases hb)⟩

/-! ## Memory safety -/

/-- There is no `self` wrapper around an object. -/
def NoSelf (s : Ideal) : Prop := ∀ i b, s.hs i = some b → b.kind = .self → b.target = none

theorem NoSelf.step (hn : NoSelf s) {k : Nat} (h : Change shr s s' k) : NoSelf s' := by
  intro i b hb hk
  by_cases hi : i = k
  · subst hi
    rcases h.dest b hb with a | a | a | a | ⟨a, _⟩ | ⟨c, _, a, _⟩ | ⟨_, a⟩
    · exact hn i b a hk
    · exact a
    · rw [a] at hk; cases hk
    · rw [a] at hk; cases hk
    · rw [a] at hk; cases hk
    · exact hn c b a hk
    · rw [a] at hk; cases hk
  · rcases h.others i hi with a | a
    · rw [a] at hb; exact hn i b hb hk
    · exact a b hb

theorem NoSelf.deref (hn : NoSelf s) {i : Nat} {b : Bound} (hb : s.hs i = some b) : s.deref b ≠ .ub := by
  unfold Ideal.deref
  split
  · intro h; cases h
  · rename_i o ho
    split
    · intro h; cases h
    · intro h; cases h
    · rename_i hk
      have := hn i b hb hk
      rw [ho] at this; cases this
    · split <;> (intro h; cases h)

theorem NoSelf.shared (hn : NoSelf s) {i : Nat} {b : Bound} (hb : s.hs i = some b) : s.shared b ≠ .ub := by
  unfold Ideal.shared
  split
  · intro h; cases h
  · rename_i o hk ho
    have := hn i b hb hk
    rw [ho] at this; cases this
  · intro h; cases h
  · intro h; cases h

theorem bind_ne_ub {α β : Type} {x : Res α} {f : α → Res β} (h1 : x ≠ .ub) (h2 : ∀ a, x = .ok a → f a ≠ .ub) :
    x.bind f ≠ .ub := by
  cases x with
  | ok a => exact h2 a rfl
  | throw e => intro h; cases h
  | ub => exact absurd rfl h1

theorem NoSelf.peek (hn : NoSelf s) {i : Nat} {b : Bound} (hb : s.hs i = some b) : s.peek b ≠ .ub := by
  unfold Ideal.peek
  split
  · intro h; cases h
  · rename_i o ho
    refine bind_ne_ub ?_ (fun a _ h => by cases h)
    have : (⟨b.kind, some o⟩ : Bound) = b := by rw [← ho]
    rw [this]; exact hn.deref hb

theorem NoSelf.assignValue (hn : NoSelf s) {i d v : Nat} {b : Bound} (hb : s.hs i = some b) :
    s.assignValue d b v ≠ .ub := by
  unfold Ideal.assignValue
  split
  · intro h; cases h
  · rename_i o ho
    refine bind_ne_ub ?_ (fun a _ h => by cases h)
    have : (⟨b.kind, some o⟩ : Bound) = b := by rw [← ho]
    rw [this]; exact hn.deref hb

theorem NoSelf.assign (hn : NoSelf s) {mv : Bool} {d c : Nat} {bd bc : Bound} (hd : s.hs d = some bd)
    (hc : s.hs c = some bc) : s.assign mv d c bd bc ≠ .ub := by
  unfold Ideal.assign
  split
  · split
    · intro h; cases h
    · split
      · intro h; cases h
      · exact bind_ne_ub (hn.peek hc) fun v _ => bind_ne_ub (hn.assignValue hd) fun _ _ h => by cases h
  · split
    · intro h; cases h
    · split
      · exact bind_ne_ub (hn.shared hc) fun _ _ h => by cases h
      · split
        · intro h; cases h
        · split
          · split <;> (intro h; cases h)
          · intro h; cases h

theorem NoSelf.step_defined (hn : NoSelf s) (op : Op) : s.step op ≠ .ub := by
  have giveOk : ∀ (s : Ideal) (b : Bound), s.give b ≠ .ub := fun s b h => by cases h
  cases op with
  | newValue v => exact giveOk _ _
  | newStrong v => exact giveOk _ _
  | nullStrong => exact giveOk _ _
  | nullWeak => exact giveOk _ _
  | selfOf i =>
    simp only [Ideal.step]
    split
    · rename_i b hb; exact bind_ne_ub (hn.deref hb) fun _ _ => giveOk _ _
    · intro h; cases h
  | copyValue i =>
    simp only [Ideal.step]
    split
    · rename_i b hb
      split
      · refine bind_ne_ub (hn.peek hb) fun v _ => ?_
        cases v <;> exact giveOk _ _
      · intro h; cases h
    · intro h; cases h
  | move i =>
    simp only [Ideal.step]
    split
    · split <;> exact giveOk _ _
    · intro h; cases h
  | strongOf i =>
    simp only [Ideal.step]
    split
    · rename_i b hb
      split
      · intro h; cases h
      · exact bind_ne_ub (hn.shared hb) fun _ _ => giveOk _ _
    · intro h; cases h
  | weakOf i =>
    simp only [Ideal.step]
    split
    · rename_i b hb
      split
      · exact giveOk _ _
      · exact bind_ne_ub (hn.shared hb) fun _ _ => giveOk _ _
    · intro h; cases h
  | valueOf i =>
    simp only [Ideal.step]
    split
    · rename_i b hb
      split
      · intro h; cases h
      · exact bind_ne_ub (hn.shared hb) fun _ _ => giveOk _ _
    · intro h; cases h
  | assignT i v =>
    simp only [Ideal.step]
    split
    · rename_i b hb
      split
      · exact bind_ne_ub (hn.assignValue hb) fun _ _ h => by cases h
      · split <;> (intro h; cases h)
    · intro h; cases h
  | assign d c =>
    simp only [Ideal.step]
    split
    · rename_i bd bc hd hc; exact hn.assign hd hc
    · intro h; cases h
  | assignMove d c =>
    simp only [Ideal.step]
    split
    · rename_i bd bc hd hc; exact hn.assign hd hc
    · intro h; cases h
  | reset i => simp only [Ideal.step]; split <;> (intro h; cases h)
  | read i =>
    simp only [Ideal.step]
    split
    · rename_i b hb; exact bind_ne_ub (hn.deref hb) fun _ _ h => by cases h
    · intro h; cases h
  | write i v =>
    simp only [Ideal.step]
    split
    · rename_i b hb; exact bind_ne_ub (hn.deref hb) fun _ _ h => by cases h
    · intro h; cases h
  | isNull i => simp only [Ideal.step]; split <;> (intro h; cases h)
  | isExpired i =>
    simp only [Ideal.step]
    split
    · split <;> (intro h; cases h)
    · intro h; cases h
  | equal i j =>
    simp only [Ideal.step]
    split
    · rename_i b b' hb hb'
      split
      · split
        · intro h; cases h
        · exact bind_ne_ub (hn.deref hb) fun _ _ => bind_ne_ub (hn.deref hb') fun _ _ h => by cases h
      · intro h; cases h
    · intro h; cases h
  | drop i => simp only [Ideal.step]; split <;> (intro h; cases h)

theorem run_defined (ops : List Op) : ∀ {w : World} {s : Ideal}, Sim w s [] → NoSelf s →
    (∀ i, .selfOf i ∉ ops) → ∃ w' os, run w ops = .ok (w', os) := by
  induction ops with
  | nil => intro w s _ _ _; exact ⟨w, [], rfl⟩
  | cons op ops ih =>
    intro w s h hn hs
    have hops : ∀ i, .selfOf i ∉ ops := fun i hi => hs i (List.mem_cons_of_mem _ hi)
    have hm := match_step h op
    have hd := hn.step_defined op
    simp only [run]
    cases h2 : s.step op with
    | ub => exact absurd h2 hd
    | ok y =>
      obtain ⟨s', o'⟩ := y
      rw [h2] at hm
      cases h1 : step w op with
      | ok x =>
        obtain ⟨w', o⟩ := x
        rw [h1] at hm
        obtain ⟨k, hk⟩ := step_change (shr := True) h h2 (fun i hi => hs i (by rw [hi]; exact List.mem_cons_self))
          (fun _ => trivial)
        obtain ⟨w'', os, e⟩ := ih hm.2 (hn.step hk) hops
        exact ⟨w'', o :: os, by dsimp only; rw [e]; rfl⟩
      | throw e => rw [h1] at hm; exact hm.elim
      | ub => rw [h1] at hm; exact hm.elim
    | throw e =>
      rw [h2] at hm
      cases h1 : step w op with
      | ok x => rw [h1] at hm; exact hm.elim
      | ub => rw [h1] at hm; exact hm.elim
      | throw e' =>
        obtain ⟨w'', os, e⟩ := ih h hn hops
        exact ⟨w'', .exn e' :: os, by dsimp only; rw [e]; rfl⟩

/-- C46: no history of reference operations is undefined unless it wraps `self`: no use after free, no double free,
    whatever is copied, moved, assigned, reset or dropped in whatever order, also after exceptions. -/
theorem C46_memory_safe (ops : List Op) (h : ∀ i, .selfOf i ∉ ops) : ∃ w os, run {} ops = .ok (w, os) :=
  run_defined ops Sim.init (fun _ _ hb => nomatch hb) h

/-! ## Value semantics -/

/-- The history never makes a value reference refer to an already existing object. -/
def NoSharing : Ideal → List Op → Prop
  | _, [] => True
  | s, op :: ops => ¬ Shares s op ∧
    match s.step op with
    | .ok (s', _) => NoSharing s' ops
    | .throw _ => NoSharing s ops
    | .ub => True

/-- Different value references refer to different objects. -/
def Distinct (s : Ideal) : Prop :=
  ∀ i j b b' o, s.hs i = some b → s.hs j = some b' → b.kind.isValue = true → b'.kind.isValue = true →
    b.target = some o → b'.target = some o → i = j

theorem Distinct.step {w : World} (hsim : Sim w s []) (hd : Distinct s) (hn : NoSelf s) {k : Nat}
    (h : Change False s s' k) : Distinct s' := by
  have lt : ∀ {i b o}, s.hs i = some b → b.target = some o → o < s.next := by
    intro i b o hb ho
    cases hx : w.hs i with
    | none => rw [hsim.noslot hx] at hb; cases hb
    | some x =>
      rw [hsim.slot hx] at hb; cases hb
      have := hsim.target i x o hx ho
      rw [hsim.next]; exact this
  -- one of the two is not the destination
  have key : ∀ i j b b' o, i ≠ k → s'.hs i = some b → s'.hs j = some b' → b.kind.isValue = true →
      b'.kind.isValue = true → b.target = some o → b'.target = some o → i = j := by
    intro i j b b' o hik hb hb' hv hv' ho ho'
    have hbi : s.hs i = some b := by
      rcases h.others i hik with a | a
      · rw [← a]; exact hb
      · have := a b hb; rw [ho] at this; cases this
    by_cases hjk : j = k
    · subst hjk
      rcases h.dest b' hb' with a | a | a | a | ⟨a, _⟩ | ⟨c, hc, a, a'⟩ | ⟨a, _⟩
      · exact hd i j b b' o hbi a hv hv' ho ho'
      · rw [ho'] at a; cases a
      · rw [a] at hv'; cases hv'
      · rw [a] at hv'; cases hv'
      · subst a
        injection ho' with ho'
        have := lt hbi ho
        omega
      · have hic := hd i c b b' o hbi a hv hv' ho ho'
        subst hic
        rcases a' with a' | a'
        · have := hn i b' a a'
          rw [ho'] at this; cases this
        · have := a' b hb
          rw [ho] at this; cases this
      · exact a.elim
    · have hbj : s.hs j = some b' := by
        rcases h.others j hjk with a | a
        · rw [← a]; exact hb'
        · have := a b' hb'; rw [ho'] at this; cases this
      exact hd i j b b' o hbi hbj hv hv' ho ho'
  intro i j b b' o hb hb' hv hv' ho ho'
  by_cases hik : i = k
  · by_cases hjk : j = k
    · rw [hik, hjk]
    · exact (key j i b' b o hjk hb' hb hv' hv ho' ho).symm
  · exact key i j b b' o hik hb hb' hv hv' ho ho'

theorem run_distinct (ops : List Op) : ∀ {w : World} {s : Ideal} {w' : World} {os : List Out}, Sim w s [] → NoSelf s →
    Distinct s → NoSharing s ops → run w ops = .ok (w', os) → ∃ s', Sim w' s' [] ∧ NoSelf s' ∧ Distinct s' := by
  induction ops with
  | nil => intro w s w' os h hn hd _ hr; cases ok_inj hr; exact ⟨s, h, hn, hd⟩
  | cons op ops ih =>
    intro w s w' os h hn hd hs hr
    obtain ⟨hs1, hs2⟩ := hs
    have hm := match_step h op
    simp only [run] at hr
    cases h2 : s.step op with
    | ub => exact absurd h2 (hn.step_defined op)
    | ok y =>
      obtain ⟨s1, o'⟩ := y
      rw [h2] at hm hs2
      cases h1 : step w op with
      | ok x =>
        obtain ⟨w1, o⟩ := x
        rw [h1] at hm hr
        obtain ⟨k, hk⟩ := step_change (shr := False) h h2 (fun i hi => hs1 (by rw [hi]; trivial)) (fun a => hs1 a)
        dsimp only at hr
        cases h3 : run w1 ops with
        | ok z =>
          rw [h3] at hr
          cases ok_inj hr
          exact ih hm.2 (hn.step hk) (hd.step h hn hk) hs2 h3
        | throw e => rw [h3] at hr; cases hr
        | ub => rw [h3] at hr; cases hr
      | throw e => rw [h1] at hm; exact hm.elim
      | ub => rw [h1] at hm; exact hm.elim
    | throw e =>
      rw [h2] at hm hs2
      cases h1 : step w op with
      | ok x => rw [h1] at hm; exact hm.elim
      | ub => rw [h1] at hm; exact hm.elim
      | throw e' =>
        rw [h1] at hr
        dsimp only at hr
        cases h3 : run w ops with
        | ok z =>
          rw [h3] at hr
          cases ok_inj hr
          exact ih h hn hd hs2 h3
        | throw e => rw [h3] at hr; cases hr
        | ub => rw [h3] at hr; cases hr

/-- C46: value semantics. Unless the history explicitly converts a strong or weak reference into a value reference,
    what is done through one value reference never shows through another, however they were copied, moved and
    assigned before (and whatever strong and weak references exist). -/
theorem C46_value_semantics {ops : List Op} {w w' : World} {os : List Out} (hr : run {} ops = .ok (w, os))
    (hs : NoSharing {} ops) {i j v : Nat} {p q : VPtr} (hi : w.hs i = some (.value p)) (hj : w.hs j = some (.value q))
    (hij : i ≠ j) {o : Out} (hw : step w (.write i v) = .ok (w', o) ∨ step w (.assignT i v) = .ok (w', o)) :
    w'.hs j = w.hs j ∧
      (∀ x, step w (.read j) = .ok (w, x) → step w' (.read j) = .ok (w', x)) ∧
      (∀ e, step w (.read j) = .throw e → step w' (.read j) = .throw e) := by
  obtain ⟨s, hsim, hn, hd⟩ := run_distinct ops Sim.init (fun _ _ hb => nomatch hb)
    (fun _ _ _ _ _ hb => nomatch hb) hs hr
  have hlt : ∀ o, q.get = some o → o < w.next := fun o ho => hsim.target j _ o hj (by rw [vptr_get]; exact ho)
  have hne : ∀ o, p.get = some o → q.get ≠ some o := fun o ho hq =>
    hij (hd i j _ _ o (hsim.slot hi) (hsim.slot hj) (vptr_kind p) (vptr_kind q) (by rw [vptr_get]; exact ho)
      (by rw [vptr_get]; exact hq))
  -- the object `j` refers to is untouched
  have hcells : w'.hs j = w.hs j ∧ ∀ o, q.get = some o → w'.cells o = w.cells o := by
    have hstore : ∀ {o w1}, p.get = some o → store o v w = .ok w1 → w1.hs = w.hs ∧
        ∀ o, q.get = some o → w1.cells o = w.cells o := by
      intro o w1 ho hst
      simp only [store] at hst
      cases hc : w.cells o with
      | none => rw [hc] at hst; cases hst
      | some c =>
        rw [hc] at hst
        cases ok_inj hst
        refine ⟨rfl, fun o' ho' => upd_ne _ _ ?_⟩
        intro he; subst he
        exact hne o' ho ho'
    rcases hw with hw | hw
    · simp only [step, hi] at hw
      cases hg : derefPtr (.value p) w with
      | throw e => rw [hg] at hw; cases hw
      | ub => rw [hg] at hw; cases hw
      | ok o =>
        rw [hg] at hw
        dsimp only [Res.bind] at hw
        have hpo : p.get = some o := by
          cases p with
          | shared p => cases p with
            | none => cases hg
            | some x => exact congrArg some (ok_inj hg)
          | raw p => cases p with
            | none => cases hg
            | some x => exact congrArg some (ok_inj hg)
        cases hst : store o v w with
        | throw e => rw [hst] at hw; cases hw
        | ub => rw [hst] at hw; cases hw
        | ok w1 =>
          rw [hst] at hw
          cases ok_inj hw
          have := hstore hpo hst
          exact ⟨by rw [this.1], this.2⟩
    · simp only [step, hi] at hw
      cases hg : p.get with
      | some o =>
        have e : assignValue i p v w = store o v w := by simp only [assignValue, hg]
        rw [e] at hw
        cases hst : store o v w with
        | throw e => rw [hst] at hw; cases hw
        | ub => rw [hst] at hw; cases hw
        | ok w1 =>
          rw [hst] at hw
          cases ok_inj hw
          have := hstore hg hst
          exact ⟨by rw [this.1], this.2⟩
      | none =>
        have e : assignValue i p v w = replace i (.value (.shared (some w.next))) (make v w) := by
          simp only [assignValue, hg]
        have e2 : replace i (.value (.shared (some w.next))) (make v w) =
            release? (Handle.value p).owned { make v w with hs := upd w.hs i (some (.value (.shared (some w.next)))) } := by
          have : (make v w).hs i = some (.value p) := hi
          simp only [replace, this]
          rfl
        have e3 : (Handle.value p).owned = none := by
          cases p with
          | shared p => exact hg
          | raw p => rfl
        rw [e, e2, e3] at hw
        cases ok_inj hw
        refine ⟨upd_ne _ _ (fun he => hij he.symm), fun o ho => ?_⟩
        have := hlt o ho
        exact upd_ne _ _ (by omega)
  obtain ⟨h1, h2⟩ := hcells
  refine ⟨h1, ?_, ?_⟩
  · intro x hx
    simp only [step, hj] at hx
    simp only [step, h1, hj]
    cases q with
    | shared q => cases q with
      | none => cases hx
      | some o =>
        have := h2 o rfl
        simp only [derefPtr, VPtr.safeGet, Res.bind, load] at hx ⊢
        rw [this]
        cases hc : w.cells o with
        | none => rw [hc] at hx; cases hx
        | some c => rw [hc] at hx; injection hx with hx; injection hx with _ hx; rw [← hx]
    | raw q => cases q with
      | none => cases hx
      | some o =>
        have := h2 o rfl
        simp only [derefPtr, VPtr.safeGet, Res.bind, load] at hx ⊢
        rw [this]
        cases hc : w.cells o with
        | none => rw [hc] at hx; cases hx
        | some c => rw [hc] at hx; injection hx with hx; injection hx with _ hx; rw [← hx]
  · intro e hx
    simp only [step, hj] at hx
    simp only [step, h1, hj]
    cases q with
    | shared q => cases q with
      | none => exact hx
      | some o =>
        simp only [derefPtr, VPtr.safeGet, Res.bind, load] at hx
        cases hc : w.cells o with
        | none => rw [hc] at hx; cases hx
        | some c => rw [hc] at hx; cases hx
    | raw q => cases q with
      | none => exact hx
      | some o =>
        simp only [derefPtr, VPtr.safeGet, Res.bind, load] at hx
        cases hc : w.cells o with
        | none => rw [hc] at hx; cases hx
        | some c => rw [hc] at hx; cases hx

/-! ## Sharing -/

/-- Reading through a handle gives the value of the object it refers to. -/
theorem read_of {w : World} (hsim : Sim w s []) {i o : Nat} {b : Bound} (hb : s.hs i = some b) (hd : s.deref b = .ok o) :
    step w (.read i) = .ok (w, .val (s.val o)) := by
  have hm := match_step hsim (.read i)
  simp only [Ideal.step, hb] at hm
  rw [hd] at hm
  cases hx : w.hs i with
  | none => rw [hsim.noslot hx] at hb; cases hb
  | some x =>
    simp only [step, hx] at hm ⊢
    rcases deref_match hsim hx with ⟨o', a, b', c, d, e⟩ | ⟨e, a, b'⟩ | ⟨o', a, b', c, _⟩
    · rw [hsim.slot hx] at hb; cases hb
      rw [hd] at b'; cases ok_inj b'
      rw [a]; dsimp only [Res.bind]; rw [c]
    · rw [hsim.slot hx] at hb; cases hb
      rw [hd] at b'; cases b'
    · rw [hsim.slot hx] at hb; cases hb
      rw [hd] at c; cases c

/-- C46: a strong, weak or value reference made from another reference (by `StrongReference(h)`, `WeakReference(h)` or
    `h.derefAsValue()`) shares its value: what is written through the new one is read through the old one. -/
theorem C46_shared {ops : List Op} {w w1 w2 : World} {os : List Out} (hr : run {} ops = .ok (w, os)) {h k v : Nat}
    (hm : step w (.strongOf h) = .ok (w1, .handle k) ∨ step w (.weakOf h) = .ok (w1, .handle k) ∨
      step w (.valueOf h) = .ok (w1, .handle k))
    (hw : step w1 (.write k v) = .ok (w2, .unit)) : step w2 (.read h) = .ok (w2, .val v) := by
  obtain ⟨s, _, hsim⟩ := reach_sim hr
  -- what the specification does in these steps
  have main : ∃ b t kd, s.hs h = some b ∧ k = s.nextH ∧ Sim w1 (s.push ⟨kd, t⟩) [] ∧ kd ≠ .self ∧
      (∀ o, t = some o → b.target = some o) ∧ ((b.kind = .self ∨ b.kind = .weak) → kd ≠ .weak → ∀ o, t = some o → s.alive o = true) ∧
      (b.kind = .self → ∀ o, t = some o → s.alive o = true) := by
    have gen : ∀ op, (∀ b, s.hs h = some b → (s.step op = .ok (s, .illTyped)) ∨
          (∃ e, s.step op = .throw e) ∨ s.step op = .ub ∨
          ∃ t kd, s.step op = s.give ⟨kd, t⟩ ∧ kd ≠ .self ∧ (∀ o, t = some o → b.target = some o) ∧
            ((b.kind = .self ∨ b.kind = .weak) → kd ≠ .weak → ∀ o, t = some o → s.alive o = true) ∧
            (b.kind = .self → ∀ o, t = some o → s.alive o = true)) →
        (s.hs h = none → s.step op = .ok (s, .illTyped)) → step w op = .ok (w1, .handle k) →
        ∃ b t kd, s.hs h = some b ∧ k = s.nextH ∧ Sim w1 (s.push ⟨kd, t⟩) [] ∧ kd ≠ .self ∧
          (∀ o, t = some o → b.target = some o) ∧
          ((b.kind = .self ∨ b.kind = .weak) → kd ≠ .weak → ∀ o, t = some o → s.alive o = true) ∧
          (b.kind = .self → ∀ o, t = some o → s.alive o = true) := by
      intro op h1 h0 hst
      have hmm := match_step hsim op
      rw [hst] at hmm
      cases hb : s.hs h with
      | none => rw [h0 hb] at hmm; exact (by cases hmm.1)
      | some b =>
        rcases h1 b hb with a | ⟨e, a⟩ | a | ⟨t, kd, a, a1, a2, a3, a4⟩
        · rw [a] at hmm; exact (by cases hmm.1)
        · rw [a] at hmm; exact hmm.elim
        · rw [a] at hmm; exact hmm.elim
        · rw [a] at hmm
          refine ⟨b, t, kd, rfl, ?_, hmm.2, a1, a2, a3, a4⟩
          have := hmm.1
          injection this
    have sh : ∀ b t, s.shared b = .ok t → (∀ o, t = some o → b.target = some o) ∧
        ((b.kind = .self ∨ b.kind = .weak) → ∀ o, t = some o → s.alive o = true) := by
      intro b t ht
      unfold Ideal.shared at ht
      split at ht
      · cases ht
      · rename_i o hk ho
        split at ht
        · rename_i hal
          cases ok_inj ht
          exact ⟨fun o' ho' => by cases ho'; exact ho, fun _ o' ho' => by cases ho'; exact hal⟩
        · cases ht
      · rename_i t' hk
        cases ok_inj ht
        refine ⟨fun o' ho' => ?_, fun _ o' ho' => ?_⟩
        · exact (Option.filter_eq_some_iff.mp ho').1
        · exact (Option.filter_eq_some_iff.mp ho').2
      · rename_i hk1 hk2 hk3
        cases ok_inj ht
        refine ⟨fun _ h => h, fun hk o ho => ?_⟩
        rcases hk with hk | hk
        · exact absurd ho (fun hh => hk3 o hk hh)
        · exact absurd hk hk1
    rcases hm with hm | hm | hm
    · refine gen _ (fun b hb => ?_) (fun hb => by simp only [Ideal.step, hb]) hm
      simp only [Ideal.step, hb]
      split
      · exact Or.inl rfl
      · cases ht : s.shared b with
        | throw e => exact Or.inr (Or.inl ⟨e, rfl⟩)
        | ub => exact Or.inr (Or.inr (Or.inl rfl))
        | ok t =>
          have := sh b t ht
          exact Or.inr (Or.inr (Or.inr ⟨t, .strong, rfl, (fun h => by cases h), this.1, fun a _ => this.2 a, fun a => this.2 (Or.inl a)⟩))
    · refine gen _ (fun b hb => ?_) (fun hb => by simp only [Ideal.step, hb]) hm
      simp only [Ideal.step, hb]
      split
      · rename_i hk
        refine Or.inr (Or.inr (Or.inr ⟨b.target, .weak, by rw [← hk], (fun h => by cases h), fun _ h => h,
          fun _ hn => absurd rfl hn, fun hs => by rw [hk] at hs; cases hs⟩))
      · cases ht : s.shared b with
        | throw e => exact Or.inr (Or.inl ⟨e, rfl⟩)
        | ub => exact Or.inr (Or.inr (Or.inl rfl))
        | ok t =>
          have := sh b t ht
          exact Or.inr (Or.inr (Or.inr ⟨t, .weak, rfl, (fun h => by cases h), this.1, fun a _ => this.2 a, fun a => this.2 (Or.inl a)⟩))
    · refine gen _ (fun b hb => ?_) (fun hb => by simp only [Ideal.step, hb]) hm
      simp only [Ideal.step, hb]
      split
      · exact Or.inl rfl
      · cases ht : s.shared b with
        | throw e => exact Or.inr (Or.inl ⟨e, rfl⟩)
        | ub => exact Or.inr (Or.inr (Or.inl rfl))
        | ok t =>
          have := sh b t ht
          exact Or.inr (Or.inr (Or.inr ⟨t, .value, rfl, (fun h => by cases h), this.1, fun a _ => this.2 a, fun a => this.2 (Or.inl a)⟩))
  obtain ⟨b, t, kd, hb, hk, hsim1, hkd, hbt, hal, hal2⟩ := main
  subst hk
  have hhlt : h < s.nextH := by
    cases hx : w.hs h with
    | none => rw [hsim.noslot hx] at hb; cases hb
    | some x => rw [hsim.nextH]; exact hsim.lt hx
  have hk1 : (s.push ⟨kd, t⟩).hs s.nextH = some ⟨kd, t⟩ := by
    show (if s.nextH = s.nextH then some (⟨kd, t⟩ : Bound) else _) = _
    rw [if_pos rfl]
  have hh1 : (s.push ⟨kd, t⟩).hs h = some b := by
    show (if h = s.nextH then _ else s.hs h) = _
    rw [if_neg (by omega)]; exact hb
  -- the write
  have hmw := match_step hsim1 (.write s.nextH v)
  rw [hw] at hmw
  simp only [Ideal.step, hk1] at hmw
  cases hd : (s.push ⟨kd, t⟩).deref ⟨kd, t⟩ with
  | throw e => rw [hd] at hmw; exact hmw.elim
  | ub => rw [hd] at hmw; exact hmw.elim
  | ok o =>
    rw [hd] at hmw
    have hsim2 : Sim w2 ((s.push ⟨kd, t⟩).put o v) [] := hmw.2
    have hto : t = some o := by
      unfold Ideal.deref at hd
      cases t with
      | none => cases hd
      | some o' =>
        dsimp only at hd
        split at hd
        · exact congrArg some (ok_inj hd)
        · exact congrArg some (ok_inj hd)
        · split at hd
          · exact congrArg some (ok_inj hd)
          · cases hd
        · split at hd
          · exact congrArg some (ok_inj hd)
          · cases hd
    have hbo := hbt o hto
    have halive : b.kind = .self ∨ b.kind = .weak → (s.push ⟨kd, t⟩).alive o = true := by
      intro hbk
      by_cases hkw : kd = .weak
      · subst hkw; subst hto
        unfold Ideal.deref at hd
        dsimp only at hd
        split at hd
        · assumption
        · cases hd
      · refine List.any_eq_true.mpr ⟨s.nextH, List.mem_range.mpr (Nat.lt_succ_self _), ?_⟩
        unfold Ideal.owns
        rw [hk1, hto]
        revert hkw hkd
        cases kd <;> simp [Kind.owning]
    have hderef : ((s.push ⟨kd, t⟩).put o v).deref b = .ok o := by
      have : ((s.push ⟨kd, t⟩).put o v).deref b = (s.push ⟨kd, t⟩).deref b := rfl
      rw [this]
      unfold Ideal.deref
      rw [hbo]
      dsimp only
      cases hbk : b.kind with
      | value => rfl
      | strong => rfl
      | self => dsimp only; rw [if_pos (halive (Or.inl hbk))]
      | weak => dsimp only; rw [if_pos (halive (Or.inr hbk))]
    have := read_of hsim2 (b := b) hh1 hderef
    rw [this]
    show Res.ok (w2, Out.val (if o = o then v else _)) = _
    rw [if_pos rfl]

/-! ## Witnesses -/

/-- A history with all kinds of references: copying a value reference copies the value, strong and weak references
    share it, dropping the last owner expires the weak one. -/
def demo : List Op :=
  [.newValue 7, .copyValue 0, .write 1 8, .read 0, .strongOf 0, .weakOf 2, .write 3 9, .read 0, .drop 0, .isExpired 3,
   .drop 2, .isExpired 3, .read 3, .isNull 3, .read 1]

theorem C46_demo : outs (run {} demo) = some [.handle 0, .handle 1, .unit, .val 7, .handle 2, .handle 3, .unit, .val 9,
    .unit, .bool false, .unit, .bool true, .exn .expiredReference, .bool true, .val 8] := by rfl

/-- The hypotheses of the value semantics theorem hold for a history with copies and moves. -/
example : NoSharing {} [.newValue 7, .copyValue 0, .strongOf 0, .assign 1 0, .move 1] := by
  refine ⟨id, ?_⟩
  show NoSharing _ _
  refine ⟨id, ?_⟩
  show NoSharing _ _
  refine ⟨id, ?_⟩
  show NoSharing _ _
  refine ⟨?_, ?_⟩
  · rintro ⟨bd, bc, h1, h2, _, h4⟩
    have : bc = ⟨.value, some 0⟩ := by injection h2 with h2; exact h2.symm
    rw [this] at h4; cases h4
  · show NoSharing _ _
    exact ⟨id, trivial⟩

/-- Undefined behaviour is possible with `self`: the wrapper does not keep its object alive. -/
theorem C46_self_dangles : run {} [.newValue 1, .selfOf 0, .drop 0, .read 1] = .ub := by rfl

/-- Finding: a value reference that became null by assignment cannot be bound to a strong reference (the raw-pointer
    alternative is active), one that became null by `reset()` can. -/
theorem C46_null_by_assignment_differs :
    outs (run {} [.newValue 1, .newValue 2, .reset 0, .assign 1 0, .strongOf 0, .strongOf 1]) =
      some [.handle 0, .handle 1, .unit, .unit, .handle 2, .exn .illegalReference] := by rfl

/-- Finding: moving from a value reference leaves it null if the target had a value, and untouched if it had none. -/
theorem C46_move_assign_inconsistent :
    outs (run {} [.newValue 1, .newValue 2, .assignMove 1 0, .isNull 0]) = some [.handle 0, .handle 1, .unit, .bool true] ∧
    outs (run {} [.newValue 1, .newValue 2, .reset 1, .assignMove 1 0, .isNull 0]) =
      some [.handle 0, .handle 1, .unit, .unit, .bool false] := ⟨by rfl, by rfl⟩

/-- Finding: assigning a strong reference to a `self` wrapper of the same object does not make it an owner. -/
theorem C46_self_assign_not_owner :
    run {} [.newStrong 1, .selfOf 0, .assign 1 0, .drop 0, .read 1] = .ub ∧
    outs (run {} [.newStrong 1, .newValue 5, .assign 1 0, .drop 0, .read 1]) =
      some [.handle 0, .handle 1, .unit, .unit, .val 1] := ⟨by rfl, by rfl⟩

end Verif.Ref
