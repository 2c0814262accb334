import Verif.Cont.VecSpec
/-!
# C37: vectors behave as lists
-/

namespace Verif.Cont

open VWorld

variable {α : Type}

theorem lists_length (w : VWorld α) : w.lists.length = w.objs.length := by simp [lists]

theorem lists_at (w : VWorld α) (o : Nat) : w.lists.at o = (w.get? o).map (·.data) := by
  unfold Lists.at VWorld.get? lists
  rw [List.getElem?_map]
  cases w.objs[o]? with
  | none => rfl
  | some v => by_cases h : v.alive = true <;> simp [h]

theorem get?_alive {w : VWorld α} {o : Nat} {v : Vec α} (h : w.get? o = some v) : v.alive = true ∧ w.objs[o]? = some v := by
  unfold VWorld.get? at h
  split at h
  · next u hu =>
    split at h
    · next ha => cases h; exact ⟨ha, hu⟩
    · cases h
  · cases h

theorem lists_put {w : VWorld α} {o : Nat} (v : Vec α) : (w.put o v).lists = w.lists.set o (if v.alive then some v.data else none) := by
  unfold put lists
  rw [List.map_set]

theorem lists_put_alive {w : VWorld α} {o : Nat} {v : Vec α} (h : v.alive = true) : (w.put o v).lists = w.lists.set o (some v.data) := by
  rw [lists_put, if_pos h]

theorem lists_store {w : VWorld α} {o : Nat} {v : Vec α} (h : v.alive = true) (d : List α) :
    (w.store o v d).lists = w.lists.set o (some d) := by
  unfold store
  split
  · rw [lists_put_alive (v := { v with data := d }) h]
  · show (w.put o { v with data := d, cap := d.length, buf := w.nextBuf }).lists = _
    rw [lists_put_alive (v := { v with data := d, cap := d.length, buf := w.nextBuf }) h]

theorem lists_add (w : VWorld α) (d : List α) : ((w.add d).1.lists, (w.add d).2) = (w.lists ++ [some d], .ok (.obj w.lists.length)) := by
  unfold add lists
  simp

theorem lists_set_same {w : VWorld α} {o : Nat} {v : Vec α} (h : w.get? o = some v) : w.lists.set o (some v.data) = w.lists := by
  obtain ⟨ha, hv⟩ := get?_alive h
  apply List.ext_getElem?
  intro j
  rw [List.getElem?_set]
  split
  · next hj =>
    subst hj
    unfold lists
    rw [List.getElem?_map, hv]
    have := (List.getElem?_eq_some_iff.mp hv).1
    simp [this, ha]
  · rfl

theorem lists_ref {w : VWorld α} {o : Nat} {v : Vec α} (h : w.get? o = some v) (idx : Nat) : (w.ref o v idx).1.lists = w.lists := by
  obtain ⟨ha, hv⟩ := get?_alive h
  unfold VWorld.ref
  split
  · rfl
  · show (w.put o { v with ctl := some w.nextCtl }).lists = _
    rw [lists_put_alive (v := { v with ctl := some w.nextCtl }) ha]
    show w.lists.set o (some v.data) = _
    exact lists_set_same h

/-! ## List facts -/

theorem padded_eq (dflt : α) (l : List α) (n : Nat) : l.take n ++ List.replicate (n - l.length) dflt = padded dflt l n := by
  unfold padded
  apply List.ext_getElem?
  intro j
  rw [List.getElem?_append, List.length_take, List.getElem?_map]
  by_cases hj : j < n
  · by_cases hl : j < l.length
    · rw [if_pos (by omega), List.getElem?_take, if_pos hj]
      simp [hj, hl]
    · rw [if_neg (by omega), List.getElem?_replicate, if_pos (by omega)]
      simp [hj, hl]
  · rw [if_neg (by omega), List.getElem?_replicate, if_neg (by omega)]
    simp [hj]

theorem set_eq_assigned (dflt : α) {l : List α} {i : Nat} (h : i < l.length) (x : α) : l.set i x = assigned dflt l i x := by
  unfold assigned
  apply List.ext_getElem?
  intro j
  rw [List.getElem?_set, List.getElem?_map, show max l.length (i + 1) = l.length by omega]
  by_cases hj : j < l.length
  · by_cases he : i = j
    · subst he; simp [hj]
    · rw [if_neg he]
      have : ¬ j = i := fun e => he e.symm
      simp [hj, this]
  · have : ¬ i = j := by omega
    rw [if_neg this]
    simp [hj]

theorem padded_set_eq_assigned (dflt : α) {l : List α} {i : Nat} (h : l.length ≤ i) (x : α) :
    (padded dflt l (i + 1)).set i x = assigned dflt l i x := by
  unfold assigned padded
  apply List.ext_getElem?
  intro j
  rw [List.getElem?_set, List.getElem?_map, List.getElem?_map, show max l.length (i + 1) = i + 1 by omega]
  by_cases hj : j < i + 1
  · by_cases he : i = j
    · subst he; simp
    · rw [if_neg he]
      have : ¬ j = i := fun e => he e.symm
      simp [hj, this]
  · have : ¬ i = j := by omega
    rw [if_neg this]
    simp [hj]

theorem padded_length (dflt : α) (l : List α) (n : Nat) : (padded dflt l n).length = n := by simp [padded]

theorem assignData_spec {maxSize : Nat} (dflt : α) (l : List α) {i : Nat} (hi : i + 1 < 2 ^ 64) (x : α) :
    assignData maxSize dflt l i x =
      if i < maxSize ∨ i < l.length then .ok (assigned dflt l i x) else .throw .logicError := by
  unfold assignData
  by_cases h : i ≥ l.length
  · rw [if_pos h]
    have e : (i + 1) % 2 ^ 64 = i + 1 := Nat.mod_eq_of_lt hi
    simp only [e]
    by_cases hs : i + 1 > maxSize
    · rw [if_pos hs, if_neg (by omega)]
    · rw [if_neg hs, padded_eq, padded_length, if_pos (show i < i + 1 by omega), padded_set_eq_assigned dflt h, if_pos (show i < maxSize ∨ i < l.length by omega)]
  · rw [if_neg h, if_pos (by omega), set_eq_assigned dflt (by omega)]

/-- The operations about lists do with the lists of a world, and return, what they should. -/
theorem exec_lists (maxSize : Nat) (dflt : α) (w : VWorld α) {op : VOp α} (hop : op.Proper)
    (hl : op.onLists = true) :
    ((w.exec maxSize dflt op).1.lists, (w.exec maxSize dflt op).2) = ideal maxSize dflt w.lists op := by
  have pair : ∀ (w' : VWorld α) (r : Res (VOut α)) (s : Lists α), w'.lists = s → ((w', r).1.lists, (w', r).2) = (s, r) := by
    intro w' r s h; rw [← h]
  cases op with
  | begin o => cases hl
  | fin o => cases hl
  | iteratorAt o i => cases hl
  | deref i => cases hl
  | incr i => cases hl
  | iterEq i j => cases hl
  | insert o i x => cases hl
  | make init => exact lists_add w init
  | copy o =>
    simp only [exec, ideal]
    rw [lists_at]
    cases hg : w.get? o with
    | none => rfl
    | some v => exact lists_add w v.data
  | move o =>
    simp only [exec, ideal]
    rw [lists_at]
    cases hg : w.get? o with
    | none => rfl
    | some v =>
      have ha := (get?_alive hg).1
      dsimp only [Option.map_some]
      rw [lists_length]
      apply pair
      unfold lists put
      simp only [List.map_append, List.map_set, List.map_cons, List.map_nil]
      simp [ha]
  | destroy o =>
    simp only [exec, ideal]
    rw [lists_at]
    cases hg : w.get? o with
    | none => rfl
    | some v => exact pair _ _ _ (lists_put _)
  | assignCopy dst src =>
    simp only [exec, ideal]
    rw [lists_at, lists_at]
    cases hd : w.get? dst with
    | none => rfl
    | some d =>
      cases hs : w.get? src with
      | none => rfl
      | some s =>
        dsimp only [Option.map_some]
        split
        · next he =>
          subst he
          rw [hd] at hs
          cases hs
          apply pair
          exact (lists_set_same hd).symm
        · exact pair _ _ _ (lists_store (get?_alive hd).1 _)
  | assignMove dst src =>
    have hne : dst ≠ src := hop
    simp only [exec, ideal]
    rw [lists_at, lists_at]
    cases hd : w.get? dst with
    | none => rfl
    | some d =>
      cases hs : w.get? src with
      | none => rfl
      | some s =>
        dsimp only [Option.map_some]
        rw [if_neg hne]
        apply pair
        show (put _ _ _).lists = _
        rw [lists_put_alive (by exact (get?_alive hs).1), lists_put_alive (by exact (get?_alive hd).1)]
  | front o =>
    simp only [exec, ideal]
    rw [lists_at]
    cases hg : w.get? o with
    | none => rfl
    | some v =>
      dsimp only [Option.map_some]
      cases v.data <;> rfl
  | back o =>
    simp only [exec, ideal]
    rw [lists_at]
    cases hg : w.get? o with
    | none => rfl
    | some v =>
      dsimp only [Option.map_some]
      rw [List.getLast?_eq_getElem?]
      cases v.data[v.data.length - 1]? <;> rfl
  | popBack o =>
    simp only [exec, ideal]
    rw [lists_at]
    cases hg : w.get? o with
    | none => rfl
    | some v =>
      dsimp only [Option.map_some]
      cases hv : v.data with
      | nil => rfl
      | cons x l =>
        rw [if_neg (by intro h; cases h)]
        apply pair
        rw [lists_put_alive (by exact (get?_alive hg).1)]
        show w.lists.set o (some ((x :: l).dropLast)) = _
        rw [List.dropLast_eq_take]
        rfl
  | pushBack o x =>
    simp only [exec, ideal]
    rw [lists_at]
    cases hg : w.get? o with
    | none => rfl
    | some v =>
      dsimp only [Option.map_some]
      by_cases h : v.data.length < maxSize
      · rw [if_neg (show ¬ v.data.length ≥ maxSize by omega), if_pos h]
        exact pair _ _ _ (lists_store (get?_alive hg).1 _)
      · rw [if_pos (show v.data.length ≥ maxSize by omega), if_neg h]
  | get o i =>
    simp only [exec, ideal]
    rw [lists_at]
    cases hg : w.get? o with
    | none => rfl
    | some v => rfl
  | set o i x =>
    simp only [exec, ideal]
    rw [lists_at]
    cases hg : w.get? o with
    | none => rfl
    | some v =>
      dsimp only [Option.map_some]
      by_cases h : i < v.data.length
      · rw [if_neg (show ¬ i ≥ v.data.length by omega), if_pos h]
        apply pair
        rw [lists_put_alive (by exact (get?_alive hg).1), ← set_eq_assigned dflt h]
      · rw [if_pos (show i ≥ v.data.length by omega), if_neg h]
  | assign o i x =>
    have hi : i + 1 < 2 ^ 64 := hop
    simp only [exec, ideal]
    rw [lists_at]
    cases hg : w.get? o with
    | none => rfl
    | some v =>
      dsimp only [Option.map_some]
      rw [assignData_spec dflt _ hi]
      by_cases h : i < maxSize ∨ i < v.data.length
      · rw [if_pos h, if_pos h]
        exact pair _ _ _ (lists_store (get?_alive hg).1 _)
      · rw [if_neg h, if_neg h]
  | resize o n =>
    simp only [exec, ideal]
    rw [lists_at]
    cases hg : w.get? o with
    | none => rfl
    | some v =>
      dsimp only [Option.map_some]
      by_cases h : n ≤ maxSize
      · rw [if_neg (show ¬ n > maxSize by omega), if_pos h, padded_eq]
        exact pair _ _ _ (lists_store (get?_alive hg).1 _)
      · rw [if_pos (show n > maxSize by omega), if_neg h]
  | reserve o n =>
    simp only [exec, ideal]
    rw [lists_at]
    cases hg : w.get? o with
    | none => rfl
    | some v =>
      dsimp only [Option.map_some]
      by_cases h : n ≤ maxSize
      · rw [if_neg (show ¬ n > maxSize by omega), if_pos h]
        split
        · rfl
        · apply pair
          show (put _ _ _).lists = _
          rw [lists_put_alive (by exact (get?_alive hg).1)]
          show w.lists.set o (some v.data) = _
          exact lists_set_same hg
      · rw [if_pos (show n > maxSize by omega), if_neg h]
  | sub o a b =>
    simp only [exec, ideal]
    rw [lists_at]
    cases hg : w.get? o with
    | none => rfl
    | some v =>
      dsimp only [Option.map_some]
      split
      · next h =>
        have e : (v.data.drop a).take (b - a) = [] := by
          rcases h with h | h
          · rw [show b - a = 0 by omega, List.take_zero]
          · rw [List.drop_eq_nil_of_le h, List.take_nil]
        rw [e]
        exact lists_add w []
      · next h =>
        rw [lists_add]
        have e : List.drop a (List.take (if b ≥ v.data.length then v.data.length else b) v.data) = List.take (b - a) (List.drop a v.data) := by
          rw [List.drop_take]
          split
          · next hb =>
            rw [List.take_of_length_le (by rw [List.length_drop]; omega), List.take_of_length_le (by rw [List.length_drop]; omega)]
          · rfl
        rw [e]
  | subEnd o b =>
    simp only [exec, ideal]
    rw [lists_at]
    cases hg : w.get? o with
    | none => rfl
    | some v =>
      dsimp only [Option.map_some]
      rw [lists_add]
      have e : List.take (if b ≥ v.data.length then v.data.length else b) v.data = List.take b v.data := by
        split
        · next hb => rw [List.take_of_length_le (by omega), List.take_of_length_le hb]
        · rfl
      rw [e]
  | sum a b =>
    simp only [exec, ideal]
    rw [lists_at, lists_at]
    cases ha : w.get? a with
    | none => rfl
    | some u =>
      cases hb : w.get? b with
      | none => rfl
      | some v =>
        dsimp only [Option.map_some]
        by_cases h : u.data.length + v.data.length ≤ maxSize
        · rw [if_neg (show ¬ u.data.length + v.data.length > maxSize by omega), if_pos h]
          exact lists_add _ _
        · rw [if_pos (show u.data.length + v.data.length > maxSize by omega), if_neg h]
  | sumAssign dst src =>
    have hne : dst ≠ src := hop
    simp only [exec, ideal]
    rw [lists_at, lists_at]
    cases ha : w.get? dst with
    | none => rfl
    | some u =>
      cases hb : w.get? src with
      | none => rfl
      | some v =>
        dsimp only [Option.map_some]
        rw [if_neg hne]
        by_cases h : u.data.length + v.data.length ≤ maxSize
        · rw [if_neg (show ¬ u.data.length + v.data.length > maxSize by omega), if_pos h]
          exact pair _ _ _ (lists_store (get?_alive ha).1 _)
        · rw [if_pos (show u.data.length + v.data.length > maxSize by omega), if_neg h]
  | size o =>
    simp only [exec, ideal]
    rw [lists_at]
    cases hg : w.get? o with
    | none => rfl
    | some v => rfl
  | clear o =>
    simp only [exec, ideal]
    rw [lists_at]
    cases hg : w.get? o with
    | none => rfl
    | some v => exact pair _ _ _ (lists_put_alive (by exact (get?_alive hg).1))

/-- Iterators do not change the lists. -/
theorem exec_iter (maxSize : Nat) (dflt : α) (w : VWorld α) {op : VOp α} (hl : op.onLists = false) (hi : ∀ o i x, op ≠ .insert o i x) :
    (w.exec maxSize dflt op).1.lists = w.lists := by
  cases op with
  | begin o =>
    simp only [exec]
    cases hg : w.get? o with
    | none => rfl
    | some v => exact lists_ref hg _
  | fin o =>
    simp only [exec]
    cases hg : w.get? o with
    | none => rfl
    | some v => exact lists_ref hg _
  | iteratorAt o i =>
    simp only [exec]
    cases hg : w.get? o with
    | none => rfl
    | some v =>
      dsimp only
      split
      · rfl
      · exact lists_ref hg _
  | deref i =>
    simp only [exec]
    split
    · split
      · rfl
      · split <;> rfl
    · rfl
  | incr i =>
    simp only [exec]
    split
    · split <;> rfl
    · rfl
  | iterEq i j =>
    simp only [exec]
    split
    · split <;> rfl
    · rfl
  | insert o i x => exact absurd rfl (hi o i x)
  | _ => cases hl


/-- No operation on lists is undefined. -/
theorem ideal_defined (maxSize : Nat) (dflt : α) (s : Lists α) (op : VOp α) : (ideal maxSize dflt s op).2.Defined := by
  cases op <;> simp only [ideal] <;> (repeat' split) <;> exact trivial

/-! ## Iterators -/

/-- What matters for iterators: which vectors live and which control blocks they hold; which vector and control block an iterator
    refers to. -/
structure Skel where
  objs : List (Bool × Option Nat)
  its : List (Nat × Nat)
  next : Nat

def VWorld.skel (w : VWorld α) : Skel := ⟨w.objs.map fun v => (v.alive, v.ctl), w.its.map fun i => (i.ctl, i.obj), w.nextCtl⟩

inductive SkelStep : Skel → Skel → Prop
  | same (s) : SkelStep s s
  | add (s) : SkelStep s { s with objs := s.objs ++ [(true, none)] }
  | destroy (s o c) : s.objs[o]? = some (true, c) → SkelStep s { s with objs := s.objs.set o (false, none) }
  | ref (s o c) : s.objs[o]? = some (true, some c) → SkelStep s { s with its := s.its ++ [(c, o)] }
  | first (s o) : s.objs[o]? = some (true, none) →
      SkelStep s { objs := s.objs.set o (true, some s.next), its := s.its ++ [(s.next, o)], next := s.next + 1 }

structure Skel.Inv (s : Skel) : Prop where
  live : ∀ (o : Nat) c, s.objs[o]? = some (false, c) → c = none
  owner : ∀ (i c o : Nat), s.its[i]? = some (c, o) → c < s.next ∧ ∃ a d, s.objs[o]? = some (a, d) ∧ (a = true → d = some c)
  unique : ∀ (i c o : Nat), s.its[i]? = some (c, o) → ∀ (o' : Nat) a, s.objs[o']? = some (a, some c) → o' = o
  fresh : ∀ (o : Nat) a c, s.objs[o]? = some (a, some c) → c < s.next
  apart : ∀ (o o' : Nat) a a' c, s.objs[o]? = some (a, some c) → s.objs[o']? = some (a', some c) → o = o'

theorem get?_append_single {β} {l : List β} {x y : β} {i : Nat} (h : (l ++ [x])[i]? = some y) : l[i]? = some y ∨ (i = l.length ∧ y = x) := by
  rw [List.getElem?_append] at h
  split at h
  · exact Or.inl h
  · next hi =>
    by_cases he : i - l.length = 0
    · rw [he] at h; cases h; exact Or.inr ⟨by omega, rfl⟩
    · obtain ⟨k, hk⟩ : ∃ k, i - l.length = k + 1 := ⟨i - l.length - 1, by omega⟩
      rw [hk] at h
      cases h

theorem get?_set_cases {β} {l : List β} {x y : β} {o i : Nat} (h : (l.set o x)[i]? = some y) :
    (i = o ∧ y = x ∧ o < l.length) ∨ (i ≠ o ∧ l[i]? = some y) := by
  rw [List.getElem?_set] at h
  split at h
  · next he =>
    split at h
    · next hl => cases h; exact Or.inl ⟨he.symm, rfl, hl⟩
    · cases h
  · next he => exact Or.inr ⟨fun e => he e.symm, h⟩

theorem inv_step {s t : Skel} (hs : s.Inv) (h : SkelStep s t) : t.Inv := by
  cases h with
  | same => exact hs
  | add =>
    refine ⟨?_, ?_, ?_, ?_, ?_⟩
    · intro o c h
      rcases get?_append_single h with h | ⟨_, h⟩
      · exact hs.live o c h
      · cases h
    · intro i c o h
      obtain ⟨h1, a, d, h2, h3⟩ := hs.owner i c o h
      refine ⟨h1, a, d, ?_, h3⟩
      show (s.objs ++ [(true, none)])[o]? = _
      rw [List.getElem?_append_left (List.getElem?_eq_some_iff.mp h2).1]
      exact h2
    · intro i c o h o' a g
      rcases get?_append_single g with g | ⟨_, g⟩
      · exact hs.unique i c o h o' a g
      · cases g
    · intro o a c h
      rcases get?_append_single h with h | ⟨_, h⟩
      · exact hs.fresh o a c h
      · cases h
    · intro o o' a a' c h g
      rcases get?_append_single h with h | ⟨_, h⟩
      · rcases get?_append_single g with g | ⟨_, g⟩
        · exact hs.apart o o' a a' c h g
        · cases g
      · cases h
  | destroy o c ho =>
    refine ⟨?_, ?_, ?_, ?_, ?_⟩
    · intro o' c h
      rcases get?_set_cases h with ⟨_, h, _⟩ | ⟨_, h⟩
      · cases h; rfl
      · exact hs.live o' c h
    · intro i c' o' h
      obtain ⟨h1, a, d, h2, h3⟩ := hs.owner i c' o' h
      refine ⟨h1, ?_⟩
      by_cases he : o' = o
      · subst he
        refine ⟨false, none, ?_, fun h => by cases h⟩
        show (s.objs.set o' (false, none))[o']? = _
        rw [List.getElem?_set_self (List.getElem?_eq_some_iff.mp ho).1]
      · refine ⟨a, d, ?_, h3⟩
        show (s.objs.set o (false, none))[o']? = _
        rw [List.getElem?_set_ne (fun e => he e.symm)]
        exact h2
    · intro i c o' h o'' a g
      rcases get?_set_cases g with ⟨_, g, _⟩ | ⟨_, g⟩
      · cases g
      · exact hs.unique i c o' h o'' a g
    · intro o' a c h
      rcases get?_set_cases h with ⟨_, h, _⟩ | ⟨_, h⟩
      · cases h
      · exact hs.fresh o' a c h
    · intro o1 o2 a a' c h g
      rcases get?_set_cases h with ⟨_, h, _⟩ | ⟨_, h⟩
      · cases h
      · rcases get?_set_cases g with ⟨_, g, _⟩ | ⟨_, g⟩
        · cases g
        · exact hs.apart o1 o2 a a' c h g
  | ref o c ho =>
    refine ⟨hs.live, ?_, ?_, hs.fresh, hs.apart⟩
    · intro i c' o' h
      rcases get?_append_single h with h | ⟨_, h⟩
      · exact hs.owner i c' o' h
      · cases h
        exact ⟨hs.fresh _ _ _ ho, _, _, ho, fun _ => rfl⟩
    · intro i c' o' h o'' a g
      rcases get?_append_single h with h | ⟨_, h⟩
      · exact hs.unique i c' o' h o'' a g
      · cases h
        exact hs.apart _ _ _ _ _ g ho
  | first o ho =>
    have hlt := (List.getElem?_eq_some_iff.mp ho).1
    refine ⟨?_, ?_, ?_, ?_, ?_⟩
    · intro o' c h
      rcases get?_set_cases h with ⟨_, h, _⟩ | ⟨_, h⟩
      · cases h
      · exact hs.live o' c h
    · intro i c' o' h
      show c' < s.next + 1 ∧ ∃ a d, (s.objs.set o (true, some s.next))[o']? = some (a, d) ∧ _
      rcases get?_append_single h with h | ⟨_, h⟩
      · obtain ⟨h1, a, d, h2, h3⟩ := hs.owner i c' o' h
        refine ⟨by omega, ?_⟩
        by_cases he : o' = o
        · subst he
          rw [ho] at h2
          cases h2
          cases h3 rfl
        · rw [List.getElem?_set_ne (fun e => he e.symm)]
          exact ⟨a, d, h2, h3⟩
      · cases h
        rw [List.getElem?_set_self hlt]
        exact ⟨by omega, _, _, rfl, fun _ => rfl⟩
    · intro i c' o' h o'' a g
      rcases get?_append_single h with h | ⟨_, h⟩
      · rcases get?_set_cases g with ⟨_, g, _⟩ | ⟨_, g⟩
        · cases g
          have := (hs.owner i _ o' h).1
          exact absurd this (Nat.lt_irrefl _)
        · exact hs.unique i c' o' h o'' a g
      · cases h
        rcases get?_set_cases g with ⟨e, _, _⟩ | ⟨_, g⟩
        · exact e
        · exact absurd (hs.fresh _ _ _ g) (Nat.lt_irrefl _)
    · intro o' a c h
      show c < s.next + 1
      rcases get?_set_cases h with ⟨_, h, _⟩ | ⟨_, h⟩
      · cases h; omega
      · have := hs.fresh o' a c h; omega
    · intro o1 o2 a a' c h g
      rcases get?_set_cases h with ⟨e1, h, _⟩ | ⟨_, h⟩
      · rcases get?_set_cases g with ⟨e2, g, _⟩ | ⟨_, g⟩
        · rw [e1, e2]
        · cases h
          exact absurd (hs.fresh _ _ _ g) (Nat.lt_irrefl _)
      · rcases get?_set_cases g with ⟨e2, g, _⟩ | ⟨_, g⟩
        · cases g
          exact absurd (hs.fresh _ _ _ h) (Nat.lt_irrefl _)
        · exact hs.apart o1 o2 a a' c h g

theorem skel_get {w : VWorld α} {o : Nat} {v : Vec α} (h : w.get? o = some v) : w.skel.objs[o]? = some (true, v.ctl) := by
  obtain ⟨h1, h2⟩ := get?_alive h
  unfold VWorld.skel
  rw [List.getElem?_map, h2, ← h1]
  rfl

/-- Changing the content of a vector. -/
theorem skel_put {w : VWorld α} {o : Nat} {v u : Vec α} (h : w.get? o = some v) (ha : u.alive = true) (hc : u.ctl = v.ctl) :
    (w.put o u).skel = w.skel := by
  unfold VWorld.skel VWorld.put
  congr 1
  apply List.ext_getElem?
  intro j
  obtain ⟨h1, h2⟩ := get?_alive h
  rw [List.getElem?_map, List.getElem?_set, List.getElem?_map]
  split
  · next he =>
    subst he
    rw [if_pos (List.getElem?_eq_some_iff.mp h2).1, h2]
    show some (u.alive, u.ctl) = some (v.alive, v.ctl)
    rw [ha, hc, h1]
  · rfl

theorem skel_store {w : VWorld α} {o : Nat} {v : Vec α} (h : w.get? o = some v) (d : List α) : (w.store o v d).skel = w.skel := by
  unfold store
  split
  · exact skel_put h (by exact (get?_alive h).1) rfl
  · exact skel_put h (by exact (get?_alive h).1) rfl

theorem skel_add (w : VWorld α) (d : List α) : SkelStep w.skel (w.add d).1.skel := by
  have : (w.add d).1.skel = { w.skel with objs := w.skel.objs ++ [(true, none)] } := by
    unfold add VWorld.skel
    simp
  rw [this]
  exact .add _

theorem skel_ref {w : VWorld α} {o : Nat} {v : Vec α} (h : w.get? o = some v) (idx : Nat) : SkelStep w.skel (w.ref o v idx).1.skel := by
  have hg := skel_get h
  unfold VWorld.ref
  cases hc : v.ctl with
  | some c =>
    rw [hc] at hg
    have := SkelStep.ref w.skel o c hg
    have e : ({ w with its := w.its ++ [⟨c, o, idx⟩] } : VWorld α).skel = { w.skel with its := w.skel.its ++ [(c, o)] } := by
      unfold VWorld.skel; simp
    exact e ▸ this
  | none =>
    rw [hc] at hg
    have := SkelStep.first w.skel o hg
    have e : ({ w.put o { v with ctl := some w.nextCtl } with its := w.its ++ [⟨w.nextCtl, o, idx⟩], nextCtl := w.nextCtl + 1 } : VWorld α).skel =
        { objs := w.skel.objs.set o (true, some w.skel.next), its := w.skel.its ++ [(w.skel.next, o)], next := w.skel.next + 1 } := by
      unfold VWorld.skel put
      have ha := (get?_alive h).1
      simp [List.map_set, ha]
    exact e ▸ this

/-- All operations are steps of the skeleton. -/
theorem skel_exec (maxSize : Nat) (dflt : α) (w : VWorld α) (op : VOp α) : SkelStep w.skel (w.exec maxSize dflt op).1.skel := by
  have same : ∀ {w' : VWorld α}, w'.skel = w.skel → SkelStep w.skel w'.skel := fun h => h ▸ .same _
  cases op with
  | make init => exact skel_add w init
  | copy o =>
    simp only [exec]
    cases hg : w.get? o with
    | none => exact .same _
    | some v => exact skel_add w _
  | move o =>
    simp only [exec]
    cases hg : w.get? o with
    | none => exact .same _
    | some v =>
      have h1 := skel_put (u := { v with data := [], cap := 0, buf := w.nextBuf }) hg (by exact (get?_alive hg).1) rfl
      have h2 := SkelStep.add (w.put o { v with data := [], cap := 0, buf := w.nextBuf }).skel
      rw [h1] at h2
      refine Eq.mp ?_ h2
      congr 1
      rw [← h1]
      unfold VWorld.skel
      simp
  | destroy o =>
    simp only [exec]
    cases hg : w.get? o with
    | none => exact .same _
    | some v =>
      have h2 := SkelStep.destroy w.skel o _ (skel_get hg)
      refine Eq.mp ?_ h2
      congr 1
      unfold VWorld.skel put
      simp [List.map_set]
  | assignCopy dst src =>
    simp only [exec]
    cases hd : w.get? dst with
    | none => exact .same _
    | some d =>
      cases hs : w.get? src with
      | none => exact .same _
      | some s =>
        dsimp only
        split
        · exact .same _
        · exact same (skel_store hd _)
  | assignMove dst src =>
    simp only [exec]
    cases hd : w.get? dst with
    | none => exact .same _
    | some d =>
      cases hs : w.get? src with
      | none => exact .same _
      | some s =>
        dsimp only
        apply same
        have h1 : (w.put dst { d with data := s.data, cap := s.cap, buf := s.buf }).skel = w.skel :=
          skel_put hd (by exact (get?_alive hd).1) rfl
        by_cases he : dst = src
        · subst he
          rw [hd] at hs
          cases hs
          rw [if_pos rfl]
          have : (w.put dst { d with data := d.data, cap := d.cap, buf := d.buf }).get? dst = some d := by
            unfold get? put
            obtain ⟨g1, g2⟩ := get?_alive hd
            rw [List.getElem?_set_self (List.getElem?_eq_some_iff.mp g2).1]
            simp [g1]
          exact (skel_put (u := { d with data := [], cap := 0, buf := w.nextBuf }) this (get?_alive hd).1 rfl).trans h1
        · rw [if_neg he]
          have : (w.put dst { d with data := s.data, cap := s.cap, buf := s.buf }).get? src = some s := by
            unfold get? put
            obtain ⟨g1, g2⟩ := get?_alive hs
            rw [List.getElem?_set_ne he, g2]
            simp [g1]
          exact (skel_put (u := { s with data := [], cap := 0, buf := w.nextBuf }) this (get?_alive hs).1 rfl).trans h1
  | front o =>
    simp only [exec]
    cases hg : w.get? o <;> exact .same _
  | back o =>
    simp only [exec]
    cases hg : w.get? o <;> exact .same _
  | popBack o =>
    simp only [exec]
    cases hg : w.get? o with
    | none => exact .same _
    | some v =>
      dsimp only
      split
      · exact .same _
      · exact same (skel_put hg (by exact (get?_alive hg).1) rfl)
  | pushBack o x =>
    simp only [exec]
    cases hg : w.get? o with
    | none => exact .same _
    | some v =>
      dsimp only
      split
      · exact .same _
      · exact same (skel_store hg _)
  | get o i =>
    simp only [exec]
    cases hg : w.get? o <;> exact .same _
  | set o i x =>
    simp only [exec]
    cases hg : w.get? o with
    | none => exact .same _
    | some v =>
      dsimp only
      split
      · exact .same _
      · exact same (skel_put hg (by exact (get?_alive hg).1) rfl)
  | assign o i x =>
    simp only [exec]
    cases hg : w.get? o with
    | none => exact .same _
    | some v =>
      dsimp only
      split
      · exact same (skel_store hg _)
      · exact .same _
      · exact .same _
  | resize o n =>
    simp only [exec]
    cases hg : w.get? o with
    | none => exact .same _
    | some v =>
      dsimp only
      split
      · exact .same _
      · exact same (skel_store hg _)
  | reserve o n =>
    simp only [exec]
    cases hg : w.get? o with
    | none => exact .same _
    | some v =>
      dsimp only
      split
      · exact .same _
      · split
        · exact .same _
        · exact same (skel_put hg (by exact (get?_alive hg).1) rfl)
  | sub o a b =>
    simp only [exec]
    cases hg : w.get? o with
    | none => exact .same _
    | some v =>
      dsimp only
      split
      · exact skel_add w _
      · exact skel_add w _
  | subEnd o b =>
    simp only [exec]
    cases hg : w.get? o with
    | none => exact .same _
    | some v => exact skel_add w _
  | sum a b =>
    simp only [exec]
    cases ha : w.get? a with
    | none => exact .same _
    | some u =>
      cases hb : w.get? b with
      | none => exact .same _
      | some v =>
        dsimp only
        split
        · exact .same _
        · exact skel_add w _
  | sumAssign dst src =>
    simp only [exec]
    cases hd : w.get? dst with
    | none => exact .same _
    | some d =>
      cases hs : w.get? src with
      | none => exact .same _
      | some s =>
        dsimp only
        split
        · exact .same _
        · split
          · exact .same _
          · exact same (skel_store hd _)
  | size o =>
    simp only [exec]
    cases hg : w.get? o <;> exact .same _
  | clear o =>
    simp only [exec]
    cases hg : w.get? o with
    | none => exact .same _
    | some v => exact same (skel_put hg (by exact (get?_alive hg).1) rfl)
  | begin o =>
    simp only [exec]
    cases hg : w.get? o with
    | none => exact .same _
    | some v => exact skel_ref hg _
  | fin o =>
    simp only [exec]
    cases hg : w.get? o with
    | none => exact .same _
    | some v => exact skel_ref hg _
  | iteratorAt o i =>
    simp only [exec]
    cases hg : w.get? o with
    | none => exact .same _
    | some v =>
      dsimp only
      split
      · exact .same _
      · exact skel_ref hg _
  | deref i =>
    simp only [exec]
    split
    · split
      · exact .same _
      · split <;> exact .same _
    · exact .same _
  | incr i =>
    simp only [exec]
    split
    · next it hit =>
      split
      · exact .same _
      · apply same
        unfold VWorld.skel
        dsimp only
        congr 1
        apply List.ext_getElem?
        intro j
        rw [List.getElem?_map, List.getElem?_set, List.getElem?_map]
        split
        · next he =>
          subst he
          rw [if_pos (List.getElem?_eq_some_iff.mp hit).1, hit]
          rfl
        · rfl
    · exact .same _
  | iterEq i j =>
    simp only [exec]
    split
    · split <;> exact .same _
    · exact .same _
  | insert o i x =>
    simp only [exec]
    cases hd : w.get? o with
    | none => exact .same _
    | some d =>
      cases hs : w.its[i]? with
      | none => exact .same _
      | some s =>
        dsimp only
        split
        · exact .same _
        · split
          · exact .same _
          · exact same (skel_store hd _)

theorem inv_run (maxSize : Nat) (dflt : α) (ops : List (VOp α)) : ∀ w : VWorld α, w.skel.Inv → (w.run maxSize dflt ops).skel.Inv := by
  induction ops with
  | nil => intro w h; exact h
  | cons op ops ih => intro w h; exact ih _ (inv_step h (skel_exec maxSize dflt w op))

theorem inv_empty : (VWorld.empty : VWorld α).skel.Inv := by
  refine ⟨?_, ?_, ?_, ?_, ?_⟩ <;> simp [VWorld.skel, empty]

/-- A control block has expired iff the vector the iterator belongs to has been destroyed. -/
theorem expired_iff {w : VWorld α} (h : w.skel.Inv) {i : Nat} {it : VIter} (hi : w.its[i]? = some it) :
    w.expired it.ctl = true ↔ w.get? it.obj = none := by
  have hs : w.skel.its[i]? = some (it.ctl, it.obj) := by unfold VWorld.skel; rw [List.getElem?_map, hi]; rfl
  obtain ⟨_, a, d, h2, h3⟩ := h.owner i _ _ hs
  have h2' := h2
  unfold VWorld.skel at h2'
  rw [List.getElem?_map] at h2'
  cases hv : w.objs[it.obj]? with
  | none => rw [hv] at h2'; cases h2'
  | some v =>
    rw [hv] at h2'
    cases h2'
    unfold expired get?
    rw [hv]
    dsimp only
    cases ha : v.alive with
    | true =>
      simp only [if_true]
      constructor
      · intro hx
        rw [Bool.not_eq_true'] at hx
        rw [List.any_eq_false] at hx
        have := hx v (List.mem_of_getElem? hv)
        rw [ha, h3 ha] at this
        simp at this
      · intro hx; cases hx
    | false =>
      simp only [Bool.false_eq_true, if_false]
      refine ⟨fun _ => trivial, fun _ => ?_⟩
      rw [Bool.not_eq_true', List.any_eq_false]
      intro u hu
      obtain ⟨o', ho'⟩ := List.getElem?_of_mem hu
      simp only [Bool.and_eq_true, beq_iff_eq, not_and]
      intro hua huc
      have hsu : w.skel.objs[o']? = some (u.alive, some it.ctl) := by
        unfold VWorld.skel; rw [List.getElem?_map, ho', ← huc]; rfl
      have := h.unique i _ _ hs o' _ hsu
      subst this
      rw [hv] at ho'
      cases ho'
      rw [ha] at hua
      cases hua

/-- How often an iterator is incremented. -/
def incrs (i : Nat) : List (VOp α) → Nat
  | [] => 0
  | .incr j :: ops => (if j = i then 1 else 0) + incrs i ops
  | _ :: ops => incrs i ops

theorem its_put (w : VWorld α) (o : Nat) (v : Vec α) : (w.put o v).its = w.its := rfl
theorem its_store (w : VWorld α) (o : Nat) (v : Vec α) (d : List α) : (w.store o v d).its = w.its := by unfold store; split <;> rfl
theorem its_ref (w : VWorld α) (o : Nat) (v : Vec α) (idx : Nat) : ∃ c, (w.ref o v idx).1.its = w.its ++ [⟨c, o, idx⟩] ∧
    (w.ref o v idx).2 = .ok (.iter w.its.length) := by
  unfold VWorld.ref; split <;> exact ⟨_, rfl, rfl⟩

/-- Operations other than increments leave existing iterators alone. -/
theorem its_exec (maxSize : Nat) (dflt : α) (w : VWorld α) (op : VOp α) (hop : ∀ j, op ≠ .incr j) {i : Nat} {it : VIter}
    (h : w.its[i]? = some it) : (w.exec maxSize dflt op).1.its[i]? = some it := by
  have ref : ∀ o v idx, (w.ref o v idx).1.its[i]? = some it := by
    intro o v idx
    obtain ⟨c, hc, _⟩ := its_ref w o v idx
    rw [hc, List.getElem?_append_left (List.getElem?_eq_some_iff.mp h).1, h]
  cases op <;> simp only [exec, add]
  case incr j => exact absurd rfl (hop j)
  all_goals (repeat' split)
  all_goals first
    | exact h
    | exact ref _ _ _
    | (rw [its_store]; exact h)

theorem its_incr (maxSize : Nat) (dflt : α) (w : VWorld α) (j : Nat) {i : Nat} {it : VIter} (h : w.its[i]? = some it)
    (hb : it.idx + 1 < 2 ^ 64 ∨ j ≠ i) :
    (w.exec maxSize dflt (.incr j)).1.its[i]? = some { it with idx := it.idx + if j = i then 1 else 0 } := by
  simp only [exec]
  by_cases he : j = i
  · subst he
    rw [h]
    dsimp only
    rw [if_neg (by rcases hb with hb | hb; omega; exact absurd rfl hb)]
    dsimp only
    rw [List.getElem?_set_self (List.getElem?_eq_some_iff.mp h).1]
    simp
  · rw [if_neg he]
    split
    · split
      · exact h
      · dsimp only
        rw [List.getElem?_set_ne he]
        exact h
    · exact h

theorem its_run (maxSize : Nat) (dflt : α) (ops : List (VOp α)) : ∀ (w : VWorld α) {i : Nat} {it : VIter}, w.its[i]? = some it →
    it.idx + incrs i ops < 2 ^ 64 → (w.run maxSize dflt ops).its[i]? = some { it with idx := it.idx + incrs i ops } := by
  induction ops with
  | nil => intro w i it h _; exact h
  | cons op ops ih =>
    intro w i it h hb
    show (run maxSize dflt (w.exec maxSize dflt op).1 ops).its[i]? = _
    by_cases hop : ∃ j, op = .incr j
    · obtain ⟨j, rfl⟩ := hop
      have e : incrs i (VOp.incr j :: ops) = (if j = i then 1 else 0) + incrs i ops := rfl
      rw [e] at hb ⊢
      have h1 := its_incr maxSize dflt w j h (by
        by_cases hj : j = i
        · rw [if_pos hj] at hb; left; omega
        · exact Or.inr hj)
      have := ih _ h1 (by dsimp only; omega)
      rw [this]
      dsimp only
      rw [Nat.add_assoc]
    · have hop : ∀ j, op ≠ .incr j := fun j e => hop ⟨j, e⟩
      have e : incrs i (op :: ops) = incrs i ops := by
        cases op <;> first | rfl | exact absurd rfl (hop _)
      rw [e] at hb ⊢
      exact ih _ (its_exec maxSize dflt w op hop h) hb

theorem positions_exec (maxSize : Nat) (dflt : α) (w : VWorld α) {op : VOp α} (h : op.onLists = true) :
    (w.exec maxSize dflt op).1.positions = w.positions := by
  unfold positions
  congr 1
  cases op <;> simp only [exec, add]
  all_goals first
    | cases h; done
    | skip
  all_goals (repeat' split)
  all_goals first
    | rfl
    | rw [its_store]

/-- Every operation does with the lists and the positions of the iterators what it should, and returns what it should. -/
theorem exec_all (maxSize : Nat) (dflt : α) (w : VWorld α) {op : VOp α} (hop : op.Proper) :
    ((w.exec maxSize dflt op).1.lists, (w.exec maxSize dflt op).1.positions) = (idealAll maxSize dflt w.lists w.positions op).1 ∧
    ((∀ i, op ≠ .deref i) → (∀ i j, op ≠ .iterEq i j) → (w.exec maxSize dflt op).2 = (idealAll maxSize dflt w.lists w.positions op).2) := by
  cases hl : op.onLists with
  | true =>
    have h1 := exec_lists maxSize dflt w hop hl
    have h2 := positions_exec maxSize dflt w hl
    have e : idealAll maxSize dflt w.lists w.positions op = (((ideal maxSize dflt w.lists op).1, w.positions), (ideal maxSize dflt w.lists op).2) := by
      cases op <;> first | rfl | cases hl
    rw [e, ← h1, h2]
    exact ⟨rfl, fun _ _ => rfl⟩
  | false =>
    have ref : ∀ o v idx, w.get? o = some v → (w.ref o v idx).1.lists = w.lists ∧ (w.ref o v idx).1.positions = w.positions ++ [idx] ∧
        (w.ref o v idx).2 = .ok (.iter w.positions.length) := by
      intro o v idx hg
      obtain ⟨c, h1, h2⟩ := its_ref w o v idx
      refine ⟨lists_ref hg idx, ?_, ?_⟩
      · unfold positions; rw [h1]; simp
      · rw [h2]; unfold positions; simp
    cases op with
    | begin o =>
      simp only [exec, idealAll]
      rw [lists_at]
      cases hg : w.get? o with
      | none => exact ⟨rfl, fun _ _ => rfl⟩
      | some v =>
        obtain ⟨h1, h2, h3⟩ := ref o v 0 hg
        dsimp only [Option.map_some]
        rw [h1, h2, h3]; exact ⟨rfl, fun _ _ => rfl⟩
    | fin o =>
      simp only [exec, idealAll]
      rw [lists_at]
      cases hg : w.get? o with
      | none => exact ⟨rfl, fun _ _ => rfl⟩
      | some v =>
        obtain ⟨h1, h2, h3⟩ := ref o v v.data.length hg
        dsimp only [Option.map_some]
        rw [h1, h2, h3]; exact ⟨rfl, fun _ _ => rfl⟩
    | iteratorAt o i =>
      simp only [exec, idealAll]
      rw [lists_at]
      cases hg : w.get? o with
      | none => exact ⟨rfl, fun _ _ => rfl⟩
      | some v =>
        obtain ⟨h1, h2, h3⟩ := ref o v i hg
        dsimp only [Option.map_some]
        by_cases h : i < v.data.length
        · rw [if_neg (show ¬ i ≥ v.data.length by omega), if_pos h, h1, h2, h3]; exact ⟨rfl, fun _ _ => rfl⟩
        · rw [if_pos (show i ≥ v.data.length by omega), if_neg h]; exact ⟨rfl, fun _ _ => rfl⟩
    | deref i =>
      refine ⟨?_, fun h => absurd rfl (h i)⟩
      simp only [exec, idealAll, ideal]
      (repeat' split) <;> rfl
    | iterEq i j =>
      refine ⟨?_, fun _ h => absurd rfl (h i j)⟩
      simp only [exec, idealAll, ideal]
      (repeat' split) <;> rfl
    | incr i =>
      simp only [exec, idealAll]
      have e : w.positions[i]? = (w.its[i]?).map (·.idx) := by unfold positions; rw [List.getElem?_map]
      rw [e]
      cases w.its[i]? with
      | none => exact ⟨rfl, fun _ _ => rfl⟩
      | some it =>
        dsimp only [Option.map_some]
        by_cases h : it.idx + 1 < 2 ^ 64
        · rw [if_neg (show ¬ it.idx + 1 ≥ 2 ^ 64 by omega), if_pos h]
          refine ⟨?_, fun _ _ => rfl⟩
          unfold positions lists
          rw [List.map_set]
        · rw [if_pos (show it.idx + 1 ≥ 2 ^ 64 by omega), if_neg h]; exact ⟨rfl, fun _ _ => rfl⟩
    | insert o i x =>
      simp only [exec, idealAll]
      have e : w.positions[i]? = (w.its[i]?).map (·.idx) := by unfold positions; rw [List.getElem?_map]
      rw [e, lists_at]
      cases hg : w.get? o with
      | none => exact ⟨rfl, fun _ _ => rfl⟩
      | some v =>
        cases w.its[i]? with
        | none => exact ⟨rfl, fun _ _ => rfl⟩
        | some it =>
          dsimp only [Option.map_some]
          by_cases h1 : it.idx > v.data.length
          · rw [if_pos h1, if_pos (show v.data.length < it.idx from h1)]; exact ⟨rfl, fun _ _ => rfl⟩
          · rw [if_neg h1, if_neg (show ¬ v.data.length < it.idx from h1)]
            by_cases h2 : v.data.length < maxSize
            · rw [if_neg (show ¬ v.data.length ≥ maxSize by omega), if_pos h2]
              refine ⟨?_, fun _ _ => rfl⟩
              rw [lists_store (get?_alive hg).1]
              unfold positions
              rw [its_store]
              simp
            · rw [if_pos (show v.data.length ≥ maxSize by omega), if_neg h2]; exact ⟨rfl, fun _ _ => rfl⟩
    | _ => cases hl

/-- The lists and positions after a program. -/
def idealRun (maxSize : Nat) (dflt : α) : Lists α → List Nat → List (VOp α) → Lists α × List Nat
  | s, ps, [] => (s, ps)
  | s, ps, op :: ops => idealRun maxSize dflt (idealAll maxSize dflt s ps op).1.1 (idealAll maxSize dflt s ps op).1.2 ops

/-- C37 (partial): after any program, with any number of vectors, copies, moves and iterators, the vectors hold what the same
    operations give on lists. What is missing: `VOp.Proper`, see `C37_fails_append_self`, `C37_fails_assign_last`. -/
theorem C37_content_partial (maxSize : Nat) (dflt : α) (ops : List (VOp α)) (hp : ∀ op ∈ ops, op.Proper) :
    let w := (VWorld.empty : VWorld α).run maxSize dflt ops
    (w.lists, w.positions) = idealRun maxSize dflt [] [] ops := by
  suffices ∀ (w : VWorld α), ((w.run maxSize dflt ops).lists, (w.run maxSize dflt ops).positions) =
      idealRun maxSize dflt w.lists w.positions ops from this empty
  induction ops with
  | nil => intro w; rfl
  | cons op ops ih =>
    intro w
    have ih := ih (fun p h => hp p (List.mem_cons_of_mem _ h)) (w.exec maxSize dflt op).1
    have h := (exec_all maxSize dflt w (hp op (List.mem_cons_self ..))).1
    show _ = idealRun maxSize dflt (idealAll maxSize dflt w.lists w.positions op).1.1 (idealAll maxSize dflt w.lists w.positions op).1.2 ops
    rw [← h]
    exact ih

/-- C37 (partial): and each operation returns what it returns for lists, in particular throws `IndexError` exactly for accesses out
    of range. -/
theorem C37_results_partial (maxSize : Nat) (dflt : α) (ops : List (VOp α)) (hp : ∀ op ∈ ops, op.Proper) (op : VOp α) (hop : op.Proper)
    (hd : ∀ i, op ≠ .deref i) (he : ∀ i j, op ≠ .iterEq i j) :
    (((VWorld.empty : VWorld α).run maxSize dflt ops).exec maxSize dflt op).2 =
      (idealAll maxSize dflt (idealRun maxSize dflt [] [] ops).1 (idealRun maxSize dflt [] [] ops).2 op).2 := by
  have h := C37_content_partial maxSize dflt ops hp
  dsimp only at h
  rw [← h]
  exact (exec_all maxSize dflt _ hop).2 hd he

/-- C37: an insertion goes before the position of the iterator; a position past the end is an error. -/
theorem C37_insert (maxSize : Nat) (dflt : α) (w : VWorld α) (o i p : Nat) (x : α) {l : List α} (ho : w.lists.at o = some l)
    (hi : w.positions[i]? = some p) :
    (p ≤ l.length → l.length < maxSize →
      (w.exec maxSize dflt (.insert o i x)).2 = .ok .none ∧
      (w.exec maxSize dflt (.insert o i x)).1.lists = w.lists.set o (some (l.take p ++ [x] ++ l.drop p))) ∧
    (l.length < p → (w.exec maxSize dflt (.insert o i x)).2 = .throw .invalidIterator ∧
      (w.exec maxSize dflt (.insert o i x)).1.lists = w.lists) := by
  have h := exec_all maxSize dflt w (op := .insert o i x) trivial
  have h2 := h.2 (fun _ e => by cases e) (fun _ _ e => by cases e)
  have h1 := congrArg Prod.fst h.1
  dsimp only at h1
  rw [h1, h2]
  simp only [idealAll, ho, hi]
  constructor
  · intro h3 h4
    rw [if_neg (show ¬ l.length < p by omega), if_pos h4]
    exact ⟨rfl, rfl⟩
  · intro h3
    rw [if_pos h3]
    exact ⟨rfl, rfl⟩

/-- Iterators have the same control block iff they belong to the same vector. -/
def Skel.Same (s : Skel) : Prop := ∀ (i j c d o p : Nat), s.its[i]? = some (c, o) → s.its[j]? = some (d, p) → (c = d ↔ o = p)

theorem same_step {s t : Skel} (hs : s.Inv) (hm : s.Same) (h : SkelStep s t) : t.Same := by
  cases h with
  | same => exact hm
  | add => exact hm
  | destroy => exact hm
  | ref o c ho =>
    have old : ∀ (i c' o' : Nat), s.its[i]? = some (c', o') → (c' = c ↔ o' = o) := by
      intro i c' o' h
      constructor
      · rintro rfl; exact (hs.unique i _ _ h o _ ho).symm
      · rintro rfl
        obtain ⟨_, a, d, h2, h3⟩ := hs.owner i _ _ h
        rw [ho] at h2
        cases h2
        have := h3 rfl
        cases this
        rfl
    intro i j c1 d1 o1 p1 h1 h2
    rcases get?_append_single h1 with h1 | ⟨_, h1⟩
    · rcases get?_append_single h2 with h2 | ⟨_, h2⟩
      · exact hm i j _ _ _ _ h1 h2
      · cases h2; exact old i _ _ h1
    · cases h1
      rcases get?_append_single h2 with h2 | ⟨_, h2⟩
      · have := old j _ _ h2
        exact ⟨fun e => (this.mp e.symm).symm, fun e => (this.mpr e.symm).symm⟩
      · cases h2; simp
  | first o ho =>
    have old : ∀ (i c' o' : Nat), s.its[i]? = some (c', o') → (c' = s.next ↔ o' = o) := by
      intro i c' o' h
      obtain ⟨h1, a, d, h2, h3⟩ := hs.owner i _ _ h
      constructor
      · intro e; omega
      · rintro rfl
        rw [ho] at h2
        cases h2
        have := h3 rfl
        cases this
    intro i j c1 d1 o1 p1 h1 h2
    rcases get?_append_single h1 with h1 | ⟨_, h1⟩
    · rcases get?_append_single h2 with h2 | ⟨_, h2⟩
      · exact hm i j _ _ _ _ h1 h2
      · cases h2; exact old i _ _ h1
    · cases h1
      rcases get?_append_single h2 with h2 | ⟨_, h2⟩
      · have := old j _ _ h2
        exact ⟨fun e => (this.mp e.symm).symm, fun e => (this.mpr e.symm).symm⟩
      · cases h2; simp

theorem same_run (maxSize : Nat) (dflt : α) (ops : List (VOp α)) : ∀ w : VWorld α, w.skel.Inv → w.skel.Same → (w.run maxSize dflt ops).skel.Same := by
  induction ops with
  | nil => intro w _ h; exact h
  | cons op ops ih =>
    intro w hi h
    exact ih _ (inv_step hi (skel_exec maxSize dflt w op)) (same_step hi h (skel_exec maxSize dflt w op))

/-- C37: iterators are equal iff they are at the same position of the same vector; comparing iterators of different vectors is an
    error, also after the vectors are gone. -/
theorem C37_iterators_equal (maxSize : Nat) (dflt : α) (ops : List (VOp α)) (i j : Nat) (a b : VIter) :
    let w := (VWorld.empty : VWorld α).run maxSize dflt ops
    w.its[i]? = some a → w.its[j]? = some b →
    (w.exec maxSize dflt (.iterEq i j)).2 = (if a.obj = b.obj then .ok (.bool (decide (a.idx = b.idx))) else .throw .invalidArgument) := by
  intro w ha hb
  have hsa : w.skel.its[i]? = some (a.ctl, a.obj) := by unfold VWorld.skel; rw [List.getElem?_map, ha]; rfl
  have hsb : w.skel.its[j]? = some (b.ctl, b.obj) := by unfold VWorld.skel; rw [List.getElem?_map, hb]; rfl
  have key : a.ctl = b.ctl ↔ a.obj = b.obj := same_run maxSize dflt ops empty inv_empty (by intro i j c d o p h; simp [VWorld.skel, empty] at h) i j _ _ _ _ hsa hsb
  simp only [exec, ha, hb]
  by_cases h : a.obj = b.obj
  · rw [if_neg (fun n => n (key.mpr h)), if_pos h]
    rfl
  · rw [if_pos (by intro e; exact h (key.mp e)), if_neg h]

/-- C37: iterators. Let an iterator be made with `begin`, `end` or `at`, at position `s`. Whatever happens then (elements added or
    removed, the vector assigned to, other vectors destroyed), dereferencing it gives the element the vector has by then at the
    position the iterator has been moved to, or `InvalidIterator` if there is none or the vector is gone. It is never undefined. -/
theorem C37_iterator (maxSize : Nat) (dflt : α) (before after : List (VOp α)) (o s i : Nat) (l : List α) (op : VOp α)
    (hl : ((empty : VWorld α).run maxSize dflt before).lists.at o = some l)
    (hop : (op = .begin o ∧ s = 0) ∨ (op = .fin o ∧ s = l.length) ∨ (op = .iteratorAt o s))
    (hi : (((empty : VWorld α).run maxSize dflt before).exec maxSize dflt op).2 = .ok (.iter i))
    (hb : s + incrs i after < 2 ^ 64) :
    let w := ((((empty : VWorld α).run maxSize dflt before).exec maxSize dflt op).1).run maxSize dflt after
    (w.exec maxSize dflt (.deref i)).2 = match w.lists.at o with
      | some k => match k[s + incrs i after]? with
        | some x => .ok (.elem x)
        | none => .throw .invalidIterator
      | none => .throw .invalidIterator := by
  have hinv := inv_run maxSize dflt before empty inv_empty
  generalize (empty : VWorld α).run maxSize dflt before = w0 at *
  have hg : ∃ v, w0.get? o = some v ∧ v.data = l := by
    rw [lists_at] at hl
    cases hg : w0.get? o with
    | none => rw [hg] at hl; cases hl
    | some v => rw [hg] at hl; cases hl; exact ⟨v, rfl, rfl⟩
  obtain ⟨v, hg, hv⟩ := hg
  have hex : ∃ c, (w0.exec maxSize dflt op).1.its[i]? = some ⟨c, o, s⟩ := by
    have key : w0.exec maxSize dflt op = w0.ref o v s := by
      rcases hop with ⟨rfl, rfl⟩ | ⟨rfl, rfl⟩ | rfl
      · simp only [exec, hg]
      · simp only [exec, hg, hv]
      · simp only [exec, hg] at hi ⊢
        split at hi
        · cases hi
        · next h => rw [if_neg h]
    obtain ⟨c, h1, h2⟩ := its_ref w0 o v s
    rw [key] at hi ⊢
    rw [h2] at hi
    cases hi
    refine ⟨c, ?_⟩
    rw [h1, List.getElem?_append_right (Nat.le_refl _), Nat.sub_self]
    rfl
  obtain ⟨c, hex⟩ := hex
  have hr := its_run maxSize dflt after _ hex hb
  have hinv2 := inv_run maxSize dflt after _ (inv_step hinv (skel_exec maxSize dflt w0 op))
  intro w
  change w.its[i]? = _ at hr
  change w.skel.Inv at hinv2
  have hx := expired_iff hinv2 hr
  dsimp only at hx
  rw [lists_at]
  simp only [exec, hr]
  cases hgo : w.get? o with
  | none => rw [if_pos (hx.mpr hgo)]; rfl
  | some u =>
    rw [if_neg (by rw [hx, hgo]; intro h; cases h)]
    rfl

/-- C37: no operation on iterators is undefined, in any program. -/
theorem C37_defined (maxSize : Nat) (dflt : α) (ops : List (VOp α)) (op : VOp α) (hp : op.Proper) :
    (((VWorld.empty : VWorld α).run maxSize dflt ops).exec maxSize dflt op).2.Defined := by
  have hinv := inv_run maxSize dflt ops empty inv_empty
  generalize (empty : VWorld α).run maxSize dflt ops = w at *
  cases hl : op.onLists with
  | true =>
    have := congrArg Prod.snd (exec_lists maxSize dflt w hp hl)
    dsimp only at this
    rw [this]
    exact ideal_defined maxSize dflt _ op
  | false =>
    have ref : ∀ o v idx, (w.ref o v idx).2.Defined := by
      intro o v idx; obtain ⟨c, _, h⟩ := its_ref w o v idx; rw [h]; trivial
    cases op with
    | deref i =>
      simp only [exec]
      cases hit : w.its[i]? with
      | none => exact trivial
      | some it =>
        have hx := expired_iff hinv hit
        dsimp only
        split
        · exact trivial
        · next hne =>
          cases hgo : w.get? it.obj with
          | none => exact absurd (hx.mpr hgo) hne
          | some u => dsimp only; split <;> exact trivial
    | begin o => simp only [exec]; split; exact ref _ _ _; exact trivial
    | fin o => simp only [exec]; split; exact ref _ _ _; exact trivial
    | iteratorAt o i =>
      simp only [exec]
      split
      · split
        · exact trivial
        · exact ref _ _ _
      · exact trivial
    | incr i => simp only [exec]; (repeat' split) <;> exact trivial
    | iterEq i j => simp only [exec]; (repeat' split) <;> exact trivial
    | insert o i x => simp only [exec]; (repeat' split) <;> exact trivial
    | _ => cases hl

/-- C37 does not hold for appending a vector to itself: it passes iterators into the vector to its own `insert`. -/
theorem C37_fails_append_self : (((VWorld.empty : VWorld Nat).run 1000 0 [.make [1, 2, 3]]).exec 1000 0 (.sumAssign 0 0)).2 = .ub := by decide

/-- C37 does not hold for assigning the last possible element: the vector is emptied and then written outside of its memory. -/
theorem C37_fails_assign_last :
    (((VWorld.empty : VWorld Nat).run 1000 0 [.make [1, 2, 3]]).exec 1000 0 (.assign 0 (2 ^ 64 - 1) 7)).2 = .ub := by decide

/-- C37: a reference to an element gives that element. -/
theorem C37_fails_for_loop : let w := (VWorld.empty : VWorld Nat).run 1000 0 [.make [1, 2, 3]]
    -- `for ( x in v )` binds `x` to a reference to the element
    w.readRef ⟨0, 0⟩ = .ok 1 ∧
    -- and if the body of the loop appends to `v`, using `x` is a use after free
    (w.exec 1000 0 (.pushBack 0 9)).1.readRef ⟨0, 0⟩ = .ub := by decide

example : ((VWorld.empty : VWorld Nat).run 1000 0 [.make [1, 2], .begin 0, .pushBack 0 5, .incr 0, .assign 0 4 7, .incr 0]).lists
    = [some [1, 2, 5, 0, 7]] := by decide
example : (((VWorld.empty : VWorld Nat).run 1000 0 [.make [1, 2], .begin 0, .pushBack 0 5, .incr 0, .incr 0]).exec 1000 0 (.deref 0)).2
    = .ok (.elem 5) := by decide
example : (((VWorld.empty : VWorld Nat).run 1000 0 [.make [1, 2], .begin 0, .destroy 0]).exec 1000 0 (.deref 0)).2
    = .throw .invalidIterator := by decide

end Verif.Cont
