import Verif.Boot.Spec

/-!
# Modules and their globals at runtime: every module is initialized once and has globals of its own
-/

namespace Verif.Boot

/-- What registration keeps to. -/
structure Reg (ms : List Mod) (s : S) : Prop where
  first : ∀ k, firstOf k s.mods = firstOf k ms
  uniq : (s.mods.map (·.key)).Nodup
  order : s.mods.Pairwise (fun a b => (ms.map (·.key)).idxOf a.key < (ms.map (·.key)).idxOf b.key)
  cell : ∀ (i : Nat) m, s.mods[i]? = some m → m.globals = true → s.cells m.key = i

theorem firstOf_append (k : Nat) (a b : List Mod) : firstOf k (a ++ b) = (firstOf k a).or (firstOf k b) := by
  unfold firstOf
  exact List.find?_append

theorem any_iff (k : Nat) (ms : List Mod) : ms.any (fun x => x.key == k) = true ↔ firstOf k ms ≠ none := by
  rw [List.any_eq_true, firstOf]
  constructor
  · rintro ⟨m, hm, hk⟩ h
    rw [List.find?_eq_none] at h
    exact h m hm hk
  · intro h
    cases e : ms.find? (fun m => m.key == k) with
    | none => exact absurd e h
    | some m => exact ⟨m, List.mem_of_find?_eq_some e, by have := List.find?_some e; simpa using this⟩

theorem key_mem {ms : List Mod} {k : Nat} (h : firstOf k ms ≠ none) : k ∈ ms.map (·.key) := by
  cases e : firstOf k ms with
  | none => exact absurd e h
  | some m =>
    have h1 := List.find?_some e
    rw [List.mem_map]
    exact ⟨m, List.mem_of_find?_eq_some e, by simpa using h1⟩

theorem Reg.mem {ms : List Mod} {s : S} (h : ∀ k, firstOf k s.mods = firstOf k ms) {a : Mod} (ha : a ∈ s.mods) :
    a.key ∈ ms.map (·.key) := by
  apply key_mem
  rw [← h, ← any_iff, List.any_eq_true]
  exact ⟨a, ha, by simp⟩

theorem order_append {ms : List Mod} {s : S} (h : Reg ms s) (m : Mod) :
    s.mods.Pairwise (fun a b => ((ms ++ [m]).map (·.key)).idxOf a.key < ((ms ++ [m]).map (·.key)).idxOf b.key) := by
  refine List.Pairwise.imp_of_mem ?_ h.order
  intro a b ha hb hab
  rw [List.map_append, List.idxOf_append, List.idxOf_append, if_pos (Reg.mem h.first ha), if_pos (Reg.mem h.first hb)]
  exact hab

theorem register_reg {ms : List Mod} {s : S} (h : Reg ms s) (m : Mod) : Reg (ms ++ [m]) (register m s) := by
  unfold register
  by_cases ha : s.mods.any (fun x => x.key == m.key) = true
  · rw [if_pos ha]
    refine ⟨fun k => ?_, h.uniq, order_append h m, h.cell⟩
    rw [firstOf_append, ← h.first k]
    cases e : firstOf k s.mods with
    | some x => rfl
    | none =>
      have hk : ¬ m.key = k := by
        intro hk
        rw [any_iff, hk, e] at ha
        exact ha rfl
      simp [firstOf, hk]
  · rw [if_neg ha]
    have hno : ∀ x ∈ s.mods, x.key ≠ m.key := by
      intro x hx hk
      exact ha (List.any_eq_true.mpr ⟨x, hx, by simp [hk]⟩)
    refine ⟨fun k => ?_, ?_, ?_, ?_⟩
    · rw [firstOf_append, firstOf_append, h.first]
    · rw [List.map_append, List.nodup_append]
      refine ⟨h.uniq, by simp, ?_⟩
      intro a ha b hb
      simp at ha hb
      obtain ⟨x, hx, rfl⟩ := ha
      subst hb
      exact hno x hx
    · rw [List.pairwise_append]
      refine ⟨order_append h m, by simp, ?_⟩
      intro a hma b hb
      simp at hb
      subst hb
      have hnm : b.key ∉ ms.map (·.key) := by
        intro hm
        rw [List.mem_map] at hm
        obtain ⟨x, hx, hk⟩ := hm
        have h1 : firstOf b.key ms ≠ none := by
          rw [← any_iff, List.any_eq_true]
          exact ⟨x, hx, by simp [hk]⟩
        rw [← h.first, ← any_iff] at h1
        exact ha h1
      rw [List.map_append, List.idxOf_append, List.idxOf_append, if_pos (Reg.mem h.first hma), if_neg hnm]
      have := List.idxOf_lt_length_of_mem (Reg.mem h.first hma)
      omega
    · intro i x hi hg
      dsimp only at hi ⊢
      by_cases hlt : i < s.mods.length
      · rw [List.getElem?_append_left hlt] at hi
        have hne : ¬ x.key = m.key := hno x (List.mem_iff_getElem?.mpr ⟨i, hi⟩)
        have := h.cell i x hi hg
        split
        · simp only [if_neg hne]; exact this
        · exact this
      · have hlen := (List.getElem?_eq_some_iff.mp hi).1
        simp only [List.length_append, List.length_singleton] at hlen
        have : i = s.mods.length := by omega
        subst this
        simp at hi
        subst hi
        simp [hg]

theorem register_all {ms : List Mod} {s : S} (h : Reg ms s) : ∀ (pre : List Mod),
    ∃ s', run (pre.map .register) s = some s' ∧ Reg (ms ++ pre) s' ∧ s'.inited = s.inited ∧ s'.log = s.log
  | [] => ⟨s, rfl, by simpa using h, rfl, rfl⟩
  | m :: pre => by
    obtain ⟨s', e, r, i, l⟩ := register_all (register_reg h m) pre
    refine ⟨s', by simpa [run, step] using e, by simpa using r, ?_, ?_⟩
    · rw [i]; unfold register; split <;> rfl
    · rw [l]; unfold register; split <;> rfl

theorem s0_reg : Reg [] s0 := ⟨fun _ => rfl, by simp [s0], by simp [s0], fun i m h => by simp [s0] at h⟩

theorem place_get (g : Ctx) (i : Nat) (x : Nat × Nat) (j : Nat) (y : Nat × Nat) (h : j ≠ i)
    (hj : g[j]? = some (some y)) : (place g i x)[j]? = some (some y) := by
  unfold place
  rw [List.getElem?_set_ne (fun h' => h h'.symm)]
  split
  · rw [List.getElem?_append_left (List.getElem?_eq_some_iff.mp hj).1]; exact hj
  · exact hj

theorem place_self (g : Ctx) (i : Nat) (x : Nat × Nat) : (place g i x)[i]? = some (some x) := by
  unfold place
  rw [List.getElem?_set_self]
  split
  · simp only [List.length_append, List.length_replicate]; omega
  · omega

theorem placeAll_get (cells : Nat → Nat) : ∀ (ms : List Mod) (g : Ctx) (n : Nat),
    (∀ (i : Nat) m, ms[i]? = some m → m.globals = true → cells m.key = n + i) →
    (∀ (j : Nat) y, j < n → g[j]? = some (some y) → (placeAll cells ms g)[j]? = some (some y)) ∧
    (∀ (i : Nat) m, ms[i]? = some m → m.globals = true →
      (placeAll cells ms g)[n + i]? = some (some (m.key, m.value)))
  | [], g, n, _ => ⟨fun j y _ h => h, fun i m h => by simp at h⟩
  | m :: ms, g, n, hc => by
    have h0 := hc 0 m rfl
    have IH := fun g => placeAll_get cells ms g (n + 1) (fun i x hi hx => by
      have := hc (i + 1) x (by simpa using hi) hx
      omega)
    simp only [placeAll]
    refine ⟨?_, ?_⟩
    · intro j y hj hy
      refine (IH _).1 j y (by omega) ?_
      split
      · rename_i hg
        have := h0 hg
        exact place_get _ _ _ _ _ (by omega) hy
      · exact hy
    · intro i x hi hx
      cases i with
      | zero =>
        simp at hi
        subst hi
        refine (IH _).1 n _ (by omega) ?_
        have := h0 hx
        rw [if_pos hx, this]
        exact place_self _ _ _
      | succ i =>
        have := (IH (if m.globals then place g (cells m.key) (m.key, m.value) else g)).2 i x (by simpa using hi) hx
        have e : n + (i + 1) = n + 1 + i := by omega
        rw [e]
        exact this

/-- What holds once the runtime is initialized: the modules known then are still at their places, and their globals have
the values `val`. -/
structure Up (ms : List Mod) (val : Nat → Nat) (lg : List Ev) (s : S) : Prop where
  inited : s.inited = true
  log : s.log = lg
  reg : ∀ k m, firstOf k ms = some m → m.globals = true → firstOf k s.mods = some m
  ctx : ∃ g, s.ctxs = [g] ∧ s.cur = 0 ∧ ∀ k m, firstOf k ms = some m → m.globals = true →
    g[s.cells k]? = some (some (k, val k))
  inj : ∀ k k' m m', firstOf k ms = some m → m.globals = true → firstOf k' ms = some m' → m'.globals = true →
    s.cells k = s.cells k' → k = k'

theorem firstOf_key {k : Nat} {ms : List Mod} {m : Mod} (h : firstOf k ms = some m) : m.key = k := by
  have := List.find?_some h
  simpa using this

theorem init_up {ms : List Mod} {s : S} (h : Reg ms s) (hi : s.inited = false) :
    Up ms (fun k => ((firstOf k ms).map (·.value)).getD 0)
      (s.log ++ (s.mods.filter (·.globals)).map (fun m => .globals m.key) ++
        (s.mods.filter (·.code)).map (fun m => .code m.key)) (init s) := by
  have e : init s =
      { s with
        ctxs := [placeAll s.cells s.mods []]
        cur := 0
        log := s.log ++ (s.mods.filter (·.globals)).map (fun m => .globals m.key) ++
          (s.mods.filter (·.code)).map (fun m => .code m.key)
        inited := true } := by
    unfold init
    rw [if_neg (by rw [hi]; simp)]
  rw [e]
  have P := (placeAll_get s.cells s.mods [] 0 (fun i m hm hg => by rw [Nat.zero_add]; exact h.cell i m hm hg)).2
  have pos : ∀ k m, firstOf k ms = some m → m.globals = true →
      ∃ i : Nat, s.mods[i]? = some m ∧ s.cells k = i := by
    intro k m hm hg
    have hk := firstOf_key hm
    rw [← h.first k] at hm
    obtain ⟨i, hi⟩ := List.mem_iff_getElem?.mp (List.mem_of_find?_eq_some hm)
    exact ⟨i, hi, by rw [← hk]; exact h.cell i m hi hg⟩
  refine ⟨rfl, rfl, fun k m hm _ => by rw [← hm]; exact h.first k, ⟨_, rfl, rfl, ?_⟩, ?_⟩
  · intro k m hm hg
    obtain ⟨i, hi, hc⟩ := pos k m hm hg
    dsimp only
    rw [hc, hm]
    have := P i m hi hg
    rw [Nat.zero_add, firstOf_key hm] at this
    exact this
  · intro k k' m m' hm hg hm' hg' hc
    obtain ⟨i, hi, e1⟩ := pos k m hm hg
    obtain ⟨j, hj, e2⟩ := pos k' m' hm' hg'
    dsimp only at hc
    have hij : i = j := by rw [← e1, ← e2]; exact hc
    subst hij
    rw [hi] at hj
    injection hj with hj
    rw [← firstOf_key hm, ← firstOf_key hm', hj]

theorem step_up {ms : List Mod} {val : Nat → Nat} {lg : List Ev} {s : S} (h : Up ms val lg s) (op : Op)
    (hl : Legal ms op) :
    ∃ s', step op s = some s' ∧ Up ms (fun k => lastWrite k [op] (val k)) lg s' := by
  obtain ⟨g, hg, hcur, hv⟩ := h.ctx
  cases op with
  | init =>
    refine ⟨s, ?_, h⟩
    simp only [step, init, h.inited, if_true]
  | register m =>
    refine ⟨_, rfl, ?_⟩
    unfold register
    by_cases ha : s.mods.any (fun x => x.key == m.key) = true
    · rw [if_pos ha]; exact h
    · rw [if_neg ha]
      have hne : ∀ k x, firstOf k ms = some x → x.globals = true → k ≠ m.key := by
        intro k x hx hgx hk
        apply ha
        rw [any_iff, ← hk, h.reg k x hx hgx]
        simp
      have hcell : ∀ k x, firstOf k ms = some x → x.globals = true →
          (if m.globals then (fun k => if k = m.key then s.mods.length else s.cells k) else s.cells) k = s.cells k := by
        intro k x hx hgx
        split
        · simp only [if_neg (hne k x hx hgx)]
        · rfl
      refine ⟨h.inited, h.log, ?_, ⟨g, hg, hcur, ?_⟩, ?_⟩
      · intro k x hx hgx
        dsimp only
        rw [firstOf_append, h.reg k x hx hgx]
        rfl
      · intro k x hx hgx
        dsimp only
        rw [hcell k x hx hgx]
        exact hv k x hx hgx
      · intro k k' x x' hx hgx hx' hgx' hc
        dsimp only at hc
        rw [hcell k x hx hgx, hcell k' x' hx' hgx'] at hc
        exact h.inj k k' x x' hx hgx hx' hgx' hc
  | write q w =>
    obtain ⟨m, hm, hgm⟩ := hl
    have hq := hv q m hm hgm
    refine ⟨{ s with ctxs := s.ctxs.set s.cur (g.set (s.cells q) (some (q, w))) }, ?_, h.inited, h.log, h.reg, ?_, h.inj⟩
    · simp only [step, write, hg, hcur, Option.bind_eq_bind, List.getElem?_cons_zero, Option.bind_some, hq, if_true]
    · refine ⟨g.set (s.cells q) (some (q, w)), by dsimp only; rw [hg, hcur]; rfl, hcur, ?_⟩
      intro k x hx hgx
      dsimp only [lastWrite]
      by_cases hk : q = k
      · subst hk
        rw [List.getElem?_set_self (List.getElem?_eq_some_iff.mp hq).1, if_pos rfl]
      · have hc : s.cells q ≠ s.cells k := fun e => hk (h.inj q k m x hm hgm hx hgx e)
        rw [List.getElem?_set_ne hc, if_neg hk]
        exact hv k x hx hgx
  | newContext => exact hl.elim
  | setContext c => exact hl.elim

theorem lastWrite_cons (k : Nat) (op : Op) (ops : List Op) (v : Nat) :
    lastWrite k (op :: ops) v = lastWrite k ops (lastWrite k [op] v) := by
  cases op <;> rfl

theorem run_up {ms : List Mod} {lg : List Ev} : ∀ (post : List Op) {val : Nat → Nat} {s : S}, Up ms val lg s →
    (∀ op ∈ post, Legal ms op) →
    ∃ s', run post s = some s' ∧ Up ms (fun k => lastWrite k post (val k)) lg s'
  | [], val, s, h, _ => ⟨s, rfl, h⟩
  | op :: post, val, s, h, hl => by
    obtain ⟨s1, e1, h1⟩ := step_up h op (hl op (List.mem_cons_self ..))
    obtain ⟨s2, e2, h2⟩ := run_up post h1 (fun o ho => hl o (List.mem_cons_of_mem _ ho))
    refine ⟨s2, by simp only [run, e1, Option.bind_some, e2], ?_⟩
    have : (fun k => lastWrite k (op :: post) (val k)) = fun k => lastWrite k post (lastWrite k [op] (val k)) :=
      funext fun k => lastWrite_cons k op post (val k)
    rw [this]
    exact h2

theorem run_append : ∀ (a b : List Op) (s : S), run (a ++ b) s = (run a s).bind (run b)
  | [], _, _ => rfl
  | op :: a, b, s => by
    simp only [List.cons_append, run]
    cases step op s with
    | none => rfl
    | some s' => simp only [Option.bind_some]; exact run_append a b s'

/-- How often a key is called for among modules with different keys. -/
theorem count_calls (f : Nat → Ev) (hf : ∀ a b, f a = f b → a = b) (p : Mod → Bool) (k : Nat) : ∀ (ms : List Mod),
    (ms.map (·.key)).Nodup →
    ((ms.filter p).map (fun m => f m.key)).count (f k) = once ((firstOf k ms).any p)
  | [], _ => rfl
  | m :: ms, h => by
    simp only [List.map_cons, List.nodup_cons] at h
    have IH := count_calls f hf p k ms h.2
    by_cases hk : m.key = k
    · have h0 : firstOf k ms = none := by
        rw [firstOf, List.find?_eq_none]
        intro x hx hxk
        apply h.1
        rw [List.mem_map]
        exact ⟨x, hx, by simp at hxk; rw [hxk, hk]⟩
      rw [h0] at IH
      have h1 : firstOf k (m :: ms) = some m := by simp [firstOf, hk]
      rw [h1]
      cases hp : p m with
      | true =>
        simp only [List.filter_cons, hp, if_true, List.map_cons, hk, List.count_cons_self, IH]
        simp [once, hp]
      | false =>
        simp only [List.filter_cons, hp, Bool.false_eq_true, if_false, IH]
        simp [once, hp]
    · have h1 : firstOf k (m :: ms) = firstOf k ms := by simp [firstOf, hk]
      rw [h1, ← IH]
      cases hp : p m with
      | true =>
        simp only [List.filter_cons, hp, if_true, List.map_cons]
        rw [List.count_cons_of_ne]
        exact fun e => hk (hf _ _ e)
      | false => simp only [List.filter_cons, hp, Bool.false_eq_true, if_false]

theorem count_other (f g : Nat → Ev) (hfg : ∀ a b, f a ≠ g b) (k : Nat) (ms : List Mod) :
    (ms.map (fun m => f m.key)).count (g k) = 0 := by
  rw [List.count_eq_zero]
  intro h
  rw [List.mem_map] at h
  obtain ⟨m, _, e⟩ := h
  exact hfg _ _ e

/-- **Start-up**: whatever modules are registered, how often and in which order, and whatever happens after `init()`,
the globals of every module are initialized exactly once, before the code of any module is run; that is run exactly once
as well; both in the order of registration; and every module finds its own globals with the values it last gave them. -/
theorem startup (pre : List Mod) (post : List Op) (hl : ∀ op ∈ post, Legal pre op) :
    ∃ s, run (pre.map .register ++ .init :: post) s0 = some s ∧
      (∃ L1 L2, s.log = L1 ++ L2 ∧ (∀ e ∈ L1, e.isGlobals) ∧ (∀ e ∈ L2, ¬ e.isGlobals) ∧
        InOrder pre L1 ∧ InOrder pre L2) ∧
      (∀ k, s.log.count (.globals k) = once (hasGlobals k pre) ∧ s.log.count (.code k) = once (hasCode k pre)) ∧
      (∀ k m, firstOf k pre = some m → m.globals = true → look k s = some (lastWrite k post m.value)) := by
  obtain ⟨s1, e1, r1, i1, l1⟩ := register_all s0_reg pre
  rw [List.nil_append] at r1
  have hup := init_up r1 i1
  obtain ⟨s2, e2, u2⟩ := run_up post hup hl
  have hlog : s2.log = (s1.mods.filter (·.globals)).map (fun m => Ev.globals m.key) ++
      (s1.mods.filter (·.code)).map (fun m => Ev.code m.key) := by
    rw [u2.log, l1]
    rfl
  refine ⟨s2, ?_, ⟨_, _, hlog, ?_, ?_, ?_, ?_⟩, ?_, ?_⟩
  · rw [run_append, e1, Option.bind_some]
    simp only [run, step, Option.bind_some]
    exact e2
  · intro e he
    rw [List.mem_map] at he
    obtain ⟨m, _, rfl⟩ := he
    trivial
  · intro e he
    rw [List.mem_map] at he
    obtain ⟨m, _, rfl⟩ := he
    exact fun h => h
  · exact List.Pairwise.map _ (fun a b h => h) (r1.order.filter _)
  · exact List.Pairwise.map _ (fun a b h => h) (r1.order.filter _)
  · intro k
    rw [hlog, List.count_append, List.count_append]
    rw [count_calls Ev.globals (fun a b h => by injection h) (·.globals) k _ r1.uniq,
      count_calls Ev.code (fun a b h => by injection h) (·.code) k _ r1.uniq,
      count_other Ev.code Ev.globals (fun a b h => by cases h), count_other Ev.globals Ev.code (fun a b h => by cases h),
      r1.first k]
    simp only [hasGlobals, hasCode]
    omega
  · intro k m hm hg
    obtain ⟨g, h1, h2, h3⟩ := u2.ctx
    have := h3 k m hm hg
    rw [hm] at this
    simp only [look, h1, h2, Option.bind_eq_bind, List.getElem?_cons_zero, Option.bind_some, this, if_true]
    rfl

end Verif.Boot
