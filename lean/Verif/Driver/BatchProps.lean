import Verif.Driver.BatchLocal
import Verif.Driver.BatchRead
import Verif.Driver.FeedProps
/-!
# Batches: property theorems (C68)
-/

namespace Verif.Driver
open Verif.Bytes

variable {M : Machine}

/-! ## Flows and connections do not affect each other -/

/-- C68. Given any way to attribute flows and connections to parties that puts the flows of a connection where the connection is:
    if the batch can be processed, then so can the commands of each party on their own, and the parsers of the party do exactly the same.
    That holds for all parsers, including ones that share a context with the other side of their connection. -/
theorem C68_parties_are_independent {K : Type} [DecidableEq K] (fp cp : Str → K) (cs : List Cmd) (hc : ∀ c ∈ cs, c.Consistent fp cp) (w : World M)
    (h : World.run {} cs = .ok w) (k : K) :
    ∃ w', World.run (M := M) {} (cs.filter (fun c => decide (c.party fp cp = k))) = .ok w' ∧
      w'.log = w.log.filter (fun x => decide (fp x.1 = k)) := by
  have := run_parts cs hc (M := M) {} (fun _ => {}) inv_init agree_init
  rw [h] at this
  exact this k

/-- C68. And if it cannot, then that is due to one party: what it does has the same outcome on its own. -/
theorem C68_failure_has_a_party {K : Type} [DecidableEq K] (fp cp : Str → K) (cs : List Cmd) (hc : ∀ c ∈ cs, c.Consistent fp cp) :
    (World.run (M := M) {} cs = .ub → ∃ k, World.run (M := M) {} (cs.filter (fun c => decide (c.party fp cp = k))) = .ub) ∧
    (World.run (M := M) {} cs = .stuck → ∃ k, World.run (M := M) {} (cs.filter (fun c => decide (c.party fp cp = k))) = .stuck) := by
  have := run_parts cs hc (M := M) {} (fun _ => {}) inv_init agree_init
  constructor
  · intro h; rw [h] at this; exact this
  · intro h; rw [h] at this; exact this

/-! ## Pointers -/

/-- The pointer is good. -/
def Good' (w : World M) (id : Str) (p : Option Nat) : Prop := ∀ n, p = some n → (w.flows id).isSome = true ∧ w.gen id = n

theorem feed_keeps {w w2 : World M} {id : Str} {ev : Event} (h : w.feed id ev = .ok w2) :
    (∀ i, (w2.flows i).isSome = (w.flows i).isSome) ∧ w2.gen = w.gen ∧ w2.conns = w.conns := by
  unfold World.feed at h
  cases hf : w.flows id with
  | none => rw [hf] at h; injection h with h; subst h; exact ⟨fun _ => rfl, rfl, rfl⟩
  | some f =>
    rw [hf] at h
    dsimp only at h
    cases hs : M.step f.par f.kind f.st (w.context f.ctx) ev with
    | none => rw [hs] at h; cases h
    | some x =>
      obtain ⟨st, c, out⟩ := x
      rw [hs] at h
      injection h with h
      subst h
      have e1 : (w.setContext f.ctx c).flows = w.flows := by unfold World.setContext; split <;> rfl
      have e2 : (w.setContext f.ctx c).gen = w.gen := by unfold World.setContext; split <;> rfl
      have e3 : (w.setContext f.ctx c).conns = w.conns := by unfold World.setContext; split <;> rfl
      refine ⟨fun i => ?_, e2, e3⟩
      dsimp only
      rw [e1]
      by_cases hi : i = id
      · subst hi; rw [set_same, hf]; rfl
      · rw [set_other _ _ hi]

theorem Good'.keeps {w w2 : World M} (h1 : ∀ i, (w2.flows i).isSome = (w.flows i).isSome) (h2 : w2.gen = w.gen) {id : Str} {p : Option Nat}
    (h : Good' w id p) : Good' w2 id p := by
  intro n hn
  rw [h1, h2]
  exact h n hn

theorem finishPtr_ok {w : World M} {id : Str} {p : Option Nat} (h : Good' w id p) : w.finishPtr id p ≠ .ub ∧
    ∀ w2, w.finishPtr id p = .ok w2 → (∀ i, (w2.flows i).isSome = (w.flows i).isSome) ∧ w2.gen = w.gen ∧ w2.conns = w.conns := by
  cases p with
  | none =>
    refine ⟨(fun h => by cases h), fun w2 he => ?_⟩
    injection he with he
    subst he
    exact ⟨fun _ => rfl, rfl, rfl⟩
  | some n =>
    simp only [World.finishPtr]
    rw [if_pos (h n rfl)]
    refine ⟨?_, fun w2 he => feed_keeps he⟩
    unfold World.feed
    repeat' split
    all_goals (intro h; cases h)

theorem feed_ne_ub (w : World M) (id : Str) (ev : Event) : w.feed id ev ≠ .ub := by
  unfold World.feed
  repeat' split
  all_goals (intro h; cases h)

/-- The world has the connections of the list, with good pointers. -/
structure Sound' (conns : List (Str × Str × Str)) (w : World M) : Prop where
  ptr : ∀ cid c, w.conns cid = some c → (cid, c.origId, c.respId) ∈ conns ∧ Good' w c.origId c.orig ∧ Good' w c.respId c.resp
  apart : ∀ x ∈ conns, ∀ y ∈ conns, x.1 ≠ y.1 → ∀ i, (i = x.2.1 ∨ i = x.2.2) → ¬ (i = y.2.1 ∨ i = y.2.2)

theorem mem_flowIds {conns : List (Str × Str × Str)} {x : Str × Str × Str} (h : x ∈ conns) {i : Str} (hi : i = x.2.1 ∨ i = x.2.2) : i ∈ flowIds conns := by
  unfold flowIds
  rw [List.mem_flatMap]
  exact ⟨x, h, by simpa using hi⟩

theorem Good'.erase {w : World M} {id i : Str} {p : Option Nat} (h : Good' w i p) (hne : i ≠ id) : Good' (w.erase id) i p := by
  intro n hn
  simp only [World.erase, set_other _ _ hne]
  exact h n hn

theorem create_keeps (w : World M) (kind : Kind) (parser id : Str) (ctx : Option (Str × Nat)) :
    (∀ i, (w.flows i).isSome = true → ((w.create kind parser id ctx).1.flows i).isSome = true) ∧ (w.create kind parser id ctx).1.gen = w.gen ∧
    (w.create kind parser id ctx).1.conns = w.conns ∧
    ((w.create kind parser id ctx).2.isSome = true → ((w.create kind parser id ctx).1.flows id).isSome = true) := by
  unfold World.create
  cases M.lookup parser with
  | none => exact ⟨fun _ h => h, rfl, rfl, fun h => by cases h⟩
  | some p =>
    have e1 : (w.contextFor p id ctx).1.flows = w.flows := by unfold World.contextFor; repeat' split <;> try rfl
    have e2 : (w.contextFor p id ctx).1.gen = w.gen := by unfold World.contextFor; repeat' split <;> try rfl
    have e3 : (w.contextFor p id ctx).1.conns = w.conns := by unfold World.contextFor; repeat' split <;> try rfl
    refine ⟨fun i h => ?_, e2, e3, fun _ => ?_⟩
    · dsimp only
      rw [e1]
      unfold set
      split
      · rfl
      · exact h
    · dsimp only
      rw [set_same]
      rfl

theorem Good'.create {w : World M} {i : Str} {p : Option Nat} (h : Good' w i p) (kind : Kind) (parser id : Str) (ctx : Option (Str × Nat)) :
    Good' (w.create kind parser id ctx).1 i p := by
  obtain ⟨h1, h2, -⟩ := create_keeps w kind parser id ctx
  intro n hn
  rw [h2]
  exact ⟨h1 i (h n hn).1, (h n hn).2⟩

theorem tidy_run (cs : List Cmd) (fs : List Str) (conns : List (Str × Str × Str)) (ht : Tidy fs conns cs) (w : World M) (hs : Sound' conns w) :
    w.run cs ≠ .ub := by
  induction cs generalizing fs conns w with
  | nil => intro h; cases h
  | cons c cs ih =>
    rw [show w.run (c :: cs) = (w.exec c).bind (fun w => w.run cs) from rfl]
    have fin : ∀ (fs' : List Str) (conns' : List (Str × Str × Str)), Tidy fs' conns' cs → w.exec c ≠ .ub →
        (∀ w2, w.exec c = .ok w2 → Sound' conns' w2) → (w.exec c).bind (fun w => w.run cs) ≠ .ub := by
      intro fs' conns' h1 h2 h3
      cases hx : w.exec c with
      | ok w2 => exact ih fs' conns' h1 w2 (h3 w2 hx)
      | stuck => intro h; cases h
      | ub => exact absurd hx h2
    have keep : ∀ {w2 : World M}, (∀ i, (w2.flows i).isSome = (w.flows i).isSome) → w2.gen = w.gen → w2.conns = w.conns → Sound' conns w2 := by
      intro w2 a b d
      refine ⟨fun cid x hx => ?_, hs.apart⟩
      rw [d] at hx
      obtain ⟨p1, p2, p3⟩ := hs.ptr cid x hx
      exact ⟨p1, p2.keeps a b, p3.keeps a b⟩
    cases c with
    | beginFlow id kind parser =>
      obtain ⟨-, -, ht⟩ := ht
      refine fin _ _ ht (fun h => by cases h) (fun w2 h => ?_)
      injection h with h
      subst h
      obtain ⟨-, -, c3, -⟩ := create_keeps w kind parser id none
      refine ⟨fun cid x hx => ?_, hs.apart⟩
      rw [c3] at hx
      obtain ⟨p1, p2, p3⟩ := hs.ptr cid x hx
      exact ⟨p1, p2.create _ _ _ _, p3.create _ _ _ _⟩
    | data id bs =>
      exact fin fs conns ht (feed_ne_ub w id _) (fun w2 h => by obtain ⟨a, b, d⟩ := feed_keeps h; exact keep a b d)
    | gap id n =>
      exact fin fs conns ht (feed_ne_ub w id _) (fun w2 h => by obtain ⟨a, b, d⟩ := feed_keeps h; exact keep a b d)
    | endFlow id =>
      obtain ⟨hid, ht⟩ := ht
      refine fin _ _ ht ?_ ?_
      · simp only [World.exec]
        split
        · intro h; cases h
        · have := feed_ne_ub w id .finish
          cases hf : w.feed id .finish with
          | ok w1 => intro h; cases h
          | stuck => intro h; cases h
          | ub => exact absurd hf this
      · intro w2 h
        simp only [World.exec] at h
        split at h
        · injection h with h; subst h; exact hs
        · cases hf : w.feed id .finish with
          | stuck => rw [hf] at h; cases h
          | ub => rw [hf] at h; cases h
          | ok w1 =>
            rw [hf] at h
            injection h with h
            subst h
            obtain ⟨a, b, d⟩ := feed_keeps hf
            have s1 := keep a b d
            refine ⟨fun cid x hx => ?_, hs.apart⟩
            obtain ⟨p1, p2, p3⟩ := s1.ptr cid x hx
            exact ⟨p1, p2.erase (fun e => hid (mem_flowIds p1 (Or.inl e.symm))), p3.erase (fun e => hid (mem_flowIds p1 (Or.inr e.symm)))⟩
    | endConn cid =>
      have hap : ∀ x ∈ conns.filter (fun x => decide (x.1 ≠ cid)), x ∈ conns ∧ x.1 ≠ cid := by
        intro x hx
        rw [List.mem_filter] at hx
        exact ⟨hx.1, by simpa using hx.2⟩
      refine fin fs (conns.filter (·.1 ≠ cid)) ht ?_ ?_
      · simp only [World.exec]
        cases hw : w.conns cid with
        | none => intro h; cases h
        | some x =>
          obtain ⟨p1, p2, p3⟩ := hs.ptr cid x hw
          obtain ⟨n1, n2⟩ := finishPtr_ok p2
          dsimp only
          cases hf : w.finishPtr x.origId x.orig with
          | ub => exact absurd hf n1
          | stuck => intro h; cases h
          | ok w1 =>
            obtain ⟨a, b, d⟩ := n2 w1 hf
            obtain ⟨m1, -⟩ := finishPtr_ok (p3.keeps a b)
            simp only [Exec.bind]
            cases hg : w1.finishPtr x.respId x.resp with
            | ub => exact absurd hg m1
            | stuck => intro h; cases h
            | ok w2 => intro h; cases h
      · intro w3 h
        simp only [World.exec] at h
        cases hw : w.conns cid with
        | none =>
          rw [hw] at h
          injection h with h
          subst h
          refine ⟨fun cid' x hx => ?_, fun x hx y hy => hs.apart x (hap x hx).1 y (hap y hy).1⟩
          obtain ⟨p1, p2, p3⟩ := hs.ptr cid' x hx
          refine ⟨List.mem_filter.mpr ⟨p1, ?_⟩, p2, p3⟩
          have : cid' ≠ cid := fun e => by rw [e, hw] at hx; cases hx
          simpa using this
        | some x =>
          rw [hw] at h
          obtain ⟨p1, p2, p3⟩ := hs.ptr cid x hw
          obtain ⟨-, n2⟩ := finishPtr_ok p2
          dsimp only at h
          cases hf : w.finishPtr x.origId x.orig with
          | ub => rw [hf] at h; cases h
          | stuck => rw [hf] at h; cases h
          | ok w1 =>
            rw [hf] at h
            obtain ⟨a, b, d⟩ := n2 w1 hf
            obtain ⟨-, m2⟩ := finishPtr_ok (p3.keeps a b)
            simp only [Exec.bind] at h
            cases hg : w1.finishPtr x.respId x.resp with
            | ub => rw [hg] at h; cases h
            | stuck => rw [hg] at h; cases h
            | ok w2 =>
              rw [hg] at h
              injection h with h
              subst h
              obtain ⟨a', b', d'⟩ := m2 w2 hg
              have s2 := keep (w2 := w2) (fun i => (a' i).trans (a i)) (b'.trans b) (d'.trans d)
              refine ⟨fun cid' y hy => ?_, fun x hx y hy => hs.apart x (hap x hx).1 y (hap y hy).1⟩
              rcases set_eq hy with ⟨-, hz⟩ | ⟨hne, hz⟩
              · cases hz
              · obtain ⟨q1, q2, q3⟩ := s2.ptr cid' y hz
                have ap := hs.apart _ q1 _ p1 hne
                have g : ∀ {i : Str} {p : Option Nat}, (i = y.origId ∨ i = y.respId) → Good' w2 i p → Good' ((w2.erase x.origId).erase x.respId) i p := by
                  intro i p hi hgd
                  have := ap i hi
                  rw [not_or] at this
                  exact (hgd.erase this.1).erase this.2
                refine ⟨List.mem_filter.mpr ⟨q1, by simpa using hne⟩, g (Or.inl rfl) q2, g (Or.inr rfl) q3⟩
    | beginConn cid kind o po r pr =>
      obtain ⟨hc1, -, -, ho, hr, ht⟩ := ht
      have hap : ∀ x ∈ (cid, o, r) :: conns, ∀ y ∈ (cid, o, r) :: conns, x.1 ≠ y.1 → ∀ i, (i = x.2.1 ∨ i = x.2.2) → ¬ (i = y.2.1 ∨ i = y.2.2) := by
        intro x hx y hy hne i hi hi'
        rcases List.mem_cons.mp hx with rfl | hx <;> rcases List.mem_cons.mp hy with rfl | hy
        · exact hne rfl
        · have := mem_flowIds hy hi'
          rcases hi with rfl | rfl
          · exact ho this
          · exact hr this
        · have := mem_flowIds hx hi
          rcases hi' with rfl | rfl
          · exact ho this
          · exact hr this
        · exact hs.apart x hx y hy hne i hi hi'
      refine fin fs ((cid, o, r) :: conns) ht ?_ ?_
      · simp only [World.exec]
        split
        · intro h; cases h
        · split <;> (intro h; cases h)
      · intro w2 h
        simp only [World.exec] at h
        cases hw : w.conns cid with
        | some x =>
          obtain ⟨p1, -⟩ := hs.ptr cid x hw
          exact absurd rfl (hc1 _ p1)
        | none =>
          rw [hw] at h
          dsimp only at h
          obtain ⟨k1, k2, k3, k4⟩ := create_keeps w kind po o none
          obtain ⟨j1, j2, j3, j4⟩ := create_keeps (w.create kind po o none).1 kind pr r ((w.create kind po o none).2.getD none)
          have old : ∀ cid' y, w.conns cid' = some y → (cid', y.origId, y.respId) ∈ conns ∧
              Good' ((w.create kind po o none).1.create kind pr r ((w.create kind po o none).2.getD none)).1 y.origId y.orig ∧
              Good' ((w.create kind po o none).1.create kind pr r ((w.create kind po o none).2.getD none)).1 y.respId y.resp := by
            intro cid' y hy
            obtain ⟨p1, p2, p3⟩ := hs.ptr cid' y hy
            exact ⟨p1, (p2.create _ _ _ _).create _ _ _ _, (p3.create _ _ _ _).create _ _ _ _⟩
          split at h
          · injection h with h
            subst h
            refine ⟨fun cid' y hy => ?_, hap⟩
            simp only [World.erase, j3, k3] at hy
            obtain ⟨p1, p2, p3⟩ := old cid' y hy
            have m1 := mem_flowIds p1 (Or.inl rfl)
            have m2 := mem_flowIds p1 (Or.inr rfl)
            refine ⟨List.mem_cons_of_mem _ p1, (p2.erase ?_).erase ?_, (p3.erase ?_).erase ?_⟩
            · intro e; exact ho (e ▸ m1)
            · intro e; exact hr (e ▸ m1)
            · intro e; exact ho (e ▸ m2)
            · intro e; exact hr (e ▸ m2)
          · injection h with h
            subst h
            refine ⟨fun cid' y hy => ?_, hap⟩
            rcases set_eq hy with ⟨rfl, hz⟩ | ⟨hne, hz⟩
            · injection hz with hz
              subst hz
              refine ⟨List.mem_cons_self, ?_, ?_⟩
              · intro n hn
                dsimp only at hn ⊢
                obtain ⟨z, hz, hn⟩ := Option.map_eq_some_iff.mp hn
                exact ⟨j1 o (k4 (by rw [hz]; rfl)), hn⟩
              · intro n hn
                dsimp only at hn ⊢
                cases hx : ((w.create kind po o none).1.create kind pr r ((w.create kind po o none).2.getD none)).2 with
                | none => rw [hx] at hn; cases hn
                | some z =>
                  rw [hx] at hn
                  injection hn with hn
                  exact ⟨j4 (by rw [hx]; rfl), hn⟩
            · rw [j3, k3] at hz
              obtain ⟨p1, p2, p3⟩ := old cid' y hz
              exact ⟨List.mem_cons_of_mem _ p1, p2, p3⟩

/-- C68. If IDs are used properly, no command uses a flow that has been released: whatever the parsers do. -/
theorem C68_no_dangling (cs : List Cmd) (h : Tidy [] [] cs) : World.run (M := M) {} cs ≠ .ub :=
  tidy_run cs [] [] h {} ⟨(fun _ _ h => by cases h), (fun x hx => by cases hx)⟩

end Verif.Driver
