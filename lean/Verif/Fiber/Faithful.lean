import Verif.Fiber.Props

/-!
# C39: programs are executed as written

`readLog` says which events may happen. This file says that main and all functions do what they are written to do, and get told
what the log says: each continues, after it passed or gave up control, exactly where it did so, with the answer in the log.
-/

namespace Verif.Fiber

/-- What main (`none`) and the functions (`some t`) are going to do, or wait for. -/
abbrev Scripts := Option Nat → Prog

def Scripts.set (P : Scripts) (c : Option Nat) (p : Prog) : Scripts := fun d => if d = c then p else P d

/-- This is how `p` gives up control. -/
def gives : Prog → How → Bool
  | .ret v, .finished v' => v == v'
  | .fail e, .failed e' => e == e'
  | .yield _, .yielded => true
  | _, _ => false

/-- `c` is in control. After event `e`, who is, and what is everyone going to do? `none` if nobody's script allows the event. -/
def follow (c : Option Nat) (P : Scripts) : Ev → Option (Option Nat × Scripts)
  | .created r => match P c with
    | .spawn p k => some (c, (P.set (some r) p).set c (k r))
    | _ => none
  | .started op r t => match P c with
    | .call op' r' _ => if op' = op ∧ r' = r then some (some t, P) else none
    | _ => none
  | .continued op r t => match P c, P (some t) with
    | .call op' r' _, .yield k => if op' = op ∧ r' = r then some (some t, P.set (some t) (k .resumed)) else none
    | _, _ => none
  | .unwinding op r t => match P c, P (some t) with
    | .call op' r' _, .yield k => if op' = op ∧ r' = r then some (some t, P.set (some t) (k .aborted)) else none
    | _, _ => none
  | .effect t n => match P c with
    | .emit n' k => if n' = n ∧ t = c then some (c, P.set c k) else none
    | _ => none
  | .left t how op r a c' =>
    if t = c ∧ gives (P c) how then
      match P c' with
      | .call op' r' k => if op' = op ∧ r' = r then some (c', P.set c' (k a)) else none
      | _ => none
    else none
  | .answered op r a => match P c with
    | .call op' r' k => if op' = op ∧ r' = r then some (c, P.set c (k a)) else none
    | _ => none
  | .asked r d v => match P c with
    | .ask r' k => if r' = r then some (c, P.set c (k d v)) else none
    | _ => none
  | .clobbered r => match P c with
    | .clobber r' k => if r' = r then some (c, P.set c k) else none
    | _ => none
  | .refusedYield => match P c with
    | .yield k => some (c, P.set c (k .notSuspendable))
    | _ => none

/-- Executing `main` may produce the log, with `c` being in control then and the scripts what everyone is going to do. -/
inductive Plays (main : Prog) : List Ev → Option Nat → Scripts → Prop
  | start (P : Scripts) (h : P none = main) : Plays main [] none P
  | event {l : List Ev} {c c' : Option Nat} {P P' : Scripts} {e : Ev} (h : Plays main l c P)
      (hf : follow c P e = some (c', P')) : Plays main (e :: l) c' P'
  | stats {l : List Ev} {c : Option Nat} {P : Scripts} {k : Stats → Prog} (h : Plays main l c P) (hp : P c = .stats k)
      (st : Stats) : Plays main l c (P.set c (k st))
  | prime {l : List Ev} {c : Option Nat} {P : Scripts} {k : Prog} (h : Plays main l c P) (hp : P c = .prime k) :
      Plays main l c (P.set c k)
  | reset {l : List Ev} {c : Option Nat} {P : Scripts} {k : Prog} (h : Plays main l c P) (hp : P c = .reset k) :
      Plays main l c (P.set c k)

variable {cap : Nat} {main : Prog} {w w' : World} {s : Spec} {P : Scripts}

theorem set_same (P : Scripts) (c : Option Nat) (p : Prog) : P.set c p c = p := by simp [Scripts.set]
theorem set_ne (P : Scripts) {c d : Option Nat} (p : Prog) (h : d ≠ c) : P.set c p d = P d := by simp [Scripts.set, h]

/-- What is waiting, waits where the scripts say. -/
structure Keeps (P : Scripts) (w : World) : Prop where
  inside : ∀ f x t k, w.fibs f = some x → x.point = .inside t k → P (some t) = .yield k
  fresh : ∀ r f x p, Holds w r f → w.fibs f = some x → x.func = some (r, p) → (x.point = .fresh ∨ x.point = .loop) →
    P (some r) = p
  frames : ∀ fr, fr ∈ w.stack → P fr.tag = .call fr.op fr.r fr.k

theorem keeps_shrink (h : Keeps P w)
    (hf : ∀ g y, w'.fibs g = some y → w.fibs g = some y ∨ (y.func = none ∧ y.point = .fresh))
    (hh : ∀ r g, Holds w' r g → Holds w r g) (hs : w'.stack = w.stack) : Keeps P w' where
  inside := by
    intro f x t k hx hp
    rcases hf f x hx with h1 | ⟨_, h1⟩
    · exact h.inside f x t k h1 hp
    · rw [h1] at hp; cases hp
  fresh := by
    intro r f x p hh' hx hfn hp
    rcases hf f x hx with h1 | ⟨h1, _⟩
    · exact h.fresh r f x p (hh r f hh') h1 hfn hp
    · rw [h1] at hfn; cases hfn
  frames := by intro fr hm; rw [hs] at hm; exact h.frames fr hm

/-- Everything that matters is as before. -/
theorem keeps_congr (h : Keeps P w) (h1 : w'.fibs = w.fibs) (h2 : w'.res = w.res) (h3 : w'.stack = w.stack) : Keeps P w' :=
  keeps_shrink h (fun g y hy => Or.inl (by rw [← h1]; exact hy))
    (fun r g hh => by
      rcases hh with ⟨o, ho, hf⟩ | ⟨fr, hm, ho⟩
      · exact Or.inl ⟨o, by rw [← h2]; exact ho, hf⟩
      · exact Or.inr ⟨fr, by rw [← h3]; exact hm, ho⟩) h3

/-- A function in control, or waiting for another one. -/
def Busy (s : Spec) (c : Option Nat) : Prop := ∀ t, c = some t → s.phase t = .active ∨ s.phase t = .unwinding

theorem opPhase_busy (op : Op) : opPhase op = .active ∨ opPhase op = .unwinding := by
  cases op <;> first | exact Or.inl rfl | exact Or.inr rfl

theorem busy_running {cs : List (Nat × Op)} (h : ∀ c, c ∈ cs → s.phase c.1 = opPhase c.2) : Busy s (running cs) := by
  intro t ht
  cases cs with
  | nil => cases ht
  | cons c cs =>
    injection ht with ht
    rw [← ht, h c List.mem_cons_self]; exact opPhase_busy _

theorem busy_cur (h : Sim w s []) : Busy s w.curTag := by rw [h.tag]; exact busy_running h.calls

theorem shape_tags {fs : List Frame} : ∀ {cs : List (Nat × Op)}, Shape fs cs → (cs.map Prod.fst).Nodup →
    (running cs :: fs.map Frame.tag).Nodup ∧ ∀ fr, fr ∈ fs → fr.tag = none ∨ ∃ c, c ∈ cs ∧ fr.tag = some c.1 := by
  induction fs with
  | nil => intro cs h _; rw [shape_nil h]; exact ⟨by simp [running], fun fr hm => by cases hm⟩
  | cons fr fs ih =>
    intro cs h hn
    cases cs with
    | nil => exact h.elim
    | cons c cs =>
      rw [List.map_cons, List.nodup_cons] at hn
      obtain ⟨_, _, h3, _, h5⟩ := h
      obtain ⟨i1, i2⟩ := ih h5 hn.2
      have hmem : ∀ fr', fr' ∈ fr :: fs → fr'.tag = none ∨ ∃ d, d ∈ cs ∧ fr'.tag = some d.1 := by
        intro fr' hm
        rcases List.mem_cons.mp hm with he | hm
        · rw [he, h3]
          cases cs with
          | nil => exact Or.inl rfl
          | cons d ds => exact Or.inr ⟨d, List.mem_cons_self, rfl⟩
        · exact i2 fr' hm
      refine ⟨List.nodup_cons.mpr ⟨?_, ?_⟩, ?_⟩
      · intro hm
        obtain ⟨fr', hm', he⟩ := List.mem_map.mp hm
        rcases hmem fr' hm' with h1 | ⟨d, hd, h1⟩
        · rw [h1] at he; cases he
        · rw [h1] at he; injection he with he
          exact hn.1 (List.mem_map.mpr ⟨d, hd, he⟩)
      · rw [List.map_cons, h3]; exact i1
      · intro fr' hm'
        rcases hmem fr' hm' with h1 | ⟨d, hd, h1⟩
        · exact Or.inl h1
        · exact Or.inr ⟨d, List.mem_cons_of_mem _ hd, h1⟩

theorem busy_frame (h : Sim w s []) {fr : Frame} (hm : fr ∈ w.stack) : Busy s fr.tag := by
  intro t ht
  rcases (shape_tags h.shape h.nodup).2 fr hm with h1 | ⟨c, hc, h1⟩
  · rw [h1] at ht; cases ht
  · rw [h1] at ht; injection ht with ht
    rw [← ht, h.calls c hc]; exact opPhase_busy _

theorem tag_ne (h : Sim w s []) {fr : Frame} (hm : fr ∈ w.stack) : fr.tag ≠ w.curTag := by
  intro he
  have := (List.nodup_cons.mp (shape_tags h.shape h.nodup).1).1
  rw [← h.tag, ← he] at this
  exact this (List.mem_map.mpr ⟨fr, hm, rfl⟩)

/-- A fiber suspended in function `t` belongs to resumable `t`, which is suspended. -/
theorem inside_holds (h : Sim w s []) {f : Nat} {x : Fib} {t : Nat} {k : Wake → Prog} (hx : w.fibs f = some x)
    (hp : x.point = .inside t k) : Holds w t f ∧ s.phase t = .suspended := by
  rcases h.noleak f (by rw [hx]; rfl) with hc | ⟨r, hr⟩ | hc
  · obtain ⟨y, hy, _, hpk⟩ := h.cache f hc
    rw [hx] at hy; injection hy with hy; subst hy
    rw [hp] at hpk; rcases hpk with h1 | h1 <;> cases h1
  · obtain ⟨y, hy, _, hok⟩ := h.hold r f hr
    rw [hx] at hy; injection hy with hy; subst hy
    cases hph : s.phase r with
    | suspended =>
      rw [hph] at hok
      obtain ⟨_, ⟨k', hk'⟩, _⟩ := hok
      rw [hp] at hk'; injection hk' with h1 h2; subst h1
      exact ⟨hr, hph⟩
    | fresh => rw [hph] at hok; obtain ⟨⟨_, h1⟩, _⟩ := hok; rw [hp] at h1; rcases h1 with h1 | h1 <;> cases h1
    | active => rw [hph] at hok; have h1 := hok.2.1; rw [hp] at h1; cases h1
    | unwinding => rw [hph] at hok; have h1 := hok.2; rw [hp] at h1; cases h1
    | aborted => rw [hph] at hok; obtain ⟨_, h1⟩ := hok; rw [hp] at h1; rcases h1 with h1 | h1 <;> cases h1
    | _ => rw [hph] at hok; exact hok.elim
  · nomatch hc

/-- A resumable whose fiber is not in a function is not executing. -/
theorem parked_phase (h : Sim w s []) {r f : Nat} {x : Fib} (hh : Holds w r f) (hx : w.fibs f = some x)
    (hp : x.point = .fresh ∨ x.point = .loop) : s.phase r = .fresh ∨ s.phase r = .aborted := by
  obtain ⟨y, hy, _, hok⟩ := h.hold r f hh
  rw [hx] at hy; injection hy with hy; subst hy
  cases hph : s.phase r with
  | suspended =>
    rw [hph] at hok
    obtain ⟨_, ⟨k', hk'⟩, _⟩ := hok
    rw [hk'] at hp; rcases hp with h1 | h1 <;> cases h1
  | fresh => exact Or.inl rfl
  | active => rw [hph] at hok; obtain ⟨_, h1, _⟩ := hok; rw [h1] at hp; rcases hp with h1 | h1 <;> cases h1
  | unwinding => rw [hph] at hok; obtain ⟨_, h1⟩ := hok; rw [h1] at hp; rcases hp with h1 | h1 <;> cases h1
  | aborted => exact Or.inr rfl
  | _ => rw [hph] at hok; exact hok.elim

/-- Changing the script of whoever is in control does not matter for those waiting. -/
theorem keeps_set (h : Sim w s []) (hk : Keeps P w) (p : Prog) : Keeps (P.set w.curTag p) w where
  inside := by
    intro f x t k hx hp
    rw [set_ne]
    · exact hk.inside f x t k hx hp
    · intro he
      have := (inside_holds h hx hp).2
      rcases busy_cur h t he.symm with h1 | h1 <;> rw [this] at h1 <;> cases h1
  fresh := by
    intro r f x q hh hx hfn hp
    rw [set_ne]
    · exact hk.fresh r f x q hh hx hfn hp
    · intro he
      rcases parked_phase h hh hx hp with h2 | h2 <;> rcases busy_cur h r he.symm with h1 | h1 <;> rw [h2] at h1 <;> cases h1
  frames := by
    intro fr hm
    rw [set_ne _ _ (tag_ne h hm)]; exact hk.frames fr hm

/-- Passing control to the function of `r`, whose script then is `p`. -/
theorem keeps_enter (h : Sim w s []) (hk : Keeps P w) {op : Op} {r f : Nat} {k : Answer → Prog} {x' : Fib} (p : Prog)
    (hr : s.phase r = .fresh ∨ s.phase r = .suspended) (hh : Holds w r f) (hcur : P w.curTag = .call op r k)
    (hx' : x'.point = .busy) (e1 : w'.fibs = upd w.fibs f (some x')) (e2 : ∀ r' g, Holds w' r' g → Holds w r' g)
    (e3 : w'.stack = frame w op r f k :: w.stack) : Keeps (P.set (some r) p) w' := by
  have nb : ∀ c, Busy s c → c ≠ some r := by
    intro c hc he
    rcases hr with h2 | h2 <;> rcases hc r he with h1 | h1 <;> rw [h2] at h1 <;> cases h1
  refine ⟨?_, ?_, ?_⟩
  · intro g y t kk hy hp
    rw [e1] at hy
    by_cases hg : g = f
    · rw [hg, upd_same] at hy; injection hy with hy; rw [← hy, hx'] at hp; cases hp
    · rw [upd_ne _ _ hg] at hy
      rw [set_ne]
      · exact hk.inside g y t kk hy hp
      · intro he; injection he with he; subst he
        exact hg (holds_unique h (inside_holds h hy hp).1 hh)
  · intro r' g y q hh' hy hfn hp
    rw [e1] at hy
    by_cases hg : g = f
    · rw [hg, upd_same] at hy; injection hy with hy; rw [← hy, hx'] at hp; rcases hp with h1 | h1 <;> cases h1
    · rw [upd_ne _ _ hg] at hy
      rw [set_ne]
      · exact hk.fresh r' g y q (e2 r' g hh') hy hfn hp
      · intro he; injection he with he; subst he
        exact hg (holds_unique h (e2 _ g hh') hh)
  · intro fr hm
    rw [e3] at hm
    rcases List.mem_cons.mp hm with he | hm
    · rw [he]
      show P.set (some r) p w.curTag = .call op r k
      rw [set_ne _ _ (nb _ (busy_cur h))]; exact hcur
    · rw [set_ne _ _ (nb _ (busy_frame h hm))]; exact hk.frames fr hm

/-- Giving up control. -/
theorem keeps_leave (h : Sim w s []) (hk : Keeps P w) {f : Nat} {x' : Fib} {fr : Frame} {rest : List Frame} (p : Prog)
    (hs : w.stack = fr :: rest)
    (hx : (x'.func = none ∧ x'.point = .loop) ∨ ∃ t k, w.curTag = some t ∧ x'.point = .inside t k ∧ P (some t) = .yield k)
    (e1 : ∀ g y, w'.fibs g = some y → upd w.fibs f (some x') g = some y) (e2 : ∀ r' g, Holds w' r' g → Holds w r' g)
    (e3 : w'.stack = rest) : Keeps (P.set fr.tag p) w' := by
  have hfr : fr ∈ w.stack := by rw [hs]; exact List.mem_cons_self
  have hb := busy_frame h hfr
  refine ⟨?_, ?_, ?_⟩
  · intro g y t kk hy hp
    have hy := e1 g y hy
    by_cases hg : g = f
    · rw [hg, upd_same] at hy; injection hy with hy; subst hy
      rcases hx with ⟨_, h1⟩ | ⟨t', k', h1, h2, h3⟩
      · rw [h1] at hp; cases hp
      · rw [h2] at hp; injection hp with h4 h5; subst h4; subst h5
        rw [set_ne]
        · exact h3
        · intro he; exact tag_ne h hfr (by rw [← he, h1])
    · rw [upd_ne _ _ hg] at hy
      rw [set_ne]
      · exact hk.inside g y t kk hy hp
      · intro he
        have := (inside_holds h hy hp).2
        rcases hb t he.symm with h1 | h1 <;> rw [this] at h1 <;> cases h1
  · intro r' g y q hh' hy hfn hp
    have hy := e1 g y hy
    by_cases hg : g = f
    · rw [hg, upd_same] at hy; injection hy with hy; subst hy
      rcases hx with ⟨h1, _⟩ | ⟨t', k', h1, h2, h3⟩
      · rw [h1] at hfn; cases hfn
      · rw [h2] at hp; rcases hp with h1 | h1 <;> cases h1
    · rw [upd_ne _ _ hg] at hy
      rw [set_ne]
      · exact hk.fresh r' g y q (e2 r' g hh') hy hfn hp
      · intro he
        rcases parked_phase h (e2 r' g hh') hy hp with h2 | h2 <;> rcases hb r' he.symm with h1 | h1 <;> rw [h2] at h1 <;> cases h1
  · intro fr' hm
    rw [e3] at hm
    have hn := (shape_tags h.shape h.nodup).1
    rw [hs, List.map_cons, List.nodup_cons, List.nodup_cons] at hn
    rw [set_ne]
    · exact hk.frames fr' (by rw [hs]; exact List.mem_cons_of_mem _ hm)
    · intro he; exact hn.2.1 (List.mem_map.mpr ⟨fr', hm, he⟩)

theorem recycle_sub (f : Nat) (w : World) : (∀ g y, (recycle f w).fibs g = some y → w.fibs g = some y) ∧
    (recycle f w).res = w.res ∧ (recycle f w).stack = w.stack := by
  unfold recycle
  split
  · exact ⟨fun g y h => h, rfl, rfl⟩
  · refine ⟨fun g y h => ?_, rfl, rfl⟩
    change upd w.fibs f none g = some y at h
    by_cases hg : g = f
    · rw [hg, upd_same] at h; cases h
    · rw [upd_ne _ _ hg] at h; exact h

theorem recycle_misc (f : Nat) (w : World) : (recycle f w).curTag = w.curTag ∧ (recycle f w).cur = w.cur := by
  unfold recycle; split <;> exact ⟨rfl, rfl⟩

theorem create_sub (w : World) : (∀ g y, (create w).2.fibs g = some y → w.fibs g = some y ∨ (y.func = none ∧ y.point = .fresh)) ∧
    (create w).2.res = w.res ∧ (create w).2.stack = w.stack ∧ (create w).2.curTag = w.curTag ∧ (create w).2.log = w.log := by
  unfold create
  split
  · exact ⟨fun g y h => Or.inl h, rfl, rfl, rfl, rfl⟩
  · refine ⟨fun g y h => ?_, rfl, rfl, rfl, rfl⟩
    change upd w.fibs w.nextF _ g = some y at h
    by_cases hg : g = w.nextF
    · rw [hg, upd_same] at h; injection h with h; subst h; exact Or.inr ⟨rfl, rfl⟩
    · rw [upd_ne _ _ hg] at h; exact Or.inl h

/-- Holding fewer fibers. -/
theorem holds_less {r0 : Nat} {o' : Option Resum} (ho : ∀ o, o' = some o → o.fiber = none) {r g : Nat}
    (e2 : w'.res = upd w.res r0 o') (e3 : w'.stack = w.stack) (h : Holds w' r g) : Holds w r g := by
  rcases h with ⟨o, h1, h2⟩ | ⟨fr, hm, h1⟩
  · rw [e2] at h1
    by_cases hr : r = r0
    · rw [hr, upd_same] at h1; have := ho o h1; rw [h2] at this; cases this
    · rw [upd_ne _ _ hr] at h1; exact Or.inl ⟨o, h1, h2⟩
  · exact Or.inr ⟨fr, by rw [← e3]; exact hm, h1⟩

/-- What control coming back does to fibers and resumables. -/
theorem backIn_facts {fr : Frame} {x : Fib} {v w1 : World} {a : Answer} (h : backIn fr x v = .ok (a, w1)) :
    (∀ g y, w1.fibs g = some y → v.fibs g = some y) ∧ w1.stack = v.stack ∧ w1.curTag = v.curTag ∧
      ∀ r g, Holds w1 r g → Holds v r g := by
  have rc : ∀ (f : Nat) (u : World), (∀ g y, u.fibs g = some y → v.fibs g = some y) → u.stack = v.stack → u.curTag = v.curTag →
      (∀ r g, Holds u r g → Holds v r g) → (∀ g y, (recycle f u).fibs g = some y → v.fibs g = some y) ∧
        (recycle f u).stack = v.stack ∧ (recycle f u).curTag = v.curTag ∧ ∀ r g, Holds (recycle f u) r g → Holds v r g := by
    intro f u h1 h2 h3 h4
    obtain ⟨r1, r2, r3⟩ := recycle_sub f u
    refine ⟨fun g y hy => h1 g y (r1 g y hy), by rw [r3, h2], by rw [(recycle_misc f u).1, h3], fun r g hh => h4 r g ?_⟩
    rcases hh with ⟨o, h5, h6⟩ | ⟨fr, hm, h5⟩
    · exact Or.inl ⟨o, by rw [← r2]; exact h5, h6⟩
    · exact Or.inr ⟨fr, by rw [← r3]; exact hm, h5⟩
  have yl : ∀ {u : World} {a : Answer} {w1 : World}, resYielded fr x u = .ok (a, w1) → u.fibs = v.fibs → u.stack = v.stack →
      u.curTag = v.curTag → u.res = v.res → (∀ g y, w1.fibs g = some y → v.fibs g = some y) ∧ w1.stack = v.stack ∧
        w1.curTag = v.curTag ∧ ∀ r g, Holds w1 r g → Holds v r g := by
    intro u a w1 h h1 h2 h3 h4
    unfold resYielded at h
    split at h
    · cases h
    · split at h
      · split at h
        · split at h
          · cases h
          · injection h with h; injection h with _ h; subst h
            refine rc _ _ (fun g y hy => by rw [← h1]; exact hy) h2 h3 (fun r g hh => ?_)
            exact holds_less (r0 := fr.r) (o' := some ⟨none, true, none⟩) (fun o ho => by injection ho with ho; rw [← ho])
              (by rw [← h4]) (by exact h2) hh
        · split at h
          · injection h with h; injection h with _ h; subst h
            refine ⟨fun g y hy => by rw [← h1]; exact hy, h2, h3, fun r g hh => ?_⟩
            rcases hh with ⟨o, h5, h6⟩ | ⟨fr, hm, h5⟩
            · exact Or.inl ⟨o, by rw [← h4]; exact h5, h6⟩
            · exact Or.inr ⟨fr, by rw [← h2]; exact hm, h5⟩
          · injection h with h; injection h with _ h; subst h
            refine rc _ _ (fun g y hy => by rw [← h1]; exact hy) h2 h3 (fun r g hh => ?_)
            exact holds_less (r0 := fr.r) (o' := some ⟨none, true, x.result⟩) (fun o ho => by injection ho with ho; rw [← ho])
              (by rw [← h4]) (by exact h2) hh
      · cases h
  unfold backIn at h
  split at h
  · split at h
    · exact yl h rfl rfl rfl rfl
    · exact yl h rfl rfl rfl rfl
    · split at h
      · cases h
      · rename_i o ho
        injection h with h; injection h with _ h; subst h
        refine ⟨fun g y hy => hy, rfl, rfl, fun r g hh => ?_⟩
        rcases hh with ⟨o', h5, h6⟩ | ⟨fr, hm, h5⟩
        · change upd v.res fr.r _ r = some o' at h5
          by_cases hr : r = fr.r
          · rw [hr, upd_same] at h5; injection h5 with h5; subst h5
            rw [hr]; exact Or.inl ⟨o, ho, h6⟩
          · rw [upd_ne _ _ hr] at h5; exact Or.inl ⟨o', h5, h6⟩
        · exact Or.inr ⟨fr, hm, h5⟩
    · injection h with h; injection h with _ h; subst h
      exact rc _ _ (fun g y hy => hy) rfl rfl (fun r g hh => hh)
  · cases h

/-- Any way of giving up control. -/
theorem faithful_leave (h : Sim w s []) (hk : Keeps P w) {f : Nat} {x' : Fib} {how : How}
    (hx : (x'.func = none ∧ x'.point = .loop) ∨ ∃ t k, w.curTag = some t ∧ x'.point = .inside t k ∧ P (some t) = .yield k)
    (hg : gives (P w.curTag) how = true) (hst : switchBack f x' how w = .ok w') :
    ∃ e P', w'.log = e :: w.log ∧ follow w.curTag P e = some (w'.curTag, P') ∧ Keeps P' w' ∧ w'.cur = P' w'.curTag := by
  unfold switchBack at hst
  split at hst
  · cases hst
  · rename_i fr rest hs
    split at hst
    · split at hst
      · rename_i a w1 hb
        injection hst with hst; subst hst
        obtain ⟨b1, b2, b3, b4⟩ := backIn_facts hb
        have hfr := hk.frames fr (by rw [hs]; exact List.mem_cons_self)
        refine ⟨.left w.curTag how fr.op fr.r a fr.tag, P.set fr.tag (fr.k a), rfl, ?_, ?_, ?_⟩
        · simp only [follow, hg, hfr, and_self, if_true]
          show some (fr.tag, _) = some (w1.curTag, _)
          rw [b3]
        · refine keeps_leave h hk _ hs hx (fun g y hy => b1 g y hy) (fun r g hh => ?_) b2
          have h1 : Holds w1 r g := hh
          rcases b4 r g h1 with ⟨o, h5, h6⟩ | ⟨fr', hm, h5⟩
          · exact Or.inl ⟨o, h5, h6⟩
          · refine Or.inr ⟨fr', ?_, h5⟩
            rw [hs]; exact List.mem_cons_of_mem _ hm
        · show fr.k a = P.set fr.tag _ w1.curTag
          rw [b3, show fr.tag = _ from rfl]
          exact (set_same _ _ _).symm
      · cases hst
      · cases hst
    · cases hst

/-- Passing control to the fiber `f` of resumable `r`, which executes function `r`. -/
theorem faithful_enter (h : Sim w s []) (hk : Keeps P w) {op : Op} {r f : Nat} {x : Fib} {k : Answer → Prog} {v : World}
    (hr : s.phase r = .fresh ∨ s.phase r = .suspended) (hh : Holds w r f) (hx : w.fibs f = some x)
    (hcur : P w.curTag = .call op r k) {y : Fib} (hy1 : y.point = x.point) (hy2 : y.func = x.func)
    (hy3 : y.st = .aborting → s.phase r = .suspended)
    (hst : activate op r f v = .ok w') (v1 : v.fibs = upd w.fibs f (some y)) (v2 : v.stack = frame w op r f k :: w.stack) (v3 : ∀ r' g, Holds v r' g → Holds w r' g)
    (v4 : v.log = w.log) :
    ∃ e P', w'.log = e :: w.log ∧ follow w.curTag P e = some (w'.curTag, P') ∧ Keeps P' w' ∧ w'.cur = P' w'.curTag := by
  obtain ⟨x0, hx0, _, hok⟩ := h.hold r f hh
  rw [hx] at hx0; injection hx0 with hx0; subst hx0
  have noop : P.set (some r) (P (some r)) = P := by
    funext d; unfold Scripts.set; split
    · rename_i hd; rw [hd]
    · rfl
  unfold activate at hst
  rw [v1, upd_same] at hst
  dsimp only at hst
  split at hst
  · cases hst
  · have go : ∀ {wt : Wake} {e : Ev} {kk : Wake → Prog}, x.point = .inside r kk → s.phase r = .suspended →
        (follow w.curTag P e = some (some r, P.set (some r) (kk wt))) → w'.log = e :: w.log → w'.curTag = some r → w'.cur = kk wt →
        (∃ x', x'.point = .busy ∧ w'.fibs = upd w.fibs f (some x')) → w'.stack = v.stack → w'.res = v.res →
        ∃ e P', w'.log = e :: w.log ∧ follow w.curTag P e = some (w'.curTag, P') ∧ Keeps P' w' ∧ w'.cur = P' w'.curTag := by
      intro wt e kk hin hph g1 g2 g3 g4 g5 g6 g7
      obtain ⟨x', g5, g8⟩ := g5
      refine ⟨e, P.set (some r) (kk wt), g2, by rw [g3]; exact g1, ?_, by rw [g3, g4, set_same]⟩
      refine keeps_enter (x' := x') h hk _ hr hh hcur g5 g8 (fun r' g hh' => v3 r' g ?_) (by rw [g6, v2])
      rcases hh' with ⟨o, h5, h6⟩ | ⟨fr, hm, h5⟩
      · exact Or.inl ⟨o, by rw [← g7]; exact h5, h6⟩
      · exact Or.inr ⟨fr, by rw [← g6]; exact hm, h5⟩
    have start : ∀ {t : Nat} {p : Prog}, (x.point = .fresh ∨ x.point = .loop) → x.func = some (t, p) →
        w'.log = .started op r t :: w.log → w'.curTag = some t → w'.cur = p →
        (∃ x', x'.point = .busy ∧ w'.fibs = upd w.fibs f (some x')) → w'.stack = v.stack → w'.res = v.res →
        ∃ e P', w'.log = e :: w.log ∧ follow w.curTag P e = some (w'.curTag, P') ∧ Keeps P' w' ∧ w'.cur = P' w'.curTag := by
      intro t p hpt hfn g2 g3 g4 g5 g6 g7
      obtain ⟨x', g5, g8⟩ := g5
      have hph : s.phase r = .fresh := by
        rcases parked_phase h hh hx hpt with h1 | h1
        · exact h1
        · rcases hr with h2 | h2 <;> rw [h2] at h1 <;> cases h1
      rw [hph] at hok
      obtain ⟨_, ⟨q, hq⟩, _⟩ := hok
      rw [hfn] at hq; injection hq with hq; injection hq with hq1 hq2; subst hq1
      refine ⟨_, P, g2, ?_, ?_, ?_⟩
      · rw [g3]; simp only [follow, hcur, and_self, if_true]
      · rw [← noop]
        refine keeps_enter (x' := x') h hk _ hr hh hcur g5 g8 (fun r' g hh' => v3 r' g ?_) (by rw [g6, v2])
        rcases hh' with ⟨o, h5, h6⟩ | ⟨fr, hm, h5⟩
        · exact Or.inl ⟨o, by rw [← g7]; exact h5, h6⟩
        · exact Or.inr ⟨fr, by rw [← g6]; exact hm, h5⟩
      · rw [g3, g4]; exact (hk.fresh _ f x p hh hx hfn hpt).symm
    split at hst
    · cases hst
    · rename_i hpt
      split at hst
      · split at hst
        · cases hst
        · rename_i t p hfn
          injection hst with hst; subst hst
          exact start (Or.inl (by rw [← hy1]; exact hpt)) (by rw [← hy2]; exact hfn)
            (by show _ :: v.log = _; rw [v4]) rfl rfl ⟨{ y with caller := v.curF, point := .busy }, rfl, upd_upd _ _ _ _⟩ rfl rfl
      · cases hst
    · rename_i hpt
      split at hst
      · split at hst
        · cases hst
        · rename_i t p hfn
          injection hst with hst; subst hst
          exact start (Or.inr (by rw [← hy1]; exact hpt)) (by rw [← hy2]; exact hfn)
            (by show _ :: v.log = _; rw [v4]) rfl rfl ⟨{ y with caller := v.curF, point := .busy }, rfl, upd_upd _ _ _ _⟩ rfl rfl
      · cases hst
    · rename_i t kk hpt
      injection hst with hst; subst hst
      have hin : x.point = .inside t kk := by rw [← hy1]; exact hpt
      obtain ⟨ht1, ht2⟩ := inside_holds h hx hin
      have htr : t = r := h.inj t r f ht1 hh
      subst htr
      have hP := hk.inside f x t kk hx hin
      by_cases hab : y.st = .aborting
      · refine go (wt := .aborted) (e := .unwinding op t t) hin ht2 ?_ ?_ rfl ?_ ⟨{ y with caller := v.curF, point := .busy }, rfl, upd_upd _ _ _ _⟩ rfl rfl
        · simp only [follow, hcur, hP, and_self, if_true]
        · show (if _ then _ else _) :: v.log = _
          rw [if_pos hab, v4]
        · show (if _ then _ else _) = _
          rw [if_pos hab]
      · refine go (wt := .resumed) (e := .continued op t t) hin ht2 ?_ ?_ rfl ?_ ⟨{ y with caller := v.curF, point := .busy }, rfl, upd_upd _ _ _ _⟩ rfl rfl
        · simp only [follow, hcur, hP, and_self, if_true]
        · show (if _ then _ else _) :: v.log = _
          rw [if_neg hab, v4]
        · show (if _ then _ else _) = _
          rw [if_neg hab]

theorem createN_sub (n : Nat) : ∀ w : World, (∀ g y, (createN n w).2.fibs g = some y → w.fibs g = some y ∨ (y.func = none ∧ y.point = .fresh)) ∧
    (createN n w).2.res = w.res ∧ (createN n w).2.stack = w.stack ∧ (createN n w).2.curTag = w.curTag := by
  induction n with
  | zero => intro w; exact ⟨fun g y h => Or.inl h, rfl, rfl, rfl⟩
  | succ n ih =>
    intro w
    obtain ⟨c1, c2, c3, c4, _⟩ := create_sub w
    obtain ⟨i1, i2, i3, i4⟩ := ih (create w).2
    refine ⟨fun g y hy => ?_, i2.trans c2, i3.trans c3, i4.trans c4⟩
    rcases i1 g y hy with h1 | h1
    · exact c1 g y h1
    · exact Or.inr h1

theorem recycleAll_sub (l : List Nat) : ∀ w : World, (∀ g y, (recycleAll l w).fibs g = some y → w.fibs g = some y) ∧
    (recycleAll l w).res = w.res ∧ (recycleAll l w).stack = w.stack ∧ (recycleAll l w).curTag = w.curTag := by
  induction l with
  | nil => intro w; exact ⟨fun g y h => h, rfl, rfl, rfl⟩
  | cons f l ih =>
    intro w
    obtain ⟨c1, c2, c3⟩ := recycle_sub f w
    obtain ⟨i1, i2, i3, i4⟩ := ih (recycle f w)
    exact ⟨fun g y hy => c1 g y (i1 g y hy), i2.trans c2, i3.trans c3, i4.trans (recycle_misc f w).1⟩

theorem holds_congr (h2 : w'.res = w.res) (h3 : w'.stack = w.stack) {r g : Nat} (hh : Holds w' r g) : Holds w r g := by
  rcases hh with ⟨o, ho, hf⟩ | ⟨fr, hm, ho⟩
  · exact Or.inl ⟨o, by rw [← h2]; exact ho, hf⟩
  · exact Or.inr ⟨fr, by rw [← h3]; exact hm, ho⟩

theorem holds_dropped {r f : Nat} {k : Answer → Prog} {o : Resum} {v : World} {r' g : Nat} (hh : Holds v r' g)
    (ho : w.res r = some o) (hf : o.fiber = some f) (h2 : v.res = upd w.res r none)
    (h3 : v.stack = frame w .drop r f k :: w.stack) :
    Holds w r' g := by
  rcases hh with ⟨o', h1, h4⟩ | ⟨fr, hm, h1, h4, h5⟩
  · rw [h2] at h1
    by_cases hr : r' = r
    · rw [hr, upd_same] at h1; cases h1
    · rw [upd_ne _ _ hr] at h1; exact Or.inl ⟨o', h1, h4⟩
  · rw [h3] at hm
    rcases List.mem_cons.mp hm with he | hm
    · subst he
      refine Or.inl ⟨o, ?_, ?_⟩
      · rw [← h4]; exact ho
      · rw [← h5]; exact hf
    · exact Or.inr ⟨fr, hm, h1, h4, h5⟩

theorem holds_called {op : Op} {r f : Nat} {k : Answer → Prog} {v : World} {r' g : Nat} (hh : Holds v r' g)
    (hop : op ≠ .drop) (h2 : v.res = w.res) (h3 : v.stack = frame w op r f k :: w.stack) : Holds w r' g := by
  rcases hh with ⟨o', h1, h4⟩ | ⟨fr, hm, h1, h4, h5⟩
  · rw [h2] at h1; exact Or.inl ⟨o', h1, h4⟩
  · rw [h3] at hm
    rcases List.mem_cons.mp hm with he | hm
    · subst he; exact absurd h1 hop
    · exact Or.inr ⟨fr, hm, h1, h4, h5⟩

/-- One step follows the script of whoever is in control (or main has ended). -/
theorem faithful_step (h : Sim w s []) (hk : Keeps P w) (hcur : w.cur = P w.curTag) (hlegal : Legal s w.cur)
    (hst : step w = .ok w') :
    (∃ e P', w'.log = e :: w.log ∧ follow w.curTag P e = some (w'.curTag, P') ∧ Keeps P' w' ∧ w'.cur = P' w'.curTag) ∨
    (w'.log = w.log ∧ w'.curTag = w.curTag ∧ ∃ P', Keeps P' w' ∧ w'.cur = P' w'.curTag ∧
      (P' = P ∨ (∃ k st, P w.curTag = .stats k ∧ P' = P.set w.curTag (k st)) ∨
        (∃ k, P w.curTag = .prime k ∧ P' = P.set w.curTag k) ∨ ∃ k, P w.curTag = .reset k ∧ P' = P.set w.curTag k)) := by
  have quiet : ∀ {p : Prog} {e : Ev}, w'.fibs = w.fibs → w'.res = w.res → w'.stack = w.stack → w'.curTag = w.curTag →
      w'.cur = p → w'.log = e :: w.log → follow w.curTag P e = some (w.curTag, P.set w.curTag p) →
      ∃ e P', w'.log = e :: w.log ∧ follow w.curTag P e = some (w'.curTag, P') ∧ Keeps P' w' ∧ w'.cur = P' w'.curTag := by
    intro p e q1 q2 q3 q4 q5 q6 q7
    exact ⟨e, P.set w.curTag p, q6, by rw [q4]; exact q7, keeps_congr (keeps_set h hk p) q1 q2 q3, by rw [q4, q5, set_same]⟩
  have fin : ∀ {how : How}, gives (P w.curTag) how = true → funcEnd how w = .ok w' →
      (∃ e P', w'.log = e :: w.log ∧ follow w.curTag P e = some (w'.curTag, P') ∧ Keeps P' w' ∧ w'.cur = P' w'.curTag) ∨ w' = w := by
    intro how hg hst
    unfold funcEnd at hst
    split at hst
    · injection hst with hst; exact Or.inr hst.symm
    · split at hst
      · cases hst
      · exact Or.inl (faithful_leave h hk (Or.inl ⟨rfl, rfl⟩) hg hst)
  have ended : w' = w → (∃ e P', w'.log = e :: w.log ∧ follow w.curTag P e = some (w'.curTag, P') ∧ Keeps P' w' ∧ w'.cur = P' w'.curTag) ∨
    (w'.log = w.log ∧ w'.curTag = w.curTag ∧ ∃ P', Keeps P' w' ∧ w'.cur = P' w'.curTag ∧
      (P' = P ∨ (∃ k st, P w.curTag = .stats k ∧ P' = P.set w.curTag (k st)) ∨
        (∃ k, P w.curTag = .prime k ∧ P' = P.set w.curTag k) ∨ ∃ k, P w.curTag = .reset k ∧ P' = P.set w.curTag k)) := by
    intro he; subst he; exact Or.inr ⟨rfl, rfl, P, hk, hcur, Or.inl rfl⟩
  unfold step at hst
  cases hc : w.cur with
  | ret v =>
    rw [hc] at hst
    rcases fin (how := .finished v) (by rw [← hcur, hc]; simp [gives]) hst with h1 | h1
    · exact Or.inl h1
    · exact ended h1
  | fail e =>
    rw [hc] at hst
    rcases fin (how := .failed e) (by rw [← hcur, hc]; simp [gives]) hst with h1 | h1
    · exact Or.inl h1
    · exact ended h1
  | emit n k =>
    rw [hc] at hst; injection hst with hst; subst hst
    refine Or.inl (quiet (p := k) rfl rfl rfl rfl rfl rfl ?_)
    rw [hc] at hcur
    simp only [follow, ← hcur, and_self, if_true]
  | yield k =>
    rw [hc] at hcur
    simp only [hc] at hst
    unfold doYield at hst
    split at hst
    · injection hst with hst; subst hst
      refine Or.inl (quiet (p := k .notSuspendable) rfl rfl rfl rfl rfl rfl ?_)
      simp only [follow, ← hcur]
    · split at hst
      · split at hst
        · rename_i x t hx ht
          split at hst
          · refine Or.inl (faithful_leave h hk (Or.inr ⟨t, k, ht, rfl, by rw [← ht]; exact hcur.symm⟩) ?_ hst)
            rw [← hcur]; rfl
          · cases hst
        · cases hst
      · cases hst
  | spawn p k =>
    rw [hc] at hcur
    simp only [hc] at hst
    unfold doSpawn at hst
    have hsim := sim_create h
    obtain ⟨c1, c2, c3, c4, c5⟩ := create_sub w
    obtain ⟨⟨x, hx, hpk⟩, _, hnh⟩ := hsim.loose (create w).1 List.mem_cons_self
    simp only [hx] at hst
    injection hst with hst; subst hst
    have habs := h.absent w.nextR (Nat.le_refl _)
    have nb : ∀ c, Busy s c → c ≠ some w.nextR := by
      intro c hb he
      rcases hb _ he with h1 | h1 <;> rw [habs] at h1 <;> cases h1
    have hk1 : Keeps (P.set w.curTag (k w.nextR)) (create w).2 :=
      keeps_shrink (keeps_set h hk _) c1 (fun r g hh => holds_congr c2 c3 hh) c3
    have hset : ∀ d, d ≠ some w.nextR → (P.set (some w.nextR) p).set w.curTag (k w.nextR) d = P.set w.curTag (k w.nextR) d := by
      intro d hd
      simp only [Scripts.set, hd, if_false]
    have hexist : ∀ {r g : Nat}, Holds w r g → r ≠ w.nextR := by
      intro r g hh he
      obtain ⟨_, _, _, hok⟩ := h.hold r g hh
      rw [he, habs] at hok; exact hok
    refine Or.inl ⟨.created w.nextR, (P.set (some w.nextR) p).set w.curTag (k w.nextR), rfl, ?_, ⟨?_, ?_, ?_⟩, ?_⟩
    · simp only [follow, ← hcur]
      show some (w.curTag, _) = some ((create w).2.curTag, _)
      rw [c4]
    · intro g y t kk hy hp
      change upd (create w).2.fibs (create w).1 _ g = some y at hy
      by_cases hg : g = (create w).1
      · rw [hg, upd_same] at hy; injection hy with hy; subst hy
        change x.point = _ at hp
        rcases hpk.2 with h1 | h1 <;> rw [h1] at hp <;> cases hp
      · rw [upd_ne _ _ hg] at hy
        rw [hset]
        · exact hk1.inside g y t kk hy hp
        · intro he; injection he with he
          rcases c1 g y hy with h1 | ⟨_, h1⟩
          · have := (inside_holds h h1 hp).2
            rw [he, habs] at this; cases this
          · rw [h1] at hp; cases hp
    · intro r g y q hh hy hfn hp
      change upd (create w).2.fibs (create w).1 _ g = some y at hy
      by_cases hr : r = w.nextR
      · subst hr
        have hg : g = (create w).1 := by
          rcases hh with ⟨o, h1, h2⟩ | ⟨fr, hm, h1, h2, h3⟩
          · change upd (create w).2.res w.nextR _ w.nextR = some o at h1
            rw [upd_same] at h1; injection h1 with h1; subst h1
            injection h2 with h2; exact h2.symm
          · exact absurd h2 (hexist (Or.inr ⟨fr, by rw [← c3]; exact hm, h1, rfl, rfl⟩))
        rw [hg, upd_same] at hy; injection hy with hy; subst hy
        change some (w.nextR, p) = _ at hfn
        injection hfn with hfn; injection hfn with _ hfn; subst hfn
        rw [set_ne _ _ (fun he => nb _ (busy_cur h) he.symm), set_same]
      · have hh0 : Holds (create w).2 r g := by
          rcases hh with ⟨o, h1, h2⟩ | ⟨fr, hm, h1⟩
          · change upd (create w).2.res w.nextR _ r = some o at h1
            rw [upd_ne _ _ hr] at h1; exact Or.inl ⟨o, h1, h2⟩
          · exact Or.inr ⟨fr, hm, h1⟩
        have hg : g ≠ (create w).1 := fun he => hnh r (he ▸ hh0)
        rw [upd_ne _ _ hg] at hy
        rw [hset _ (fun he => hr (by injection he))]
        exact hk1.fresh r g y q hh0 hy hfn hp
    · intro fr hm
      have hm' : fr ∈ w.stack := by rw [← c3]; exact hm
      rw [hset _ (nb _ (busy_frame h hm'))]
      exact hk1.frames fr hm
    · show k w.nextR = Scripts.set _ w.curTag _ (create w).2.curTag
      rw [c4, set_same]
  | call op r k =>
    rw [hc] at hcur
    rw [hc] at hlegal
    have closed : ∀ {a : Answer} {p : Prog}, p = k a → w' = { w with cur := p, log := .answered op r a :: w.log } →
        ∃ e P', w'.log = e :: w.log ∧ follow w.curTag P e = some (w'.curTag, P') ∧ Keeps P' w' ∧ w'.cur = P' w'.curTag := by
      intro a p hp he; subst he; subst hp
      refine quiet (p := k a) (e := .answered op r a) rfl rfl rfl rfl rfl rfl ?_
      simp only [follow, ← hcur, and_self, if_true]
    cases op with
    | run =>
      simp only [hc] at hst
      simp only [Legal] at hlegal
      rcases hlegal with hp | hp
      · obtain ⟨f, d, x, hres, hh, hx, hcache, hok, hcf, hstk⟩ := sim_holds h (Or.inl hp)
        unfold resRun fiberRun at hst
        simp only [hres, hx] at hst
        refine Or.inl (faithful_enter (op := .run) (f := f) (x := x) (k := k)
          (y := if x.st = .aborting then x else { x with st := .running }) h hk (Or.inl hp) hh hx hcur.symm ?_ ?_ ?_ hst rfl rfl ?_ rfl)
        · split <;> rfl
        · split <;> rfl
        · intro ha
          rw [hp] at hok
          split at ha
          · rename_i h1; rcases hok.1.1 with h2 | h2 <;> rw [h2] at h1 <;> cases h1
          · cases ha
        · intro r' g hh'; exact holds_called (op := .run) (r := r) (f := f) (k := k) hh' (by simp) rfl rfl
      · obtain ⟨o, ho1, ho2⟩ := closed_obj (h.obj r) hp
        unfold resRun at hst
        simp only [ho1, ho2] at hst
        injection hst with hst
        exact Or.inl (closed rfl hst.symm)
    | resume =>
      simp only [hc] at hst
      simp only [Legal] at hlegal
      rcases hlegal with hp | hp
      · obtain ⟨f, d, x, hres, hh, hx, hcache, hok, hcf, hstk⟩ := sim_holds h (Or.inr (Or.inl hp))
        unfold resResume fiberRun at hst
        simp only [hres, hx] at hst
        split at hst
        · refine Or.inl (faithful_enter (op := .resume) (f := f) (x := x) (k := k)
            (y := if x.st = .aborting then x else { x with st := .running }) h hk (Or.inr hp) hh hx hcur.symm ?_ ?_ ?_ hst rfl rfl ?_ rfl)
          · split <;> rfl
          · split <;> rfl
          · intro _; exact hp
          · intro r' g hh'; exact holds_called (op := .resume) (r := r) (f := f) (k := k) hh' (by simp) rfl rfl
        · cases hst
      · obtain ⟨o, ho1, ho2⟩ := closed_obj (h.obj r) hp
        unfold resResume at hst
        simp only [ho1, ho2] at hst
        injection hst with hst
        exact Or.inl (closed rfl hst.symm)
    | abort =>
      simp only [hc] at hst
      simp only [Legal] at hlegal
      rcases hlegal with hp | hp
      · obtain ⟨f, d, x, hres, hh, hx, hcache, hok, hcf, hstk⟩ := sim_holds h (Or.inr (Or.inl hp))
        unfold resAbort fiberAbort fiberRun at hst
        simp only [hres, hx] at hst
        split at hst
        · simp only [upd_same, upd_upd, if_true] at hst
          refine Or.inl (faithful_enter (op := .abort) (f := f) (x := x) (k := k)
            (y := { x with st := .aborting }) h hk (Or.inr hp) hh hx hcur.symm rfl rfl (fun _ => hp) hst rfl rfl ?_ rfl)
          intro r' g hh'; exact holds_called (op := .abort) (r := r) (f := f) (k := k) hh' (by simp) rfl rfl
        · cases hst
      · obtain ⟨o, ho1, ho2⟩ := closed_obj (h.obj r) hp
        unfold resAbort at hst
        simp only [ho1, ho2] at hst
        injection hst with hst
        exact Or.inl (closed rfl hst.symm)
    | drop =>
      simp only [hc] at hst
      have answer : ∀ {v : World}, (∀ g y, v.fibs g = some y → w.fibs g = some y) → (∀ r' g, Holds v r' g → Holds w r' g) →
          v.stack = w.stack → v.curTag = w.curTag → v.cur = k .returned → v.log = .answered .drop r .returned :: w.log → w' = v →
          ∃ e P', w'.log = e :: w.log ∧ follow w.curTag P e = some (w'.curTag, P') ∧ Keeps P' w' ∧ w'.cur = P' w'.curTag := by
        intro v a1 a2 a3 a4 a5 a6 he; subst he
        refine ⟨.answered .drop r .returned, P.set w.curTag (k .returned), a6, ?_, ?_, ?_⟩
        · simp only [follow, ← hcur, and_self, if_true, a4]
        · exact keeps_shrink (keeps_set h hk _) (fun g y hy => Or.inl (a1 g y hy)) a2 a3
        · rw [a4, a5, set_same]
      unfold resDrop at hst
      split at hst
      · cases hst
      · rename_i o ho
        split at hst
        · injection hst with hst
          refine Or.inl (answer (fun g y hy => ?_) (fun r' g hh => ?_) ?_ ?_ ?_ ?_ hst.symm)
          · exact hy
          · refine holds_less (r0 := r) (o' := none) (fun o ho => by cases ho) ?_ ?_ hh <;> rfl
          all_goals rfl
        · rename_i f hf
          split at hst
          · cases hst
          · rename_i x hx
            split at hst
            · rename_i hy
              have hh : Holds w r f := Or.inl ⟨o, ho, hf⟩
              have hp : s.phase r = .suspended := by
                obtain ⟨x0, hx0, _, hok⟩ := h.hold r f hh
                rw [hx] at hx0; injection hx0 with hx0; subst hx0
                cases hph : s.phase r <;> rw [hph] at hok <;> first
                  | rfl
                  | exact hok.elim
                  | (exfalso; have := hok.1.1; rw [hy] at this; rcases this with h1 | h1 <;> cases h1)
                  | (exfalso; have := hok.1; rw [hy] at this; rcases this with h1 | h1 <;> cases h1)
                  | (exfalso; have := hok.1; rw [hy] at this; cases this)
              unfold fiberAbort fiberRun at hst
              simp only [hx] at hst
              rw [if_pos hy] at hst
              simp only [upd_same, upd_upd, if_true] at hst
              refine Or.inl (faithful_enter (op := .drop) (f := f) (x := x) (k := k)
                (y := { x with st := .aborting }) h hk (Or.inr hp) hh hx hcur.symm rfl rfl (fun _ => hp) hst rfl rfl ?_ rfl)
              intro r' g hh'; exact holds_dropped (r := r) (f := f) (k := k) hh' ho hf rfl rfl
            · split at hst
              · cases hst
              · injection hst with hst
                obtain ⟨r1, r2, r3⟩ := recycle_sub f { w with res := upd w.res r none, cur := k .returned, log := .answered .drop r .returned :: w.log }
                obtain ⟨r4, r5⟩ := recycle_misc f { w with res := upd w.res r none, cur := k .returned, log := .answered .drop r .returned :: w.log }
                refine Or.inl (answer (fun g y hy => r1 g y hy) (fun r' g hh => ?_) r3 r4 r5 (recycle_log _ _) hst.symm)
                exact holds_less (r0 := r) (o' := none) (fun o ho => by cases ho) r2 r3 hh
  | ask r k =>
    rw [hc] at hcur
    simp only [hc] at hst
    split at hst
    · cases hst
    · rename_i o ho
      injection hst with hst; subst hst
      refine Or.inl (quiet (p := k o.done (if o.done then o.result else none)) rfl rfl rfl rfl rfl rfl ?_)
      simp only [follow, ← hcur, if_true]
  | clobber r k =>
    rw [hc] at hcur
    simp only [hc] at hst
    have answer : ∀ {v : World}, (∀ g y, v.fibs g = some y → w.fibs g = some y) →
        v.res = upd w.res r (some ⟨none, false, none⟩) →
        v.stack = w.stack → v.curTag = w.curTag → v.cur = k → v.log = .clobbered r :: w.log → w' = v →
        ∃ e P', w'.log = e :: w.log ∧ follow w.curTag P e = some (w'.curTag, P') ∧ Keeps P' w' ∧ w'.cur = P' w'.curTag := by
      intro v a1 a2 a3 a4 a5 a6 he; subst he
      refine ⟨.clobbered r, P.set w.curTag k, a6, ?_, ?_, ?_⟩
      · simp only [follow, ← hcur, if_true, a4]
      · exact keeps_shrink (keeps_set h hk _) (fun g y hy => Or.inl (a1 g y hy))
          (fun r' g hh => holds_less (r0 := r) (fun o ho => by injection ho with ho; rw [← ho]) a2 a3 hh) a3
      · rw [a4, a5, set_same]
    unfold doClobber at hst
    split at hst
    · cases hst
    · split at hst
      · injection hst with hst
        exact Or.inl (answer (fun g y hy => by exact hy) (by rfl) (by rfl) (by rfl) (by rfl) (by rfl) hst.symm)
      · split at hst
        · cases hst
        · rename_i f _ x hx
          split at hst
          · cases hst
          · injection hst with hst
            refine Or.inl (answer (fun g y hy => ?_) (by rfl) (by rfl) (by rfl) (by rfl) (by rfl) hst.symm)
            change upd w.fibs _ none g = some y at hy
            unfold upd at hy
            split at hy
            · cases hy
            · exact hy
  | stats k =>
    rw [hc] at hcur
    simp only [hc] at hst; injection hst with hst; subst hst
    exact Or.inr ⟨rfl, rfl, _, keeps_congr (keeps_set h hk (k (statistics w))) rfl rfl rfl, (set_same _ _ _).symm,
      Or.inr (Or.inl ⟨k, statistics w, hcur.symm, rfl⟩)⟩
  | prime k =>
    rw [hc] at hcur
    simp only [hc] at hst; injection hst with hst; subst hst
    obtain ⟨c1, c2, c3, c4⟩ := createN_sub w.cap w
    obtain ⟨r1, r2, r3, r4⟩ := recycleAll_sub (createN w.cap w).1.reverse (createN w.cap w).2
    refine Or.inr ⟨?_, r4.trans c4, P.set w.curTag k, ?_, ?_, Or.inr (Or.inr (Or.inl ⟨k, hcur.symm, rfl⟩))⟩
    · show (recycleAll _ _).log = _
      rw [recycleAll_log, createN_log]
    · refine keeps_shrink (keeps_set h hk _) (fun g y hy => c1 g y (r1 g y hy)) (fun r g hh => ?_) (r3.trans c3)
      exact holds_congr (r2.trans c2) (r3.trans c3) hh
    · show k = P.set w.curTag k (recycleAll _ _).curTag
      rw [r4.trans c4, set_same]
  | reset k =>
    rw [hc] at hcur
    simp only [hc] at hst; injection hst with hst; subst hst
    obtain ⟨f1, f2, f3, f4, f5, f6, f7, f8, f9, f10⟩ := freeAll_fields w.cache w
    refine Or.inr ⟨?_, f1, P.set w.curTag k, ?_, ?_, Or.inr (Or.inr (Or.inr ⟨k, hcur.symm, rfl⟩))⟩
    · exact f8
    · refine keeps_shrink (keeps_set h hk _) (fun g y hy => ?_) (fun r g hh => holds_congr f7 f3 hh) f3
      change (freeAll w.cache w).fibs g = some y at hy
      rw [f10] at hy
      split at hy
      · cases hy
      · exact Or.inl hy
    · show k = P.set w.curTag k (freeAll _ _).curTag
      rw [f1, set_same]

/-- **C39**. Main and all functions are executed as written, and told what the log says: the log and what is going to be executed
    next are those of playing the scripts. -/
theorem C39_faithful (h : Reach cap main w) : ∃ P, Plays main w.log w.curTag P ∧ w.cur = P w.curTag := by
  have key : ∃ P, Plays main w.log w.curTag P ∧ w.cur = P w.curTag ∧ Keeps P w := by
    induction h with
    | start =>
      refine ⟨fun _ => main, .start _ rfl, rfl, ⟨?_, ?_, ?_⟩⟩
      · intro f x t k hx; cases hx
      · intro r f x p _ hx; cases hx
      · intro fr hm; cases hm
    | @step w w' s hr hl hlegal hst ih =>
      obtain ⟨s0, hl0, hsim⟩ := reach_sim hr
      rw [hl] at hl0; injection hl0 with hl0; subst hl0
      obtain ⟨P, h1, h2, h3⟩ := ih
      rcases faithful_step hsim h3 h2 hlegal hst with ⟨e, P', a1, a2, a3, a4⟩ | ⟨a1, a2, P', a3, a4, a5⟩
      · exact ⟨P', by rw [a1]; exact .event h1 a2, a4, a3⟩
      · refine ⟨P', ?_, a4, a3⟩
        rw [a1, a2]
        rcases a5 with a5 | ⟨k, st, a5, a6⟩ | ⟨k, a5, a6⟩ | ⟨k, a5, a6⟩
        · rw [a5]; exact h1
        · rw [a6]; exact .stats h1 a5 st
        · rw [a6]; exact .prime h1 a5
        · rw [a6]; exact .reset h1 a5
  obtain ⟨P, h1, h2, _⟩ := key
  exact ⟨P, h1, h2⟩

end Verif.Fiber
