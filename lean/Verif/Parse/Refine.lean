import Verif.Parse.Sim5
import Verif.Parse.SimRegex
import Verif.Parse.Random
/-! # Parsing: look-ahead, redirected input, and the refinement theorem -/

namespace Verif.Parse
open Verif.Stream

variable {I : Input} {lo : Option Nat}

/-- Best token so far: the machine has the end offset, the specification the length. -/
def bestAt (pos : Nat) (b : Option (Nat × Nat)) : Option (Nat × Nat) := b.map (fun x => (x.1, pos + x.2))

/-- Outcomes of the look-ahead. -/
def LahSim (I : Input) (pos : Nat) (lim : Option Nat) (c : Chain) (v : View) (out : Out (Option (Nat × Nat))) :
    SRes (Option (Nat × Nat)) → Prop
  | .ok r => ∃ c' s', out = .done (bestAt pos r) c' s' ∧ Env I c' s' ∧ Step true c c' ∧ At c' v pos lim
  | .fail e => ∃ c' s', out = .throw e c' s' ∧ Env I c' s' ∧ Step true c c'
  | .more => ∃ c', out = .suspended c'
  | .diverge => out = .diverge

theorem LahSim.from {pos : Nat} {lim : Option Nat} {c c' : Chain} {v : View} {out : Out (Option (Nat × Nat))}
    {r : SRes (Option (Nat × Nat))} (st : Step true c c') (h : LahSim I pos lim c' v out r) : LahSim I pos lim c v out r := by
  cases r with
  | ok r => obtain ⟨c2, s2, h1, h2, h3, h4⟩ := h; exact ⟨c2, s2, h1, h2, st.trans h3, h4⟩
  | fail e => obtain ⟨c2, s2, h1, h2, h3⟩ := h; exact ⟨c2, s2, h1, h2, st.trans h3⟩
  | more => exact h
  | diverge => exact h

/-- One literal, once it is known whether it is there. -/
theorem lah_step {lim : Option Nat} {pos : Nat} {v : View} {c : Chain} {s : Sched} (l : List Byte) (ls : List (List Byte))
    (i : Nat) (best : Option (Nat × Nat)) (here : Bool) (env : Env I c s) (a : At c v pos lim)
    (hh : (here = true ∧ l ≠ []) ↔ (l <+: I.rest lim pos ∧ l ≠ []))
    (ih : ∀ (j : Nat) (b : Option (Nat × Nat)),
      LahSim I pos lim c v (lahLoop v ls j (bestAt pos b) c s) (lahSpec I lim pos ls j b)) :
    LahSim I pos lim c v ((match bestAt pos best with
      | none => lahLoop v ls (i + 1) (if (if here = true then v.begin.offset + l.length else v.begin.offset) ≠ v.begin.offset
          then some (i, if here = true then v.begin.offset + l.length else v.begin.offset) else none)
      | some (j, e) =>
        if (if here = true then v.begin.offset + l.length else v.begin.offset) ≠ v.begin.offset ∧
            (if here = true then v.begin.offset + l.length else v.begin.offset) ≥ e then
          if (if here = true then v.begin.offset + l.length else v.begin.offset) = e then P.raise .parseError
          else lahLoop v ls (i + 1) (some (i, if here = true then v.begin.offset + l.length else v.begin.offset))
        else lahLoop v ls (i + 1) (some (j, e))) c s)
      (if l <+: I.rest lim pos ∧ l ≠ [] then
        match best with
        | none => lahSpec I lim pos ls (i + 1) (some (i, l.length))
        | some (j, n) =>
          if l.length = n then .fail .parseError
          else lahSpec I lim pos ls (i + 1) (if l.length > n then some (i, l.length) else some (j, n))
      else lahSpec I lim pos ls (i + 1) best) := by
  rw [a.off]
  by_cases hl : l <+: I.rest lim pos ∧ l ≠ []
  · rw [if_pos hl]
    obtain ⟨h1, h2⟩ := hh.2 hl
    have hpos : 0 < l.length := List.length_pos_iff.2 h2
    subst h1
    simp only [if_true]
    cases best with
    | none =>
      simp only [bestAt, Option.map_none]
      rw [if_pos (by omega)]
      exact ih (i + 1) (some (i, l.length))
    | some b =>
      obtain ⟨j, n⟩ := b
      simp only [bestAt, Option.map_some]
      by_cases he : l.length = n
      · rw [if_pos he, if_pos (by omega), if_pos (by omega)]
        exact ⟨c, s, rfl, env, Step.refl c⟩
      · rw [if_neg he]
        by_cases hgt : l.length > n
        · rw [if_pos hgt, if_pos (by omega), if_neg (by omega)]
          exact ih (i + 1) (some (i, l.length))
        · rw [if_neg hgt, if_neg (by omega)]
          exact ih (i + 1) (some (j, n))
  · rw [if_neg hl]
    have hs : (if here = true then pos + l.length else pos) = pos := by
      cases here with
      | false => rfl
      | true =>
        have : l = [] := Classical.byContradiction (fun hne => hl (hh.1 ⟨rfl, hne⟩))
        subst this; rfl
    rw [hs]
    cases best with
    | none =>
      simp only [bestAt, Option.map_none]
      rw [if_neg (by omega)]
      exact ih (i + 1) none
    | some b =>
      obtain ⟨j, n⟩ := b
      simp only [bestAt, Option.map_some]
      rw [if_neg (by omega)]
      exact ih (i + 1) (some (j, n))

theorem lahLoop_spec {lim : Option Nat} {pos : Nat} {v : View} (ls : List (List Byte)) :
    ∀ {c : Chain} {s : Sched} (i : Nat) (best : Option (Nat × Nat)), Env I c s → At c v pos lim →
    LahSim I pos lim c v (lahLoop v ls i (bestAt pos best) c s) (lahSpec I lim pos ls i best) := by
  induction ls with
  | nil => intro c s i best env a; exact ⟨c, s, rfl, env, Step.refl c, a⟩
  | cons l ls ih =>
    intro c s i best env a
    unfold lahLoop lahSpec
    rw [P.bind_assoc, P.bind_apply]
    have hw := waitMin_spec l.length env a
    generalize waitMin v l.length c s = o at hw ⊢
    cases hw with
    | yes w1 w2 w3 w4 w5 w6 =>
      rename_i c' s'
      have a' := a.keep w3
      rw [w1]
      simp only [if_true, SRes.ok_bind]
      rw [P.bind_done (P.read_ok (startsWith_now w2 a' w4) s')]
      refine LahSim.from w3 (lah_step l ls i best _ w2 a' (by simp) (fun j b => ih j b w2 a'))
    | no w1 w2 w3 w4 w5 =>
      rename_i c' s'
      have a' := a.keep w3
      rw [w1]
      simp only [Bool.false_eq_true, if_false, SRes.ok_bind]
      rw [P.pure_bind]
      have hlt := has_false w1
      have hp := a'.pos_le
      have hss := stopNow_le_stop w2 lim
      refine LahSim.from w3 (lah_step l ls i best false w2 a' ?_ (fun j b => ih j b w2 a'))
      simp only [Bool.false_eq_true, false_and, false_iff]
      intro hc
      have := hc.1.length_le
      rw [rest_length] at this
      omega
    | wait w1 =>
      rw [w1]
      exact ⟨_, rfl⟩

theorem lah_refines (lits : List (List Byte)) {p : Lah → Parser} {g : Lah → SParser} (h : ∀ t, RefinesL lo (p t) (g t)) :
    RefinesL lo (fun trim cur => do
      let t ← lahP lits cur
      p t trim cur) (fun I lim pos => do
      let e ← atEnd I lim pos
      if e then g .eod I lim pos
      else match ← lahSpec I lim pos lits 0 none with
        | some (i, _) => g (.token i) I lim pos
        | none => g .none I lim pos) := by
  intro I hI lim trim v pos c s kp env a
  unfold lahP
  dsimp only
  rw [P.bind_assoc]
  rcases atEod_spec env a with ⟨b, c', s', h1, h2, h3, h4, h5⟩ | ⟨c', h1, h2⟩
  · rw [P.bind_done h2]
    rw [h1]
    simp only [SRes.ok_bind]
    have a' := a.keep h4
    refine Sim.from h4.weaken ?_
    cases b with
    | true =>
      simp only [if_true]
      rw [P.pure_bind]
      exact h .eod I hI lim trim v pos c' s' (kp.step h4.weaken) h3 a'
    | false =>
      simp only [Bool.false_eq_true, if_false]
      rw [P.bind_assoc]
      have hl := lahLoop_spec lits 0 none h3 a'
      cases hg : lahSpec I lim pos lits 0 none with
      | ok r =>
        rw [hg] at hl
        obtain ⟨c2, s2, k1, k2, k3, k4⟩ := hl
        rw [show bestAt pos none = none from rfl] at k1
        rw [P.bind_done k1]
        refine Sim.from k3.weaken ?_
        cases r with
        | none => exact h .none I hI lim trim v pos c2 s2 ((kp.step h4.weaken).step k3.weaken) k2 k4
        | some x => exact h (.token x.1) I hI lim trim v pos c2 s2 ((kp.step h4.weaken).step k3.weaken) k2 k4
      | fail e =>
        rw [hg] at hl
        obtain ⟨c2, s2, k1, k2, k3⟩ := hl
        exact ⟨c2, s2, P.bind_throw k1, k2, k3.weaken⟩
      | more => rw [hg] at hl; obtain ⟨c2, k1⟩ := hl; exact ⟨c2, P.bind_suspended k1⟩
      | diverge => rw [hg] at hl; exact P.bind_diverge hl
  · rw [P.bind_suspended h2]
    rw [h1]
    exact ⟨c', rfl⟩

/-! ## Parsing from a value -/

theorem ofBytes_env {bs : List Byte} (h : bs ≠ []) :
    Env ⟨bs, true⟩ (Chain.ofBytes bs).freeze [] ∧
      ∃ v, wholeView (Chain.ofBytes bs).freeze = .ok v ∧ At (Chain.ofBytes bs).freeze v 0 none := by
  obtain ⟨f1, f2, f3, f4, f5, f6⟩ := freeze_step (Chain.live_ofBytes bs)
  have hpos : 0 < bs.length := List.length_pos_iff.2 h
  have hho : (Chain.ofBytes bs).headOffset = 0 := rfl
  have hcc : (Chain.ofBytes bs).content = bs.map some := by
    simp [Chain.content, Chain.ofBytes, rawCells, Chunk.cells, Chain.base]
  have hst : (Chain.ofBytes bs).stop = bs.length := by
    rw [Chain.stop_eq (Chain.inv_ofBytes bs), hho, hcc]; simp
  refine ⟨⟨f1, by rw [f5, hst]; exact Nat.le_refl _, ?_, ?_, ?_⟩, ?_⟩
  · rw [f3, f5, f4, hcc, hst, hho]; simp
  · rw [f5, hst, f2]; simp
  · rw [f2]; rfl
  · obtain ⟨i, e, ho, hi⟩ := Chain.begin_spec f1 (by
      intro k hk
      have : (Chain.ofBytes bs).freeze.chunks = (Chain.ofBytes bs).chunks := by
        unfold Chain.freeze; split <;> rfl
      rw [this] at hk
      simp [Chain.ofBytes] at hk
      subst hk
      simpa [Chunk.size] using hpos)
    refine ⟨⟨i, none⟩, ?_, hi, by rw [ho, f4, hho], fun x hx => (by cases hx), rfl, by rw [f4, hho]; exact Nat.le_refl _, Nat.zero_le _,
      fun l hl => (by cases hl)⟩
    unfold wholeView; rw [e]; rfl

theorem parseFrom_refines {bs : List Byte} (hb : bs ≠ []) (hl : bs.length < 2 ^ 64 - 1) {p : Parser} {g : SParser}
    (h : RefinesL (some 0) p g) : RefinesL lo (parseFromP bs p) (fun _ _ pos => do
      let r ← g ⟨bs, true⟩ none 0
      .ok (r.1, pos)) := by
  intro I hI lim trim v pos c s _ env a
  obtain ⟨env', w, hw, aw⟩ := ofBytes_env hb
  have hs := h ⟨bs, true⟩ hl none false w 0 _ [] (fun l hl => by
    injection hl with hl; subst hl; exact ⟨rfl, aw.start⟩) env' aw
  unfold parseFromP
  rw [hw]
  dsimp only
  cases hg : g ⟨bs, true⟩ none 0 with
  | ok r =>
    rw [hg] at hs; obtain ⟨v', c', s', h1, -⟩ := hs
    rw [h1]
    exact ⟨v, c, s, rfl, env, Step.refl c, a⟩
  | fail e =>
    rw [hg] at hs; obtain ⟨c', s', h1, -⟩ := hs
    rw [h1]
    exact ⟨c, s, rfl, env, Step.refl c⟩
  | more => rw [hg] at hs; obtain ⟨c', h1⟩ := hs; rw [h1]; exact ⟨c, rfl⟩
  | diverge => rw [hg] at hs; rw [show p false w _ _ = _ from hs]; rfl

/-! ## Parsing only moves forward -/

theorem bind_ok {α β : Type} {x : SRes α} {f : α → SRes β} {b : β} (h : (x >>= f) = .ok b) : ∃ a, x = .ok a ∧ f a = .ok b := by
  cases x with
  | ok a => exact ⟨a, rfl, h⟩
  | fail e => cases h
  | more => cases h
  | diverge => cases h

theorem takeN_forward (n : Nat) (w : List Byte → Val) : Forward (takeN n w) := by
  intro I lim pos r hp h
  unfold takeN at h
  obtain ⟨b, h1, h2⟩ := bind_ok h
  cases b with
  | false => cases h2
  | true => simp at h2; subst h2; exact ⟨Nat.le_add_right _ _, has_true h1⟩

theorem toEnd_forward (w : List Byte → Val) : Forward (toEnd w) := by
  intro I lim pos r hp h
  unfold toEnd at h
  split at h
  · injection h with h; subst h; exact ⟨hp, Nat.le_refl _⟩
  · cases h

theorem counter_forward {g : SParser} (fw : Forward g) (stop : Val → Stop) (I : Input) (lim : Option Nat) (n : Nat) :
    ∀ (pos : Nat) (acc : List Val) (r : Val × Nat), pos ≤ I.stop lim → counterSpec g stop I lim n pos acc = .ok r →
      pos ≤ r.2 ∧ r.2 ≤ I.stop lim := by
  induction n with
  | zero => intro pos acc r hp h; simp [counterSpec] at h; subst h; exact ⟨Nat.le_refl _, hp⟩
  | succ n ih =>
    intro pos acc r hp h
    unfold counterSpec at h
    obtain ⟨b, h1, h2⟩ := bind_ok h
    obtain ⟨f1, f2⟩ := fw I lim pos b hp h1
    split at h2
    · obtain ⟨i1, i2⟩ := ih _ _ _ f2 h2; exact ⟨by omega, i2⟩
    · injection h2 with h2; subst h2; exact ⟨f1, f2⟩
    · injection h2 with h2; subst h2; exact ⟨f1, f2⟩

theorem foreach_forward {g : SParser} (fw : Forward g) (eodOk : Bool) (stop : Val → Stop) (I : Input) (lim : Option Nat)
    (n : Nat) : ∀ (pos : Nat) (acc : List Val) (r : Val × Nat), pos ≤ I.stop lim →
      foreachSpec eodOk g stop I lim n pos acc = .ok r → pos ≤ r.2 ∧ r.2 ≤ I.stop lim := by
  induction n with
  | zero => intro pos acc r hp h; cases h
  | succ n ih =>
    intro pos acc r hp h
    unfold foreachSpec at h
    obtain ⟨e, h1, h2⟩ := bind_ok h
    split at h2
    · injection h2 with h2; subst h2; exact ⟨Nat.le_refl _, hp⟩
    · obtain ⟨b, h3, h4⟩ := bind_ok h2
      obtain ⟨f1, f2⟩ := fw I lim pos b hp h3
      split at h4
      · obtain ⟨bad, h5, h6⟩ := bind_ok h4
        split at h6
        · cases h6
        · obtain ⟨i1, i2⟩ := ih _ _ _ f2 h6; exact ⟨by omega, i2⟩
      · injection h4 with h4; subst h4; exact ⟨f1, f2⟩
      · injection h4 with h4; subst h4; exact ⟨f1, f2⟩

theorem evalWith_forward {callee : Nat → SParser} (hc : ∀ i, Forward (callee i)) (f : Nat) (g : G) :
    Forward (evalWith callee f g) := by
  induction g with
  | ret v => intro I lim pos r hp h; injection h with h; subst h; exact ⟨Nat.le_refl _, hp⟩
  | fail e => intro I lim pos r hp h; cases h
  | offset => intro I lim pos r hp h; injection h with h; subst h; exact ⟨Nat.le_refl _, hp⟩
  | unpack w n fn => exact takeN_forward n fn
  | bytesSize n => exact takeN_forward n _
  | bytesSizeEod n => exact takeN_forward n _
  | regexp A => exact regex_forward A
  | lit bs =>
    intro I lim pos r hp h
    obtain ⟨b, h1, h2⟩ := bind_ok h
    cases b with
    | false => cases h2
    | true =>
      simp only [if_true] at h2
      split at h2
      · injection h2 with h2; subst h2; exact ⟨Nat.le_add_right _ _, has_true h1⟩
      · cases h2
  | «until» needle incl =>
    intro I lim pos r hp h
    simp only [evalWith] at h
    split at h
    · rename_i p hpo
      injection h with h; subst h
      rcases firstOcc_spec needle (I.rest lim pos) with ⟨p', e, h1, h2⟩ | ⟨e, h1⟩
      · rw [e] at hpo
        injection hpo with hpo
        subst hpo
        by_cases hz : needle = []
        · subst hz
          have : p' = 0 := Classical.byContradiction (fun hne => h2 0 (by omega) (by simp [OccursAt]))
          subst this
          exact ⟨by simp, by simpa using hp⟩
        · have hl := h1.length_le
          have hnz : 0 < needle.length := List.length_pos_iff.2 hz
          rw [List.length_drop, rest_length] at hl
          exact ⟨by show pos ≤ pos + p' + needle.length; omega, by show pos + p' + needle.length ≤ _; omega⟩
      · rw [e] at hpo; cases hpo
    · split at h <;> cases h
  | eod => exact toEnd_forward _
  | chunkedEod => exact toEnd_forward _
  | skip n =>
    intro I lim pos r hp h
    obtain ⟨b, h1, h2⟩ := bind_ok h
    cases b with
    | false => cases h2
    | true => injection h2 with h2; subst h2; exact ⟨Nat.le_add_right _ _, has_true h1⟩
  | skipEod => exact toEnd_forward _
  | seq g k ih1 ih2 =>
    intro I lim pos r hp h
    obtain ⟨b, h1, h2⟩ := bind_ok h
    obtain ⟨f1, f2⟩ := ih1 I lim pos b hp h1
    obtain ⟨g1, g2⟩ := ih2 b.1 I lim b.2 r f2 h2
    exact ⟨by omega, g2⟩
  | limit n g ih =>
    intro I lim pos r hp h
    obtain ⟨b, h1, h2⟩ := bind_ok h
    have hi := stop_inner I n hp
    obtain ⟨f1, f2⟩ := ih I _ pos b hi.1 h1
    split at h2
    · cases h2
    · injection h2 with h2; subst h2; exact ⟨Nat.le_add_right _ _, by show pos + n ≤ _; omega⟩
  | maxSize n g ih =>
    intro I lim pos r hp h
    obtain ⟨b, h1, h2⟩ := bind_ok h
    have hi := stop_inner I (n + 1) hp
    obtain ⟨f1, f2⟩ := ih I _ pos b hi.1 h1
    split at h2
    · cases h2
    · injection h2 with h2; subst h2; exact ⟨f1, by omega⟩
  | try_ g ih =>
    intro I lim pos r hp h
    simp only [evalWith] at h
    split at h
    · injection h with h; subst h; exact ⟨Nat.le_refl _, hp⟩
    · exact ih I lim pos r hp h
  | counter n g stop ih => intro I lim pos r hp h; exact counter_forward ih stop I lim n pos [] r hp h
  | foreach eodOk g stop ih => intro I lim pos r hp h; exact foreach_forward ih eodOk stop I lim f pos [] r hp h
  | lah lits k ih =>
    intro I lim pos r hp h
    rw [evalWith] at h
    obtain ⟨e, h1, h2⟩ := bind_ok h
    split at h2
    · exact ih _ I lim pos r hp h2
    · obtain ⟨t, h3, h4⟩ := bind_ok h2
      split at h4
      · exact ih _ I lim pos r hp h4
      · exact ih _ I lim pos r hp h4
  | parseFrom bs g ih =>
    intro I lim pos r hp h
    obtain ⟨b, h1, h2⟩ := bind_ok h
    injection h2 with h2; subst h2; exact ⟨Nat.le_refl _, hp⟩
  | random k ih => intro I lim pos r hp h; exact ih pos I lim pos r hp h
  | parseAt p g ih =>
    intro I lim pos r hp h
    obtain ⟨b, h1, h2⟩ := bind_ok h
    injection h2 with h2; subst h2; exact ⟨Nat.le_refl _, hp⟩
  | call i => exact hc i

theorem eval_forward (Γ : Nat → G) (f : Nat) : ∀ g, Forward (eval Γ f g) := by
  induction f with
  | zero => intro g I lim pos r hp h; cases h
  | succ f ih => intro g; exact evalWith_forward (fun i => ih (Γ i)) f g

/-! ## The refinement theorem -/

theorem runWith_refinesIn {callee : Nat → Parser} {scallee : Nat → SParser} {U : Units}
    (hc : ∀ i, RefinesL (U.lo i) (callee i) (scallee i)) (hx : ∀ i, U.eager i → RefinesX (U.lo i) (callee i) (scallee i))
    (fw : ∀ i, Forward (scallee i)) (f : Nat) {g : G} {lo : Option Nat} (hs : SoundIn U lo g) :
    RefinesL lo (runWith callee f g) (evalWith scallee f g) ∧
      (Eager U g → RefinesX lo (runWith callee f g) (evalWith scallee f g)) := by
  induction hs with
  | ret v => exact ⟨fun I hI lim trim w pos c s kp env a => ⟨w, c, s, rfl, env, Step.refl c, a⟩, fun h => by cases h⟩
  | fail e => exact ⟨fun I hI lim trim w pos c s kp env a => ⟨c, s, rfl, env, Step.refl c⟩, fun h => by cases h⟩
  | offset =>
    refine ⟨fun I hI lim trim w pos c s kp env a => ?_, fun h => by cases h⟩
    refine ⟨w, c, s, ?_, env, Step.refl c, a⟩
    simp only [runWith, a.off]; rfl
  | unpack n fn => exact ⟨(unpack_refines n fn).lift _, fun h => by cases h with | unpack _ hn => exact unpack_refinesX _ hn fn⟩
  | bytesSize n => exact ⟨(bytesSize_refines n).lift _, fun h => by cases h with | bytesSize hn => exact bytesSize_refinesX _ hn⟩
  | lit bs => exact ⟨(lit_refines bs).lift _, fun h => by cases h with | lit hb => exact lit_refinesX _ hb⟩
  | «until» needle incl => exact ⟨(until_refines needle incl).lift _, fun h => by cases h⟩
  | regexp pl nb => exact ⟨(regex_refines pl nb).lift _, fun h => by cases h⟩
  | eod => exact ⟨eod_refines.lift _, fun h => by cases h⟩
  | chunkedEod => exact ⟨chunked_refines.lift _, fun h => by cases h⟩
  | skip n => exact ⟨(skip_refines n).lift _, fun h => by cases h with | skip hn => exact skip_refinesX _ hn⟩
  | skipEod => exact ⟨skipEod_refines.lift _, fun h => by cases h⟩
  | seq _ _ ih1 ih2 =>
    refine ⟨fun I hI lim trim w pos c s kp env a => ?_, fun h => ?_⟩
    · refine Sim.bind (ih1.1 I hI lim trim w pos c s kp env a) (fun b v' p' c' s' e' st' a' => ?_)
      exact (ih2 b).1 I hI lim trim v' p' c' s' (kp.step st') e' a'
    · cases h with
      | seq h =>
        intro I hI lim trim w pos c s kp env a
        refine Sim.bind (ih1.2 h I hI lim trim w pos c s kp env a) (fun b v' p' c' s' e' st' a' => ?_)
        exact (ih2 b).1 I hI lim trim v' p' c' s' (kp.step st') e' a'
  | limit n _ ih => exact ⟨limit_refines n ih.1, fun h => by cases h⟩
  | maxSize n _ ih => exact ⟨maxSize_refines n (evalWith_forward fw f _) ih.1, fun h => by cases h⟩
  | try_ _ ih => exact ⟨try_refines ih.1, fun h => by cases h⟩
  | counter n stop _ ih => exact ⟨counter_refines ih.1 n stop, fun h => by cases h⟩
  | foreach eodOk stop _ ih => exact ⟨foreach_refines (evalWith_forward fw f _) ih.1 eodOk stop f, fun h => by cases h⟩
  | @lah lo lits k _ ih =>
    refine ⟨?_, fun h => by cases h⟩
    rw [runWith, evalWith]; exact lah_refines lits (fun t => (ih t).1)
  | parseFrom hb hl _ ih => exact ⟨parseFrom_refines hb hl ih.1, fun h => by cases h⟩
  | @random lo k _ ih =>
    exact ⟨random_refines (g := fun p => evalWith scallee f (k p)) (fun p => (ih p).1), fun h => by cases h⟩
  | parseAt hp he _ ih => exact ⟨parseAt_refines hp (ih.2 he), fun h => by cases h⟩
  | @call lo i h =>
    refine ⟨fun I hI lim trim w pos c s kp env a => ?_, fun he => ?_⟩
    · exact hc i I hI lim trim w pos c s (kp.mono h) env a
    · cases he with
      | call hi => exact fun I hI lim trim w pos c s kp env a => hx i hi I hI lim trim w pos c s (kp.mono h) env a

/-- The units are as the grammars that refer to them assume. -/
structure UnitsOk (U : Units) (Γ : Nat → G) : Prop where
  sound : ∀ i, SoundIn U (U.lo i) (Γ i)
  eager : ∀ i, U.eager i → Eager U (Γ i)

/-- Whatever the host's schedule: the generated parser does what the grammar means on the whole input. -/
theorem run_refinesIn {U : Units} {Γ : Nat → G} (hΓ : UnitsOk U Γ) (f : Nat) : ∀ {g : G} {lo : Option Nat}, SoundIn U lo g →
    RefinesL lo (run Γ f g) (eval Γ f g) ∧ (Eager U g → RefinesX lo (run Γ f g) (eval Γ f g)) := by
  induction f with
  | zero => exact fun _ => ⟨fun I hI lim trim w pos c s kp env a => rfl, fun _ I hI lim trim w pos c s kp env a => rfl⟩
  | succ f ih =>
    exact fun hg => runWith_refinesIn (fun i => (ih (hΓ.sound i)).1) (fun i hi => (ih (hΓ.sound i)).2 (hΓ.eager i hi))
      (fun i => eval_forward Γ f (Γ i)) f hg

theorem unitsOk_plain {Γ : Nat → G} (hΓ : ∀ i, Sound (Γ i)) : UnitsOk Units.plain Γ := ⟨hΓ, fun _ h => h.elim⟩

/-- The same for grammars that call only units of which nothing is assumed. -/
theorem run_refines {Γ : Nat → G} (hΓ : ∀ i, Sound (Γ i)) (f : Nat) {g : G} (hg : Sound g) : Refines (run Γ f g) (eval Γ f g) :=
  (run_refinesIn (unitsOk_plain hΓ) f hg).1.plain

end Verif.Parse
