import Verif.Sync.Search
/-! # Error recovery: elements, and where they leave the input when they fail -/

namespace Verif.Sync
open Verif.Stream Verif.Parse

variable {I : Input}

/-- What is left behind by a parser that failed having consumed the input up to `mark`: trimming has followed it, and unless
    it failed late there is more data, or the data is complete. -/
def Left (lim : Option Nat) (trim : Bool) (c : Chain) (mark : Nat) (late : Bool) : Prop :=
  trim = true → c.headOffset = mark ∧ mark ≤ stopNow c lim ∧
    (late = false → mark < stopNow c lim ∨ completeNow c lim = true)

/-- `Sim` with where the stream begins afterwards. -/
def SimM (I : Input) (lim : Option Nat) (trim : Bool) (c : Chain) (out : Out (Val × View)) (mark : Nat) (late : Bool) :
    SRes (Val × Nat) → Prop
  | .ok r => ∃ v c' s', out = .done (r.1, v) c' s' ∧ Env I c' s' ∧ Step (!trim) c c' ∧ At c' v r.2 lim ∧
      (trim = true → c'.headOffset = r.2)
  | .fail e => ∃ c' s', out = .throw e c' s' ∧ Env I c' s' ∧ Step (!trim) c c' ∧ Left lim trim c' mark late
  | .more => ∃ c', out = .suspended c'
  | .diverge => out = .diverge

/-- A parser for the rest of an element does what `E` says. -/
def RefinesM (trim : Bool) (p : Parser) (E : Elem) : Prop :=
  ∀ (I : Input), I.data.length < 2 ^ 64 - 1 → ∀ (lim : Option Nat) (v : View) (pos : Nat) (c : Chain) (s : Sched),
    Env I c s → At c v pos lim → (trim = true → c.headOffset = pos) →
    SimM I lim trim c (p trim v c s) (E.mark I lim pos) (E.late I lim pos) (E.g I lim pos)

theorem SimM.from {lim : Option Nat} {trim : Bool} {c c' : Chain} {out : Out (Val × View)} {m : Nat} {l : Bool}
    {r : SRes (Val × Nat)} (st : Step (!trim) c c') (h : SimM I lim trim c' out m l r) : SimM I lim trim c out m l r := by
  cases r with
  | ok r => obtain ⟨v, c2, s2, h1, h2, h3, h4⟩ := h; exact ⟨v, c2, s2, h1, h2, st.trans h3, h4⟩
  | fail e => obtain ⟨c2, s2, h1, h2, h3, h4⟩ := h; exact ⟨c2, s2, h1, h2, st.trans h3, h4⟩
  | more => exact h
  | diverge => exact h

/-- Without trimming every parser will do. -/
theorem refinesM_of_refines {p : Parser} {E : Elem} (h : Refines p E.g) : RefinesM false p E := by
  intro I hI lim v pos c s env a _
  have h := h I hI lim false v pos c s env a
  generalize p false v c s = o at h ⊢
  cases hr : E.g I lim pos with
  | ok r =>
    rw [hr] at h
    obtain ⟨v, c2, s2, h1, h2, h3, h4⟩ := h
    exact ⟨v, c2, s2, h1, h2, h3, h4, (fun x => by cases x)⟩
  | fail e =>
    rw [hr] at h
    obtain ⟨c2, s2, h1, h2, h3⟩ := h
    exact ⟨c2, s2, h1, h2, h3, (fun x => by cases x)⟩
  | more => rw [hr] at h; exact h
  | diverge => rw [hr] at h; exact h

/-- Units that consist of literals, integers, `bytes &size=n`, and `&requires` or hooks that fail, one after the other; later
    ones may depend on the values of earlier ones. -/
inductive Body : G → Prop where
  | ret (v) : Body (.ret v)
  | fail (e) : Body (.fail e)
  | offset : Body .offset
  | unpack (n f) : Body (.unpack n n f)
  | bytesSize (n) : Body (.bytesSize n)
  | lit (bs) : Body (.lit bs)
  | seq {g k} : Body g → (∀ v, Body (k v)) → Body (.seq g k)

/-- The meaning of a body; it calls no other units and has no loops. -/
def bodyS (g : G) : SParser := evalWith (fun _ _ _ _ => .diverge) 0 g

/-- Up to where a body that fails has consumed the input: the end of the last field it has parsed. -/
def markOf : G → Input → Option Nat → Nat → Nat
  | .seq g k, I, lim, pos => match bodyS g I lim pos with
    | .ok r => markOf (k r.1) I lim r.2
    | _ => markOf g I lim pos
  | _, _, _, pos => pos

/-- Does a body that fails do so by `&requires` or in a hook? -/
def lateOf : G → Input → Option Nat → Nat → Bool
  | .fail _, _, _, _ => true
  | .seq g k, I, lim, pos => match bodyS g I lim pos with
    | .ok r => lateOf (k r.1) I lim r.2
    | _ => lateOf g I lim pos
  | _, _, _, _ => false

/-- The element with a body. -/
def elemOf (g : G) : Elem := ⟨bodyS g, markOf g, lateOf g⟩

/-- The parser generated for a body. -/
def bodyP (g : G) : Parser := runWith (fun _ _ _ => .diverge) 0 g

theorem takeN_simM {lim : Option Nat} {pos : Nat} {c : Chain} {s : Sched} {trim : Bool} {n : Nat}
    {x : P Bool} {f : Bool → P (Val × View)} {w : List Byte → Val} (h : Waited I lim pos n c s (x c s))
    (ht : trim = true → c.headOffset = pos) (hp : pos ≤ stopNow c lim)
    (yes : ∀ c' s', Env I c' s' → Step true c c' → pos + n ≤ stopNow c' lim →
      SimM I lim trim c' (f true c' s') pos false (.ok (w ((I.rest lim pos).take n), pos + n)))
    (no : ∀ c' s', f false c' s' = .throw .parseError c' s') :
    SimM I lim trim c ((x >>= f) c s) pos false (takeN n w I lim pos) := by
  unfold takeN
  rw [P.bind_apply]
  generalize x c s = o at h ⊢
  cases h with
  | yes w1 w2 w3 w4 w5 w6 =>
    rw [w1]
    simp only [SRes.ok_bind, if_true]
    exact SimM.from w3.weaken (yes _ _ w2 w3 w4)
  | no w1 w2 w3 w4 w5 =>
    rw [w1]
    simp only [SRes.ok_bind, Bool.false_eq_true, if_false]
    rw [no]
    refine ⟨_, _, rfl, w2, w3.weaken, ?_⟩
    intro t
    exact ⟨by rw [w3.keep rfl]; exact ht t, Nat.le_trans hp (stopNow_mono w3 lim), fun _ => Or.inr w4⟩
  | wait w1 => rw [w1]; exact ⟨_, rfl⟩

theorem bytesSize_refinesM (trim : Bool) (n : Nat) : RefinesM trim (bytesSizeP false n) ⟨takeN n .bytes, fun _ _ p => p, fun _ _ _ => false⟩ := by
  intro I hI lim v pos c s env a ht
  dsimp only
  unfold bytesSizeP extractBytes
  rw [P.bind_assoc]
  refine takeN_simM (waitMin_spec n env a) ht a.pos_le (fun c' s' e st hn => ?_) (fun c' s' => rfl)
  have a' := a.keep st
  obtain ⟨v2, c2, h1, h2, h3, h4, -, -, h5⟩ := advanceInput_head trim e a' hn
  refine ⟨v2, c2, s', ?_, h2, h3, h4, h5⟩
  simp only [Bool.or_true, if_true]
  rw [P.bind_done (P.read_ok (prefixData_spec e a' hn) s'), P.bind_done h1]
  rfl

theorem unpack_refinesM (trim : Bool) (n : Nat) (f : List Byte → Val) :
    RefinesM trim (unpackP n n f) ⟨takeN n f, fun _ _ p => p, fun _ _ _ => false⟩ := by
  intro I hI lim v pos c s env a ht
  dsimp only
  unfold unpackP waitForInput
  rw [P.bind_assoc]
  refine takeN_simM (waitMin_spec n env a) ht a.pos_le (fun c' s' e st hn => ?_) (fun c' s' => rfl)
  have a' := a.keep st
  simp only [if_true]
  rw [P.pure_bind, P.bind_done (P.read_ok (a'.size e) s'), if_neg (by omega)]
  have hx := (View.extract_spec e.live (a'.good e.live) a'.iter n).2 (by
    rw [a'.window e, a'.length e]; omega)
  rw [a'.window e, ← List.map_take, bytesOf_map] at hx
  obtain ⟨w, x1, x2, x3, x4⟩ := hx
  have hle := stopNow_le c' lim
  have aw : At c' w (pos + n) lim := by
    refine ⟨x3, by rw [x2, a'.off], by rw [x4]; exact a'.endIter, by rw [x4]; exact a'.end, ?_, by omega, ?_⟩
    · have := a'.start; omega
    · intro l hl; subst hl; simp only [stopNow] at hn; omega
  obtain ⟨c2, t1, t2, t3, t4, -, -, t5⟩ := trimInput_head trim e aw
  refine ⟨w, c2, s', ?_, t2, t3, t4, t5⟩
  rw [P.bind_done (P.read_ok x1 s')]
  rw [P.bind_done t1, P.pure_apply]
  rw [now_rest e, List.take_take, Nat.min_eq_left (by omega)]

/-- Outcomes of a parser that only advances. -/
def SimV (I : Input) (lim : Option Nat) (trim : Bool) (c : Chain) (out : Out View) (mark : Nat) : SRes Nat → Prop
  | .ok p => ∃ v c' s', out = .done v c' s' ∧ Env I c' s' ∧ Step (!trim) c c' ∧ At c' v p lim ∧
      (trim = true → c'.headOffset = p)
  | .fail e => ∃ c' s', out = .throw e c' s' ∧ Env I c' s' ∧ Step true c c' ∧
      (mark < stopNow c' lim ∨ completeNow c' lim = true)
  | .more => ∃ c', out = .suspended c'
  | .diverge => out = .diverge

/-- A literal with nothing pending. -/
theorem expect_spec (bs : List Byte) (trim : Bool) {lim : Option Nat} {v : View} {pos : Nat} {c : Chain} {s : Sched}
    (env : Env I c s) (a : At c v pos lim) :
    SimV I lim trim c ((do expectBytesLiteral v bs; advanceInput trim v bs.length : P View) c s) pos (litS bs I lim pos none) := by
  unfold expectBytesLiteral litS
  dsimp only
  rw [P.bind_assoc, P.bind_apply]
  have hp0 := a.pos_le
  have h := waitMin_spec bs.length env a
  generalize waitMin v bs.length c s = o at h ⊢
  cases h with
  | yes w1 w2 w3 w4 w5 w6 =>
    rename_i c' s'
    rw [w1]
    have a' := a.keep w3
    simp only [SRes.ok_bind, if_true]
    rw [P.bind_assoc, P.bind_done (P.read_ok (startsWith_now w2 a' w4) s')]
    by_cases hp : bs <+: I.rest lim pos
    · obtain ⟨v2, c2, h1, h2, h3, h4, -, -, h5⟩ := advanceInput_head trim w2 a' w4
      rw [if_pos hp]
      simp only [hp, decide_true, if_true]
      refine ⟨v2, c2, s', ?_, h2, w3.weaken.trans h3, h4, h5⟩
      rw [P.pure_bind, h1]
    · rw [if_neg hp, if_neg (by simpa using hp), P.bind_assoc,
        P.bind_done (P.read_ok (prefixData_spec w2 a' w4) s')]
      have hne : bs ≠ [] := fun h => hp (by rw [h]; exact List.nil_prefix)
      have : 0 < bs.length := List.length_pos_iff.2 hne
      exact ⟨c', s', rfl, w2, w3, Or.inl (by omega)⟩
  | no w1 w2 w3 w4 w5 =>
    rw [w1]
    simp only [SRes.ok_bind, Bool.false_eq_true, if_false]
    exact ⟨_, _, rfl, w2, w3, Or.inr w4⟩
  | wait w1 => rw [w1]; exact ⟨_, rfl⟩

/-- After a parser that only advances. -/
theorem SimV.bindM {lim : Option Nat} {trim : Bool} {c : Chain} {s : Sched} {x : P View} {f : View → P (Val × View)}
    {r : SRes Nat} {m m' : Nat} {l' : Bool} {g : Nat → SRes (Val × Nat)} (h : SimV I lim trim c (x c s) m r)
    (ht : trim = true → c.headOffset = m) (hm : m ≤ stopNow c lim) (hf : (∀ p, r ≠ .ok p) → m' = m ∧ l' = false)
    (k : ∀ v p c' s', r = .ok p → Env I c' s' → Step (!trim) c c' → At c' v p lim → (trim = true → c'.headOffset = p) →
      SimM I lim trim c' (f v c' s') m' l' (g p)) :
    SimM I lim trim c ((x >>= f) c s) m' l' (r >>= g) := by
  cases r with
  | ok r =>
    obtain ⟨v, c2, s2, h1, h2, h3, h4, h5⟩ := h
    rw [P.bind_done h1]
    exact SimM.from h3 (k v r c2 s2 rfl h2 h3 h4 h5)
  | fail e =>
    obtain ⟨c2, s2, h1, h2, h3, h4⟩ := h
    obtain ⟨rfl, rfl⟩ := hf (fun p h => by cases h)
    exact ⟨c2, s2, P.bind_throw h1, h2, h3.weaken, fun t => ⟨by rw [h3.keep rfl]; exact ht t,
      Nat.le_trans hm (stopNow_mono h3 lim), fun _ => h4⟩⟩
  | more => obtain ⟨c2, h1⟩ := h; exact ⟨c2, P.bind_suspended h1⟩
  | diverge => exact P.bind_diverge h

theorem lit_refinesM (trim : Bool) (bs : List Byte) : RefinesM trim (litP bs) ⟨bodyS (.lit bs), fun _ _ p => p, fun _ _ _ => false⟩ := by
  intro I hI lim v pos c s env a ht
  have h := expect_spec bs trim env a
  have h := SimV.bindM (f := fun w => pure (.bytes bs, w)) (g := fun p => .ok (.bytes bs, p)) (m' := pos) (l' := false) h
    ht a.pos_le (fun _ => ⟨rfl, rfl⟩) (fun w p c' s' _ e st a h => ⟨w, c', s', rfl, e, Step.refl c', a, h⟩)
  have e1 : litP bs trim v = ((do expectBytesLiteral v bs; advanceInput trim v bs.length : P View) >>= fun w =>
      pure (.bytes bs, w)) := by
    unfold litP; rw [P.bind_assoc]
  have e2 : bodyS (.lit bs) I lim pos = (litS bs I lim pos none >>= fun p => .ok (.bytes bs, p)) := by
    simp only [bodyS, evalWith, litS]
    cases I.has lim pos bs.length with
    | ok b =>
      simp only [SRes.ok_bind]
      cases b with
      | true => simp only [if_true]; split <;> rfl
      | false => rfl
    | fail e => rfl
    | more => rfl
    | diverge => rfl
  dsimp only
  rw [e1, e2]
  exact h

/-- Bodies do what `elemOf` says. -/
theorem body_refinesM (trim : Bool) {g : G} (hb : Body g) : RefinesM trim (bodyP g) (elemOf g) := by
  induction hb with
  | ret v => intro I hI lim w pos c s env a ht; exact ⟨w, c, s, rfl, env, Step.refl c, a, ht⟩
  | fail e =>
    intro I hI lim w pos c s env a ht
    exact ⟨c, s, rfl, env, Step.refl c, fun t => ⟨ht t, a.pos_le, fun h => by cases h⟩⟩
  | offset =>
    intro I hI lim w pos c s env a ht
    refine ⟨w, c, s, ?_, env, Step.refl c, a, ht⟩
    simp only [bodyP, runWith, a.off]; rfl
  | unpack n f => exact unpack_refinesM trim n f
  | bytesSize n => exact bytesSize_refinesM trim n
  | lit bs => exact lit_refinesM trim bs
  | @seq g k _ _ ih1 ih2 =>
    intro I hI lim w pos c s env a ht
    have h := ih1 I hI lim w pos c s env a ht
    simp only [elemOf, markOf, lateOf] at h ⊢
    rw [show bodyP (.seq g k) trim w = (bodyP g trim w >>= fun r => bodyP (k r.1) trim r.2) by simp only [bodyP, runWith],
      show bodyS (.seq g k) I lim pos = (bodyS g I lim pos >>= fun r => bodyS (k r.1) I lim r.2) by simp only [bodyS, evalWith]]
    generalize hg : bodyS g I lim pos = q at h ⊢
    cases q with
    | ok r =>
      obtain ⟨v, c2, s2, h1, h2, h3, h4, h5⟩ := h
      rw [P.bind_done h1]
      simp only [SRes.ok_bind]
      exact SimM.from h3 (ih2 r.1 I hI lim v r.2 c2 s2 h2 h4 h5)
    | fail e =>
      obtain ⟨c2, s2, h1, h2, h3, h4⟩ := h
      exact ⟨c2, s2, P.bind_throw h1, h2, h3, h4⟩
    | more => obtain ⟨c2, h1⟩ := h; exact ⟨c2, P.bind_suspended h1⟩
    | diverge => exact P.bind_diverge h

end Verif.Sync
