import Verif.Parse.Sim5
/-!
# Parsing: random access

`&parse-at` moves the view to a position that need not exist (yet): beyond the data received so far, beyond the end of the input or
beyond the limit of the field. Parsers that ask for data first wait there as they do everywhere else.
-/

namespace Verif.Parse
open Verif.Stream

variable {I : Input} {lo : Option Nat}

/-- The view `v` is at `pos` with limit `lim`; the position may be beyond the data or the limit. -/
structure AtX (c : Chain) (v : View) (pos : Nat) (lim : Option Nat) : Prop where
  iter : c.IterOk v.begin
  off : v.begin.offset = pos
  endIter : ∀ e, v.end = some e → c.IterOk e
  «end» : v.end.map (·.offset) = lim
  start : c.headOffset ≤ pos

theorem AtX.keep {c c' : Chain} {v : View} {pos : Nat} {lim : Option Nat} (a : AtX c v pos lim)
    (st : Step true c c') : AtX c' v pos lim :=
  ⟨a.iter.evolves st.evolves, a.off, fun e he => (a.endIter e he).evolves st.evolves, a.end, by rw [st.keep rfl]; exact a.start⟩

/-- The position exists after all. -/
theorem AtX.at {c : Chain} {v : View} {pos : Nat} {lim : Option Nat} (a : AtX c v pos lim) (h : pos ≤ stopNow c lim) :
    At c v pos lim := by
  refine ⟨a.iter, a.off, a.endIter, a.end, a.start, Nat.le_trans h (stopNow_le c lim), ?_⟩
  intro l hl; subst hl; simp only [stopNow] at h; omega

theorem AtX.size {c : Chain} {s : Sched} (env : Env I c s) {v : View} {pos : Nat} {lim : Option Nat}
    (a : AtX c v pos lim) : v.size c = .ok (stopNow c lim - pos) := by
  unfold View.size
  have hst := a.start
  have ho := a.off
  have he := a.end
  rcases View.tail_endOffset env.live.inv with ⟨e1, e2⟩ | ⟨t, ts, e1, e2⟩
  · rw [e1]
    simp only [Res.ok_bind]
    have : c.stop = c.headOffset := by simp [Chain.stop, Chain.base, e2]
    have := stopNow_le c lim
    congr 1; omega
  · rw [e1]
    simp only [Res.ok_bind, e2]
    have := stopNow_le c lim
    split
    · congr 1; omega
    · cases hv : v.end with
      | none => rw [hv] at he; simp at he; subst he; simp only [stopNow]; congr 1; omega
      | some e =>
        rw [hv] at he; simp at he; subst he
        simp only [stopNow]
        split
        · congr 1; omega
        · congr 1; split <;> omega

theorem AtX.isComplete {c : Chain} {s : Sched} (env : Env I c s) {v : View} {pos : Nat} {lim : Option Nat}
    (a : AtX c v pos lim) : v.isComplete c = .ok (completeNow c lim) := by
  unfold View.isComplete View.ensureValid completeNow
  have hst := a.start
  have ho := a.off
  have he := a.end
  rw [if_pos env.live.isValid, if_neg (by omega)]
  simp only [Res.ok_bind, Chain.endOffset_eq env.live.inv]
  cases hv : v.end with
  | none => rw [hv] at he; subst he; cases c.isFrozen <;> simp
  | some e => rw [hv] at he; subst he; cases c.isFrozen <;> simp

theorem waitLoop_specX {v : View} {pos : Nat} {lim : Option Nat} (s : Sched) : ∀ {c : Chain}, Env I c s → AtX c v pos lim →
    (∃ c' s', waitLoop v (stopNow c lim - pos) s c = .done true c' s' ∧ Env I c' s' ∧ Step true c c' ∧ s'.length < s.length) ∨
    (∃ c' s', waitLoop v (stopNow c lim - pos) s c = .done false c' s' ∧ Env I c' s' ∧ Step true c c' ∧
      completeNow c' lim = true ∧ stopNow c' lim - pos = stopNow c lim - pos ∧ s'.length ≤ s.length) ∨
    (∃ c', waitLoop v (stopNow c lim - pos) s c = .suspended c' ∧ I.complete lim = false ∧
      I.stop lim - pos = stopNow c lim - pos) := by
  induction s with
  | nil =>
    intro c env a
    cases hc : completeNow c lim with
    | true =>
      refine Or.inr (Or.inl ⟨c, [], ?_, env, Step.refl c, hc, rfl, Nat.le_refl _⟩)
      unfold waitLoop; rw [a.isComplete env, hc]
    | false =>
      obtain ⟨x1, x2⟩ := exhausted env hc
      refine Or.inr (Or.inr ⟨c, ?_, x1, by rw [x2]⟩)
      unfold waitLoop; rw [a.isComplete env, hc]
  | cons it s ih =>
    intro c env a
    cases hc : completeNow c lim with
    | true =>
      refine Or.inr (Or.inl ⟨c, it :: s, ?_, env, Step.refl c, hc, rfl, Nat.le_refl _⟩)
      unfold waitLoop; rw [a.isComplete env, hc]
    | false =>
      obtain ⟨env', st⟩ := item_env env
      have a' := a.keep st
      have hu : waitLoop v (stopNow c lim - pos) (it :: s) c =
          if stopNow c lim - pos = stopNow (c.run it.ops) lim - pos then
            waitLoop v (stopNow c lim - pos) s (c.run it.ops) else .done true (c.run it.ops) s := by
        conv => lhs; unfold waitLoop
        rw [a.isComplete env, hc]
        simp only
        rw [a'.size env']
      rw [hu]
      by_cases heq : stopNow c lim - pos = stopNow (c.run it.ops) lim - pos
      · rw [if_pos heq, heq]
        rcases ih env' a' with ⟨c', s', h1, h2, h3, h4⟩ | ⟨c', s', h1, h2, h3, h4, h5, h6⟩ | ⟨c', h1, h2, h3⟩
        · exact Or.inl ⟨c', s', h1, h2, st.trans h3, by simp; omega⟩
        · exact Or.inr (Or.inl ⟨c', s', h1, h2, st.trans h3, h4, by omega, by simp; omega⟩)
        · exact Or.inr (Or.inr ⟨c', h1, h2, by omega⟩)
      · rw [if_neg heq]
        exact Or.inl ⟨_, s, rfl, env', st, by simp⟩

/-- What waiting for `n` bytes gives. -/
inductive WaitedX (I : Input) (lim : Option Nat) (pos n : Nat) (c : Chain) : Out Bool → Prop where
  | yes {c' s'} : Env I c' s' → Step true c c' → pos + n ≤ stopNow c' lim → WaitedX I lim pos n c (.done true c' s')
  | no {c' s'} : I.has lim pos n = .ok false → Env I c' s' → Step true c c' → WaitedX I lim pos n c (.done false c' s')
  | wait {c'} : I.has lim pos n = .more → WaitedX I lim pos n c (.suspended c')

theorem waitMinLoop_specX {v : View} {pos : Nat} {lim : Option Nat} {n : Nat} (h0 : 0 < n) (f : Nat) : ∀ {c : Chain} {s : Sched},
    s.length < f → Env I c s → AtX c v pos lim → WaitedX I lim pos n c (waitMinLoop v n f c s) := by
  induction f with
  | zero => intro c s h; omega
  | succ f ih =>
    intro c s hf env a
    have hu : waitMinLoop v n (f + 1) c s = if n > stopNow c lim - pos then
        (do if ← waitMore v then waitMinLoop v n f else pure false : P Bool) c s else .done true c s := by
      conv => lhs; unfold waitMinLoop
      rw [P.bind_done (P.read_ok (a.size env) s)]
      split <;> rfl
    rw [hu]
    by_cases hn : n > stopNow c lim - pos
    · rw [if_pos hn]
      have e : waitMore v c s = waitLoop v (stopNow c lim - pos) s c := by
        unfold waitMore; rw [a.size env]
      have hw := waitLoop_specX s env a
      rw [← e] at hw
      rcases hw with ⟨c', s', h1, h2, h3, h4⟩ | ⟨c', s', h1, h2, h3, h4, h5, h6⟩ | ⟨c', h1, h2, h3⟩
      · rw [P.bind_done h1]
        simp only [if_true]
        have := ih (c := c') (s := s') (by omega) h2 (a.keep h3)
        generalize waitMinLoop v n f c' s' = o at this ⊢
        cases this with
        | yes w1 w2 w3 => exact .yes w1 (h3.trans w2) w3
        | no w1 w2 w3 => exact .no w1 w2 (h3.trans w3)
        | wait w1 => exact .wait w1
      · rw [P.bind_done h1]
        simp only [Bool.false_eq_true, if_false, P.pure_apply]
        obtain ⟨k1, k2⟩ := complete_now h2 h4
        refine .no ?_ h2 h3
        unfold Input.has
        rw [if_neg (by omega), k1]; rfl
      · rw [P.bind_suspended h1]
        refine .wait ?_
        unfold Input.has
        rw [if_neg (by omega), h2]; rfl
    · rw [if_neg hn]
      exact .yes env (Step.refl c) (by omega)

theorem waitMin_specX {v : View} {pos : Nat} {lim : Option Nat} {n : Nat} (h0 : 0 < n) {c : Chain} {s : Sched}
    (env : Env I c s) (a : AtX c v pos lim) : WaitedX I lim pos n c (waitMin v n c s) :=
  waitMinLoop_specX h0 _ (Nat.lt_succ_self _) env a

/-- A parser does what the specification says, even from a position that does not exist. -/
def RefinesX (lo : Option Nat) (p : Parser) (g : SParser) : Prop :=
  ∀ (I : Input), I.data.length < 2 ^ 64 - 1 → ∀ (lim : Option Nat) (trim : Bool) (v : View) (pos : Nat) (c : Chain)
    (s : Sched), Kept lo trim c → Env I c s → AtX c v pos lim → Sim I lim (!trim) c (p trim v c s) (g I lim pos)

/-- The parser waits for `n` bytes first. -/
structure Waits (n : Nat) (p : Parser) : Prop where
  no : ∀ {trim v c s c' s'}, waitMin v n c s = .done false c' s' → p trim v c s = .throw .parseError c' s'
  wait : ∀ {trim v c s c'}, waitMin v n c s = .suspended c' → p trim v c s = .suspended c'
  yes : ∀ {trim v c s c' s'}, waitMin v n c s = .done true c' s' → waitMin v n c' s' = .done true c' s' →
    p trim v c s = p trim v c' s'

theorem waits_refinesX {n : Nat} (h0 : 0 < n) {p : Parser} {g : SParser} (w : Waits n p) (h : Refines p g) (lo : Option Nat)
    (g1 : ∀ I lim pos, I.has lim pos n = .ok false → g I lim pos = .fail .parseError)
    (g2 : ∀ I lim pos, I.has lim pos n = .more → g I lim pos = .more) : RefinesX lo p g := by
  intro I hI lim trim v pos c s kp env a
  have hw := waitMin_specX h0 env a
  generalize ho : waitMin v n c s = o at hw
  cases hw with
  | yes w1 w2 w3 =>
    rename_i c' s'
    have a' := (a.keep w2).at (by omega)
    have again : waitMin v n c' s' = .done true c' s' := by
      unfold waitMin waitMinLoop
      rw [P.bind_done (P.read_ok (a'.size w1) s'), if_neg (by omega)]; rfl
    rw [w.yes ho again]
    exact Sim.from w2.weaken (h I hI lim trim v pos c' s' w1 a')
  | no w1 w2 w3 =>
    rename_i c' s'
    rw [w.no ho, g1 I lim pos w1]
    exact ⟨c', s', rfl, w2, w3.weaken⟩
  | wait w1 =>
    rename_i c'
    rw [w.wait ho, g2 I lim pos w1]
    exact ⟨c', rfl⟩

/-- Parsers that begin with waiting. -/
theorem waits_bind {n : Nat} {p : Parser} {k : Bool → View → P (Val × View)}
    (hp : ∀ trim v, p trim v = (do if ← waitMin v n then k trim v else .raise .parseError)) : Waits n p := by
  refine ⟨?_, ?_, ?_⟩
  · intro trim v c s c' s' h
    rw [hp, P.bind_done h]; rfl
  · intro trim v c s c' h
    rw [hp, P.bind_suspended h]
  · intro trim v c s c' s' h h2
    rw [hp, P.bind_done h, P.bind_done h2]

theorem waitForInput_bind {α : Type} (v : View) (n : Nat) (k : P α) :
    (do waitForInput v n; k : P α) = (do if ← waitMin v n then k else .raise .parseError) := by
  unfold waitForInput
  rw [P.bind_assoc]
  congr 1
  funext b
  cases b <;> rfl

theorem unpack_waits (n : Nat) (f : List Byte → Val) : Waits n (unpackP n n f) :=
  waits_bind (fun trim v => by unfold unpackP; exact waitForInput_bind v n _)

theorem bytesSize_waits (n : Nat) : Waits n (bytesSizeP false n) := by
  refine waits_bind (k := fun trim v => do
      let bs ← P.read (prefixData v n)
      let cur' ← advanceInput trim v n
      pure (.bytes bs, cur')) (fun trim v => ?_)
  unfold bytesSizeP extractBytes
  rw [P.bind_assoc]
  congr 1
  funext b
  cases b <;> rfl

/-- `parser.cc` 300-316: what `expectBytesLiteral` does once there is enough data. -/
def litRest (v : View) (bs : List Byte) : P Unit := do
  if ← P.read (fun c => v.startsWith c bs) then pure ()
  else
    let _ ← P.read (prefixData v bs.length)
    .raise .parseError

theorem lit_waits (bs : List Byte) : Waits bs.length (litP bs) := by
  refine waits_bind (k := fun trim v => do
      litRest v bs
      let cur' ← advanceInput trim v bs.length
      pure (.bytes bs, cur')) (fun trim v => ?_)
  unfold litP expectBytesLiteral
  rw [P.bind_assoc]
  congr 1
  funext b
  cases b <;> rfl

theorem skip_waits {n : Nat} (h : 0 < n) : Waits 1 (skipP n) := by
  obtain ⟨m, rfl⟩ : ∃ m, n = m + 1 := ⟨n - 1, by omega⟩
  refine waits_bind (k := fun trim v => do
      let sz ← P.read v.size
      let cur' ← advanceInput trim v (min sz (m + 1))
      let cur'' ← skipLoop trim m (m + 1 - min sz (m + 1)) cur'
      pure (.unit, cur'')) (fun trim v => ?_)
  unfold skipP
  have hl : skipLoop trim (m + 1) (m + 1) v = (do
      waitForInput v 1
      let sz ← P.read v.size
      let cur' ← advanceInput trim v (min sz (m + 1))
      skipLoop trim m (m + 1 - min sz (m + 1)) cur') := by
    conv => lhs; unfold skipLoop
    rw [if_pos (by omega)]
  rw [hl, P.bind_assoc]
  have := waitForInput_bind v 1 (do
      let sz ← P.read v.size
      let cur' ← advanceInput trim v (min sz (m + 1))
      let cur'' ← skipLoop trim m (m + 1 - min sz (m + 1)) cur'
      pure ((.unit : Val), cur''))
  rw [← this]
  congr 1
  funext b
  rw [P.bind_assoc]
  congr 1
  funext sz
  rw [P.bind_assoc]

theorem unpack_refinesX (lo : Option Nat) {n : Nat} (h : 0 < n) (f : List Byte → Val) : RefinesX lo (unpackP n n f) (takeN n f) :=
  waits_refinesX h (unpack_waits n f) (unpack_refines n f) lo (fun I lim pos e => by unfold takeN; rw [e]; rfl)
    (fun I lim pos e => by unfold takeN; rw [e]; rfl)

theorem bytesSize_refinesX (lo : Option Nat) {n : Nat} (h : 0 < n) : RefinesX lo (bytesSizeP false n) (takeN n .bytes) :=
  waits_refinesX h (bytesSize_waits n) (bytesSize_refines n) lo (fun I lim pos e => by unfold takeN; rw [e]; rfl)
    (fun I lim pos e => by unfold takeN; rw [e]; rfl)

theorem lit_refinesX (lo : Option Nat) {bs : List Byte} (h : bs ≠ []) : RefinesX lo (litP bs) (fun I lim pos => do
    if ← I.has lim pos bs.length then
      if bs <+: I.rest lim pos then .ok (.bytes bs, pos + bs.length) else .fail .parseError
    else .fail .parseError) :=
  waits_refinesX (List.length_pos_iff.2 h) (lit_waits bs) (lit_refines bs) lo (fun I lim pos e => by simp only [e]; rfl)
    (fun I lim pos e => by simp only [e]; rfl)

theorem skip_refinesX (lo : Option Nat) {n : Nat} (h : 0 < n) : RefinesX lo (skipP n) (fun I lim pos => do
    if ← I.has lim pos n then .ok (.unit, pos + n) else .fail .parseError) := by
  have key : ∀ (I : Input) (lim : Option Nat) (pos : Nat), (I.has lim pos 1 = .ok false → I.has lim pos n = .ok false) ∧
      (I.has lim pos 1 = .more → I.has lim pos n = .more) := by
    intro I lim pos
    unfold Input.has
    by_cases h1 : pos + 1 ≤ I.stop lim
    · rw [if_pos h1]; exact ⟨fun e => (by cases e), fun e => (by cases e)⟩
    · rw [if_neg h1, if_neg (show ¬ pos + n ≤ I.stop lim by omega)]
      exact ⟨id, id⟩
  exact waits_refinesX (Nat.lt_succ_self 0) (skip_waits h) (skip_refines n) lo
    (fun I lim pos e => by simp only [(key I lim pos).1 e]; rfl)
    (fun I lim pos e => by simp only [(key I lim pos).2 e]; rfl)

theorem Kept.mono {lo lo' : Option Nat} {trim : Bool} {c : Chain} (kp : Kept lo trim c)
    (h : ∀ m, lo' = some m → ∃ l, lo = some l ∧ l ≤ m) : Kept lo' trim c := by
  intro m hm
  obtain ⟨l, h1, h2⟩ := h m hm
  exact ⟨(kp l h1).1, Nat.le_trans (kp l h1).2 h2⟩

theorem random_refines {p : Nat → Parser} {g : Nat → SParser} (h : ∀ n, RefinesL (some (keptFrom lo n)) (p n) (g n)) :
    RefinesL lo (randomP p) (fun I lim pos => g pos I lim pos) := by
  intro I hI lim trim v pos c s kp env a
  unfold randomP
  rw [a.off]
  have hk : Kept (some (keptFrom lo pos)) false c := by
    intro l hl
    injection hl with hl
    subst hl
    refine ⟨rfl, ?_⟩
    unfold keptFrom
    cases lo with
    | none => exact a.start
    | some l => exact Nat.le_min.2 ⟨(kp l rfl).2, a.start⟩
  have hs := h pos I hI lim false v pos c s hk env a
  change Sim I lim (!trim) c _ (g pos I lim pos)
  cases hg : g pos I lim pos with
  | ok r => rw [hg] at hs; obtain ⟨v', c', s', h1, h2, h3, h4⟩ := hs; exact ⟨v', c', s', h1, h2, h3.weaken, h4⟩
  | fail e => rw [hg] at hs; obtain ⟨c', s', h1, h2, h3⟩ := hs; exact ⟨c', s', h1, h2, h3.weaken⟩
  | more => rw [hg] at hs; exact hs
  | diverge => rw [hg] at hs; exact hs

theorem parseAt_refines {l q : Nat} (hq : l ≤ q) {p : Parser} {g : SParser} (h : RefinesX (some l) p g) :
    RefinesL (some l) (parseAtP q p) (fun I lim pos => do
      let r ← g I lim q
      .ok (r.1, pos)) := by
  intro I hI lim trim v pos c s kp env a
  obtain ⟨ht, hh⟩ := kp l rfl
  subst ht
  obtain ⟨i, e, ho, hi⟩ := Chain.at_spec env.live q
  unfold parseAtP
  rw [P.bind_done (P.read_ok e s)]
  have ax : AtX c (v.advanceTo i) q lim := ⟨hi, ho, a.endIter, a.end, Nat.le_trans hh hq⟩
  have hs := h I hI lim false _ q c s kp env ax
  dsimp only
  cases hg : g I lim q with
  | ok r =>
    rw [hg] at hs
    obtain ⟨v', c', s', h1, h2, h3, h4⟩ := hs
    exact ⟨v, c', s', by rw [P.bind_done h1]; rfl, h2, h3, a.keep h3⟩
  | fail e => rw [hg] at hs; obtain ⟨c', s', h1, h2, h3⟩ := hs; exact ⟨c', s', P.bind_throw h1, h2, h3⟩
  | more => rw [hg] at hs; obtain ⟨c', h1⟩ := hs; exact ⟨c', P.bind_suspended h1⟩
  | diverge => rw [hg] at hs; exact P.bind_diverge hs

end Verif.Parse
