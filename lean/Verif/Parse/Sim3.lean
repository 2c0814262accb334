import Verif.Parse.Sim2
/-! # Parsing: every primitive parser refines its specification -/

namespace Verif.Parse
open Verif.Stream

variable {I : Input}

theorem P.bind_assoc {α β γ : Type} (x : P α) (f : α → P β) (g : β → P γ) :
    ((x >>= f) >>= g) = (x >>= fun a => f a >>= g) := by
  funext c s
  simp only [P.bind_apply]
  cases x c s <;> rfl

theorem P.pure_bind {α β : Type} (a : α) (f : α → P β) : ((pure a : P α) >>= f) = f a := rfl

theorem P.raise_bind {α β : Type} (e : Exn) (f : α → P β) : ((P.raise e : P α) >>= f) = P.raise e := rfl

/-- The data accessible now is the beginning of all the data. -/
theorem now_rest {c : Chain} {s : Sched} (env : Env I c s) (lim : Option Nat) (pos : Nat) :
    (I.data.take (stopNow c lim)).drop pos = (I.rest lim pos).take (stopNow c lim - pos) := by
  unfold Input.rest
  have := stopNow_le_stop env lim
  rw [List.drop_take, List.drop_take, List.take_take]
  congr 1; omega

theorem rest_length (I : Input) (lim : Option Nat) (pos : Nat) : (I.rest lim pos).length = I.stop lim - pos := by
  unfold Input.rest Input.stop
  cases lim <;> simp

theorem rest_drop (I : Input) (lim : Option Nat) (pos n : Nat) : (I.rest lim pos).drop n = I.rest lim (pos + n) := by
  unfold Input.rest; rw [List.drop_drop]

/-- Reading a piece between two positions. -/
theorem piece_data {c : Chain} {s : Sched} (env : Env I c s) {lim : Option Nat} {pos : Nat} {i j : Iter} {n m : Nat}
    (hi : c.IterOk i) (ho : i.offset = pos + n) (hj : c.IterOk j) (hj' : j.offset = pos + n + m)
    (hs : c.headOffset ≤ pos) (hn : pos + n + m ≤ stopNow c lim) :
    View.mk2 c i j = .ok ⟨i, some j⟩ ∧ (⟨i, some j⟩ : View).data c = .ok (((I.rest lim pos).drop n).take m) := by
  have h1 := stopNow_le c lim
  refine ⟨mk2_ok env.live (by omega), ?_⟩
  have a : At c ⟨i, some j⟩ (pos + n) (some (pos + n + m)) :=
    ⟨hi, ho, fun e he => by injection he with he; exact he ▸ hj, by simp [hj'], by omega, by omega,
      fun l hl => by injection hl with hl; omega⟩
  rw [a.data env]
  congr 1
  unfold Input.rest stopNow
  simp only
  have h2 := stopNow_le_stop env lim
  rw [List.drop_take, List.drop_take, List.drop_take, List.take_take, List.drop_drop]
  congr 1; omega

theorem prefixData_spec {c : Chain} {s : Sched} (env : Env I c s) {lim : Option Nat} {pos : Nat} {v : View}
    (a : At c v pos lim) {n : Nat} (hn : pos + n ≤ stopNow c lim) :
    prefixData v n c = .ok ((I.rest lim pos).take n) := by
  obtain ⟨j, e, ho, hi⟩ := Chain.incr_spec env.live a.iter n
  obtain ⟨h1, h2⟩ := piece_data env (lim := lim) (pos := pos) (n := 0) (m := n) a.iter (by rw [a.off]; rfl) hi
    (by rw [ho, a.off]; rfl) a.start (by omega)
  unfold prefixData subTo
  rw [e]
  simp only [Res.ok_bind]
  rw [h1]
  simp only [Res.ok_bind]
  rw [h2]; rfl

theorem startsCells_map (bs xs : List Byte) : View.startsCells bs (xs.map some) = .ok (decide (bs <+: xs)) := by
  induction bs generalizing xs with
  | nil => simp [View.startsCells]
  | cons b r ih =>
    cases xs with
    | nil => simp [View.startsCells]
    | cons x xs =>
      simp only [List.map_cons, View.startsCells, List.cons_prefix_cons]
      by_cases hb : x = b
      · rw [if_neg (by simp [hb]), ih]; simp [hb]
      · rw [if_pos (by simp [hb])]
        have : ¬ (b = x) := fun h => hb h.symm
        simp [this]

theorem prefix_take {α : Type} {l bs : List α} {n : Nat} (h : l.length ≤ n) : l <+: bs.take n ↔ l <+: bs := by
  constructor
  · exact fun k => k.trans (List.take_prefix _ _)
  · intro k
    rw [List.prefix_take_iff]
    exact ⟨k, h⟩

/-- `startsWith` when enough data is there. -/
theorem startsWith_now {c : Chain} {s : Sched} (env : Env I c s) {lim : Option Nat} {pos : Nat} {v : View}
    (a : At c v pos lim) {bs : List Byte} (hn : pos + bs.length ≤ stopNow c lim) :
    v.startsWith c bs = .ok (decide (bs <+: I.rest lim pos)) := by
  rw [View.startsWith_spec env.live (a.good env.live), a.window env, startsCells_map, now_rest env]
  congr 2
  exact propext (prefix_take (by omega))

theorem takeN_sim {lim : Option Nat} {pos : Nat} {c : Chain} {s : Sched} {keep : Bool} {v : View} {n : Nat}
    {x : P Bool} {f : Bool → P (Val × View)} {w : List Byte → Val} (h : Waited I lim pos n c s (x c s))
    (_a : At c v pos lim)
    (yes : ∀ c' s', Env I c' s' → Step true c c' → pos + n ≤ stopNow c' lim →
      Sim I lim keep c' (f true c' s') (.ok (w ((I.rest lim pos).take n), pos + n)))
    (no : ∀ c' s', f false c' s' = .throw .parseError c' s') :
    Sim I lim keep c ((x >>= f) c s) (takeN n w I lim pos) := by
  unfold takeN
  refine Sim.wait h (fun c' s' e st hn => ?_) (fun c' s' e st hc => ?_)
  · simpa using yes c' s' e st hn
  · rw [no]
    exact ⟨c', s', rfl, e, Step.refl c'⟩

theorem bytesSize_refines (n : Nat) : Refines (bytesSizeP false n) (takeN n .bytes) := by
  intro I hI lim trim v pos c s env a
  unfold bytesSizeP extractBytes
  rw [P.bind_assoc]
  refine takeN_sim (waitMin_spec n env a) a (fun c' s' e st hn => ?_) (fun c' s' => rfl)
  have a' := a.keep st
  obtain ⟨v2, c2, h1, h2, h3, h4, -, -⟩ := advanceInput_spec trim e a' hn
  refine ⟨v2, c2, s', ?_, h2, h3, h4⟩
  simp only [Bool.or_true, if_true]
  rw [P.bind_done (P.read_ok (prefixData_spec e a' hn) s'), P.bind_done h1]
  rfl

theorem unpack_refines (n : Nat) (f : List Byte → Val) : Refines (unpackP n n f) (takeN n f) := by
  intro I hI lim trim v pos c s env a
  unfold unpackP waitForInput
  rw [P.bind_assoc]
  refine takeN_sim (waitMin_spec n env a) a (fun c' s' e st hn => ?_) (fun c' s' => rfl)
  have a' := a.keep st
  simp only [if_true]
  rw [P.pure_bind, P.bind_done (P.read_ok (a'.size e) s'), if_neg (by omega)]
  have hx := (View.extract_spec e.live (a'.good e.live) a'.iter n).2 (by
    rw [a'.window e, a'.length e]; omega)
  rw [a'.window e, ← List.map_take, bytesOf_map] at hx
  obtain ⟨w, x1, x2, x3, x4⟩ := hx
  have hle := stopNow_le c' lim
  have aw : At c' w (pos + n) lim := by
    refine ⟨x3, by rw [x2, a'.off], by rw [x4]; exact a'.endIter, by rw [x4]; exact a'.end, ?_, by omega, ?_⟩
    · have := a'.start; omega
    · intro l hl; subst hl; simp only [stopNow] at hn; omega
  obtain ⟨c2, t1, t2, t3, t4, -, -⟩ := trimInput_spec trim e aw
  refine ⟨w, c2, s', ?_, t2, t3, t4⟩
  rw [P.bind_done (P.read_ok x1 s')]
  rw [P.bind_done t1, P.pure_apply]
  rw [now_rest e, List.take_take, Nat.min_eq_left (by omega)]

theorem lit_refines (bs : List Byte) : Refines (litP bs) (fun I lim pos => do
    if ← I.has lim pos bs.length then
      if bs <+: I.rest lim pos then .ok (.bytes bs, pos + bs.length) else .fail .parseError
    else .fail .parseError) := by
  intro I hI lim trim v pos c s env a
  unfold litP expectBytesLiteral
  rw [P.bind_assoc]
  refine Sim.wait (waitMin_spec bs.length env a) (fun c' s' e st hn => ?_) (fun c' s' e st hc => ?_)
  · have a' := a.keep st
    simp only [if_true]
    rw [P.bind_assoc, P.bind_done (P.read_ok (startsWith_now e a' hn) s')]
    by_cases hp : bs <+: I.rest lim pos
    · obtain ⟨v2, c2, h1, h2, h3, h4, -, -⟩ := advanceInput_spec trim e a' hn
      simp only [hp, decide_true, if_true]
      refine ⟨v2, c2, s', ?_, h2, h3, h4⟩
      rw [P.pure_bind, P.bind_done h1]
      rfl
    · rw [if_neg hp, if_neg (by simpa using hp), P.bind_assoc,
        P.bind_done (P.read_ok (prefixData_spec e a' hn) s')]
      exact ⟨c', s', rfl, e, Step.refl c'⟩
  · exact ⟨c', s', rfl, e, Step.refl c'⟩

/-! ## To the end of the data -/

theorem rest_complete {c : Chain} {s : Sched} (env : Env I c s) {lim : Option Nat} {pos : Nat} {v : View}
    (a : At c v pos lim) (h : completeNow c lim = true) : v.data c = .ok (I.rest lim pos) := by
  rw [a.data env, (complete_now env h).2]; rfl

theorem completeNow_eq {c c' : Chain} (h1 : c'.stop = c.stop) (h2 : c'.isFrozen = c.isFrozen) (lim : Option Nat) :
    completeNow c' lim = completeNow c lim := by unfold completeNow; rw [h1, h2]

theorem stopNow_eq {c c' : Chain} (h1 : c'.stop = c.stop) (lim : Option Nat) : stopNow c' lim = stopNow c lim := by
  unfold stopNow; rw [h1]

theorem eod_finish {c : Chain} {s : Sched} (env : Env I c s) {lim : Option Nat} {pos : Nat} {v : View} (trim : Bool)
    (a : At c v pos lim) (h : completeNow c lim = true) :
    Sim I lim (!trim) c ((do
      let bs ← P.read v.data
      let n ← P.read v.size
      let cur' ← advanceInput trim v n
      pure (.bytes bs, cur') : P (Val × View)) c s) (toEnd .bytes I lim pos) := by
  obtain ⟨k1, k2⟩ := complete_now env h
  unfold toEnd
  rw [if_pos k1]
  have hp := a.pos_le
  obtain ⟨v2, c2, h1, h2, h3, h4, -, -⟩ := advanceInput_spec trim env a (n := stopNow c lim - pos) (by omega)
  refine ⟨v2, c2, s, ?_, h2, h3, ?_⟩
  · rw [P.bind_done (P.read_ok (rest_complete env a h) s), P.bind_done (P.read_ok (a.size env) s), P.bind_done h1]
    rfl
  · have : pos + (stopNow c lim - pos) = I.stop lim := by omega
    rw [← this]; exact h4

theorem eod_refines : Refines eodP (toEnd .bytes) := by
  intro I hI lim trim v pos c s env a
  unfold eodP waitForEod
  rw [P.bind_assoc, P.bind_apply]
  have hw := waitMin_spec (eodMin v) env a
  have hmin : ∀ c', pos + eodMin v ≤ stopNow c' lim → Env I c' s → False ∨ ∃ l, lim = some l ∧ l ≤ c'.stop := by
    intro c' h he
    unfold eodMin at h
    have hend := a.end
    cases hv : v.end with
    | none =>
      rw [hv] at h hend
      simp at hend; subst hend
      simp only [stopNow] at h
      have := he.len
      exfalso; omega
    | some e =>
      rw [hv] at h hend
      simp at hend
      refine Or.inr ⟨e.offset, hend.symm, ?_⟩
      subst hend
      have := a.lim e.offset rfl
      simp only [stopNow, a.off] at h
      omega
  generalize waitMin v (eodMin v) c s = o at hw ⊢
  cases hw with
  | yes w1 w2 w3 w4 w5 w6 =>
    rename_i c' s'
    have hcomp : completeNow c' lim = true := by
      unfold eodMin at w4
      have hend := a.end
      cases hv : v.end with
      | none =>
        rw [hv] at w4 hend
        simp at hend; subst hend
        simp only [stopNow] at w4
        have := w2.len
        omega
      | some e =>
        rw [hv] at w4 hend
        simp at hend
        subst hend
        have := a.lim e.offset rfl
        simp only [stopNow, a.off] at w4
        unfold completeNow
        simp only [Bool.or_eq_true, decide_eq_true_eq]
        right; omega
    exact Sim.from w3.weaken (eod_finish w2 trim (a.keep w3) hcomp)
  | no w1 w2 w3 w4 w5 => exact Sim.from w3.weaken (eod_finish w2 trim (a.keep w3) w4)
  | wait w1 =>
    unfold Input.has at w1
    split at w1
    · cases w1
    · split at w1
      · cases w1
      · rename_i hnc
        unfold toEnd
        rw [if_neg hnc]
        exact ⟨_, rfl⟩

theorem has_zero {lim : Option Nat} {pos : Nat} (h : pos ≤ I.stop lim) : I.has lim pos 0 = .ok true := by
  unfold Input.has; rw [if_pos (by omega)]

theorem has_more {lim : Option Nat} {pos n : Nat} (h : I.has lim pos n = .more) : I.complete lim = false := by
  unfold Input.has at h
  split at h
  · cases h
  · split at h
    · cases h
    · rename_i hnc; simpa using hnc

theorem has_true {lim : Option Nat} {pos n : Nat} (h : I.has lim pos n = .ok true) : pos + n ≤ I.stop lim := by
  unfold Input.has at h
  split at h
  · assumption
  · split at h
    · injection h with h; cases h
    · cases h

theorem has_false {lim : Option Nat} {pos n : Nat} (h : I.has lim pos n = .ok false) :
    I.stop lim < pos + n ∧ I.complete lim = true := by
  unfold Input.has at h
  split at h
  · injection h with h; cases h
  · split at h
    · rename_i h1 h2; exact ⟨by omega, h2⟩
    · cases h

/-- To the end, with data collected before. -/
theorem chunked_loop (trim : Bool) (f : Nat) : ∀ {lim : Option Nat} {v : View} {pos : Nat} {c : Chain} {s : Sched}
    (acc : List Byte), Env I c s → At c v pos lim → s.length + (if stopNow c lim = pos then 0 else 1) < f →
    Sim I lim (!trim) c (chunkedLoop trim f v acc c s) (toEnd (fun bs => .bytes (acc ++ bs)) I lim pos) := by
  induction f with
  | zero => intro lim v pos c s acc env a hf; omega
  | succ f ih =>
    intro lim v pos c s acc env a hf
    unfold chunkedLoop
    rw [P.bind_apply]
    have hw := waitMin_spec 1 env a
    generalize waitMin v 1 c s = o at hw ⊢
    cases hw with
    | yes w1 w2 w3 w4 w5 w6 =>
      rename_i c' s'
      have a' := a.keep w3
      have hp := a'.pos_le
      simp only [if_true]
      rw [P.bind_done (P.read_ok (a'.size w2) s')]
      obtain ⟨v2, c2, h1, h2, h3, h4, h5, h6⟩ := advanceInput_spec trim w2 a' (n := stopNow c' lim - pos) (by omega)
      have hstep : (if stopNow c' lim - pos > 0 then do
            let bs ← P.read v.data
            let cur' ← advanceInput trim v (stopNow c' lim - pos)
            pure (acc ++ bs, cur')
          else pure (acc, v) : P (List Byte × View)) c' s' =
          .done (acc ++ (I.rest lim pos).take (stopNow c' lim - pos), v2) c2 s' := by
        rw [if_pos (by omega), P.bind_done (P.read_ok (a'.data w2) s'), P.bind_done h1, now_rest w2]
        rfl
      rw [P.bind_done hstep]
      refine Sim.from (w3.weaken.trans h3) ?_
      have hpe : pos + (stopNow c' lim - pos) = stopNow c' lim := by omega
      rw [hpe] at h4
      have := ih (acc ++ (I.rest lim pos).take (stopNow c' lim - pos)) h2 h4 (by
        rw [stopNow_eq h5 lim, if_pos rfl]
        by_cases hz : stopNow c lim = pos
        · have := w6 (by omega); omega
        · rw [if_neg hz] at hf; omega)
      have heq : toEnd (fun bs => .bytes (acc ++ (I.rest lim pos).take (stopNow c' lim - pos) ++ bs)) I lim (stopNow c' lim)
          = toEnd (fun bs => .bytes (acc ++ bs)) I lim pos := by
        unfold toEnd
        have : I.rest lim (stopNow c' lim) = (I.rest lim pos).drop (stopNow c' lim - pos) := by
          rw [rest_drop, hpe]
        simp only [this, List.append_assoc, List.take_append_drop]
      rw [← heq]
      exact this
    | no w1 w2 w3 w4 w5 =>
      rename_i c' s'
      have a' := a.keep w3
      have hp := a'.pos_le
      obtain ⟨k1, k2⟩ := complete_now w2 w4
      have hlt := has_false w1
      have hz : stopNow c' lim = pos := by omega
      simp only [Bool.false_eq_true, if_false]
      rw [P.bind_done (P.read_ok (a'.size w2) s'), hz]
      rw [if_neg (by omega), P.pure_bind]
      unfold toEnd
      rw [if_pos k1]
      refine ⟨v, c', s', ?_, w2, w3.weaken, ?_⟩
      · rw [P.pure_apply]
        have : I.rest lim pos = [] := List.eq_nil_of_length_eq_zero (by rw [rest_length]; omega)
        simp only [this, List.append_nil]
      · have : I.stop lim = pos := by omega
        rw [this]; exact a'
    | wait w1 =>
      unfold toEnd
      rw [has_more w1]
      exact ⟨_, rfl⟩

theorem chunked_refines : Refines chunkedP (toEnd .bytes) := by
  intro I hI lim trim v pos c s env a
  have := chunked_loop (I := I) trim (s.length + 2) [] env a (by split <;> omega)
  unfold chunkedP
  simpa using this

/-- `skip bytes &size=n`. -/
theorem skip_loop (trim : Bool) (f : Nat) : ∀ {lim : Option Nat} {v : View} {pos : Nat} {c : Chain} {s : Sched} (n : Nat),
    n ≤ f → Env I c s → At c v pos lim →
    Sim I lim (!trim) c ((do let cur' ← skipLoop trim f n v; pure (.unit, cur') : P (Val × View)) c s) (do
      if ← I.has lim pos n then .ok (.unit, pos + n) else .fail .parseError) := by
  have zero : ∀ {lim : Option Nat} {v : View} {pos : Nat} {c : Chain} {s : Sched}, Env I c s → At c v pos lim →
      Sim I lim (!trim) c (.done (Val.unit, v) c s) (do
      if ← I.has lim pos 0 then .ok (.unit, pos + 0) else .fail .parseError) := by
    intro lim v pos c s env a
    have := a.pos_le
    have := stopNow_le_stop env lim
    rw [has_zero (by omega)]
    exact ⟨v, c, s, rfl, env, Step.refl c, a⟩
  induction f with
  | zero =>
    intro lim v pos c s n hn env a
    obtain rfl : n = 0 := by omega
    exact zero env a
  | succ f ih =>
    intro lim v pos c s n hn env a
    rcases Nat.eq_zero_or_pos n with rfl | hpos
    · exact zero env a
    · unfold skipLoop
      rw [if_pos hpos]
      unfold waitForInput
      rw [P.bind_assoc, P.bind_assoc, P.bind_apply]
      have hw := waitMin_spec 1 env a
      generalize waitMin v 1 c s = o at hw ⊢
      cases hw with
      | yes w1 w2 w3 w4 w5 w6 =>
        rename_i c' s'
        have a' := a.keep w3
        have hp := a'.pos_le
        simp only [if_true]
        rw [P.pure_bind, P.bind_assoc, P.bind_done (P.read_ok (a'.size w2) s'), P.bind_assoc]
        obtain ⟨v2, c2, h1, h2, h3, h4, h5, h6⟩ :=
          advanceInput_spec trim w2 a' (n := min (stopNow c' lim - pos) n) (by omega)
        rw [P.bind_done h1]
        refine Sim.from (w3.weaken.trans h3) ?_
        have := ih (n - min (stopNow c' lim - pos) n) (by omega) h2 h4
        have hhas : I.has lim (pos + min (stopNow c' lim - pos) n) (n - min (stopNow c' lim - pos) n) = I.has lim pos n := by
          unfold Input.has
          congr 2; omega
        rw [hhas] at this
        have hadd : pos + min (stopNow c' lim - pos) n + (n - min (stopNow c' lim - pos) n) = pos + n := by omega
        rw [hadd] at this
        exact this
      | no w1 w2 w3 w4 w5 =>
        obtain ⟨k1, k2⟩ := complete_now w2 w4
        have hlt := has_false w1
        have : I.has lim pos n = .ok false := by
          unfold Input.has; rw [if_neg (by omega), if_pos k1]
        rw [this]
        exact ⟨_, _, rfl, w2, w3.weaken⟩
      | wait w1 =>
        have hc := has_more w1
        have : I.has lim pos n = .more := by
          unfold Input.has at w1 ⊢
          split at w1
          · cases w1
          · rw [if_neg (by omega), hc]; rfl
        rw [this]
        exact ⟨_, rfl⟩

theorem skip_refines (n : Nat) : Refines (skipP n) (fun I lim pos => do
    if ← I.has lim pos n then .ok (.unit, pos + n) else .fail .parseError) := by
  intro I hI lim trim v pos c s env a
  exact skip_loop trim n n (Nat.le_refl _) env a

theorem skipEod_loop (trim : Bool) (f : Nat) : ∀ {lim : Option Nat} {v : View} {pos : Nat} {c : Chain} {s : Sched},
    s.length < f → Env I c s → At c v pos lim →
    Sim I lim (!trim) c ((do
      let cur' ← skipEodLoop trim f v
      let n ← P.read cur'.size
      let cur'' ← advanceInput trim cur' n
      pure (.unit, cur'') : P (Val × View)) c s) (toEnd (fun _ => .unit) I lim pos) := by
  induction f with
  | zero => intro lim v pos c s h; omega
  | succ f ih =>
    intro lim v pos c s hf env a
    unfold skipEodLoop
    rw [P.bind_assoc]
    rcases waitMore_spec env a with ⟨c', s', h1, h2, h3, h4, h5⟩ | ⟨c', s', h1, h2, h3, h4, h5, h6⟩ | ⟨c', h1, h2, h3⟩
    · rw [P.bind_done h1]
      simp only [if_true]
      have a' := a.keep h3
      have hp := a'.pos_le
      rw [P.bind_assoc, P.bind_done (P.read_ok (a'.size h2) s'), P.bind_assoc]
      obtain ⟨v2, c2, g1, g2, g3, g4, g5, g6⟩ := advanceInput_spec trim h2 a' (n := stopNow c' lim - pos) (by omega)
      rw [P.bind_done g1]
      refine Sim.from (h3.weaken.trans g3) ?_
      have := ih (by omega) g2 g4
      unfold toEnd at this ⊢
      exact this
    · rw [P.bind_done h1]
      simp only [Bool.false_eq_true, if_false]
      rw [P.pure_bind]
      have a' := a.keep h3
      have hp := a'.pos_le
      obtain ⟨k1, k2⟩ := complete_now h2 h4
      obtain ⟨v2, c2, g1, g2, g3, g4, g5, g6⟩ := advanceInput_spec trim h2 a' (n := stopNow c' lim - pos) (by omega)
      rw [P.bind_done (P.read_ok (a'.size h2) s'), P.bind_done g1]
      unfold toEnd
      rw [if_pos k1]
      refine ⟨v2, c2, s', rfl, g2, h3.weaken.trans g3, ?_⟩
      have : pos + (stopNow c' lim - pos) = I.stop lim := by omega
      rw [← this]; exact g4
    · rw [P.bind_suspended h1]
      unfold toEnd
      rw [h2]
      exact ⟨_, rfl⟩

theorem skipEod_refines : Refines skipEodP (toEnd (fun _ => .unit)) := by
  intro I hI lim trim v pos c s env a
  exact skipEod_loop trim _ (Nat.lt_succ_self _) env a

end Verif.Parse
