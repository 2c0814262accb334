import Verif.Front.PreprocSound
/-!
# Conditional compilation (C73)
-/

namespace Verif.Front

open Verif.Bytes (Str)

variable {α : Type} (consts : Consts)

/-- C73: of the source of a document exactly the text that counts is kept, and nothing is reported. -/
theorem keeps_what_counts {d : Doc α} {k : List α} (h : d.Counts consts k) (hp : PlainPieces d.pieces) :
    scan consts d.pieces Scan.init = .ok ⟨[1], false, 0, k⟩ := by
  have := keep_doc consts h hp [] 0 [] []
  rw [List.append_nil] at this
  exact this

/-! ## The pieces of an accepted file -/

/-- Errors are never taken back. -/
theorem scan_errors {ps : List (Piece α)} {s s' : Scan α} (h : scan consts ps s = .ok s') : s.errors ≤ s'.errors := by
  induction ps generalizing s with
  | nil => injection h with h; rw [h]; exact Nat.le_refl _
  | cons p ps ih =>
    simp only [scan] at h
    cases hp : scanPiece consts s p with
    | throw x => rw [hp] at h; cases h
    | ub => rw [hp] at h; cases h
    | ok t =>
      rw [hp] at h
      refine Nat.le_trans ?_ (ih h)
      cases p with
      | text x => simp only [scanPiece] at hp; injection hp with hp; subst hp; split <;> exact Nat.le_refl _
      | dir d e =>
        simp only [scanPiece] at hp
        cases hl : processLine consts s.stack d e with
        | throw x => rw [hl] at hp; cases hp
        | ub => rw [hl] at hp; cases hp
        | ok o =>
          rw [hl] at hp
          cases o with
          | none => injection hp with hp; subst hp; exact Nat.le_succ _
          | some st => injection hp with hp; subst hp; exact Nat.le_refl _

/-- Directives nest, with `n` conditionals open at the start. -/
def Nest : Nat → List (Piece α) → Prop
  | _, [] => True
  | n, .text _ :: ps => Nest n ps
  | n, .dir d e :: ps =>
    (d = dIf ∧ Nest (n + 1) ps) ∨ (d = dElse ∧ e = [] ∧ 0 < n ∧ Nest n ps) ∨ (d = dEndif ∧ e = [] ∧ 0 < n ∧ Nest (n - 1) ps)

/-- A directive that is accepted. -/
theorem processLine_ok {st st' : List Int} {d e : Str} (h : processLine consts st d e = .ok (some st')) (hne : st ≠ []) :
    st' ≠ [] ∧ ((d = dIf ∧ st'.length = st.length + 1) ∨ (d = dElse ∧ e = [] ∧ 1 < st.length ∧ st'.length = st.length) ∨
      (d = dEndif ∧ e = [] ∧ 1 < st.length ∧ st'.length = st.length - 1)) := by
  have hpos : 0 < st.length := List.length_pos_iff.2 hne
  unfold processLine at h
  split at h
  · rename_i hd
    split at h
    · cases hp : parseIf consts e with
      | throw x => rw [hp] at h; cases h
      | ub => rw [hp] at h; cases h
      | ok o =>
        rw [hp] at h
        cases o with
        | none => cases h
        | some b =>
          injection h with h; injection h with h; subst h
          exact ⟨by simp, .inl ⟨hd, rfl⟩⟩
    · injection h with h; injection h with h; subst h
      exact ⟨by simp, .inl ⟨hd, rfl⟩⟩
  · split at h
    · rename_i hd
      split at h
      · injection h with h; cases h
      · rename_i he
        split at h
        · injection h with h; cases h
        · rename_i hl
          have he' : e = [] := by
            rw [← List.length_eq_zero_iff]
            exact Classical.byContradiction he
          cases st with
          | nil => exact absurd rfl hne
          | cons x xs =>
            injection h with h; injection h with h; subst h
            refine ⟨by split <;> simp, .inr (.inl ⟨hd, he', by omega, by split <;> rfl⟩)⟩
    · split at h
      · rename_i hd
        split at h
        · injection h with h; cases h
        · rename_i he
          split at h
          · injection h with h; cases h
          · rename_i hl
            have he' : e = [] := by
              rw [← List.length_eq_zero_iff]
              exact Classical.byContradiction he
            cases st with
            | nil => exact absurd rfl hne
            | cons x xs =>
              injection h with h; injection h with h; subst h
              refine ⟨?_, .inr (.inr ⟨hd, he', by omega, rfl⟩)⟩
              rintro rfl
              exact hl rfl
      · injection h with h; cases h

theorem nest_of_scan {ps : List (Piece α)} {s s' : Scan α} (h : scan consts ps s = .ok s') (he : s'.errors = 0) (hne : s.stack ≠ []) :
    Nest (s.stack.length - 1) ps := by
  induction ps generalizing s with
  | nil => trivial
  | cons p ps ih =>
    have hpos : 0 < s.stack.length := List.length_pos_iff.2 hne
    simp only [scan] at h
    cases hp : scanPiece consts s p with
    | throw x => rw [hp] at h; cases h
    | ub => rw [hp] at h; cases h
    | ok t =>
      rw [hp] at h
      dsimp only at h
      cases p with
      | text x =>
        simp only [scanPiece] at hp; injection hp with hp
        have hst : t.stack = s.stack := by subst hp; split <;> rfl
        have := ih h (by rw [hst]; exact hne)
        rw [hst] at this
        exact this
      | dir d e =>
        simp only [scanPiece] at hp
        cases hl : processLine consts s.stack d e with
        | throw x => rw [hl] at hp; cases hp
        | ub => rw [hl] at hp; cases hp
        | ok o =>
          rw [hl] at hp
          cases o with
          | none =>
            injection hp with hp; subst hp
            have := scan_errors consts h
            dsimp only at this
            omega
          | some st =>
            injection hp with hp; subst hp
            obtain ⟨h1, h2⟩ := processLine_ok consts hl hne
            have ih' := ih h h1
            dsimp only at ih'
            rcases h2 with ⟨hd, hk⟩ | ⟨hd, hx, hn, hk⟩ | ⟨hd, hx, hn, hk⟩
            · rw [hk] at ih'
              refine .inl ⟨hd, ?_⟩
              have e1 : s.stack.length - 1 + 1 = s.stack.length + 1 - 1 := by omega
              rw [e1]; exact ih'
            · rw [hk] at ih'
              exact .inr (.inl ⟨hd, hx, by omega, ih'⟩)
            · rw [hk] at ih'
              exact .inr (.inr ⟨hd, hx, by omega, ih'⟩)

/-- A document put before a file. -/
def File.before (f : Doc α → Doc α) : File α → File α
  | .done d => .done (f d)
  | .unclosed d c bs last => .unclosed (f d) c bs last

/-- Pieces that nest are those of a file, or a document up to the end of a branch. -/
theorem shape (m : Nat) :
    (∀ (n : Nat) (ps : List (Piece α)), ps.length ≤ m → Nest n ps →
      (∃ f : File α, f.pieces = ps) ∨
      (∃ (d : Doc α) (tail : List (Piece α)), 0 < n ∧ ps = d.pieces ++ .dir dElse [] :: tail ∧ Nest n tail) ∨
      (∃ (d : Doc α) (tail : List (Piece α)), 0 < n ∧ ps = d.pieces ++ .dir dEndif [] :: tail ∧ Nest (n - 1) tail)) ∧
    (∀ (n : Nat) (ps : List (Piece α)), ps.length ≤ m → Nest (n + 1) ps →
      (∃ (bs : List (Doc α)) (f : File α), ps = bs.flatMap (fun b => b.pieces ++ [.dir dElse []]) ++ f.pieces) ∨
      (∃ (d : Doc α) (el : Elses α) (tail : List (Piece α)), ps = d.pieces ++ (el.pieces ++ .dir dEndif [] :: tail) ∧ Nest n tail)) := by
  induction m with
  | zero =>
    constructor
    · intro n ps hl h
      have : ps = [] := List.length_eq_zero_iff.1 (Nat.le_zero.1 hl)
      subst this
      exact .inl ⟨.done .nil, rfl⟩
    · intro n ps hl h
      have : ps = [] := List.length_eq_zero_iff.1 (Nat.le_zero.1 hl)
      subst this
      exact .inl ⟨[], .done .nil, rfl⟩
  | succ m ih =>
    obtain ⟨iha, ihb⟩ := ih
    have ha : ∀ (n : Nat) (ps : List (Piece α)), ps.length ≤ m + 1 → Nest n ps →
        (∃ f : File α, f.pieces = ps) ∨
        (∃ (d : Doc α) (tail : List (Piece α)), 0 < n ∧ ps = d.pieces ++ .dir dElse [] :: tail ∧ Nest n tail) ∨
        (∃ (d : Doc α) (tail : List (Piece α)), 0 < n ∧ ps = d.pieces ++ .dir dEndif [] :: tail ∧ Nest (n - 1) tail) := by
      intro n ps hl h
      cases ps with
      | nil => exact .inl ⟨.done .nil, rfl⟩
      | cons p ps =>
        have hl' : ps.length ≤ m := by rw [List.length_cons] at hl; omega
        cases p with
        | text t =>
          rcases iha n ps hl' h with ⟨f, hf⟩ | ⟨d, tail, h1, h2, h3⟩ | ⟨d, tail, h1, h2, h3⟩
          · refine .inl ⟨f.before (.text t), ?_⟩
            subst hf
            cases f <;> simp [File.before, File.pieces, Doc.pieces]
          · exact .inr (.inl ⟨.text t d, tail, h1, by rw [h2]; rfl, h3⟩)
          · exact .inr (.inr ⟨.text t d, tail, h1, by rw [h2]; rfl, h3⟩)
        | dir d e =>
          rcases h with ⟨rfl, h⟩ | ⟨rfl, rfl, hn, h⟩ | ⟨rfl, rfl, hn, h⟩
          · rcases ihb n ps hl' h with ⟨bs, f, h1⟩ | ⟨d, el, tail, h1, h2⟩
            · exact .inl ⟨.unclosed .nil e bs f, by rw [h1]; rfl⟩
            · have hl2 : tail.length ≤ m := by
                have := congrArg List.length h1
                simp only [List.length_append, List.length_cons] at this
                omega
              rcases iha n tail hl2 h2 with ⟨f, hf⟩ | ⟨d', tail', g1, g2, g3⟩ | ⟨d', tail', g1, g2, g3⟩
              · refine .inl ⟨f.before (.cond e d el), ?_⟩
                subst hf
                rw [h1]
                cases f <;> simp [File.before, File.pieces, Doc.pieces]
              · exact .inr (.inl ⟨.cond e d el d', tail', g1, by rw [h1, g2]; simp [Doc.pieces], g3⟩)
              · exact .inr (.inr ⟨.cond e d el d', tail', g1, by rw [h1, g2]; simp [Doc.pieces], g3⟩)
          · exact .inr (.inl ⟨.nil, ps, hn, rfl, h⟩)
          · exact .inr (.inr ⟨.nil, ps, hn, rfl, h⟩)
    refine ⟨ha, ?_⟩
    intro n ps hl h
    rcases ha (n + 1) ps hl h with ⟨f, hf⟩ | ⟨d, tail, _, h2, h3⟩ | ⟨d, tail, _, h2, h3⟩
    · exact .inl ⟨[], f, hf.symm⟩
    · have hl2 : tail.length ≤ m := by
        have := congrArg List.length h2
        simp only [List.length_append, List.length_cons] at this
        omega
      rcases ihb n tail hl2 h3 with ⟨bs, f, g1⟩ | ⟨d', el, tail', g1, g2⟩
      · exact .inl ⟨d :: bs, f, by rw [h2, g1]; simp⟩
      · exact .inr ⟨d, .cons d' el, tail', by rw [h2, g1]; simp [Elses.pieces], g2⟩
    · exact .inr ⟨d, .nil, tail, by rw [h2]; rfl, h3⟩

/-! ## The conditions of an accepted file -/

/-- A condition that is accepted. -/
theorem if_on_ok {c : Str} {ps : List (Piece α)} {st : List Int} {ig : Bool} {k : List α} {s' : Scan α}
    (h : scan consts (.dir dIf c :: ps) ⟨1 :: st, ig, 0, k⟩ = .ok s') (he : s'.errors = 0) :
    ∃ b, parseIf consts c = .ok (some b) := by
  simp only [scan, scanPiece] at h
  have : processLine consts (1 :: st) dIf c = match parseIf consts c with
      | .throw e => .throw e
      | .ub => .ub
      | .ok none => .ok none
      | .ok (some b) => .ok (some ((if b then 1 else 0) :: 1 :: st)) := by
    unfold processLine
    rw [if_pos rfl]
    rfl
  rw [this] at h
  cases hp : parseIf consts c with
  | throw e => rw [hp] at h; cases h
  | ub => rw [hp] at h; cases h
  | ok o =>
    rw [hp] at h
    cases o with
    | some b => exact ⟨b, rfl⟩
    | none =>
      have := scan_errors consts h
      dsimp only at this
      omega

mutual
theorem counts_doc (d : Doc α) (hp : PlainPieces d.pieces) {st : List Int} {acc : List α} {rest : List (Piece α)} {s' : Scan α}
    (h : scan consts (d.pieces ++ rest) ⟨1 :: st, false, 0, acc⟩ = .ok s') (he : s'.errors = 0) : ∃ k, d.Counts consts k := by
  cases d with
  | nil => exact ⟨[], .nil⟩
  | text t d =>
    rw [Doc.pieces, List.cons_append, scan_text] at h
    obtain ⟨k, hk⟩ := counts_doc d (hp.sub (by intro p hp; simp [Doc.pieces, hp])) h he
    exact ⟨t :: k, .text hk⟩
  | cond c body elses d =>
    rw [Doc.pieces] at hp
    rw [Doc.pieces, List.cons_append] at h
    obtain ⟨b, hb⟩ := if_on_ok consts h he
    have hc := (parseIf_iff consts (hp c (by simp)) b).1 hb
    rw [scan_if_on consts hb, List.append_assoc, List.append_assoc, List.cons_append] at h
    cases b with
    | true =>
      have hpb : PlainPieces body.pieces := hp.sub (by intro p h; simp [h])
      have hpe : PlainPieces elses.pieces := hp.sub (by intro p h; simp [h])
      have hpd : PlainPieces d.pieces := hp.sub (by intro p h; simp [h])
      obtain ⟨k, hk⟩ := counts_doc body hpb h he
      have h2 := (keep_doc consts hk hpb (1 :: st) 0 acc (elses.pieces ++ .dir dEndif [] :: (d.pieces ++ rest))).symm.trans h
      obtain ⟨l, hl⟩ := counts_elses (cur := true) elses hpe h2 he
      obtain ⟨cur, h3⟩ := keep_elses (cur := true) consts hl hpe 1 st 0 (acc ++ k) (.dir dEndif [] :: (d.pieces ++ rest))
      have h4 := h3.symm.trans h2
      rw [scan_endif] at h4
      obtain ⟨m, hm⟩ := counts_doc d hpd h4 he
      exact ⟨_, .yes hc hk hl hm⟩
    | false =>
      have hpe : PlainPieces elses.pieces := hp.sub (by intro p h; simp [h])
      have hpd : PlainPieces d.pieces := hp.sub (by intro p h; simp [h])
      have h2 := (skip_doc consts body 0 (1 :: st) (by decide) 0 acc (elses.pieces ++ .dir dEndif [] :: (d.pieces ++ rest))).symm.trans h
      obtain ⟨l, hl⟩ := counts_elses (cur := false) elses hpe h2 he
      obtain ⟨cur, h3⟩ := keep_elses (cur := false) consts hl hpe 1 st 0 acc (.dir dEndif [] :: (d.pieces ++ rest))
      have h4 := h3.symm.trans h2
      rw [scan_endif] at h4
      obtain ⟨m, hm⟩ := counts_doc d hpd h4 he
      exact ⟨_, .no hc hl hm⟩
theorem counts_elses {cur : Bool} (el : Elses α) (hp : PlainPieces el.pieces) {y : Int} {st : List Int} {acc : List α}
    {rest : List (Piece α)} {s' : Scan α} (h : scan consts (el.pieces ++ rest) ⟨top cur :: y :: st, !cur, 0, acc⟩ = .ok s')
    (he : s'.errors = 0) : ∃ l, el.Counts consts (!cur) l := by
  cases el with
  | nil => exact ⟨[], .nil⟩
  | cons body more =>
    rw [Elses.pieces] at hp
    rw [Elses.pieces, List.cons_append, scan_else_top, List.append_assoc] at h
    have hpb : PlainPieces body.pieces := hp.sub (by intro p h; simp [h])
    have hpm : PlainPieces more.pieces := hp.sub (by intro p h; simp [h])
    cases cur with
    | false =>
      obtain ⟨k, hk⟩ := counts_doc body hpb h he
      have h2 := (keep_doc consts hk hpb (y :: st) 0 acc (more.pieces ++ rest)).symm.trans h
      obtain ⟨l, hl⟩ := counts_elses (cur := true) more hpm h2 he
      exact ⟨_, .yes hk hl⟩
    | true =>
      have h2 := (skip_doc consts body 0 (y :: st) (by decide) 0 acc (more.pieces ++ rest)).symm.trans h
      obtain ⟨l, hl⟩ := counts_elses (cur := false) more hpm h2 he
      exact ⟨_, .no hl⟩
end

/-! ## Files -/

theorem keep_alternate {on on' : Bool} {bs : List (Doc α)} {l : List α} (h : Alternate consts on bs on' l)
    (hp : ∀ b ∈ bs, PlainPieces b.pieces) (y : Int) (st : List Int) (e : Nat) (acc : List α) (rest : List (Piece α)) :
    scan consts (bs.flatMap (fun b => b.pieces ++ [.dir dElse []]) ++ rest) ⟨top on :: y :: st, !on, e, acc⟩ =
      scan consts rest ⟨top on' :: y :: st, !on', e, acc ++ l⟩ := by
  induction h generalizing acc with
  | nil => rw [List.append_nil]; rfl
  | @yes d ds on' k l hd h ih =>
    rw [List.flatMap_cons, List.append_assoc, List.append_assoc]
    refine (keep_doc consts hd (hp d (by simp)) (y :: st) e acc _).trans ?_
    refine (scan_else_top consts true y st _ false e (acc ++ k)).trans ?_
    have := ih (fun b hb => hp b (by simp [hb])) (acc ++ k)
    rw [List.append_assoc] at this
    exact this
  | @no d ds on' l h ih =>
    rw [List.flatMap_cons, List.append_assoc, List.append_assoc]
    refine (skip_doc consts d 0 (y :: st) (by decide) e acc _).trans ?_
    refine (scan_else_top consts false y st _ true e acc).trans ?_
    exact ih (fun b hb => hp b (by simp [hb])) acc

theorem skip_branches (bs : List (Doc α)) (y : Int) (st : List Int) (e : Nat) (acc : List α) (rest : List (Piece α)) :
    scan consts (bs.flatMap (fun b => b.pieces ++ [.dir dElse []]) ++ rest) ⟨-1 :: y :: st, true, e, acc⟩ =
      scan consts rest ⟨-1 :: y :: st, true, e, acc⟩ := by
  induction bs with
  | nil => rfl
  | cons d ds ih =>
    rw [List.flatMap_cons, List.append_assoc, List.append_assoc]
    refine (skip_doc consts d (-1) (y :: st) (by decide) e acc _).trans ?_
    refine (scan_else consts (-1) y st _ true e acc).trans ?_
    exact ih

/-- The number of conditionals that are not closed. -/
def File.open_ : File α → Nat
  | .done _ => 0
  | .unclosed _ _ _ last => last.open_ + 1

theorem skip_file (f : File α) (x : Int) (st : List Int) (hx : x ≠ 1) (e : Nat) (acc : List α) :
    ∃ stk, stk.length = f.open_ + (st.length + 1) ∧ scan consts f.pieces ⟨x :: st, true, e, acc⟩ = .ok ⟨stk, true, e, acc⟩ := by
  induction f generalizing x st with
  | done d =>
    have := skip_doc consts d x st hx e acc []
    rw [List.append_nil] at this
    exact ⟨x :: st, by simp [File.open_], this⟩
  | unclosed d c bs last ih =>
    obtain ⟨stk, h1, h2⟩ := ih (-1) (x :: st) (by decide)
    refine ⟨stk, by rw [h1, File.open_, List.length_cons]; omega, ?_⟩
    rw [File.pieces, skip_doc consts d x st hx e acc, scan_if_off consts c _ (by simp [included, hx]), skip_branches]
    exact h2

theorem keep_file {f : File α} {k : List α} (h : f.Counts consts k) (hp : PlainPieces f.pieces) (st : List Int) (e : Nat) (acc : List α) :
    ∃ stk ig, stk.length = f.open_ + (st.length + 1) ∧
      scan consts f.pieces ⟨1 :: st, false, e, acc⟩ = .ok ⟨stk, ig, e, acc ++ k⟩ := by
  induction h generalizing st acc with
  | @done d k h =>
    have := keep_doc consts h hp st e acc []
    rw [List.append_nil] at this
    exact ⟨1 :: st, false, by simp [File.open_], this⟩
  | @on d c bs last b k l m hd hc ha hl ih =>
    rw [File.pieces] at hp
    have hpi := (parseIf_iff consts (hp c (by simp)) b).2 hc
    obtain ⟨stk, ig, h1, h2⟩ := ih (hp.sub (by intro p h; simp [h])) (1 :: st) (acc ++ k ++ l)
    refine ⟨stk, ig, by rw [h1, File.open_, List.length_cons]; omega, ?_⟩
    rw [File.pieces, keep_doc consts hd (hp.sub (by intro p h; simp [h])), scan_if_on consts hpi]
    refine (keep_alternate consts ha ?_ 1 st e (acc ++ k) last.pieces).trans ?_
    · intro x hx
      refine hp.sub (fun p h => ?_)
      simp only [List.mem_append, List.mem_cons, List.mem_flatMap]
      exact .inr (.inr (.inl ⟨x, hx, .inl h⟩))
    · simp only [List.append_assoc] at h2 ⊢
      exact h2
  | @off d c bs last b k l hd hc ha =>
    rw [File.pieces] at hp
    have hpi := (parseIf_iff consts (hp c (by simp)) b).2 hc
    obtain ⟨stk, h1, h2⟩ := skip_file consts last 0 (1 :: st) (by decide) e (acc ++ k ++ l)
    refine ⟨stk, true, by rw [h1, File.open_, List.length_cons]; omega, ?_⟩
    rw [File.pieces, keep_doc consts hd (hp.sub (by intro p h; simp [h])), scan_if_on consts hpi]
    refine (keep_alternate consts ha ?_ 1 st e (acc ++ k) last.pieces).trans ?_
    · intro x hx
      refine hp.sub (fun p h => ?_)
      simp only [List.mem_append, List.mem_cons, List.mem_flatMap]
      exact .inr (.inr (.inl ⟨x, hx, .inl h⟩))
    · simp only [List.append_assoc] at h2 ⊢
      exact h2

theorem counts_alternate (bs : List (Doc α)) (hp : ∀ b ∈ bs, PlainPieces b.pieces) (on : Bool) {y : Int} {st : List Int} {acc : List α}
    {rest : List (Piece α)} {s' : Scan α}
    (h : scan consts (bs.flatMap (fun b => b.pieces ++ [.dir dElse []]) ++ rest) ⟨top on :: y :: st, !on, 0, acc⟩ = .ok s')
    (he : s'.errors = 0) : ∃ on' l, Alternate consts on bs on' l := by
  induction bs generalizing on acc with
  | nil => exact ⟨on, [], .nil⟩
  | cons d ds ih =>
    rw [List.flatMap_cons, List.append_assoc, List.append_assoc] at h
    cases on with
    | true =>
      obtain ⟨k, hk⟩ := counts_doc consts d (hp d (by simp)) h he
      have h2 := (keep_doc consts hk (hp d (by simp)) (y :: st) 0 acc _).symm.trans h
      have h3 := (scan_else_top consts true y st _ false 0 (acc ++ k)).symm.trans h2
      obtain ⟨on', l, hl⟩ := ih (fun b hb => hp b (by simp [hb])) false h3
      exact ⟨on', _, .yes hk hl⟩
    | false =>
      have h2 := (skip_doc consts d 0 (y :: st) (by decide) 0 acc _).symm.trans h
      have h3 := (scan_else_top consts false y st _ true 0 acc).symm.trans h2
      obtain ⟨on', l, hl⟩ := ih (fun b hb => hp b (by simp [hb])) true h3
      exact ⟨on', _, .no hl⟩

theorem counts_file (f : File α) (hp : PlainPieces f.pieces) {st : List Int} {acc : List α} {s' : Scan α}
    (h : scan consts f.pieces ⟨1 :: st, false, 0, acc⟩ = .ok s') (he : s'.errors = 0) : ∃ k, f.Counts consts k := by
  induction f generalizing st acc with
  | done d =>
    obtain ⟨k, hk⟩ := counts_doc consts d hp (rest := []) (by rw [List.append_nil]; exact h) he
    exact ⟨k, .done hk⟩
  | unclosed d c bs last ih =>
    rw [File.pieces] at hp h
    have hpd : PlainPieces d.pieces := hp.sub (by intro p h; simp [h])
    have hpb : ∀ b ∈ bs, PlainPieces b.pieces := by
      intro x hx
      refine hp.sub (fun p h => ?_)
      simp only [List.mem_append, List.mem_cons, List.mem_flatMap]
      exact .inr (.inr (.inl ⟨x, hx, .inl h⟩))
    have hpl : PlainPieces last.pieces := hp.sub (by intro p h; simp [h])
    obtain ⟨k, hk⟩ := counts_doc consts d hpd h he
    have h2 := (keep_doc consts hk hpd st 0 acc _).symm.trans h
    obtain ⟨b, hb⟩ := if_on_ok consts h2 he
    have hc := (parseIf_iff consts (hp c (by simp)) b).1 hb
    rw [scan_if_on consts hb] at h2
    obtain ⟨on', l, hl⟩ := counts_alternate consts bs hpb b h2 he
    have h3 := (keep_alternate consts hl hpb 1 st 0 (acc ++ k) last.pieces).symm.trans h2
    cases on' with
    | true =>
      obtain ⟨m, hm⟩ := ih hpl h3
      exact ⟨_, .on hk hc hl hm⟩
    | false => exact ⟨_, .off hk hc hl⟩

/-- C73: a source file is accepted, with this text kept, exactly if it is a document, with conditionals closed or left open at the
    end of the file, in which the conditions that matter are well-formed, and if this is the text that counts. Missing: that a
    conditional must be closed and has at most one `@else`; and conditions that are not plain. -/
theorem accepted_iff_partial {ps : List (Piece α)} (hp : PlainPieces ps) (k : List α) :
    (∃ s, scan consts ps Scan.init = .ok s ∧ s.errors = 0 ∧ s.kept = k) ↔ ∃ f : File α, f.pieces = ps ∧ f.Counts consts k := by
  constructor
  · rintro ⟨s, h, he, rfl⟩
    have hn : Nest 0 ps := nest_of_scan consts h he (by simp [Scan.init])
    rcases (shape ps.length).1 0 ps (Nat.le_refl _) hn with ⟨f, rfl⟩ | ⟨_, _, h0, _⟩ | ⟨_, _, h0, _⟩
    · obtain ⟨k, hk⟩ := counts_file consts f hp h he
      obtain ⟨stk, ig, _, h2⟩ := keep_file consts hk hp [] 0 []
      have h3 := h2.symm.trans h
      injection h3 with h3
      refine ⟨f, rfl, ?_⟩
      rw [← h3]
      exact hk
    · omega
    · omega
  · rintro ⟨f, rfl, hk⟩
    obtain ⟨stk, ig, _, h2⟩ := keep_file consts hk hp [] 0 []
    exact ⟨_, h2, rfl, rfl⟩

/-- C73: a source file is accepted and at its end nothing is left to close exactly if it is a document in which the conditions that
    matter are well-formed. -/
theorem accepted_closed_iff {ps : List (Piece α)} (hp : PlainPieces ps) (k : List α) :
    (∃ s, scan consts ps Scan.init = .ok s ∧ s.errors = 0 ∧ s.kept = k ∧ ¬ 1 < s.stack.length) ↔
      ∃ d : Doc α, d.pieces = ps ∧ d.Counts consts k := by
  constructor
  · rintro ⟨s, h, he, rfl, hs⟩
    obtain ⟨f, rfl, hk⟩ := (accepted_iff_partial consts hp s.kept).1 ⟨s, h, he, rfl⟩
    obtain ⟨stk, ig, hl, h2⟩ := keep_file consts hk hp [] 0 []
    have h3 := h2.symm.trans h
    injection h3 with h3
    have hst : s.stack = stk := by rw [← h3]
    rw [hst, hl] at hs
    generalize s.kept = kept at hk
    cases hk with
    | @done d _ hk => exact ⟨d, rfl, hk⟩
    | on _ _ _ _ => exact absurd (by simp [File.open_]) hs
    | off _ _ _ => exact absurd (by simp [File.open_]) hs
  · rintro ⟨d, rfl, hk⟩
    exact ⟨_, keeps_what_counts consts hk hp, rfl, rfl, by simp⟩

/-- C73: what the text that counts is, does not depend on how a file is read as a document. -/
theorem counts_unique {f g : File α} (hp : PlainPieces f.pieces) (e : f.pieces = g.pieces) {k l : List α} (hf : f.Counts consts k)
    (hg : g.Counts consts l) : k = l := by
  obtain ⟨_, _, _, h1⟩ := keep_file consts hf hp [] 0 []
  obtain ⟨_, _, _, h2⟩ := keep_file consts hg (e ▸ hp) [] 0 []
  rw [e, h2] at h1
  injection h1 with h1
  injection h1 with _ _ _ h1
  exact h1.symm

end Verif.Front
