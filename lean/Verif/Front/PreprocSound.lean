import Verif.Front.PreprocCond
/-!
# What scanning keeps of a source file
-/

namespace Verif.Front

open Verif.Bytes (Str)

variable {α : Type} (consts : Consts)

/-- The conditions in a list of pieces are plain. -/
def PlainPieces (ps : List (Piece α)) : Prop := ∀ c, Piece.dir dIf c ∈ ps → PlainCond c

theorem scan_append (ps qs : List (Piece α)) (s : Scan α) :
    scan consts (ps ++ qs) s = match scan consts ps s with
      | .throw x => .throw x
      | .ub => .ub
      | .ok s => scan consts qs s := by
  induction ps generalizing s with
  | nil => rfl
  | cons p ps ih =>
    simp only [List.cons_append, scan]
    cases scanPiece consts s p with
    | throw x => rfl
    | ub => rfl
    | ok s => exact ih s

theorem scan_text (t : α) (ps : List (Piece α)) (st : List Int) (ig : Bool) (e : Nat) (k : List α) :
    scan consts (.text t :: ps) ⟨st, ig, e, k⟩ = scan consts ps ⟨st, ig, e, if ig then k else k ++ [t]⟩ := by
  simp only [scan, scanPiece]
  cases ig <;> rfl

theorem scan_if_off (c : Str) (ps : List (Piece α)) {st : List Int} (h : included st = false) (ig : Bool) (e : Nat) (k : List α) :
    scan consts (.dir dIf c :: ps) ⟨st, ig, e, k⟩ = scan consts ps ⟨-1 :: st, true, e, k⟩ := by
  have : processLine consts st dIf c = .ok (some (-1 :: st)) := by
    unfold processLine; rw [if_pos rfl, h]; rfl
  simp only [scan, scanPiece, this]
  rfl

theorem scan_if_on {c : Str} {b : Bool} (hb : parseIf consts c = .ok (some b)) (ps : List (Piece α)) (st : List Int) (ig : Bool)
    (e : Nat) (k : List α) :
    scan consts (.dir dIf c :: ps) ⟨1 :: st, ig, e, k⟩ = scan consts ps ⟨(if b then 1 else 0) :: 1 :: st, !b, e, k⟩ := by
  have : processLine consts (1 :: st) dIf c = .ok (some ((if b then 1 else 0) :: 1 :: st)) := by
    unfold processLine
    rw [if_pos rfl, hb]
    rfl
  simp only [scan, scanPiece, this]
  cases b <;> rfl

theorem scan_else (x : Int) (y : Int) (st : List Int) (ps : List (Piece α)) (ig : Bool) (e : Nat) (k : List α) :
    scan consts (.dir dElse [] :: ps) ⟨x :: y :: st, ig, e, k⟩ =
      scan consts ps ⟨(if x ≥ 0 then 1 - x else x) :: y :: st, !(decide ((if x ≥ 0 then 1 - x else x) = 1)), e, k⟩ := by
  have : processLine consts (x :: y :: st) dElse [] = .ok (some ((if x ≥ 0 then 1 - x else x) :: y :: st)) := by
    unfold processLine
    rw [if_neg (by decide), if_pos rfl, if_neg (by simp), if_neg (by simp)]
    dsimp only
    split <;> rfl
  simp only [scan, scanPiece, this]
  rfl

theorem scan_endif (x : Int) (y : Int) (st : List Int) (ps : List (Piece α)) (ig : Bool) (e : Nat) (k : List α) :
    scan consts (.dir dEndif [] :: ps) ⟨x :: y :: st, ig, e, k⟩ =
      scan consts ps ⟨y :: st, !included (y :: st), e, k⟩ := by
  have : processLine consts (x :: y :: st) dEndif [] = .ok (some (y :: st)) := by
    unfold processLine
    rw [if_neg (by decide), if_neg (by decide), if_pos rfl, if_neg (by simp), if_neg (by simp)]
  simp only [scan, scanPiece, this]

mutual
/-- Nothing of a document counts outside of the text that does, whatever its conditions. -/
theorem skip_doc (d : Doc α) (x : Int) (st : List Int) (hx : x ≠ 1) (e : Nat) (k : List α) (rest : List (Piece α)) :
    scan consts (d.pieces ++ rest) ⟨x :: st, true, e, k⟩ = scan consts rest ⟨x :: st, true, e, k⟩ := by
  cases d with
  | nil => rfl
  | text t d =>
    rw [Doc.pieces, List.cons_append, scan_text]
    exact skip_doc d x st hx e k rest
  | cond c body elses d =>
    have hi : included (x :: st) = false := by simp [included, hx]
    rw [Doc.pieces, List.cons_append, scan_if_off consts c _ hi, List.append_assoc, List.append_assoc, List.cons_append]
    rw [skip_doc body (-1) (x :: st) (by decide) e k, skip_elses elses x st e k, scan_endif, hi]
    exact skip_doc d x st hx e k rest
theorem skip_elses (el : Elses α) (y : Int) (st : List Int) (e : Nat) (k : List α) (rest : List (Piece α)) :
    scan consts (el.pieces ++ rest) ⟨-1 :: y :: st, true, e, k⟩ = scan consts rest ⟨-1 :: y :: st, true, e, k⟩ := by
  cases el with
  | nil => rfl
  | cons body more =>
    rw [Elses.pieces, List.cons_append, scan_else, List.append_assoc]
    have e1 : (if (-1 : Int) ≥ 0 then 1 - (-1) else -1) = (-1 : Int) := by decide
    rw [e1]
    show scan consts (body.pieces ++ (more.pieces ++ rest)) ⟨-1 :: y :: st, true, e, k⟩ = _
    rw [skip_doc body (-1) (y :: st) (by decide) e k]
    exact skip_elses more y st e k rest
end

theorem PlainPieces.sub {ps qs : List (Piece α)} (h : PlainPieces ps) (hs : ∀ p ∈ qs, p ∈ ps) : PlainPieces qs :=
  fun c hc => h c (hs _ hc)

/-- The top of the stack for a branch that counts, and one that does not. -/
def top (b : Bool) : Int := if b then 1 else 0

theorem scan_else_top (b : Bool) (y : Int) (st : List Int) (ps : List (Piece α)) (ig : Bool) (e : Nat) (k : List α) :
    scan consts (.dir dElse [] :: ps) ⟨top b :: y :: st, ig, e, k⟩ = scan consts ps ⟨top (!b) :: y :: st, b, e, k⟩ := by
  rw [scan_else]
  cases b <;> rfl

mutual
theorem keep_doc {d : Doc α} {k : List α} (h : d.Counts consts k) (hp : PlainPieces d.pieces) (st : List Int) (e : Nat) (acc : List α)
    (rest : List (Piece α)) :
    scan consts (d.pieces ++ rest) ⟨1 :: st, false, e, acc⟩ = scan consts rest ⟨1 :: st, false, e, acc ++ k⟩ := by
  cases h with
  | nil => rw [List.append_nil]; rfl
  | @text t d k h =>
    have ih := keep_doc h (hp.sub (by intro p hp; simp [Doc.pieces, hp])) st e (acc ++ [t]) rest
    rw [Doc.pieces, List.cons_append, scan_text]
    rw [List.append_assoc] at ih
    exact ih
  | @yes c body elses d k l m hc hb he hd =>
    rw [Doc.pieces] at hp
    have hpi := (parseIf_iff consts (hp c (by simp)) true).2 hc
    rw [Doc.pieces, List.cons_append, scan_if_on consts hpi, List.append_assoc, List.append_assoc, List.cons_append]
    have ih1 := keep_doc hb (hp.sub (by intro p h; simp [h])) (1 :: st) e acc (elses.pieces ++ .dir dEndif [] :: (d.pieces ++ rest))
    have e1 : (if true = true then (1 : Int) else 0) = 1 := rfl
    rw [e1]
    refine ih1.trans ?_
    obtain ⟨cur, ih2⟩ := keep_elses (cur := true) he (hp.sub (by intro p h; simp [h])) 1 st e (acc ++ k)
      (.dir dEndif [] :: (d.pieces ++ rest))
    refine ih2.trans ?_
    rw [scan_endif]
    have ih3 := keep_doc hd (hp.sub (by intro p h; simp [h])) st e (acc ++ k ++ l) rest
    simp only [List.append_assoc] at ih3 ⊢
    exact ih3
  | @no c body elses d l m hc he hd =>
    rw [Doc.pieces] at hp
    have hpi := (parseIf_iff consts (hp c (by simp)) false).2 hc
    rw [Doc.pieces, List.cons_append, scan_if_on consts hpi, List.append_assoc, List.append_assoc, List.cons_append]
    refine (skip_doc consts body 0 (1 :: st) (by decide) e acc _).trans ?_
    obtain ⟨cur, ih2⟩ := keep_elses (cur := false) he (hp.sub (by intro p h; simp [h])) 1 st e acc
      (.dir dEndif [] :: (d.pieces ++ rest))
    refine ih2.trans ?_
    rw [scan_endif]
    have ih3 := keep_doc hd (hp.sub (by intro p h; simp [h])) st e (acc ++ l) rest
    rw [List.append_assoc] at ih3
    exact ih3
theorem keep_elses {el : Elses α} {cur : Bool} {l : List α} (h : el.Counts consts (!cur) l) (hp : PlainPieces el.pieces) (y : Int)
    (st : List Int) (e : Nat) (acc : List α) (rest : List (Piece α)) :
    ∃ cur', scan consts (el.pieces ++ rest) ⟨top cur :: y :: st, !cur, e, acc⟩ =
      scan consts rest ⟨top cur' :: y :: st, !cur', e, acc ++ l⟩ := by
  cases el with
  | nil =>
    have hl : l = [] := by generalize (!cur) = on at h; cases h; rfl
    exact ⟨cur, by rw [hl, List.append_nil]; rfl⟩
  | cons body more =>
    rw [Elses.pieces] at hp
    rw [Elses.pieces, List.cons_append, scan_else_top, List.append_assoc]
    cases cur with
    | false =>
      cases h with
      | @yes _ _ k l hb hm =>
        obtain ⟨cur', ih⟩ := keep_elses (cur := true) hm (hp.sub (by intro p h; simp [h])) y st e (acc ++ k) rest
        refine ⟨cur', ?_⟩
        rw [List.append_assoc] at ih
        rw [← ih]
        exact keep_doc hb (hp.sub (by intro p h; simp [h])) (y :: st) e acc (more.pieces ++ rest)
    | true =>
      cases h with
      | no hm =>
        obtain ⟨cur', ih⟩ := keep_elses (cur := false) hm (hp.sub (by intro p h; simp [h])) y st e acc rest
        refine ⟨cur', ?_⟩
        rw [← ih]
        exact skip_doc consts body 0 (y :: st) (by decide) e acc _
end

end Verif.Front
