import Verif.Front.PreprocProps
/-!
# Conditional compilation: cases, and what fails (C73)

Texts are lists of ASCII codes.
-/

namespace Verif.Front

open Verif.Bytes (Str isWs Words)
open Verif.Ints

/-- The identifier `V` is defined as 10401. -/
def env : Consts := fun id => if id = [86] then some 10401 else none

/-- `V < 10401` -/
def cOld : Str := [86, 32, 60, 32, 49, 48, 52, 48, 49]
/-- `! W` -/
def cNot : Str := [33, 32, 87]

theorem digits_10401 : Denotes 10 [49, 48, 52, 48, 49] 10401 := by
  refine ⟨[49, 48, 52, 48, 49], [1, 0, 4, 0, 1], by simp, ?_, .inl ⟨rfl, by decide⟩⟩
  repeat' constructor
  all_goals decide

theorem words_of {s : Str} {ws : List Str} (h : Bytes.splitWs s = ws) : Words isWs s ws := h ▸ Bytes.C29_words s

theorem plain_of {s : Str} {ws : List Str} (h : Bytes.splitWs s = ws)
    (hp : ∀ w ∈ ws, w.length ≤ 9 ∧ w ≠ [43] ∧ w ≠ [45]) : PlainCond s := by
  intro ws' hw w hmem
  have := (hw.unique (Bytes.C29_words s)).trans h
  subst this
  obtain ⟨h1, h2, h3⟩ := hp w hmem
  refine ⟨by omega, h2, h3, ?_⟩
  intro hd
  have h4 := (atoi32_iff (by omega) h2 h3 (-2 ^ 31)).2 ⟨2 ^ 31, hd, by decide, by decide, by decide⟩
  obtain ⟨ds, hb, hds, hv⟩ := denotes_iff.1 hd
  have hlen : ∀ (cs : List UInt8) (ds : List Nat) (n : Nat), Digits 10 cs ds → foldDigits 10 n ds < (n + 1) * 10 ^ cs.length := by
    intro cs ds n h
    induction h generalizing n with
    | nil => simp [foldDigits]
    | @cons c d cs ds hd _ ih =>
      have := ih (n * 10 + d)
      have hd' : d ≤ 9 := by have := hd.1; omega
      refine Nat.lt_of_lt_of_le this ?_
      rw [List.length_cons, Nat.pow_succ, Nat.mul_comm (10 ^ cs.length) 10, ← Nat.mul_assoc]
      exact Nat.mul_le_mul_right _ (by omega)
  have h5 := hlen _ _ 0 hds
  have h6 := textBody_le w
  have h7 : 10 ^ (textBody w).length ≤ 10 ^ 9 := Nat.pow_le_pow_right (by omega) (by omega)
  have e : foldDigits 10 0 ds = digitsValue 10 ds := rfl
  rw [e] at h5
  split at hv <;> omega

theorem plain_cOld : PlainCond cOld := plain_of (ws := [[86], [60], [49, 48, 52, 48, 49]]) (by decide) (by decide)
theorem plain_cNot : PlainCond cNot := plain_of (ws := [[33], [87]]) (by decide) (by decide)

/-- `V < 10401` is false, `! W` is true. -/
theorem old_false : Holds env cOld false :=
  ⟨false, [86], .lt, 10401, ⟨[[60], [49, 48, 52, 48, 49]], words_of (by decide), fun _ => by decide,
    .inr ⟨_, rfl, digits_10401, by decide, by decide⟩⟩, by simp [Cmp.holds, env]⟩
theorem not_true : Holds env cNot true :=
  ⟨true, [87], .ne, 0, ⟨[], words_of (by decide), (fun h => by cases h), .inl ⟨rfl, rfl, rfl⟩⟩, by simp [Cmp.holds, env]⟩

/-- ```
    1
    @if V < 10401
      2
      @if anything
        3
      @endif
    @else
      4
      @if ! W
        5
      @else
        6
      @endif
    @endif
    7
    ``` -/
def sample : Doc Nat :=
  .text 1 (.cond cOld (.text 2 (.cond [97, 32, 98] (.text 3 .nil) .nil .nil))
    (.cons (.text 4 (.cond cNot (.text 5 .nil) (.cons (.text 6 .nil) .nil) .nil)) .nil) (.text 7 .nil))

theorem sample_counts : sample.Counts env [1, 4, 5, 7] :=
  .text (.no (l := [4, 5]) (m := [7]) old_false
    (.yes (k := [4, 5]) (l := []) (.text (.yes (k := [5]) (l := []) (m := []) not_true (.text .nil) (.no .nil) .nil)) .nil) (.text .nil))

theorem sample_plain : PlainPieces sample.pieces := by
  have hx : PlainCond [97, 32, 98] := plain_of (ws := [[97], [98]]) (by decide) (by decide)
  intro c hc
  simp only [sample, Doc.pieces, Elses.pieces, List.append_nil, List.nil_append, List.cons_append, List.mem_cons, List.not_mem_nil,
    Piece.dir.injEq, reduceCtorEq, false_or, or_false] at hc
  rcases hc with h | h | h | h | h | h | h | h
  · rw [h.2]; exact plain_cOld
  · rw [h.2]; exact hx
  all_goals first
    | (rw [h.2]; exact plain_cNot)
    | exact absurd h.1 (by decide)

/-- The theorems apply to this file. -/
example : scan env sample.pieces Scan.init = .ok ⟨[1], false, 0, [1, 4, 5, 7]⟩ := keeps_what_counts env sample_counts sample_plain
example : ∃ f : File Nat, f.pieces = sample.pieces ∧ f.Counts env [1, 4, 5, 7] :=
  (accepted_iff_partial env sample_plain _).1 ⟨_, keeps_what_counts env sample_counts sample_plain, rfl, rfl⟩

/-! ## What fails -/

/-- What is observed of scanning: errors, and the text kept. -/
def seen (r : Res (Scan Nat)) : Option (Nat × List Nat) := match r with
  | .ok s => some (s.errors, s.kept)
  | _ => none

/-- C73 fails: a file that ends within a conditional is accepted; here everything after the `@if` is gone. -/
theorem C73_fails_unclosed : seen (scan env [.text 1, .dir dIf cOld, .text 2] Scan.init) = some (0, [1]) := by decide +kernel

/-- C73 fails: a second `@else` is accepted, and turns back to what the first one ended. -/
theorem C73_fails_second_else :
    seen (scan env [.dir dIf cNot, .text 1, .dir dElse [], .text 2, .dir dElse [], .text 3, .dir dEndif []] Scan.init) =
      some (0, [1, 3]) := by decide +kernel

/-- C73 fails: `@if !V` and `@if !W`, without a space, are both accepted and both false. -/
theorem C73_fails_negation :
    seen (scan env [.dir dIf [33, 86], .text 1, .dir dEndif [], .dir dIf [33, 87], .text 2, .dir dEndif []] Scan.init) = some (0, []) := by
  decide +kernel

/-- C73 fails: 2147483648 is read as -2147483648, so `V > 2147483648` holds; a sign without digits is zero. -/
theorem C73_fails_number :
    parseIf env [86, 32, 62, 32, 50, 49, 52, 55, 52, 56, 51, 54, 52, 56] = .ok (some true) ∧
      parseIf env [87, 32, 61, 61, 32, 45] = .ok (some true) := by decide +kernel

/-- C73 fails: a larger number is not reported as an error of the directive but ends in an exception. -/
theorem C73_fails_large_number : parseIf env [86, 32, 62, 32, 50, 49, 52, 55, 52, 56, 51, 54, 52, 57] = .throw .outOfRange := by decide +kernel

/-- A comment after `@endif` is an error, and the conditional is not closed: the text after it is lost as well. -/
theorem comment_after_endif :
    seen (scan env [.dir dIf cOld, .text 1, .dir dEndif [35, 120], .text 2] Scan.init) = some (1, []) := by decide +kernel

end Verif.Front
