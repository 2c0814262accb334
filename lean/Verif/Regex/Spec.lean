import Verif.Regex.Model
/-!
# Specification of matching

What an automaton accepts, in terms of whole texts. Matching is anchored; the longest prefix that is accepted counts.
-/

namespace Verif.Regex
open Verif.Stream

/-- The state after reading a text from state `s`; the first byte is at the beginning of the data if `first`. -/
def runFrom (A : Auto) : Nat → Bool → List Byte → Nat
  | s, _, [] => s
  | s, first, b :: r => runFrom A (A.step s b first false) false r

/-- The state after reading a text from the beginning. -/
def run (A : Auto) (w : List Byte) : Nat := runFrom A A.init true w

/-- The number of the pattern that the whole text matches; 0 if none. -/
def accepts (A : Auto) (w : List Byte) : Nat := A.acc (run A w)

/-- No prefix matches. -/
def NoMatch (A : Auto) (w : List Byte) : Prop := ∀ n ≤ w.length, accepts A (w.take n) = 0

/-- The longest prefix that matches has `n` bytes. -/
structure Longest (A : Auto) (w : List Byte) (n : Nat) : Prop where
  le : n ≤ w.length
  hit : accepts A (w.take n) ≠ 0
  max : ∀ m, n < m → m ≤ w.length → accepts A (w.take m) = 0

/-- The length of the longest match among the prefixes of up to `k` bytes. -/
def longestUpTo (A : Auto) (w : List Byte) : Nat → Option Nat
  | 0 => if accepts A [] ≠ 0 then some 0 else none
  | k + 1 => if accepts A (w.take (k + 1)) ≠ 0 then some (k + 1) else longestUpTo A w k

/-- The length of the longest match. -/
def longest (A : Auto) (w : List Byte) : Option Nat := longestUpTo A w w.length

/-- The right answer for a text: pattern number and length of the longest match, or 0 if there is no match. -/
def Verdict (A : Auto) (w : List Byte) (rc : Int) (stop : Int) : Prop :=
  (rc = 0 ∧ NoMatch A w) ∨ (∃ n : Nat, Longest A w n ∧ rc = accepts A (w.take n) ∧ stop = n)

/-- No assertions are used: `^` only at the beginning, and no `$` (nor `\b`). -/
structure Plain (A : Auto) : Prop where
  start : ∀ b l, A.step A.init b true l = A.step A.init b true false
  inner : ∀ w, w ≠ [] → ∀ b f l, A.step (run A w) b f l = A.step (run A w) b false false

/-- The expression never needs to go back: as long as more data could be part of a match, the data read is a match itself
    or there was none before. (`[a-z]+`, `abc`; but not `abc(123)?`.) -/
def NoBack (A : Auto) : Prop := ∀ w, A.more (run A w) = true → accepts A w = 0 → NoMatch A w

end Verif.Regex
