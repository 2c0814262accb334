import Verif.Front.OverloadLaws
/-!
# Function calls: cases that meet the hypotheses, and what goes wrong
-/

namespace Verif.Front.Overload

open Verif.Front.Coerce

/-- What x86-64 makes of casting 2^63. -/
abbrev x86 : Int := -2 ^ 63

def u64 : Ty := .int false 64
def u8 : Ty := .int false 8

def inp (t : Ty) : Param := ⟨.in_, t, none, ""⟩

/-- A variable of a type, with some value. -/
def v64 : Arg := ⟨.dyn u64 (.num 300), false⟩
def v8 : Arg := ⟨.dyn u8 (.num 7), false⟩
def lit (i : Int) : Arg := ⟨.ctor (.int false 64 i), true⟩
def text : Arg := ⟨.dyn .string (.str ['a']), false⟩
def null : Arg := ⟨.ctor .null, true⟩

/-- `f(x: uint8)`, `f(x: uint64)`, `f(x: string, y: uint64 = 5)`, `f(inout x: bool)`. -/
def f1 : Fn := ⟨1, .bool, [inp u8]⟩
def f2 : Fn := ⟨2, .bool, [inp u64]⟩
def f3 : Fn := ⟨3, .bool, [inp .string, ⟨.in_, u64, some (.ctor (.int false 64 5)), "5"⟩]⟩
def f4 : Fn := ⟨4, .bool, [⟨.inout, .bool, none, ""⟩]⟩
def fs : List Fn := [f1, f2, f3, f4]

theorem nodup_fs : fs.Nodup := by simp [fs, f1, f2, f3, f4]

example : validScope fs = true := by decide +kernel

example : resolve x86 fs [v64] = .call f2 [v64.e] := rfl
example : resolve x86 fs [v8] = .call f1 [v8.e] := rfl
example : resolve x86 fs [text] = .call f3 [text.e, .ctor (.int false 64 5)] := rfl
example : resolve x86 fs [text, v8] = .call f3 [text.e, .coerced v8.e u64] := rfl
example : resolve x86 fs [⟨.dyn .bool (.bool true), false⟩] = .call f4 [.dyn .bool (.bool true)] := rfl
example : resolve x86 fs [⟨.dyn .bool (.bool true), true⟩] = .nothing := rfl
example : resolve x86 fs [v8, v8] = .nothing := rfl

/-- The hypotheses of `parameters_get` are met. -/
example : (∀ p ∈ f3.params, Plain p.ty) ∧ ∀ a ∈ [text, v8], Wt a.e := by
  constructor
  · intro p hp
    simp [f3] at hp
    rcases hp with rfl | rfl <;> trivial
  · intro a ha
    simp at ha
    rcases ha with rfl | rfl
    · exact .dyn ⟨_, rfl⟩
    · exact .dyn ⟨7, rfl, by decide⟩

/-- The hypotheses of `new_overload_harmless` and of `settled_direct` are met. -/
example : Directly f2 [v64] ∧ ¬ Directly f1 [v64] := by
  constructor
  · exact (match_direct x86 f2 [v64]).1 ⟨_, rfl⟩
  · intro h
    obtain ⟨es, he⟩ := (match_direct x86 f1 [v64]).2 h
    have : matchArgs x86 false f1.params [v64] = none := rfl
    rw [this] at he
    cases he

/-- The hypotheses of `valid_overloads_told_apart_partial` are met. -/
example : validScope [f1, f2] = true ∧ ∀ f ∈ [f1, f2], Simple f := by
  refine ⟨by decide +kernel, ?_⟩
  intro f hf p hp
  simp at hf
  rcases hf with rfl | rfl
  · simp [f1] at hp
    subst hp
    exact ⟨rfl, rfl, (fun t h => by cases h), (fun t h => by cases h)⟩
  · simp [f2] at hp
    subst hp
    exact ⟨rfl, rfl, (fun t h => by cases h), (fun t h => by cases h)⟩

/-- Of `f(x: uint64)` and `f(x: optional<uint64>)`, both accepted by the validator, neither can be called with an `uint64`, although that is
the very type of the first: making an optional of a value counts as no conversion. -/
theorem optional_no_worse :
    validScope [f2, ⟨5, .bool, [inp (.optional u64)]⟩] = true ∧ resolve x86 [f2, ⟨5, .bool, [inp (.optional u64)]⟩] [v64] = .ambiguous :=
  ⟨by decide +kernel, rfl⟩

/-- `f(x: uint64)` and `f(inout x: uint64)` are accepted, but no variable can be passed to either. -/
theorem kinds_no_help :
    validScope [f2, ⟨5, .bool, [⟨.inout, u64, none, ""⟩]⟩] = true ∧
    resolve x86 [f2, ⟨5, .bool, [⟨.inout, u64, none, ""⟩]⟩] [v64] = .ambiguous :=
  ⟨by decide +kernel, rfl⟩

/-- `f(x: uint64, y: string = "a", z: uint64 = 1)` and `f(x: uint64, y: string)` are accepted, but calling them with what both take is
ambiguous: the second cannot be called at all. -/
theorem defaults_overlap :
    let f : Fn := ⟨5, .bool, [inp u64, ⟨.in_, .string, some (.ctor (.str ['a'])), "a"⟩, ⟨.in_, u64, some (.ctor (.int false 64 1)), "1"⟩]⟩
    let g : Fn := ⟨6, .bool, [inp u64, inp .string]⟩
    validScope [f, g] = true ∧ resolve x86 [f, g] [v64, text] = .ambiguous :=
  ⟨by decide +kernel, rfl⟩

/-- `Null` for an optional parameter with a default passes the default. -/
theorem null_is_default :
    let f : Fn := ⟨5, .bool, [⟨.in_, .optional u64, some (.ctor (.int false 64 5)), "5"⟩]⟩
    resolve x86 [f] [null] = .call f [.ctor (.int false 64 5)] :=
  rfl

/-- A new function silently takes over a call that needs a conversion. -/
theorem takes_over : resolve x86 [f2] [v8] = .call f2 [.coerced v8.e u64] ∧ resolve x86 [f1, f2] [v8] = .call f1 [v8.e] :=
  ⟨rfl, rfl⟩

/-- If the types of the function that fits exactly are known only after the first round, the call means another one. -/
theorem late_overload : settle x86 [f1, f2] [v8] [fun f => f.id != 1, fun _ => true] = .call f2 [.coerced v8.e u64] ∧
    resolve x86 [f1, f2] [v8] = .call f1 [v8.e] :=
  ⟨rfl, rfl⟩

/-- The literal 5 is an `uint64`; with a function for `uint8` and one for `int64` it is ambiguous, 300 is not. -/
theorem by_value :
    let f : Fn := ⟨5, .bool, [inp u8]⟩
    let g : Fn := ⟨6, .bool, [inp (.int true 64)]⟩
    resolve x86 [f, g] [lit 5] = .ambiguous ∧ ∃ es, resolve x86 [f, g] [lit 300] = .call g es :=
  ⟨rfl, _, rfl⟩

end Verif.Front.Overload
