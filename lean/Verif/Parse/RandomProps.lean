import Verif.Parse.Props
/-! # Parsing: random access, cases and limits (C13) -/

namespace Verif.Parse
open Verif.Stream

/-! ## Jumping forward -/

/-- ```
    type Exe = unit { : b"MZ"; off: uint8; sig: uint8 &parse-at=self.input() + self.off; rest: uint8; };
    ``` -/
def exeG : G := .random (fun b => .seq (.lit [77, 90]) (fun _ => .seq (.unpack 1 1 byteVal) (fun v => match v with
  | .int n => .seq (.parseAt (b + n.toNat) (.unpack 1 1 byteVal)) (fun w => .seq (.unpack 1 1 byteVal) (fun r => .ret (.list [w, r])))
  | _ => .fail .parseError)))

theorem sound_exeG : Sound exeG := by
  refine .random (fun b => .seq (.lit _) (fun _ => .seq (.unpack _ _) (fun v => ?_)))
  cases v with
  | int n =>
    exact .seq (.parseAt (Nat.le_add_right _ _) (.unpack _ (Nat.lt_succ_self 0)) (.unpack _ _)) (fun _ => .seq (.unpack _ _) (fun _ => .ret _))
  | _ => exact .fail _

/-- Behind two bytes that were consumed and trimmed, byte by byte: the parser waits for the position it jumps to, and goes on where
    it was. -/
example : parseUnit Γex 20 (.seq (.bytesSize 2) (fun _ => exeG)) true ⟨[], false, false⟩
      ([1, 2, 77, 90, 6, 10, 11, 12, 13].map (fun b => (⟨[[b]], false, false⟩ : Item))) = .value (.list [.int 13, .int 10]) 6 := by
  rw [C13_parse_is_meaning_partial (Γ := Γex) (unitsOk_plain (fun _ => sound_msgG)) (.seq (.bytesSize 2) (fun _ => sound_exeG)) 20 true _ _
    (by decide)]
  rfl

/-- A position that does not exist: waiting while the end is open, an error once it is known. -/
example : parseUnit Γex 20 exeG true ⟨[[77, 90, 9, 10]], false, false⟩ [⟨[[11]], false, false⟩] = .needsMore ∧
    parseUnit Γex 20 exeG true ⟨[[77, 90, 9, 10]], false, false⟩ [⟨[[11]], false, false⟩, ⟨[], true, false⟩] = .error .parseError := by
  rw [C13_parse_is_meaning_partial (Γ := Γex) (unitsOk_plain (fun _ => sound_msgG)) sound_exeG 20 true _ _ (by decide),
    C13_parse_is_meaning_partial (Γ := Γex) (unitsOk_plain (fun _ => sound_msgG)) sound_exeG 20 true _ _ (by decide)]
  constructor <;> rfl

/-! ## Jumping back, from a unit inside: compressed names -/

/-- ```
    type Name = unit(msg: iterator<stream>) {
        n: uint8;
        switch {
            : void if ( self.n == 0 );
            -> o: uint8; name: Name(msg) &parse-at=msg + self.o   if ( self.n >= 192 );
            -> l: bytes &size=self.n; name: Name(msg);            otherwise
        };
    };
    ```
    (written informally). Unit `i` is `Name(i)`. -/
def nameG (m : Nat) : G := .seq (.unpack 1 1 byteVal) (fun v => match v with
  | .int n =>
    if n = 0 then .ret (.list [])
    else if n ≥ 192 then .seq (.unpack 1 1 byteVal) (fun o => match o with
      | .int o => .parseAt (m + o.toNat) (.call m)
      | _ => .fail .parseError)
    else .seq (.bytesSize n.toNat) (fun l => .seq (.call m) (fun r => .ret (.list [l, r])))
  | _ => .fail .parseError)

/-- `type Message = unit { a: Name(self.input()); b: Name(self.input()); };` -/
def messageG : G := .random (fun m => .seq (.call m) (fun a => .seq (.call m) (fun b => .ret (.list [a, b]))))

/-- `Name(m)` jumps to positions from `m` on, and begins with a byte. -/
def nameUnits : Units := ⟨fun m => some m, fun _ => True⟩

theorem unitsOk_names : UnitsOk nameUnits nameG := by
  refine ⟨fun m => ?_, fun m _ => .seq (.unpack _ (Nat.lt_succ_self 0))⟩
  refine .seq (.unpack _ _) (fun v => ?_)
  have hcall : SoundIn nameUnits (some m) (.call m) := .call m (fun k hk => ⟨m, rfl, by injection hk with hk; omega⟩)
  cases v with
  | int n =>
    dsimp only
    split
    · exact .ret _
    · split
      · refine .seq (.unpack _ _) (fun o => ?_)
        cases o with
        | int o => exact .parseAt (Nat.le_add_right _ _) (.call trivial) hcall
        | _ => exact .fail _
      · exact .seq (.bytesSize _) (fun _ => .seq hcall (fun _ => .ret _))
  | _ => exact .fail _

theorem sound_messageG : SoundIn nameUnits none messageG :=
  .random (fun m => .seq (.call m (fun k hk => ⟨m, rfl, by injection hk with hk; omega⟩)) (fun _ =>
    .seq (.call m (fun k hk => ⟨m, rfl, by injection hk with hk; omega⟩)) (fun _ => .ret _)))

/-- C13. Messages of compressed names, wherever in the input they begin, however the input is cut up, and whatever the names point to. -/
theorem C13_names_are_meaning (pre : Nat) (f : Nat) (trim : Bool) (first : Item) (s : Sched)
    (hlen : (total (first :: s)).length < 2 ^ 64 - 1) :
    parseUnit nameG f (.seq (.bytesSize pre) (fun _ => messageG)) trim first s =
      meaning nameG f (.seq (.bytesSize pre) (fun _ => messageG)) (input (first :: s)) :=
  C13_parse_is_meaning_partial unitsOk_names (.seq (.bytesSize pre) (fun _ => sound_messageG)) f trim first s hlen

set_option maxHeartbeats 4000000 in
/-- `a.b` and `c.b`, where the second name points to `b` in the first; byte by byte. -/
example : parseUnit nameG 5 (.seq (.bytesSize 1) (fun _ => messageG)) true ⟨[], false, false⟩
      ([7, 1, 97, 1, 98, 0, 1, 99, 192, 2, 5].map (fun b => (⟨[[b]], false, false⟩ : Item))) =
    .value (.list [.list [.bytes [97], .list [.bytes [98], .list []]], .list [.bytes [99], .list [.bytes [98], .list []]]]) 10 := by
  rw [C13_names_are_meaning 1 5 true _ _ (by decide)]
  rfl

/-- Finding: a name that points to itself is followed for ever (whatever the bound, it is reached); the generated parser recurses
    until `StackSizeExceeded` is thrown (`fiber-check-stack.h` 22-34). -/
theorem C13_pointer_loop_runs_on (f : Nat) : parseUnit nameG f messageG true ⟨[[192, 0]], true, false⟩ [] = .runsOn := by
  rw [C13_parse_is_meaning_partial unitsOk_names sound_messageG f true _ _ (by decide)]
  have key : ∀ f, eval nameG f (nameG 0) ⟨[192, 0], true⟩ none 0 = .diverge := by
    intro f
    induction f with
    | zero => rfl
    | succ f ih =>
      have h1 : eval nameG (f + 1) (nameG 0) ⟨[192, 0], true⟩ none 0 =
          (do let r ← eval nameG f (nameG 0) ⟨[192, 0], true⟩ none 0; .ok (r.1, 2)) := rfl
      rw [h1, ih]; rfl
  unfold meaning
  cases f with
  | zero => rfl
  | succ f =>
    have h1 : eval nameG (f + 1) messageG (input [⟨[[192, 0]], true, false⟩]) none 0 =
        (do let r ← eval nameG f (nameG 0) ⟨[192, 0], true⟩ none 0
            let q ← eval nameG f (nameG 0) ⟨[192, 0], true⟩ none r.2
            .ok (.list [r.1, q.1], q.2)) := rfl
    rw [h1, key f]; rfl

/-! ## What fails outside of `SoundIn` -/

/-- Finding: `limit()` computes the room left in a limited view by unchecked subtraction (`stream.h` 1472-1473). Behind the limit this
    wraps around, and the inner `&size` takes the place of the outer one: a field of 2 bytes that jumps to position 5 reads data there
    if what is parsed has a `&size` of its own, and is an error otherwise. -/
theorem C13_parse_at_escapes_limit :
    let field (g : G) : G := .limit 2 (.random (fun b => .seq (.parseAt (b + 5) g) (fun v => .seq (.bytesSize 2) (fun _ => .ret v))))
    parseUnit Γex 9 (field (.limit 1 (.unpack 1 1 byteVal))) true ⟨[[1, 2, 3, 4, 5, 6, 7]], true, false⟩ [] = .value (.int 6) 2 ∧
    parseUnit Γex 9 (field (.unpack 1 1 byteVal)) true ⟨[[1, 2, 3, 4, 5, 6, 7]], true, false⟩ [] = .error .parseError := by
  constructor <;> rfl

/-- Jumping to a position that does not exist is no error as such: `bytes &eod` there is empty, and the offset is that of the position. -/
theorem C13_parse_at_behind_the_end :
    let unit (g : G) : G := .random (fun b => .parseAt (b + 5) g)
    parseUnit Γex 9 (unit .eod) true ⟨[[1, 2, 3, 4]], true, false⟩ [] = .value (.bytes []) 0 ∧
    parseUnit Γex 9 (unit (.seq .eod (fun _ => .offset))) true ⟨[[1, 2, 3, 4]], true, false⟩ [] = .value (.int 5) 0 := by
  constructor <;> rfl

/-- A random-access unit keeps the data from its own beginning only: jumping to before that is an error, or not, depending on whether
    the units around it trim. -/
theorem C13_parse_at_before_the_unit :
    let unit : G := .seq (.bytesSize 2) (fun _ => .random (fun b => .parseAt (b - 1) (.unpack 1 1 byteVal)))
    parseUnit Γex 9 unit true ⟨[[1, 2, 3]], true, false⟩ [] = .error .invalidIterator ∧
    parseUnit Γex 9 unit false ⟨[[1, 2, 3]], true, false⟩ [] = .value (.int 2) 2 := by
  constructor <;> rfl

end Verif.Parse
