import Verif.Driver.Registry
/-!
# Specification of the parser registry

`GoesBy ps als i n` says that the parser at position `i` of `ps` can be asked for by the name `n`, if the host has registered
the aliases `als` (pairs of the name of a parser and the alias).
-/

namespace Verif.Driver
open Verif.Bytes

/-- `i` is the position of the first public parser with the name. -/
def First (ps : List Parser) (name : Str) (i : Nat) : Prop :=
  (∃ p, ps[i]? = some p ∧ p.isPublic = true ∧ p.name = name) ∧
    ∀ j p, j < i → ps[j]? = some p → ¬ (p.isPublic = true ∧ p.name = name)

/-- The names of a parser: its own, the ports with and without direction, the MIME types without wildcards, and its aliases
    (with directions added unless the alias already has one). -/
inductive GoesBy (ps : List Parser) (als : List (Str × Str)) : Nat → Str → Prop
  | name {i p} : ps[i]? = some p → GoesBy ps als i p.name
  | port {i p t} : ps[i]? = some p → (t, Dir.both) ∈ p.ports → GoesBy ps als i t
  | portOrig {i p t d} : ps[i]? = some p → (t, d) ∈ p.ports → d = .orig ∨ d = .both → GoesBy ps als i (t ++ pctOrig)
  | portResp {i p t d} : ps[i]? = some p → (t, d) ∈ p.ports → d = .resp ∨ d = .both → GoesBy ps als i (t ++ pctResp)
  | mime {i p m} : ps[i]? = some p → m ∈ p.mimes → m.main ≠ star → m.sub ≠ star → GoesBy ps als i (m.main ++ slash ++ m.sub)
  | alias {i q a} : (q, a) ∈ als → q ≠ [] → a ≠ [] → First ps q i → GoesBy ps als i a
  | aliasOrig {i q a} : (q, a) ∈ als → q ≠ [] → a ≠ [] → (37 : Byte) ∉ a → First ps q i → GoesBy ps als i (a ++ pctOrig)
  | aliasResp {i q a} : (q, a) ∈ als → q ≠ [] → a ≠ [] → (37 : Byte) ∉ a → First ps q i → GoesBy ps als i (a ++ pctResp)

/-- An initialized MIME type. -/
def Mime.Valid (m : Mime) : Prop := m.main ≠ [] ∧ m.sub ≠ []

/-- All MIME types are initialized. -/
def MimesValid (ps : List Parser) : Prop := ∀ p ∈ ps, ∀ m ∈ p.mimes, m.Valid

/-- What a host does: the parsers register, the runtime is initialized, aliases are added (errors are reported by `alias`
    and leave the registry as it is). -/
def setup (ps : List Parser) (als : List (Str × Str)) : Res Registry := do
  let r ← (ps.foldl Registry.register {}).init
  pure (als.foldl (fun r a => (r.alias a.1 a.2).1) r)

/-- Each name of the parser, as often as it is declared. -/
def Parser.names (p : Parser) : List Str :=
  [p.name]
    ++ p.ports.flatMap (fun x => match x.2 with
        | .orig => [x.1 ++ pctOrig]
        | .resp => [x.1 ++ pctResp]
        | .both => [x.1, x.1 ++ pctOrig, x.1 ++ pctResp]
        | .undef => [])
    ++ (p.mimes.filter (fun m => m.main ≠ star ∧ m.sub ≠ star)).map (fun m => m.main ++ slash ++ m.sub)

/-- The names an alias adds. -/
def aliasNames (a : Str) : List Str := if (37 : Byte) ∈ a then [a] else [a, a ++ pctOrig, a ++ pctResp]

/-- All names together with the parser they stand for, in the order of registration. -/
def entries (ps : List Parser) (als : List (Str × Str)) : List (Str × Nat) :=
  ps.zipIdx.flatMap (fun x => x.1.names.map (·, x.2))
    ++ als.flatMap (fun x => if x.1 = [] ∨ x.2 = [] then [] else match findPublic x.1 0 ps with
        | some i => (aliasNames x.2).map (·, i)
        | none => [])

/-- A pattern (with `*` for wildcards) covers a MIME type. -/
def Mime.Covers (pattern m : Mime) : Prop := pattern.main = star ∨ (pattern.main = m.main ∧ (pattern.sub = star ∨ pattern.sub = m.sub))

instance (pattern m : Mime) : Decidable (pattern.Covers m) := by unfold Mime.Covers; infer_instance

end Verif.Driver
