import Verif.Base
/-!
# Model of the names in generated code

Source: `hilti/toolchain/src/compiler/cxx/elements.cc` (`elements.cc`), `hilti/toolchain/src/base/util.cc` (`util.cc`),
`hilti/toolchain/include/base/uniquer.h` (`uniquer.h`), `hilti/toolchain/include/base/id-base.h` (`id-base.h`),
`hilti/toolchain/src/compiler/codegen/types.cc` (`types.cc`).

Text is a list of characters. `isalnum`, `isupper` and `isdigit` are those of the C locale.
-/

namespace Verif.Front.Names

abbrev Text := List Char

/-- `isdigit` -/
def isDigit (c : Char) : Bool := 48 ≤ c.toNat && c.toNat ≤ 57
/-- `isupper` -/
def isUpper (c : Char) : Bool := 65 ≤ c.toNat && c.toNat ≤ 90
/-- `islower` -/
def isLower (c : Char) : Bool := 97 ≤ c.toNat && c.toNat ≤ 122
/-- `isalnum` -/
def isAlnum (c : Char) : Bool := isDigit c || isUpper c || isLower c
/-- `std::isalnum(c) || c == '_'` -/
def isIdent (c : Char) : Bool := isAlnum c || c == '_'

/-- `elements.cc` 27-127 `ReservedKeywords` -/
def reserved : List Text := [
  "NULL".toList, "DBL_MAX".toList, "DBL_MIN".toList, "alignas".toList, "alignof".toList, "and".toList, "and_eq".toList,
  "asm".toList, "atomic_cancel".toList, "atomic_commit".toList, "atomic_noexcept".toList, "auto".toList, "bitand".toList,
  "bitor".toList, "bool".toList, "break".toList, "case".toList, "catch".toList, "char".toList, "char16_t".toList,
  "char32_t".toList, "char8_t".toList, "class".toList, "co_await".toList, "co_return".toList, "co_yield".toList,
  "compl".toList, "concept".toList, "const".toList, "const_cast".toList, "consteval".toList, "constexpr".toList,
  "constinit".toList, "continue".toList, "decltype".toList, "default".toList, "delete".toList, "do".toList, "double".toList,
  "dynamic_cast".toList, "else".toList, "enum".toList, "explicit".toList, "export".toList, "extern".toList, "false".toList,
  "float".toList, "for".toList, "fortran".toList, "friend".toList, "goto".toList, "if".toList, "inline".toList, "int".toList,
  "long".toList, "mutable".toList, "namespace".toList, "new".toList, "noexcept".toList, "not".toList, "not_eq".toList,
  "nullptr".toList, "operator".toList, "or".toList, "or_eq".toList, "private".toList, "protected".toList, "public".toList,
  "reflexpr".toList, "register".toList, "reinterpret_cast".toList, "requires".toList, "restrict".toList, "return".toList,
  "short".toList, "signed".toList, "sizeof".toList, "static".toList, "static_assert".toList, "static_cast".toList,
  "struct".toList, "switch".toList, "synchronized".toList, "template".toList, "this".toList, "thread_local".toList,
  "true".toList, "typedef".toList, "typeid".toList, "typename".toList, "union".toList, "unsigned".toList, "using".toList,
  "virtual".toList, "void".toList, "volatile".toList, "wchar_t".toList, "while".toList, "xor".toList, "xor_eq".toList]

/-- `elements.cc` 141: `id.size() >= 2 && id[0] == '_' && (id[1] == '_' || isupper(id[1]))` -/
def cxxReserved : Text → Bool
  | a :: b :: _ => a == '_' && (b == '_' || isUpper b)
  | _ => false

/-- `elements.cc` 151-178: the text for one character. -/
def normalizeChar (c : Char) : Text :=
  if c = '%' then "0x25".toList
  else if c = '@' then "0x40".toList
  else if c = '~' then "_0x7e_".toList
  else [c]

/-- `elements.cc` 129-182 `normalizeID`, with the caller's part (`id-base.h` 249-255): without a result, the component stays as it
is. -/
def normalize (id : Text) : Text :=
  if id = [] then id
  else if reserved.contains id then id ++ ['_']
  else if id = "__linker__".toList then id
  else if cxxReserved id then "_r_".toList ++ id.drop 1
  else if id.all isIdent then id
  else id.flatMap normalizeChar

/-- `id-base.h` 229-247 `_init`, on the components of an ID: `A::B` becomes the components, normalized, with `::` in between. -/
def cxxID : List Text → Text
  | [] => []
  | [c] => normalize c
  | c :: cs => normalize c ++ ':' :: ':' :: cxxID cs

/-- `util.cc` 358: the characters of an index below 16. -/
def hexDigit (n : Nat) : Char := "0123456789abcdef".toList.getD n '?'

/-- `util.cc` 348-367: the text for one character. With a character above 127, a negative `char`, the index `c >> 4` is negative:
undefined behaviour. -/
def identChar (c : Char) : Res Text :=
  if c ∈ [':', '<', '>', ',', '.', ' ', '-', '\'', '"', '%'] then .ok ['_']
  else if isIdent c then .ok [c]
  else if c.toNat < 128 then .ok ['x', hexDigit (c.toNat / 16), hexDigit (c.toNat % 15)]
  else .ub

/-- `util.cc` 348-367: the loop. -/
def identChars : Text → Res Text
  | [] => .ok []
  | c :: cs => (identChar c).bind fun x => (identChars cs).bind fun y => .ok (x ++ y)

/-- `util.cc` 331-371 `toIdentifier` -/
def toIdentifier (s : Text) : Res Text :=
  match s with
  | [] => .ok []
  | c :: cs =>
    if !isDigit c && (c :: cs).all isIdent then .ok (c :: cs)
    else (identChars (c :: cs)).bind fun x => .ok (if isDigit c then '_' :: x else x)

/-- `%d` for a number that is not negative. -/
def decimal (n : Nat) : Text :=
  if n < 10 then [Char.ofNat (48 + n)] else decimal (n / 10) ++ [Char.ofNat (48 + n % 10)]
decreasing_by omega

/-- `uniquer.h` 29-38: the names tried in turn. The number is an `int` there; its overflow, after 2^31 names, is not modelled. -/
def candidate (name : Text) : Nat → Text
  | 0 => name
  | k + 1 => name ++ '_' :: decimal (k + 2)

/-- `uniquer.h` 31-38: the loop. One of `used.length + 1` different names is free, so that it ends within as many rounds
(`uniquer_fresh`); the last line is not reached. -/
def search (used : List Text) (name : Text) : Nat → Nat → Text
  | 0, k => candidate name k
  | n + 1, k => if used.contains (candidate name k) then search used name n (k + 1) else candidate name k

/-- `uniquer.h` 25-39 `get`, of a name normalized already: the name, and the names in use after. -/
def uniquerGet (used : List Text) (name : Text) : Text × List Text :=
  let x := search used name used.length 0
  (x, x :: used)

/-- `uniquer.h` 42 `remove` -/
def uniquerRemove (used : List Text) (name : Text) : List Text := used.filter (· != name)

/-- Calls of a `Uniquer`. -/
inductive Call where
  | get (name : Text)
  | remove (name : Text)

/-- A sequence of calls, the latest first: the names returned, the latest first, and those in use after. -/
def run : List Call → List Text × List Text
  | [] => ([], [])
  | .get n :: cs => let (out, used) := run cs; let (x, used') := uniquerGet used n; (x :: out, used')
  | .remove n :: cs => let (out, used) := run cs; (out, uniquerRemove used n)

/-- `types.cc` 1231-1239: the name of the variable with the information on a type, from the type's display and unification. -/
def typeInfoName (display unification : Text) : Res Text :=
  (toIdentifier display).bind fun d => (toIdentifier unification).bind fun u => .ok ("_t_ti_".toList ++ d ++ '_' :: u)

/-! ## Specification -/

/-- The keywords of C++20, with the alternative spellings of operators. -/
def cxxKeywords : List Text := [
  "alignas".toList, "alignof".toList, "asm".toList, "auto".toList, "bool".toList, "break".toList, "case".toList,
  "catch".toList, "char".toList, "char8_t".toList, "char16_t".toList, "char32_t".toList, "class".toList, "concept".toList,
  "const".toList, "consteval".toList, "constexpr".toList, "constinit".toList, "const_cast".toList, "continue".toList,
  "co_await".toList, "co_return".toList, "co_yield".toList, "decltype".toList, "default".toList, "delete".toList, "do".toList,
  "double".toList, "dynamic_cast".toList, "else".toList, "enum".toList, "explicit".toList, "export".toList, "extern".toList,
  "false".toList, "float".toList, "for".toList, "friend".toList, "goto".toList, "if".toList, "inline".toList, "int".toList,
  "long".toList, "mutable".toList, "namespace".toList, "new".toList, "noexcept".toList, "nullptr".toList, "operator".toList,
  "private".toList, "protected".toList, "public".toList, "register".toList, "reinterpret_cast".toList, "requires".toList,
  "return".toList, "short".toList, "signed".toList, "sizeof".toList, "static".toList, "static_assert".toList,
  "static_cast".toList, "struct".toList, "switch".toList, "template".toList, "this".toList, "thread_local".toList,
  "throw".toList, "true".toList, "try".toList, "typedef".toList, "typeid".toList, "typename".toList, "union".toList,
  "unsigned".toList, "using".toList, "virtual".toList, "void".toList, "volatile".toList, "wchar_t".toList, "while".toList,
  "and".toList, "and_eq".toList, "bitand".toList, "bitor".toList, "compl".toList, "not".toList, "not_eq".toList, "or".toList,
  "or_eq".toList, "xor".toList, "xor_eq".toList]

/-- What the scanners of HILTI and Spicy accept as an identifier: letters, digits and underscores, not starting with a digit
(`scanner.ll`); without the hyphen that HILTI allows. -/
def UserId (id : Text) : Prop := ∃ c cs, id = c :: cs ∧ isDigit c = false ∧ (c :: cs).all isIdent = true

/-- Names that C++ sets aside for the implementation: an underscore at the beginning, then another one or a capital letter. (It does
so with two underscores anywhere, too; compilers do not mind.) -/
def Implementations (id : Text) : Prop := ∃ c r, id = '_' :: c :: r ∧ (c = '_' ∨ isUpper c = true)

/-- What C++ accepts as the name of an entity of a program: an identifier that is neither a keyword nor one of those that are set aside
for the implementation. -/
def CxxName (id : Text) : Prop := UserId id ∧ id ∉ cxxKeywords ∧ ¬ Implementations id

end Verif.Front.Names
