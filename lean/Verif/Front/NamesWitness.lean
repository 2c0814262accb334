import Verif.Front.NamesProps
/-!
# Names that clash
-/

namespace Verif.Front.Names

/-- A name of each kind. -/
theorem normalize_examples :
    normalize "foo".toList = "foo".toList ∧ normalize "class".toList = "class_".toList ∧
    normalize "_Foo".toList = "_r_Foo".toList ∧ normalize "__x".toList = "_r__x".toList ∧
    cxxID ["M".toList, "new".toList, "__begin".toList] = "M::new_::_r__begin".toList := by decide +kernel

/-- Two names of a user that become one. -/
theorem normalize_clash :
    normalize "while".toList = normalize "while_".toList ∧ normalize "_Foo".toList = normalize "_r_Foo".toList ∧
    cxxID ["M".toList, "int".toList] = cxxID ["M".toList, "int_".toList] := by decide +kernel

/-- `throw` and `try` are keywords that are not in the list. The scanners of HILTI and Spicy take them as keywords, too, so that no user
can write them as a name. -/
theorem normalize_missing :
    cxxKeywords.filter (fun k => !reserved.contains k) = ["throw".toList, "try".toList] := by decide +kernel

/-- Identifiers from other text: not injective, the low digit of a character is taken modulo 15. -/
theorem toIdentifier_clash :
    toIdentifier "a::b".toList = toIdentifier "a__b".toList ∧ toIdentifier "a b".toList = toIdentifier "a.b".toList ∧
    toIdentifier "!".toList = .ok "x23".toList ∧ toIdentifier "/".toList = .ok "x22".toList ∧
    toIdentifier "(".toList = .ok "x2a".toList ∧ toIdentifier "x2a".toList = .ok "x2a".toList := by decide +kernel

/-- The types `M__T` of module `M` and `T` of module `M__M`: one variable holds the type information of both. -/
theorem typeInfo_clash :
    typeInfoName "M::M__T".toList "name(M::M__T)".toList = typeInfoName "M__M::T".toList "name(M__M::T)".toList := by decide +kernel

/-- Names from a `Uniquer`: `x`, then `x_2`; a user's `x_2` is counted; a name removed is free again. -/
theorem uniquer_examples :
    (run [.get "x".toList, .get "x_2".toList, .get "x".toList]).1 = ["x_3".toList, "x_2".toList, "x".toList] ∧
    (run [.get "x".toList, .remove "x".toList, .get "x".toList, .get "x".toList]).1 = ["x".toList, "x_2".toList, "x".toList] := by
  decide +kernel

end Verif.Front.Names
