import Verif.Regex.Model
import Verif.Net.Port
/-!
# Regular expressions: the cache is not observable (C60)

Expressions are compiled once and kept in a global cache under a text made of the patterns. A user must not notice: an
expression has the patterns and flags it was made with, whatever was constructed before, and two expressions are equal just
if they were made from the same patterns and flags.

The text does not escape slashes, so this holds only for patterns without the characters `|/` in sequence, or if only
expressions with a single pattern are used. With sets, a pattern containing `/|/` is taken for two patterns.
-/

namespace Verif.Regex
open Verif.Stream Verif.Net

/-! ## The key determines the patterns -/

theorem decimal_inj {a b : Nat} (h : decimal a = decimal b) : a = b := by
  obtain ⟨ds, -, h2, h3, h4⟩ := decimal_spec a
  obtain ⟨es, -, k2, k3, k4⟩ := decimal_spec b
  have hm : ds.map (fun d => UInt8.ofNat (48 + d)) = es.map (fun d => UInt8.ofNat (48 + d)) := by rw [← h2, ← k2, h]
  have : ds = es := by
    clear h h2 k2 h4 k4
    induction ds generalizing es with
    | nil => cases es with
      | nil => rfl
      | cons e es => simp at hm
    | cons d ds ih => cases es with
      | nil => simp at hm
      | cons e es =>
        simp only [List.map_cons, List.cons.injEq] at hm
        have hd := h3 d (by simp)
        have he := k3 e (by simp)
        have h0 : d = e := by
          have := congrArg UInt8.toNat hm.1
          simp only [UInt8.toNat_ofNat'] at this
          omega
        rw [h0, ih (fun x hx => h3 x (by simp [hx])) _ (fun x hx => k3 x (by simp [hx])) hm.2]
  rw [h4, k4, this]

theorem decimal_no_slash (n : Nat) : (47 : Byte) ∉ decimal n := by
  obtain ⟨ds, -, h2, h3, -⟩ := decimal_spec n
  rw [h2]
  intro h
  rw [List.mem_map] at h
  obtain ⟨d, hd, he⟩ := h
  have := h3 d hd
  have := congrArg UInt8.toNat he
  simp only [UInt8.toNat_ofNat'] at this
  have h47 : (47 : Byte).toNat = 47 := rfl
  omega

/-- What follows the closing slash of a pattern. -/
def suffix (p : Pattern) : List Byte :=
  (if p.ci then [105] else []) ++ (if p.id ≠ 0 then [36, 40] ++ decimal p.id ++ [41] else [])

theorem print_eq (p : Pattern) : p.print = 47 :: p.value ++ 47 :: suffix p := rfl

theorem suffix_no_slash (p : Pattern) : (47 : Byte) ∉ suffix p := by
  unfold suffix
  have := decimal_no_slash p.id
  intro h
  rw [List.mem_append] at h
  rcases h with h | h
  · split at h
    · simp at h
    · simp at h
  · split at h
    · simp at h; exact this h
    · simp at h

theorem suffix_inj {p q : Pattern} (h : suffix p = suffix q) : p.ci = q.ci ∧ p.id = q.id := by
  unfold suffix at h
  have key : ∀ {a b : Nat}, ((if a ≠ 0 then [36, 40] ++ decimal a ++ [41] else []) : List Byte) =
      (if b ≠ 0 then [36, 40] ++ decimal b ++ [41] else []) → a = b := by
    intro a b h
    split at h
    · split at h
      · simp only [List.cons_append, List.nil_append, List.cons.injEq, true_and] at h
        exact decimal_inj (List.append_inj_left' h rfl)
      · simp at h
    · split at h
      · simp at h
      · omega
  cases hp : p.ci <;> cases hq : q.ci <;> rw [hp, hq] at h
  · exact ⟨rfl, key h⟩
  · exfalso
    simp only [if_true, Bool.false_eq_true, if_false, List.nil_append, List.cons_append] at h
    split at h <;> simp at h
  · exfalso
    simp only [if_true, Bool.false_eq_true, if_false, List.nil_append, List.cons_append] at h
    by_cases e : q.id = 0
    · simp [e] at h
    · simp [e] at h
  · simp only [if_true, List.cons_append, List.nil_append, List.cons.injEq, true_and] at h
    exact ⟨rfl, key h⟩

/-- The last slash splits a text in one way only. -/
theorem last_slash {a b s t : List Byte} (hs : (47 : Byte) ∉ s) (ht : (47 : Byte) ∉ t) (h : a ++ 47 :: s = b ++ 47 :: t) :
    a = b ∧ s = t := by
  rcases List.append_eq_append_iff.mp h with ⟨c, h1, h2⟩ | ⟨c, h1, h2⟩
  · cases c with
    | nil => simp at h1 h2; exact ⟨h1.symm, h2⟩
    | cons x c =>
      simp only [List.cons_append, List.cons.injEq] at h2
      exact absurd (by rw [h2.2]; simp) hs
  · cases c with
    | nil => simp at h1 h2; exact ⟨h1, h2.symm⟩
    | cons x c =>
      simp only [List.cons_append, List.cons.injEq] at h2
      exact absurd (by rw [h2.2]; simp) ht

/-- The text does not contain `|/`. -/
def NoBarSlash (v : List Byte) : Prop := ¬ [124, 47] <:+: v

theorem bar_slash_split {a b v w : List Byte} (hv : NoBarSlash v) (hw : NoBarSlash w)
    (h : a ++ 124 :: 47 :: v = b ++ 124 :: 47 :: w) : a = b ∧ v = w := by
  rcases List.append_eq_append_iff.mp h with ⟨c, h1, h2⟩ | ⟨c, h1, h2⟩
  · match c with
    | [] => simp at h1 h2; exact ⟨h1.symm, h2⟩
    | [x] => simp at h2
    | x :: y :: c =>
      simp only [List.cons_append, List.cons.injEq] at h2
      exact absurd ⟨c, w, by rw [h2.2.2]; simp⟩ hv
  · match c with
    | [] => simp at h1 h2; exact ⟨h1, h2.symm⟩
    | [x] => simp at h2
    | x :: y :: c =>
      simp only [List.cons_append, List.cons.injEq] at h2
      exact absurd ⟨c, v, by rw [h2.2.2]; simp⟩ hw

theorem join_snoc (l : List (List Byte)) (a : List Byte) (h : l ≠ []) : join (l ++ [a]) = join l ++ 124 :: a := by
  induction l with
  | nil => exact absurd rfl h
  | cons x l ih =>
    cases l with
    | nil => rfl
    | cons y l =>
      have := ih (by simp)
      simp only [List.cons_append, join] at this ⊢
      rw [this]; simp

theorem snoc_cases (l : List Pattern) : l = [] ∨ ∃ l' a, l = l' ++ [a] := by
  rcases List.eq_nil_or_concat l with h | ⟨l', a, h⟩
  · exact Or.inl h
  · exact Or.inr ⟨l', a, by simpa using h⟩

theorem pattern_eq {p q : Pattern} (h1 : p.value = q.value) (h2 : suffix p = suffix q) : p = q := by
  obtain ⟨h3, h4⟩ := suffix_inj h2
  cases p; cases q
  simp only at h1 h3 h4
  rw [h1, h3, h4]

theorem print_inj {p q : Pattern} (h : p.print = q.print) : p = q := by
  rw [print_eq, print_eq] at h
  simp only [List.cons_append, List.cons.injEq, true_and] at h
  obtain ⟨h1, h2⟩ := last_slash (suffix_no_slash p) (suffix_no_slash q) h
  exact pattern_eq h1 h2

theorem join_inj (n : Nat) : ∀ (ps qs : List Pattern), ps.length ≤ n → ps ≠ [] → qs ≠ [] → (∀ p ∈ ps, NoBarSlash p.value) →
    (∀ q ∈ qs, NoBarSlash q.value) → join (ps.map Pattern.print) = join (qs.map Pattern.print) → ps = qs := by
  induction n with
  | zero => intro ps qs h hp; exact absurd (List.length_eq_zero_iff.mp (by omega)) hp
  | succ n ih =>
    intro ps qs hl hp hq cp cq h
    obtain ⟨ps', p, rfl⟩ := (snoc_cases ps).resolve_left hp
    obtain ⟨qs', q, rfl⟩ := (snoc_cases qs).resolve_left hq
    have vp := cp p (by simp)
    have vq := cq q (by simp)
    simp only [List.map_append, List.map_cons, List.map_nil] at h
    by_cases e1 : ps' = []
    · by_cases e2 : qs' = []
      · subst e1; subst e2
        simp only [List.map_nil, List.nil_append, join] at h ⊢
        rw [print_inj h]
      · subst e1
        rw [join_snoc (qs'.map Pattern.print) q.print (by simpa using e2)] at h
        simp only [List.map_nil, List.nil_append, join] at h
        exfalso
        have h' : (47 :: p.value) ++ 47 :: suffix p =
            (join (qs'.map Pattern.print) ++ 124 :: 47 :: q.value) ++ 47 :: suffix q := by
          rw [print_eq, print_eq] at h; simpa using h
        obtain ⟨h1, -⟩ := last_slash (suffix_no_slash p) (suffix_no_slash q) h'
        generalize join (qs'.map Pattern.print) = y at h1
        cases y with
        | nil => simp at h1
        | cons x y =>
          simp only [List.cons_append, List.cons.injEq] at h1
          exact vp ⟨y, q.value, by rw [h1.2]; simp⟩
    · by_cases e2 : qs' = []
      · subst e2
        rw [join_snoc (ps'.map Pattern.print) p.print (by simpa using e1)] at h
        simp only [List.map_nil, List.nil_append, join] at h
        exfalso
        have h' : (join (ps'.map Pattern.print) ++ 124 :: 47 :: p.value) ++ 47 :: suffix p =
            (47 :: q.value) ++ 47 :: suffix q := by
          rw [print_eq, print_eq] at h; simpa using h
        obtain ⟨h1, -⟩ := last_slash (suffix_no_slash p) (suffix_no_slash q) h'
        generalize join (ps'.map Pattern.print) = y at h1
        cases y with
        | nil => simp at h1
        | cons x y =>
          simp only [List.cons_append, List.cons.injEq] at h1
          exact vq ⟨y, p.value, by rw [← h1.2]; simp⟩
      · rw [join_snoc (ps'.map Pattern.print) p.print (by simpa using e1),
          join_snoc (qs'.map Pattern.print) q.print (by simpa using e2)] at h
        have h' : (join (ps'.map Pattern.print) ++ 124 :: 47 :: p.value) ++ 47 :: suffix p =
            (join (qs'.map Pattern.print) ++ 124 :: 47 :: q.value) ++ 47 :: suffix q := by
          rw [print_eq, print_eq] at h; simpa using h
        obtain ⟨h1, h2⟩ := last_slash (suffix_no_slash p) (suffix_no_slash q) h'
        obtain ⟨h3, h4⟩ := bar_slash_split vp vq h1
        rw [pattern_eq h4 h2, ih ps' qs' (by simp at hl; omega) e1 e2 (fun x hx => cp x (by simp [hx]))
          (fun x hx => cq x (by simp [hx])) h3]

theorem cacheKey_inj {f g : Flags} (h : f.cacheKey = g.cacheKey) : f = g := by
  cases f with | mk a b => cases g with | mk c d =>
  cases a <;> cases b <;> cases c <;> cases d <;> first | rfl | (exact absurd h (by decide))

theorem key_split {ps qs : List Pattern} {f g : Flags} (hp : ps ≠ []) (hq : qs ≠ []) (h : key ps f = key qs g) :
    join (ps.map Pattern.print) = join (qs.map Pattern.print) ∧ f = g := by
  unfold key at h
  rw [if_neg (by simpa using hp), if_neg (by simpa using hq)] at h
  have := List.append_inj' h (by simp [Flags.cacheKey])
  refine ⟨this.1, cacheKey_inj ?_⟩
  simpa using this.2

theorem key_nonempty {ps : List Pattern} {f : Flags} (hp : ps ≠ []) : key ps f ≠ [] := by
  unfold key
  rw [if_neg (by simpa using hp)]
  simp

/-! ## Histories of constructions -/

/-- What one asks for when constructing an expression. An expression without patterns has no use for flags. -/
abbrev Request := List Pattern × Flags

/-- Two requests ask for the same. -/
def SameRequest (a b : Request) : Prop := a = b ∨ (a.1 = [] ∧ b.1 = [])

/-- Requests can be told apart by their text. -/
def Told (R : List Request) : Prop := ∀ a ∈ R, ∀ b ∈ R, key a.1 a.2 = key b.1 b.2 → SameRequest a b

theorem key_of_same {a b : Request} (h : SameRequest a b) : key a.1 a.2 = key b.1 b.2 := by
  rcases h with rfl | ⟨h1, h2⟩
  · rfl
  · unfold key; rw [h1, h2]; rfl

theorem told_clean {R : List Request} (h : ∀ r ∈ R, ∀ p ∈ r.1, NoBarSlash p.value) : Told R := by
  intro a ha b hb hk
  by_cases ea : a.1 = []
  · by_cases eb : b.1 = []
    · exact Or.inr ⟨ea, eb⟩
    · exact absurd (by rw [← hk]; unfold key; rw [ea]; rfl) (key_nonempty (f := b.2) eb)
  · by_cases eb : b.1 = []
    · exact absurd (by rw [hk]; unfold key; rw [eb]; rfl) (key_nonempty (f := a.2) ea)
    · obtain ⟨h1, h2⟩ := key_split ea eb hk
      exact Or.inl (Prod.ext (join_inj _ _ _ (Nat.le_refl _) ea eb (h a ha) (h b hb) h1) h2)

theorem told_single {R : List Request} (h : ∀ r ∈ R, r.1.length ≤ 1) : Told R := by
  intro a ha b hb hk
  obtain ⟨a1, a2⟩ := a
  obtain ⟨b1, b2⟩ := b
  have la := h _ ha
  have lb := h _ hb
  dsimp only at la lb hk
  match a1, b1, la, lb with
  | [], [], _, _ => exact Or.inr ⟨rfl, rfl⟩
  | [], q :: _, _, _ => exact absurd hk.symm (key_nonempty (by simp))
  | p :: _, [], _, _ => exact absurd hk (key_nonempty (by simp))
  | [p], [q], _, _ =>
    obtain ⟨h1, h2⟩ := key_split (by simp) (by simp) hk
    simp only [List.map_cons, List.map_nil, join] at h1
    rw [print_inj h1, h2]
    exact Or.inl rfl

theorem compileAll_ok (ok : Pattern → Bool) (ps acc : List Pattern) :
    compileAll ok ps acc = if ps.all ok then .ok (acc ++ ps) else .throw .patternError := by
  induction ps generalizing acc with
  | nil => simp [compileAll]
  | cons p ps ih =>
    unfold compileAll
    cases hp : ok p with
    | true => simp only [if_true]; rw [ih]; simp [hp]
    | false => simp [hp]

theorem compile_eq (ok : Pattern → Bool) (ps : List Pattern) (f : Flags) :
    compile ok ps f = if ps.all ok then .ok ⟨ps, f⟩ else .throw .patternError := by
  unfold compile
  rw [compileAll_ok]
  split <;> simp [Res.bind]

/-- What is asked of an expression made by request `r`: its patterns, and its flags if it has patterns. -/
def Fits (r : Request) (c : Compiled) : Prop := c.patterns = r.1 ∧ (r.1 ≠ [] → c.flags = r.2)

/-- Invariant of the cache: entry `h` was made by some request, under whose key it is found. -/
structure CacheOk (ok : Pattern → Bool) (R : List Request) (w : World) : Prop where
  entry : ∀ k h, w.cache.lookup k = some h → ∃ r ∈ R, k = key r.1 r.2 ∧ r.1.all ok = true ∧ ∃ c, w.heap[h]? = some c ∧ c = ⟨r.1, r.2⟩
  inj : ∀ k k' h, w.cache.lookup k = some h → w.cache.lookup k' = some h → k = k'

theorem construct_spec (ok : Pattern → Bool) {R : List Request} {w : World} (ht : Told R) (hw : CacheOk ok R w) {r : Request}
    (hr : r ∈ R) : CacheOk ok R (construct ok w r.1 r.2).2 ∧ (∃ t, (construct ok w r.1 r.2).2.heap = w.heap ++ t) ∧
      (∀ k h, w.cache.lookup k = some h → (construct ok w r.1 r.2).2.cache.lookup k = some h) ∧
      ((r.1.all ok = true ∧ ∃ h, (construct ok w r.1 r.2).1 = .ok h ∧
          (construct ok w r.1 r.2).2.cache.lookup (key r.1 r.2) = some h ∧
          ∃ c, (construct ok w r.1 r.2).2.get h = .ok c ∧ Fits r c) ∨
        (r.1.all ok = false ∧ (construct ok w r.1 r.2).1 = .throw .patternError)) := by
  unfold construct
  cases hl : w.cache.lookup (key r.1 r.2) with
  | some h =>
    dsimp only
    refine ⟨hw, ⟨[], by simp⟩, fun _ _ h => h, Or.inl ?_⟩
    obtain ⟨q, hq, hk, hok, c, hc, rfl⟩ := hw.entry _ _ hl
    have hs := ht r hr q hq hk
    have e1 : q.1 = r.1 := by
      rcases hs with rfl | ⟨h1, h2⟩
      · rfl
      · rw [h1, h2]
    refine ⟨by rw [← e1]; exact hok, h, rfl, hl, ⟨q.1, q.2⟩, by unfold World.get; rw [hc], e1, fun hne => ?_⟩
    rcases hs with rfl | ⟨h1, h2⟩
    · rfl
    · exact absurd h1 hne
  | none =>
    dsimp only
    rw [compile_eq]
    cases ho : r.1.all ok with
    | false =>
      simp only [Bool.false_eq_true, if_false]
      exact ⟨hw, ⟨[], by simp⟩, fun _ _ h => h, Or.inr ⟨trivial, trivial⟩⟩
    | true =>
      simp only [if_true]
      refine ⟨⟨?_, ?_⟩, ⟨_, rfl⟩, ?_, Or.inl ⟨trivial, w.heap.length, rfl, by simp, ⟨r.1, r.2⟩, ?_, rfl, fun _ => rfl⟩⟩
      · intro k h hk
        rw [List.lookup_cons] at hk
        split at hk
        · rename_i e
          simp only [beq_iff_eq] at e
          injection hk with hk
          subst hk
          exact ⟨r, hr, e, ho, _, by simp, rfl⟩
        · obtain ⟨q, h1, h2, h3, c, h4, h5⟩ := hw.entry k h hk
          refine ⟨q, h1, h2, h3, c, ?_, h5⟩
          have := (List.getElem?_eq_some_iff.mp h4).1
          dsimp only
          rw [List.getElem?_append_left this]; exact h4
      · intro k k' h hk hk'
        rw [List.lookup_cons] at hk hk'
        have len : ∀ k h, w.cache.lookup k = some h → h < w.heap.length := by
          intro k h hk
          obtain ⟨q, -, -, -, c, h4, -⟩ := hw.entry k h hk
          exact (List.getElem?_eq_some_iff.mp h4).1
        split at hk <;> split at hk'
        · rename_i _ e _ e'
          simp only [beq_iff_eq] at e e'
          rw [e, e']
        · injection hk with hk
          have := len _ _ hk'
          omega
        · injection hk' with hk'
          have := len _ _ hk
          omega
        · exact hw.inj k k' h hk hk'
      · intro k h hk
        rw [List.lookup_cons]
        split
        · rename_i e
          simp only [beq_iff_eq] at e
          rw [e, hl] at hk
          cases hk
        · exact hk
      · unfold World.get
        simp

theorem get_mono {w w' : World} {t : List Compiled} (h : w'.heap = w.heap ++ t) {i : Nat} {c : Compiled}
    (hc : w.get i = .ok c) : w'.get i = .ok c := by
  unfold World.get at *
  rw [h]
  cases hi : w.heap[i]? with
  | none => rw [hi] at hc; cases hc
  | some d =>
    rw [List.getElem?_append_left (List.getElem?_eq_some_iff.mp hi).1, hi]
    rw [hi] at hc
    exact hc

theorem constructAll_spec (ok : Pattern → Bool) {R : List Request} (ht : Told R) (rs : List Request) :
    ∀ {w : World}, CacheOk ok R w → (∀ r ∈ rs, r ∈ R) →
      CacheOk ok R (constructAll ok w rs).2 ∧ (∃ t, (constructAll ok w rs).2.heap = w.heap ++ t) ∧
      (∀ k h, w.cache.lookup k = some h → (constructAll ok w rs).2.cache.lookup k = some h) ∧
      (constructAll ok w rs).1.length = rs.length ∧
      ∀ (i : Nat) (r : Request), rs[i]? = some r →
        (r.1.all ok = true ∧ ∃ h, (constructAll ok w rs).1[i]? = some (Res.ok h) ∧
          (constructAll ok w rs).2.cache.lookup (key r.1 r.2) = some h ∧
          ∃ c, (constructAll ok w rs).2.get h = .ok c ∧ Fits r c) ∨
        (r.1.all ok = false ∧ (constructAll ok w rs).1[i]? = some (Res.throw .patternError)) := by
  induction rs with
  | nil => intro w hw _; exact ⟨hw, ⟨[], by simp [constructAll]⟩, fun _ _ h => h, rfl, by intro i r h; simp at h⟩
  | cons r rs ih =>
    intro w hw hr
    obtain ⟨a1, ⟨t1, a2⟩, a3, a4⟩ := construct_spec ok ht hw (hr r (by simp))
    obtain ⟨b1, ⟨t2, b2⟩, b3, b4, b5⟩ := ih a1 (fun x hx => hr x (by simp [hx]))
    simp only [constructAll]
    refine ⟨b1, ⟨t1 ++ t2, by rw [b2, a2, List.append_assoc]⟩, fun k h hk => b3 k h (a3 k h hk), by simp [b4], ?_⟩
    intro i q hq
    cases i with
    | zero =>
      simp only [List.getElem?_cons_zero, Option.some.injEq] at hq
      subst hq
      rcases a4 with ⟨h1, h, h2, h3, c, h4, h5⟩ | ⟨h1, h2⟩
      · exact Or.inl ⟨h1, h, by simp [h2], b3 _ _ h3, c, get_mono b2 h4, h5⟩
      · exact Or.inr ⟨h1, by simp [h2]⟩
    | succ i =>
      simp only [List.getElem?_cons_succ] at hq ⊢
      exact b5 i q hq

/-- C60. Whatever expressions have been constructed before and after: constructing one fails just if one of its patterns is
    not valid, and else gives an expression with the patterns and flags asked for; and two of them are equal just if they
    were asked for with the same patterns and flags. For histories whose requests are told apart by their text. -/
theorem C60_cache_unobservable (ok : Pattern → Bool) (rs : List Request) (ht : Told rs) :
    let out := constructAll ok {} rs
    (∀ (i : Nat) (r : Request), rs[i]? = some r →
      (if r.1.all ok then ∃ h c, out.1[i]? = some (.ok h) ∧ out.2.get h = .ok c ∧ Fits r c
       else out.1[i]? = some (.throw .patternError))) ∧
    ∀ (i j : Nat) (r r' : Request) (h h' : Nat), rs[i]? = some r → rs[j]? = some r' → out.1[i]? = some (.ok h) →
      out.1[j]? = some (.ok h') → (h = h' ↔ SameRequest r r') := by
  intro out
  have hw : CacheOk ok rs ({} : World) := ⟨fun k h hk => by simp at hk, fun k k' h hk => by simp at hk⟩
  obtain ⟨b1, -, -, -, b5⟩ := constructAll_spec ok ht rs hw (fun _ h => h)
  constructor
  · intro i r hr
    rcases b5 i r hr with ⟨h1, h, h2, h3, c, h4, h5⟩ | ⟨h1, h2⟩
    · rw [if_pos h1]; exact ⟨h, c, h2, h4, h5⟩
    · rw [if_neg (by rw [h1]; decide)]; exact h2
  · intro i j r r' h h' hr hr' hi hj
    rcases b5 i r hr with ⟨-, g, h2, h3, -⟩ | ⟨-, h2⟩
    · rcases b5 j r' hr' with ⟨-, g', k2, k3, -⟩ | ⟨-, k2⟩
      · rw [h2] at hi; rw [k2] at hj
        injection hi with hi; injection hi with hi
        injection hj with hj; injection hj with hj
        subst hi; subst hj
        constructor
        · intro e
          subst e
          exact ht r (List.mem_of_getElem? hr) r' (List.mem_of_getElem? hr') (b1.inj _ _ _ h3 k3)
        · intro e
          rw [key_of_same e, k3] at h3
          injection h3 with h3
          exact h3.symm
      · rw [k2] at hj; cases hj
    · rw [h2] at hi; cases hi

/-- C60, for patterns that do not contain the characters `|/` in sequence. -/
theorem C60_cache_unobservable_partial (ok : Pattern → Bool) (rs : List Request)
    (hc : ∀ r ∈ rs, ∀ p ∈ r.1, ¬ [124, 47] <:+: p.value) :
    let out := constructAll ok {} rs
    (∀ (i : Nat) (r : Request), rs[i]? = some r →
      (if r.1.all ok then ∃ h c, out.1[i]? = some (.ok h) ∧ out.2.get h = .ok c ∧ Fits r c
       else out.1[i]? = some (.throw .patternError))) ∧
    ∀ (i j : Nat) (r r' : Request) (h h' : Nat), rs[i]? = some r → rs[j]? = some r' → out.1[i]? = some (.ok h) →
      out.1[j]? = some (.ok h') → (h = h' ↔ SameRequest r r') :=
  C60_cache_unobservable ok rs (told_clean hc)

/-- C60, for any patterns if there are no sets. -/
theorem C60_cache_unobservable_single_partial (ok : Pattern → Bool) (rs : List Request) (hc : ∀ r ∈ rs, r.1.length ≤ 1) :
    let out := constructAll ok {} rs
    (∀ (i : Nat) (r : Request), rs[i]? = some r →
      (if r.1.all ok then ∃ h c, out.1[i]? = some (.ok h) ∧ out.2.get h = .ok c ∧ Fits r c
       else out.1[i]? = some (.throw .patternError))) ∧
    ∀ (i j : Nat) (r r' : Request) (h h' : Nat), rs[i]? = some r → rs[j]? = some r' → out.1[i]? = some (.ok h) →
      out.1[j]? = some (.ok h') → (h = h' ↔ SameRequest r r') :=
  C60_cache_unobservable ok rs (told_single hc)

/-- The patterns may contain slashes and bars: `a/b`, `c|d`, once as a set, once alone with a match ID. -/
example : let rs : List Request := [([⟨[97, 47, 98], false, 0⟩, ⟨[99, 124, 100], true, 0⟩], {}), ([⟨[97, 47, 98], false, 7⟩], {})]
    (∀ r ∈ rs, ∀ p ∈ r.1, ¬ [124, 47] <:+: p.value) ∧ (constructAll (fun _ => true) {} rs).1 = [.ok 0, .ok 1] := by
  refine ⟨?_, by decide +kernel⟩
  intro r hr p hp
  simp only [List.mem_cons, List.not_mem_nil, or_false] at hr
  rcases hr with rfl | rfl
  · simp only [List.mem_cons, List.not_mem_nil, or_false] at hp
    rcases hp with rfl | rfl <;> (dsimp only; decide)
  · simp only [List.mem_cons, List.not_mem_nil, or_false] at hp
    subst hp; dsimp only; decide

/-- C60 fails for a pattern containing `/|/`: after the set of `a` and `b` has been constructed, constructing the single
    pattern `a/|/b` gives that set, which is also said to be equal. -/
theorem C60_fails_for_slash_bar_slash :
    let out := constructAll (fun _ => true) {} [([⟨[97], false, 0⟩, ⟨[98], false, 0⟩], {}), ([⟨[97, 47, 124, 47, 98], false, 0⟩], {})]
    out.1 = [.ok 0, .ok 0] ∧ out.2.get 0 = .ok ⟨[⟨[97], false, 0⟩, ⟨[98], false, 0⟩], {}⟩ := by
  constructor <;> decide

/-- The ID reported for a match of a pattern is the pattern's ID for IDs below 2^15 only. -/
theorem C60_match_ids (id : Nat) (h : id < 2 ^ 15) : acceptId id = id := by
  unfold acceptId
  rw [BitVec.toInt_eq_toNat_cond]
  simp only [BitVec.toNat_ofNat]
  rw [Nat.mod_eq_of_lt (by omega)]
  split <;> omega

/-- An ID of 65535 is reported as -1, which says that there is no match yet. -/
theorem C60_match_ids_fail : acceptId 65535 = -1 ∧ acceptId 65536 = 0 := by decide

end Verif.Regex
