import Verif.Grammar.Tables
import Verif.Grammar.Machine
/-
Soundness and completeness of the generated look-ahead parsers with respect to
the grammar.
-/
namespace Verif.Grammar

/-! ### Leftmost derivations of terminal strings -/

/-- Leftmost derivation of a terminal string, with its number of steps. -/
inductive LDer (rhss : Nat → List (List Sym)) : Nat → List Sym → List Nat → Prop
  | nil : LDer rhss 0 [] []
  | eps {k : Nat} {b : List Sym} {w : List Nat} : LDer rhss k b w → LDer rhss (k + 1) (Sym.eps :: b) w
  | term {k : Nat} {b : List Sym} {w : List Nat} (i : Nat) : LDer rhss k b w →
      LDer rhss (k + 1) (Sym.t i :: b) (i :: w)
  | nt {k p : Nat} {r b : List Sym} {w : List Nat} : r ∈ rhss p → LDer rhss k (r ++ b) w →
      LDer rhss (k + 1) (Sym.n p :: b) w

theorem LDer.append {rhss : Nat → List (List Sym)} {k : Nat} {a : List Sym} {w : List Nat}
    (h : LDer rhss k a w) : ∀ {k' : Nat} {b : List Sym} {v : List Nat}, LDer rhss k' b v →
    ∃ m, LDer rhss m (a ++ b) (w ++ v) := by
  induction h with
  | nil => exact fun h => ⟨_, h⟩
  | eps _ ih =>
    intro k' b v h
    obtain ⟨m, hm⟩ := ih h
    exact ⟨m + 1, .eps hm⟩
  | term i _ ih =>
    intro k' b v h
    obtain ⟨m, hm⟩ := ih h
    exact ⟨m + 1, .term i hm⟩
  | nt hr _ ih =>
    intro k' b v h
    obtain ⟨m, hm⟩ := ih h
    exact ⟨m + 1, .nt hr (by simpa [List.append_assoc] using hm)⟩

theorem LDer.split {rhss : Nat → List (List Sym)} {k : Nat} {c : List Sym} {w : List Nat}
    (h : LDer rhss k c w) : ∀ (a b : List Sym), c = a ++ b →
    ∃ k1 k2 w1 w2, LDer rhss k1 a w1 ∧ LDer rhss k2 b w2 ∧ w = w1 ++ w2 := by
  induction h with
  | nil =>
    intro a b h
    obtain ⟨rfl, rfl⟩ := List.append_eq_nil_iff.mp h.symm
    exact ⟨0, 0, [], [], .nil, .nil, rfl⟩
  | @eps k b' w' hd ih =>
    intro a b h
    cases a with
    | nil =>
      simp at h
      subst h
      exact ⟨0, _, [], w', .nil, .eps hd, rfl⟩
    | cons x a =>
      simp at h
      obtain ⟨rfl, rfl⟩ := h
      obtain ⟨k1, k2, w1, w2, h1, h2, rfl⟩ := ih a b rfl
      exact ⟨k1 + 1, k2, w1, w2, .eps h1, h2, rfl⟩
  | @term k b' w' i hd ih =>
    intro a b h
    cases a with
    | nil =>
      simp at h
      subst h
      exact ⟨0, _, [], i :: w', .nil, .term i hd, rfl⟩
    | cons x a =>
      simp at h
      obtain ⟨rfl, rfl⟩ := h
      obtain ⟨k1, k2, w1, w2, h1, h2, rfl⟩ := ih a b rfl
      exact ⟨k1 + 1, k2, i :: w1, w2, .term i h1, h2, rfl⟩
  | @nt k p r b' w' hr hd ih =>
    intro a b h
    cases a with
    | nil =>
      simp at h
      subst h
      exact ⟨0, _, [], w', .nil, .nt hr hd, rfl⟩
    | cons x a =>
      simp at h
      obtain ⟨rfl, rfl⟩ := h
      obtain ⟨k1, k2, w1, w2, h1, h2, rfl⟩ := ih (r ++ a) b (by simp)
      exact ⟨k1 + 1, k2, w1, w2, .nt hr h1, h2, rfl⟩

theorem lder_terms {rhss : Nat → List (List Sym)} : ∀ (w : List Nat),
    ∃ k, LDer rhss k (w.map Sym.t) w
  | [] => ⟨0, .nil⟩
  | i :: w => by
    obtain ⟨k, h⟩ := lder_terms w
    exact ⟨k + 1, .term i h⟩

theorem LDer.of_step {rhss : Nat → List (List Sym)} {a b : List Sym} (s : Step rhss a b)
    {k : Nat} {w : List Nat} (h : LDer rhss k b w) : ∃ k', LDer rhss k' a w := by
  cases s with
  | eps x y =>
    obtain ⟨k1, k2, w1, w2, h1, h2, rfl⟩ := h.split x y rfl
    exact h1.append (.eps h2)
  | nt x y p r hr =>
    obtain ⟨k1, k2, w1, w2, h1, h2, rfl⟩ := h.split x (r ++ y) rfl
    exact h1.append (.nt hr h2)

theorem LDer.of_derives {rhss : Nat → List (List Sym)} {a b : List Sym} (s : Derives rhss a b) :
    ∀ {k : Nat} {w : List Nat}, LDer rhss k b w → ∃ k', LDer rhss k' a w := by
  induction s with
  | refl _ => exact fun h => ⟨_, h⟩
  | head s _ ih =>
    intro k w h
    obtain ⟨k', h'⟩ := ih h
    exact h'.of_step s

theorem LDer.derives {rhss : Nat → List (List Sym)} {k : Nat} {a : List Sym} {w : List Nat}
    (h : LDer rhss k a w) : Derives rhss a (w.map Sym.t) := by
  induction h with
  | nil => exact .refl _
  | eps _ ih => exact .head (Step.eps [] _) ih
  | term i _ ih => exact Derives.append_left [Sym.t i] ih
  | nt hr _ ih => exact .head (Step.nt [] _ _ _ hr) ih

/-! ### Look-ahead fetching -/

theorem mem_insertSym {x y : Nat} : ∀ {l : List Nat}, y ∈ insertSym x l ↔ y = x ∨ y ∈ l
  | [] => by simp [insertSym]
  | z :: zs => by
    unfold insertSym
    split
    · simp
    · simp [mem_insertSym]
      constructor
      · rintro (h | h | h)
        · exact .inr (.inl h)
        · exact .inl h
        · exact .inr (.inr h)
      · rintro (h | h | h)
        · exact .inr (.inl h)
        · exact .inl h
        · exact .inr (.inr h)

theorem mem_sortSyms {y : Nat} : ∀ {l : List Nat}, y ∈ sortSyms l ↔ y ∈ l
  | [] => by simp [sortSyms]
  | z :: zs => by simp [sortSyms, mem_insertSym, mem_sortSyms]

theorem insertSym_nodup {x : Nat} : ∀ {l : List Nat}, x ∉ l → l.Nodup → (insertSym x l).Nodup
  | [], _, _ => by simp [insertSym]
  | z :: zs, hx, h => by
    unfold insertSym
    split
    · exact List.nodup_cons.mpr ⟨hx, h⟩
    · have h' := List.nodup_cons.mp h
      simp at hx
      refine List.nodup_cons.mpr ⟨?_, insertSym_nodup hx.2 h'.2⟩
      rw [mem_insertSym]
      rintro (e | e)
      · exact hx.1 e.symm
      · exact h'.1 e

theorem sortSyms_nodup : ∀ {l : List Nat}, l.Nodup → (sortSyms l).Nodup
  | [], _ => by simp [sortSyms]
  | z :: zs, h => by
    have h' := List.nodup_cons.mp h
    exact insertSym_nodup (by rw [mem_sortSyms]; exact h'.1) (sortSyms_nodup h'.2)

/-- The literals among the terminals in `l` are nonempty, and none is a prefix of
another one. -/
def PrefixFree (tm : Nat → Tm) (l : List Nat) : Prop :=
  ∀ i ∈ l, ∃ b s, tm i = .lit b s ∧ b ≠ [] ∧
    ∀ j ∈ l, j ≠ i → ∀ b' s', tm j = .lit b' s' → ¬ b.isPrefixOf b' ∧ ¬ b'.isPrefixOf b

theorem isPrefixOf_iff {a b : List Byte} : a.isPrefixOf b = true ↔ ∃ c, b = a ++ c := by
  rw [List.isPrefixOf_iff_prefix]
  constructor
  · rintro ⟨c, h⟩; exact ⟨c, h.symm⟩
  · rintro ⟨c, h⟩; exact ⟨c, h.symm⟩

theorem prefix_comparable {a b r : List Byte} (ha : a.isPrefixOf r = true)
    (hb : b.isPrefixOf r = true) : a.isPrefixOf b = true ∨ b.isPrefixOf a = true := by
  rw [List.isPrefixOf_iff_prefix] at *
  rw [List.isPrefixOf_iff_prefix]
  rcases Nat.le_total a.length b.length with h | h
  · exact .inl (List.prefix_of_prefix_length_le ha hb h)
  · exact .inr (List.prefix_of_prefix_length_le hb ha h)

/-- Tokens that are not there leave the state alone. -/
theorem tryTokens_skip {tm : Nat → Tm} {st : St} : ∀ (l : List Nat) (first : Bool),
    (∀ j ∈ l, ∃ b s, tm j = .lit b s ∧ b.isPrefixOf st.rest = false) →
    tryTokens tm st first l = some st
  | [], _, _ => rfl
  | j :: l, first, h => by
    obtain ⟨b, s, hj, hb⟩ := h j (by simp)
    have ih := tryTokens_skip (tm := tm) (st := st) l false fun i hi => h i (List.mem_cons_of_mem _ hi)
    simp only [tryTokens, tryToken, hj, Tm.lit?, hb]
    cases first <;> simp [ih]

/-- With prefix-free tokens, exactly the one at the current position is found. -/
theorem tryTokens_find {tm : Nat → Tm} {st : St} {i : Nat} {b : List Byte} {s : Bool}
    (hi : tm i = .lit b s) (hb : b ≠ []) (hr : b.isPrefixOf st.rest = true)
    (hl : st.lah = .none) (hle : st.lend ≤ st.pos) :
    ∀ (l : List Nat) (first : Bool), l.Nodup → i ∈ l →
      (∀ j ∈ l, j ≠ i → ∃ b' s', tm j = .lit b' s' ∧ b'.isPrefixOf st.rest = false) →
      tryTokens tm st first l = some { st with lah := .tok b, lend := st.pos + b.length }
  | [], _, _, hm, _ => by simp at hm
  | j :: l, first, hn, hm, h => by
    have hn' := List.nodup_cons.mp hn
    have hlen : 0 < b.length := List.length_pos_iff.mpr hb
    by_cases hji : j = i
    · subst hji
      have hskip : ∀ (st' : St), st'.rest = st.rest → ∀ k ∈ l,
          ∃ b' s', tm k = .lit b' s' ∧ b'.isPrefixOf st'.rest = false := by
        intro st' e k hk
        rw [e]
        exact h k (List.mem_cons_of_mem _ hk) fun e' => hn'.1 (e' ▸ hk)
      simp only [tryTokens, tryToken, hi, Tm.lit?, hr, if_true]
      cases first with
      | true =>
        simp only [if_true]
        rw [if_neg (by omega)]
        exact tryTokens_skip l false (hskip _ rfl)
      | false =>
        simp only [Bool.false_eq_true, if_false]
        rw [if_pos ⟨by omega, by omega⟩, if_neg (by simp [hl])]
        exact tryTokens_skip l false (hskip _ rfl)
    · obtain ⟨b', s', hj, hb'⟩ := h j (by simp) hji
      have hm' : i ∈ l := by
        rcases List.mem_cons.mp hm with e | e
        · exact absurd e.symm hji
        · exact e
      have ih := tryTokens_find hi hb hr hl hle l false hn'.2 hm'
        fun k hk => h k (List.mem_cons_of_mem _ hk)
      simp only [tryTokens, tryToken, hj, Tm.lit?, hb']
      cases first <;> simp [ih]

theorem getLookAhead_find {tm : Nat → Tm} {st : St} {i : Nat} {b : List Byte} {s : Bool}
    {l : List Nat} (hpf : PrefixFree tm l) (hi : tm i = .lit b s)
    (hr : b.isPrefixOf st.rest = true) (hl : st.lah = .none) (hle : st.lend ≤ st.pos)
    (hn : l.Nodup) (hm : i ∈ l) :
    getLookAhead tm st l = some { st with lah := .tok b, lend := st.pos + b.length } := by
  obtain ⟨b0, s0, hi0, hb0, hp⟩ := hpf i hm
  rw [hi] at hi0
  cases hi0
  have hrest : st.rest ≠ [] := by
    intro e
    rw [e] at hr
    cases b with
    | nil => exact hb0 rfl
    | cons x xs => simp [List.isPrefixOf] at hr
  unfold getLookAhead
  rw [if_neg hrest]
  refine tryTokens_find hi hb0 hr hl hle l true hn hm ?_
  intro j hj hji
  obtain ⟨b', s', hjl, _, _⟩ := hpf j hj
  refine ⟨b', s', hjl, ?_⟩
  have := hp j hj hji b' s' hjl
  cases hpr : b'.isPrefixOf st.rest with
  | false => rfl
  | true =>
    exfalso
    rcases prefix_comparable hr hpr with h1 | h1
    · exact this.1 h1
    · exact this.2 h1

theorem mem_lits {tm : Nat → Tm} {l : List Nat} {b : List Byte} :
    b ∈ lits tm l ↔ ∃ i ∈ l, ∃ s, tm i = .lit b s := by
  simp only [lits, List.mem_filterMap]
  constructor
  · rintro ⟨i, hi, h⟩
    cases htm : tm i with
    | lit b' s =>
      rw [htm] at h
      simp [Tm.lit?] at h
      exact ⟨i, hi, s, by rw [htm, h]⟩
    | var k =>
      rw [htm] at h
      simp [Tm.lit?] at h
  · rintro ⟨i, hi, s, h⟩
    exact ⟨i, hi, by rw [h]; rfl⟩

/-! ### Plain grammars -/

/-- Grammars whose right-hand sides say all the parser may do: no counted and no
`ForEach` loops, no `if` without `else`; loops in the shape
`While::preprocessLookAhead` builds. -/
structure Plain (g : Gram) : Prop where
  noCounter : ∀ p ∈ g.nterms, ∀ s, g.prod p ≠ .counter s
  noForEach : ∀ p ∈ g.nterms, ∀ s, g.prod p ≠ .forEach s
  block : ∀ p ∈ g.nterms, ∀ c ss els, g.prod p = .block c ss els → (c = true ↔ els ≠ [])
  loop : ∀ p ∈ g.nterms, ∀ a b d body, g.prod p = .lookAhead a b d (some body) →
    a = Sym.eps ∧ d = .none ∧ ∃ l2, b = Sym.n l2 ∧ g.prod l2 = .seq [body, Sym.n p]

/-! ### Soundness -/

/-- The symbols a work stack still has to parse. -/
def K.syms : K → List Sym
  | .sym s => [s]
  | .times _ s k => List.replicate k s
  | .finish _ => []

/-- The symbols a work stack still has to parse. -/
def erase (k : List K) : List Sym := k.flatMap K.syms

theorem erase_sym (s : Sym) (k : List K) : erase (K.sym s :: k) = s :: erase k := rfl

theorem erase_finish (q : Nat) (k : List K) : erase (K.finish q :: k) = erase k := rfl

theorem erase_append (a b : List K) : erase (a ++ b) = erase a ++ erase b := by
  simp [erase]

theorem erase_map (ss : List Sym) : erase (ss.map K.sym) = ss := by
  induction ss with
  | nil => rfl
  | cons s ss ih =>
    show s :: erase (ss.map K.sym) = s :: ss
    rw [ih]

/-- Stack without counted loops. -/
def NoTimes (k : List K) : Prop := ∀ c s m, K.times c s m ∉ k

theorem NoTimes.tail {x : K} {k : List K} (h : NoTimes (x :: k)) : NoTimes k :=
  fun c s m hm => h c s m (List.mem_cons_of_mem _ hm)

theorem NoTimes.cons {x : K} {k : List K} (h : NoTimes k) (hx : ∀ c s m, x ≠ K.times c s m) :
    NoTimes (x :: k) := by
  intro c s m hm
  rcases List.mem_cons.mp hm with e | e
  · exact hx c s m e.symm
  · exact h c s m e

theorem NoTimes.syms {k : List K} (h : NoTimes k) (ss : List Sym) :
    NoTimes (ss.map K.sym ++ k) := by
  intro c s m hm
  rcases List.mem_append.mp hm with e | e
  · obtain ⟨x, _, hx⟩ := List.mem_map.mp e
    cases hx
  · exact h c s m e

theorem parseTerm_sound {inUse : List Byte → Bool} {st st' : St} {tm : Tm}
    (h : parseTerm inUse st tm = some st') : ∃ b, TermYields tm b ∧ st.rest = b ++ st'.rest := by
  cases tm with
  | lit b s =>
    simp only [parseTerm] at h
    by_cases h1 : inUse b = true ∧ st.lah ≠ .none
    · rw [if_pos h1] at h
      by_cases h2 : st.lah ≠ .tok b
      · rw [if_pos h2] at h; cases h
      · rw [if_neg h2] at h
        by_cases h3 : st.rest.take (st.lend - st.pos) ≠ b
        · rw [if_pos h3] at h; cases h
        · rw [if_neg h3] at h
          cases h
          refine ⟨b, rfl, ?_⟩
          have h3' : st.rest.take (st.lend - st.pos) = b := Classical.byContradiction h3
          show st.rest = b ++ st.rest.drop (st.lend - st.pos)
          rw [← h3']
          exact (List.take_append_drop _ _).symm
    · rw [if_neg h1] at h
      by_cases h2 : b.isPrefixOf st.rest = true
      · rw [if_pos h2] at h
        cases h
        obtain ⟨c, hc⟩ := isPrefixOf_iff.mp h2
        refine ⟨b, rfl, ?_⟩
        show st.rest = b ++ st.rest.drop b.length
        rw [hc]
        simp
      · rw [if_neg h2] at h; cases h
  | var k =>
    simp only [parseTerm] at h
    by_cases h1 : k ≤ st.rest.length
    · rw [if_pos h1] at h
      cases h
      exact ⟨st.rest.take k, by simp [TermYields, h1], (List.take_append_drop _ _).symm⟩
    · rw [if_neg h1] at h; cases h

theorem tryToken_rest {tm : Nat → Tm} {st st' : St} {f f' : Bool} {i : Nat}
    (h : tryToken tm st f i = some (st', f')) : st'.rest = st.rest ∧ st'.pos = st.pos := by
  unfold tryToken at h
  cases hl : (tm i).lit? with
  | none => rw [hl] at h; cases h; exact ⟨rfl, rfl⟩
  | some b =>
    rw [hl] at h
    dsimp only at h
    generalize (if b.isPrefixOf st.rest = true then st.pos + b.length else st.pos) = m at h
    split at h
    · split at h
      · cases h; exact ⟨rfl, rfl⟩
      · cases h; exact ⟨rfl, rfl⟩
    · split at h
      · split at h
        · cases h
        · cases h; exact ⟨rfl, rfl⟩
      · cases h; exact ⟨rfl, rfl⟩

theorem tryTokens_rest {tm : Nat → Tm} : ∀ {l : List Nat} {st st' : St} {f : Bool},
    tryTokens tm st f l = some st' → st'.rest = st.rest ∧ st'.pos = st.pos
  | [], st, st', f, h => by cases h; exact ⟨rfl, rfl⟩
  | i :: l, st, st', f, h => by
    simp only [tryTokens] at h
    cases h1 : tryToken tm st f i with
    | none => rw [h1] at h; cases h
    | some x =>
      obtain ⟨st1, f1⟩ := x
      rw [h1] at h
      have a := tryToken_rest h1
      have b := tryTokens_rest h
      exact ⟨b.1.trans a.1, b.2.trans a.2⟩

theorem parseLookAhead_rest {tm : Nat → Tm} {l1 l2 : List Nat} {a b : Sym} {d : Default}
    {st st' : St} {br : Branch} (h : parseLookAhead tm l1 l2 a b d st = some (st', br)) :
    st'.rest = st.rest ∧ st'.pos = st.pos := by
  unfold parseLookAhead at h
  split at h
  · unfold getLookAhead at h
    split at h
    · cases h
    · rename_i st1 h1
      cases h
      split at h1
      · cases h1; exact ⟨rfl, rfl⟩
      · exact tryTokens_rest h1
  · cases h; exact ⟨rfl, rfl⟩

theorem derives_cons {rhss : Nat → List (List Sym)} {p : Nat} {r b c : List Sym}
    (hr : r ∈ rhss p) (h : Derives rhss (r ++ b) c) : Derives rhss (Sym.n p :: b) c :=
  .head (Step.nt [] b p r hr) h

/-- A step of the parser on a nonterminal follows a derivation. -/
theorem stepNt_sound {e : Env} (pl : Plain e.g) {p : Nat} {k : List K} {st : St}
    {ds : List Nat} {c : Cfg} (hp : p ∈ e.g.nterms) (hnt : NoTimes k)
    (h : stepNt e p k st ds = some c) :
    c.st.rest = st.rest ∧ NoTimes c.stack ∧
    ∀ v, Derives e.g.rhss (erase c.stack) v → Derives e.g.rhss (Sym.n p :: erase k) v := by
  unfold stepNt at h
  have rh : e.g.rhss p = (e.g.prod p).rhss := rfl
  cases hprod : e.g.prod p with
  | seq ss =>
    rw [hprod] at h rh
    cases h
    refine ⟨rfl, hnt.syms ss, fun v hv => ?_⟩
    rw [erase_append, erase_map] at hv
    exact derives_cons (by rw [rh]; simp [Prod.rhss]) hv
  | block cond ss els =>
    rw [hprod] at h rh
    dsimp only at h
    have hb := pl.block p hp cond ss els hprod
    by_cases hc : cond = true
    · rw [if_pos hc] at h
      have hne := hb.mp hc
      cases ds with
      | nil => cases h
      | cons d ds' =>
        cases h
        refine ⟨rfl, hnt.syms _, fun v hv => ?_⟩
        rw [erase_append, erase_map] at hv
        refine derives_cons ?_ hv
        rw [rh]
        simp only [Prod.rhss, if_neg hne]
        split <;> simp
    · rw [if_neg hc] at h
      cases h
      refine ⟨rfl, hnt.syms ss, fun v hv => ?_⟩
      rw [erase_append, erase_map] at hv
      refine derives_cons ?_ hv
      rw [rh]
      simp only [Prod.rhss]
      split <;> simp
  | enclosure s =>
    rw [hprod] at h rh
    cases h
    refine ⟨rfl, hnt.cons (fun _ _ _ h => by cases h), fun v hv => ?_⟩
    exact derives_cons (r := [s]) (by rw [rh]; simp [Prod.rhss]) hv
  | counter s => exact absurd hprod (pl.noCounter p hp s)
  | forEach s => exact absurd hprod (pl.noForEach p hp s)
  | while_ l1 =>
    rw [hprod] at h rh
    cases h
    refine ⟨rfl, hnt.cons (fun _ _ _ h => by cases h), fun v hv => ?_⟩
    exact derives_cons (r := [Sym.n l1]) (by rw [rh]; simp [Prod.rhss]) hv
  | switch cases_ dflt =>
    rw [hprod] at h rh
    dsimp only at h
    cases ds with
    | nil => cases h
    | cons d ds' =>
      dsimp only at h
      cases hd : cases_[d]? with
      | some s =>
        rw [hd] at h
        cases h
        refine ⟨rfl, hnt.cons (fun _ _ _ h => by cases h), fun v hv => ?_⟩
        refine derives_cons (r := [s]) ?_ hv
        rw [rh]
        simp only [Prod.rhss, List.mem_append, List.mem_map]
        exact .inl ⟨s, List.mem_of_getElem? hd, rfl⟩
      | none =>
        rw [hd] at h
        dsimp only at h
        cases dflt with
        | none => cases h
        | some s =>
          cases h
          refine ⟨rfl, hnt.cons (fun _ _ _ h => by cases h), fun v hv => ?_⟩
          refine derives_cons (r := [s]) ?_ hv
          rw [rh]
          simp [Prod.rhss]
  | lookAhead a b d loop =>
    rw [hprod] at h rh
    dsimp only at h
    have ra : [a] ∈ e.g.rhss p := by rw [rh]; simp [Prod.rhss]
    have rb : [b] ∈ e.g.rhss p := by rw [rh]; simp [Prod.rhss]
    cases hl : parseLookAhead e.tm (e.la p).1 (e.la p).2 a b d st with
    | none => rw [hl] at h; cases h
    | some x =>
      obtain ⟨st', br⟩ := x
      rw [hl] at h
      have hrest := (parseLookAhead_rest hl).1
      dsimp only at h
      cases loop with
      | none =>
        cases br with
        | alt1 =>
          cases h
          exact ⟨hrest, hnt.cons (fun _ _ _ h => by cases h), fun v hv => derives_cons ra hv⟩
        | alt2 =>
          cases h
          exact ⟨hrest, hnt.cons (fun _ _ _ h => by cases h), fun v hv => derives_cons rb hv⟩
        | dflt => cases h
        | error => cases h
      | some body =>
        obtain ⟨rfl, _, l2, rfl, hl2⟩ := pl.loop p hp a b d body hprod
        cases br with
        | alt1 =>
          cases h
          exact ⟨hrest, hnt, fun v hv => derives_cons ra (.head (Step.eps [] _) hv)⟩
        | alt2 =>
          cases h
          refine ⟨hrest, ((hnt.cons (fun _ _ _ h => by cases h)).cons
            (fun _ _ _ h => by cases h)).cons (fun _ _ _ h => by cases h), fun v hv => ?_⟩
          refine derives_cons rb ?_
          refine derives_cons (r := [body, Sym.n p]) ?_ hv
          show _ ∈ (e.g.prod l2).rhss
          rw [hl2]
          simp [Prod.rhss]
        | dflt =>
          cases h
          exact ⟨hrest, hnt, fun v hv => derives_cons ra (.head (Step.eps [] _) hv)⟩
        | error => cases h

/-- The known nonterminals of the machine's stack. -/
theorem sound_aux {e : Env} (wf : e.g.WF) (pl : Plain e.g) {c d : Cfg} (h : Reaches e c d) :
    Known e.g (erase c.stack) → NoTimes c.stack → d.stack = [] →
    ∃ w bs, Derives e.g.rhss (erase c.stack) (w.map Sym.t) ∧ Yields e.tm w bs ∧
      c.st.rest = bs ++ d.st.rest := by
  induction h with
  | refl c =>
    intro _ _ hd
    rw [hd]
    exact ⟨[], [], .refl _, .nil, rfl⟩
  | @head c c' d hs _ ih =>
    intro hk hnt hd
    unfold mstep at hs
    cases hst : c.stack with
    | nil => rw [hst] at hs; cases hs
    | cons x k =>
      rw [hst] at hs hk hnt
      cases x with
      | sym s =>
        have hk' : Known e.g (erase k) := fun q hq => hk q (by rw [erase_sym]; exact List.mem_cons_of_mem _ hq)
        cases s with
        | eps =>
          cases hs
          obtain ⟨w, bs, h1, h2, h3⟩ := ih hk' hnt.tail hd
          exact ⟨w, bs, .head (Step.eps [] _) h1, h2, h3⟩
        | t i =>
          dsimp only at hs
          cases hp : parseTerm e.inUse c.st (e.tm i) with
          | none => rw [hp] at hs; cases hs
          | some st' =>
            rw [hp] at hs
            cases hs
            obtain ⟨w, bs, h1, h2, h3⟩ := ih hk' hnt.tail hd
            obtain ⟨b, hb, hr⟩ := parseTerm_sound hp
            refine ⟨i :: w, b ++ bs, Derives.append_left [Sym.t i] h1, .cons hb h2, ?_⟩
            rw [hr, List.append_assoc]
            show b ++ st'.rest = _
            rw [h3]
        | n p =>
          dsimp only at hs
          have hp : p ∈ e.g.nterms := hk p (by rw [erase_sym]; simp)
          obtain ⟨hr, hnt', hder⟩ := stepNt_sound pl hp hnt.tail hs
          have hk2 : Known e.g (erase c'.stack) := by
            intro q hq
            have hd0 := hder (erase c'.stack) (.refl _)
            exact hk.derives wf hd0 q hq
          obtain ⟨w, bs, h1, h2, h3⟩ := ih hk2 hnt' hd
          exact ⟨w, bs, hder _ h1, h2, hr ▸ h3⟩
      | times b s m => exact absurd List.mem_cons_self (hnt b s m)
      | finish q =>
        dsimp only at hs
        split at hs
        · cases hs
        · cases hs
          obtain ⟨w, bs, h1, h2, h3⟩ := ih (by simpa [erase_finish] using hk) hnt.tail hd
          exact ⟨w, bs, by simpa [erase_finish] using h1, h2, h3⟩

/-- **C48** Soundness: whatever look-ahead sets are in effect, input that a unit's
parser accepts is a sentence of its grammar, and it is consumed exactly up to
where that sentence ends. -/
theorem C48_accepted_is_sentence (e : Env) (wf : e.g.WF) (pl : Plain e.g)
    (input tail : List Byte) (ds : List Nat) (h : Accepts e input tail ds) :
    ∃ w bs, Derives e.g.rhss [Sym.n e.g.root] (w.map Sym.t) ∧ Yields e.tm w bs ∧
      input = bs ++ tail := by
  obtain ⟨c, hr, h1, h2, _⟩ := h
  have := sound_aux wf pl hr (known_single wf.root)
    (fun c s m hm => by simp [start] at hm) h1
  rw [h2] at this
  exact this

end Verif.Grammar
