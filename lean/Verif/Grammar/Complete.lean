import Verif.Grammar.Parser
/-
Completeness: the generated parser accepts every sentence of a grammar that
passed `Grammar::_check`, with one token of look-ahead.
-/
namespace Verif.Grammar

/-- What is asked of the look-ahead sets `la` the parsers of a program use, with
`g` the grammar of the unit parsing starts from. -/
structure Setup (e : Env) (T : Tab) (dump : Nat → Nat) (tail : List Byte) : Prop where
  wf : e.g.WF
  plain : Plain e.g
  tables : computeTables e.g = some T
  /-- `Grammar::_check` reported no error. -/
  check : T.check e.g dump = true
  /-- the sets hold nothing but what the tables of `g` have -/
  sub : ∀ p ∈ e.g.nterms, ∀ a b d loop, e.g.prod p = .lookAhead a b d loop →
    (∀ i ∈ (e.la p).1, i ∈ T.lookAheads a p) ∧ (∀ i ∈ (e.la p).2, i ∈ T.lookAheads b p) ∧
    (e.la p).1.Nodup ∧ ¬ ((e.la p).1 = [] ∧ (e.la p).2 = [])
  /-- the sets hold whatever an alternative can start with -/
  starts : ∀ p ∈ e.g.nterms, ∀ a b d loop, e.g.prod p = .lookAhead a b d loop →
    (∀ i, CanStart e.g.rhss [a] i → i ∈ (e.la p).1) ∧ (∀ i, CanStart e.g.rhss [b] i → i ∈ (e.la p).2)
  /-- outside of loops, they also hold what can follow an alternative that may be
  empty -/
  follows : ∀ p ∈ e.g.nterms, ∀ a b d, e.g.prod p = .lookAhead a b d Option.none →
    ∀ i, CanFollow e.g.rhss e.g.root p i →
    (CanVanish e.g.rhss [a] → i ∈ (e.la p).1) ∧ (CanVanish e.g.rhss [b] → i ∈ (e.la p).2)
  /-- tokens in look-ahead sets are known to be so -/
  inUse : ∀ p ∈ e.g.nterms, ∀ b, b ∈ lits e.tm (e.la p).1 ∨ b ∈ lits e.tm (e.la p).2 → e.inUse b = true
  /-- no two tokens a look-ahead decision has to tell apart are prefixes of one
  another, and all of them are literals -/
  prefixFree : ∀ p ∈ e.g.nterms, ∀ l1 l2, T.lahs e.g p = some (l1, l2) → PrefixFree e.tm (union l1 l2)
  /-- terminals are not empty -/
  solid : ∀ i b, TermYields (e.tm i) b → b ≠ []
  /-- loop bodies are not empty -/
  bodies : ∀ p ∈ e.g.nterms, ∀ a b d body, e.g.prod p = .lookAhead a b d (some body) →
    ¬ CanVanish e.g.rhss [body]
  /-- where a look-ahead decision may have to be taken at the end of the sentence,
  input ends there too, and an alternative that can be empty is the empty one and
  has no look-ahead symbols -/
  ends : ∀ p ∈ e.g.nterms, ∀ a b d loop, e.g.prod p = .lookAhead a b d loop →
    (∃ x, Derives e.g.rhss [Sym.n e.g.root] (x ++ [Sym.n p])) →
    tail = [] ∧ (CanVanish e.g.rhss [a] → a = Sym.eps ∧ (e.la p).1 = []) ∧
      (CanVanish e.g.rhss [b] → b = Sym.eps ∧ (e.la p).2 = [])

/-- Parser state before a sentence rest `w`, spelled `bs`. -/
structure Ready (e : Env) (tail : List Byte) (st : St) (w : List Nat) (bs : List Byte) : Prop where
  rest : st.rest = bs ++ tail
  yields : Yields e.tm w bs
  lah : (st.lah = .none ∧ st.lend ≤ st.pos) ∨ (st.lah = .eod ∧ w = [] ∧ st.rest = []) ∨
    (∃ i w' b s, st.lah = .tok b ∧ w = i :: w' ∧ e.tm i = .lit b s ∧
      st.lend = st.pos + b.length ∧ e.inUse b = true)

/-- Loop marks on the stack: the loop has moved, or what is above the mark will. -/
def Marks (rhss : Nat → List (List Sym)) (k : List K) (pos : Nat) : Prop :=
  ∀ k1 q k2, k = k1 ++ K.finish q :: k2 → q < pos ∨ (q ≤ pos ∧ ¬ CanVanish rhss (erase k1))

theorem Marks.tail {rhss : Nat → List (List Sym)} {x : K} {k : List K} {pos : Nat}
    (h : Marks rhss (x :: k) pos)
    (hx : ∀ k1, CanVanish rhss (erase k1) → CanVanish rhss (erase (x :: k1))) :
    Marks rhss k pos := by
  intro k1 q k2 hk
  rcases h (x :: k1) q k2 (by rw [hk]; rfl) with h1 | ⟨h1, h2⟩
  · exact .inl h1
  · exact .inr ⟨h1, fun hv => h2 (hx k1 hv)⟩

/-- Replacing the top symbol by other ones. -/
theorem Marks.replace {rhss : Nat → List (List Sym)} {s : Sym} {k : List K} {pos : Nat}
    (h : Marks rhss (K.sym s :: k) pos) (ss : List Sym)
    (hx : ∀ b, CanVanish rhss (ss ++ b) → CanVanish rhss (s :: b)) :
    Marks rhss (ss.map K.sym ++ k) pos := by
  intro k1 q k2 hk
  rcases append_cons_cases (ss.map K.sym) k1 k k2 (K.finish q) hk with ⟨e, he, _⟩ | ⟨e, rfl, rfl⟩
  · have : K.finish q ∈ ss.map K.sym := by rw [he]; simp
    obtain ⟨x, _, hx⟩ := List.mem_map.mp this
    cases hx
  · rcases h (K.sym s :: e) q k2 rfl with h1 | ⟨h1, h2⟩
    · exact .inl h1
    · refine .inr ⟨h1, fun hv => h2 ?_⟩
      rw [erase_append, erase_map] at hv
      exact hx _ hv

theorem Marks.advance {rhss : Nat → List (List Sym)} {s : Sym} {k : List K} {pos pos' : Nat}
    (h : Marks rhss (K.sym s :: k) pos) (hp : pos < pos') : Marks rhss k pos' := by
  intro k1 q k2 hk
  rcases h (K.sym s :: k1) q k2 (by rw [hk]; rfl) with h1 | ⟨h1, _⟩
  · exact .inl (by omega)
  · exact .inl (by omega)

theorem vanish_rhs {rhss : Nat → List (List Sym)} {p : Nat} {r : List Sym} (hr : r ∈ rhss p)
    (b : List Sym) (h : CanVanish rhss (r ++ b)) : CanVanish rhss (Sym.n p :: b) :=
  derives_cons hr h

section
variable {e : Env} {T : Tab} {dump : Nat → Nat} {tail : List Byte}

theorem lahs_eq {g : Gram} {p : Nat} {a b : Sym} {d : Default} {loop : Option Sym}
    (hprod : g.prod p = .lookAhead a b d loop) :
    T.lahs g p = some (T.lookAheads a p, T.lookAheads b p) := by
  simp only [Tab.lahs, hprod]

theorem check_disjoint' {g : Gram} (hc : T.check g dump = true) {p : Nat} (hp : p ∈ g.nterms)
    {l1 l2 : List Nat} (hl : T.lahs g p = some (l1, l2)) :
    (∀ i j, i ∈ l1 → j ∈ l2 → dump i ≠ dump j) ∧ ¬ (l1 = [] ∧ l2 = []) := by
  have h := hc
  simp only [Tab.check, List.all_eq_true] at h
  have h := h p hp
  simp only [Tab.checkOne, hl] at h
  by_cases he : l1 = [] ∧ l2 = []
  · rw [if_pos he] at h; cases h
  · rw [if_neg he] at h
    refine ⟨fun i j h1 h2 hij => ?_, he⟩
    have : (l1.any fun x => l2.any fun y => dump x == dump y) = true := by
      rw [List.any_eq_true]
      refine ⟨i, h1, ?_⟩
      rw [List.any_eq_true]
      exact ⟨j, h2, by simp [hij]⟩
    rw [this] at h
    cases h

/-- The next terminal of the sentence is in the look-ahead set of the alternative
the derivation takes, or it follows an empty alternative. -/
theorem next_start {g : Gram} {p : Nat} {s : Sym} {x b : List Sym} {k i : Nat} {w : List Nat}
    (hctx : Derives g.rhss [Sym.n g.root] (x ++ Sym.n p :: b))
    (hd : LDer g.rhss k (s :: b) (i :: w)) :
    CanStart g.rhss [s] i ∨ (CanVanish g.rhss [s] ∧ CanFollow g.rhss g.root p i) := by
  obtain ⟨k1, k2, w1, w2, h1, h2, hw⟩ := hd.split [s] b rfl
  cases w1 with
  | cons j w1 =>
    simp at hw
    obtain ⟨rfl, _⟩ := hw
    exact .inl ⟨w1.map Sym.t, h1.derives⟩
  | nil =>
    simp at hw
    subst hw
    refine .inr ⟨h1.derives, x, w.map Sym.t, hctx.trans ?_⟩
    have := Derives.append_left (x ++ [Sym.n p]) h2.derives
    simpa [List.append_assoc] using this

/-- At the end of the sentence the alternative taken is empty. -/
theorem end_vanishes {g : Gram} {p : Nat} {s : Sym} {x b : List Sym} {k : Nat}
    (hctx : Derives g.rhss [Sym.n g.root] (x ++ Sym.n p :: b))
    (hd : LDer g.rhss k (s :: b) []) :
    CanVanish g.rhss [s] ∧ Derives g.rhss [Sym.n g.root] (x ++ [Sym.n p]) := by
  obtain ⟨k1, k2, w1, w2, h1, h2, hw⟩ := hd.split [s] b rfl
  have hw := List.append_eq_nil_iff.mp hw.symm
  obtain ⟨rfl, rfl⟩ := hw
  refine ⟨h1.derives, hctx.trans ?_⟩
  have := Derives.append_left (x ++ [Sym.n p]) h2.derives
  simpa [List.append_assoc] using this

theorem lookAheads_nodup {g : Gram} (hg : Good g T) (s : Sym) (p : Nat) :
    (T.lookAheads s p).Nodup := by
  have hf : (T.getFirst s).Nodup := by
    cases s with
    | eps => simp [Tab.getFirst]
    | t i => simp [Tab.getFirst]
    | n q => exact hg.nd1 q
  unfold Tab.lookAheads
  split
  · exact union_nodup _ _ hf
  · exact hf

theorem yields_cons {tm : Nat → Tm} {i : Nat} {w : List Nat} {bs : List Byte}
    (h : Yields tm (i :: w) bs) : ∃ b bs', bs = b ++ bs' ∧ TermYields (tm i) b ∧ Yields tm w bs' := by
  cases h with
  | cons h1 h2 => exact ⟨_, _, rfl, h1, h2⟩

theorem yields_nil {tm : Nat → Tm} {bs : List Byte} (h : Yields tm [] bs) : bs = [] := by
  cases h; rfl

/-- Fetching the look-ahead when the sentence goes on with terminal `i`, which is
among the symbols the production has to tell apart: if `i` is in one of the sets
in effect, the corresponding branch is taken, otherwise (in a loop) the default
one. -/
theorem fetch (su : Setup e T dump tail) {p : Nat} (hp : p ∈ e.g.nterms) {a b : Sym} {d : Default}
    {loop : Option Sym} (hprod : e.g.prod p = .lookAhead a b d loop) {st : St} {i : Nat}
    {w : List Nat} {bs : List Byte} (hr : Ready e tail st (i :: w) bs)
    (hi : i ∈ T.lookAheads a p ∨ i ∈ T.lookAheads b p)
    (hd : i ∈ (e.la p).1 ∨ i ∈ (e.la p).2 ∨ d = .none) :
    ∃ st', parseLookAhead e.tm (e.la p).1 (e.la p).2 a b d st =
        some (st', if i ∈ (e.la p).1 then .alt1 else if i ∈ (e.la p).2 then .alt2 else .dflt) ∧
      st'.pos = st.pos ∧ Ready e tail st' (i :: w) bs := by
  have hl := lahs_eq (T := T) hprod
  have hdis := (check_disjoint' su.check hp hl).1
  have hpf := su.prefixFree p hp _ _ hl
  obtain ⟨hs1, hs2, hnd, _⟩ := su.sub p hp a b d loop hprod
  have hmu : i ∈ union (T.lookAheads a p) (T.lookAheads b p) := mem_union.mpr hi
  obtain ⟨lit, s, htm, hne, hpi⟩ := hpf i hmu
  obtain ⟨b0, bs', hbs, hy0, hy⟩ := yields_cons hr.yields
  have hb0 : b0 = lit := by
    have : TermYields (.lit lit s) b0 := by rw [← htm]; exact hy0
    exact this
  subst hb0
  have hpre : b0.isPrefixOf st.rest = true := by
    rw [isPrefixOf_iff]
    exact ⟨bs' ++ tail, by rw [hr.rest, hbs, List.append_assoc]⟩
  have hself : b0.isPrefixOf b0 = true := isPrefixOf_iff.mpr ⟨[], by simp⟩
  -- a literal in one of the sets that is spelled like `i` is `i`
  have hspell : ∀ j, (j ∈ T.lookAheads a p ∨ j ∈ T.lookAheads b p) → ∀ s', e.tm j = .lit b0 s' → j = i := by
    intro j hj s' hjt
    exact Classical.byContradiction fun hji => (hpi j (mem_union.mpr hj) hji b0 s' hjt).1 hself
  have hm1 : b0 ∈ lits e.tm (e.la p).1 ↔ i ∈ (e.la p).1 := by
    constructor
    · intro hm
      obtain ⟨j, hj, s', hjt⟩ := mem_lits.mp hm
      exact hspell j (.inl (hs1 j hj)) s' hjt ▸ hj
    · exact fun h => mem_lits.mpr ⟨i, h, s, htm⟩
  have hm2 : b0 ∈ lits e.tm (e.la p).2 ↔ i ∈ (e.la p).2 := by
    constructor
    · intro hm
      obtain ⟨j, hj, s', hjt⟩ := mem_lits.mp hm
      exact hspell j (.inr (hs2 j hj)) s' hjt ▸ hj
    · exact fun h => mem_lits.mpr ⟨i, h, s, htm⟩
  have hbr : branch e.tm (e.la p).1 (e.la p).2 a b d (.tok b0) =
      if i ∈ (e.la p).1 then .alt1 else if i ∈ (e.la p).2 then .alt2 else .dflt := by
    simp only [branch]
    by_cases h1 : i ∈ (e.la p).1
    · rw [if_pos (hm1.mpr h1), if_pos h1]
    · rw [if_neg (fun h => h1 (hm1.mp h)), if_neg h1]
      by_cases h2 : i ∈ (e.la p).2
      · rw [if_pos (hm2.mpr h2), if_pos h2]
      · rw [if_neg (fun h => h2 (hm2.mp h)), if_neg h2]
  have hpf' : PrefixFree e.tm (sortSyms (union (e.la p).1 (e.la p).2)) := by
    have hin : ∀ j, j ∈ sortSyms (union (e.la p).1 (e.la p).2) →
        j ∈ union (T.lookAheads a p) (T.lookAheads b p) := by
      intro j hj
      rw [mem_sortSyms, mem_union] at hj
      rw [mem_union]
      rcases hj with hj | hj
      · exact .inl (hs1 j hj)
      · exact .inr (hs2 j hj)
    intro j hj
    obtain ⟨bj, sj, h1, h2, h3⟩ := hpf j (hin j hj)
    exact ⟨bj, sj, h1, h2, fun k hk => h3 k (hin k hk)⟩
  rcases hr.lah with ⟨hn, hle⟩ | ⟨_, hw, _⟩ | ⟨j, w', b1, s1, hlah, hw, htj, hend, hu⟩
  · by_cases hin : i ∈ (e.la p).1 ∨ i ∈ (e.la p).2
    · have hf := getLookAhead_find hpf' htm hpre hn hle (sortSyms_nodup (union_nodup _ _ hnd))
        (mem_sortSyms.mpr (mem_union.mpr hin))
      refine ⟨{ st with lah := .tok b0, lend := st.pos + b0.length }, ?_, rfl, ?_⟩
      · unfold parseLookAhead
        rw [if_pos hn, hf]
        dsimp only
        rw [hbr]
      · refine ⟨hr.rest, hr.yields, .inr (.inr ⟨i, w, b0, s, rfl, rfl, htm, rfl, ?_⟩)⟩
        refine su.inUse p hp b0 ?_
        rcases hin with h | h
        · exact .inl (hm1.mpr h)
        · exact .inr (hm2.mpr h)
    · have hd0 : d = .none := by
        rcases hd with h | h | h
        · exact absurd (.inl h) hin
        · exact absurd (.inr h) hin
        · exact h
      have hrest : st.rest ≠ [] := by
        intro h0
        rw [h0] at hpre
        cases b0 with
        | nil => exact hne rfl
        | cons x xs => simp [List.isPrefixOf] at hpre
      have hf : getLookAhead e.tm st (sortSyms (union (e.la p).1 (e.la p).2)) = some st := by
        unfold getLookAhead
        rw [if_neg hrest]
        refine tryTokens_skip _ _ ?_
        intro j hj
        have hjm : j ∈ (e.la p).1 ∨ j ∈ (e.la p).2 := by
          rw [mem_sortSyms, mem_union] at hj
          exact hj
        have hjT : j ∈ T.lookAheads a p ∨ j ∈ T.lookAheads b p := by
          rcases hjm with h | h
          · exact .inl (hs1 j h)
          · exact .inr (hs2 j h)
        have hji : j ≠ i := fun h => hin (h ▸ hjm)
        obtain ⟨bj, sj, hj1, _, _⟩ := hpf j (mem_union.mpr hjT)
        refine ⟨bj, sj, hj1, ?_⟩
        have hx := hpi j (mem_union.mpr hjT) hji bj sj hj1
        cases hpr : bj.isPrefixOf st.rest with
        | false => rfl
        | true =>
          exfalso
          rcases prefix_comparable hpre hpr with h1 | h1
          · exact hx.1 h1
          · exact hx.2 h1
      refine ⟨st, ?_, rfl, hr⟩
      unfold parseLookAhead
      rw [if_pos hn, hf]
      dsimp only
      rw [hn, hd0, if_neg (fun h => hin (.inl h)), if_neg (fun h => hin (.inr h))]
      rfl
  · cases hw
  · cases hw
    rw [htm] at htj
    cases htj
    refine ⟨st, ?_, rfl, hr⟩
    unfold parseLookAhead
    rw [if_neg (by rw [hlah]; simp), hlah, hbr]

/-- Fetching the look-ahead at the end of input. -/
theorem fetch_end {a b : Sym} {d : Default} {l1 l2 : List Nat} {st : St} {bs : List Byte}
    (hr : Ready e [] st [] bs) :
    ∃ st', parseLookAhead e.tm l1 l2 a b d st = some (st', branch e.tm l1 l2 a b d .eod) ∧
      st'.pos = st.pos ∧ Ready e [] st' [] bs := by
  have hbs := yields_nil hr.yields
  have hrest : st.rest = [] := by rw [hr.rest, hbs]; rfl
  rcases hr.lah with ⟨hn, hle⟩ | ⟨hl, _, _⟩ | ⟨j, w', b1, s1, _, hw, _⟩
  · refine ⟨{ st with lah := .eod }, ?_, rfl, ⟨hr.rest, hr.yields, .inr (.inl ⟨rfl, rfl, hrest⟩)⟩⟩
    unfold parseLookAhead getLookAhead
    rw [if_pos hn, if_pos hrest]
  · refine ⟨st, ?_, rfl, hr⟩
    unfold parseLookAhead
    rw [if_neg (by rw [hl]; simp), hl]
  · cases hw

/-- Parsing the next terminal of the sentence. -/
theorem parseTerm_next (su : Setup e T dump tail) {st : St} {i : Nat} {w : List Nat}
    {bs : List Byte} (hr : Ready e tail st (i :: w) bs) :
    ∃ st' bs', parseTerm e.inUse st (e.tm i) = some st' ∧
      Ready e tail st' w bs' ∧ st.pos < st'.pos := by
  obtain ⟨b, bs', hbs, hy0, hy⟩ := yields_cons hr.yields
  have hsolid := su.solid i b hy0
  have hlen : 0 < b.length := List.length_pos_iff.mpr hsolid
  have hrest : st.rest = b ++ (bs' ++ tail) := by rw [hr.rest, hbs, List.append_assoc]
  have hpre : b.isPrefixOf st.rest = true := isPrefixOf_iff.mpr ⟨_, hrest⟩
  cases htm : e.tm i with
  | lit b1 s =>
    have hb1 : b = b1 := by
      have : TermYields (.lit b1 s) b := by rw [← htm]; exact hy0
      exact this
    subst hb1
    rcases hr.lah with ⟨hn, hle⟩ | ⟨_, hw, _⟩ | ⟨j, w', b2, s2, hlah, hw, htj, hend, hu⟩
    · refine ⟨{ st with pos := st.pos + b.length, rest := st.rest.drop b.length }, bs', ?_,
        ⟨?_, hy, .inl ⟨hn, ?_⟩⟩, ?_⟩
      · simp only [parseTerm]
        rw [if_neg (by simp [hn]), if_pos hpre]
      · show st.rest.drop b.length = _
        rw [hrest]; simp
      · show st.lend ≤ st.pos + b.length
        omega
      · show st.pos < st.pos + b.length
        omega
    · cases hw
    · cases hw
      rw [htm] at htj
      cases htj
      have htake : st.rest.take (st.lend - st.pos) = b := by
        rw [hend, hrest]
        simp
      refine ⟨{ pos := st.lend, rest := st.rest.drop (st.lend - st.pos), lah := .none,
                lend := st.lend }, bs', ?_, ⟨?_, hy, .inl ⟨rfl, ?_⟩⟩, ?_⟩
      · simp only [parseTerm]
        rw [if_pos ⟨hu, by rw [hlah]; simp⟩, if_neg (by rw [hlah]; simp), if_neg (by rw [htake]; simp)]
      · show st.rest.drop (st.lend - st.pos) = _
        rw [hend, hrest]; simp
      · exact Nat.le_refl _
      · show st.pos < st.lend
        omega
  | var m =>
    have hm : b.length = m := by
      have : TermYields (.var m) b := by rw [← htm]; exact hy0
      exact this
    rcases hr.lah with ⟨hn, hle⟩ | ⟨_, hw, _⟩ | ⟨j, w', b2, s2, hlah, hw, htj, hend, hu⟩
    · refine ⟨{ st with pos := st.pos + m, rest := st.rest.drop m }, bs', ?_,
        ⟨?_, hy, .inl ⟨hn, ?_⟩⟩, ?_⟩
      · simp only [parseTerm]
        rw [if_pos (by rw [hrest, List.length_append]; omega)]
      · show st.rest.drop m = _
        rw [hrest, ← hm]; simp
      · show st.lend ≤ st.pos + m
        omega
      · show st.pos < st.pos + m
        omega
    · cases hw
    · cases hw
      rw [htm] at htj
      cases htj

/-- A run that accepts. -/
def Good' (e : Env) (tail : List Byte) (k : List K) (st : St) : Prop :=
  ∃ ds c, Reaches e ⟨k, st, ds⟩ c ∧ c.stack = [] ∧ c.st.rest = tail ∧ c.ds = []

theorem good_step {e : Env} {tail : List Byte} {k k' : List K} {st st' : St}
    (hs : ∀ ds, mstep e ⟨k, st, ds⟩ = some ⟨k', st', ds⟩) (h : Good' e tail k' st') :
    Good' e tail k st := by
  obtain ⟨ds, c, h1, h2⟩ := h
  exact ⟨ds, c, .head (hs ds) h1, h2⟩

theorem good_choice {e : Env} {tail : List Byte} {k k' : List K} {st st' : St} (d : Nat)
    (hs : ∀ ds, mstep e ⟨k, st, d :: ds⟩ = some ⟨k', st', ds⟩) (h : Good' e tail k' st') :
    Good' e tail k st := by
  obtain ⟨ds, c, h1, h2⟩ := h
  exact ⟨d :: ds, c, .head (hs ds) h1, h2⟩

theorem complete_aux (su : Setup e T dump tail) : ∀ (n : Nat) (k : List K) (st : St)
    (w : List Nat) (bs : List Byte) (x : List Sym), LDer e.g.rhss n (erase k) w → NoTimes k →
    Ready e tail st w bs → Marks e.g.rhss k st.pos →
    Derives e.g.rhss [Sym.n e.g.root] (x ++ erase k) → Known e.g (erase k) →
    Good' e tail k st := by
  intro n
  induction n using Nat.strongRecOn with
  | _ n IH =>
    intro k
    induction k with
    | nil =>
      intro st w bs x hd _ hr _ _ _
      have hw : w = [] := by cases hd; rfl
      subst hw
      have hbs := yields_nil hr.yields
      exact ⟨[], ⟨[], st, []⟩, .refl _, rfl, by rw [hr.rest, hbs]; rfl, rfl⟩
    | cons y k ihk =>
      intro st w bs x hd hnt hr hm hctx hk
      cases y with
      | times c s m => exact absurd List.mem_cons_self (hnt c s m)
      | finish q =>
        have hm' : Marks e.g.rhss k st.pos := hm.tail (fun k1 h => h)
        have hq : q < st.pos := by
          rcases hm [] q k rfl with h | ⟨_, h⟩
          · exact h
          · exact absurd (Derives.refl []) h
        refine good_step (fun ds => ?_) (ihk st w bs x hd hnt.tail hr hm' hctx hk)
        simp only [mstep]
        rw [if_neg (by omega)]
      | sym s =>
        have hnt' := hnt.tail
        have hkk : Known e.g (erase k) := fun q hq => hk q (List.mem_cons_of_mem _ hq)
        cases s with
        | eps =>
          cases hd with
          | eps hd' =>
            refine good_step (fun ds => rfl) (IH _ (Nat.lt_succ_self _) k st w bs x hd' hnt' hr
              (hm.tail fun k1 h => .head (Step.eps [] _) h) ?_ hkk)
            exact hctx.trans (Derives.one (Step.eps x _))
        | t i =>
          cases hd with
          | @term n' _ w' _ hd' =>
            obtain ⟨st', bs', hp, hr', hlt⟩ := parseTerm_next su hr
            refine good_step (st' := st') (k' := k) (fun ds => ?_) (IH _ (Nat.lt_succ_self _) k st' w' bs'
              (x ++ [Sym.t i]) hd' hnt' hr' (hm.advance hlt) ?_ hkk)
            · simp only [mstep] at hp ⊢
              rw [hp]
            · simpa [erase_sym, List.append_assoc] using hctx
        | n p =>
          have hp : p ∈ e.g.nterms := hk p (by rw [erase_sym]; simp)
          cases hd with
          | @nt n' _ r _ _ hrr hd' =>
            -- continuing after replacing the nonterminal by a right-hand side
            have cont : ∀ (ss : List Sym), ss ∈ e.g.rhss p → LDer e.g.rhss n' (ss ++ erase k) w →
                ∀ st', st'.pos = st.pos → Ready e tail st' w bs →
                Good' e tail (ss.map K.sym ++ k) st' := by
              intro ss hss hd'' st' hpos hr'
              have her : erase (ss.map K.sym ++ k) = ss ++ erase k := by
                rw [erase_append, erase_map]
              have hstep : Step e.g.rhss (x ++ Sym.n p :: erase k) (x ++ (ss ++ erase k)) :=
                Step.nt x _ p ss hss
              refine IH n' (Nat.lt_succ_self _) _ st' w bs x (her ▸ hd'') (hnt'.syms ss) hr' ?_ ?_ ?_
              · rw [hpos]
                exact hm.replace ss fun b h => vanish_rhs hss b h
              · rw [her]
                exact hctx.trans (Derives.one hstep)
              · rw [her]
                exact hk.step su.wf (Step.nt [] _ p ss hss)
            have rh : e.g.rhss p = (e.g.prod p).rhss := rfl
            cases hprod : e.g.prod p with
            | seq ss =>
              rw [rh, hprod] at hrr
              simp [Prod.rhss] at hrr
              subst hrr
              refine good_step (st' := st) (fun ds => ?_) (cont r (by rw [rh, hprod]; simp [Prod.rhss])
                hd' st rfl hr)
              simp [mstep, stepNt, hprod]
            | block cond ss els =>
              have hb := su.plain.block p hp cond ss els hprod
              have hrr0 := hrr
              rw [rh, hprod] at hrr
              simp only [Prod.rhss] at hrr
              cases cond with
              | false =>
                have hels : els = [] := Classical.byContradiction fun h => by
                  have := hb.mpr h
                  cases this
                rw [if_pos hels] at hrr
                simp at hrr
                subst hrr
                refine good_step (st' := st) (fun ds => ?_) (cont r hrr0 hd' st rfl hr)
                simp [mstep, stepNt, hprod]
              | true =>
                have hels : els ≠ [] := hb.mp rfl
                rw [if_neg hels] at hrr
                simp at hrr
                rcases hrr with rfl | rfl
                · refine good_choice 0 (st' := st) (fun ds => ?_) (cont r hrr0 hd' st rfl hr)
                  simp [mstep, stepNt, hprod]
                · refine good_choice 1 (st' := st) (fun ds => ?_) (cont r hrr0 hd' st rfl hr)
                  simp [mstep, stepNt, hprod]
            | enclosure s =>
              have hrr0 := hrr
              rw [rh, hprod] at hrr
              simp [Prod.rhss] at hrr
              subst hrr
              refine good_step (st' := st) (fun ds => ?_) (cont [s] hrr0 hd' st rfl hr)
              simp [mstep, stepNt, hprod]
            | counter s => exact absurd hprod (su.plain.noCounter p hp s)
            | forEach s => exact absurd hprod (su.plain.noForEach p hp s)
            | while_ l1 =>
              have hrr0 := hrr
              rw [rh, hprod] at hrr
              simp [Prod.rhss] at hrr
              subst hrr
              refine good_step (st' := st) (fun ds => ?_) (cont [Sym.n l1] hrr0 hd' st rfl hr)
              simp [mstep, stepNt, hprod]
            | switch cases_ dflt =>
              have hrr0 := hrr
              rw [rh, hprod] at hrr
              simp only [Prod.rhss, List.mem_append, List.mem_map] at hrr
              rcases hrr with ⟨s, hs, rfl⟩ | hrr
              · obtain ⟨d, hd1, hd2⟩ := List.getElem_of_mem hs
                refine good_choice d (st' := st) (fun ds => ?_) (cont [s] hrr0 hd' st rfl hr)
                have : cases_[d]? = some s := by rw [List.getElem?_eq_getElem hd1, hd2]
                simp [mstep, stepNt, hprod, this]
              · cases dflt with
                | none => simp at hrr
                | some s =>
                  simp at hrr
                  subst hrr
                  refine good_choice cases_.length (st' := st) (fun ds => ?_) (cont [s] hrr0 hd' st rfl hr)
                  simp [mstep, stepNt, hprod]
            | lookAhead a b d loop =>
              have hrr0 := hrr
              have ha : [a] ∈ e.g.rhss p := by rw [rh, hprod]; simp [Prod.rhss]
              have hb : [b] ∈ e.g.rhss p := by rw [rh, hprod]; simp [Prod.rhss]
              rw [rh, hprod] at hrr
              simp [Prod.rhss] at hrr
              have hl := lahs_eq (T := T) hprod
              have hdis := (check_disjoint' su.check hp hl).1
              obtain ⟨hs1, hs2, _, hne⟩ := su.sub p hp a b d loop hprod
              obtain ⟨hst1, hst2⟩ := su.starts p hp a b d loop hprod
              have hdis' : ∀ i, i ∈ (e.la p).1 → i ∈ (e.la p).2 → False :=
                fun i h1 h2 => hdis i i (hs1 i h1) (hs2 i h2) rfl
              -- the look-ahead decision
              have hdec : ∃ st' br, parseLookAhead e.tm (e.la p).1 (e.la p).2 a b d st =
                  some (st', br) ∧ st'.pos = st.pos ∧ Ready e tail st' w bs ∧
                  ((br = .alt1 ∧ r = [a]) ∨ (br = .alt2 ∧ r = [b]) ∨
                    (br = .dflt ∧ r = [a] ∧ loop ≠ Option.none)) := by
                cases w with
                | cons i w =>
                  have hx : ∀ s, r = [s] → CanStart e.g.rhss [s] i ∨
                      (CanVanish e.g.rhss [s] ∧ CanFollow e.g.rhss e.g.root p i) := by
                    rintro s rfl
                    exact next_start hctx hd'
                  have hin : ∀ s, (CanStart e.g.rhss [s] i ∨
                      (CanVanish e.g.rhss [s] ∧ CanFollow e.g.rhss e.g.root p i)) →
                      [s] ∈ e.g.rhss p → i ∈ T.lookAheads s p := by
                    intro s h hs
                    exact (C47_lookAheads_exact e.g su.wf T su.tables p hp s hs i).mpr h
                  cases loop with
                  | none =>
                    have hfo := su.follows p hp a b d hprod i
                    have hi : (r = [a] ∧ i ∈ (e.la p).1) ∨ (r = [b] ∧ i ∈ (e.la p).2) := by
                      rcases hrr with rfl | rfl
                      · refine .inl ⟨rfl, ?_⟩
                        rcases hx a rfl with h | ⟨h, h'⟩
                        · exact hst1 i h
                        · exact (hfo h').1 h
                      · refine .inr ⟨rfl, ?_⟩
                        rcases hx b rfl with h | ⟨h, h'⟩
                        · exact hst2 i h
                        · exact (hfo h').2 h
                    obtain ⟨st', h1, h2, h3⟩ := fetch su hp hprod hr (by
                      rcases hi with h | h
                      · exact .inl (hs1 i h.2)
                      · exact .inr (hs2 i h.2)) (by
                      rcases hi with h | h
                      · exact .inl h.2
                      · exact .inr (.inl h.2))
                    refine ⟨st', _, h1, h2, h3, ?_⟩
                    rcases hi with ⟨h, hi⟩ | ⟨h, hi⟩
                    · rw [if_pos hi]
                      exact .inl ⟨rfl, h⟩
                    · rw [if_neg fun h' => hdis' i h' hi, if_pos hi]
                      exact .inr (.inl ⟨rfl, h⟩)
                  | some body =>
                    obtain ⟨rfl, rfl, l2, rfl, hl2⟩ := su.plain.loop p hp a b d body hprod
                    rcases hrr with rfl | rfl
                    · have hT := hin Sym.eps (hx _ rfl) ha
                      obtain ⟨st', h1, h2, h3⟩ := fetch su hp hprod hr (.inl hT) (.inr (.inr rfl))
                      refine ⟨st', _, h1, h2, h3, ?_⟩
                      by_cases h1' : i ∈ (e.la p).1
                      · rw [if_pos h1']
                        exact .inl ⟨rfl, rfl⟩
                      · rw [if_neg h1', if_neg fun h2' => hdis i i hT (hs2 i h2') rfl]
                        exact .inr (.inr ⟨rfl, rfl, by simp⟩)
                    · have hb2 : ¬ CanVanish e.g.rhss [Sym.n l2] := by
                        intro hv
                        refine su.bodies p hp _ _ _ _ hprod ?_
                        obtain ⟨k0, hl0⟩ := LDer.of_derives hv (k := 0) (w := []) .nil
                        cases hl0 with
                        | @nt n'' _ r2 _ _ hr2 hd2 =>
                          have hr2' : r2 = [body, Sym.n p] := by
                            have : r2 ∈ (e.g.prod l2).rhss := hr2
                            rw [hl2] at this
                            simpa [Prod.rhss] using this
                          subst hr2'
                          obtain ⟨_, _, w1, w2, hA, _, hw⟩ := hd2.split [body] [Sym.n p] rfl
                          obtain ⟨rfl, rfl⟩ := List.append_eq_nil_iff.mp hw.symm
                          exact hA.derives
                      have hi : i ∈ (e.la p).2 := by
                        rcases hx _ rfl with h | ⟨h, _⟩
                        · exact hst2 i h
                        · exact absurd h hb2
                      obtain ⟨st', h1, h2, h3⟩ := fetch su hp hprod hr (.inr (hs2 i hi)) (.inr (.inl hi))
                      refine ⟨st', _, h1, h2, h3, ?_⟩
                      rw [if_neg fun h' => hdis' i h' hi, if_pos hi]
                      exact .inr (.inl ⟨rfl, rfl⟩)
                | nil =>
                  have hv : ∀ s, r = [s] → CanVanish e.g.rhss [s] ∧
                      Derives e.g.rhss [Sym.n e.g.root] (x ++ [Sym.n p]) := by
                    rintro s rfl
                    exact end_vanishes hctx hd'
                  have hends := su.ends p hp a b d loop hprod (by
                    rcases hrr with rfl | rfl
                    · exact ⟨x, (hv a rfl).2⟩
                    · exact ⟨x, (hv b rfl).2⟩)
                  obtain ⟨rfl, he1, he2⟩ := hends
                  obtain ⟨st', h1, h2, h3⟩ := fetch_end (a := a) (b := b) (d := d)
                    (l1 := (e.la p).1) (l2 := (e.la p).2) hr
                  refine ⟨st', _, h1, h2, h3, ?_⟩
                  rcases hrr with rfl | rfl
                  · have := he1 (hv a rfl).1
                    refine .inl ⟨?_, rfl⟩
                    simp only [branch]
                    rw [if_pos ⟨this.2, this.1⟩]
                  · have := he2 (hv b rfl).1
                    refine .inr (.inl ⟨?_, rfl⟩)
                    simp only [branch]
                    rw [if_neg fun h => hne ⟨h.1, this.2⟩, if_pos ⟨this.2, this.1⟩]
              obtain ⟨st', br, hpl, hpos, hr', hbr⟩ := hdec
              cases loop with
              | none =>
                rcases hbr with ⟨rfl, rfl⟩ | ⟨rfl, rfl⟩ | ⟨_, _, h⟩
                · refine good_step (st' := st') (fun ds => ?_) (cont [a] ha hd' st' hpos hr')
                  simp only [mstep, stepNt]
                  simp [hprod, hpl]
                · refine good_step (st' := st') (fun ds => ?_) (cont [b] hb hd' st' hpos hr')
                  simp only [mstep, stepNt]
                  simp [hprod, hpl]
                · exact absurd rfl h
              | some body =>
                obtain ⟨rfl, _, l2, rfl, hl2⟩ := su.plain.loop p hp a b d body hprod
                have hbr' : ((br = .alt1 ∨ br = .dflt) ∧ r = [Sym.eps]) ∨
                    (br = .alt2 ∧ r = [Sym.n l2]) := by
                  rcases hbr with ⟨h1, h2⟩ | h | ⟨h1, h2, _⟩
                  · exact .inl ⟨.inl h1, h2⟩
                  · exact .inr h
                  · exact .inl ⟨.inr h1, h2⟩
                rcases hbr' with ⟨hbr1, rfl⟩ | ⟨rfl, rfl⟩
                · cases hd' with
                  | @eps n'' _ _ hd'' =>
                    have hg : Good' e tail k st' := by
                      refine IH n'' (by omega) k st' w bs x hd'' hnt' hr' ?_ ?_ hkk
                      · rw [hpos]
                        exact hm.tail fun k1 h => vanish_rhs ha _ (.head (Step.eps [] _) h)
                      · refine hctx.trans ?_
                        exact Derives.append_left x
                          (derives_cons ha (Derives.one (Step.eps [] _)))
                    refine good_step (st' := st') (fun ds => ?_) hg
                    rcases hbr1 with rfl | rfl
                    · simp only [mstep, stepNt]
                      simp [hprod, hpl]
                    · simp only [mstep, stepNt]
                      simp [hprod, hpl]
                · cases hd' with
                  | @nt n'' _ r2 _ _ hr2 hd'' =>
                    have hr2' : r2 = [body, Sym.n p] := by
                      have : r2 ∈ (e.g.prod l2).rhss := hr2
                      rw [hl2] at this
                      simpa [Prod.rhss] using this
                    subst hr2'
                    have hbody : ¬ CanVanish e.g.rhss [body] := su.bodies p hp _ _ _ _ hprod
                    have hder : Derives e.g.rhss (Sym.n p :: erase k) (body :: Sym.n p :: erase k) := by
                      refine derives_cons hb ?_
                      exact derives_cons hr2 (.refl _)
                    have hg : Good' e tail
                        (K.sym body :: K.finish st'.pos :: K.sym (Sym.n p) :: k) st' := by
                      refine IH n'' (by omega) _ st' w bs x hd''
                        (((hnt'.cons (fun _ _ _ h => by cases h)).cons
                          (fun _ _ _ h => by cases h)).cons (fun _ _ _ h => by cases h)) hr' ?_ ?_ ?_
                      · intro k1 q k2 hk1
                        cases k1 with
                        | nil => simp at hk1
                        | cons z1 k1 =>
                          cases k1 with
                          | nil =>
                            simp at hk1
                            obtain ⟨rfl, rfl, _⟩ := hk1
                            exact .inr ⟨Nat.le_refl _, hbody⟩
                          | cons z2 k1 =>
                            simp only [List.cons_append, List.cons.injEq] at hk1
                            obtain ⟨rfl, rfl, hk1⟩ := hk1
                            rw [hpos]
                            rcases hm k1 q k2 hk1 with h | ⟨h, h2⟩
                            · exact .inl h
                            · refine .inr ⟨h, fun hv => h2 ?_⟩
                              -- `k1` starts with the loop itself
                              have hv' : CanVanish e.g.rhss ([body] ++ erase k1) := hv
                              have := Derives.refl (rhss := e.g.rhss) ([] : List Sym)
                              obtain ⟨k0, hl0⟩ := LDer.of_derives hv' (k := 0) (w := []) .nil
                              obtain ⟨_, _, w1, w2, _, hB, hw⟩ := hl0.split [body] (erase k1) rfl
                              obtain ⟨rfl, rfl⟩ := List.append_eq_nil_iff.mp hw.symm
                              exact hB.derives
                      · exact hctx.trans (Derives.append_left x hder)
                      · exact hk.derives su.wf hder
                    refine good_step (st' := st') (fun ds => ?_) hg
                    simp only [mstep, stepNt]
                    simp [hprod, hpl]

end

/-- **C48** Completeness: take any grammar that passes the compiler's look-ahead
check and whose look-ahead tokens are not prefixes of one another.  Then for
every sentence of the grammar there are values of the user's conditions and
switch expressions (needed only where the grammar has such) for which the unit's
parser, looking one token ahead, accepts the sentence and consumes exactly it. -/
theorem C48_sentence_is_accepted (e : Env) (T : Tab) (dump : Nat → Nat)
    (tail : List Byte) (su : Setup e T dump tail) (w : List Nat) (bs : List Byte)
    (hw : Derives e.g.rhss [Sym.n e.g.root] (w.map Sym.t)) (hy : Yields e.tm w bs) :
    ∃ ds, Accepts e (bs ++ tail) tail ds := by
  obtain ⟨k0, h0⟩ := lder_terms (rhss := e.g.rhss) w
  obtain ⟨n, hn⟩ := LDer.of_derives hw h0
  obtain ⟨ds, c, h1, h2, h3, h4⟩ := complete_aux su n [K.sym (Sym.n e.g.root)]
    ⟨0, bs ++ tail, .none, 0⟩ w bs [] hn (fun c s m hm => by simp at hm)
    ⟨rfl, hy, .inl ⟨rfl, Nat.le_refl _⟩⟩
    (by
      intro k1 q k2 hk
      cases k1 with
      | nil => simp at hk
      | cons z k1 => simp at hk)
    (.refl _) (known_single su.wf.root)
  exact ⟨ds, c, h1, h2, h3, h4⟩

end Verif.Grammar
