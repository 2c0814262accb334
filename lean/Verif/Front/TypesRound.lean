import Verif.Front.TypesDecode
/-!
# A unification determines its type
-/

namespace Verif.Front.Types

mutual
/-- How many steps reading takes at most. -/
def weight : Ty → Nat
  | .alias t => weight t + 1
  | .memo _ t => weight t + 1
  | .con _ _ t => weight t + 5
  | .map _ _ a _ b => weight a + weight b + 5
  | .tuple es => weightEls es + 5
  | .func _ t es => weight t + weightEls es + 5
  | .bitfield _ bs _ => bs.length + 5
  | _ => 5
/-- The same for elements. -/
def weightEls : Els → Nat
  | .nil => 1
  | .cons _ _ t es => weight t + weightEls es + 1
end

theorem dec_tag (w : Text) (tag : Tag) (r : Text) (n : Nat) (hl : lookup w table = some tag)
    (hw : w.all isWord = true) (h0 : ∃ c w', w = c :: w' ∧ c ≠ '<')
    (hr : r = [] ∨ ∃ c r', r = c :: r' ∧ isWord c = false) : dec (n + 1) (w ++ r) = decTag n tag r := by
  obtain ⟨e1, e2⟩ := takeWhile_word w r (fun c hc => List.all_eq_true.1 hw c hc) hr
  unfold dec
  have : pre? "<never-match>".toList (w ++ r) = none := by
    obtain ⟨c, w', rfl, hc⟩ := h0
    show (if '<' = c then _ else none) = none
    rw [if_neg (fun e => hc e.symm)]
  rw [this, e1, e2]
  dsimp only
  rw [hl]

theorem paren_word (r : Text) : ('(' :: r) = [] ∨ ∃ c r', ('(' :: r) = c :: r' ∧ isWord c = false := .inr ⟨_, _, rfl, rfl⟩

theorem lt_word (r : Text) : ('<' :: r) = [] ∨ ∃ c r', ('<' :: r) = c :: r' ∧ isWord c = false := .inr ⟨_, _, rfl, rfl⟩

/-- A type starts with neither an asterisk nor a closing parenthesis. -/
theorem text_first (t : Ty) : ∀ s, text (bare t) = some s → ∃ c r, s = c :: r ∧ c ≠ '*' ∧ c ≠ ')' ∧ c ≠ ' ' := by
  have lit : ∀ (c : Char) (r s : Text), (c != '*' && c != ')' && c != ' ') = true → some (c :: r) = some s →
      ∃ c r, s = c :: r ∧ c ≠ '*' ∧ c ≠ ')' ∧ c ≠ ' ' := by
    intro c r s hc h
    injection h with h
    simp only [Bool.and_eq_true, bne_iff_ne] at hc
    exact ⟨c, r, h.symm, hc.1.1, hc.1.2, hc.2⟩
  induction t using Ty.rec (motive_2 := fun _ => True) with
  | auto => intro s h; cases h
  | never => intro s h; exact lit _ _ s rfl h
  | atom a => intro s h; cases a <;> exact lit _ _ s rfl h
  | int sg w => intro s h; cases sg <;> exact lit _ _ s rfl h
  | library n => intro s h; exact lit _ _ s rfl h
  | member n => intro s h; exact lit _ _ s rfl h
  | decl id => intro s h; cases id with
    | none => cases h
    | some id => exact lit _ _ s rfl h
  | unresolved => intro s h; cases h
  | alias t ih => intro s h; simp only [bare, text] at h; exact ih s h
  | con c k t ih =>
    intro s h
    simp only [bare, text] at h
    split at h
    · cases h
    · cases c <;> exact lit _ _ s rfl h
  | map i kk a vk b iha ihb =>
    intro s h
    simp only [bare, text] at h
    split at h
    · cases i <;> exact lit _ _ s rfl h
    · cases h
  | tuple es ih =>
    intro s h
    simp only [bare, text] at h
    split at h
    · cases h
    · exact lit _ _ s rfl h
  | func k t es ih ih' =>
    intro s h
    simp only [bare, text] at h
    split at h
    · exact lit _ _ s rfl h
    · cases h
  | bitfield w bs at' => intro s h; exact lit _ _ s rfl h
  | wild w => intro s h; cases w <;> exact lit _ _ s rfl h
  | memo s' t ih => intro s h; simp only [bare] at h; exact ih s h
  | nil => trivial
  | cons => trivial

theorem pre?_star (s : Text) (h : ∃ c r, s = c :: r ∧ c ≠ '*') (r : Text) : pre? "(*)".toList ('(' :: (s ++ r)) = none := by
  obtain ⟨c, r', rfl, hc⟩ := h
  show (if '*' = c then _ else none) = none
  rw [if_neg (fun e => hc e.symm)]

theorem pre?_open (r : Text) : pre? "(".toList ('(' :: r) = some r := rfl

theorem pre?_close (r : Text) : pre? ")".toList (')' :: r) = some r := rfl

theorem restOk_close (r : Text) : RestOk (')' :: r) := .inr ⟨_, _, rfl, .inl rfl⟩
theorem restOk_comma (r : Text) : RestOk (',' :: r) := .inr ⟨_, _, rfl, .inr (.inl rfl)⟩
theorem restOk_arrow (r : Text) : RestOk ('-' :: r) := .inr ⟨_, _, rfl, .inr (.inr rfl)⟩

/-- Types with one parameter that are not iterators: the word, and what stands for all of them. -/
def Con.word : Con → Option (Text × Wild)
  | .list => some ("list".toList, .list)
  | .set => some ("set".toList, .set)
  | .vector => some ("vector".toList, .vector)
  | .optional => some ("optional".toList, .optional)
  | .result => some ("result".toList, .result)
  | .strongRef => some ("strong_ref".toList, .strongRef)
  | .weakRef => some ("weak_ref".toList, .weakRef)
  | .valueRef => some ("value_ref".toList, .valueRef)
  | .typeOf => some ("type".toList, .typeOf)
  | _ => none

/-- Reading the rest of a type with one parameter. -/
theorem decTag_con (c : Con) (w : Wild) (t : Ty) (s : Text) (n : Nat) (hs : ∃ c r, s = c :: r ∧ c ≠ '*')
    (h : ∀ r, RestOk r → dec n (s ++ r) = some (strip t, r)) (r : Text) :
    decTag (n + 1) (.con c w) ('(' :: (s ++ ')' :: r)) = some (.con c false (strip t), r) := by
  unfold decTag
  rw [pre?_star s hs, pre?_open]
  dsimp only
  rw [h _ (restOk_close r)]
  rfl

theorem decTag_map (a b : Ty) (s s' : Text) (n : Nat) (hs : ∃ c r, s = c :: r ∧ c ≠ '*')
    (h : ∀ r, RestOk r → dec n (s ++ r) = some (strip a, r)) (h' : ∀ r, RestOk r → dec n (s' ++ r) = some (strip b, r)) (r : Text) :
    decTag (n + 1) .map ('(' :: (s ++ '-' :: '>' :: (s' ++ ')' :: r))) = some (.map false false (strip a) false (strip b), r) := by
  unfold decTag
  rw [pre?_star s hs, pre?_open]
  dsimp only
  rw [h _ (restOk_arrow _)]
  dsimp only
  have : pre? "->".toList ('-' :: '>' :: (s' ++ ')' :: r)) = some (s' ++ ')' :: r) := rfl
  rw [this]
  dsimp only
  rw [h' _ (restOk_close r)]
  rfl

theorem decTag_iter (w : Text) (tag : Tag) (r : Text) (n : Nat) (hl : lookup w table = some tag)
    (hw : w.all isWord = true) (h1 : ∀ r, pre? "(bytes)".toList ('(' :: (w ++ '(' :: r)) = none)
    (h2 : ∀ r, pre? "(stream)".toList ('(' :: (w ++ '(' :: r)) = none) :
    decTag (n + 1) .iter ('(' :: (w ++ '(' :: r)) = decIter n tag ('(' :: r) := by
  obtain ⟨e1, e2⟩ := takeWhile_word w ('(' :: r) (fun c hc => List.all_eq_true.1 hw c hc) (paren_word r)
  unfold decTag
  rw [h1, h2, pre?_open]
  dsimp only
  rw [e1, e2, hl]

theorem bits_round (bs : List Bit) (h : ∀ b ∈ bs, BitOk b) : ∀ n, bs.length < n → ∀ r,
    decBits n (bitsText bs ++ ')' :: r) = some (bs.map (fun b => { b with attrs := 0 }), r) := by
  induction bs with
  | nil =>
    intro n hn r
    match n, hn with
    | n + 1, _ => rfl
  | cons b bs ih =>
    intro n hn r
    match n, hn with
    | n + 1, hn =>
      obtain ⟨h1, h2, h3⟩ := h b (by simp)
      have e : bitsText (b :: bs) ++ ')' :: r
          = b.name ++ ':' :: (decimal b.lower ++ ':' :: (decimal b.upper ++ ',' :: (bitsText bs ++ ')' :: r))) := by
        simp only [bitsText, bitText, List.append_assoc, List.cons_append, List.nil_append]
      rw [e]
      unfold decBits
      have e0 : pre? [')'] (b.name ++ ':' :: (decimal b.lower ++ ':' :: (decimal b.upper ++ ',' :: (bitsText bs ++ ')' :: r)))) = none := by
        cases hb : b.name with
        | nil => rfl
        | cons c l =>
          show (if ')' = c then _ else none) = none
          rw [if_neg]
          intro e
          apply h1
          rw [hb, e]
          simp
      have dn : ∀ (c : Char) (k : Nat), isDig c = false → c ∉ decimal k := by
        intro c k hc hm
        have := decimal_digits k c hm
        rw [hc] at this; cases this
      rw [e0]
      dsimp only
      rw [upTo_append ':' _ _ h2]
      dsimp only
      rw [upTo_append ':' _ _ (dn ':' _ rfl)]
      dsimp only
      rw [upTo_append ',' _ _ (dn ',' _ rfl)]
      dsimp only
      rw [ih (fun b hb => h b (by simp [hb])) n (by simp only [List.length_cons] at hn; omega) r]
      dsimp only
      rw [value_decimal, value_decimal]
      rfl

theorem int_round (pre : Text) (sg : Bool) (w : Nat) (n : Nat) (r : Text) (hr : RestOk r)
    (hp : (sg = true ∧ pre = "int".toList) ∨ (sg = false ∧ pre = "uint".toList)) :
    dec (n + 1) ((pre ++ decimal w) ++ r) = some (.int sg w, r) := by
  have hw : ∀ c ∈ pre ++ decimal w, isWord c = true := by
    intro c hc
    rcases List.mem_append.1 hc with h | h
    · have : pre.all isWord = true := by rcases hp with ⟨-, rfl⟩ | ⟨-, rfl⟩ <;> rfl
      exact List.all_eq_true.1 this c h
    · exact isDig_word (decimal_digits w c h)
  obtain ⟨e1, e2⟩ := takeWhile_word _ r hw hr.word
  obtain ⟨ds, c, ed, hc⟩ := decimal_last w
  have el : lookup (pre ++ decimal w) table = none := by
    rw [ed, ← List.append_assoc]; exact lookup_digit _ c hc
  unfold dec
  have : pre? "<never-match>".toList ((pre ++ decimal w) ++ r) = none := by
    rcases hp with ⟨-, rfl⟩ | ⟨-, rfl⟩ <;> rfl
  rw [this, e1, e2]
  dsimp only
  rw [el]
  dsimp only
  rcases hp with ⟨rfl, rfl⟩ | ⟨rfl, rfl⟩
  · rw [pre?_append]
    dsimp only
    rw [value_decimal]
  · have : pre? "int".toList ("uint".toList ++ decimal w) = none := rfl
    rw [this]
    dsimp only
    rw [pre?_append]
    dsimp only
    rw [value_decimal]

theorem decTag_iter_bytes (n : Nat) (r : Text) : decTag (n + 1) .iter ("(bytes)".toList ++ r) = some (.atom .bytesIter, r) := by
  unfold decTag
  rw [pre?_append]

theorem decTag_iter_stream (n : Nat) (r : Text) : decTag (n + 1) .iter ("(stream)".toList ++ r) = some (.atom .streamIter, r) := by
  unfold decTag
  have : pre? "(bytes)".toList ("(stream)".toList ++ r) = none := rfl
  rw [this, pre?_append]

theorem decTag_atom (n : Nat) (a : Atom) (r : Text) : decTag n (.atom a) r = some (.atom a, r) := by
  unfold decTag
  rfl

theorem atom_word (w : Text) (a : Atom) (n : Nat) (r : Text) (hr : RestOk r) (hl : lookup w table = some (.atom a))
    (hw : w.all isWord = true) (h0 : ∃ c w', w = c :: w' ∧ c ≠ '<') : dec (n + 1) (w ++ r) = some (.atom a, r) := by
  rw [dec_tag w (.atom a) r n hl hw h0 hr.word, decTag_atom]

theorem atom_round (a : Atom) (n : Nat) (r : Text) (hr : RestOk r) : dec (n + 2) (a.text ++ r) = some (.atom a, r) := by
  cases a
  case bytesIter =>
    rw [show Atom.text .bytesIter ++ r = "iterator".toList ++ ("(bytes)".toList ++ r) from rfl,
      dec_tag "iterator".toList .iter ("(bytes)".toList ++ r) (n + 1) rfl rfl ⟨_, _, rfl, by decide⟩ (paren_word _), decTag_iter_bytes]
  case streamIter =>
    rw [show Atom.text .streamIter ++ r = "iterator".toList ++ ("(stream)".toList ++ r) from rfl,
      dec_tag "iterator".toList .iter ("(stream)".toList ++ r) (n + 1) rfl rfl ⟨_, _, rfl, by decide⟩ (paren_word _), decTag_iter_stream]
  case exception =>
    rw [show Atom.text .exception = "exception".toList from rfl,
      dec_tag "exception".toList .exc r (n + 1) rfl rfl ⟨_, _, rfl, by decide⟩ hr.word]
    unfold decTag
    have : pre? "(*)".toList r = none := by
      rcases hr with rfl | ⟨c, r', rfl, h⟩
      · rfl
      · rcases h with rfl | rfl | rfl <;> rfl
    rw [this]
  case address => exact atom_word "address".toList _ _ r hr rfl rfl ⟨_, _, rfl, by decide⟩
  case bool => exact atom_word "bool".toList _ _ r hr rfl rfl ⟨_, _, rfl, by decide⟩
  case bytes => exact atom_word "bytes".toList _ _ r hr rfl rfl ⟨_, _, rfl, by decide⟩
  case error => exact atom_word "error".toList _ _ r hr rfl rfl ⟨_, _, rfl, by decide⟩
  case interval => exact atom_word "interval".toList _ _ r hr rfl rfl ⟨_, _, rfl, by decide⟩
  case network => exact atom_word "network".toList _ _ r hr rfl rfl ⟨_, _, rfl, by decide⟩
  case null => exact atom_word "null".toList _ _ r hr rfl rfl ⟨_, _, rfl, by decide⟩
  case port => exact atom_word "port".toList _ _ r hr rfl rfl ⟨_, _, rfl, by decide⟩
  case real => exact atom_word "real".toList _ _ r hr rfl rfl ⟨_, _, rfl, by decide⟩
  case regexp => exact atom_word "regexp".toList _ _ r hr rfl rfl ⟨_, _, rfl, by decide⟩
  case sink => exact atom_word "sink".toList _ _ r hr rfl rfl ⟨_, _, rfl, by decide⟩
  case stream => exact atom_word "stream".toList _ _ r hr rfl rfl ⟨_, _, rfl, by decide⟩
  case streamView => exact atom_word "view::stream".toList _ _ r hr rfl rfl ⟨_, _, rfl, by decide⟩
  case string => exact atom_word "string".toList _ _ r hr rfl rfl ⟨_, _, rfl, by decide⟩
  case time => exact atom_word "time".toList _ _ r hr rfl rfl ⟨_, _, rfl, by decide⟩
  case void => exact atom_word "void".toList _ _ r hr rfl rfl ⟨_, _, rfl, by decide⟩

theorem wild_word (w : Text) (tag : Tag) (wd : Wild) (n : Nat) (r : Text) (hl : lookup w table = some tag)
    (hw : w.all isWord = true) (h0 : ∃ c w', w = c :: w' ∧ c ≠ '<')
    (ht : decTag (n + 4) tag ("(*)".toList ++ r) = some (.wild wd, r)) (x : Text) (e : x = w ++ ("(*)".toList ++ r)) :
    dec (n + 5) x = some (.wild wd, r) := by
  rw [e, dec_tag w tag ("(*)".toList ++ r) (n + 4) hl hw h0 (paren_word _), ht]

theorem star_con (c : Con) (w : Wild) (n : Nat) (r : Text) : decTag (n + 1) (.con c w) ("(*)".toList ++ r) = some (.wild w, r) := by
  unfold decTag; rw [pre?_append]
theorem star_only (w : Wild) (n : Nat) (r : Text) : decTag (n + 1) (.only w) ("(*)".toList ++ r) = some (.wild w, r) := by
  unfold decTag; rw [pre?_append]
theorem star_map (n : Nat) (r : Text) : decTag (n + 1) .map ("(*)".toList ++ r) = some (.wild .map, r) := by
  unfold decTag; rw [pre?_append]
theorem star_tuple (n : Nat) (r : Text) : decTag (n + 1) .tuple ("(*)".toList ++ r) = some (.wild .tuple, r) := by
  unfold decTag; rw [pre?_append]
theorem star_func (n : Nat) (r : Text) : decTag (n + 1) .func ("(*)".toList ++ r) = some (.wild .function, r) := by
  unfold decTag; rw [pre?_append]
theorem star_bitfield (n : Nat) (r : Text) : decTag (n + 1) .bitfield ("(*)".toList ++ r) = some (.wild .bitfield, r) := by
  unfold decTag; rw [pre?_append]
theorem star_member (n : Nat) (r : Text) : decTag (n + 1) .member ("(*)".toList ++ r) = some (.wild .member, r) := by
  unfold decTag; rw [pre?_append]
theorem star_exc (n : Nat) (r : Text) : decTag (n + 1) .exc ("(*)".toList ++ r) = some (.wild .exception, r) := by
  unfold decTag; rw [pre?_append]

theorem wild_iter (w : Text) (tag : Tag) (n : Nat) (r : Text) (wd wd' : Wild) (hl : lookup w table = some tag)
    (hw : w.all isWord = true) (h1 : ∀ r, pre? "(bytes)".toList ('(' :: (w ++ '(' :: r)) = none)
    (h2 : ∀ r, pre? "(stream)".toList ('(' :: (w ++ '(' :: r)) = none)
    (ht : decTag (n + 2) tag ("(*)".toList ++ (')' :: r)) = some (.wild wd, ')' :: r))
    (hd : wd = .list ∧ wd' = .listIter ∨ wd = .set ∧ wd' = .setIter ∨ wd = .vector ∧ wd' = .vectorIter ∨ wd = .map ∧ wd' = .mapIter)
    (x : Text) (e : x = "iterator".toList ++ '(' :: (w ++ '(' :: '*' :: ')' :: (')' :: r))) :
    dec (n + 5) x = some (.wild wd', r) := by
  rw [e, dec_tag "iterator".toList .iter _ (n + 4) rfl rfl ⟨_, _, rfl, by decide⟩ (paren_word _),
    decTag_iter w tag _ (n + 3) hl hw h1 h2]
  unfold decIter
  rw [show '(' :: '*' :: ')' :: (')' :: r) = "(*)".toList ++ (')' :: r) from rfl, ht]
  dsimp only
  rw [pre?_close]
  dsimp only
  rcases hd with ⟨rfl, rfl⟩ | ⟨rfl, rfl⟩ | ⟨rfl, rfl⟩ | ⟨rfl, rfl⟩ <;> rfl

theorem wild_round (w : Wild) (n : Nat) (r : Text) : dec (n + 5) (w.text ++ r) = some (.wild w, r) := by
  cases w
  case int =>
    rw [show Wild.text .int ++ r = "int".toList ++ ("<*>".toList ++ r) from rfl,
      dec_tag "int".toList .int ("<*>".toList ++ r) (n + 4) rfl rfl ⟨_, _, rfl, by decide⟩ (lt_word _)]
    unfold decTag
    rw [pre?_append]
  case uint =>
    rw [show Wild.text .uint ++ r = "uint".toList ++ ("<*>".toList ++ r) from rfl,
      dec_tag "uint".toList .uint ("<*>".toList ++ r) (n + 4) rfl rfl ⟨_, _, rfl, by decide⟩ (lt_word _)]
    unfold decTag
    rw [pre?_append]
  case listIter =>
    exact wild_iter "list".toList _ n r .list _ rfl rfl (fun _ => rfl) (fun _ => rfl) (star_con .list .list _ _) (.inl ⟨rfl, rfl⟩) _ rfl
  case setIter =>
    exact wild_iter "set".toList _ n r .set _ rfl rfl (fun _ => rfl) (fun _ => rfl) (star_con .set .set _ _) (.inr (.inl ⟨rfl, rfl⟩)) _ rfl
  case vectorIter =>
    exact wild_iter "vector".toList _ n r .vector _ rfl rfl (fun _ => rfl) (fun _ => rfl) (star_con .vector .vector _ _) (.inr (.inr (.inl ⟨rfl, rfl⟩))) _ rfl
  case mapIter =>
    exact wild_iter "map".toList _ n r .map _ rfl rfl (fun _ => rfl) (fun _ => rfl) (star_map _ _) (.inr (.inr (.inr ⟨rfl, rfl⟩))) _ rfl
  case bitfield => exact wild_word "bitfield".toList _ _ n r rfl rfl ⟨_, _, rfl, by decide⟩ (star_bitfield _ r) _ rfl
  case enum => exact wild_word "enum".toList _ _ n r rfl rfl ⟨_, _, rfl, by decide⟩ (star_only _ _ r) _ rfl
  case exception => exact wild_word "exception".toList _ _ n r rfl rfl ⟨_, _, rfl, by decide⟩ (star_exc _ r) _ rfl
  case function => exact wild_word "function".toList _ _ n r rfl rfl ⟨_, _, rfl, by decide⟩ (star_func _ r) _ rfl
  case list => exact wild_word "list".toList _ _ n r rfl rfl ⟨_, _, rfl, by decide⟩ (star_con _ _ _ r) _ rfl
  case map => exact wild_word "map".toList _ _ n r rfl rfl ⟨_, _, rfl, by decide⟩ (star_map _ r) _ rfl
  case member => exact wild_word "member".toList _ _ n r rfl rfl ⟨_, _, rfl, by decide⟩ (star_member _ r) _ rfl
  case optional => exact wild_word "optional".toList _ _ n r rfl rfl ⟨_, _, rfl, by decide⟩ (star_con _ _ _ r) _ rfl
  case result => exact wild_word "result".toList _ _ n r rfl rfl ⟨_, _, rfl, by decide⟩ (star_con _ _ _ r) _ rfl
  case set => exact wild_word "set".toList _ _ n r rfl rfl ⟨_, _, rfl, by decide⟩ (star_con _ _ _ r) _ rfl
  case strongRef => exact wild_word "strong_ref".toList _ _ n r rfl rfl ⟨_, _, rfl, by decide⟩ (star_con _ _ _ r) _ rfl
  case struct => exact wild_word "struct".toList _ _ n r rfl rfl ⟨_, _, rfl, by decide⟩ (star_only _ _ r) _ rfl
  case tuple => exact wild_word "tuple".toList _ _ n r rfl rfl ⟨_, _, rfl, by decide⟩ (star_tuple _ r) _ rfl
  case typeOf => exact wild_word "type".toList _ _ n r rfl rfl ⟨_, _, rfl, by decide⟩ (star_con _ _ _ r) _ rfl
  case union => exact wild_word "union".toList _ _ n r rfl rfl ⟨_, _, rfl, by decide⟩ (star_only _ _ r) _ rfl
  case unit => exact wild_word "unit".toList _ _ n r rfl rfl ⟨_, _, rfl, by decide⟩ (star_only _ _ r) _ rfl
  case valueRef => exact wild_word "value_ref".toList _ _ n r rfl rfl ⟨_, _, rfl, by decide⟩ (star_con _ _ _ r) _ rfl
  case vector => exact wild_word "vector".toList _ _ n r rfl rfl ⟨_, _, rfl, by decide⟩ (star_con _ _ _ r) _ rfl
  case weakRef => exact wild_word "weak_ref".toList _ _ n r rfl rfl ⟨_, _, rfl, by decide⟩ (star_con _ _ _ r) _ rfl

/-- The unification of a type, read back. -/
theorem dec_text (t : Ty) : ∀ s, text (bare t) = some s → NamesOk t → ∀ n, weight t ≤ n → ∀ r, RestOk r →
    dec n (s ++ r) = some (strip t, r) := by
  induction t using Ty.rec (motive_2 := fun es =>
      (∀ s, tupleText (bareEls es) = some s → NamesOkEls es → ∀ n, weightEls es ≤ n → ∀ r,
        decTuple n (s ++ ')' :: r) = some (stripEls es, r)) ∧
      (∀ s, paramsText (bareEls es) = some s → NamesOkEls es → ∀ n, weightEls es ≤ n → ∀ r,
        decParams n (s ++ ')' :: r) = some (stripEls es, r) ∧ RestOk (s ++ ')' :: r))) with
  | auto => intro s h; cases h
  | never =>
    intro s h _ n hn r hr
    injection h with h
    subst h
    match n, hn with
    | n + 1, _ =>
      unfold dec
      rw [pre?_append]
      rfl
  | atom a =>
    intro s h _ n hn r hr
    injection h with h
    subst h
    have hn' : 5 ≤ n := hn
    match n, hn' with
    | n + 2, _ => exact atom_round a n r hr
  | int sg w =>
    intro s h _ n hn r hr
    have hn' : 5 ≤ n := hn
    match n, hn' with
    | n + 1, _ =>
      cases sg with
      | true =>
        injection h with h
        subst h
        exact int_round "int".toList true w n r hr (.inl ⟨rfl, rfl⟩)
      | false =>
        injection h with h
        subst h
        exact int_round "uint".toList false w n r hr (.inr ⟨rfl, rfl⟩)
  | library m =>
    intro s h hm n hn r hr
    injection h with h
    subst h
    have hn' : 5 ≤ n := hn
    match n, hn' with
    | n + 2, _ =>
      have e : ("library(".toList ++ m ++ [')']) ++ r = "library".toList ++ '(' :: (m ++ ')' :: r) := by
        rw [List.append_assoc, List.append_assoc]; rfl
      rw [e, dec_tag "library".toList .library _ (n + 1) rfl rfl ⟨_, _, rfl, by decide⟩ (paren_word _)]
      unfold decTag
      rw [pre?_open]
      dsimp only
      rw [upTo_append ')' m r hm.1]
      rfl
  | member m =>
    intro s h hm n hn r hr
    injection h with h
    subst h
    have hn' : 5 ≤ n := hn
    match n, hn' with
    | n + 2, _ =>
      have e : ("member(".toList ++ m ++ [')']) ++ r = "member".toList ++ '(' :: (m ++ ')' :: r) := by
        rw [List.append_assoc, List.append_assoc]; rfl
      rw [e, dec_tag "member".toList .member _ (n + 1) rfl rfl ⟨_, _, rfl, by decide⟩ (paren_word _)]
      unfold decTag
      have : pre? "(*)".toList ('(' :: (m ++ ')' :: r)) = none := by
        obtain ⟨h1, h2⟩ := hm
        match m, h1, h2 with
        | [], _, _ => rfl
        | [c], h1, h2 =>
          show (if '*' = c then _ else none) = none
          rw [if_neg (fun e => h2 (by rw [e]))]
        | c :: d :: m, h1, h2 =>
          show (if '*' = c then (if ')' = d then _ else none) else none) = none
          rw [if_neg (c := ')' = d) (fun e => h1 (by rw [e]; simp))]
          split <;> rfl
      rw [this, pre?_open]
      dsimp only
      rw [upTo_append ')' m r hm.1]
      rfl
  | decl id =>
    intro s h hm n hn r hr
    cases id with
    | none => cases h
    | some m =>
      injection h with h
      subst h
      have hn' : 5 ≤ n := hn
      match n, hn' with
      | n + 2, _ =>
        have e : ("name(".toList ++ m ++ [')']) ++ r = "name".toList ++ '(' :: (m ++ ')' :: r) := by
          rw [List.append_assoc, List.append_assoc]; rfl
        rw [e, dec_tag "name".toList .name _ (n + 1) rfl rfl ⟨_, _, rfl, by decide⟩ (paren_word _)]
        unfold decTag
        rw [pre?_open]
        dsimp only
        rw [upTo_append ')' m r hm.1]
        rfl
  | unresolved => intro s h; cases h
  | alias t ih =>
    intro s h hm n hn r hr
    simp only [bare, text] at h
    simp only [NamesOk] at hm
    simp only [weight] at hn
    simp only [strip]
    exact ih s h hm n (by omega) r hr
  | memo s' t ih =>
    intro s h hm n hn r hr
    simp only [bare] at h
    simp only [NamesOk] at hm
    simp only [weight] at hn
    simp only [strip]
    exact ih s h hm n (by omega) r hr
  | con c k t ih =>
    intro s h hm n hn r hr
    simp only [bare, text] at h
    simp only [NamesOk] at hm
    simp only [weight] at hn
    simp only [strip]
    cases ht : text (bare t) with
    | none => rw [ht] at h; cases h
    | some s1 =>
      rw [ht] at h
      dsimp only at h
      injection h with h
      subst h
      have hs : ∃ c r, s1 = c :: r ∧ c ≠ '*' := by
        obtain ⟨c, r, e, h1, -⟩ := text_first t s1 ht
        exact ⟨c, r, e, h1⟩
      match n, hn with
      | n + 5, hn =>
        have ihn : ∀ k, weight t ≤ k → ∀ r, RestOk r → dec k (s1 ++ r) = some (strip t, r) := fun k hk r hr => ih s1 ht hm k hk r hr
        have plain : ∀ (w : Text) (wd : Wild), lookup w table = some (.con c wd) → w.all isWord = true →
            (∃ a w', w = a :: w' ∧ a ≠ '<') → c.head = w ++ ['('] → c.tail = [')'] →
            dec (n + 5) (c.head ++ s1 ++ c.tail ++ r) = some (.con c false (strip t), r) := by
          intro w wd hl hw h0 e1 e2
          have e : c.head ++ s1 ++ c.tail ++ r = w ++ '(' :: (s1 ++ ')' :: r) := by
            rw [e1, e2]; simp only [List.append_assoc, List.cons_append, List.nil_append]
          rw [e, dec_tag w _ _ (n + 4) hl hw h0 (paren_word _)]
          exact decTag_con c wd t s1 (n + 3) hs (ihn (n + 3) (by omega)) r
        have iter : ∀ (w : Text) (c0 : Con) (wd : Wild), lookup w table = some (.con c0 wd) → w.all isWord = true →
            (∀ r, pre? "(bytes)".toList ('(' :: (w ++ '(' :: r)) = none) →
            (∀ r, pre? "(stream)".toList ('(' :: (w ++ '(' :: r)) = none) →
            c.head = "iterator(".toList ++ (w ++ ['(']) → c.tail = [')', ')'] →
            (c0 = .list ∧ c = .listIter ∨ c0 = .set ∧ c = .setIter ∨ c0 = .vector ∧ c = .vectorIter) →
            dec (n + 5) (c.head ++ s1 ++ c.tail ++ r) = some (.con c false (strip t), r) := by
          intro w c0 wd hl hw h1 h2 e1 e2 hc
          have e : c.head ++ s1 ++ c.tail ++ r = "iterator".toList ++ '(' :: (w ++ '(' :: (s1 ++ ')' :: (')' :: r))) := by
            rw [e1, e2]; simp only [List.append_assoc, List.cons_append, List.nil_append]; rfl
          rw [e, dec_tag "iterator".toList .iter _ (n + 4) rfl rfl ⟨_, _, rfl, by decide⟩ (paren_word _),
            decTag_iter w _ _ (n + 3) hl hw h1 h2]
          unfold decIter
          rw [decTag_con c0 wd t s1 (n + 1) hs (ihn (n + 1) (by omega)) (')' :: r)]
          dsimp only
          rw [pre?_close]
          dsimp only
          rcases hc with ⟨rfl, rfl⟩ | ⟨rfl, rfl⟩ | ⟨rfl, rfl⟩ <;> rfl
        cases c
        case listIter =>
          exact iter "list".toList .list .list rfl rfl (fun _ => rfl) (fun _ => rfl) rfl rfl (.inl ⟨rfl, rfl⟩)
        case setIter =>
          exact iter "set".toList .set .set rfl rfl (fun _ => rfl) (fun _ => rfl) rfl rfl (.inr (.inl ⟨rfl, rfl⟩))
        case vectorIter =>
          exact iter "vector".toList .vector .vector rfl rfl (fun _ => rfl) (fun _ => rfl) rfl rfl (.inr (.inr ⟨rfl, rfl⟩))
        case list => exact plain "list".toList .list rfl rfl ⟨_, _, rfl, by decide⟩ rfl rfl
        case set => exact plain "set".toList .set rfl rfl ⟨_, _, rfl, by decide⟩ rfl rfl
        case vector => exact plain "vector".toList .vector rfl rfl ⟨_, _, rfl, by decide⟩ rfl rfl
        case optional => exact plain "optional".toList .optional rfl rfl ⟨_, _, rfl, by decide⟩ rfl rfl
        case result => exact plain "result".toList .result rfl rfl ⟨_, _, rfl, by decide⟩ rfl rfl
        case strongRef => exact plain "strong_ref".toList .strongRef rfl rfl ⟨_, _, rfl, by decide⟩ rfl rfl
        case weakRef => exact plain "weak_ref".toList .weakRef rfl rfl ⟨_, _, rfl, by decide⟩ rfl rfl
        case valueRef => exact plain "value_ref".toList .valueRef rfl rfl ⟨_, _, rfl, by decide⟩ rfl rfl
        case typeOf => exact plain "type".toList .typeOf rfl rfl ⟨_, _, rfl, by decide⟩ rfl rfl
  | map i kk a vk b iha ihb =>
    intro s h hm n hn r hr
    simp only [bare, text] at h
    simp only [NamesOk] at hm
    simp only [weight] at hn
    simp only [strip]
    cases ha : text (bare a) with
    | none => rw [ha] at h; cases h
    | some s1 =>
    cases hb : text (bare b) with
    | none => rw [ha, hb] at h; cases h
    | some s2 =>
      rw [ha, hb] at h
      dsimp only at h
      injection h with h
      subst h
      have hs : ∃ c r, s1 = c :: r ∧ c ≠ '*' := by
        obtain ⟨c, r, e, h1, -⟩ := text_first a s1 ha
        exact ⟨c, r, e, h1⟩
      match n, hn with
      | n + 5, hn =>
        have ihn : ∀ k, weight a ≤ k → ∀ r, RestOk r → dec k (s1 ++ r) = some (strip a, r) := fun k hk r hr => iha s1 ha hm.1 k hk r hr
        have ihn' : ∀ k, weight b ≤ k → ∀ r, RestOk r → dec k (s2 ++ r) = some (strip b, r) := fun k hk r hr => ihb s2 hb hm.2 k hk r hr
        cases i with
        | true =>
          have e : (if true = true then "iterator(map(".toList ++ s1 ++ "->".toList ++ s2 ++ "))".toList
              else "map(".toList ++ s1 ++ "->".toList ++ s2 ++ ")".toList) ++ r
              = "iterator".toList ++ '(' :: ("map".toList ++ '(' :: (s1 ++ '-' :: '>' :: (s2 ++ ')' :: (')' :: r)))) := by
            rw [if_pos rfl]; simp only [List.append_assoc]; rfl
          rw [e, dec_tag "iterator".toList .iter _ (n + 4) rfl rfl ⟨_, _, rfl, by decide⟩ (paren_word _),
            decTag_iter "map".toList .map _ (n + 3) rfl rfl (fun _ => rfl) (fun _ => rfl)]
          unfold decIter
          rw [decTag_map a b s1 s2 (n + 1) hs (ihn (n + 1) (by omega)) (ihn' (n + 1) (by omega)) (')' :: r)]
          rfl
        | false =>
          have e : (if false = true then "iterator(map(".toList ++ s1 ++ "->".toList ++ s2 ++ "))".toList
              else "map(".toList ++ s1 ++ "->".toList ++ s2 ++ ")".toList) ++ r
              = "map".toList ++ '(' :: (s1 ++ '-' :: '>' :: (s2 ++ ')' :: r)) := by
            rw [if_neg (by decide)]; simp only [List.append_assoc]; rfl
          rw [e, dec_tag "map".toList .map _ (n + 4) rfl rfl ⟨_, _, rfl, by decide⟩ (paren_word _)]
          exact decTag_map a b s1 s2 (n + 3) hs (ihn (n + 3) (by omega)) (ihn' (n + 3) (by omega)) r
  | tuple es ih =>
    intro s h hm n hn r hr
    simp only [bare, text] at h
    simp only [NamesOk] at hm
    simp only [weight] at hn
    simp only [strip]
    cases he : tupleText (bareEls es) with
    | none => rw [he] at h; cases h
    | some s1 =>
      rw [he] at h
      dsimp only at h
      injection h with h
      subst h
      match n, hn with
      | n + 5, hn =>
        have e : "tuple(".toList ++ s1 ++ [')'] ++ r = "tuple".toList ++ '(' :: (s1 ++ ')' :: r) := by
          simp only [List.append_assoc]; rfl
        rw [e, dec_tag "tuple".toList .tuple _ (n + 4) rfl rfl ⟨_, _, rfl, by decide⟩ (paren_word _)]
        unfold decTag
        have : pre? "(*)".toList ('(' :: (s1 ++ ')' :: r)) = none := by
          cases es with
          | nil => simp only [bareEls, tupleText] at he; injection he with he; subst he; rfl
          | cons l k t es =>
            simp only [bareEls, tupleText] at he
            cases ht : text (bare t) with
            | none => rw [ht] at he; cases he
            | some s2 =>
              rw [ht] at he
              cases he' : tupleText (bareEls es) with
              | none => rw [he'] at he; cases he
              | some s3 =>
                rw [he'] at he
                dsimp only at he
                injection he with he
                obtain ⟨c, r', e9, h1, -⟩ := text_first t s2 ht
                subst he
                rw [List.append_assoc]
                exact pre?_star s2 ⟨c, r', e9, h1⟩ _
        rw [this, pre?_open]
        dsimp only
        rw [ih.1 s1 he hm (n + 3) (by omega) r]
  | func k t es iht ih =>
    intro s h hm n hn r hr
    simp only [bare, text] at h
    simp only [NamesOk] at hm
    simp only [weight] at hn
    simp only [strip]
    cases ht : text (bare t) with
    | none => rw [ht] at h; cases h
    | some s1 =>
    cases he : paramsText (bareEls es) with
    | none => rw [ht, he] at h; cases h
    | some s2 =>
      rw [ht, he] at h
      dsimp only at h
      injection h with h
      subst h
      match n, hn with
      | n + 5, hn =>
        have e : "function(result:".toList ++ s1 ++ s2 ++ [')'] ++ r
            = "function".toList ++ '(' :: ("result:".toList ++ (s1 ++ (s2 ++ ')' :: r))) := by
          simp only [List.append_assoc]; rfl
        rw [e, dec_tag "function".toList .func _ (n + 4) rfl rfl ⟨_, _, rfl, by decide⟩ (paren_word _)]
        obtain ⟨h1, h2⟩ := ih.2 s2 he hm.2 (n + 3) (by omega) r
        unfold decTag
        have e1 : pre? "(*)".toList ('(' :: ("result:".toList ++ (s1 ++ (s2 ++ ')' :: r)))) = none := rfl
        have e2 : pre? "(result:".toList ('(' :: ("result:".toList ++ (s1 ++ (s2 ++ ')' :: r)))) = some (s1 ++ (s2 ++ ')' :: r)) := rfl
        rw [e1, e2]
        dsimp only
        rw [iht s1 ht hm.1 (n + 3) (by omega) _ h2]
        dsimp only
        rw [h1]
  | bitfield w bs at' =>
    intro s h hm n hn r hr
    simp only [bare, text] at h
    simp only [NamesOk] at hm
    simp only [weight] at hn
    simp only [strip]
    injection h with h
    subst h
    match n, hn with
    | n + 5, hn =>
      have e : "bitfield(".toList ++ decimal w ++ ',' :: bitsText bs ++ [')'] ++ r
          = "bitfield".toList ++ '(' :: (decimal w ++ ',' :: (bitsText bs ++ ')' :: r)) := by
        simp only [List.append_assoc, List.cons_append, List.nil_append]; rfl
      rw [e, dec_tag "bitfield".toList .bitfield _ (n + 4) rfl rfl ⟨_, _, rfl, by decide⟩ (paren_word _)]
      unfold decTag
      obtain ⟨c, ds, ed, hc⟩ := decimal_first w
      rw [pre?_star (decimal w) ⟨c, ds, ed, isDig_ne hc rfl⟩, pre?_open]
      dsimp only
      have : ',' ∉ decimal w := by
        intro hm
        have := decimal_digits w _ hm
        cases this
      rw [upTo_append ',' _ _ this]
      dsimp only
      rw [bits_round bs hm (n + 4) (by omega) r]
      dsimp only
      rw [value_decimal]
  | wild w =>
    intro s h _ n hn r hr
    injection h with h
    subst h
    have hn' : 5 ≤ n := hn
    match n, hn' with
    | n + 5, _ => exact wild_round w n r
  | nil =>
    constructor
    · intro s h _ n hn r
      simp only [bareEls, tupleText] at h
      injection h with h
      subst h
      match n, hn with
      | n + 1, _ => rfl
    · intro s h _ n hn r
      simp only [bareEls, paramsText] at h
      injection h with h
      subst h
      match n, hn with
      | n + 1, _ => exact ⟨rfl, restOk_close r⟩
  | cons l k t es iht ih =>
    constructor
    · intro s h hm n hn r
      simp only [bareEls, tupleText] at h
      simp only [NamesOkEls] at hm
      simp only [weightEls] at hn
      simp only [stripEls]
      cases ht : text (bare t) with
      | none => rw [ht] at h; cases h
      | some s1 =>
      cases he : tupleText (bareEls es) with
      | none => rw [ht, he] at h; cases h
      | some s2 =>
        rw [ht, he] at h
        dsimp only at h
        injection h with h
        subst h
        match n, hn with
        | n + 1, hn =>
          have e : s1 ++ ',' :: s2 ++ ')' :: r = s1 ++ ',' :: (s2 ++ ')' :: r) := by
            simp only [List.append_assoc, List.cons_append]
          have e0 : pre? [')'] (s1 ++ ',' :: (s2 ++ ')' :: r)) = none := by
            obtain ⟨c, r', rfl, -, hc, -⟩ := text_first t s1 ht
            show (if ')' = c then _ else none) = none
            rw [if_neg (fun e => hc e.symm)]
          rw [e]
          unfold decTuple
          rw [e0]
          dsimp only
          rw [iht s1 ht hm.1 n (by omega) _ (restOk_comma _)]
          dsimp only
          have : pre? [','] (',' :: (s2 ++ ')' :: r)) = some (s2 ++ ')' :: r) := rfl
          rw [this]
          dsimp only
          rw [ih.1 s2 he hm.2 n (by omega) r]
    · intro s h hm n hn r
      simp only [bareEls, paramsText] at h
      simp only [NamesOkEls] at hm
      simp only [weightEls] at hn
      simp only [stripEls]
      cases ht : text (bare t) with
      | none => rw [ht] at h; cases h
      | some s1 =>
      cases he : paramsText (bareEls es) with
      | none => rw [ht, he] at h; cases h
      | some s2 =>
        rw [ht, he] at h
        dsimp only at h
        injection h with h
        subst h
        match n, hn with
        | n + 1, hn =>
          have e : ", ".toList ++ s1 ++ s2 ++ ')' :: r = ',' :: ' ' :: (s1 ++ (s2 ++ ')' :: r)) := by
            simp only [List.append_assoc]; rfl
          rw [e]
          refine ⟨?_, restOk_comma _⟩
          obtain ⟨h1, h2⟩ := ih.2 s2 he hm.2 n (by omega) r
          unfold decParams
          have e0 : pre? [')'] (',' :: ' ' :: (s1 ++ (s2 ++ ')' :: r))) = none := rfl
          have e1 : pre? ", ".toList (',' :: ' ' :: (s1 ++ (s2 ++ ')' :: r))) = some (s1 ++ (s2 ++ ')' :: r)) := rfl
          rw [e0, e1]
          dsimp only
          rw [iht s1 ht hm.1 n (by omega) _ h2]
          dsimp only
          rw [h1]

end Verif.Front.Types
