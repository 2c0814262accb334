import Verif.Driver.BatchSpec
import Verif.Driver.RegistryProps
/-!
# Reading batches
-/

namespace Verif.Driver
open Verif.Bytes

theorem findIdx_append {line : Str} (h : (10 : Byte) ∉ line) (rest : List Byte) :
    (line ++ 10 :: rest).findIdx? (· = 10) = some line.length := by
  induction line with
  | nil => simp [List.findIdx?_cons]
  | cons c line ih =>
    rw [List.mem_cons, not_or] at h
    rw [List.cons_append, List.findIdx?_cons, if_neg (by simpa using Ne.symm h.1), ih h.2]
    simp

theorem getline_line {line : Str} (h : (10 : Byte) ∉ line) (rest : List Byte) : getline (line ++ [10] ++ rest) = (line, rest, true) := by
  unfold getline
  rw [List.append_assoc, List.singleton_append, findIdx_append h rest]
  dsimp only
  rw [List.take_left, ← List.singleton_append, ← List.append_assoc, List.drop_left' (by simp)]

theorem getline_mem (s : List Byte) : (10 : Byte) ∉ (getline s).1 := by
  unfold getline
  cases h : s.findIdx? (· = 10) with
  | none =>
    intro hm
    have := (List.findIdx?_eq_none_iff.mp h) 10 hm
    simp at this
  | some i =>
    intro hm
    dsimp only at hm
    obtain ⟨j, hj, e⟩ := List.getElem_of_mem hm
    have hlt : j < i := by rw [List.length_take] at hj; omega
    have := (List.findIdx?_eq_some_iff_getElem.mp h).2.2 j hlt
    rw [List.getElem_take] at e
    rw [e] at this
    simp at this

theorem getline_length (s : List Byte) (h : (getline s).2.2 = true) : (getline s).2.1.length < s.length := by
  unfold getline at h ⊢
  cases hi : s.findIdx? (· = 10) with
  | none => rw [hi] at h; cases h
  | some i =>
    have := (List.findIdx?_eq_some_iff_getElem.mp hi).1
    simp only [List.length_drop]
    omega

theorem trim_words (s : Str) : splitWs (trim isWs s) = splitWs s := by
  obtain ⟨a, b, h1, h2, -⟩ := C30_strip isWs .both s
  have h := ((C29_words (trim isWs s)).prefix_ws (a := a) (fun c hc => h2 c (by simp [hc]))).suffix_ws (b := b) (fun c hc => h2 c (by simp [hc]))
  have e : a ++ trim isWs s ++ b = s := h1.symm
  rw [e] at h
  exact h.unique (C29_words s)

theorem join_words : ∀ (ws : List Str), (∀ w ∈ ws, Word w) → Words isWs (joinWith id [32] ws) ws
  | [], _ => .nil (by intro c hc; cases hc)
  | [w], h => by
    have hw := h w List.mem_cons_self
    have := Words.cons (ws := isWs) (a := []) (w := w) (rest := []) (by intro c hc; cases hc) hw.1 hw.2 (by intro c hc; cases hc)
      (.nil (by intro c hc; cases hc))
    simpa [joinWith] using this
  | w :: v :: ws, h => by
    have hw := h w List.mem_cons_self
    have ih := join_words (v :: ws) (fun x hx => h x (List.mem_cons_of_mem _ hx))
    have hr := ih.prefix_ws (a := [32]) (by intro c hc; rw [List.mem_singleton] at hc; subst hc; rfl)
    have := Words.cons (ws := isWs) (a := []) (w := w) (rest := [32] ++ joinWith id [32] (v :: ws)) (by intro c hc; cases hc) hw.1 hw.2
      (by intro c hc; simp at hc; subst hc; rfl) hr
    simpa [joinWith, List.append_assoc] using this

theorem join_line : ∀ (ws : List Str), (∀ w ∈ ws, Word w) → (10 : Byte) ∉ joinWith id [32] ws
  | [], _ => by intro h; cases h
  | [w], h => by
    intro hm
    have := (h w List.mem_cons_self).2 10 hm
    cases this
  | w :: v :: ws, h => by
    have ih := join_line (v :: ws) (fun x hx => h x (List.mem_cons_of_mem _ hx))
    intro hm
    simp only [joinWith, id, List.mem_append, List.mem_singleton] at hm
    rcases hm with (hm | hm) | hm
    · have := (h w List.mem_cons_self).2 10 hm
      cases this
    · cases hm
    · exact ih hm

theorem word_of_decide {s : Str} (h : s ≠ [] ∧ s.all (fun c => !isWs c) = true) : Word s := by
  refine ⟨h.1, fun c hc => ?_⟩
  have := List.all_eq_true.mp h.2 c hc
  simpa using this

theorem number_append (a b : Str) : number (a ++ b) = b.foldl (fun a c => 10 * a + (c.toNat - 48)) (number a) := by
  unfold number; rw [List.foldl_append]

theorem decimal_digits (n : Nat) : Net.decimal n ≠ [] ∧ (∀ c ∈ Net.decimal n, isDigit c = true) ∧ number (Net.decimal n) = n := by
  induction n using Nat.strongRecOn with
  | ind n ih =>
    have hd : ∀ m, m < 10 → isDigit (UInt8.ofNat (48 + m)) = true ∧ (UInt8.ofNat (48 + m)).toNat = 48 + m := by
      intro m hm
      have h2 : (UInt8.ofNat (48 + m)).toNat = 48 + m := by rw [UInt8.toNat_ofNat']; omega
      refine ⟨?_, h2⟩
      unfold isDigit
      simp only [decide_eq_true_eq, UInt8.le_iff_toNat_le, h2]
      have a1 : (48 : UInt8).toNat = 48 := rfl
      have a2 : (57 : UInt8).toNat = 57 := rfl
      omega
    unfold Net.decimal
    split
    · rename_i h
      obtain ⟨h1, h2⟩ := hd n h
      refine ⟨by simp, by simpa using h1, ?_⟩
      simp only [number, List.foldl_cons, List.foldl_nil, h2]
      omega
    · rename_i h
      obtain ⟨i1, i2, i3⟩ := ih (n / 10) (by omega)
      obtain ⟨h1, h2⟩ := hd (n % 10) (by omega)
      refine ⟨by simp, ?_, ?_⟩
      · intro c hc
        rw [List.mem_append, List.mem_singleton] at hc
        rcases hc with hc | rfl
        · exact i2 c hc
        · exact h1
      · rw [number_append, i3]
        simp only [List.foldl_cons, List.foldl_nil, h2]
        omega

theorem digit_word {c : Byte} (h : isDigit c = true) : isWs c = false ∧ c ≠ 45 ∧ c ≠ 43 := by
  unfold isDigit at h
  simp only [decide_eq_true_eq, UInt8.le_iff_toNat_le] at h
  have a1 : (48 : UInt8).toNat = 48 := rfl
  rw [a1] at h
  refine ⟨?_, ?_, ?_⟩
  · unfold isWs
    simp only [decide_eq_false_iff_not]
    rintro (rfl | rfl | rfl | rfl | rfl | rfl) <;> simp at h
  · rintro rfl; simp at h
  · rintro rfl; simp at h

theorem decimal_word (n : Nat) : Word (Net.decimal n) := by
  obtain ⟨h1, h2, -⟩ := decimal_digits n
  exact ⟨h1, fun c hc => (digit_word (h2 c hc)).1⟩

theorem takeWhile_all {f : Byte → Bool} {s : Str} (h : ∀ c ∈ s, f c = true) : s.takeWhile f = s := by
  induction s with
  | nil => rfl
  | cons c s ih => rw [List.takeWhile_cons, if_pos (h c List.mem_cons_self), ih (fun x hx => h x (List.mem_cons_of_mem _ hx))]

theorem stoul_decimal (n : Nat) (h : n < 2 ^ 64) : stoul (Net.decimal n) = some n := by
  obtain ⟨h1, h2, h3⟩ := decimal_digits n
  obtain ⟨c, r, hc⟩ := List.exists_cons_of_ne_nil h1
  have hd : (Net.decimal n).head? = some c := by rw [hc]; rfl
  obtain ⟨-, n1, n2⟩ := digit_word (h2 c (by rw [hc]; exact List.mem_cons_self))
  have htw : (Net.decimal n).takeWhile isDigit = Net.decimal n := takeWhile_all h2
  unfold stoul
  dsimp only
  rw [hd]
  rw [if_neg (show ¬ (some c = some 45 ∨ some c = some 43) by
    rintro (e | e)
    · injection e with e; exact n1 e
    · injection e with e; exact n2 e), htw, if_neg h1, h3, if_neg (by omega),
    if_neg (show ¬ (some c = some 45) by intro e; injection e with e; exact n1 e)]

theorem Cmd.Fit.words {c : Cmd} (h : c.Fit) : ∀ w ∈ c.words, Word w := by
  have kt : ∀ k : Kind, Word k.text := fun k => by cases k <;> exact word_of_decide (by decide)
  have t1 : Word sBeginFlow := word_of_decide (by decide)
  have t2 : Word sBeginConn := word_of_decide (by decide)
  have t3 : Word sData := word_of_decide (by decide)
  have t4 : Word sGap := word_of_decide (by decide)
  have t5 : Word sEndFlow := word_of_decide (by decide)
  have t6 : Word sEndConn := word_of_decide (by decide)
  cases c with
  | beginFlow id k p =>
    obtain ⟨a, b⟩ := h
    simp only [Cmd.words, List.mem_cons, List.not_mem_nil, or_false]
    rintro w (rfl | rfl | rfl | rfl)
    · exact t1
    · exact a
    · exact kt k
    · exact b
  | beginConn cid k o po r pr =>
    obtain ⟨a, b, c, d, e⟩ := h
    simp only [Cmd.words, List.mem_cons, List.not_mem_nil, or_false]
    rintro w (rfl | rfl | rfl | rfl | rfl | rfl | rfl)
    · exact t2
    · exact a
    · exact kt k
    · exact b
    · exact c
    · exact d
    · exact e
  | data id bs =>
    simp only [Cmd.words, List.mem_cons, List.not_mem_nil, or_false]
    rintro w (rfl | rfl | rfl)
    · exact t3
    · exact h.1
    · exact decimal_word _
  | gap id n =>
    simp only [Cmd.words, List.mem_cons, List.not_mem_nil, or_false]
    rintro w (rfl | rfl | rfl)
    · exact t4
    · exact h.1
    · exact decimal_word _
  | endFlow id =>
    simp only [Cmd.words, List.mem_cons, List.not_mem_nil, or_false]
    rintro w (rfl | rfl)
    · exact t5
    · exact h
  | endConn cid =>
    simp only [Cmd.words, List.mem_cons, List.not_mem_nil, or_false]
    rintro w (rfl | rfl)
    · exact t6
    · exact h

theorem kindOf_text (k : Kind) : kindOf k.text = some k := by cases k <;> decide

theorem parseCmd_text {c : Cmd} (h : c.Fit) (rest : List Byte) : parseCmd c.words (c.payload ++ rest) true = .cmd c rest := by
  cases c with
  | beginFlow id k p => simp only [Cmd.words, parseCmd, if_true, kindOf_text]; rfl
  | beginConn cid k o po r pr =>
    simp only [Cmd.words, parseCmd, kindOf_text]
    rw [if_neg (by decide), if_pos trivial]
    rfl
  | data id bs =>
    obtain ⟨-, hl⟩ := h
    simp only [Cmd.words, parseCmd, stoul_decimal bs.length (by omega)]
    rw [if_neg (by decide), if_neg (by decide), if_pos trivial, if_neg (by unfold maxSize; omega)]
    unfold readData Cmd.payload
    rw [if_pos (by simp), List.append_assoc, List.take_left, ← List.append_assoc, List.drop_left' (by simp)]
  | gap id n =>
    obtain ⟨-, hl⟩ := h
    simp only [Cmd.words, parseCmd, stoul_decimal n hl]
    rw [if_neg (by decide), if_neg (by decide), if_neg (by decide), if_pos trivial]
    rfl
  | endFlow id =>
    simp only [Cmd.words, parseCmd]
    rw [if_neg (by decide), if_neg (by decide), if_neg (by decide), if_neg (by decide), if_pos trivial]
    rfl
  | endConn cid =>
    simp only [Cmd.words, parseCmd]
    rw [if_neg (by decide), if_neg (by decide), if_neg (by decide), if_neg (by decide), if_neg (by decide), if_pos trivial]
    rfl

theorem readLoop_succ (n : Nat) (s : List Byte) : readLoop (n + 1) s =
    if trim isWs (getline s).1 = [] then (if (getline s).2.2 then readLoop n (getline s).2.1 else ([], .ok))
    else match parseCmd (splitWs (trim isWs (getline s).1)) (getline s).2.1 (getline s).2.2 with
      | .stop e => ([], e)
      | .cmd c rest => if (getline s).2.2 then (c :: (readLoop n rest).1, (readLoop n rest).2) else ([c], .ok) := rfl

/-- A line that consists of words is one command. -/
theorem readLoop_words {ws : List Str} (h : ∀ w ∈ ws, Word w) (hne : ws ≠ []) (n : Nat) (rest : List Byte) :
    readLoop (n + 1) (joinWith id [32] ws ++ [10] ++ rest) = match parseCmd ws rest true with
      | .stop e => ([], e)
      | .cmd c rest' => (c :: (readLoop n rest').1, (readLoop n rest').2) := by
  have hw : splitWs (joinWith id [32] ws) = ws := (C29_words _).unique (join_words ws h)
  rw [readLoop_succ, getline_line (join_line ws h)]
  dsimp only
  rw [trim_words, hw, if_neg]
  · cases parseCmd ws rest true <;> rfl
  · intro he
    have := trim_words (joinWith id [32] ws)
    rw [he, hw] at this
    exact hne this.symm

theorem readLoop_text (cs : List Cmd) (h : ∀ c ∈ cs, c.Fit) (n : Nat) (rest : List Byte) :
    readLoop (cs.length + n) (cs.flatMap Cmd.text ++ rest) = (cs ++ (readLoop n rest).1, (readLoop n rest).2) := by
  induction cs with
  | nil => rw [List.length_nil, Nat.zero_add]; rfl
  | cons c cs ih =>
    have hc := h c List.mem_cons_self
    have e : (c :: cs).flatMap Cmd.text ++ rest = joinWith id [32] c.words ++ [10] ++ (c.payload ++ (cs.flatMap Cmd.text ++ rest)) := by
      simp [List.flatMap_cons, Cmd.text, List.append_assoc]
    rw [e, List.length_cons, Nat.add_right_comm, readLoop_words hc.words (by cases c <;> simp [Cmd.words]), parseCmd_text hc]
    dsimp only
    rw [ih (fun x hx => h x (List.mem_cons_of_mem _ hx))]
    rfl

theorem parseCmd_length {ws : List Str} {rest rest' : List Byte} {good : Bool} {c : Cmd} (h : parseCmd ws rest good = .cmd c rest') :
    rest'.length ≤ rest.length := by
  unfold parseCmd at h
  repeat' split at h
  all_goals first
    | (injection h with h1 h2; subst h2; first | exact Nat.le_refl _ | (
        rename_i hr
        unfold readData at hr
        split at hr
        · injection hr with hr
          injection hr with hr1 hr2
          subst hr2
          rw [List.length_drop]
          omega
        · cases hr))
    | cases h

/-- The loop has enough steps. -/
theorem readLoop_fuel (n m : Nat) (s : List Byte) (hn : s.length < n) (hm : s.length < m) : readLoop n s = readLoop m s := by
  induction n generalizing m s with
  | zero => omega
  | succ n ih =>
    cases m with
    | zero => omega
    | succ m =>
      rw [readLoop_succ, readLoop_succ]
      split
      · split
        · rename_i hg
          have := getline_length s hg
          exact ih m _ (by omega) (by omega)
        · rfl
      · split
        · rfl
        · rename_i c rest hp
          split
          · rename_i hg
            have h1 := getline_length s hg
            have h2 := parseCmd_length hp
            rw [ih m rest (by omega) (by omega)]
          · rfl

theorem magic_line : (10 : Byte) ∉ sMagic := by decide

/-- What reads well goes on where it ends. -/
theorem readBatch_append (cs : List Cmd) (h : ∀ c ∈ cs, c.Fit) (rest : List Byte) :
    readBatch (batchText cs ++ rest) = (cs ++ (readLoop (rest.length + 1) rest).1, (readLoop (rest.length + 1) rest).2) := by
  have e : batchText cs ++ rest = sMagic ++ [10] ++ (cs.flatMap Cmd.text ++ rest) := by unfold batchText; simp [List.append_assoc]
  unfold readBatch
  rw [e, getline_line magic_line]
  dsimp only
  rw [if_neg (by simp), if_pos rfl, readLoop_fuel (rest.length + 1) ((cs.flatMap Cmd.text ++ rest).length + 1) rest (by omega) (by rw [List.length_append]; omega),
    ← readLoop_text cs h]
  refine readLoop_fuel _ _ _ ?_ (by omega)
  rw [List.length_append (as := sMagic ++ [10])]
  omega

/-- C68. A batch in the documented format is read as the commands it was written from: whatever the data is (it may contain newlines,
    commands, anything), whatever the IDs are (as long as they are words). -/
theorem C68_read_back (cs : List Cmd) (h : ∀ c ∈ cs, c.Fit) : readBatch (batchText cs) = (cs, .ok) := by
  have := readBatch_append cs h []
  rw [List.append_nil] at this
  rw [this]
  have : readLoop ([] : List Byte).length.succ [] = ([], .ok) := rfl
  change (cs ++ (readLoop ([] : List Byte).length.succ []).1, (readLoop ([] : List Byte).length.succ []).2) = _
  rw [this]
  simp

/-- C68. So different lists of commands have different texts. -/
theorem C68_text_injective {cs cs' : List Cmd} (h : ∀ c ∈ cs, c.Fit) (h' : ∀ c ∈ cs', c.Fit) (he : batchText cs = batchText cs') : cs = cs' := by
  have := C68_read_back cs h
  rw [he, C68_read_back cs' h'] at this
  injection this with this
  exact this.symm

/-- C68. A batch that ends within the data of a command is an error, after everything before it has been done. -/
theorem C68_truncated_data (cs : List Cmd) (h : ∀ c ∈ cs, c.Fit) (id : Str) (bs part : List Byte) (hf : (Cmd.data id bs).Fit)
    (hp : part.length ≤ bs.length) :
    readBatch (batchText cs ++ (joinWith _root_.id [32] (Cmd.data id bs).words ++ [10] ++ part)) = (cs, .premature) := by
  rw [readBatch_append cs h, readLoop_words hf.words (by simp [Cmd.words])]
  have : parseCmd (Cmd.data id bs).words part true = .stop .premature := by
    obtain ⟨-, hl⟩ := hf
    simp only [Cmd.words, parseCmd, stoul_decimal bs.length (by omega)]
    rw [if_neg (by decide), if_neg (by decide), if_pos trivial, if_neg (by unfold maxSize; omega)]
    unfold readData
    rw [if_neg (by omega)]
  rw [this]
  simp

/-- Finding: what `std::stoul` accepts is a size: with something after the digits, and with a sign, ... -/
theorem C68_fails_size_suffix : (readBatch (sMagic ++ [10] ++ sGap ++ [32, 102, 32, 49, 50, 97, 98, 99, 10])).1.length = 1 ∧
    (readBatch (sMagic ++ [10] ++ sGap ++ [32, 102, 32, 49, 50, 97, 98, 99, 10])).2 = .ok ∧
    stoul [49, 50, 97, 98, 99] = some 12 ∧ stoul [45, 49] = some (2 ^ 64 - 1) := by decide +kernel

/-- ... and what it does not accept is not an error of the batch, but an exception that nobody handles. -/
theorem C68_fails_size_throws : (readBatch (sMagic ++ [10] ++ sData ++ [32, 102, 32, 120, 10])).2 = .throws ∧
    (readBatch (sMagic ++ [10] ++ sData ++ [32, 102, 32, 45, 49, 10])).2 = .throws := by decide +kernel

end Verif.Driver
