import Verif.Driver.BatchLocal
import Verif.Driver.BatchRead
/-!
# Extracting from batches: property theorems (C69)
-/

namespace Verif.Driver
open Verif.Bytes

variable {M : Machine}

/-! ## What is written -/

/-- The ID a command is selected by. -/
def Cmd.key : Cmd → Str
  | .beginFlow id _ _ => id
  | .beginConn cid _ _ _ _ _ => cid
  | .data id _ => id
  | .gap id _ => id
  | .endFlow id => id
  | .endConn cid => cid

/-- The IDs that are looked for after a command. -/
def Cmd.next (ns : List Str) : Cmd → List Str
  | .beginConn cid _ o _ r _ => if cid ∈ ns then o :: r :: ns else ns
  | _ => ns

theorem selected_cons (ns : List Str) (c : Cmd) (cs : List Cmd) :
    selected ns (c :: cs) = (if c.key ∈ ns then [c] else []) ++ selected (c.next ns) cs := by
  cases c <;> simp only [selected, Cmd.key, Cmd.next] <;> split <;> (rename_i h; simp [h])

theorem parse_extract {ws : List Str} {rest rest' : List Byte} {good : Bool} {c : Cmd} (h : parseCmd ws rest good = .cmd c rest') (hg : c.isGap = false) :
    (∀ ns cmd, extractCmd ns cmd ws rest good = .ok (if c.key ∈ ns then cmd ++ [10] ++ c.payload else [], c.next ns, rest')) ∧
    ∀ more, parseCmd ws (c.payload ++ more) true = .cmd c more := by
  unfold parseCmd at h
  unfold parseCmd extractCmd
  cases ws with
  | nil => cases h
  | cons t args =>
    dsimp only at h ⊢
    split at h
    · rename_i ht
      simp only [if_pos ht]
      match args, h with
      | [id, k, p], h =>
        dsimp only at h
        cases hk : kindOf k with
        | none => rw [hk] at h; cases h
        | some k' =>
          rw [hk] at h
          injection h with h1 h2
          subst h1; subst h2
          exact ⟨fun ns cmd => rfl, fun more => by simp only [hk]; rfl⟩
      | [], h => cases h
      | [_], h => cases h
      | [_, _], h => cases h
      | _ :: _ :: _ :: _ :: _, h => cases h
    · rename_i ht
      simp only [if_neg ht]
      split at h
      · rename_i ht
        simp only [if_pos ht]
        match args, h with
        | [cid, k, o, po, r, pr], h =>
          dsimp only at h
          cases hk : kindOf k with
          | none => rw [hk] at h; cases h
          | some k' =>
            rw [hk] at h
            injection h with h1 h2
            subst h1; subst h2
            exact ⟨fun ns cmd => rfl, fun more => by simp only [hk]; rfl⟩
        | [], h => cases h
        | [_], h => cases h
        | [_, _], h => cases h
        | [_, _, _], h => cases h
        | [_, _, _, _], h => cases h
        | [_, _, _, _, _], h => cases h
        | _ :: _ :: _ :: _ :: _ :: _ :: _ :: _, h => cases h
      · rename_i ht
        simp only [if_neg ht]
        split at h
        · rename_i ht
          simp only [if_pos ht]
          match args, h with
          | [id, n], h =>
            dsimp only at h
            cases hn : stoul n with
            | none => rw [hn] at h; cases h
            | some n' =>
              rw [hn] at h
              dsimp only at h ⊢
              simp only [hn]
              split at h
              · cases h
              · rename_i hm
                simp only [if_neg hm]
                cases hr : readData n' rest good with
                | none => rw [hr] at h; cases h
                | some x =>
                  obtain ⟨d, r'⟩ := x
                  rw [hr] at h
                  injection h with h1 h2
                  subst h1; subst h2
                  refine ⟨fun ns cmd => rfl, fun more => ?_⟩
                  have hd : d.length = n' := by
                    unfold readData at hr
                    split at hr
                    · rename_i hx
                      injection hr with hr
                      injection hr with hr1 hr2
                      rw [← hr1, List.length_take]
                      omega
                    · cases hr
                  have : readData n' ((Cmd.data id d).payload ++ more) true = some (d, more) := by
                    unfold readData
                    simp only [Cmd.payload]
                    rw [if_pos (by simp; omega)]
                    congr 2
                    · rw [List.append_assoc, List.take_left' hd]
                    · rw [List.drop_left' (by simp [hd])]
                  rw [this]
          | [], h => cases h
          | [_], h => cases h
          | _ :: _ :: _ :: _, h => cases h
        · rename_i ht
          simp only [if_neg ht]
          split at h
          · rename_i ht
            match args, h with
            | [id, n], h =>
              dsimp only at h
              cases hn : stoul n with
              | none => rw [hn] at h; cases h
              | some n' =>
                rw [hn] at h
                injection h with h1 h2
                subst h1
                cases hg
            | [], h => cases h
            | [_], h => cases h
            | _ :: _ :: _ :: _, h => cases h
          · rename_i ht
            simp only [if_neg ht]
            split at h
            · rename_i ht
              simp only [if_pos ht]
              match args, h with
              | [id], h =>
                injection h with h1 h2
                subst h1; subst h2
                exact ⟨fun ns cmd => rfl, fun more => rfl⟩
              | [], h => cases h
              | _ :: _ :: _, h => cases h
            · rename_i ht
              simp only [if_neg ht]
              split at h
              · rename_i ht
                simp only [if_pos ht]
                match args, h with
                | [id], h =>
                  injection h with h1 h2
                  subst h1; subst h2
                  exact ⟨fun ns cmd => rfl, fun more => rfl⟩
                | [], h => cases h
                | _ :: _ :: _, h => cases h
              · cases h

theorem extractLoop_succ (n : Nat) (ns : List Str) (s : List Byte) : extractLoop (n + 1) ns s =
    if trim isWs (getline s).1 = [] then (if (getline s).2.2 then extractLoop n ns (getline s).2.1 else ([], .ok))
    else match extractCmd ns (trim isWs (getline s).1) (splitWs (trim isWs (getline s).1)) (getline s).2.1 (getline s).2.2 with
      | .error e => ([], e)
      | .ok (out, ns', rest) => if (getline s).2.2 then (out ++ (extractLoop n ns' rest).1, (extractLoop n ns' rest).2) else (out, .ok) := rfl

theorem trim_line (s : List Byte) : (10 : Byte) ∉ trim isWs (getline s).1 := by
  obtain ⟨a, b, h1, -⟩ := C30_strip isWs .both (getline s).1
  intro hm
  refine getline_mem s ?_
  rw [h1]
  simp [show strip isWs .both (getline s).1 = trim isWs (getline s).1 from rfl, hm]

/-- Reading what has been written for a command. -/
theorem readLoop_written {line : Str} (hl : (10 : Byte) ∉ line) (ht : trim isWs line = line) (hne : line ≠ []) {c : Cmd} {tail : List Byte}
    (hp : parseCmd (splitWs line) (c.payload ++ tail) true = .cmd c tail) (m : Nat) :
    readLoop (m + 1) (line ++ [10] ++ c.payload ++ tail) = (c :: (readLoop m tail).1, (readLoop m tail).2) := by
  rw [readLoop_succ, show line ++ [10] ++ c.payload ++ tail = line ++ [10] ++ (c.payload ++ tail) by simp, getline_line hl]
  dsimp only
  rw [ht, if_neg hne, hp]
  rfl

theorem extractLoop_spec (n : Nat) (ns : List Str) (s : List Byte) (cs : List Cmd) (h : readLoop n s = (cs, .ok)) (hg : ∀ c ∈ cs, c.isGap = false) :
    (extractLoop n ns s).2 = .ok ∧ ∀ m, (extractLoop n ns s).1.length < m → readLoop m (extractLoop n ns s).1 = (selected ns cs, .ok) := by
  have empty : ∀ m, readLoop m [] = ([], .ok) := by
    intro m
    cases m with
    | zero => rfl
    | succ m => rfl
  induction n generalizing ns s cs with
  | zero =>
    have h : ([], Ending.ok) = (cs, Ending.ok) := h
    injection h with h
    subst h
    exact ⟨rfl, fun m _ => empty m⟩
  | succ n ih =>
    rw [readLoop_succ] at h
    rw [extractLoop_succ]
    split at h
    · rename_i he
      rw [if_pos he]
      split at h
      · rename_i hgd
        rw [if_pos hgd]
        exact ih ns _ cs h hg
      · rename_i hgd
        rw [if_neg hgd]
        injection h with h
        subst h
        exact ⟨rfl, fun m _ => empty m⟩
    · rename_i he
      rw [if_neg he]
      cases hp : parseCmd (splitWs (trim isWs (getline s).1)) (getline s).2.1 (getline s).2.2 with
      | stop e =>
        rw [hp] at h
        injection h with h1 h2
        subst h1
        subst h2
        exfalso
        revert hp
        unfold parseCmd
        repeat' split
        all_goals (intro hp; cases hp)
      | cmd c rest =>
        rw [hp] at h
        dsimp only at h
        have hc : c ∈ cs ∧ cs = c :: (if (getline s).2.2 then (readLoop n rest).1 else []) := by
          split at h <;> (injection h with h1 h2; subst h1)
          · rename_i hgd; rw [if_pos hgd]; exact ⟨List.mem_cons_self, rfl⟩
          · rename_i hgd; rw [if_neg hgd]; exact ⟨List.mem_cons_self, rfl⟩
        obtain ⟨p1, p2⟩ := parse_extract hp (hg c hc.1)
        rw [p1]
        dsimp only
        have key : ∀ (tail : List Byte) (cs' : List Cmd), (∀ m, tail.length < m → readLoop m tail = (selected (c.next ns) cs', .ok)) →
            ∀ m, ((if c.key ∈ ns then trim isWs (getline s).1 ++ [10] ++ c.payload else []) ++ tail).length < m →
            readLoop m ((if c.key ∈ ns then trim isWs (getline s).1 ++ [10] ++ c.payload else []) ++ tail) = (selected ns (c :: cs'), .ok) := by
          intro tail cs' ht m hm
          rw [selected_cons]
          by_cases hk : c.key ∈ ns
          · rw [if_pos hk] at hm ⊢
            rw [if_pos hk]
            cases m with
            | zero => omega
            | succ m =>
              rw [readLoop_written (trim_line s) (trim_idem _) he (p2 tail), ht m (by
                simp only [List.length_append, List.length_singleton] at hm; omega)]
              rfl
          · rw [if_neg hk] at hm ⊢
            rw [if_neg hk]
            exact ht m hm
        split at h
        · rename_i hgd
          rw [if_pos hgd]
          injection h with h1 h2
          subst h1
          obtain ⟨i1, i2⟩ := ih (c.next ns) rest (readLoop n rest).1 (by rw [← h2]) (fun x hx => hg x (List.mem_cons_of_mem _ hx))
          exact ⟨i1, key _ _ i2⟩
        · rename_i hgd
          rw [if_neg hgd]
          injection h with h1 h2
          subst h1
          refine ⟨rfl, fun m hm => ?_⟩
          have := key [] [] (fun m _ => empty m) m (by rw [List.append_nil]; exact hm)
          rw [List.append_nil] at this
          exact this

/-- C69. From a batch that can be read, without gaps: what is extracted is a batch again, with just the commands about what was asked for. -/
theorem C69_extract (needle : Str) (s : List Byte) (cs : List Cmd) (h : readBatch s = (cs, .ok)) (hg : ∀ c ∈ cs, c.isGap = false) :
    (extract needle s).2 = .ok ∧ readBatch (extract needle s).1 = (selected [needle] cs, .ok) := by
  unfold readBatch at h
  dsimp only at h
  split at h
  · injection h with h1 h2; cases h2
  · rename_i hm
    have fin : ∀ out : List Byte, (∀ m, out.length < m → readLoop m out = (selected [needle] cs, .ok)) →
        readBatch (sMagic ++ [10] ++ out) = (selected [needle] cs, .ok) := by
      intro out ho
      unfold readBatch
      rw [getline_line magic_line]
      dsimp only
      rw [if_neg (by simp), if_pos rfl]
      exact ho _ (by simp only [List.length_append]; omega)
    unfold extract
    dsimp only
    rw [if_neg hm]
    split at h
    · rename_i hgd
      rw [if_pos hgd]
      obtain ⟨a, b⟩ := extractLoop_spec _ [needle] _ cs h hg
      exact ⟨a, fin _ b⟩
    · rename_i hgd
      rw [if_neg hgd]
      injection h with h
      subst h
      refine ⟨rfl, fin [] (fun m _ => ?_)⟩
      cases m <;> rfl

/-! ## What the parsers do with it -/

/-- What is asked for: the flow or connection, and the flows of the connection. -/
def involved (needle : Str) (cs : List Cmd) : List Str := needle :: cs.flatMap (fun c => match c with
  | .beginConn cid _ o _ r _ => if cid = needle then [o, r] else []
  | _ => [])

/-- IDs of what is asked for are not used for anything else. -/
def Cmd.Separate (needle : Str) (ids : List Str) : Cmd → Prop
  | .beginFlow id _ _ => id ∈ ids → id = needle
  | .beginConn cid _ o _ r _ => cid = needle ∨ (cid ∉ ids ∧ o ∉ ids ∧ r ∉ ids)
  | .endConn cid => cid = needle ∨ cid ∉ ids
  | _ => True

/-- Only flows that have been selected exist. -/
structure Only (ns : List Str) (w : World M) : Prop where
  flows : ∀ id f, w.flows id = some f → id ∈ ns
  inv : Inv (fun id => decide (id ∈ ns)) (fun _ => true) w

theorem Only.grow {ns ns' : List Str} {w : World M} (h : Only ns w) (hs : ∀ x ∈ ns, x ∈ ns') : Only ns' w := by
  refine ⟨fun id f hf => hs id (h.flows id f hf), ⟨fun cid c hc => ?_, fun id f r hf hr => ?_⟩⟩
  · obtain ⟨a, b⟩ := h.inv.conn cid c hc
    exact ⟨decide_eq_true (hs _ (of_decide_eq_true a)), decide_eq_true (hs _ (of_decide_eq_true b))⟩
  · have := h.inv.ctx id f r hf hr
    rw [decide_eq_true (h.flows id f hf)] at this
    rw [decide_eq_true (hs id (h.flows id f hf)), decide_eq_true (hs _ (of_decide_eq_true this))]

theorem Only.exec {ns : List Str} {w w2 : World M} {c : Cmd} (h : Only ns w) (hk : c.key ∈ ns) (he : w.exec c = .ok w2) : Only (c.next ns) w2 := by
  have hn : ∀ x ∈ ns, x ∈ c.next ns := by
    intro x hx
    unfold Cmd.next
    split
    · split
      · simp [hx]
      · exact hx
    · exact hx
  have h' := h.grow hn
  have hc : c.Consistent (fun id => decide (id ∈ c.next ns)) (fun _ => true) := by
    cases c with
    | beginConn cid k o po r pr =>
      have : cid ∈ ns := hk
      simp only [Cmd.Consistent, Cmd.next, if_pos this]
      constructor <;> (apply decide_eq_true; simp)
    | _ => trivial
  have hp : c.party (fun id => decide (id ∈ c.next ns)) (fun _ => true) = true := by
    cases c with
    | beginConn cid k o po r pr => rfl
    | endConn cid => rfl
    | _ => exact decide_eq_true (hn _ hk)
  obtain ⟨i, fr⟩ := (local_exec (M := M) hc).inv w w2 h'.inv he
  rw [hp] at fr
  refine ⟨fun id f hf => ?_, i⟩
  refine Classical.byContradiction (fun hx => ?_)
  have := fr.flows id (by simp only [decide_eq_false hx]; exact Bool.false_ne_true)
  rw [hf] at this
  exact hx (h'.flows id f this.symm)

theorem run_selected (needle : Str) (ids : List Str) (cs : List Cmd) (hsep : ∀ c ∈ cs, c.Separate needle ids)
    (hid : ∀ c ∈ cs, ∀ k o po r pr, c = .beginConn needle k o po r pr → o ∈ ids ∧ r ∈ ids) (ns : List Str) (hn : needle ∈ ns) (hns : ∀ x ∈ ns, x ∈ ids)
    (w : World M) (ho : Only ns w) :
    w.run (selected ns cs) = w.run (cs.filter (fun c => decide (c.party (fun id => decide (id ∈ ids)) (fun cid => decide (cid = needle)) = true))) := by
  induction cs generalizing ns w with
  | nil => rfl
  | cons c cs ih =>
    have ih := ih (fun x hx => hsep x (List.mem_cons_of_mem _ hx)) (fun x hx => hid x (List.mem_cons_of_mem _ hx))
    have hc := hsep c List.mem_cons_self
    rw [selected_cons, List.filter_cons]
    by_cases hk : c.key ∈ ns
    · rw [if_pos hk]
      have hp : c.party (fun id => decide (id ∈ ids)) (fun cid => decide (cid = needle)) = true := by
        cases c with
        | beginConn cid k o po r pr =>
          rcases hc with e | ⟨e, -⟩
          · exact decide_eq_true e
          · exact absurd (hns _ hk) e
        | endConn cid =>
          rcases hc with e | e
          · exact decide_eq_true e
          · exact absurd (hns _ hk) e
        | _ => exact decide_eq_true (hns _ hk)
      rw [if_pos (by rw [hp]; rfl)]
      change (w.exec c).bind (fun w => w.run (selected (c.next ns) cs)) = (w.exec c).bind _
      have hns' : ∀ x ∈ c.next ns, x ∈ ids := by
        cases c with
        | beginConn cid k o po r pr =>
          have hk' : cid ∈ ns := hk
          rcases hc with e | ⟨e, -⟩
          · obtain ⟨h1, h2⟩ := hid _ List.mem_cons_self k o po r pr (by rw [e])
            simp only [Cmd.next, if_pos hk']
            intro x hx
            rcases List.mem_cons.mp hx with rfl | hx
            · exact h1
            · rcases List.mem_cons.mp hx with rfl | hx
              · exact h2
              · exact hns x hx
          · exact absurd (hns _ hk) e
        | _ => exact hns
      have hn' : needle ∈ c.next ns := by
        unfold Cmd.next
        split
        · split
          · simp [hn]
          · exact hn
        · exact hn
      cases hx : w.exec c with
      | ok w2 => exact ih _ hn' hns' w2 (ho.exec hk hx)
      | stuck => rfl
      | ub => rfl
    · rw [if_neg hk, List.nil_append]
      have hnext : c.next ns = ns := by
        cases c with
        | beginConn cid k o po r pr => exact if_neg hk
        | _ => rfl
      rw [hnext, ih ns hn hns w ho]
      by_cases hp : c.party (fun id => decide (id ∈ ids)) (fun cid => decide (cid = needle)) = true
      · rw [if_pos (by rw [hp]; rfl)]
        have hno : ∀ id, id ∉ ns → w.flows id = none := by
          intro id hx
          cases hf : w.flows id with
          | none => rfl
          | some f => exact absurd (ho.flows id f hf) hx
        have : w.exec c = .ok w := by
          cases c with
          | beginFlow id k p => exact absurd ((hc (of_decide_eq_true hp)) ▸ hn) hk
          | beginConn cid k o po r pr => exact absurd ((of_decide_eq_true hp) ▸ hn) hk
          | data id bs => simp only [World.exec, World.feed, hno id hk]
          | gap id n => simp only [World.exec, World.feed, hno id hk]
          | endFlow id => simp only [World.exec, hno id hk]
          | endConn cid => exact absurd ((of_decide_eq_true hp) ▸ hn) hk
        change _ = (w.exec c).bind _
        rw [this]
        rfl
      · rw [if_neg (by simpa using hp)]

/-- C69. If the IDs of what is asked for are not used for anything else: when the whole batch can be processed then so can what is selected,
    and its parsers do exactly what they do in the whole batch. -/
theorem C69_extracted_runs_the_same (needle : Str) (cs : List Cmd) (hsep : ∀ c ∈ cs, c.Separate needle (involved needle cs)) (w : World M)
    (h : World.run {} cs = .ok w) :
    ∃ w', World.run (M := M) {} (selected [needle] cs) = .ok w' ∧ w'.log = w.log.filter (fun x => decide (x.1 ∈ involved needle cs)) := by
  have hid : ∀ c ∈ cs, ∀ k o po r pr, c = .beginConn needle k o po r pr → o ∈ involved needle cs ∧ r ∈ involved needle cs := by
    intro c hc k o po r pr e
    subst e
    have : ∀ x, x = o ∨ x = r → x ∈ involved needle cs := by
      intro x hx
      refine List.mem_cons_of_mem _ (List.mem_flatMap.mpr ⟨_, hc, ?_⟩)
      dsimp only
      rw [if_pos rfl]
      simpa using hx
    exact ⟨this o (Or.inl rfl), this r (Or.inr rfl)⟩
  have hcons : ∀ c ∈ cs, c.Consistent (fun id => decide (id ∈ involved needle cs)) (fun cid => decide (cid = needle)) := by
    intro c hc
    cases c with
    | beginConn cid k o po r pr =>
      have hs := hsep _ hc
      by_cases e : cid = needle
      · subst e
        obtain ⟨h1, h2⟩ := hid _ hc k o po r pr rfl
        exact ⟨by dsimp only; rw [decide_eq_true h1, decide_eq_true rfl], by dsimp only; rw [decide_eq_true h2, decide_eq_true rfl]⟩
      · rcases hs with e' | ⟨-, h1, h2⟩
        · exact absurd e' e
        · exact ⟨by dsimp only; rw [decide_eq_false h1, decide_eq_false e], by dsimp only; rw [decide_eq_false h2, decide_eq_false e]⟩
    | _ => trivial
  have := run_parts cs hcons (M := M) {} (fun _ => {}) inv_init agree_init
  rw [h] at this
  obtain ⟨w', h1, h2⟩ := this true
  refine ⟨w', ?_, ?_⟩
  · rw [run_selected needle (involved needle cs) cs hsep hid [needle] List.mem_cons_self (fun x hx => by
      rw [List.mem_singleton.mp hx]; exact List.mem_cons_self) {} ⟨(fun _ _ h => by cases h), inv_init⟩]
    exact h1
  · rw [h2]
    congr 1
    funext x
    simp

/-- C69, on texts. -/
theorem C69_extract_and_run (needle : Str) (s : List Byte) (cs : List Cmd) (h : readBatch s = (cs, .ok)) (hg : ∀ c ∈ cs, c.isGap = false)
    (hsep : ∀ c ∈ cs, c.Separate needle (involved needle cs)) (w : World M) (hw : processBatch M s = (.ok w, .ok)) :
    ∃ w', processBatch M (extract needle s).1 = (.ok w', .ok) ∧ w'.log = w.log.filter (fun x => decide (x.1 ∈ involved needle cs)) := by
  unfold processBatch at hw ⊢
  rw [h] at hw
  rw [(C69_extract needle s cs h hg).2]
  injection hw with hw
  obtain ⟨w', h1, h2⟩ := C69_extracted_runs_the_same needle cs hsep w hw
  exact ⟨w', by rw [h1], h2⟩

end Verif.Driver
