import Verif.Opt.Move
import Verif.Opt.PropSound

/-!
# Liveness is exact

The worklist loop ends for every graph, and what it finds is, for all nodes it was asked about, exactly what is read on some way from
there before it is written.
-/

namespace Verif.Opt

section
variable (E : List (Node × Node)) (read write : Node → List Var)

/-- Specification: on some way from `n` on (including `n`), `x` is read before it is written. -/
inductive UsedFrom : Node → Var → Prop where
  | here {n x} : x ∈ read n → UsedFrom n x
  | later {n m x} : (n, m) ∈ E → UsedFrom m x → x ∉ write n → UsedFrom n x

variable {E read write}

theorem sameVars_iff {a b : List Var} : sameVars a b = true ↔ ∀ x, x ∈ a ↔ x ∈ b := by
  unfold sameVars
  rw [Bool.and_eq_true, List.all_eq_true, List.all_eq_true]
  constructor
  · rintro ⟨h1, h2⟩ x
    exact ⟨fun h => of_decide_eq_true (h1 x h), fun h => of_decide_eq_true (h2 x h)⟩
  · intro h
    exact ⟨fun x hx => decide_eq_true ((h x).1 hx), fun x hx => decide_eq_true ((h x).2 hx)⟩

theorem mem_newLiveOut {S : LV} {n : Node} {x : Var} : x ∈ newLiveOut E S n ↔ ∃ m, (n, m) ∈ E ∧ x ∈ S.inn m := by
  unfold newLiveOut
  rw [List.mem_flatMap]
  constructor
  · rintro ⟨m, h1, h2⟩; exact ⟨m, mem_downstream.1 h1, h2⟩
  · rintro ⟨m, h1, h2⟩; exact ⟨m, mem_downstream.2 h1, h2⟩

theorem mem_newLiveIn {n : Node} {out : List Var} {x : Var} :
    x ∈ newLiveIn read write n out ↔ (x ∈ out ∧ x ∉ write n) ∨ x ∈ read n := by
  unfold newLiveIn
  rw [List.mem_append, List.mem_filter, decide_eq_true_iff]

/-! ## What is found is so -/

structure Founded (E : List (Node × Node)) (read write : Node → List Var) (S : LV) : Prop where
  inn : ∀ n x, x ∈ S.inn n → UsedFrom E read write n x
  out : ∀ n x, x ∈ S.out n → ∃ m, (n, m) ∈ E ∧ UsedFrom E read write m x

theorem Founded.newOut {S : LV} (h : Founded E read write S) {n : Node} {x : Var} (hx : x ∈ newLiveOut E S n) :
    ∃ m, (n, m) ∈ E ∧ UsedFrom E read write m x := by
  obtain ⟨m, h1, h2⟩ := mem_newLiveOut.1 hx
  exact ⟨m, h1, h.inn m x h2⟩

theorem Founded.newIn {S : LV} (h : Founded E read write S) {n : Node} {x : Var} (hx : x ∈ newLiveIn read write n (newLiveOut E S n)) :
    UsedFrom E read write n x := by
  rcases mem_newLiveIn.1 hx with ⟨h1, h2⟩ | h1
  · obtain ⟨m, h3, h4⟩ := h.newOut h1
    exact .later h3 h4 h2
  · exact .here h1

theorem work_founded : ∀ (k : Nat) (wl : List Node) (S S' : LV), Founded E read write S → liveWork E read write k wl S = some S' →
    Founded E read write S'
  | 0, _, _, _, _, h => by cases h
  | k + 1, [], S, S', hF, h => by
    simp only [liveWork] at h; cases h; exact hF
  | k + 1, n :: wl, S, S', hF, h => by
    simp only [liveWork] at h
    have ho : ∀ v x, x ∈ (if v = n then newLiveOut E S n else S.out v) → ∃ m, (v, m) ∈ E ∧ UsedFrom E read write m x := by
      intro v x hx
      split at hx
      · rename_i hv; subst hv; exact hF.newOut hx
      · exact hF.out v x hx
    split at h
    · exact work_founded k wl { S with out := fun v => if v = n then newLiveOut E S n else S.out v } S' ⟨hF.inn, ho⟩ h
    · refine work_founded k _ _ S' ⟨?_, ho⟩ h
      intro v x hx
      dsimp only at hx
      split at hx
      · rename_i hv; subst hv; exact hF.newIn hx
      · exact hF.inn v x hx

/-! ## Nothing is missed -/

/-- A node is settled. -/
structure Settled (E : List (Node × Node)) (read write : Node → List Var) (S : LV) (n : Node) : Prop where
  succ : ∀ m x, (n, m) ∈ E → x ∈ S.inn m → x ∈ S.out n
  back : ∀ x, x ∈ S.out n → x ∉ write n → x ∈ S.inn n
  read : ∀ x, x ∈ read n → x ∈ S.inn n

theorem work_settled (C : Node → Prop) : ∀ (k : Nat) (wl : List Node) (S S' : LV), (∀ n, C n → n ∈ wl ∨ Settled E read write S n) →
    liveWork E read write k wl S = some S' → ∀ n, C n → Settled E read write S' n
  | 0, _, _, _, _, h => by cases h
  | k + 1, [], S, S', hB, h => by
    simp only [liveWork] at h; cases h
    intro n hn
    exact (hB n hn).resolve_left (by simp)
  | k + 1, n :: wl, S, S', hB, h => by
    simp only [liveWork] at h
    split at h
    · rename_i hs
      rw [sameVars_iff] at hs
      refine work_settled C k wl _ S' ?_ h
      intro v hv
      by_cases hvn : v = n
      · subst hvn
        refine .inr ⟨fun m x he hx => ?_, fun x hx hw => ?_, fun x hx => ?_⟩
        · dsimp only at hx ⊢; rw [if_pos rfl]; exact mem_newLiveOut.2 ⟨m, he, hx⟩
        · dsimp only at hx ⊢; rw [if_pos rfl] at hx; exact (hs x).1 (mem_newLiveIn.2 (.inl ⟨hx, hw⟩))
        · exact (hs x).1 (mem_newLiveIn.2 (.inr hx))
      · rcases hB v hv with h1 | h1
        · rcases List.mem_cons.1 h1 with h1 | h1
          · exact absurd h1 hvn
          · exact .inl h1
        · refine .inr ⟨fun m x he hx => ?_, fun x hx hw => ?_, h1.read⟩
          · dsimp only at hx ⊢; rw [if_neg hvn]; exact h1.succ m x he hx
          · dsimp only at hx ⊢; rw [if_neg hvn] at hx; exact h1.back x hx hw
    · refine work_settled C k _ _ S' ?_ h
      intro v hv
      by_cases hup : (v, n) ∈ E
      · exact .inl (mem_enqueue.2 (.inr (mem_upstream.2 hup)))
      · by_cases hvn : v = n
        · subst hvn
          refine .inr ⟨fun m x he hx => ?_, fun x hx hw => ?_, fun x hx => ?_⟩
          · dsimp only at hx ⊢
            rw [if_pos rfl]
            split at hx
            · rename_i hm; subst hm; exact absurd he hup
            · exact mem_newLiveOut.2 ⟨m, he, hx⟩
          · dsimp only at hx ⊢; rw [if_pos rfl] at hx ⊢; exact mem_newLiveIn.2 (.inl ⟨hx, hw⟩)
          · dsimp only; rw [if_pos rfl]; exact mem_newLiveIn.2 (.inr hx)
        · rcases hB v hv with h1 | h1
          · rcases List.mem_cons.1 h1 with h1 | h1
            · exact absurd h1 hvn
            · exact .inl (mem_enqueue.2 (.inl h1))
          · refine .inr ⟨fun m x he hx => ?_, fun x hx hw => ?_, fun x hx => ?_⟩
            · dsimp only at hx ⊢
              rw [if_neg hvn]
              split at hx
              · rename_i hm; subst hm; exact absurd he hup
              · exact h1.succ m x he hx
            · dsimp only at hx ⊢; rw [if_neg hvn] at hx ⊢; exact h1.back x hx hw
            · dsimp only; rw [if_neg hvn]; exact h1.read x hx

/-! ## It ends -/

/-- All nodes in sight. -/
def inSight (E : List (Node × Node)) (order : List Node) : List Node := order ++ E.map Prod.fst ++ E.map Prod.snd

/-- How many variables can still be added at a node. -/
def room (U : List Var) (S : LV) (n : Node) : Nat := (U.filter (fun x => decide (x ∉ S.inn n))).length

def roomAll (U : List Var) (ns : List Node) (S : LV) : Nat := (ns.map (room U S)).sum

theorem filter_length_le {p q : Var → Bool} (U : List Var) (h : ∀ x ∈ U, p x = true → q x = true) :
    (U.filter p).length ≤ (U.filter q).length := by
  induction U with
  | nil => simp
  | cons a U ih =>
    have ih := ih (fun x hx => h x (List.mem_cons_of_mem _ hx))
    by_cases hp : p a = true
    · rw [List.filter_cons_of_pos hp, List.filter_cons_of_pos (h a List.mem_cons_self hp)]
      simpa using ih
    · rw [List.filter_cons_of_neg hp]
      by_cases hq : q a = true
      · rw [List.filter_cons_of_pos hq, List.length_cons]; omega
      · rw [List.filter_cons_of_neg hq]; exact ih

theorem filter_length_lt {p q : Var → Bool} {U : List Var} (h : ∀ x ∈ U, p x = true → q x = true) {y : Var} (hy : y ∈ U)
    (h1 : q y = true) (h2 : p y = false) : (U.filter p).length < (U.filter q).length := by
  induction U with
  | nil => cases hy
  | cons a U ih =>
    have hle := filter_length_le (p := p) (q := q) U (fun x hx => h x (List.mem_cons_of_mem _ hx))
    rcases List.mem_cons.1 hy with rfl | hy
    · rw [List.filter_cons_of_neg (by simp [h2]), List.filter_cons_of_pos h1, List.length_cons]; omega
    · have ih := ih (fun x hx => h x (List.mem_cons_of_mem _ hx)) hy
      by_cases hp : p a = true
      · rw [List.filter_cons_of_pos hp, List.filter_cons_of_pos (h a List.mem_cons_self hp), List.length_cons, List.length_cons]
        omega
      · rw [List.filter_cons_of_neg hp]
        by_cases hq : q a = true
        · rw [List.filter_cons_of_pos hq, List.length_cons]; omega
        · rw [List.filter_cons_of_neg hq]; exact ih

theorem sum_le {f g : Node → Nat} (ns : List Node) (h : ∀ n, f n ≤ g n) : (ns.map f).sum ≤ (ns.map g).sum := by
  induction ns with
  | nil => simp
  | cons a ns ih => simp only [List.map_cons, List.sum_cons]; have := h a; omega

theorem sum_lt {f g : Node → Nat} {ns : List Node} (h : ∀ n, f n ≤ g n) {m : Node} (hm : m ∈ ns) (hlt : f m < g m) :
    (ns.map f).sum < (ns.map g).sum := by
  induction ns with
  | nil => cases hm
  | cons a ns ih =>
    simp only [List.map_cons, List.sum_cons]
    rcases List.mem_cons.1 hm with rfl | hm
    · have := sum_le ns h; omega
    · have := ih hm; have := h a; omega

/-- The sets only grow. -/
structure Growth (E : List (Node × Node)) (read write : Node → List Var) (U : List Var) (S : LV) : Prop where
  up : ∀ n x, x ∈ S.inn n → x ∈ newLiveIn read write n (newLiveOut E S n)
  within : ∀ n x, x ∈ S.inn n → x ∈ U

theorem used_within {order : List Node} {n : Node} {x : Var} (h : UsedFrom E read write n x) (hn : n ∈ inSight E order) :
    x ∈ (inSight E order).flatMap read := by
  induction h with
  | here hx => exact List.mem_flatMap.2 ⟨_, hn, hx⟩
  | @later n m x he _ _ ih => exact ih (List.mem_append_right _ (List.mem_map.2 ⟨(n, m), he, rfl⟩))

theorem newIn_within {ns : List Node} {U : List Var} (hU : ∀ n ∈ ns, ∀ x ∈ read n, x ∈ U) {S : LV} (hG : Growth E read write U S)
    {n : Node} (hn : n ∈ ns) {x : Var} (hx : x ∈ newLiveIn read write n (newLiveOut E S n)) : x ∈ U := by
  rcases mem_newLiveIn.1 hx with ⟨h1, -⟩ | h1
  · obtain ⟨q, -, h2⟩ := mem_newLiveOut.1 h1; exact hG.within q x h2
  · exact hU n hn x h1

theorem newIn_mono {S S' : LV} (h : ∀ v x, x ∈ S.inn v → x ∈ S'.inn v) {n : Node} {x : Var}
    (hx : x ∈ newLiveIn read write n (newLiveOut E S n)) : x ∈ newLiveIn read write n (newLiveOut E S' n) := by
  rcases mem_newLiveIn.1 hx with ⟨h1, h2⟩ | h1
  · obtain ⟨q, h3, h4⟩ := mem_newLiveOut.1 h1
    exact mem_newLiveIn.2 (.inl ⟨mem_newLiveOut.2 ⟨q, h3, h q x h4⟩, h2⟩)
  · exact mem_newLiveIn.2 (.inr h1)

theorem live_ends_aux (ns : List Node) (U : List Var) (hup : ∀ n m, (m, n) ∈ E → m ∈ ns) (hU : ∀ n ∈ ns, ∀ x ∈ read n, x ∈ U)
    (m : Nat) : ∀ (wl : List Node) (S : LV), roomAll U ns S = m → (∀ n ∈ wl, n ∈ ns) →
      Growth E read write U S → ∃ k S', liveWork E read write k wl S = some S' := by
  induction m using Nat.strongRecOn with
  | _ m ihm =>
    intro wl
    induction wl with
    | nil => intro S _ _ _; exact ⟨1, S, rfl⟩
    | cons n wl ihw =>
      intro S hm hwl hG
      have hn := hwl n List.mem_cons_self
      by_cases hs : sameVars (newLiveIn read write n (newLiveOut E S n)) (S.inn n) = true
      · obtain ⟨k, S', hk⟩ := ihw { S with out := fun v => if v = n then newLiveOut E S n else S.out v } hm
          (fun v hv => hwl v (List.mem_cons_of_mem _ hv)) ⟨hG.up, hG.within⟩
        exact ⟨k + 1, S', by simp only [liveWork]; rw [if_pos hs]; exact hk⟩
      · have hgrow : ∀ v x, x ∈ S.inn v → x ∈ (if v = n then newLiveIn read write n (newLiveOut E S n) else S.inn v) := by
          intro v x hx
          split
          · rename_i hv; subst hv; exact hG.up v x hx
          · exact hx
        obtain ⟨y, hy1, hy2⟩ : ∃ y, y ∈ newLiveIn read write n (newLiveOut E S n) ∧ y ∉ S.inn n := by
          apply Classical.byContradiction
          intro hc
          apply hs
          rw [sameVars_iff]
          intro x
          exact ⟨fun hx => Classical.byContradiction fun hnx => hc ⟨x, hx, hnx⟩, hG.up n x⟩
        have hle : ∀ v, room U ⟨fun v => if v = n then newLiveIn read write n (newLiveOut E S n) else S.inn v,
            fun v => if v = n then newLiveOut E S n else S.out v⟩ v ≤ room U S v := by
          intro v
          refine filter_length_le U fun x _ hx => ?_
          exact decide_eq_true fun hc => of_decide_eq_true hx (hgrow v x hc)
        have hlt : roomAll U ns ⟨fun v => if v = n then newLiveIn read write n (newLiveOut E S n) else S.inn v,
            fun v => if v = n then newLiveOut E S n else S.out v⟩ < m := by
          rw [← hm]
          refine sum_lt hle hn ?_
          refine filter_length_lt (fun x _ hx => ?_) (newIn_within hU hG hn hy1) (decide_eq_true hy2) ?_
          · exact decide_eq_true fun hc => of_decide_eq_true hx (hgrow n x hc)
          · refine decide_eq_false fun hc => hc ?_
            dsimp only
            rw [if_pos rfl]
            exact hy1
        obtain ⟨k, S', hk⟩ := ihm _ hlt (enqueue wl (upstream E n)) _ rfl (fun v hv => by
            rcases mem_enqueue.1 hv with h | h
            · exact hwl v (List.mem_cons_of_mem _ h)
            · exact hup n v (mem_upstream.1 h)) ⟨fun v x hx => by
              dsimp only at hx
              split at hx
              · rename_i hv; subst hv; exact newIn_mono hgrow hx
              · exact newIn_mono hgrow (hG.up v x hx), fun v x hx => by
              dsimp only at hx
              split at hx
              · exact newIn_within hU hG hn hx
              · exact hG.within v x hx⟩
        exact ⟨k + 1, S', by simp only [liveWork]; rw [if_neg hs]; exact hk⟩

/-- The loop ends. -/
theorem liveWork_ends (order : List Node) : ∃ k S, liveWork E read write k order ⟨fun _ => [], fun _ => []⟩ = some S := by
  refine live_ends_aux (inSight E order) ((inSight E order).flatMap read) ?_ ?_ _ order _ rfl ?_ ⟨?_, ?_⟩
  · intro n m h
    exact List.mem_append_left _ (List.mem_append_right _ (List.mem_map.2 ⟨(m, n), h, rfl⟩))
  · intro n hn x hx; exact List.mem_flatMap.2 ⟨n, hn, hx⟩
  · intro n hn; exact List.mem_append_left _ (List.mem_append_left _ hn)
  · intro n x hx; cases hx
  · intro n x hx; cases hx

/-- More steps do not change the result. -/
theorem liveWork_mono : ∀ (k : Nat) (wl : List Node) (S S' : LV), liveWork E read write k wl S = some S' →
    liveWork E read write (k + 1) wl S = some S'
  | 0, _, _, _, h => by cases h
  | k + 1, [], S, S', h => h
  | k + 1, n :: wl, S, S', h => by
    rw [liveWork]
    simp only [liveWork] at h
    split at h
    · rename_i hc; rw [if_pos hc]; exact liveWork_mono k _ _ _ h
    · rename_i hc; rw [if_neg hc]; exact liveWork_mono k _ _ _ h

/-- What it finds is right for all nodes that were in the worklist at the beginning. -/
theorem liveWork_settled {order : List Node} {k : Nat} {S : LV}
    (h : liveWork E read write k order ⟨fun _ => [], fun _ => []⟩ = some S) : ∀ n ∈ order, Settled E read write S n :=
  work_settled (fun n => n ∈ order) k order _ S (fun _ hn => .inl hn) h

theorem used_inn {order : List Node} {k : Nat} {S : LV} (h : liveWork E read write k order ⟨fun _ => [], fun _ => []⟩ = some S)
    (hcl : ∀ n m, n ∈ order → (n, m) ∈ E → m ∈ order) {n : Node} {x : Var} (hu : UsedFrom E read write n x) (hn : n ∈ order) :
    x ∈ S.inn n := by
  have hs := liveWork_settled h
  induction hu with
  | here hx => exact (hs _ hn).read _ hx
  | @later n m x he _ hw ih =>
    have := ih (hcl n m hn he)
    exact (hs n hn).back x ((hs n hn).succ m x he this) hw

/-- **Liveness is exact**: of all nodes asked about, the sets after the loop are those of the specification. -/
theorem liveWork_exact {order : List Node} {k : Nat} {S : LV} (h : liveWork E read write k order ⟨fun _ => [], fun _ => []⟩ = some S)
    (hcl : ∀ n m, n ∈ order → (n, m) ∈ E → m ∈ order) : ∀ n ∈ order, ∀ x,
      (x ∈ S.inn n ↔ UsedFrom E read write n x) ∧ (x ∈ S.out n ↔ ∃ m, (n, m) ∈ E ∧ UsedFrom E read write m x) := by
  intro n hn x
  have hF : Founded E read write S := work_founded k order _ S
    ⟨fun _ _ hx => (by cases hx), fun _ _ hx => (by cases hx)⟩ h
  refine ⟨⟨hF.inn n x, fun hu => used_inn h hcl hu hn⟩, hF.out n x, ?_⟩
  rintro ⟨m, he, hu⟩
  exact (liveWork_settled h n hn).succ m x he (used_inn h hcl hu (hcl n m hn he))

end

/-- The analysis of a body ends. -/
theorem liveness_ends (body : List Stmt) (order : List Node) : ∃ k S, liveness body order k = some S := liveWork_ends order

/-- The analysis of a body finds exactly what is used later. -/
theorem liveness_exact {body : List Stmt} {order : List Node} {k : Nat} {S : LV} (h : liveness body order k = some S)
    (hcl : ∀ n m, n ∈ order → (n, m) ∈ edges body → m ∈ order) : ∀ n ∈ order, ∀ x,
      (x ∈ S.inn n ↔ UsedFrom (edges body) (readAt (itemsOf body)) (writeAt (itemsOf body)) n x) ∧
      (x ∈ S.out n ↔ ∃ m, (n, m) ∈ edges body ∧ UsedFrom (edges body) (readAt (itemsOf body)) (writeAt (itemsOf body)) m x) :=
  liveWork_exact h hcl

end Verif.Opt
