import Verif.Lemmas.FlowFunnel

/-!
# Sorting the vertices of monotone polygons
-/

namespace Verif.FlowTriangulation

open Verif Vec

section merge

variable {α T : Type} [LinearOrder T] (x : α → T)

/-- Merge two sorted lists, elements of the first list come first. -/
def merge : List α → List α → List α
  | [], U => U
  | B, [] => B
  | b :: B, t :: U => if x b ≤ x t then b :: merge B (t :: U) else t :: merge (b :: B) U
termination_by B U => B.length + U.length

theorem merge_nil_left (U : List α) : merge x [] U = U := by unfold merge; rfl

theorem merge_nil_right (B : List α) : merge x B [] = B := by
  cases B with
  | nil => exact merge_nil_left x []
  | cons b B => unfold merge; rfl

theorem merge_cons (b : α) (B : List α) (t : α) (U : List α) : merge x (b :: B) (t :: U) =
    if x b ≤ x t then b :: merge x B (t :: U) else t :: merge x (b :: B) U := by
  rw [merge]

theorem merge_perm : ∀ B U : List α, (merge x B U).Perm (B ++ U)
  | [], U => by rw [merge_nil_left]; exact .refl _
  | b :: B, [] => by rw [merge_nil_right, List.append_nil]
  | b :: B, t :: U => by
    rw [merge_cons]
    split_ifs
    · exact .cons _ (merge_perm B (t :: U))
    · exact (List.Perm.cons _ (merge_perm (b :: B) U)).trans List.perm_middle.symm
termination_by B U => B.length + U.length

/-- The left list is sorted. -/
theorem merge_insert (b : α) {B : List α} (hb : ∀ c ∈ B, x b ≤ x c) : ∀ U : List α,
    (merge x B U).orderedInsert (fun c d => x c ≤ x d) b = merge x (b :: B) U
  | [] => by
    rw [merge_nil_right, merge_nil_right]
    cases B with
    | nil => rfl
    | cons c B => rw [List.orderedInsert_cons, if_pos (hb c (by simp))]
  | t :: U => by
    rw [merge_cons]
    split_ifs with h
    · cases B with
      | nil => rw [merge_nil_left, List.orderedInsert_cons, if_pos h]
      | cons c B =>
        rw [merge_cons]
        split_ifs
        · rw [List.orderedInsert_cons, if_pos (hb c (by simp))]
        · rw [List.orderedInsert_cons, if_pos h]
    · have ih := merge_insert b hb U
      have : merge x B (t :: U) = t :: merge x B U := by
        cases B with
        | nil => rw [merge_nil_left, merge_nil_left]
        | cons c B =>
          rw [merge_cons, if_neg]
          exact fun hc => h ((hb c (by simp)).trans hc)
      rw [this, List.orderedInsert_cons, if_neg h, ih]

theorem insertionSort_append {B U : List α} (hB : B.Pairwise fun a b => x a ≤ x b) (hU : U.Pairwise fun a b => x a ≤ x b) :
    (B ++ U).insertionSort (fun c d => x c ≤ x d) = merge x B U := by
  induction B with
  | nil =>
    rw [List.nil_append, merge_nil_left]
    exact hU.insertionSort_eq
  | cons b B ih =>
    obtain ⟨h1, h2⟩ := List.pairwise_cons.1 hB
    rw [List.cons_append, List.insertionSort_cons, ih h2, merge_insert x b h1]

theorem merge_sorted {B U : List α} (hB : B.Pairwise fun a b => x a ≤ x b) (hU : U.Pairwise fun a b => x a ≤ x b) :
    (merge x B U).Pairwise fun a b => x a ≤ x b := by
  rw [← insertionSort_append x hB hU]
  haveI : Std.Total (fun c d : α => x c ≤ x d) := ⟨fun a b => le_total _ _⟩
  haveI : IsTrans α (fun c d : α => x c ≤ x d) := ⟨fun a b c => le_trans⟩
  exact List.pairwise_insertionSort _ _

theorem merge_concat {B : List α} {l : α} : ∀ {U : List α}, (∀ b ∈ B, x b ≤ x l) →
    merge x B (U ++ [l]) = merge x B U ++ [l] := by
  induction B with
  | nil => intro U _; rw [merge_nil_left, merge_nil_left]
  | cons b B ih =>
    intro U
    induction U with
    | nil =>
      intro h
      rw [List.nil_append, merge_cons, if_pos (h b (by simp)), merge_nil_right]
      have := ih (U := []) fun c hc => h c (by simp [hc])
      rw [List.nil_append, merge_nil_right] at this
      rw [this, List.cons_append]
    | cons t U ihU =>
      intro h
      rw [List.cons_append, merge_cons, merge_cons]
      split_ifs
      · rw [← List.cons_append, ih fun c hc => h c (by simp [hc]), List.cons_append]
      · rw [ihU h, List.cons_append]

/-- Elements that are equivalent keep their order. -/
theorem merge_filter (y : T) {B : List α} : ∀ {U : List α}, B.Pairwise (fun a b => x a ≤ x b) →
    (merge x B U).filter (fun a => x a = y) = B.filter (fun a => x a = y) ++ U.filter (fun a => x a = y) := by
  induction B with
  | nil => intro U _; rw [merge_nil_left]; simp
  | cons b B ih =>
    intro U hB
    obtain ⟨h1, h2⟩ := List.pairwise_cons.1 hB
    induction U with
    | nil => rw [merge_nil_right]; simp
    | cons t U ihU =>
      rw [merge_cons]
      split_ifs with h
      · rw [List.filter_cons, ih h2, List.filter_cons (xs := B)]
        split_ifs <;> simp
      · rw [List.filter_cons, ihU, List.filter_cons (xs := U)]
        split_ifs with h3
        · have h4 : (b :: B).filter (fun a => decide (x a = y)) = [] := by
            rw [List.filter_eq_nil_iff]
            intro c hc
            have hlt : x t < x c := by
              rcases List.mem_cons.1 hc with rfl | hc
              · exact not_le.1 h
              · exact (not_le.1 h).trans_le (h1 c hc)
            have h3' : x t = y := by simpa using h3
            simp only [decide_eq_true_eq]
            rw [← h3']
            exact hlt.ne'
          rw [h4]; simp
        · rfl

end merge

variable {T : Type} [CommRing T] [LinearOrder T] [IsStrictOrderedRing T]

/-- The half edges along a chain. -/
def arcsC : Vec T → List (Placed T) → List (Arc T)
  | _, [] => []
  | a, b :: l => arc a b :: arcsC b.p l

omit [LinearOrder T] [IsStrictOrderedRing T] in
theorem arcsC_length (a : Vec T) (l : List (Placed T)) : (arcsC a l).length = l.length := by
  induction l generalizing a with
  | nil => rfl
  | cons b l ih => exact congrArg (· + 1) (ih _)

/-- Consecutive elements of a list. -/
def Links {α : Type} (P : α → α → Prop) : α → List α → Prop
  | _, [] => True
  | a, b :: l => P a b ∧ Links P b l

section inside

variable (x : Vec T → T)

/-- What is known about the part of the polygon that still has to be processed. Here, `b0` and `t0` are the last vertices on the
bottom and the top that have been processed. -/
structure Rest (QB QT : Vec T → Prop) (b0 t0 : Vec T) (B U : List (Placed T)) (e : Placed T) (l : Placed T) : Prop where
  bottom : ∀ b ∈ B ++ [e], b.v.bottom = true
  top : ∀ t ∈ U ++ [l], t.v.bottom = false
  eq : e.p = l.p
  innerB : ∀ b ∈ B, QB b.p
  innerT : ∀ t ∈ U, QT t.p
  sortedB : (B ++ [e]).Pairwise fun a b => x a.p ≤ x b.p
  sortedT : (U ++ [l]).Pairwise fun a b => x a.p ≤ x b.p
  last : ∀ t ∈ U, x t.p < x l.p
  beforeT : ∀ t ∈ U ++ [l], x b0 ≤ x t.p
  beforeB : ∀ b ∈ B ++ [e], x t0 < x b.p
  linksB : Links (fun a b => ∀ q, QT q → x a < x b → x a ≤ x q → x q ≤ x b → Sees false a q b) b0 ((B ++ [e]).map Placed.p)
  linksT : Links (fun a b => ∀ q, QB q → x a < x b → x a ≤ x q → x q ≤ x b → Sees true a q b) t0 ((U ++ [l]).map Placed.p)

omit [IsStrictOrderedRing T] in
theorem Rest.bottomStep {QB QT : Vec T → Prop} {b0 t0 : Vec T} {b : Placed T} {B U : List (Placed T)} {e l : Placed T}
    (h : Rest x QB QT b0 t0 (b :: B) U e l) (hb : ∀ t ∈ U ++ [l], x b.p ≤ x t.p) : Rest x QB QT b.p t0 B U e l where
  bottom := fun c hc => h.bottom c (List.mem_cons_of_mem _ hc)
  top := h.top
  eq := h.eq
  innerB := fun c hc => h.innerB c (List.mem_cons_of_mem _ hc)
  innerT := h.innerT
  sortedB := (List.pairwise_cons.1 h.sortedB).2
  sortedT := h.sortedT
  last := h.last
  beforeT := hb
  beforeB := fun c hc => h.beforeB c (List.mem_cons_of_mem _ hc)
  linksB := h.linksB.2
  linksT := h.linksT

omit [IsStrictOrderedRing T] in
theorem Rest.topStep {QB QT : Vec T → Prop} {b0 t0 : Vec T} {t : Placed T} {B U : List (Placed T)} {e l : Placed T}
    (h : Rest x QB QT b0 t0 B (t :: U) e l) (ht : ∀ b ∈ B ++ [e], x t.p < x b.p) : Rest x QB QT b0 t.p B U e l where
  bottom := h.bottom
  top := fun c hc => h.top c (List.mem_cons_of_mem _ hc)
  eq := h.eq
  innerB := h.innerB
  innerT := fun c hc => h.innerT c (List.mem_cons_of_mem _ hc)
  sortedB := h.sortedB
  sortedT := (List.pairwise_cons.1 h.sortedT).2
  last := fun c hc => h.last c (List.mem_cons_of_mem _ hc)
  beforeT := fun c hc => h.beforeT c (List.mem_cons_of_mem _ hc)
  beforeB := ht
  linksB := h.linksB
  linksT := h.linksT.2

omit [CommRing T] [IsStrictOrderedRing T] in
theorem merge_step (B U : List (Placed T)) {e l : Placed T} (he : x e.p = x l.p) (hlast : ∀ t ∈ U, x t.p < x l.p)
    (hB : (B ++ [e]).Pairwise fun a b => x a.p ≤ x b.p) (hU : (U ++ [l]).Pairwise fun a b => x a.p ≤ x b.p) :
    (B = [] ∧ U = [] ∧ merge (fun a => x a.p) (B ++ [e]) (U ++ [l]) = [e, l]) ∨
    (∃ b B', B = b :: B' ∧ (∀ t ∈ U ++ [l], x b.p ≤ x t.p) ∧
      merge (fun a => x a.p) (B ++ [e]) (U ++ [l]) = b :: merge (fun a => x a.p) (B' ++ [e]) (U ++ [l])) ∨
    ∃ t U', U = t :: U' ∧ (∀ b ∈ B ++ [e], x t.p < x b.p) ∧
      merge (fun a => x a.p) (B ++ [e]) (U ++ [l]) = t :: merge (fun a => x a.p) (B ++ [e]) (U' ++ [l]) := by
  cases B with
  | nil =>
    cases U with
    | nil =>
      left
      refine ⟨rfl, rfl, ?_⟩
      change merge _ [e] [l] = _
      rw [merge_cons, if_pos he.le, merge_nil_left]
    | cons t U =>
      right; right
      have ht := hlast t (by simp)
      refine ⟨t, U, rfl, ?_, ?_⟩
      · intro b hb
        rw [List.nil_append, List.mem_singleton] at hb
        rw [hb, he]; exact ht
      · rw [List.nil_append, List.cons_append, merge_cons, if_neg (by rw [not_le, he]; exact ht)]
  | cons b B =>
    cases U with
    | nil =>
      right; left
      have hb : x b.p ≤ x l.p := by
        rw [← he]; exact (List.pairwise_cons.1 hB).1 e (by simp)
      refine ⟨b, B, rfl, ?_, ?_⟩
      · intro t ht
        rw [List.nil_append, List.mem_singleton] at ht
        rw [ht]; exact hb
      · rw [List.nil_append, List.cons_append, merge_cons, if_pos hb]
    | cons t U =>
      right
      by_cases h : x b.p ≤ x t.p
      · left
        refine ⟨b, B, rfl, ?_, ?_⟩
        · intro c hc
          rcases List.mem_cons.1 hc with rfl | hc
          · exact h
          · exact h.trans ((List.pairwise_cons.1 hU).1 c hc)
        · rw [List.cons_append, List.cons_append, merge_cons, if_pos h]
      · right
        refine ⟨t, U, rfl, ?_, ?_⟩
        · intro c hc
          rcases List.mem_cons.1 hc with rfl | hc
          · exact not_le.1 h
          · exact (not_le.1 h).trans_le ((List.pairwise_cons.1 hB).1 c hc)
        · rw [List.cons_append, List.cons_append, merge_cons, if_neg h]

omit [IsStrictOrderedRing T] in
/-- The sorted list has two elements at the end. -/
theorem Inside.cons {side : Bool} {v0 vk : Vec T} {pend : List (Vec T)} {u : Placed T} {R : List (Placed T)} (hR : 2 ≤ R.length) :
    Inside side v0 vk pend (u :: R) ↔ if u.v.bottom = side then Inside side v0 u.p (u.p :: pend) R
      else (∀ q ∈ pend, Sees side v0 q u.p) ∧ Inside (!side) vk u.p [u.p] R := by
  match R, hR with
  | w :: y :: R, _ => rfl

omit [CommRing T] [IsStrictOrderedRing T] in
theorem merge_length (B U : List (Placed T)) (e l : Placed T) :
    2 ≤ (merge (fun a => x a.p) (B ++ [e]) (U ++ [l])).length := by
  rw [(merge_perm _ _ _).length_eq]
  simp; omega

theorem Rest.inside {QB QT : Vec T → Prop} {e l : Placed T} : ∀ (B U : List (Placed T)) {b0 t0 : Vec T},
    Rest x QB QT b0 t0 B U e l →
    (∀ pend : List (Vec T), (∀ q ∈ pend, QB q ∧ x t0 < x q ∧ ∀ t ∈ U ++ [l], x q ≤ x t.p) →
      Inside true t0 b0 pend (merge (fun a => x a.p) (B ++ [e]) (U ++ [l]))) ∧
    ∀ pend : List (Vec T), (∀ q ∈ pend, QT q ∧ x b0 ≤ x q ∧ ∀ b ∈ B ++ [e], x q < x b.p) →
      Inside false b0 t0 pend (merge (fun a => x a.p) (B ++ [e]) (U ++ [l])) := by
  intro B U b0 t0 h
  rcases merge_step x B U (congrArg x h.eq) h.last h.sortedB h.sortedT with ⟨hB, hU, hm⟩ | ⟨b, B', hB, hle, hm⟩ | ⟨t, U', hU, hlt, hm⟩
  · subst hB hU
    rw [hm]
    have he : e.v.bottom = true := h.bottom e (by simp)
    have hl : l.v.bottom = false := h.top l (by simp)
    refine ⟨fun pend hp => ⟨he, hl, h.eq, fun q hq => ?_⟩, fun pend hp => ⟨he, hl, h.eq, fun q hq => ?_⟩⟩
    · obtain ⟨h1, h2, h3⟩ := hp q hq
      have h3' := h3 l (by simp)
      rw [h.eq]
      exact h.linksT.1 q h1 (h2.trans_le h3') h2.le h3'
    · obtain ⟨h1, h2, h3⟩ := hp q hq
      have h3' := h3 e (by simp)
      exact h.linksB.1 q h1 (h2.trans_lt h3') h2 h3'.le
  · subst hB
    have hb : b.v.bottom = true := h.bottom b (by simp)
    have ht0 : x t0 < x b.p := h.beforeB b (by simp)
    have h' := h.bottomStep x hle
    obtain ⟨i1, i2⟩ := Rest.inside B' U h'
    rw [hm]
    constructor
    · intro pend hp
      rw [Inside.cons (merge_length x _ _ _ _), if_pos hb]
      refine i1 _ fun q hq => ?_
      rcases List.mem_cons.1 hq with rfl | hq
      · exact ⟨h.innerB b (by simp), ht0, hle⟩
      · exact hp q hq
    · intro pend hp
      rw [Inside.cons (merge_length x _ _ _ _), if_neg (by simp [hb])]
      refine ⟨fun q hq => ?_, i1 _ fun q hq => ?_⟩
      · obtain ⟨h1, h2, h3⟩ := hp q hq
        have h3' := h3 b (by simp)
        exact h.linksB.1 q h1 (h2.trans_lt h3') h2 h3'.le
      · rw [List.mem_singleton] at hq
        subst hq
        exact ⟨h.innerB b (by simp), ht0, hle⟩
  · subst hU
    have ht : t.v.bottom = false := h.top t (by simp)
    have hb0 : x b0 ≤ x t.p := h.beforeT t (by simp)
    have h' := h.topStep x hlt
    obtain ⟨i1, i2⟩ := Rest.inside B U' h'
    rw [hm]
    constructor
    · intro pend hp
      rw [Inside.cons (merge_length x _ _ _ _), if_neg (by simp [ht])]
      refine ⟨fun q hq => ?_, i2 _ fun q hq => ?_⟩
      · obtain ⟨h1, h2, h3⟩ := hp q hq
        have h3' := h3 t (by simp)
        exact h.linksT.1 q h1 (h2.trans_le h3') h2.le h3'
      · rw [List.mem_singleton] at hq
        subst hq
        exact ⟨h.innerT t (by simp), hb0, hlt⟩
    · intro pend hp
      rw [Inside.cons (merge_length x _ _ _ _), if_pos ht]
      refine i2 _ fun q hq => ?_
      rcases List.mem_cons.1 hq with rfl | hq
      · exact ⟨h.innerT t (by simp), hb0, hlt⟩
      · exact hp q hq
termination_by B U => B.length + U.length

omit [IsStrictOrderedRing T] in
theorem arcsR_merge {QB QT : Vec T → Prop} {e l : Placed T} : ∀ (B U : List (Placed T)) {b0 t0 : Vec T},
    Rest x QB QT b0 t0 B U e l →
    (arcsR true t0 b0 (merge (fun a => x a.p) (B ++ [e]) (U ++ [l]))).Perm (arcsC b0 (B ++ [e]) ++ arcsC t0 (U ++ [l])) ∧
    (arcsR false b0 t0 (merge (fun a => x a.p) (B ++ [e]) (U ++ [l]))).Perm (arcsC b0 (B ++ [e]) ++ arcsC t0 (U ++ [l])) := by
  intro B U b0 t0 h
  rcases merge_step x B U (congrArg x h.eq) h.last h.sortedB h.sortedT with ⟨hB, hU, hm⟩ | ⟨b, B', hB, hle, hm⟩ | ⟨t, U', hU, hlt, hm⟩
  · subst hB hU
    rw [hm]
    have he : e.v.bottom = true := h.bottom e (by simp)
    have hl : l.v.bottom = false := h.top l (by simp)
    simp [arcsR, arcsC, he, hl]
  · subst hB
    have hb : b.v.bottom = true := h.bottom b (by simp)
    obtain ⟨i1, i2⟩ := arcsR_merge B' U (h.bottomStep x hle)
    rw [hm]
    unfold arcsR
    rw [if_pos hb, if_neg (by simp [hb])]
    exact ⟨.cons _ i1, .cons _ i1⟩
  · subst hU
    have ht : t.v.bottom = false := h.top t (by simp)
    obtain ⟨i1, i2⟩ := arcsR_merge B U' (h.topStep x hlt)
    rw [hm]
    unfold arcsR
    rw [if_pos ht, if_neg (by simp [ht])]
    exact ⟨(List.Perm.cons _ i2).trans List.perm_middle.symm, (List.Perm.cons _ i2).trans List.perm_middle.symm⟩
termination_by B U => B.length + U.length

end inside

end Verif.FlowTriangulation
