import Verif.Lemmas.HalfEdge
import Mathlib.Data.Set.Insert

/-!
# C01: naming of half edges and edges
-/

namespace Verif.C01
open Verif

/-- The ids a half edge can have: non-zero and such that the index fits an `int`. -/
def ValidId (id : ℤ) : Prop := id ≠ 0 ∧ -2 ^ 30 ≤ id ∧ id ≤ 2 ^ 30

instance : DecidablePred ValidId := fun id => inferInstanceAs (Decidable (_ ∧ _ ∧ _))

/-- `HalfEdge(id)` is defined exactly for the valid ids. -/
theorem ofId_defined (id : ℤ) : (∃ e, heOfId id = .ok e) ↔ ValidId id := by
  unfold heOfId ValidId
  split_ifs <;> simp <;> omega

/-- `HalfEdge(id).id() == id`. -/
theorem id_ofId {id : ℤ} {e : HE} (h : heOfId id = .ok e) : heId e = id := by
  unfold heOfId at h
  split_ifs at h <;> simp at h <;> subst h <;> unfold heId <;> split_ifs <;> omega

/-- `HalfEdge(e.id()) == e` for each half edge with an index in the range of `int`. -/
theorem ofId_id {e : HE} (h : e < 2 ^ 31) : heOfId (heId e) = .ok e := by
  unfold heOfId heId
  split_ifs <;> first | omega | (congr 1; omega)

/-- Distinct half edges have distinct ids. -/
theorem id_injective : Function.Injective heId := by
  intro a b h
  unfold heId at h
  split_ifs at h <;> omega

/-- The id is never zero. -/
theorem id_ne_zero (e : HE) : heId e ≠ 0 := by
  unfold heId; split_ifs <;> omega

/-- Negating a half edge negates its id. -/
theorem id_neg (e : HE) : heId (neg e) = -heId e := by
  unfold heId
  rw [neg_mod, neg_div]
  split_ifs <;> omega

/-- Negation is an involution without fixed points. -/
theorem neg_involution (e : HE) : neg (neg e) = e ∧ neg e ≠ e :=
  ⟨neg_neg' e, neg_ne e⟩

/-- Two half edges lie on the same edge iff they are equal or opposite. -/
theorem edge_eq_iff (a b : HE) : Edge.ofHalfEdge a = Edge.ofHalfEdge b ↔ a = b ∨ a = neg b := by
  simp only [Edge.ofHalfEdge, Edge.mk.injEq, neg_def]
  split_ifs <;> omega

/-- `positive()` and `negative()` are the half edges of the edge with positive and negative id. -/
theorem edge_sides (e : HE) :
    0 < heId (Edge.ofHalfEdge e).positive ∧ heId (Edge.ofHalfEdge e).negative < 0 ∧
      ({(Edge.ofHalfEdge e).positive, (Edge.ofHalfEdge e).negative} : Set HE) = {e, neg e} := by
  have hid : ∀ x : HE, x % 2 = 0 → 0 < heId x := by
    intro x hx; unfold heId; rw [if_neg (by omega)]; omega
  by_cases h : e % 2 = 0
  · have hp : (Edge.ofHalfEdge e).pos = e := by
      simp only [Edge.ofHalfEdge]; rw [if_pos]; rw [neg_def, if_pos h]; omega
    refine ⟨?_, ?_, ?_⟩
    · unfold Edge.positive; rw [hp]; exact hid e h
    · unfold Edge.negative; rw [hp, id_neg]; have := hid e h; omega
    · unfold Edge.positive Edge.negative; rw [hp]
  · have hp : (Edge.ofHalfEdge e).pos = neg e := by
      simp only [Edge.ofHalfEdge]; rw [if_neg]; rw [neg_def, if_neg h]; omega
    have h2 : neg e % 2 = 0 := by rw [neg_mod]; omega
    refine ⟨?_, ?_, ?_⟩
    · unfold Edge.positive; rw [hp]; exact hid _ h2
    · unfold Edge.negative; rw [hp, id_neg]; have := hid _ h2; omega
    · unfold Edge.positive Edge.negative; rw [hp, neg_neg', Set.pair_comm]

/-- `Edge::fromIndex(edge.index()) == edge`. -/
theorem fromIndex_index {e : HE} (h : e < 2 ^ 31) :
    Edge.fromIndex (Edge.ofHalfEdge e).index = .ok (Edge.ofHalfEdge e) := by
  have key : ∀ x : HE, x % 2 = 0 → x < 2 ^ 31 →
      heOfId (((x / 2 : ℕ) : ℤ) + 1) = .ok x := by
    intro x hx hlt
    unfold heOfId
    rw [if_neg (by omega), if_pos (by omega), if_pos (by omega)]
    congr 1; omega
  have hpos : (Edge.ofHalfEdge e).pos % 2 = 0 ∧ (Edge.ofHalfEdge e).pos < 2 ^ 31 := by
    simp only [Edge.ofHalfEdge, neg_def]; split_ifs <;> omega
  unfold Edge.fromIndex Edge.ofId Edge.index
  rw [key _ hpos.1 hpos.2]
  show Except.ok (Edge.ofHalfEdge (Edge.ofHalfEdge e).pos) = _
  congr 1
  rw [edge_eq_iff]
  simp only [Edge.ofHalfEdge]; split_ifs <;> simp

/-- The index of `Edge::fromIndex(i)` is `i`. -/
theorem index_fromIndex {i : ℕ} {e : Edge} (h : Edge.fromIndex i = .ok e) : e.index = i := by
  unfold Edge.fromIndex Edge.ofId at h
  cases he : heOfId ((i : ℤ) + 1) with
  | error x => rw [he] at h; cases h
  | ok y =>
    rw [he] at h
    cases h
    unfold heOfId at he
    split_ifs at he
    · simp at he; subst he
      simp only [Edge.index, Edge.ofHalfEdge, neg_def]; split_ifs <;> omega
    · omega

example : heOfId 3 = .ok 4 ∧ heOfId (-3) = .ok 5 ∧ heId 5 = -3 := ⟨rfl, rfl, rfl⟩
example : Edge.fromIndex 7 = .ok ⟨14⟩ := rfl
example : ValidId (-17) := by decide

end Verif.C01
