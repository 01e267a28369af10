import Verif.Lemmas.Tracked
import Verif.Lemmas.TriSpec
import Verif.Lemmas.Examples

/-!
# C28: Tracked maps follow the edges they describe

When half edges are renamed, the surface is renamed and the data attached to a half edge `e` is afterwards attached to the
new name of `e`. The library renames in order to move edges to the end before they are removed.
-/

namespace Verif.C28

open Verif Spec Tracked

/-- Renaming is an involution which is compatible with the orientation of edges. -/
theorem rename_correct (a b e : HE) :
    rename a b (rename a b e) = e ∧ rename a b (neg e) = neg (rename a b e) ∧ rename a b a = b :=
  ⟨rename_rename a b e, rename_neg a b e, rename_left a b⟩

/-- The surface is the same up to the names of the half edges, for any `a` and `b`. -/
theorem swap_surface {dbg : Bool} {T : Tri} (hT : T.Reachable dbg) {a b : HE} (ha : a ∈ T.halfEdges)
    (hb : b ∈ T.halfEdges) :
    ∃ T', T.swap a b = .ok T' ∧ T'.halfEdges = T.halfEdges ∧ VerticesCorrect T' ∧ ∀ e,
      T'.nextAtVertex (rename a b e) = rename a b (T.nextAtVertex e) ∧
      T'.previousAtVertex (rename a b e) = rename a b (T.previousAtVertex e) ∧
      T'.nextInFace (rename a b e) = rename a b (T.nextInFace e) ∧
      T'.previousInFace (rename a b e) = rename a b (T.previousInFace e) ∧
      T'.boundary (rename a b e) = T.boundary e := by
  have hc := hT.inv.1
  rw [Tri.mem_halfEdges] at ha hb
  obtain ⟨T', h1, h2, h3, h4, h5, h6⟩ := Tri.swap_spec hc hT.inv.2 ha hb
  refine ⟨T', h1, by rw [Tri.halfEdges, Tri.halfEdges, h4], h3.verticesCorrect h2,
    fun e => ⟨h5 e, ?_, h6 e, ?_, ?_⟩⟩
  · change T'.vertices.inv _ = rename a b (T.vertices.inv e)
    rw [← h2.hv.left (rename a b (T.vertices.inv e)), h5, hc.hv.right]
  · change T'.faces.inv _ = rename a b (T.faces.inv e)
    rw [← h2.hf.left (rename a b (T.faces.inv e)), h6, hc.hf.right]
  · unfold Tri.boundary
    rw [h6, Bool.eq_iff_iff, beq_iff_eq, beq_iff_eq, rename_inj]

example : ∃ T' : Tri, Examples.torus.swap 0 3 = .ok T' ∧ T'.nextInFace 3 = rename 0 3 (Examples.torus.nextInFace 0) :=
  let ⟨T', h, _, _, h'⟩ := swap_surface (Examples.torus_reachable true) (a := 0) (b := 3) (by decide) (by decide)
  ⟨T', h, (h' 0).2.2.1⟩

/-- A tracked half edge is renamed. -/
theorem swap_halfEdge (a b self : HE) : swapHalfEdge a b self = rename a b self := by
  unfold swapHalfEdge rename
  have := ne_neg a
  have := ne_neg b
  split_ifs <;> simp_all

/-- A tracked set of edges contains the new name of an edge exactly when it contained the edge. -/
theorem swap_edgeSet {ops : List IndexedSet.Op} {l : List IndexedSet} (hl : IndexedSet.run ops [] = some l)
    {s : IndexedSet} (hs : s ∈ l) (a b e : HE) :
    (swapEdgeSet a b s).contains (rename a b e / 2) = s.contains (e / 2) := by
  obtain ⟨S, hS⟩ : ∃ S, IndexedSet.Rep s S := by
    rcases IndexedSet.run_spec ops (.nil : IndexedSet.Reps [] []) with ⟨h2, _⟩ | ⟨l', m, h1, _, h3⟩
    · rw [hl] at h2; cases h2
    rw [hl] at h1
    cases h1
    obtain ⟨i, hi, rfl⟩ := List.getElem_of_mem hs
    rcases h3.get i with ⟨h, _⟩ | ⟨s', S, h4, _, h6⟩
    · rw [List.getElem?_eq_getElem hi] at h; cases h
    · rw [List.getElem?_eq_getElem hi] at h4; cases h4; exact ⟨S, h6⟩
  exact swapEdgeSet_contains hS a b e

example : ∃ l s, IndexedSet.run [.ofItems [0, 3]] [] = some l ∧ s ∈ l ∧ (swapEdgeSet 0 3 s).contains 1 = true :=
  ⟨_, _, rfl, List.mem_singleton_self _, by decide⟩

/-- The value that a map attaches to an edge is attached to its new name. -/
theorem swap_edgeMap {V : Type*} (a b : HE) (m : ℕ → V) (e : HE) :
    swapEdgeMap a b m (rename a b e / 2) = m (e / 2) := by
  unfold swapEdgeMap swapCells
  split_ifs with h
  · subst h; rw [rename_self]
  rcases div_cases a b e with rfl | rfl | rfl | rfl | ⟨h1, h2⟩
  · rw [rename_left]; simp
  · rw [rename_neg, neg_div, neg_div, rename_left]; simp
  · rw [rename_right]
    by_cases h' : a / 2 = e / 2
    · simp [h']
    · simp [Function.update_of_ne h']
  · rw [rename_neg, neg_div, neg_div, rename_right]
    by_cases h' : a / 2 = b / 2
    · simp [h']
    · simp [Function.update_of_ne h']
  · rw [rename_other h1 h2]; simp [Function.update_of_ne h1, Function.update_of_ne h2]

/-- The value that a map attaches to a half edge is attached to its new name. Here the two edges must be different. -/
theorem swap_halfEdgeMap {V : Type*} {a b : HE} (hab : a ≠ neg b) (m : HE → V) (e : HE) :
    swapHalfEdgeMap a b m (rename a b e) = m e := by
  unfold swapHalfEdgeMap swapCells
  split_ifs with h
  · subst h; rw [rename_self]
  have h3 : neg a ≠ b := fun h' => hab (neg_eq_comm'.1 h')
  have h4 : neg a ≠ neg b := fun h' => h (neg_inj'.1 h')
  have := ne_neg a
  have := ne_neg b
  have := Ne.symm h
  have := Ne.symm hab
  have := Ne.symm h3
  have := Ne.symm h4
  have := neg_ne a
  have := neg_ne b
  rcases div_cases a b e with rfl | rfl | rfl | rfl | ⟨h1, h2⟩
  · rw [rename_left]; simp [Function.update_apply, *]
  · rw [rename_neg, rename_left]; simp [Function.update_apply, *]
  · rw [rename_right]; simp [Function.update_apply, *]
  · rw [rename_neg, rename_right]; simp [Function.update_apply, *]
  · rw [rename_other h1 h2]
    have h5 : e ≠ a := by rintro rfl; exact h1 rfl
    have h6 : e ≠ b := by rintro rfl; exact h2 rfl
    have h7 : e ≠ neg a := by rintro rfl; exact h1 (neg_div a)
    have h8 : e ≠ neg b := by rintro rfl; exact h2 (neg_div b)
    simp [Function.update_apply, *]

example : (0 : HE) ≠ neg 3 := by decide

/-- With `a = -b` the renaming of such a map is missing. The library does not use this case. -/
theorem swap_halfEdgeMap_reversed {V : Type*} (b : HE) (m : HE → V) : swapHalfEdgeMap (neg b) b m = m := by
  unfold swapHalfEdgeMap swapCells
  rw [if_neg (neg_ne b)]
  funext e
  by_cases h1 : e = b
  · subst h1; simp [Function.update_apply, neg_ne, ne_neg]
  by_cases h2 : e = neg b
  · subst h2; simp [Function.update_apply]
  simp [Function.update_apply, h1, h2]

/-- The value that an odd map attaches to a half edge is attached to its new name, for any `a` and `b`, and the map is
still odd. -/
theorem swap_oddHalfEdgeMap {V : Type*} (n : V → V) (a b : HE) {m : HE → V}
    (hm : ∀ e, m (neg e) = n (m e)) (e : HE) :
    swapOddHalfEdgeMap n a b m (rename a b e) = m e ∧
    swapOddHalfEdgeMap n a b m (neg e) = n (swapOddHalfEdgeMap n a b m e) := by
  have key : ∀ e, swapOddHalfEdgeMap n a b m (rename a b e) = m e := by
    intro e
    unfold swapOddHalfEdgeMap oddSet
    split_ifs with h h'
    · subst h; rw [rename_self]
    · subst h'
      rcases div_cases (neg b) b e with rfl | rfl | rfl | rfl | ⟨h1, h2⟩
      · rw [rename_left, neg_neg', hm]; simp
      · rw [neg_neg', rename_right]; simp [Function.update_apply, neg_ne]
      · rw [rename_right]; simp [Function.update_apply, neg_ne]
      · rw [rename_left, neg_neg', hm]; simp
      · rw [rename_other h1 h2]
        have h5 : e ≠ b := by rintro rfl; exact h2 rfl
        have h6 : e ≠ neg b := by rintro rfl; exact h1 rfl
        simp [Function.update_apply, *]
    · have h3 : neg a ≠ b := fun h => h' (neg_eq_comm'.1 h)
      have h4 : neg a ≠ neg b := fun h' => h (neg_inj'.1 h')
      have := ne_neg a
      have := ne_neg b
      have := Ne.symm h
      have := Ne.symm h'
      have := Ne.symm h3
      have := Ne.symm h4
      have := neg_ne a
      have := neg_ne b
      rcases div_cases a b e with rfl | rfl | rfl | rfl | ⟨h1, h2⟩
      · rw [rename_left]; simp [Function.update_apply, *]
      · rw [rename_neg, rename_left, hm]; simp [Function.update_apply, *]
      · rw [rename_right]; simp [Function.update_apply, *]
      · rw [rename_neg, rename_right, hm]; simp [Function.update_apply, *]
      · rw [rename_other h1 h2]
        have h5 : e ≠ a := by rintro rfl; exact h1 rfl
        have h6 : e ≠ b := by rintro rfl; exact h2 rfl
        have h7 : e ≠ neg a := by rintro rfl; exact h1 (neg_div a)
        have h8 : e ≠ neg b := by rintro rfl; exact h2 (neg_div b)
        simp [Function.update_apply, *]
  refine ⟨key e, ?_⟩
  have h1 := key (rename a b (neg e))
  have h2 := key (rename a b e)
  rw [rename_rename] at h1 h2
  rw [h1, h2, rename_neg, hm]

example : ∃ m : HE → ℤ, (∀ e, m (neg e) = -m e) ∧ m 0 = 1 :=
  ⟨fun e => if e % 2 = 0 then 1 else -1, fun e => by
    simp only [neg_mod]; rcases Nat.mod_two_eq_zero_or_one e with h | h <;> simp [h], rfl⟩

/-- A tracked half edge survives when its edge is not removed, otherwise this is reported. -/
theorem erase_halfEdge (removed : List ℕ) (self : HE) :
    (self / 2 ∉ removed → eraseHalfEdge removed self = .ok self) ∧
    (self / 2 ∈ removed → eraseHalfEdge removed self = .error .logicError) := by
  unfold eraseHalfEdge
  exact ⟨fun h => if_neg h, fun h => if_pos h⟩

/-- A tracked set of edges loses exactly the edges that are removed. -/
theorem erase_edgeSet (removed items : List ℕ) (e : ℕ) :
    (eraseEdgeSet removed (IndexedSet.ofItems items)).contains e = decide (e ∈ items ∧ e ∉ removed) := by
  unfold eraseEdgeSet
  have : ∀ (removed : List ℕ) s S, IndexedSet.Rep s S →
      IndexedSet.Rep (removed.foldl IndexedSet.erase s) (S \ removed.toFinset) := by
    intro removed
    induction removed with
    | nil => intro s S h; simpa using h
    | cons x r ih =>
      intro s S h
      have := ih _ _ (h.erase x)
      have hx : S.erase x \ r.toFinset = S \ (x :: r).toFinset := by
        ext y; simp only [Finset.mem_sdiff, Finset.mem_erase, List.mem_toFinset, List.mem_cons]; tauto
      rwa [hx] at this
  rw [(this removed _ _ (IndexedSet.rep_ofItems items)).contains]
  simp

/-- When the last edges of a surface are removed, in any order, the other edges keep their values. -/
theorem erase_maps {V : Type*} {edges : ℕ} {removed : List ℕ}
    (hr : ∀ e, e ∈ removed ↔ edges - removed.length ≤ e ∧ e < edges) (m : ℕ → V) :
    (∀ e, e < (eraseEdgeMap removed ⟨edges, m⟩).size ↔ e < edges ∧ e ∉ removed) ∧
    (eraseEdgeMap removed ⟨edges, m⟩).get = m ∧
    (∀ e, e < (eraseHalfEdgeMap removed ⟨2 * edges, m⟩).size ↔ e / 2 < edges ∧ e / 2 ∉ removed) ∧
    (eraseHalfEdgeMap removed ⟨2 * edges, m⟩).get = m := by
  have h1 : ∀ (r : List ℕ) (n : ℕ), eraseEdgeMap r ⟨n, m⟩ = ⟨n - r.length, m⟩ := by
    intro r
    induction r with
    | nil => intro n; rfl
    | cons x r ih =>
      intro n
      have := ih (n - 1)
      simp only [eraseEdgeMap, List.foldl_cons, List.length_cons] at this ⊢
      rw [this]
      congr 1
      omega
  have h2 : ∀ (r : List ℕ) (n : ℕ), eraseHalfEdgeMap r ⟨n, m⟩ = ⟨n - 2 * r.length, m⟩ := by
    intro r
    induction r with
    | nil => intro n; rfl
    | cons x r ih =>
      intro n
      have := ih (n - 2)
      simp only [eraseHalfEdgeMap, List.foldl_cons, List.length_cons] at this ⊢
      rw [this]
      congr 1
      omega
  rw [h1, h2]
  refine ⟨fun e => ?_, rfl, fun e => ?_, rfl⟩
  · rw [hr]; simp only; omega
  · rw [hr]; simp only; omega

example : ∀ e, e ∈ [4, 2, 3] ↔ 5 - [4, 2, 3].length ≤ e ∧ e < 5 := fun e => by simp; omega

end Verif.C28
