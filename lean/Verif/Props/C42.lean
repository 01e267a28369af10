import Verif.Lemmas.Path
import Verif.Lemmas.FlatExamples

/-!
# C42: reversing a saddle connection or path is an involution

# C72: the area of a closed path is its signed area in all builds
-/

namespace Verif.C42

open Verif Spec Tri FlatTri Examples

variable {T : Type} [CommRing T] [LinearOrder T] [IsStrictOrderedRing T]

/-- Reversing a saddle connection twice gives the original. -/
theorem neg_neg (c : Saddle) : c.neg.neg = c := by
  unfold Saddle.neg
  simp

/-- The reversed saddle connection has the opposite vector, and source and target are exchanged. -/
theorem neg_correct (S : FlatTri T) (c : Saddle) :
    S.saddleVector c.neg = -S.saddleVector c ∧ c.neg.source = c.target ∧ c.neg.target = c.source :=
  ⟨chainVector_neg S c.chain, rfl, rfl⟩

/-- The saddle connection of a half edge has the vector of that half edge. -/
theorem halfEdge_vector {dbg : Bool} {S : FlatTri T} (h : S.tri.Reachable dbg) (hf : IsFlat S) {e : HE} (he : e < S.tri.size) :
    S.saddleVector (.ofHalfEdge e) = S.vec e := by
  have hflat := IsFlat.flat h hf
  have := chainVector_bump (S := S) hflat.coh.even hflat.odd (fun _ => 0) he
  rw [chainVector_zero, zero_add] at this
  exact this

/-- Reversing the saddle connection of a half edge gives the saddle connection of the opposite half edge. -/
theorem halfEdge_neg {dbg : Bool} {S : FlatTri T} (h : S.tri.Reachable dbg) (hf : IsFlat S) {e : HE} (he : e < S.tri.size) :
    S.saddleEq (Saddle.ofHalfEdge e).neg (.ofHalfEdge (neg e)) = true := by
  have hflat := IsFlat.flat h hf
  unfold saddleEq
  rw [(neg_correct S _).1, halfEdge_vector h hf he, halfEdge_vector h hf ((hflat.coh.neg_lt e).2 he), hflat.odd e he]
  simp [Saddle.neg, Saddle.ofHalfEdge]

/-- A reversed path consists of the reversed connections in reverse order. -/
theorem path_neg (p : List Saddle) : Path.neg p = (p.map Saddle.neg).reverse ∧ Path.reversed p = Path.neg p :=
  ⟨Path.neg_eq p, (Path.neg_eq p).symm⟩

/-- Reversing a path twice gives the original. -/
theorem path_neg_neg (p : List Saddle) : Path.neg (Path.neg p) = p := by
  rw [Path.neg_eq, Path.neg_eq, List.map_reverse, List.reverse_reverse, List.map_map]
  rw [show Saddle.neg ∘ Saddle.neg = id from funext neg_neg, List.map_id]

/-- The reversed path is a path. -/
theorem path_neg_valid {dbg : Bool} {S : FlatTri T} {p : List Saddle} (hp : S.makePath dbg p = .ok p) :
    S.makePath dbg (Path.neg p) = .ok (Path.neg p) :=
  makePath_iff.2 fun h => (makePath_iff.1 hp h).neg

/-- The reversed path is closed exactly if the path is. -/
theorem path_neg_closed (S : FlatTri T) (p : List Saddle) : S.pathClosed (Path.neg p) = S.pathClosed p := by
  rw [Path.neg_eq]
  unfold pathClosed
  rw [List.getLast?_reverse, List.head?_reverse, List.head?_map, List.getLast?_map]
  cases p.head? <;> cases p.getLast? <;> simp [connected_neg]

/-- A path is closed exactly if it ends where it started. -/
theorem closed_correct (S : FlatTri T) (p : List Saddle) (hp : p ≠ []) : S.pathClosed p = true ↔
    ∃ v w, S.tri.source (p.getLast hp).target = some v ∧ S.tri.source (p.head hp).source = some w ∧ v.min = w.min := by
  unfold pathClosed
  rw [List.getLast?_eq_getLast_of_ne_nil hp, List.head?_eq_some_head hp]
  exact connected_iff

/-- The area of a closed path changes sign under reversal, in release builds. -/
theorem area_neg (S : FlatTri T) (p : List Saddle) :
    S.pathArea false (Path.neg p) = (S.pathArea false p).map (-·) := by
  unfold pathArea
  rw [path_neg_closed]
  by_cases hc : S.pathClosed p = true
  · simp only [hc, Bool.not_true, Bool.false_eq_true, if_false, Bool.false_and]
    show Except.ok _ = Except.ok _
    congr 1
    simp only
    rw [Vec.area2_eq, Vec.area2_eq, Path.neg_eq, ← Vec.shoelace_reverse, List.map_reverse, List.map_map, List.map_map]
    congr 2
    apply List.map_congr_left
    intro c _
    exact (neg_correct S c).1
  · simp [hc]
    rfl

/-- The area of a closed path is twice the signed area of a polygon with these sides, wherever that polygon is in the
plane. -/
theorem area_correct (S : FlatTri T) (p : List Saddle) (hc : S.pathClosed p = true)
    (h0 : (p.map S.saddleVector).sum = 0) (origin : Vec T) :
    S.pathArea false p = .ok (Vec.shoelace origin (p.map S.saddleVector)) := by
  unfold pathArea
  simp only [hc, Bool.not_true, Bool.false_eq_true, if_false, Bool.false_and]
  rw [Vec.area2_eq]
  have := Vec.shoelace_shift origin 0 (p.map S.saddleVector)
  rw [h0, add_zero] at this
  rw [this]
  simp

/-- The area of a closed path does not depend on where the path starts. -/
theorem area_rotate (S : FlatTri T) (p q : List Saddle) (hp : Connected S (p ++ q)) (hc : S.pathClosed (p ++ q) = true)
    (h0 : ((p ++ q).map S.saddleVector).sum = 0) :
    S.pathClosed (q ++ p) = true ∧ S.pathArea false (q ++ p) = S.pathArea false (p ++ q) := by
  have hc' : S.pathClosed (q ++ p) = true := by
    cases p with
    | nil => simpa using hc
    | cons c p =>
      cases q with
      | nil => simpa using hc
      | cons d q =>
        rw [closed_correct S _ (by simp)]
        unfold Connected at hp
        rw [List.isChain_append] at hp
        have := hp.2.2 _ (List.getLast?_eq_getLast_of_ne_nil (l := c :: p) (by simp)) d (by simp)
        rw [List.getLast_append_of_right_ne_nil _ _ (by simp : c :: p ≠ [])]
        exact this
  refine ⟨hc', ?_⟩
  have h0' : ((q ++ p).map S.saddleVector).sum = 0 := by
    rw [List.map_append, List.sum_append] at h0 ⊢
    rw [add_comm]
    exact h0
  rw [area_correct S _ hc' h0' 0, area_correct S _ hc h0 (-(p.map S.saddleVector).sum)]
  rw [List.map_append, List.map_append, Vec.shoelace_append, Vec.shoelace_append]
  rw [List.map_append, List.sum_append] at h0
  rw [neg_add_cancel, zero_add, show (q.map S.saddleVector).sum = -(p.map S.saddleVector).sum by
    rw [eq_neg_iff_add_eq_zero, add_comm]; exact h0, add_comm]

/-- A triangle of the torus. -/
example : flatTorus.makePath true [.ofHalfEdge 0, .ofHalfEdge 2, .ofHalfEdge 5] = .ok [.ofHalfEdge 0, .ofHalfEdge 2, .ofHalfEdge 5] ∧
    flatTorus.pathClosed [.ofHalfEdge 0, .ofHalfEdge 2, .ofHalfEdge 5] = true ∧
    ([Saddle.ofHalfEdge 0, .ofHalfEdge 2, .ofHalfEdge 5].map flatTorus.saddleVector).sum = 0 ∧
    flatTorus.pathArea true [.ofHalfEdge 0, .ofHalfEdge 2, .ofHalfEdge 5] = .ok 1 := by
  refine ⟨makePath_iff.2 fun _ => ?_, by decide, by decide, rfl⟩
  unfold Connected
  simp only [List.isChain_cons_cons, List.isChain_singleton, and_true]
  exact ⟨⟨_, _, rfl, rfl, rfl⟩, ⟨_, _, rfl, rfl, rfl⟩⟩

end Verif.C42

namespace Verif.C72

open Verif Spec Tri FlatTri Examples

variable {T : Type} [CommRing T] [LinearOrder T] [IsStrictOrderedRing T]

/-- The area of a closed path whose sides form a polygon is twice the signed area. -/
def SignedArea (dbg : Bool) (S : FlatTri T) : Prop :=
  ∀ p, S.pathClosed p = true → (p.map S.saddleVector).sum = 0 →
    S.pathArea dbg p = .ok (Vec.shoelace 0 (p.map S.saddleVector))

/-- With assertions, it is an error when the path goes around the polygon clockwise. -/
theorem not_signedArea : ¬ SignedArea true flatTorus := by
  intro h
  have := h (Path.neg [.ofHalfEdge 0, .ofHalfEdge 2, .ofHalfEdge 5]) (by decide) (by decide)
  rw [show flatTorus.pathArea true (Path.neg [.ofHalfEdge 0, .ofHalfEdge 2, .ofHalfEdge 5]) = .error .logicError from rfl] at this
  cases this

/-- The area is correct in release builds, and in debug builds when it is not negative. -/
theorem signedArea_partial (dbg : Bool) (S : FlatTri T) (p : List Saddle) (hc : S.pathClosed p = true)
    (h0 : (p.map S.saddleVector).sum = 0) (hd : dbg = true → 0 ≤ Vec.shoelace 0 (p.map S.saddleVector)) :
    S.pathArea dbg p = .ok (Vec.shoelace 0 (p.map S.saddleVector)) := by
  cases dbg with
  | false => exact C42.area_correct S p hc h0 0
  | true =>
    unfold pathArea
    rw [List.sum_eq_foldl] at h0
    simp [hc, h0, Vec.area2_eq, hd rfl]

end Verif.C72
