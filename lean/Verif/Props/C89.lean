import Verif.Lemmas.FlipPath
import Verif.Props.C33

/-!
# C89: a flip deformation maps paths to paths in the same place
-/

namespace Verif.C89

open Verif Spec Tri FlatTri Examples Vec

variable {T : Type} [CommRing T] [LinearOrder T] [IsStrictOrderedRing T]
variable {K : Type} [Field K] [LinearOrder K] [IsStrictOrderedRing K]

/-- The image of a path consists of segments in the same places, with the same vectors. -/
theorem path_correct (A : Option (Approx T K)) {dbg : Bool} {S S' : FlatTri T} (h : Closed dbg S) {e : HE}
    (hf : S.flip A dbg e = (S', .ok ())) {path : List (Conn T)} (hs : ∀ s ∈ path, IsConn S s)
    (hc : Spec.Connected S (path.map Conn.toSaddle)) :
    ∃ path', (∀ fuel ≥ 3, flipPath A dbg fuel S S' e path = some (.ok path')) ∧
      List.Forall₂ (SameConn S S' e) path path' ∧ (∀ s ∈ path', IsConn S' s) ∧
      Spec.Connected S' (path'.map Conn.toSaddle) := by
  obtain ⟨x, y, z, w, hd⟩ := h.diagonals hf (h.flip hf).1
  obtain ⟨path', h1, h2, h3, h4⟩ := hd.flipPath_eq A dbg hs hc
  exact ⟨path', h1, h2.imp fun _ _ hx => hx.1, h3, h4⟩

/-- There is just one segment with that vector in the same place. -/
theorem place_unique (A : Option (Approx T K)) {dbg : Bool} {S S' : FlatTri T} (h : Closed dbg S) {e : HE}
    (hf : S.flip A dbg e = (S', .ok ())) {s t t' : Conn T} (ht : IsConn S' t) (ht' : IsConn S' t')
    (h1 : SameConn S S' e s t) (h2 : SameConn S S' e s t') :
    t.source = t'.source ∧ t.target = t'.target ∧ t.vector = t'.vector := by
  obtain ⟨x, y, z, w, hd⟩ := h.diagonals hf (h.flip hf).1
  have hv : t.vector = t'.vector := h1.vector.trans h2.vector.symm
  have flipped : ∀ {x x'}, SameCorner S S' e x x' → SameCorner S' S (neg e) x' x := by
    rintro x x' ⟨y, y1, y2, y3, y4⟩
    exact ⟨y, y2, by rwa [neg_neg'], by rwa [neg_neg', Or.comm (a := x' = neg e)], by rwa [neg_neg', Or.comm (a := x = neg e)]⟩
  have flipped' : ∀ {x x'}, SameCorner S S' e x x' → SameCorner S S' (neg e) x x' := by
    rintro x x' ⟨y, y1, y2, y3, y4⟩
    exact ⟨y, y2, by rwa [neg_neg'], by rwa [neg_neg', Or.comm (a := x = neg e)], by rwa [neg_neg', Or.comm (a := x' = neg e)]⟩
  have key : ∀ {x x' x'' : HE} {v : Vec T}, LeavesCorner S' x v → LeavesCorner S' x'' v → SameCorner S S' e x' x →
      SameCorner S S' e x' x'' → x'' = x := by
    intro x x' x'' v g1 g2 g3 g4
    have hd' := hd.section_
    rcases hd.same with hs | hs
    · rw [hs] at hd'
      refine hd'.corner_unique g1 g2 (x' := x') ?_ g4
      obtain ⟨y, y1, y2, y3, y4⟩ := g3
      exact ⟨y, y1, y2, y4, y3⟩
    · rw [hs] at hd'
      exact hd'.corner_unique g1 g2 (x' := x') (flipped g3) (flipped' g4)
  refine ⟨(key ht.1 (hv ▸ ht'.1) h1.source h2.source).symm, ?_, hv⟩
  exact (key ht.2 (hv ▸ ht'.2) h1.target h2.target).symm

/-- The section maps the image back to the original path. -/
theorem section_inverts (A : Option (Approx T K)) {dbg : Bool} {S S' : FlatTri T} (h : Closed dbg S) {e : HE}
    (hf : S.flip A dbg e = (S', .ok ())) {path : List (Conn T)} (hs : ∀ s ∈ path, IsConn S s)
    (hc : Spec.Connected S (path.map Conn.toSaddle)) :
    ∃ path', (∀ fuel ≥ 3, flipPath A dbg fuel S S' e path = some (.ok path')) ∧
      ∀ fuel ≥ 3, flipPath A dbg fuel S' S e path' = some (.ok path) := by
  obtain ⟨x, y, z, w, hd⟩ := h.diagonals hf (h.flip hf).1
  obtain ⟨path', h1, h2, h3, h4⟩ := hd.flipPath_eq A dbg hs hc
  have hback : ∃ path'', (∀ fuel ≥ 3, flipPath A dbg fuel S' S e path' = some (.ok path'')) ∧
      List.Forall₂ (fun s s' => SameConn S' S e s s' ∧ s'.chain = s.chain ∧ s'.base = s.base) path' path'' ∧
      ∀ s ∈ path'', IsConn S s := by
    rcases hd.same with hs | hs
    · have hd' := hd.section_
      rw [hs] at hd'
      obtain ⟨p, p1, p2, p3, -⟩ := hd'.flipPath_eq A dbg h3 h4
      exact ⟨p, p1, p2, p3⟩
    · have hd' := hd.section_.opposite
      rw [hs, neg_neg'] at hd'
      obtain ⟨p, p1, p2, p3, -⟩ := hd'.flipPath_eq A dbg h3 h4
      exact ⟨p, p1, p2, p3⟩
  obtain ⟨path'', g1, g2, g3⟩ := hback
  suffices path'' = path by
    rw [← this]
    exact ⟨path', this ▸ h1, g1⟩
  clear g1 h1 h4 hc h3
  induction h2 generalizing path'' with
  | nil =>
    cases g2
    rfl
  | @cons s s' path path' i1 i2 ih =>
    cases g2 with
    | @cons _ s'' _ path'' j1 j2 =>
      obtain ⟨k1, k2, k3⟩ := i1
      obtain ⟨l1, l2, l3⟩ := j1
      have hv : s''.vector = s.vector := l1.vector.trans k1.vector
      have q1 := hd.corner_unique (hs s (by simp)).1 (hv ▸ (g3 s'' (by simp)).1) k1.source l1.source
      have q2 := hd.corner_unique (hs s (by simp)).2 (hv ▸ (g3 s'' (by simp)).2) k1.target l1.target
      rw [ih (fun t ht => hs t (by simp [ht])) path'' j2 fun t ht => g3 t (by simp [ht])]
      congr 1
      obtain ⟨⟨a1, a2, a3⟩, a4⟩ := s
      obtain ⟨⟨b1, b2, b3⟩, b4⟩ := s''
      obtain rfl : b1 = a1 := q1
      obtain rfl : b2 = a2 := q2
      obtain rfl : b3 = a3 := l2.trans k2
      obtain rfl : b4 = a4 := l3.trans k3
      rfl

/-! ### A concrete case -/

/-- The diagonal of the torus, then the segment from the vertex of the torus to its copy at `(2, 1)`. -/
def torusPath : List (Conn ℤ) :=
  [Conn.ofHalfEdge flatTorus 4, ⟨⟨0, 1, fun i => if i = 0 ∨ i = 2 then 1 else 0⟩, flatTorus⟩]

theorem torusPath_conns : ∀ s ∈ torusPath, IsConn flatTorus s := by
  intro s hs
  simp only [torusPath, List.mem_cons, List.not_mem_nil, or_false] at hs
  rcases hs with rfl | rfl
  · unfold IsConn LeavesCorner
    decide
  · unfold IsConn LeavesCorner
    decide

theorem torusPath_connected : Spec.Connected flatTorus (torusPath.map Conn.toSaddle) := by
  rw [connected_chain]
  decide +kernel

/-- The diagonal that is flipped starts in the corner at the half edge 0 after the flip. -/
example : (flatTorus.flip (none : Option (Approx ℤ ℚ)) true 4).2.toBool ∧
    (flipPath (none : Option (Approx ℤ ℚ)) true 3 flatTorus C33.flippedTorus 4 torusPath).map
      (fun p => p.toOption.map fun p => p.map fun s => (s.source, s.target, s.vector.x, s.vector.y)) =
    some (some [(0, 1, 1, 1), (0, 1, 2, 1)]) := by
  decide +kernel

end Verif.C89
