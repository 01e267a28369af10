import Verif.Props.C89
import Verif.Props.C85

/-!
# C90: the chains of a path that has been mapped by a flip belong to the surface after the flip

This is only true for paths that do not use the half edge that is flipped. The property says: for every surface and flip, the
image of a path of segments with chains on the surface consists of segments with chains on the surface after the flip, and
so a linear map can be applied to the image.
-/

namespace Verif.C90

open Verif Spec Tri FlatTri Examples Vec

variable {T : Type} [CommRing T] [LinearOrder T] [IsStrictOrderedRing T]
variable {K : Type} [Field K] [LinearOrder K] [IsStrictOrderedRing K]

theorem chain_difference {S S' : FlatTri T} {e : HE} (he : e < S.tri.size) (hev : 2 ∣ S.tri.size) (hsize : S'.tri.size = S.tri.size)
    (hv : ∀ x, x ≠ e → x ≠ neg e → S'.vec x = S.vec x) (c : ℕ → ℤ) :
    S'.chainVector c = S.chainVector c + ((c (e / 2) : ℤ) : T) • (S'.vec (2 * (e / 2)) - S.vec (2 * (e / 2))) := by
  rw [chainVector_eq, chainVector_eq, hsize]
  have hm : e / 2 < S.tri.size / 2 := by omega
  have key : ∀ n, ((List.range n).map fun i => ((c i : ℤ) : T) • S'.vec (2 * i)).sum =
      ((List.range n).map fun i => ((c i : ℤ) : T) • S.vec (2 * i)).sum +
        if e / 2 < n then ((c (e / 2) : ℤ) : T) • (S'.vec (2 * (e / 2)) - S.vec (2 * (e / 2))) else 0 := by
    intro n
    induction n with
    | zero => simp
    | succ n ih =>
      rw [List.range_succ, List.map_append, List.map_append, List.sum_append, List.sum_append, ih]
      by_cases h1 : e / 2 = n
      · subst h1
        rw [if_neg (lt_irrefl _), if_pos (Nat.lt_succ_self _)]
        ext <;> simp <;> ring
      · have h2 : S'.vec (2 * n) = S.vec (2 * n) := by
          refine hv _ ?_ ?_
          · intro hx
            apply h1
            omega
          · intro hx
            apply h1
            have : neg e = if e % 2 = 0 then e + 1 else e - 1 := neg_def e
            split at this <;> omega
        rw [List.map_singleton, List.map_singleton, h2]
        by_cases h3 : e / 2 < n
        · rw [if_pos h3, if_pos (by omega)]
          abel
        · rw [if_neg h3, if_neg (by omega)]
          abel
  rw [key, if_pos hm]

theorem diagonal_moved {S S' : FlatTri T} {e a b c d : HE} (h : Diagonals S S' e e a b c d) :
    S'.vec (2 * (e / 2)) - S.vec (2 * (e / 2)) ≠ 0 := by
  obtain ⟨g1, g2, g3, g4, g5, g6, g7, g8, g9⟩ := h.shut.flat.quad h.quad
  obtain ⟨f1, f2, f3, f4, f5, f6, f7, f8, f9⟩ := h.shut'.flat.quad h.quad'
  obtain ⟨v1, v2, v3, v4, v5⟩ := h.vecs
  obtain ⟨a1, a2, a3, a4⟩ := h.areas
  have hne : S'.vec e ≠ S.vec e := by
    intro hx
    rw [v2, v3, hx] at f6
    have h1 : S.vec c = S.vec a := by
      have h2 := g6.trans f6.symm
      have h3 : S.vec a = S.vec e + S.vec a + S.vec b - S.vec e - S.vec b := by abel
      rw [h3, h2]
      abel
    rw [h1] at a2
    have h4 : cross (S.vec b) (S.vec a) = -cross (S.vec a) (S.vec b) := by unfold cross; ring
    rw [h4] at a2
    linarith
  rw [sub_ne_zero]
  have he : e < S.tri.size := h.quad.lt.1
  rcases Nat.mod_two_eq_zero_or_one e with hm | hm
  · rwa [show 2 * (e / 2) = e by omega]
  · have hn : 2 * (e / 2) = neg e := by
      rw [neg_def, if_neg (by omega)]
      omega
    rw [hn, h.shut.flat.odd e he, h.shut'.flat.odd e (h.size.symm ▸ he)]
    intro hx
    exact hne (neg_inj.1 hx)

theorem smul_vec_eq_zero {x : T} {v : Vec T} (hv : v ≠ 0) (h : x • v = 0) : x = 0 := by
  by_contra hx
  apply hv
  have h1 := congrArg Vec.x h
  have h2 := congrArg Vec.y h
  simp only [Vec.smul_x, Vec.smul_y, Vec.zero_x, Vec.zero_y] at h1 h2
  ext
  · exact (mul_eq_zero.1 h1).resolve_left hx
  · exact (mul_eq_zero.1 h2).resolve_left hx

/-- The chain of the image of a segment belongs to the surface after the flip exactly if the half edge that is flipped does
not show up in the chain. -/
theorem chains_kept_iff_partial (A : Option (Approx T K)) {dbg : Bool} {S S' : FlatTri T} (h : Closed dbg S) {e : HE}
    (hf : S.flip A dbg e = (S', .ok ())) {path : List (Conn T)} (hs : ∀ s ∈ path, IsConn S s) (ho : ∀ s ∈ path, ChainOn S s)
    (hc : Spec.Connected S (path.map Conn.toSaddle)) :
    ∃ path', (∀ fuel ≥ 3, flipPath A dbg fuel S S' e path = some (.ok path')) ∧
      List.Forall₂ (fun s s' => ChainOn S' s' ↔ s.chain (e / 2) = 0) path path' := by
  obtain ⟨x, y, z, w, hd⟩ := h.diagonals hf (h.flip hf).1
  obtain ⟨path', h1, h2, h3, h4⟩ := hd.flipPath_eq A dbg hs hc
  refine ⟨path', h1, ?_⟩
  clear h1 h3 h4 hs hc
  induction h2 with
  | nil => exact .nil
  | @cons s s' path path' i1 i2 ih =>
    refine .cons ?_ (ih fun t ht => ho t (by simp [ht]))
    obtain ⟨k1, k2, k3⟩ := i1
    have k4 := chain_difference hd.quad.lt.1 (Nat.dvd_of_mod_eq_zero h.shut.flat.coh.even) hd.size hd.vec s.chain
    have k5 : S.chainVector s.chain = s.vector := ho s (by simp)
    unfold ChainOn
    rw [k1.vector, k2, k4, k5]
    constructor
    · intro hx
      have := smul_vec_eq_zero (diagonal_moved hd) (add_eq_left.1 hx)
      exact_mod_cast this
    · intro hx
      rw [hx]
      simp

/-- A linear map after a flip maps the segments of a path correctly when the half edge that is flipped does not show up in
their chains. -/
theorem linear_after_flip_partial (A : Option (Approx T K)) {dbg : Bool} {S S' S'' : FlatTri T} (h : Closed dbg S) {e : HE}
    (hf : S.flip A dbg e = (S', .ok ())) {a b c d : T} (hm : S'.applyMatrix A dbg a b c d = .ok S'') {path : List (Conn T)}
    (hs : ∀ s ∈ path, IsConn S s) (ho : ∀ s ∈ path, ChainOn S s) (hc : Spec.Connected S (path.map Conn.toSaddle))
    (he : ∀ s ∈ path, s.chain (e / 2) = 0) :
    ∃ path' path'', (∀ fuel ≥ 3, flipPath A dbg fuel S S' e path = some (.ok path')) ∧
      (∀ fuel ≥ 3, linearConns A dbg fuel S' S'' a b c d path' = some (.ok path'')) ∧
      List.Forall₂ (fun s s'' => s''.vector = s.vector.applyMatrix a b c d) path path'' := by
  have h' := (h.flip hf).1
  obtain ⟨path', h1, h2⟩ := chains_kept_iff_partial A h hf hs ho hc
  obtain ⟨path1, g1, g2, g3, g4⟩ := C89.path_correct A h hf hs hc
  have hp := (h1 3 (le_refl _)).symm.trans (g1 3 (le_refl _))
  cases hp
  have ho' : ∀ s ∈ path', ChainOn S' s := by
    intro s hs'
    obtain ⟨i, hi, rfl⟩ := List.getElem_of_mem hs'
    have hi' : i < path.length := by rw [h2.length_eq]; exact hi
    exact (h2.get (i := i) hi' hi).2 (he _ (List.getElem_mem hi'))
  have hl := LinearImage.of_ok A h' hm
  have key := connLoop_image dbg (S := S') (S' := S'')
    (segment := fun fuel s => (linearSegment A dbg fuel S' S'' a b c d s.toSaddle).map fun s => s.map fun s => ⟨s, S''⟩)
    (R := fun s s' => s'.vector = s.vector.applyMatrix a b c d ∧ IsSegment S' s.toSaddle ∧ IsSegment S'' s'.toSaddle ∧
      S'.tri.vertices.Orb s.source s'.source ∧ S'.tri.vertices.Orb s.target s'.target) ?hR path' ?hS [] (conns_chain.1 g4)
      (by simp) (by simp)
  · obtain ⟨path'', k1, k2, -⟩ := key
    refine ⟨path', path'', h1, k1, ?_⟩
    clear h1 g1 g3 g4 k1 h2 ho' hs ho hc he
    induction g2 generalizing path'' with
    | nil => cases k2; exact .nil
    | @cons s s' path path' i1 i2 ih =>
      cases k2 with
      | @cons _ s'' _ path'' j1 j2 => exact .cons (by rw [j1.1, i1.vector]) (ih _ j2)
  case hR =>
    rintro s s' t t' ⟨-, s1, s2, s3, s4⟩ ⟨-, t1, t2, t3, t4⟩ hst
    rw [h'.shut.connected_iff s1.2.1 t1.1.1] at hst
    rw [hl.closed'.shut.connected_iff s2.2.1 t2.1.1, hl.orb_iff]
    exact ((s4.symm h'.shut.flat.coh.hv).trans hst).trans t3
  case hS =>
    intro s hsp
    have hvs : S'.saddleVector s.toSaddle = s.vector := ho' s hsp
    have hv : S''.saddleVector s.toSaddle = s.vector.applyMatrix a b c d := by rw [← hvs]; exact hl.chain s.chain
    have hseg : IsSegment S' s.toSaddle := by
      have := g3 s hsp
      unfold IsSegment
      rwa [hvs]
    obtain ⟨s', k1, k2, k3, k4, k5, k6, k7⟩ := segment_image A dbg h'.shut hl.closed'.shut hl.det hl.size hl.fwd_pos hl.fwd_neg
      one_pos (s := s.toSaddle) (fun x => by
        rw [one_mul, hl.vec, hv, hvs]
        unfold cross Vec.applyMatrix
        ring) hseg
    refine ⟨⟨s', S''⟩, fun fuel hf => ?_, k3.trans hv, hseg, k2, k6, k7⟩
    rw [k1 fuel hf]
    rfl

/-! ### Paths along the half edge that is flipped -/

/-- The path that consists of the diagonal of the torus. -/
def diagonal : List (Conn ℤ) := [Conn.ofHalfEdge flatTorus 4]

theorem diagonal_conns : ∀ s ∈ diagonal, IsConn flatTorus s := by
  intro s hs
  exact C89.torusPath_conns s (by
    simp only [diagonal, List.mem_singleton] at hs
    simp [C89.torusPath, hs])

theorem diagonal_on : ∀ s ∈ diagonal, ChainOn flatTorus s := by
  intro s hs
  simp only [diagonal, List.mem_singleton] at hs
  rw [hs]
  rfl

theorem diagonal_connected : Spec.Connected flatTorus (diagonal.map Conn.toSaddle) := by
  rw [connected_chain]
  decide +kernel

/-- The diagonal of the torus as a segment of the torus with the other diagonal. -/
def image : Conn ℤ := ⟨⟨0, 1, Chain.bump (fun _ => 0) 4⟩, flatTorus⟩

theorem image_eq : flipPath (none : Option (Approx ℤ ℚ)) true 3 flatTorus C33.flippedTorus 4 diagonal = some (.ok [image]) := by
  rfl

/-- The chain of the image of the diagonal is the other diagonal. -/
theorem chain_wrong : ∃ (S S' : FlatTri ℤ) (e : HE) (path path' : List (Conn ℤ)), Closed true S ∧
    S.flip (none : Option (Approx ℤ ℚ)) true e = (S', .ok ()) ∧ (∀ s ∈ path, IsConn S s) ∧ (∀ s ∈ path, ChainOn S s) ∧
    Spec.Connected S (path.map Conn.toSaddle) ∧
    flipPath (none : Option (Approx ℤ ℚ)) true 3 S S' e path = some (.ok path') ∧ ¬ ∀ s ∈ path', ChainOn S' s := by
  refine ⟨flatTorus, C33.flippedTorus, 4, diagonal, [image], C30.flatTorus_closed, C33.flippedTorus_flip, diagonal_conns,
    diagonal_on, diagonal_connected, image_eq, fun h => ?_⟩
  have := h image (by simp)
  revert this
  unfold ChainOn
  decide +kernel

theorem not_chainsKept : ¬ ∀ (S S' : FlatTri ℤ) (e : HE) (path path' : List (Conn ℤ)), Closed true S →
    S.flip (none : Option (Approx ℤ ℚ)) true e = (S', .ok ()) → (∀ s ∈ path, IsConn S s) → (∀ s ∈ path, ChainOn S s) →
    Spec.Connected S (path.map Conn.toSaddle) →
    flipPath (none : Option (Approx ℤ ℚ)) true 3 S S' e path = some (.ok path') → ∀ s ∈ path', ChainOn S' s := by
  intro h
  obtain ⟨S, S', e, path, path', h1, h2, h3, h4, h5, h6, h7⟩ := chain_wrong
  exact h7 (h S S' e path path' h1 h2 h3 h4 h5 h6)

/-- The torus after the flip, scaled by 2. -/
def scaled : FlatTri ℤ :=
  (C33.flippedTorus.applyMatrix (none : Option (Approx ℤ ℚ)) true 2 0 0 2).toOption.getD flatTorus

theorem scaled_eq : C33.flippedTorus.applyMatrix (none : Option (Approx ℤ ℚ)) true 2 0 0 2 = .ok scaled := by
  have h := (C30.flatTorus_closed.flip C33.flippedTorus_flip).1
  obtain ⟨S', h1, -⟩ := C22.applyMatrix_correct (none : Option (Approx ℤ ℚ)) h.reachable h.flat h.closed
    (a := 2) (b := 0) (c := 0) (d := 2) (by decide)
  unfold scaled
  rw [h1]
  rfl

/-- Scaling the torus after the flip by 2 maps the diagonal to a segment in a different direction. -/
theorem linear_wrong : C33.flippedTorus.applyMatrix (none : Option (Approx ℤ ℚ)) true 2 0 0 2 = .ok scaled ∧
    ∃ path'', (flipPath (none : Option (Approx ℤ ℚ)) true 3 flatTorus C33.flippedTorus 4 diagonal).map Except.toOption =
      some (some [image]) ∧
    linearConns (none : Option (Approx ℤ ℚ)) true 10 C33.flippedTorus scaled 2 0 0 2 [image] = some (.ok path'') ∧
    diagonal.map (fun s => s.vector.applyMatrix 2 0 0 2) = [⟨2, 2⟩] ∧ path''.map Conn.vector = [⟨-2, 2⟩] := by
  refine ⟨scaled_eq, [⟨⟨4, 5, fun i => if i < 3 then image.chain i else 0⟩, scaled⟩], rfl, rfl, ?_, ?_⟩
  · decide +kernel
  · decide +kernel

/-- The second segment of this path does not use the diagonal. -/
example : Closed true flatTorus ∧ (∀ s ∈ [Conn.ofHalfEdge flatTorus 0], IsConn flatTorus s) ∧
    (∀ s ∈ [Conn.ofHalfEdge flatTorus 0], ChainOn flatTorus s) ∧
    Spec.Connected flatTorus ([Conn.ofHalfEdge flatTorus 0].map Conn.toSaddle) ∧
    ∀ s ∈ [Conn.ofHalfEdge flatTorus 0], s.chain (4 / 2) = 0 := by
  refine ⟨C30.flatTorus_closed, ?_, ?_, ?_, ?_⟩
  · intro s hs
    rw [List.mem_singleton] at hs
    rw [hs]
    unfold IsConn LeavesCorner
    decide
  · intro s hs
    rw [List.mem_singleton] at hs
    rw [hs]
    rfl
  · rw [connected_chain]
    decide +kernel
  · intro s hs
    rw [List.mem_singleton] at hs
    rw [hs]
    rfl

end Verif.C90
