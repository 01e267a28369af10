import Verif.Lemmas.LinearClass
import Verif.Props.C37

/-!
# C81: linear equivalence classes coincide exactly for equivalent surfaces

`Spec.LinearRelabelling group oriented S S' σ` says that the relabelling `σ` and some element of the group take `S` to `S'`.
-/

namespace Verif.C81

open Spec Examples LinearEquivalence

variable {T : Type} [CommRing T] [LinearOrder T] [IsStrictOrderedRing T]

/-- On a connected surface the construction of the equivalence class succeeds if the areas of the triangles can be inverted,
also with all assertions enabled; the number of automorphisms that is reported is the number of relabellings of the surface to
itself which come from an element of the group. -/
theorem automorphisms_correct {dbg : Bool} {S : FlatTri T} (h : Closed dbg S) (hc : ConnectedSurface S.tri) {quot : T → T → T}
    (hq : ExactQuot quot) {group : LinearGroup} (hu : group ≠ .trivial → UnitAreas S) {oriented : Bool}
    (ht : group = .trivial → oriented = true) :
    ∃ code N, ∀ fuel ≥ N, linearClass dbg quot group oriented S fuel =
      some (.ok (code, (linearAutomorphisms group oriented S).ncard)) := by
  classical
  obtain ⟨code, h1, -, h3⟩ := word_spec h.shut hc hq hu ht dbg
  refine ⟨code, S.tri.size + 3, fun fuel hf => ?_⟩
  simp only [linearClass]
  rw [h3 fuel hf]
  obtain ⟨p, hp, hpc⟩ := h1
  have hmem : p ∈ (starts oriented S.tri).filter fun p => lwordAt quot group S p = code :=
    List.mem_filter.2 ⟨hp, by simpa using hpc⟩
  simp only [Option.map_some, bind, Except.bind]
  rw [if_neg (by rw [List.map_eq_nil_iff]; exact List.ne_nil_of_mem hmem), if_neg, List.length_map,
    card_linearAutomorphisms h.shut hc hq hu ht ⟨p, hp, hpc⟩]
  · rfl
  rw [not_not]
  intro w hw e he
  obtain ⟨q, hq, rfl⟩ := List.mem_map.1 hw
  exact relabeling_isSome h.shut hc (mem_starts.1 (List.mem_filter.1 hq).1).1 (Tri.mem_halfEdges.1 he)

/-- The codes of two connected surfaces agree if and only if a relabelling and an element of the group take one to the
other. -/
theorem codes_agree_iff {dbg : Bool} {S S' : FlatTri T} (h : Closed dbg S) (hc : ConnectedSurface S.tri) (h' : Closed dbg S')
    (hc' : ConnectedSurface S'.tri) {quot : T → T → T} (hq : ExactQuot quot) {group : LinearGroup}
    (hu : group ≠ .trivial → UnitAreas S) (hu' : group ≠ .trivial → UnitAreas S') {oriented : Bool}
    (ht : group = .trivial → oriented = true) :
    ∃ code code' N, (∀ fuel ≥ N, ∃ m m', linearClass dbg quot group oriented S fuel = some (.ok (code, m)) ∧
        linearClass dbg quot group oriented S' fuel = some (.ok (code', m'))) ∧
      (code = code' ↔ ∃ σ, LinearRelabelling group oriented S S' σ) := by
  obtain ⟨c, h1, h2, h3⟩ := word_spec h.shut hc hq hu ht dbg
  obtain ⟨c', h1', h2', h3'⟩ := word_spec h'.shut hc' hq hu' ht dbg
  obtain ⟨d, N, hd⟩ := automorphisms_correct h hc hq hu ht
  obtain ⟨d', N', hd'⟩ := automorphisms_correct h' hc' hq hu' ht
  have hword : ∀ {U : FlatTri T} {w c : List (List ℤ × Vec T)} {ws : List (LinearWalker T)} {m fuel : ℕ},
      word dbg quot group oriented U fuel = some (.ok (w, ws)) → linearClass dbg quot group oriented U fuel = some (.ok (c, m)) →
      c = w := by
    intro U w c ws m fuel e1 e2
    simp only [linearClass] at e2
    rw [e1] at e2
    simp only [Option.map_some, Option.some.injEq, bind, Except.bind] at e2
    split_ifs at e2
    cases e2
    rfl
  refine ⟨c, c', N + N' + S.tri.size + S'.tri.size + 3, ?_, lcode_eq_iff h.shut hc h'.shut hc' hq hu hu' ht h1 h2 h1' h2'⟩
  intro fuel hf
  have e1 := hd fuel (by omega)
  have e2 := hd' fuel (by omega)
  have e3 := hword (h3 fuel (by omega)) e1
  have e4 := hword (h3' fuel (by omega)) e2
  rw [e3] at e1
  rw [e4] at e2
  exact ⟨_, _, e1, e2⟩

/-- Otherwise, i.e., if there is no normal form over the ring, this is reported by throwing an exception. -/
theorem throws_otherwise {dbg : Bool} {S : FlatTri T} (h : Closed dbg S) {quot : T → T → T} (hq : ExactQuot quot)
    {group : LinearGroup} (hg : group ≠ .trivial) (hu : ¬ UnitAreas S) (oriented : Bool) (fuel : ℕ) :
    linearClass dbg quot group oriented S fuel = some (.error .logicError) := by
  have hs := h.shut
  have herr : ∀ (p : Bool × HE), p.2 < S.tri.size → ∀ e,
      LinearEquivalence.normalize dbg quot group (S.vec p.2) (S.vec (FlatTri.Shut.around S p.1 p.2)) = .error e → e = .logicError := by
    intro p hp e he
    cases group with
    | trivial => exact absurd rfl hg
    | gl => exact orthonormalize_error (cross_ne hs p hp) he
    | sl => exact orthogonalize_error (cross_ne hs p hp) he
  have key : walkers dbg quot group oriented S = .error .logicError := by
    have hall : ∀ x ∈ S.tri.halfEdges, ∀ e, walkersAt dbg quot group oriented S x = .error e → e = .logicError := by
      intro x hx e he
      rw [Tri.mem_halfEdges] at hx
      unfold walkersAt at he
      rcases bind_err he with he | ⟨M, -, he⟩
      · exact herr (true, x) hx e he
      · simp only at he
        by_cases h1 : dbg = true ∧ ¬ 0 < M.det
        · rw [if_pos h1] at he
          cases he
          rfl
        · rw [if_neg h1] at he
          by_cases h2 : oriented = true
          · rw [if_pos h2] at he
            cases he
          · rw [if_neg h2] at he
            rcases bind_err he with he | ⟨N, -, he⟩
            · exact herr (false, x) hx e he
            · by_cases h3 : dbg = true ∧ ¬ N.det < 0
              · rw [if_pos h3] at he
                cases he
                rfl
              · rw [if_neg h3] at he
                cases he
    have hsome : ∃ x ∈ S.tri.halfEdges, ∃ e, walkersAt dbg quot group oriented S x = .error e := by
      unfold UnitAreas at hu
      push Not at hu
      obtain ⟨x, hx, hu⟩ := hu
      refine ⟨x, Tri.mem_halfEdges.2 hx, .logicError, ?_⟩
      rw [← exists_standard] at hu
      unfold walkersAt
      have := C38.throws_otherwise (dbg := dbg) hq hg (cross_ne hs (true, x) hx) hu
      simp only [FlatTri.Shut.around, if_true] at this
      rw [this]
      rfl
    have gen : ∀ l : List HE, (∀ x ∈ l, ∀ e, walkersAt dbg quot group oriented S x = .error e → e = .logicError) →
        (∃ x ∈ l, ∃ e, walkersAt dbg quot group oriented S x = .error e) →
        l.mapM (walkersAt dbg quot group oriented S) = .error .logicError := by
      intro l
      induction l with
      | nil => rintro - ⟨x, hx, -⟩; cases hx
      | cons a l ih =>
        intro h1 h2
        rw [List.mapM_cons]
        cases ha : walkersAt dbg quot group oriented S a with
        | error e =>
          rw [h1 a (by simp) e ha]
          rfl
        | ok b =>
          rw [ih (fun x hx => h1 x (by simp [hx]))]
          · rfl
          · obtain ⟨x, hx, e, he⟩ := h2
            rcases List.mem_cons.1 hx with rfl | hx
            · rw [ha] at he; cases he
            · exact ⟨x, hx, e, he⟩
    unfold walkers
    rw [gen _ hall hsome]
    rfl
  unfold linearClass word
  rw [key]
  rfl

/-- It is indeed necessary to be able to invert the areas: this is the case exactly if all pairs of consecutive half edges can
be made orthogonal, with the first one of length one, by a matrix of determinant ±1. -/
theorem unitAreas_iff {dbg : Bool} {S : FlatTri T} (h : Closed dbg S) :
    UnitAreas S ↔ ∀ x < S.tri.size, ∃ M : Mat T, (M.det = 1 ∨ M.det = -1) ∧ M.apply (S.vec x) = ⟨1, 0⟩ ∧
      (M.apply (S.vec (S.tri.nextAtVertex x))).x = 0 := by
  have hs := h.shut
  constructor
  · intro hu x hx
    obtain ⟨M, h1, h2⟩ := exists_standard.2 (hu x hx)
    have h0 := cross_ne hs (true, x) hx
    simp only [FlatTri.Shut.around, if_true] at h0
    set c := Vec.cross (S.vec x) (S.vec (S.tri.nextAtVertex x)) with hc
    have hd := orthonormalize_det h1 h2
    have e1 := congrArg Vec.x h1
    have e2 := congrArg Vec.y h1
    have e3 := congrArg Vec.x h2
    simp only [Mat.apply_x, Mat.apply_y] at e1 e2 e3
    refine ⟨⟨M.a, M.b, c * M.c, c * M.d⟩, .inl ?_, ?_, e3⟩
    · unfold Mat.det at hd ⊢
      linear_combination hd
    · ext
      · exact e1
      · simp only [Mat.apply_y]
        linear_combination c * e2
  · intro hm x hx
    obtain ⟨M, hM, h1, h2⟩ := hm x hx
    obtain ⟨N, -, h3, -⟩ := hm _ (hs.around_lt true hx)
    simp only [FlatTri.Shut.around, if_true] at h3
    have hc := Mat.cross_apply M (S.vec x) (S.vec (S.tri.nextAtVertex x))
    set w := S.vec (S.tri.nextAtVertex x)
    set c := Vec.cross (S.vec x) w
    rw [h1] at hc
    have hc' : (M.apply w).y = M.det * c := by
      rw [← hc]; simp [Vec.cross]
    have e1 := congrArg Vec.x h3
    simp only [Mat.apply_x] at e1 h2
    simp only [Mat.apply_y] at hc'
    have hMd : M.det * M.det = 1 := by rcases hM with h | h <;> rw [h] <;> simp
    unfold Mat.det at hMd hc'
    refine .of_mul_eq_one (N.b * M.a - N.a * M.b) ?_
    linear_combination e1 + (-1 * (M.a * M.d - M.b * M.c) * (N.a * M.d - N.b * M.c)) * h2 +
      (-(M.a * M.d - M.b * M.c) * (N.b * M.a - N.a * M.b)) * hc' + (N.a * w.x + N.b * w.y - c * (N.b * M.a - N.a * M.b)) * hMd

/-! ### Examples -/

theorem flatTorus_unitAreas : UnitAreas flatTorus := by
  have : ∀ x < flatTorus.tri.size, Vec.cross (flatTorus.vec x) (flatTorus.vec (flatTorus.tri.nextAtVertex x)) = 1 := by
    decide
  intro x hx
  rw [this x hx]
  exact isUnit_one

/-- The square torus over the integers. -/
example : Closed true flatTorus ∧ ConnectedSurface flatTorus.tri ∧ UnitAreas flatTorus ∧ ExactQuot fun n d : ℤ => n / d :=
  ⟨C30.flatTorus_closed, C37.torus_connected, flatTorus_unitAreas, fun _ _ _ hd h => Int.ediv_eq_of_eq_mul_left hd h.symm⟩

/-- The number of automorphisms of the torus for the different groups. -/
example : ((linearClass true (fun n d : ℤ => n / d) .trivial true flatTorus 20).map fun r => r.toOption.map (·.2)) = some (some 1) ∧
    ((linearClass true (fun n d : ℤ => n / d) .sl true flatTorus 20).map fun r => r.toOption.map (·.2)) = some (some 6) ∧
    ((linearClass true (fun n d : ℤ => n / d) .gl false flatTorus 20).map fun r => r.toOption.map (·.2)) = some (some 12) :=
  ⟨rfl, rfl, rfl⟩

end Verif.C81
