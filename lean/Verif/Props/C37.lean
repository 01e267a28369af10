import Verif.Lemmas.EquivalenceClass
import Verif.Lemmas.CodeOk
import Verif.Lemmas.FlatExamples
import Verif.Props.C30

/-!
# C37: combinatorial equivalence classes coincide exactly for equivalent surfaces

`Spec.Relabelling oriented T U σ` says that `σ` relabels the half edges of `T` such that `T` turns into `U`; if surfaces are
not considered as oriented, then `σ` may also reverse the orientation.
-/

namespace Verif.C37

open Spec Examples

variable {T : Type} [CommRing T] [LinearOrder T] [IsStrictOrderedRing T]

/-- On a connected surface, the construction of the equivalence class always succeeds, also with all assertions enabled, and
the number of automorphisms that is reported is the number of relabellings of the surface to itself. -/
theorem automorphisms_correct {dbg : Bool} {S : FlatTri T} (h : Closed dbg S) (hc : ConnectedSurface S.tri) (oriented : Bool) :
    ∃ code N, ∀ fuel ≥ N, combinatorialClass dbg oriented S.tri fuel =
      some (.ok (code, (automorphisms oriented S.tri).ncard)) := by
  obtain ⟨code, h1, -, h3⟩ := combinatorialWord_spec h.shut hc oriented
  refine ⟨code, S.tri.size + 3, fun fuel hf => ?_⟩
  simp only [combinatorialClass]
  rw [h3 fuel hf]
  obtain ⟨p, hp, hpc⟩ := h1
  have hmem : p ∈ (starts oriented S.tri).filter fun p => wordAt S.tri p = code := List.mem_filter.2 ⟨hp, by simpa using hpc⟩
  have hok : codeOk code = true := by
    rw [← hpc]
    exact (final_at h.shut hc (mem_starts.1 hp).1).codeOk (h.shut.cells _)
  simp only [Option.map_some]
  rw [if_neg (by rw [List.map_eq_nil_iff]; exact List.ne_nil_of_mem hmem), if_neg, if_neg (by simp [hok]), List.length_map,
    card_automorphisms h.shut hc ⟨p, hp, hpc⟩]
  rw [not_not]
  intro w hw e he
  obtain ⟨q, hq, rfl⟩ := List.mem_map.1 hw
  exact relabeling_isSome h.shut hc (mem_starts.1 (List.mem_filter.1 hq).1).1 (Tri.mem_halfEdges.1 he)

/-- The codes of two connected surfaces agree if and only if there is a relabelling which takes one to the other. -/
theorem codes_agree_iff {dbg : Bool} {S S' : FlatTri T} (h : Closed dbg S) (hc : ConnectedSurface S.tri) (h' : Closed dbg S')
    (hc' : ConnectedSurface S'.tri) (oriented : Bool) :
    ∃ code code' N, (∀ fuel ≥ N, ∃ m m', combinatorialClass dbg oriented S.tri fuel = some (.ok (code, m)) ∧
        combinatorialClass dbg oriented S'.tri fuel = some (.ok (code', m'))) ∧
      (code = code' ↔ ∃ σ, Relabelling oriented S.tri S'.tri σ) := by
  obtain ⟨c, h1, h2, h3⟩ := combinatorialWord_spec h.shut hc oriented
  obtain ⟨c', h1', h2', h3'⟩ := combinatorialWord_spec h'.shut hc' oriented
  obtain ⟨d, N, hd⟩ := automorphisms_correct h hc oriented
  obtain ⟨d', N', hd'⟩ := automorphisms_correct h' hc' oriented
  have hword : ∀ {U : Tri} {w c : List (List ℤ)} {ws : List (Bool × Walker)} {m fuel : ℕ},
      combinatorialWord oriented U fuel = some (w, ws) → combinatorialClass dbg oriented U fuel = some (.ok (c, m)) → c = w := by
    intro U w c ws m fuel e1 e2
    simp only [combinatorialClass] at e2
    rw [e1] at e2
    simp only [Option.map_some, Option.some.injEq] at e2
    split_ifs at e2
    cases e2
    rfl
  refine ⟨c, c', N + N' + S.tri.size + S'.tri.size + 3, ?_, code_eq_iff h.shut hc h'.shut hc' h1 h2 h1' h2'⟩
  intro fuel hf
  have e1 := hd fuel (by omega)
  have e2 := hd' fuel (by omega)
  have e3 := hword (h3 fuel (by omega)) e1
  have e4 := hword (h3' fuel (by omega)) e2
  rw [e3] at e1
  rw [e4] at e2
  exact ⟨_, _, e1, e2⟩

/-! ### Examples -/

/-- If all half edges are at the same vertex, then a surface is connected. -/
theorem connected_of_vertex {T : Tri} (h0 : 0 < T.size) (h : ∀ x < T.size, ∀ y < T.size, ∃ k < T.size, T.nextAtVertex^[k] x = y) :
    ConnectedSurface T := by
  refine ⟨h0, fun x hx y hy => ?_⟩
  obtain ⟨k, -, rfl⟩ := h x hx y hy
  clear hy
  induction k with
  | zero => exact .refl
  | succ k ih =>
    rw [Function.iterate_succ_apply']
    exact .tail ih (.inr rfl)

theorem torus_connected : ConnectedSurface torus := connected_of_vertex (by decide) (by decide)

theorem ell_connected : ConnectedSurface flatEll.tri := connected_of_vertex (by decide) (by decide)

/-- A torus and an L-shaped surface. -/
example : Closed true flatTorus ∧ ConnectedSurface flatTorus.tri ∧ Closed true flatEll ∧ ConnectedSurface flatEll.tri :=
  ⟨C30.flatTorus_closed, torus_connected, ⟨ell_reachable true, flatEll_isFlat, by decide⟩, ell_connected⟩

/-- The code and the number of automorphisms of the torus, with and without orientation. -/
example : combinatorialClass true true torus 20 = some (.ok ([[1, 2], [-2, 0], []], 6)) ∧
    combinatorialClass true false torus 20 = some (.ok ([[1, 2], [-2, 0], []], 12)) := ⟨rfl, rfl⟩

/-- A rotation of the torus. -/
example : Relabels torus torus true fun x => [4, 5, 1, 0, 2, 3].getD x x :=
  ⟨by decide, by decide, by decide, by decide, by decide⟩

end Verif.C37
