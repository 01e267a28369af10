import Verif.Model.Equal
import Verif.Lemmas.FlatExamples
import Verif.Props.C18
import Verif.Lemmas.TriOps

/-!
# C50: surfaces which compare equal are indistinguishable

The full property, `EqualIndistinguishable` and `EqualIndistinguishableFlat`, does not hold: the boundary is not compared.
-/

namespace Verif.C50

open Verif Spec Tri FlatTri Examples

/-- All queries give the same answer. -/
structure Indistinguishable (T U : Tri) : Prop where
  halfEdges : T.halfEdges = U.halfEdges
  nextAtVertex : ∀ e ∈ T.halfEdges, T.nextAtVertex e = U.nextAtVertex e
  nextInFace : ∀ e ∈ T.halfEdges, T.nextInFace e = U.nextInFace e
  boundary : ∀ e ∈ T.halfEdges, T.boundary e = U.boundary e

/-- All queries give the same answer, including the vectors. -/
structure IndistinguishableFlat {V : Type} (S U : FlatTri V) : Prop extends Indistinguishable S.tri U.tri where
  vec : ∀ e ∈ S.tri.halfEdges, S.vec e = U.vec e

/-- The full property for combinatorial surfaces. -/
def EqualIndistinguishable (dbg : Bool) : Prop :=
  ∀ T U : Tri, T.Reachable dbg → U.Reachable dbg → T.beq U = true → Indistinguishable T U

/-- The full property for flat surfaces with integer coordinates. -/
def EqualIndistinguishableFlat (dbg : Bool) : Prop :=
  ∀ S U : FlatTri ℤ, S.tri.Reachable dbg → IsFlat S → U.tri.Reachable dbg → IsFlat U →
    S.beq (fun _ => ()) U = true → IndistinguishableFlat S U

theorem vertices_eq {dbg : Bool} {T U : Tri} (hT : T.Reachable dbg) (hU : U.Reachable dbg) :
    T.beq U = true ↔ T.vertices = U.vertices := Perm.beq_iff hT.inv.1.hv hU.inv.1.hv

/-- Surfaces with the same boundary which compare equal are indistinguishable. -/
theorem equal_partial {dbg : Bool} {T U : Tri} (hT : T.Reachable dbg) (hU : U.Reachable dbg)
    (hb : ∀ e ∈ T.halfEdges, T.boundary e = U.boundary e) (h : T.beq U = true) : Indistinguishable T U := by
  rw [vertices_eq hT hU] at h
  have hs : T.size = U.size := congrArg Perm.size h
  refine ⟨by unfold Tri.halfEdges; rw [hs], fun e _ => by unfold nextAtVertex; rw [h], fun e he => ?_, hb⟩
  have cT := hT.inv.1
  have cU := hU.inv.1
  unfold nextInFace
  have key : ∀ x < T.size, T.faces.inv x = U.faces.inv x := by
    intro x hx
    by_cases h1 : T.faces.fwd x = x
    · have h2 : U.faces.fwd x = x := by
        have := hb x (mem_halfEdges.2 hx)
        rw [boundary_true.2 h1] at this
        exact boundary_true.1 this.symm
      have a := cT.hf.left x
      have b := cU.hf.left x
      rw [h1] at a
      rw [h2] at b
      rw [a, b]
    · have h2 : U.faces.fwd x ≠ x := by
        have := hb x (mem_halfEdges.2 hx)
        rw [boundary_false.2 h1] at this
        exact boundary_false.1 this.symm
      have a := cT.link x h1
      have b := cU.link x h2
      rw [← h] at b
      conv_lhs => rw [← a]
      conv_rhs => rw [← b]
      rw [cT.hf.left, cU.hf.left]
  have hlt : T.faces.fwd e < T.size := by
    have := (cT.isTriangulation.closed e he).1
    exact mem_halfEdges.1 this
  have := key _ hlt
  rw [cT.hf.left] at this
  conv_rhs => rw [this]
  rw [cU.hf.right]

/-- Surfaces without boundary which compare equal are indistinguishable. -/
theorem equal_closed_partial {dbg : Bool} {T U : Tri} (hT : T.Reachable dbg) (hU : U.Reachable dbg)
    (bT : T.hasBoundary = false) (bU : U.hasBoundary = false) (h : T.beq U = true) : Indistinguishable T U := by
  refine equal_partial hT hU (fun e he => ?_) h
  have hs : T.size = U.size := congrArg Perm.size ((vertices_eq hT hU).1 h)
  rw [mem_halfEdges] at he
  rw [boundary_false.2 (hasBoundary_false.1 bT e he), boundary_false.2 (hasBoundary_false.1 bU e (hs ▸ he))]

/-- Flat surfaces with the same boundary which compare equal are indistinguishable. -/
theorem equal_flat_partial {dbg : Bool} {V R : Type} [CommRing V] [LinearOrder V] [DecidableEq R] (ring : V → R)
    {S U : FlatTri V} (hS : S.tri.Reachable dbg) (fS : IsFlat S) (hU : U.tri.Reachable dbg) (fU : IsFlat U)
    (hb : ∀ e ∈ S.tri.halfEdges, S.tri.boundary e = U.tri.boundary e) (h : S.beq ring U = true) :
    IndistinguishableFlat S U := by
  unfold FlatTri.beq at h
  simp only [Bool.and_eq_true, List.all_eq_true, decide_eq_true_eq] at h
  have hi := equal_partial hS hU hb h.1
  refine ⟨hi, fun e he => ?_⟩
  have key : ∀ x ∈ S.tri.halfEdges, x % 2 = 0 → S.vec x = U.vec x := by
    intro x hx h2
    have := h.2 x (by
      unfold Tri.edges
      rw [List.mem_map]
      rw [mem_halfEdges] at hx
      have : S.tri.size % 2 = 0 := hS.inv.1.even
      exact ⟨x / 2, List.mem_range.2 (by omega), by omega⟩)
    exact Vec.ext this.2.1 this.2.2
  by_cases h2 : e % 2 = 0
  · exact key e he h2
  · have hn := fS.triangulation.paired e he
    have h3 : neg e % 2 = 0 := by
      have := neg_def e
      split_ifs at this <;> omega
    have h4 := key (neg e) hn h3
    have a := fS.odd (neg e) hn
    have b := fU.odd (neg e) (hi.halfEdges ▸ hn)
    rw [neg_neg'] at a b
    rw [a, b, h4]

/-- Surfaces that cannot be distinguished compare equal. -/
theorem equal_of_indistinguishable {dbg : Bool} {T U : Tri} (hT : T.Reachable dbg) (hU : U.Reachable dbg)
    (h : Indistinguishable T U) : T.beq U = true := by
  rw [vertices_eq hT hU]
  have hs : T.size = U.size := by simpa [Tri.halfEdges] using congrArg List.length h.halfEdges
  exact hT.inv.1.hv.ext hU.inv.1.hv hs fun i hi => h.nextAtVertex i (mem_halfEdges.2 hi)

/-- Flat surfaces that cannot be distinguished compare equal. -/
theorem equal_flat_of_indistinguishable {dbg : Bool} {V R : Type} [CommRing V] [LinearOrder V] [DecidableEq R] (ring : V → R)
    {S U : FlatTri V} (hS : S.tri.Reachable dbg) (hU : U.tri.Reachable dbg) (h : IndistinguishableFlat S U) :
    S.beq ring U = true := by
  unfold FlatTri.beq
  simp only [Bool.and_eq_true, List.all_eq_true, decide_eq_true_eq]
  refine ⟨equal_of_indistinguishable hS hU h.toIndistinguishable, fun e he => ?_⟩
  have : e ∈ S.tri.halfEdges := by
    rw [mem_halfEdges]
    unfold Tri.edges at he
    obtain ⟨i, hi, rfl⟩ := List.mem_map.1 he
    rw [List.mem_range] at hi
    have : S.tri.size % 2 = 0 := hS.inv.1.even
    omega
  rw [h.vec e this]
  exact ⟨⟨rfl, rfl⟩, rfl, rfl⟩

/-! ### The boundary is not compared -/

/-- A triangle and the sphere that one obtains from two triangles compare equal. -/
theorem not_equalIndistinguishable (dbg : Bool) : ¬ EqualIndistinguishable dbg := by
  intro h
  have hm : make dbg (perm [[0, 5], [2, 1], [4, 3]]) [] = .ok (tri [[0, 5], [2, 1], [4, 3]] []) := by cases dbg <;> rfl
  have := (h triangle (tri [[0, 5], [2, 1], [4, 3]] []) (triangle_reachable dbg)
    (.make (.ofCycles (cs := [[0, 5], [2, 1], [4, 3]]) rfl) hm) (by decide +kernel)).boundary 1 (by decide)
  revert this
  decide +kernel

/-- The vertices of a torus made of three squares. -/
def torus3Ids : List (List ℤ) := [[7, 4, -3, -8, -6, 1], [-1, -9, -4, 2, 8, 5], [-5, 3, 9, 6, -2, -7]]

def torus3Vectors : List (Vec ℤ) := [⟨1, 0⟩, ⟨1, 0⟩, ⟨1, 0⟩, ⟨0, 1⟩, ⟨0, 1⟩, ⟨0, 1⟩, ⟨1, 1⟩, ⟨1, 1⟩, ⟨1, 1⟩]

/-- A torus and the same torus without one of its triangles, both created with the public constructors, compare equal. -/
theorem torus3_equal (dbg : Bool) : ∃ (C D : Tri) (S U : FlatTri ℤ),
    Tri.ofIds dbg torus3Ids [] = .ok C ∧ Tri.ofIds dbg torus3Ids [1, 5, -7] = .ok D ∧
    FlatTri.ofVectors (none : Option (Approx ℤ ℚ)) dbg C torus3Vectors = .ok S ∧
    FlatTri.ofVectors (none : Option (Approx ℤ ℚ)) dbg D torus3Vectors = .ok U ∧
    S.beq (fun _ => ()) U = true ∧ S.tri.hasBoundary = false ∧ U.tri.hasBoundary = true := by
  refine ⟨(Tri.ofIds dbg torus3Ids []).toOption.getD torus, (Tri.ofIds dbg torus3Ids [1, 5, -7]).toOption.getD torus,
    ?_⟩
  cases dbg <;> exact ⟨_, _, rfl, rfl, rfl, rfl, by decide +kernel, by decide +kernel, by decide +kernel⟩

theorem reachable_of_ofIds {dbg : Bool} {cs : List (List ℤ)} {B : List ℤ} {C : Tri} (h : Tri.ofIds dbg cs B = .ok C) :
    C.Reachable dbg := by
  unfold Tri.ofIds at h
  simp only [bind, Except.bind] at h
  split at h
  · cases h
  split at h
  · cases h
  rename_i hv
  split at h
  · cases h
  split at h
  · cases h
  rename_i hm
  split_ifs at h
  · cases h
    exact .make (.ofCycles hv) hm

theorem not_equalIndistinguishableFlat (dbg : Bool) : ¬ EqualIndistinguishableFlat dbg := by
  intro h
  obtain ⟨C, D, S, U, hC, hD, hS, hU, h1, h2, h3⟩ := torus3_equal dbg
  obtain ⟨a1, -, a2, -⟩ := C18.ofVectors_ok none (reachable_of_ofIds hC) hS
  obtain ⟨b1, -, b2, -⟩ := C18.ofVectors_ok none (reachable_of_ofIds hD) hU
  have hi := h S U a1 a2 b1 b2 h1
  rw [← Bool.not_eq_false, hasBoundary_false] at h3
  rw [hasBoundary_false] at h2
  refine h3 fun x hx => ?_
  have hx' : x ∈ S.tri.halfEdges := by rw [hi.halfEdges]; exact mem_halfEdges.2 hx
  have := hi.boundary x hx'
  rw [boundary_false.2 (h2 x (mem_halfEdges.1 hx'))] at this
  exact boundary_false.1 this.symm

/-! ### Concrete cases -/

example : torus.Reachable true ∧ square.Reachable true ∧ torus.hasBoundary = false ∧ torus.beq torus = true ∧
    square.beq square = true ∧ torus.beq square = false ∧ flatTorus.beq (fun _ => ()) flatTorus = true :=
  ⟨torus_reachable true, square_reachable true, by decide +kernel, by decide +kernel, by decide +kernel, by decide +kernel,
    by decide +kernel⟩

end Verif.C50
