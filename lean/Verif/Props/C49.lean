import Verif.Lemmas.Serialization
import Verif.Lemmas.Chain
import Verif.Props.C18
import Verif.Props.C30
import Verif.Props.C23

/-!
# C49: serialization round-trips

Half edges are written as numbers which fit into an `int`, so there must not be more than `2 ^ 31` half edges. For surfaces
with boundary see `C78`.
-/

namespace Verif.C49

open Verif Spec Tri FlatTri Examples Cereal

set_option linter.unusedSectionVars false

variable {T : Type} [CommRing T] [LinearOrder T] [IsStrictOrderedRing T]
variable {K : Type*} [Field K] [LinearOrder K] [IsStrictOrderedRing K]

/-- Half edges. -/
theorem halfEdge_correct {e : HE} (h : e < 2 ^ 31) : loadHalfEdge (saveHalfEdge e) = .ok e := loadHalfEdge_save h

example : saveHalfEdge 7 = -4 := by decide

/-- Edges, however they were created. -/
theorem edge_correct {e : HE} (h : e < 2 ^ 31) : loadEdge (saveEdge (Edge.ofHalfEdge e)) = .ok (Edge.ofHalfEdge e) := by
  have hp : (Edge.ofHalfEdge e).positive = 2 * (e / 2) := by
    unfold Edge.ofHalfEdge Edge.positive
    simp only [neg_def]
    split_ifs <;> omega
  unfold loadEdge saveEdge
  rw [hp, show heOfId (heId (2 * (e / 2))) = .ok (2 * (e / 2)) from C01.ofId_id (by omega)]
  show Except.ok _ = _
  congr 1
  unfold Edge.ofHalfEdge
  congr 1
  simp only [neg_def]
  split_ifs <;> omega

example : saveEdge (Edge.ofHalfEdge 7) = 4 := by decide

/-- Bounds. -/
theorem bound_correct (b : Bound) : loadBound (saveBound b) = b := rfl

example : saveBound ⟨4⟩ = 4 := rfl

/-- Permutations. -/
theorem perm_correct {p : Perm} (hp : p.Reachable) (hs : p.size ≤ 2 ^ 31) :
    ∃ a, savePerm p = .ok a ∧ loadPerm a = .ok p := perm_roundtrip hp.wf hs

example : torus.vertices.Reachable ∧ torus.vertices.size = 6 ∧ savePerm torus.vertices = .ok [[3, 2, -1, -3, -2, 1]] :=
  ⟨Perm.reachable_of_wf (torus_reachable true).inv.1.hv, rfl, by decide +kernel⟩

/-- Combinatorial surfaces without boundary. -/
theorem tri_correct {dbg : Bool} {T : Tri} (h : T.Reachable dbg) (hb : T.hasBoundary = false) (hs : T.size ≤ 2 ^ 31) :
    ∃ a T', saveTri dbg T = .ok a ∧ loadTri dbg a = .ok T' ∧ Same T T' := by
  obtain ⟨a, T', h1, h2, h3, h4, h5⟩ := tri_roundtrip h hb hs dbg
  exact ⟨a, T', h1, h2, same_of_eq h h5 h3 h4⟩

example (dbg : Bool) : torus.Reachable dbg ∧ torus.hasBoundary = false ∧ torus.size = 6 :=
  ⟨torus_reachable dbg, by decide +kernel, rfl⟩

/-- Flat surfaces without boundary. -/
theorem flat_correct {dbg : Bool} {S : FlatTri T} (h : Closed dbg S) (hs : S.tri.size ≤ 2 ^ 31) (A : Option (Approx T K)) :
    ∃ a S', saveFlat dbg S = .ok a ∧ loadFlat A dbg a = .ok S' ∧ Same S.tri S'.tri ∧
      (∀ e ∈ S.tri.halfEdges, S'.vec e = S.vec e) ∧ IsFlat S' := by
  obtain ⟨a, C, h1, h2, h3, h4, h5⟩ := tri_roundtrip h.reachable h.closed hs dbg
  have hsame := same_of_eq h.reachable h5 h3 h4
  set f : HE → Vec T := fun e => ((S.tri.halfEdges.map fun e => (e, S.vec e)).lookup e).getD 0 with hf
  have hfe : ∀ e ∈ S.tri.halfEdges, f e = S.vec e := by
    intro e he
    rw [hf]
    simp only [lookup_graph S.vec he, Option.getD_some]
  have hF := isFlat_congr h.flat h5 hsame hfe
  obtain ⟨S', g1, g2, g3, g4, g5⟩ := (C18.ofFunction_partial A h5 hF.odd).1 hF
  refine ⟨_, S', by unfold saveFlat; rw [h1]; rfl, ?_, ?_, fun e he => by rw [g5]; exact hfe e he, g4⟩
  · unfold loadFlat
    have hm : (S.tri.halfEdges.map fun e => (saveHalfEdge e, S.vec e)).mapM (fun p => do
        let e ← loadHalfEdge p.1
        return (e, p.2)) = (.ok (S.tri.halfEdges.map fun e => (e, S.vec e)) : Except Err _) := by
      have := mapM_ok (f := fun p : ℤ × Vec T => (do
        let e ← loadHalfEdge p.1
        return (e, p.2) : Except Err (HE × Vec T))) (g := fun p : HE × Vec T => (saveHalfEdge p.1, p.2))
        (l := S.tri.halfEdges.map fun e => (e, S.vec e)) (by
          intro x hx
          obtain ⟨e, he, rfl⟩ := List.mem_map.1 hx
          have : e < S.tri.size := mem_halfEdges.1 he
          simp only [loadHalfEdge_save (show e < 2 ^ 31 by omega)]
          rfl)
      rwa [List.map_map] at this
    simp only [bind, Except.bind, pure, Except.pure, h2] at hm ⊢
    rw [hm]
    have hn : ¬ ∃ e ∈ C.halfEdges, (S.tri.halfEdges.map fun e => (e, S.vec e)).lookup e = none := by
      rintro ⟨e, he, hl⟩
      rw [hsame.halfEdges] at he
      rw [lookup_graph S.vec he] at hl
      cases hl
    simp only [if_neg hn]
    exact g1
  · exact ⟨by rw [g3.halfEdges, hsame.halfEdges], fun e => by rw [g3.nextAtVertex, hsame.nextAtVertex],
      fun e => by rw [g3.previousAtVertex, hsame.previousAtVertex], fun e => by rw [g3.nextInFace, hsame.nextInFace],
      fun e => by rw [g3.previousInFace, hsame.previousInFace], fun e => by rw [g3.boundary, hsame.boundary],
      g3.vertices.trans hsame.vertices⟩

example : Closed true flatTorus ∧ flatTorus.tri.size ≤ 2 ^ 31 := ⟨C30.flatTorus_closed, by decide +kernel⟩

/-- Chains: loading creates one chain in the program `h`, which has the coefficients of the chain that was saved, and the
vector of that chain. Other chains do not change. -/
theorem chain_correct (κ : Cost) (S : ChainSurface T K) (c : ChainObj T K) (h : Chain.Heap T K) :
    ∃ h', loadChain κ S h (saveChain S c) = .ok h' ∧ h.n < h'.n ∧
      (∀ i < S.size, (h'.get h.n).coefficients i = c.coefficients i) ∧
      (Chain.toVector S (h'.get h.n)).vector.value = some (Chain.vectorOf S c.coefficients) ∧
      ∀ j < h.n, h'.get j = h.get j := by
  obtain ⟨h', h1, h2, h3, h4, h5⟩ := loadOps_run κ S h.n (saveChain S c) 0 (h.push ⟨fun _ => 0, .empty, .empty⟩)
    (by simp [Chain.Heap.push]) (by simp [Chain.Heap.push, Uncached]) (by simp [saveChain])
  have hco : ∀ i < S.size, (h'.get h.n).coefficients i = c.coefficients i := by
    intro i hi
    rw [h4]
    simp [Chain.Heap.push, saveChain, hi]
  refine ⟨h', ?_, h2, hco, ?_, ?_⟩
  · unfold loadChain
    rw [Chain.run]
    exact h1
  · have hs : Chain.Sync S (h'.get h.n) := by
      unfold Chain.Sync Chain.VecOk Chain.ApproxOk
      rw [h3.1, h3.2]
      exact ⟨Cache.holds_empty, Cache.holds_empty⟩
    rw [(Chain.toVector_spec S hs).2.2.1]
    congr 1
    unfold Chain.vectorOf
    congr 1 <;> refine Finset.sum_congr rfl fun i hi => ?_ <;> rw [hco i (Finset.mem_range.1 hi)]
  · intro j hj
    rw [h5 j hj]
    have : j ≠ h.n := by omega
    simp [Chain.Heap.push, this]

/-- Saddle connections. -/
theorem saddle_correct {dbg : Bool} {size : ℕ} {c : Saddle} (hs : size ≤ 2 ^ 31) (h1 : c.source < size) (h2 : c.target < size)
    (h3 : ∃ i < size / 2, c.chain i ≠ 0) :
    ∃ c', loadSaddle dbg size (saveSaddle size c) = .ok c' ∧ c'.source = c.source ∧ c'.target = c.target ∧
      ∀ i < size / 2, c'.chain i = c.chain i := by
  have hg : ∀ i < size / 2, ((List.range (size / 2)).map c.chain).getD i 0 = c.chain i := by
    intro i hi
    simp [hi]
  refine ⟨⟨c.source, c.target, fun i => ((List.range (size / 2)).map c.chain).getD i 0⟩, ?_, rfl, rfl, hg⟩
  unfold loadSaddle saveSaddle
  simp only [loadHalfEdge_save (show c.source < 2 ^ 31 by omega), loadHalfEdge_save (show c.target < 2 ^ 31 by omega), bind,
    Except.bind]
  unfold Saddle.make
  rw [if_neg]
  obtain ⟨i, hi, hne⟩ := h3
  simp only [Bool.and_eq_true, List.all_eq_true, decide_eq_true_eq, List.mem_range, not_and, not_forall]
  exact fun _ => ⟨i, hi, by rwa [hg i hi]⟩

example : ∃ c : Saddle, c.source < 6 ∧ c.target < 6 ∧ ∃ i < 6 / 2, c.chain i ≠ 0 :=
  ⟨⟨0, 1, fun i => if i = 0 then 1 else 0⟩, by decide, by decide, 0, by decide, by decide⟩

/-- Vertices. -/
theorem vertex_correct {v : Finset HE} (h : ∀ e ∈ v, e < 2 ^ 31) : loadVertex (saveVertex v) = .ok v := by
  unfold loadVertex saveVertex
  rw [mapM_ok (f := loadHalfEdge) (g := saveHalfEdge) fun x hx => loadHalfEdge_save (h x ((Finset.mem_sort _).1 hx))]
  show Except.ok _ = _
  congr 1
  exact Finset.sort_toFinset _ _

example : ∀ e ∈ ({3, 0} : Finset HE), e < 2 ^ 31 := by decide

/-- Vertical directions. -/
theorem vertical_correct {v : Vec T} {w : Vertical T} (h : Vertical.make v = .ok w) :
    ∃ w', loadVertical w.vertical = .ok w' ∧ w'.vertical = w.vertical := by
  have hw : w.vertical = v := by
    unfold Vertical.make at h
    split_ifs at h
    cases h
    rfl
  exact ⟨w, by rw [hw]; exact h, rfl⟩

example : (Vertical.make (⟨1, 2⟩ : Vec ℤ)).isOk = true := by decide

end Verif.C49
