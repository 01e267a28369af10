import Verif.Lemmas.TriSpec

/-!
# C05: Combinatorial triangulations are coherent by construction

The private constructor takes a permutation; the public one takes cycles of ids. In debug builds (`dbg = true`)
additional assertions are active.
-/

namespace Verif.C05

open Verif Spec Tri

/-- Whatever the constructor accepts is a triangulated surface. -/
theorem make_isTriangulation {dbg : Bool} {v : Perm} (hv : v.Reachable) {B : List HE} {T : Tri}
    (h : make dbg v B = .ok T) : IsTriangulation T ∧ VerticesCorrect T :=
  have := (Reachable.make hv h).inv
  ⟨this.1.isTriangulation, this.2.verticesCorrect this.1⟩

/-- It has the given half edges in the given order around the vertices. -/
theorem make_vertices {dbg : Bool} {v : Perm} (hv : v.Reachable) {B : List HE} {T : Tri}
    (h : make dbg v B = .ok T) : T.halfEdges = List.range v.size ∧ ∀ e, T.nextAtVertex e = v.fwd e := by
  have := (make_spec hv.wf h).2.2.1
  unfold halfEdges nextAtVertex size
  rw [this]
  exact ⟨rfl, fun _ => rfl⟩

/-- The given boundary half edges are boundary, and there are no others except possibly (in release builds) half edges
which are followed at their vertex by their own complement. -/
theorem make_boundary {dbg : Bool} {v : Perm} (hv : v.Reachable) {B : List HE} {T : Tri}
    (h : make dbg v B = .ok T) :
    ∀ e ∈ T.halfEdges, (T.boundary e = true ↔ e ∈ B ∨ (dbg = false ∧ v.fwd e = neg e)) := by
  obtain ⟨hc, -, hTv, hin, hnot, hdbg⟩ := make_spec hv.wf h
  intro e he
  rw [mem_halfEdges, size, hTv] at he
  rw [boundary_true]
  constructor
  · intro hb
    by_cases hB : e ∈ B
    · exact .inl hB
    · right
      refine ⟨?_, ?_⟩
      · cases dbg with
        | false => rfl
        | true => exact absurd (hdbg rfl e he hb) hB
      · have h1 := hc.hf.inj ((hnot e he hB).trans hb.symm)
        rw [← h1, neg_neg', h1]
  · rintro (hB | ⟨-, hn⟩)
    · exact hin e he hB
    · by_cases hB : e ∈ B
      · exact hin e he hB
      · have h1 := hnot e he hB
        rwa [hn, neg_neg'] at h1

/-- If the number of half edges is even, the constructor succeeds exactly when the boundary is closed and all faces are
triangles: here `neg (v.fwd e)` precedes `e` in its face. -/
theorem make_succeeds_iff {dbg : Bool} {v : Perm} (hv : v.Reachable) (he : v.size % 2 = 0) {B : List HE} :
    (∃ T, make dbg v B = .ok T) ↔
      let prev := fun e => neg (v.fwd e)
      (∀ e < v.size, (prev e ∈ B ↔ e ∈ B)) ∧
      (∀ e < v.size, e ∉ B → prev (prev (prev e)) = e ∧ (dbg = true → prev e ≠ e)) :=
  make_ok_iff hv.wf he

/-- A face which is not a triangle is reported. -/
theorem make_rejects_non_triangles {dbg : Bool} {v : Perm} (hv : v.Reachable) (he : v.size % 2 = 0) {B : List HE}
    (hB : ∀ e < v.size, (neg (v.fwd e) ∈ B ↔ e ∈ B)) {e : HE} (hes : e < v.size) (heB : e ∉ B)
    (ht : let prev := fun e => neg (v.fwd e); prev (prev (prev e)) ≠ e ∨ (dbg = true ∧ prev e = e)) :
    make dbg v B = .error .invalidArgument :=
  make_rejects hv.wf he hB ⟨e, hes, heB, ht⟩

/-- An odd number of half edges never leads to a triangulation. -/
theorem make_odd {dbg : Bool} {v : Perm} (hv : v.Reachable) (he : v.size % 2 = 1) {B : List HE} :
    ¬ ∃ T, make dbg v B = .ok T := by
  rintro ⟨T, h⟩
  obtain ⟨hc, -, hTv, -⟩ := make_spec hv.wf h
  have := hc.even
  rw [hTv] at this
  omega

/-- The public constructor takes cycles of ids: on success the ids are those of the half edges of the surface, in the
given order around the vertices, with the given boundary. -/
theorem ofIds_sound {dbg : Bool} {cycles : List (List ℤ)} {B : List ℤ} {T : Tri} (h : ofIds dbg cycles B = .ok T) :
    T.Reachable dbg ∧ IsTriangulation T ∧ VerticesCorrect T ∧
    (T.halfEdges.map heId).Perm cycles.flatten ∧
    (∀ e, ∀ c ∈ cycles, ∀ i (hi : i < c.length), heId e = c[i] →
      heId (T.nextAtVertex e) = c[(i + 1) % c.length]'(Nat.mod_lt _ (by omega))) ∧
    (∀ e ∈ T.halfEdges, (T.boundary e = true ↔ heId e ∈ B ∨ (dbg = false ∧ T.nextAtVertex e = neg e))) := by
  obtain ⟨cs, v, bs, rfl, hv, rfl, hT, -⟩ := ofIds_eq h
  have hvr : v.Reachable := .ofCycles hv
  have hTr : T.Reachable dbg := .make hvr hT
  have hTv := (make_spec hvr.wf hT).2.2.1
  obtain ⟨hw, hs, hc⟩ := Perm.ofCycles_ok hv
  refine ⟨hTr, (make_isTriangulation hvr hT).1, (make_isTriangulation hvr hT).2, ?_, ?_, ?_⟩
  · have h1 := (Perm.ofCycles_ok_iff (cs := cs)).1 ⟨v, hv⟩
    rw [(make_vertices hvr hT).1, hs, ← List.map_flatten]
    exact h1.symm.map heId
  · intro e c hcm i hi hei
    obtain ⟨c', hc', rfl⟩ := List.mem_map.1 hcm
    rw [List.getElem_map] at hei
    have hi' : i < c'.length := by simpa using hi
    have := hc c' hc' i hi'
    rw [(make_vertices hvr hT).2, C01.id_injective hei, this, List.getElem_map]
    simp
  · intro e he
    rw [make_boundary hvr hT e he, (make_vertices hvr hT).2]
    simp only [List.mem_map]
    constructor
    · rintro (h | h)
      exacts [.inl ⟨e, h, rfl⟩, .inr h]
    · rintro (⟨x, hx, hxe⟩ | h)
      exacts [.inl (C01.id_injective hxe ▸ hx), .inr h]

/-- A torus made of two triangles. -/
example : ∃ T, ofIds true [[1, 3, 2, -1, -3, -2]] [] = .ok T ∧ T.nextInFace 0 = 2 ∧ T.boundary 0 = false :=
  ⟨_, rfl, by decide⟩

/-- A single triangle with boundary. -/
example : ∃ T, ofIds true [[1, -3], [2, -1], [3, -2]] [-1, -2, -3] = .ok T ∧ T.nextInFace 0 = 2 ∧
    T.boundary 1 = true ∧ T.vertexes.length = 3 := ⟨_, rfl, by decide⟩

/-- A surface with quadrilateral faces is rejected. -/
example : ofIds true [[1, 2, -1, -2]] [] = .error .invalidArgument := rfl

example : ∃ v, v.Reachable ∧ v.size % 2 = 0 ∧ make false v [] = .error .invalidArgument :=
  ⟨_, .ofCycles (cs := [[0, 2, 1, 3]]) rfl, rfl,
    make_rejects_non_triangles (.ofCycles (cs := [[0, 2, 1, 3]]) rfl) rfl (by simp) (e := 0) (by decide) (by simp)
      (by decide)⟩

example : ∃ v : Perm, v.Reachable ∧ v.size % 2 = 1 := ⟨_, .ofCycles (cs := [[0, 2, 1]]) rfl, rfl⟩

/-! ### What is not reported -/

/-- `v` and `B` glue the sides of triangles, leaving exactly the sides opposite to `B` unglued. -/
def DescribesTriangulation (v : Perm) (B : List HE) : Prop :=
  let prev := fun e => neg (v.fwd e)
  v.size % 2 = 0 ∧ (∀ e < v.size, (prev e ∈ B ↔ e ∈ B)) ∧
    (∀ e < v.size, e ∉ B → prev (prev (prev e)) = e ∧ prev e ≠ e)

/-- The full claim about malformed input (see C57): whatever is not a triangulation with the given boundary is reported
as an invalid argument. -/
def RejectionClaim (dbg : Bool) : Prop :=
  ∀ v : Perm, v.Reachable → ∀ B : List HE, ¬ DescribesTriangulation v B → make dbg v B = .error .invalidArgument

/-- In release builds a face with one side is accepted and taken to be a boundary. -/
theorem release_accepts_monogon : ∃ v : Perm, v.Reachable ∧ (∃ T, make false v [] = .ok T) ∧ neg (v.fwd 0) = 0 :=
  ⟨_, .ofCycles (cs := [[0, 1]]) rfl, ⟨_, rfl⟩, by decide⟩

/-- An odd number of half edges leads to an out of bounds access before the number is checked. -/
theorem odd_undefined (dbg : Bool) :
    ∃ v : Perm, v.Reachable ∧ v.size % 2 = 1 ∧ make dbg v [] = .error .undefined :=
  ⟨_, .ofCycles (cs := [[0]]) rfl, rfl, rfl⟩

/-- A boundary which is not closed leads to the use of an uninitialised half edge. -/
theorem open_boundary_undefined (dbg : Bool) :
    ∃ v : Perm, v.Reachable ∧ v.size % 2 = 0 ∧ make dbg v [1] = .error .undefined :=
  ⟨_, .ofCycles (cs := [[0, 4, 2, 1, 5, 3]]) rfl, rfl, rfl⟩

theorem rejection_fails (dbg : Bool) : ¬ RejectionClaim dbg := by
  intro h
  obtain ⟨v, hv, ho, hu⟩ := odd_undefined dbg
  have := h v hv [] (fun hc => by have := hc.1; omega)
  rw [hu] at this
  cases this

/-- What is reported: for an even number of half edges and a closed boundary, everything except faces with one side in
release builds. (Missing: the cases of the three theorems above.) -/
theorem rejection_partial {dbg : Bool} {v : Perm} (hv : v.Reachable) (he : v.size % 2 = 0) {B : List HE}
    (hB : ∀ e < v.size, (neg (v.fwd e) ∈ B ↔ e ∈ B))
    (ht : let prev := fun e => neg (v.fwd e)
      ¬ ∀ e < v.size, e ∉ B → prev (prev (prev e)) = e ∧ (dbg = true → prev e ≠ e)) :
    make dbg v B = .error .invalidArgument := by
  simp only at ht
  push Not at ht
  obtain ⟨e, h1, h2, h3⟩ := ht
  refine make_rejects hv.wf he hB ⟨e, h1, h2, ?_⟩
  by_cases h4 : neg (v.fwd (neg (v.fwd (neg (v.fwd e))))) = e
  · exact .inr (h3 h4)
  · exact .inl h4

example : ∃ v : Perm, v.Reachable ∧ make true v [] = .error .invalidArgument :=
  ⟨_, .ofCycles (cs := [[0, 1]]) rfl,
    rejection_partial (.ofCycles (cs := [[0, 1]]) rfl) rfl (by simp) (by decide)⟩

end Verif.C05
