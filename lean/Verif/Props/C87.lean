import Verif.Props.C35
import Verif.Spec.LinearDeformation

/-!
# C87: inserting a vertex in a face and paths

The property: when a vertex has been inserted in a face, then the deformation maps each path to the path of the codomain
which consists of the same segments. The path is actually returned as it is. It is still a path of the domain. Even its
data does not describe a path in the codomain when it goes through the corners of the subdivided face.
-/

namespace Verif.C87

open Verif Spec Tri FlatTri Examples Subdivided Vec

variable {T : Type} [CommRing T] [LinearOrder T] [IsStrictOrderedRing T]

/-- The coefficients of a chain are for edges of the surface. -/
def Supported (S : FlatTri T) (s : Saddle) : Prop := ∀ i, S.tri.size ≤ 2 * i → s.chain i = 0

/-- The property: the segments of the image of a path are segments of the codomain. -/
def SegmentsKept (S S' : FlatTri T) : Prop :=
  ∀ p : List Saddle, (∀ s ∈ p, Supported S s ∧ IsSegment S s) → ∀ s ∈ (insertPath p).2, IsSegment S' s

theorem foldl_zero {S' : FlatTri T} {c : ℕ → ℤ} (l : List ℕ) (v : Vec T) (hl : ∀ i ∈ l, c i = 0) :
    l.foldl (fun v i => v + ((c i : ℤ) : T) • S'.vec (2 * i)) v = v := by
  induction l generalizing v with
  | nil => rfl
  | cons i l ih =>
    rw [List.foldl_cons, hl i (by simp)]
    rw [ih _ fun j hj => hl j (by simp [hj])]
    simp

/-- The vectors of segments do not change. -/
theorem vector_kept {S S' : FlatTri T} {n f g a b c : HE} {v : Vec T} (hs : SubdividesFace S S' n f g a b c v)
    (he : S.tri.size % 2 = 0) {s : Saddle} (hc : Supported S s) : S'.saddleVector s = S.saddleVector s := by
  have hsz : S'.tri.size = S.tri.size + 6 := by
    have := congrArg List.length hs.halfEdges
    simpa [halfEdges] using this
  have h2 : S'.tri.size / 2 = S.tri.size / 2 + 3 := by omega
  unfold saddleVector chainVector
  rw [h2, List.range_add, List.foldl_append, foldl_zero _ _ (by
    intro i hi
    simp only [List.mem_map] at hi
    obtain ⟨j, -, rfl⟩ := hi
    exact hc _ (by omega))]
  refine List.foldl_ext _ _ _ fun w i hi => ?_
  rw [List.mem_range] at hi
  rw [hs.vectors (2 * i) (mem_halfEdges.2 (by omega))]

/-- The corners away from the subdivided face do not change. -/
theorem corner_kept {dbg : Bool} {S S' : FlatTri T} (h : Closed dbg S) (h' : Closed dbg S') {n f g a b c : HE}
    {v : Vec T} (hs : SubdividesFace S S' n f g a b c v) {e : HE} (he : ¬ IsSide S n e) {w : Vec T}
    (hl : LeavesCorner S e w) : LeavesCorner S' e w := by
  have k := hs.subdivided h h'
  obtain ⟨h1, h2, h3⟩ := hl
  have inj : ∀ {x y}, S.tri.faces.fwd x = S.tri.faces.fwd y → x = y := fun hxy => h.shut.flat.coh.hf.inj hxy
  have mem : e ∈ S.tri.halfEdges := mem_halfEdges.2 h1
  have lt : e < S'.tri.size := by
    rw [← mem_halfEdges, hs.halfEdges, List.mem_append]
    exact .inl mem
  rw [k.side_iff] at he
  have he2 : ¬ (S.tri.faces.fwd e = n ∨ S.tri.faces.fwd e = f ∨ S.tri.faces.fwd e = g) := by
    rintro (hx | hx | hx)
    · exact he (.inr (.inr (inj (hx.trans k.fg.symm))))
    · exact he (.inl (inj (hx.trans k.fn.symm)))
    · exact he (.inr (.inl (inj (hx.trans k.ff.symm))))
  have o1 := hs.others e mem (by simpa using he)
  have o2 := hs.others (S.tri.faces.fwd e) (mem_halfEdges.2 (h.shut.next_lt h1)) (by simpa using he2)
  unfold Tri.nextInFace at o1 o2
  have q := h.shut.quad h1
  have q' := h'.shut.quad lt
  refine ⟨lt, ?_, ?_⟩
  · rw [hs.vectors e mem]
    exact h2
  · unfold Tri.nextAtVertex at h3 ⊢
    have l3 := h.shut.neg_lt (h.shut.next_lt (h.shut.next_lt h1))
    rw [q'.ve, o1, o2, hs.vectors _ (mem_halfEdges.2 l3), ← q.ve]
    exact h3

theorem corner_iff {S S' : FlatTri T} {n f g a b c : HE} {v : Vec T} (k : Subdivided S S' n f g a b c v) {w : Vec T}
    (hl : LeavesCorner S n w) : LeavesCorner S' n w ↔ cross v w < 0 := by
  unfold LeavesCorner Tri.nextAtVertex at *
  have q' := k.shut'.quad k.lt'.1
  rw [q'.ve, k.gn, k.gb', k.shut'.flat.odd a k.lt'.2.2.2, k.va, neg_neg, k.vn]
  exact ⟨fun h => h.2.2, fun h => ⟨k.lt'.1, hl.2.1, h⟩⟩

/-- The direction `w` at the half edge `e` is not at a corner of the face `(n f g)`, or it is strictly to the right of the
vector from that corner to the new vertex, which is at `v` from the source of `n`. -/
def RightOfNew (S : FlatTri T) (n f g : HE) (v : Vec T) (e : HE) (w : Vec T) : Prop :=
  (e = n → cross v w < 0) ∧ (e = f → cross (v - S.vec n) w < 0) ∧ (e = g → cross (v - (S.vec n + S.vec f)) w < 0)

theorem corner_kept_iff {dbg : Bool} {S S' : FlatTri T} (h : Closed dbg S) (h' : Closed dbg S') {n f g a b c : HE}
    {v : Vec T} (hs : SubdividesFace S S' n f g a b c v) {e : HE} {w : Vec T} (hl : LeavesCorner S e w) :
    LeavesCorner S' e w ↔ RightOfNew S n f g v e w := by
  have k := hs.subdivided h h'
  have k1 := corner_iff k (w := w)
  have k2 := corner_iff k.rotate (w := w)
  have k3 := corner_iff k.rotate.rotate (w := w)
  rw [sub_sub] at k3
  have d : n ≠ f ∧ n ≠ g ∧ f ≠ g := by
    have := (h.shut.quad k.lt.1).nodup
    rw [k.fn, k.ff] at this
    simp only [List.nodup_cons, List.mem_cons, not_or] at this
    exact ⟨this.1.1, this.1.2.1, this.2.1.1⟩
  obtain ⟨d1, d2, d3⟩ := d
  unfold RightOfNew
  by_cases h1 : e = n
  · subst h1
    rw [k1 hl]
    simp [d1, d2]
  by_cases h2 : e = f
  · subst h2
    rw [k2 hl]
    simp [d1.symm, d3]
  by_cases h3 : e = g
  · subst h3
    rw [k3 hl]
    simp [d2.symm, d3.symm]
  have h4 : ¬ IsSide S n e := by
    rw [k.side_iff]
    tauto
  simp [h1, h2, h3, corner_kept h h' hs h4 hl]

/-- The vectors of the segments are always preserved. The data of a segment describes a segment of the codomain exactly if
neither end is in the direction of the new vertex or to the left of it at a corner of the subdivided face: otherwise, the
segment is now in the corner of a new half edge. -/
theorem kept_iff_partial {dbg : Bool} {S S' : FlatTri T} (h : Closed dbg S) (h' : Closed dbg S') {n f g a b c : HE}
    {v : Vec T} (hs : SubdividesFace S S' n f g a b c v) {p : List Saddle} (hp : ∀ s ∈ p, Supported S s ∧ IsSegment S s) :
    (insertPath p).2 = p ∧ ∀ s ∈ p, S'.saddleVector s = S.saddleVector s ∧
      (IsSegment S' s ↔ RightOfNew S n f g v s.source (S.saddleVector s) ∧
        RightOfNew S n f g v s.target (-S.saddleVector s)) := by
  refine ⟨rfl, fun s hm => ?_⟩
  obtain ⟨h1, h2, h3⟩ := hp s hm
  have hv := vector_kept hs h.shut.flat.coh.even h1
  refine ⟨hv, ?_⟩
  unfold IsSegment
  rw [hv, corner_kept_iff h h' hs h2, corner_kept_iff h h' hs h3]

/-- The image of each path is a path of the domain, i.e., the surface of the path has not been changed. -/
theorem surface_wrong (p : List Saddle) : insertPath p = (.domain, p) := rfl

/-! ### Concrete cases -/

/-- The segment with vector `(12, 8)` in the torus with sides of length 4 that starts at the half edge 0 and ends at the half
edge 1. -/
def slope : Saddle := ⟨0, 1, fun i => if i = 0 then 3 else if i = 1 then 2 else 0⟩

theorem slope_segment : Supported wideTorus slope ∧ IsSegment wideTorus slope := by
  refine ⟨fun i hi => ?_, ⟨by decide, by decide, by decide⟩, by decide, by decide, by decide⟩
  have e : wideTorus.tri.size = 6 := rfl
  rw [e] at hi
  simp only [slope]
  rw [if_neg (by omega), if_neg (by omega)]

/-- The property does not hold. -/
theorem not_segmentsKept : ¬ SegmentsKept wideTorus C35.wideInserted := by
  intro hk
  have h1 := hk [slope] (by simpa using slope_segment) slope (by simp [insertPath])
  have h2 := (((kept_iff_partial C35.wideTorus_closed C35.wideTorus_subdivided.2.1 C35.wideTorus_subdivided.2.2 (p := [slope])
    (by simpa using slope_segment)).2 slope (by simp)).2.1 h1).1.1 rfl
  revert h2
  decide

/-- The data of the segment with vector `(8, 4)` is correct in the codomain. -/
example : let s : Saddle := ⟨0, 1, fun i => if i = 0 then 2 else if i = 1 then 1 else 0⟩
    IsSegment wideTorus s ∧ RightOfNew wideTorus 0 2 5 ⟨3, 2⟩ s.source (wideTorus.saddleVector s) ∧
      RightOfNew wideTorus 0 2 5 ⟨3, 2⟩ s.target (-wideTorus.saddleVector s) := by
  refine ⟨⟨⟨by decide, by decide, by decide⟩, by decide, by decide, by decide⟩, ?_, ?_⟩ <;> unfold RightOfNew <;> decide

end Verif.C87
