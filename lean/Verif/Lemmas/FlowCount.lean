import Verif.Lemmas.FlowFunnel
import Verif.Props.C13
import Verif.Props.C18

/-!
# The faces obtained by clipping ears
-/

namespace Verif.FlowTriangulation

open Verif Vec C13

variable {T : Type} [CommRing T] [LinearOrder T] [IsStrictOrderedRing T]
variable {K : Type*} [Field K] [LinearOrder K] [IsStrictOrderedRing K]

/-- A triangle whose vertices are in counterclockwise order. -/
structure Triangle (V : Vectors T) (f : HE × HE × HE) : Prop where
  lt1 : f.1 < V.size
  lt2 : f.2.1 < V.size
  lt3 : f.2.2 < V.size
  closed : V.get f.1 + V.get f.2.1 + V.get f.2.2 = 0
  oriented : 0 < cross (V.get f.1) (V.get f.2.1)

theorem Triangle.rotate {V : Vectors T} {f : HE × HE × HE} (h : Triangle V f) :
    cross (V.get f.2.1) (V.get f.2.2) = cross (V.get f.1) (V.get f.2.1) ∧
      cross (V.get f.2.2) (V.get f.1) = cross (V.get f.1) (V.get f.2.1) := by
  have e : V.get f.2.2 = -(V.get f.1 + V.get f.2.1) := (neg_eq_of_add_eq_zero_right h.closed).symm
  rw [e]
  constructor
  · unfold cross; simp only [neg_x, neg_y, add_x, add_y]; ring
  · unfold cross; simp only [neg_x, neg_y, add_x, add_y]; ring

theorem Triangle.push {V : Vectors T} (hV : V.OK) {f : HE × HE × HE} (h : Triangle V f) (w : Vec T) : Triangle (V.push w) f := by
  obtain ⟨-, h2, -, -, h5⟩ := hV.push w
  refine ⟨by rw [h2]; exact h.lt1.trans (by omega), by rw [h2]; exact h.lt2.trans (by omega),
    by rw [h2]; exact h.lt3.trans (by omega), ?_, ?_⟩
  · rw [h5 _ h.lt1, h5 _ h.lt2, h5 _ h.lt3]; exact h.closed
  · rw [h5 _ h.lt1, h5 _ h.lt2]; exact h.oriented

theorem halfEdgesOf_append (l l' : List (HE × HE × HE)) : halfEdgesOf (l ++ l') = halfEdgesOf l ++ halfEdgesOf l' :=
  List.flatMap_append

/-- Twice the area enclosed by a closed polygon. -/
def enclosed (arcs : List (Arc T)) : T := (arcs.map fun a => cross a.p a.q).sum

/-- Twice the area of triangles. -/
def covered (V : Vectors T) (F : List (HE × HE × HE)) : T := (F.map fun f => cross (V.get f.1) (V.get f.2.1)).sum

/-- What has been done while clipping ears. -/
structure Clipped (st : State T) (arcs : List (Arc T)) (st' : State T) (arcs' : List (Arc T)) (F : List (HE × HE × HE)) : Prop where
  faces : st'.faces = st.faces ++ F
  perm : (halfEdgesOf F ++ arcs'.map Arc.he).Perm (arcs.map Arc.he ++ List.range' st.vectors.size (2 * F.length))
  size : st'.vectors.size = st.vectors.size + 2 * F.length
  length : arcs'.length + F.length = arcs.length
  get : ∀ e < st.vectors.size, st'.vectors.get e = st.vectors.get e
  triangle : ∀ f ∈ F, Triangle st'.vectors f
  area : covered st'.vectors F + enclosed arcs' = enclosed arcs

theorem Clips.clipped {st : State T} {arcs st' arcs'} (h : Clips st arcs st' arcs') (hv : Valid st.vectors arcs) :
    ∃ F, Clipped st arcs st' arcs' F := by
  induction h with
  | refl => exact ⟨[], by simp, by simp [halfEdgesOf], by simp, by simp, fun _ _ => rfl, by simp, by simp [covered]⟩
  | perm _ hp ih =>
    obtain ⟨F, hF⟩ := ih
    refine ⟨F, hF.faces, ?_, hF.size, ?_, hF.get, hF.triangle, ?_⟩
    · exact ((hp.map _).symm.append_left _).trans hF.perm
    · rw [← hp.length_eq]; exact hF.length
    · rw [← hF.area]
      unfold enclosed
      rw [(hp.map _).sum_eq]
  | @clip st1 f g p q r rest hcl hc ih =>
    obtain ⟨F, hF⟩ := ih
    have hv1 := hcl.valid hv
    obtain ⟨h1, h2, h3, h4, h5⟩ := hv1.ok.push (st1.vectors.get f + st1.vectors.get g)
    have lf := hv1.lt ⟨f, p, q⟩ (by simp)
    have lg := hv1.lt ⟨g, q, r⟩ (by simp)
    have gf := hv1.get ⟨f, p, q⟩ (by simp)
    have gg := hv1.get ⟨g, q, r⟩ (by simp)
    dsimp only at lf lg gf gg
    have hcross : cross (p - r) (q - p) = cross (q - p) (r - q) := by
      unfold cross; simp only [sub_x, sub_y]; ring
    have hsum : -(st1.vectors.get f + st1.vectors.get g) = p - r := by rw [gf, gg]; abel
    refine ⟨F ++ [(st1.vectors.size, f, g)], ?_, ?_, ?_, ?_, ?_, ?_, ?_⟩
    · rw [hF.faces, List.append_assoc]
    · rw [halfEdgesOf_append, List.length_append, List.length_singleton, mul_add, mul_one, ← List.range'_append_1, ← hF.size]
      have e1 : halfEdgesOf [(st1.vectors.size, f, g)] = [st1.vectors.size, f, g] := rfl
      have e2 : List.range' st1.vectors.size 2 = [st1.vectors.size, st1.vectors.size + 1] := rfl
      rw [e1, e2, ← List.append_assoc (List.map _ arcs)]
      refine List.Perm.trans ?_ (hF.perm.append_right _)
      simp only [List.map_cons]
      rw [neg_size hv1.ok.even, List.append_assoc, List.append_assoc]
      refine List.Perm.append_left _ ?_
      generalize st1.vectors.size = n
      generalize List.map Arc.he rest = m
      rw [List.perm_iff_count]
      intro a
      simp only [List.count_append, List.count_cons, List.count_nil]
      omega
    · change (st1.vectors.push _).size = _
      rw [h2, hF.size, List.length_append, List.length_singleton]; omega
    · have := hF.length
      simp only [List.length_cons, List.length_append, List.length_nil] at this ⊢
      omega
    · intro e he
      change (st1.vectors.push _).get e = _
      rw [h5 e (by rw [hF.size]; omega), hF.get e he]
    · intro t ht
      rcases List.mem_append.1 ht with ht | ht
      · exact (hF.triangle t ht).push hv1.ok _
      · rw [List.mem_singleton] at ht
        subst ht
        refine ⟨?_, ?_, ?_, ?_, ?_⟩ <;> dsimp only
        · rw [h2]; omega
        · rw [h2]; omega
        · rw [h2]; omega
        · rw [h3, h5 f lf, h5 g lg]; abel
        · rw [h3, h5 f lf, hsum, gf, hcross]; exact hc
    · have e3 : covered (st1.vectors.push (st1.vectors.get f + st1.vectors.get g)) F = covered st1.vectors F := by
        unfold covered
        congr 1
        refine List.map_congr_left fun t ht => ?_
        rw [h5 _ (hF.triangle t ht).lt1, h5 _ (hF.triangle t ht).lt2]
      have e4 := hF.area
      unfold covered at e3 e4 ⊢
      unfold enclosed at e4 ⊢
      simp only [List.map_append, List.sum_append, List.map_cons, List.sum_cons, List.map_nil, List.sum_nil] at e4 ⊢
      rw [e3, h3, h5 f lf, hsum, gf, hcross, ← e4]
      unfold cross; simp only [sub_x, sub_y]; ring

/-- All faces of the triangulation of a polygon. -/
structure Filled (st : State T) (arcs : List (Arc T)) (st' : State T) (F : List (HE × HE × HE)) : Prop where
  faces : st'.faces = st.faces ++ F
  perm : (halfEdgesOf F).Perm (arcs.map Arc.he ++ List.range' st.vectors.size (2 * (F.length - 1)))
  size : st'.vectors.size = st.vectors.size + 2 * (F.length - 1)
  length : F.length + 2 = arcs.length
  pos : 0 < F.length
  ok : st'.vectors.OK
  get : ∀ e < st.vectors.size, st'.vectors.get e = st.vectors.get e
  triangle : ∀ f ∈ F, Triangle st'.vectors f
  area : covered st'.vectors F = enclosed arcs

theorem Done.filled {st : State T} {arcs st'} (h : Done st arcs st') (hv : Valid st.vectors arcs) : ∃ F, Filled st arcs st' F := by
  obtain ⟨st1, f, g, k, p, q, r, h1, h2, rfl⟩ := h
  have hv1 := h1.valid hv
  obtain ⟨F, hF⟩ := h1.clipped hv
  have lf := hv1.lt ⟨f, p, q⟩ (by simp)
  have lg := hv1.lt ⟨g, q, r⟩ (by simp)
  have lk := hv1.lt ⟨k, r, p⟩ (by simp)
  have gf := hv1.get ⟨f, p, q⟩ (by simp)
  have gg := hv1.get ⟨g, q, r⟩ (by simp)
  have gk := hv1.get ⟨k, r, p⟩ (by simp)
  dsimp only at lf lg lk gf gg gk
  have hlen : (F ++ [(f, g, k)]).length - 1 = F.length := by simp
  refine ⟨F ++ [(f, g, k)], ?_, ?_, ?_, ?_, by simp, hv1.ok, hF.get, ?_, ?_⟩
  · change st1.faces ++ _ = _
    rw [hF.faces, List.append_assoc]
  · rw [hlen, halfEdgesOf_append]
    exact hF.perm
  · rw [hlen]; exact hF.size
  · have := hF.length
    simp only [List.length_cons, List.length_append, List.length_nil] at this ⊢
    omega
  · intro t ht
    rcases List.mem_append.1 ht with ht | ht
    · exact hF.triangle t ht
    · rw [List.mem_singleton] at ht
      subst ht
      refine ⟨lf, lg, lk, ?_, ?_⟩ <;> dsimp only
      · rw [gf, gg, gk]; abel
      · rw [gf, gg]; exact h2
  · have e4 := hF.area
    unfold covered at e4 ⊢
    unfold enclosed at e4 ⊢
    simp only [List.map_append, List.sum_append, List.map_cons, List.sum_cons, List.map_nil, List.sum_nil] at e4 ⊢
    rw [gf, gg, ← e4]
    unfold cross; simp only [sub_x, sub_y]; ring

/-- The faces give a triangulation if all the edges on the perimeter are there. -/
theorem Filled.proper {st : State T} {arcs : List (Arc T)} {st' : State T} {F} (h : Filled st arcs st' F) (hok : st.vectors.OK)
    (hnd : (arcs.map Arc.he).Nodup) (hall : ∀ x, (x ∈ arcs.map Arc.he ∨ neg x ∈ arcs.map Arc.he) ↔ x < st.vectors.size) :
    Proper F (st'.vectors.size / 2) := by
  have heven := h.ok.even
  have heven' := hok.even
  have hmem : ∀ x, x ∈ halfEdgesOf F ↔ x ∈ arcs.map Arc.he ∨ st.vectors.size ≤ x ∧ x < st'.vectors.size := by
    intro x
    rw [h.perm.mem_iff, List.mem_append, List.mem_range'_1, h.size]
  refine ⟨?_, fun x => ?_⟩
  · rw [h.perm.nodup_iff]
    refine List.nodup_append.2 ⟨hnd, List.nodup_range', fun a ha b hb => ?_⟩
    rw [List.mem_range'_1] at hb
    have := (hall a).1 (.inl ha)
    omega
  · rw [hmem, hmem]
    have hx := hall x
    have e1 : neg x < st'.vectors.size ↔ x < st'.vectors.size := neg_lt' heven x
    have e2 : neg x < st.vectors.size ↔ x < st.vectors.size := neg_lt' heven' x
    have e3 := h.size
    constructor
    · rintro ((hm | hm) | (hm | hm))
      · have := hx.1 (.inl hm); omega
      · omega
      · have := hx.1 (.inr hm); omega
      · have := e1.1 hm.2; omega
    · intro hlt
      by_cases hl : x < st.vectors.size
      · rcases hx.2 hl with hm | hm
        · exact .inl (.inl hm)
        · exact .inr (.inl hm)
      · exact .inl (.inr ⟨by omega, by omega⟩)

end Verif.FlowTriangulation
