import Verif.Lemmas.Delaunay
import Verif.Lemmas.FlatExamples
import Verif.Lemmas.Sector

/-!
# C19: delaunay(e) is the in-circle test and delaunay() repairs it
-/

namespace Verif.C19

open Verif Spec Tri FlatTri Examples Vec Relation

variable {T : Type} [CommRing T] [LinearOrder T] [IsStrictOrderedRing T]
variable {K : Type*} [Field K] [LinearOrder K] [IsStrictOrderedRing K]

/-- The squared distance of two points in the plane. -/
def distance2 (p q : Vec ℝ) : ℝ := (p.x - q.x) ^ 2 + (p.y - q.y) ^ 2

/-- The center of the circle through three points. -/
def Circumcenter (o p q r : Vec ℝ) : Prop := distance2 o p = distance2 o q ∧ distance2 o p = distance2 o r

/-- When the source of `e` is at the origin, the vertices of the face of `e` are at the origin, at the end of `e` and at
`apex e`. -/
def apex (S : FlatTri T) (e : HE) : Vec T := S.vec e + S.vec (S.tri.nextInFace e)

/-- The vertex on the other side of the edge. -/
def opposite (S : FlatTri T) (e : HE) : Vec T := S.vec (S.tri.nextInFace (neg e))

/-- `delaunay(e)` compares the opposite vertex to the circle through the vertices of the face. -/
theorem delaunayAt_correct {f : T →+* ℝ} (hf : StrictMono f) {dbg : Bool} {S : FlatTri T} (h : S.tri.Reachable dbg)
    (hS : IsFlat S) {e : HE} (he : S.tri.boundary e = false) (he' : S.tri.boundary (neg e) = false) {o : Vec ℝ}
    (ho : Circumcenter o 0 ((S.vec e).map f) ((apex S e).map f)) :
    (S.delaunayAt e = .delaunay ↔ distance2 o 0 < distance2 o ((opposite S e).map f)) ∧
    (S.delaunayAt e = .ambiguous ↔ distance2 o 0 = distance2 o ((opposite S e).map f)) ∧
    (S.delaunayAt e = .nonDelaunay ↔ distance2 o ((opposite S e).map f) < distance2 o 0) := by
  have hF := IsFlat.flat h hS
  have q := hF.coh.quad (hF.flippable (boundary_false.1 he) (boundary_false.1 he'))
  rw [hF.delaunayAt_eq q]
  obtain ⟨g1, g2, g3, g4, g5, g6, g7, g8, g9⟩ := hF.quad q
  unfold apex opposite Tri.nextInFace at *
  set a := S.tri.faces.fwd e
  set b := S.tri.faces.fwd a
  set c := S.tri.faces.fwd (neg e)
  set d := S.tri.faces.fwd c
  obtain ⟨e1, e2⟩ := perimeter g6 g7
  have e3 : S.vec e + S.vec a = -S.vec b := by rw [e1]; abel
  rw [e3, e1] at ho
  obtain ⟨o1, o2⟩ := ho
  have key : f (incircle (S.vec a) (S.vec b) (S.vec c) (S.vec d)) =
      f (cross (S.vec a) (S.vec b)) * (distance2 o 0 - distance2 o ((S.vec c).map f)) := by
    rw [e2]
    simp only [distance2, Vec.map, neg_x, neg_y, sub_x, sub_y, zero_x, zero_y, map_neg, map_sub] at o1 o2 ⊢
    simp only [incircle, cross, dot, neg_x, neg_y, sub_x, sub_y, map_add, map_mul, map_sub, map_neg]
    generalize f (S.vec a).x = ax at *
    generalize f (S.vec a).y = ay at *
    generalize f (S.vec b).x = bx at *
    generalize f (S.vec b).y = by' at *
    generalize f (S.vec c).x = cx at *
    generalize f (S.vec c).y = cy at *
    linear_combination -(bx * cy - by' * cx) * o1 - ((-ax - bx) * cy - (-ay - by') * cx) * o2
  have hp : 0 < f (cross (S.vec a) (S.vec b)) := by rw [← map_zero f]; exact hf g8
  have k1 : incircle (S.vec a) (S.vec b) (S.vec c) (S.vec d) < 0 ↔ distance2 o 0 < distance2 o ((S.vec c).map f) := by
    rw [← hf.lt_iff_lt, map_zero, key, ← sub_neg (a := distance2 o 0)]
    exact ⟨fun hc => neg_of_mul_neg_right hc hp.le, fun hc => mul_neg_of_pos_of_neg hp hc⟩
  have k2 : incircle (S.vec a) (S.vec b) (S.vec c) (S.vec d) = 0 ↔ distance2 o 0 = distance2 o ((S.vec c).map f) := by
    rw [← map_eq_zero_iff f hf.injective, key, mul_eq_zero, sub_eq_zero]
    exact ⟨fun hc => hc.resolve_left hp.ne', Or.inr⟩
  generalize incircle (S.vec a) (S.vec b) (S.vec c) (S.vec d) = i at *
  rcases lt_trichotomy (distance2 o 0) (distance2 o ((S.vec c).map f)) with hlt | heq | hlt
  · rw [if_pos (k1.2 hlt)]
    simp [hlt, hlt.ne, hlt.not_gt]
  · rw [if_neg (fun hc => (k1.1 hc).ne heq), if_pos (k2.2 heq)]
    simp [heq]
  · rw [if_neg (fun hc => (k1.1 hc).not_gt hlt), if_neg (fun hc => hlt.ne' (k2.1 hc))]
    simp [hlt, hlt.ne', hlt.not_gt]

example : IsFlat flatTorus ∧ flatTorus.tri.boundary 4 = false ∧ flatTorus.tri.boundary 5 = false ∧
    flatTorus.delaunayAt 4 = .ambiguous ∧ flatTorus.delaunayAt 0 = .delaunay :=
  ⟨flatTorus_isFlat, by decide, by decide, by decide, by decide⟩

/-- There is exactly one circle through the vertices of a face. -/
theorem circumcenter_existsUnique {f : T →+* ℝ} (hf : StrictMono f) {dbg : Bool} {S : FlatTri T}
    (h : S.tri.Reachable dbg) (hS : IsFlat S) {e : HE} (he : S.tri.boundary e = false) :
    ∃! o, Circumcenter o 0 ((S.vec e).map f) ((apex S e).map f) := by
  have hF := IsFlat.flat h hS
  have hc := hF.oriented e (boundary_false.1 he)
  have hD : 0 < cross ((S.vec e).map f) ((apex S e).map f) := by
    rw [cross_map, ← map_zero f]
    apply hf
    unfold apex Tri.nextInFace
    rwa [cross_add_right, cross_self, zero_add]
  generalize (S.vec e).map f = q at *
  generalize (apex S e).map f = r at *
  have hD' : q.x * r.y - q.y * r.x ≠ 0 := hD.ne'
  have iff : ∀ o : Vec ℝ, Circumcenter o 0 q r ↔
      2 * (o.x * q.x + o.y * q.y) = q.x ^ 2 + q.y ^ 2 ∧ 2 * (o.x * r.x + o.y * r.y) = r.x ^ 2 + r.y ^ 2 := by
    intro o
    unfold Circumcenter distance2
    simp only [zero_x, zero_y]
    constructor
    · rintro ⟨h1, h2⟩
      exact ⟨by linear_combination h1, by linear_combination h2⟩
    · rintro ⟨h1, h2⟩
      exact ⟨by linear_combination h1, by linear_combination h2⟩
  simp only [iff]
  refine ⟨⟨((q.x ^ 2 + q.y ^ 2) * r.y - (r.x ^ 2 + r.y ^ 2) * q.y) / (2 * (q.x * r.y - q.y * r.x)),
    (q.x * (r.x ^ 2 + r.y ^ 2) - r.x * (q.x ^ 2 + q.y ^ 2)) / (2 * (q.x * r.y - q.y * r.x))⟩, ⟨?_, ?_⟩, ?_⟩
  · simp only
    field_simp
    ring
  · simp only
    field_simp
    ring
  · rintro o ⟨h1, h2⟩
    ext
    · simp only
      rw [eq_div_iff (by simpa using hD')]
      linear_combination r.y * h1 - q.y * h2
    · simp only
      rw [eq_div_iff (by simpa using hD')]
      linear_combination q.x * h2 - r.x * h1

/-- `delaunay(e)` does not depend on the side of the edge. -/
theorem delaunayAt_neg {dbg : Bool} {S : FlatTri T} (h : S.tri.Reachable dbg)
    (hS : IsFlat S) {e : HE} (he : S.tri.boundary e = false) (he' : S.tri.boundary (neg e) = false) :
    S.delaunayAt (neg e) = S.delaunayAt e := by
  have hF := IsFlat.flat h hS
  have q := hF.coh.quad (hF.flippable (boundary_false.1 he) (boundary_false.1 he'))
  rw [hF.delaunayAt_eq q, hF.delaunayAt_eq q.symm, incircle_symm]

example : flatEll.tri.boundary 12 = false ∧ flatEll.tri.boundary (neg 12) = false :=
  ⟨by decide, by decide⟩

/-- A torus with long edges. -/
def thin : FlatTri ℤ := ⟨torus, listed [⟨1, 0⟩, ⟨3, 1⟩, ⟨4, 1⟩]⟩

theorem thin_isFlat : IsFlat thin :=
  (isFlat_of_check (none : Option (Approx ℤ ℚ)) (torus_reachable true) fun e _ => listed_neg _ e).1 (by decide +kernel)

/-- An edge which is not Delaunay can be flipped and is Delaunay afterwards. -/
theorem flip_repairs (A : Option (Approx T K)) {dbg : Bool} {S : FlatTri T} (h : S.tri.Reachable dbg)
    (hS : IsFlat S) {e : HE} (he : S.tri.boundary e = false) (he' : S.tri.boundary (neg e) = false)
    (hd : S.delaunayAt e = .nonDelaunay) :
    ∃ S', S.flip A dbg e = (S', .ok ()) ∧ S'.delaunayAt e = .delaunay := by
  have hF := IsFlat.flat h hS
  have q := hF.coh.quad (hF.flippable (boundary_false.1 he) (boundary_false.1 he'))
  rw [hF.delaunayAt_eq q] at hd
  obtain ⟨g1, g2, g3, g4, g5, g6, g7, g8, g9⟩ := hF.quad q
  obtain ⟨e1, e2⟩ := perimeter g6 g7
  rw [e2] at hd g9
  have hpos : 0 < incircle (S.vec (S.tri.faces.fwd e)) (S.vec (S.tri.faces.fwd (S.tri.faces.fwd e)))
      (S.vec (S.tri.faces.fwd (neg e))) (-S.vec (S.tri.faces.fwd e) - S.vec (S.tri.faces.fwd (S.tri.faces.fwd e)) -
        S.vec (S.tri.faces.fwd (neg e))) := by
    split_ifs at hd with h1 h2
    exact lt_of_le_of_ne (not_lt.1 h1) (Ne.symm h2)
  obtain ⟨c1, c2⟩ := incircle_convex g8 g9 hpos
  rw [← e2] at c2
  obtain ⟨S', h1, h2, fl⟩ := hF.flip_flip A dbg q ((hF.convex_iff A q).2 ⟨c1, c2⟩)
  refine ⟨S', h1, ?_⟩
  have hF' := fl.flat hF q c1 c2
  have q' := fl.quad hF' q
  obtain ⟨⟨ea, eb, ee', ec, ed⟩, ⟨ab, ae', ac, ad⟩, ⟨be', bc, bd⟩, ⟨e'c, e'd⟩, cd⟩ := q.ne
  obtain ⟨v1, v2, v3⟩ := fl.vec_e
  rw [hF'.delaunayAt_eq q', if_pos]
  rw [v3 _ ea.symm ae', v3 _ eb.symm be', v3 _ ec.symm e'c.symm, v3 _ ed.symm e'd.symm, e2, incircle_flip]
  linarith

example : IsFlat thin ∧ thin.tri.boundary 4 = false ∧ thin.tri.boundary (neg 4) = false ∧
    thin.delaunayAt 4 = .nonDelaunay :=
  ⟨thin_isFlat, by decide, by decide, by decide⟩

/-- Some edge that is not Delaunay has been flipped. -/
def Repair (A : Option (Approx T K)) (dbg : Bool) (S S' : FlatTri T) : Prop :=
  ∃ e ∈ S.tri.edges, S.delaunayAt e = .nonDelaunay ∧ S.flip A dbg e = (S', .ok ())

theorem thin_closed : Closed true thin := ⟨torus_reachable true, thin_isFlat, by decide⟩

theorem _root_.Verif.Spec.Closed.nb {dbg : Bool} {S : FlatTri T} (h : Closed dbg S) {e : HE} (he : e ∈ S.tri.edges) :
    S.tri.boundary e = false ∧ S.tri.boundary (neg e) = false := by
  have hF := IsFlat.flat h.reachable h.flat
  have hbd := hasBoundary_false.1 h.closed
  have hlt : e < S.tri.size := by
    have := (mem_edges e).1 he
    omega
  exact ⟨boundary_false.2 (hbd e hlt), boundary_false.2 (hbd _ ((hF.coh.neg_lt e).2 hlt))⟩

theorem _root_.Verif.Spec.Closed.flip {A : Option (Approx T K)} {dbg : Bool} {S S' : FlatTri T} (h : Closed dbg S) {e : HE}
    (hf : S.flip A dbg e = (S', .ok ())) : Closed dbg S' ∧ S'.tri.edges = S.tri.edges := by
  obtain ⟨h1, h2, h3, h4, h5, h6⟩ := C17.flips_flat A h.reachable h.flat (S' := S') (es := [e]) (by
    unfold FlatTri.flips
    rw [hf]
    rfl)
  refine ⟨⟨h1, h2, ?_⟩, ?_⟩
  · have := h.closed
    unfold Tri.hasBoundary at this ⊢
    rw [h4]
    have hb : S'.tri.boundary = S.tri.boundary := funext h5
    rw [hb]
    exact this
  · have : S'.tri.size = S.tri.size := by
      have := congrArg List.length h4
      unfold Tri.halfEdges at this
      simpa using this
    unfold Tri.edges
    rw [this]

/-- Each repair lowers the energy. -/
theorem Repair.energy {A : Option (Approx T K)} {dbg : Bool} {S S' : FlatTri T} (h : Closed dbg S)
    (hr : Repair A dbg S S') : S'.energy < S.energy := by
  obtain ⟨e, he, hd, hf⟩ := hr
  have hF := IsFlat.flat h.reachable h.flat
  obtain ⟨-, a, b, c, d, q, fl, -⟩ := hF.flip_ok A dbg hf
  rw [hF.delaunayAt_eq q] at hd
  rw [fl.energy hF q]
  split_ifs at hd with h1 h2
  have := lt_of_le_of_ne (not_lt.1 h1) (Ne.symm h2)
  linarith

theorem repairs {A : Option (Approx T K)} {dbg : Bool} {S S' : FlatTri T} (h : Closed dbg S)
    (hr : ReflTransGen (Repair A dbg) S S') : Closed dbg S' ∧ S'.tri.edges = S.tri.edges ∧ S'.energy ≤ S.energy := by
  induction hr with
  | refl => exact ⟨h, rfl, le_refl _⟩
  | tail _ hr ih =>
    obtain ⟨i1, i2, i3⟩ := ih
    obtain ⟨e, he, hd, hf⟩ := id hr
    obtain ⟨j1, j2⟩ := i1.flip hf
    exact ⟨j1, j2.trans i2, (hr.energy i1).le.trans i3⟩

/-- Repairs never lead back to the same triangulation. -/
theorem never_revisits (A : Option (Approx T K)) {dbg : Bool} {S S' : FlatTri T} (h : Closed dbg S)
    (hr : TransGen (Repair A dbg) S S') : S' ≠ S := by
  obtain ⟨S₁, h1, h2⟩ := TransGen.head'_iff.1 hr
  rintro rfl
  have hc := (repairs h (ReflTransGen.single h1)).1
  have := (repairs hc h2).2.2
  exact absurd (h1.energy h) this.not_gt

/-- A torus from which the repairs can go on. -/
example : ∃ S₁ S₂, Repair (none : Option (Approx ℤ ℚ)) true thin S₁ ∧ Repair (none : Option (Approx ℤ ℚ)) true S₁ S₂ :=
  ⟨_, _, ⟨4, by decide, by decide, rfl⟩, ⟨2, by decide, by decide, rfl⟩⟩

/-- One iteration of the loop in `delaunay()`. -/
theorem pass (A : Option (Approx T K)) {dbg : Bool} {S : FlatTri T} (h : Closed dbg S) {es : List HE}
    (hes : ∀ e ∈ es, e ∈ S.tri.edges) :
    ∃ S' flipped, delaunayPass A dbg es S = .ok (S', flipped) ∧
      (flipped = [] → S' = S ∧ ∀ e ∈ es, S.delaunayAt e ≠ .nonDelaunay) ∧ (flipped ≠ [] → TransGen (Repair A dbg) S S') := by
  induction es generalizing S with
  | nil => exact ⟨S, [], rfl, fun _ => ⟨rfl, by simp⟩, fun hc => absurd rfl hc⟩
  | cons e es ih =>
    unfold delaunayPass
    have hee := hes e List.mem_cons_self
    by_cases hd : S.delaunayAt e = .nonDelaunay
    · obtain ⟨b1, b2⟩ := h.nb hee
      obtain ⟨S₁, h1, -⟩ := flip_repairs A h.reachable h.flat b1 b2 hd
      obtain ⟨c1, c2⟩ := h.flip h1
      obtain ⟨S', fl, g1, g2, g3⟩ := ih c1 (fun x hx => by rw [c2]; exact hes x (List.mem_cons_of_mem _ hx))
      refine ⟨S', e :: fl, ?_, fun hc => (List.cons_ne_nil _ _ hc).elim, fun _ => ?_⟩
      · rw [if_pos hd, h1]
        simp only
        rw [g1]
        rfl
      · have hr : Repair A dbg S S₁ := ⟨e, hee, hd, h1⟩
        by_cases hfl : fl = []
        · rw [(g2 hfl).1]
          exact TransGen.single hr
        · exact TransGen.head hr (g3 hfl)
    · obtain ⟨S', fl, g1, g2, g3⟩ := ih h fun x hx => hes x (List.mem_cons_of_mem _ hx)
      refine ⟨S', fl, ?_, fun hc => ⟨(g2 hc).1, ?_⟩, g3⟩
      · rw [if_neg hd]
        exact g1
      · intro x hx
        rcases List.mem_cons.1 hx with rfl | hx
        · exact hd
        · exact (g2 hc).2 x hx

/-- When `delaunay()` returns, it has flipped edges that were not Delaunay and no such edges are left. -/
theorem delaunay_correct (A : Option (Approx T K)) {dbg : Bool} {S : FlatTri T} (h : Closed dbg S) {fuel : ℕ}
    {r : Except Err (FlatTri T)} (hr : S.delaunay A dbg fuel = some r) :
    ∃ S', r = .ok S' ∧ ReflTransGen (Repair A dbg) S S' ∧ Closed dbg S' ∧ S'.area2 = S.area2 ∧
      ∀ e ∈ S'.tri.halfEdges, S'.delaunayAt e ≠ .nonDelaunay := by
  induction fuel generalizing S with
  | zero => cases hr
  | succ fuel ih =>
    unfold FlatTri.delaunay at hr
    obtain ⟨S', fl, g1, g2, g3⟩ := pass A h (es := S.tri.edges) fun e he => he
    rw [g1] at hr
    simp only at hr
    by_cases hfl : fl = []
    · rw [if_pos hfl] at hr
      injection hr with hr
      obtain ⟨rfl, hall⟩ := g2 hfl
      refine ⟨S', hr.symm, ReflTransGen.refl, h, rfl, fun e he => ?_⟩
      have hF := IsFlat.flat h.reachable h.flat
      have hlt := mem_halfEdges.1 he
      have hev : S'.tri.size % 2 = 0 := hF.coh.even
      by_cases hm : e % 2 = 0
      · exact hall e ((mem_edges e).2 ⟨hm, by omega⟩)
      · have hn : neg e = e - 1 := by rw [neg_def, if_neg hm]
        have hmem : neg e ∈ S'.tri.edges := by
          rw [mem_edges]
          omega
        obtain ⟨b1, b2⟩ := h.nb hmem
        have := hall _ hmem
        rw [← delaunayAt_neg h.reachable h.flat b1 b2, neg_neg'] at this
        exact this
    · rw [if_neg hfl] at hr
      have ht := g3 hfl
      obtain ⟨c1, c2, -⟩ := repairs h ht.to_reflTransGen
      obtain ⟨S'', i1, i2, i3, i4, i5⟩ := ih c1 hr
      refine ⟨S'', i1, ht.to_reflTransGen.trans i2, i3, i4.trans ?_, i5⟩
      clear i1 i2 i3 i4 i5 hr g1 g2 g3 c1 c2
      have : ∀ {S₂ : FlatTri T}, ReflTransGen (Repair A dbg) S S₂ → S₂.area2 = S.area2 := by
        intro S₂ h2
        induction h2 with
        | refl => rfl
        | tail hab hr ih' =>
          obtain ⟨c, -, -⟩ := repairs h hab
          obtain ⟨e, he, hd, hf⟩ := hr
          have hF := IsFlat.flat c.reachable c.flat
          obtain ⟨-, a, b, c', d, q, fl, p1, p2⟩ := hF.flip_ok A dbg hf
          exact (fl.area2 hF (fl.flat hF q p1 p2) q).trans ih'
      exact this ht.to_reflTransGen


/-- For the thin torus, the square torus is found. -/
example : ∃ S', thin.delaunay (none : Option (Approx ℤ ℚ)) true 10 = some (.ok S') ∧
    (List.range 6).map S'.vec = [⟨1, 0⟩, ⟨-1, 0⟩, ⟨1, 1⟩, ⟨-1, -1⟩, ⟨0, 1⟩, ⟨0, -1⟩] :=
  ⟨_, rfl, by decide⟩

/-! ### Termination -/

/-- The vectors of the surface are in a lattice, as is always the case for integer and rational coordinates. -/
def InLattice (c : T) (S : FlatTri T) : Prop :=
  ∀ e < S.tri.size, ∃ m n : ℤ, c * (S.vec e).x = m ∧ c * (S.vec e).y = n

theorem InLattice.repair {A : Option (Approx T K)} {dbg : Bool} {c : T} {S S' : FlatTri T} (h : Closed dbg S)
    (hc : InLattice c S) (hr : Repair A dbg S S') : InLattice c S' := by
  obtain ⟨e, he, hd, hf⟩ := hr
  have hF := IsFlat.flat h.reachable h.flat
  obtain ⟨-, a, b, c', d, q, fl, p1, p2⟩ := hF.flip_ok A dbg hf
  obtain ⟨v1, v2, v3⟩ := fl.vec_e
  have hsize : S'.tri.size = S.tri.size := fl.tri.vsize
  have hbc : ∃ m n : ℤ, c * (S.vec b + S.vec c').x = m ∧ c * (S.vec b + S.vec c').y = n := by
    have hb : b < S.tri.size := q.lt.2.2.1
    have hc' : c' < S.tri.size := q.lt.2.2.2.1
    obtain ⟨m, n, hm, hn⟩ := hc b hb
    obtain ⟨m', n', hm', hn'⟩ := hc c' hc'
    refine ⟨m + m', n + n', ?_, ?_⟩
    · rw [add_x, mul_add, hm, hm']; push_cast; rfl
    · rw [add_y, mul_add, hn, hn']; push_cast; rfl
  intro x hx
  by_cases hxe : x = e
  · rw [hxe, v1]
    obtain ⟨m, n, hm, hn⟩ := hbc
    refine ⟨-m, -n, ?_, ?_⟩
    · rw [neg_x, mul_neg, hm]; push_cast; rfl
    · rw [neg_y, mul_neg, hn]; push_cast; rfl
  · by_cases hxe' : x = neg e
    · rw [hxe', v2]
      exact hbc
    · rw [v3 x hxe hxe']
      exact hc x (hsize ▸ hx)

omit [IsStrictOrderedRing T] in
theorem InLattice.energy {c : T} {S : FlatTri T} (h : S.Flat) (hc : InLattice c S) : ∃ n : ℤ, c ^ 4 * S.energy = n := by
  have : ∀ e ∈ Finset.range S.tri.size, ∃ n : ℤ, c ^ 4 * S.faceEnergy e = n := by
    intro e he
    have he := Finset.mem_range.1 he
    have hlt : ∀ {x}, x < S.tri.size → S.tri.faces.fwd x < S.tri.size := fun {x} hx => by
      have h1 : x < S.tri.faces.size := by rw [h.coh.hs]; exact hx
      have h2 := h.coh.hf.fwd_lt.2 h1
      rwa [h.coh.hs] at h2
    obtain ⟨m1, n1, hm1, hn1⟩ := hc _ he
    obtain ⟨m2, n2, hm2, hn2⟩ := hc _ (hlt he)
    obtain ⟨m3, n3, hm3, hn3⟩ := hc _ (hlt (hlt he))
    unfold faceEnergy
    split_ifs
    · exact ⟨0, by simp⟩
    · refine ⟨(m1 * n2 - n1 * m2) * (m1 * m1 + n1 * n1 + (m2 * m2 + n2 * n2) + (m3 * m3 + n3 * n3)), ?_⟩
      push_cast
      rw [← hm1, ← hn1, ← hm2, ← hn2, ← hm3, ← hn3]
      unfold cross dot
      ring
  choose! g hg using this
  refine ⟨∑ e ∈ Finset.range S.tri.size, g e, ?_⟩
  unfold FlatTri.energy
  rw [Finset.mul_sum, Int.cast_sum]
  exact Finset.sum_congr rfl hg

/-- `delaunay()` terminates when the vectors are in a lattice. -/
theorem delaunay_terminates (A : Option (Approx T K)) {dbg : Bool} {S : FlatTri T} (h : Closed dbg S) {c : T}
    (hc : 0 < c) (hl : InLattice c S) :
    ∃ S' N, ∀ fuel ≥ N, S.delaunay A dbg fuel = some (.ok S') := by
  obtain ⟨n, hn⟩ := hl.energy (IsFlat.flat h.reachable h.flat)
  generalize hk : n.toNat = k
  induction k using Nat.strong_induction_on generalizing S n with
  | _ k ih =>
    obtain ⟨S₁, fl, g1, g2, g3⟩ := pass A h (es := S.tri.edges) fun e he => he
    by_cases hfl : fl = []
    · refine ⟨S₁, 1, fun fuel hf => ?_⟩
      obtain ⟨m, rfl⟩ := Nat.exists_eq_add_of_le' hf
      unfold FlatTri.delaunay
      rw [g1]
      simp only
      rw [if_pos hfl]
    · have ht := g3 hfl
      have hl₁ : InLattice c S₁ ∧ Closed dbg S₁ ∧ S₁.energy < S.energy := by
        clear ih g1 g2 g3 hfl hn hk
        induction ht with
        | single hr => exact ⟨hl.repair h hr, (repairs h (ReflTransGen.single hr)).1, hr.energy h⟩
        | tail _ hr ih =>
          obtain ⟨i1, i2, i3⟩ := ih
          exact ⟨i1.repair i2 hr, (repairs i2 (ReflTransGen.single hr)).1, (hr.energy i2).trans i3⟩
      obtain ⟨l1, l2, l3⟩ := hl₁
      have hF₁ := IsFlat.flat l2.reachable l2.flat
      obtain ⟨n₁, hn₁⟩ := l1.energy hF₁
      have c4 : 0 < c ^ 4 := pow_pos hc 4
      have hlt : n₁ < n := by
        have := mul_lt_mul_of_pos_left l3 c4
        rw [hn, hn₁] at this
        exact_mod_cast this
      have hnn : 0 ≤ n₁ := by
        have := mul_nonneg c4.le hF₁.energy_nonneg
        rw [hn₁] at this
        exact_mod_cast this
      obtain ⟨S', N, hN⟩ := ih n₁.toNat (by omega) l2 l1 n₁ hn₁ rfl
      refine ⟨S', N + 1, fun fuel hf => ?_⟩
      obtain ⟨m, rfl⟩ := Nat.exists_eq_add_of_le' (show 1 ≤ fuel by omega)
      unfold FlatTri.delaunay
      rw [g1]
      simp only
      rw [if_neg hfl]
      exact hN m (by omega)

theorem thin_inLattice : InLattice 1 thin := fun e _ => ⟨(thin.vec e).x, (thin.vec e).y, by simp, by simp⟩

example : ∃ S' N, ∀ fuel ≥ N, thin.delaunay (none : Option (Approx ℤ ℚ)) true fuel = some (.ok S') :=
  delaunay_terminates _ thin_closed one_pos thin_inLattice

end Verif.C19
