import Verif.Lemmas.ContourTree
import Verif.Lemmas.VerticalComponents
import Verif.Lemmas.Point
import Verif.Lemmas.Path
import Verif.Spec.Contour

/-!
# Contours
-/

set_option linter.unusedSectionVars false

namespace Verif.Contour

open Spec Tri FlatTri Vec Vertical Flow

variable {T : Type} [CommRing T] [LinearOrder T] [IsStrictOrderedRing T]
variable {K : Type*} [Field K] [LinearOrder K] [IsStrictOrderedRing K]

/-- The horizontal component of a half edge. -/
abbrev perp (S : FlatTri T) (v : Vec T) (e : HE) : T := cross (S.vec e) v

/-- There are no vertical half edges, the faces are triangles or have been collapsed to an edge. -/
abbrev Transverse (S : FlatTri T) (v : Vec T) : Prop :=
  Flow.OK S.tri.size S.tri.nextInFace S.tri.previousInFace (perp S v)

theorem perp_neg (S : FlatTri T) (v : Vec T) : perp S (-v) = fun e => -perp S v e := by
  funext e
  exact cross_neg_right _ _

theorem Transverse.reverse {S : FlatTri T} {v : Vec T} (h : Transverse S v) : Transverse S (-v) := by
  unfold Transverse
  rw [perp_neg]
  exact OK.reverse h

theorem transverse {S : FlatTri T} (h : S.Shut) {v : Vec T} (hv : NoVertical S v) : Transverse S v where
  neg_lt e he := h.neg_lt he
  nx_lt e he := h.next_lt he
  pv_lt e he := prev_lt h.flat he
  nx_pv e he := by rw [prev_eq h.flat, next3 h.flat]
  pv_nx e he := by rw [prev_eq h.flat, next3 h.flat]
  odd e he := by
    show cross _ _ = -cross _ _
    rw [h.flat.odd e he, cross_neg_l]
  ne e he := hv e (mem_halfEdges.2 he)
  face e he := by
    right
    rw [prev_eq h.flat]
    refine ⟨rfl, ?_⟩
    have hc := congrArg (cross · v) (h.flat.closed e (h.nb e he))
    simp only [cross_add_left] at hc
    have h0 : cross (0 : Vec T) v = 0 := by unfold cross; simp
    rw [h0] at hc
    exact hc

/-- What we need to know about a surface to build contours. -/
structure Ready (S : FlatTri T) (v : Vec T) : Prop where
  tame : Tame S
  ok : Transverse S v

theorem ready {S : FlatTri T} (h : S.Shut) {v : Vec T} (hv : NoVertical S v) : Ready S v := ⟨h.flat.tame, transverse h hv⟩

theorem ccw_clockwise (A : Option (Approx T K)) {v w : Vec T} (h : 0 < cross w v) : Vec.ccw A v w = .clockwise := by
  rw [ccw_eq, ccwExact_clockwise]
  have : cross v w = -cross w v := by unfold cross; ring
  linarith

theorem classify_up {S : FlatTri T} {v : Vec T} (h : Transverse S v) (dbg : Bool) {e : HE} (he : e < S.tri.size)
    (hp : 0 < perp S v e) (n : ℕ) :
    (Up S.tri.nextInFace S.tri.previousInFace (perp S v) e → classifyFace S dbg v (n + 1) e = some (.ok .backward)) ∧
    (¬ Up S.tri.nextInFace S.tri.previousInFace (perp S v) e → classifyFace S dbg v (n + 1) e = some (.ok .forward) ∨
      classifyFace S dbg v (n + 1) e = some (.ok .collapsedToTwoFaces)) := by
  have hn := h.ne _ (h.nx_lt e he)
  have hb := h.ne _ (h.pv_lt e he)
  rw [classifyFace]
  simp only [projectPerpendicular_eq]
  by_cases hx : S.tri.nextInFace e = S.tri.previousInFace e
  · rw [if_pos hx, if_neg]
    · exact ⟨fun hu => absurd hx hu.2.1, fun _ => .inr rfl⟩
    · rintro ⟨-, h1⟩
      apply h1
      have h2 := h.odd e he
      rw [(h.flat_iff he).1 hx]
      linarith
  · have f := h.tri he fun hi => hx ((h.flat_iff he).2 hi)
    rw [if_neg hx, if_neg (by rw [not_and_or]; exact .inr (not_not.2 f.2)), if_neg hp.ne', if_neg hp.not_gt, if_neg hn, if_neg hb]
    by_cases h1 : cross (S.vec (S.tri.nextInFace e)) v > 0
    · rw [if_pos h1]
      exact ⟨fun hu => absurd h1 (not_lt.2 hu.2.2.1.le), fun _ => .inl rfl⟩
    rw [if_neg h1]
    by_cases h2 : cross (S.vec (S.tri.previousInFace e)) v > 0
    · rw [if_pos h2]
      exact ⟨fun hu => absurd h2 (not_lt.2 hu.2.2.2.le), fun _ => .inl rfl⟩
    rw [if_neg h2]
    exact ⟨fun _ => rfl, fun hu => absurd ⟨hp, hx, lt_of_le_of_ne (not_lt.1 h1) hn, lt_of_le_of_ne (not_lt.1 h2) hb⟩ hu⟩

/-- `makeContour` returns what is above. -/
theorem makeContour_tree {S : FlatTri T} {v : Vec T} (h : Transverse S v) (A : Option (Approx T K)) (dbg : Bool) {e : HE}
    {m l : List HE} (ht : Tree S.tri.nextInFace S.tri.previousInFace (perp S v) e m l) (he : e < S.tri.size)
    (hp : 0 < perp S v e) : ∃ N, ∀ n ≥ N, makeContour S A dbg v n e = some (.ok l) := by
  induction ht with
  | @leaf e hu =>
    refine ⟨1, fun n hn => ?_⟩
    obtain ⟨n, rfl⟩ := Nat.exists_eq_succ_of_ne_zero (n := n) (by omega)
    rw [makeContour, ccw_clockwise A hp, if_neg (by simp), if_neg (by simp)]
    rcases (classify_up h dbg he hp n).2 hu with h1 | h1 <;> rw [h1]
  | @node e m m' l l' hu _ _ ih ih' =>
    have c1 : Child (n := S.tri.size) S.tri.nextInFace S.tri.previousInFace (perp S v) e (neg (S.tri.previousInFace e)) :=
      ⟨he, hu, .inl rfl⟩
    have c2 : Child (n := S.tri.size) S.tri.nextInFace S.tri.previousInFace (perp S v) e (neg (S.tri.nextInFace e)) :=
      ⟨he, hu, .inr rfl⟩
    obtain ⟨N, i1⟩ := ih (h.child_lt c1) (h.child_pos c1)
    obtain ⟨N', i2⟩ := ih' (h.child_lt c2) (h.child_pos c2)
    refine ⟨max N N' + 1, fun n hn => ?_⟩
    obtain ⟨n, rfl⟩ := Nat.exists_eq_succ_of_ne_zero (n := n) (by omega)
    rw [makeContour, ccw_clockwise A hp, if_neg (by simp), if_neg (by simp),
      (classify_up h dbg he hp n).1 hu]
    simp only
    rw [i1 n (by omega)]
    simp only
    rw [i2 n (by omega)]

/-! ### Vertices -/

theorem source_orb {S : FlatTri T} (h : S.Flat) {x y : HE} (hxy : S.tri.vertices.Orb x y) : S.tri.source x = S.tri.source y := by
  unfold Tri.source
  refine List.find?_congr fun w hw => ?_
  obtain ⟨z, -, hz⟩ := h.ver.orbit w hw
  rw [decide_eq_decide, hz, hz]
  exact ⟨fun hx => hx.trans hxy, fun hy => hy.trans (hxy.symm h.coh.hv)⟩

/-- The next half edge in a face starts where the half edge ends. -/
theorem source_next {S : FlatTri T} (h : S.Shut) {e : HE} (he : e < S.tri.size) :
    S.tri.source (neg e) = S.tri.source (S.tri.nextInFace e) := by
  have := h.orb_across (h.neg_lt he)
  rw [neg_neg'] at this
  exact (source_orb h.flat this).symm

theorem source_prev {S : FlatTri T} (h : S.Shut) {e : HE} (he : e < S.tri.size) :
    S.tri.source (neg (S.tri.previousInFace e)) = S.tri.source e := by
  rw [source_next h (prev_lt h.flat he), prev_eq h.flat, next3 h.flat]

theorem chained_ok {S : FlatTri T} (h : S.tri.VertexesOk) {l : List HE} (hl : ∀ x ∈ l, x < S.tri.size)
    (hc : l.IsChain fun a b => S.tri.source (neg a) = S.tri.source b) : chained S l = .ok true := by
  induction l with
  | nil => rfl
  | cons a l ih =>
    cases l with
    | nil => rfl
    | cons b l =>
      rw [List.isChain_cons_cons] at hc
      have hb : ∃ w, S.tri.source b = some w := by
        obtain ⟨w, hw, hb⟩ := h.cover b (hl b (by simp))
        cases hs : S.tri.source b with
        | some w => exact ⟨w, rfl⟩
        | none => exact absurd hb (by simpa using List.find?_eq_none.1 hs w hw)
      obtain ⟨w, hb⟩ := hb
      have := ih (fun x hx => hl x (by simp [hx])) hc.2
      rw [chained, hc.1, hb]
      simp only
      rw [if_pos (by unfold FlatTri.sameVertex; simp), this]

/-! ### Contours run from left to right -/

theorem tree_vec {S : FlatTri T} (h : S.Shut) {e : HE} (he : e < S.tri.size) :
    S.vec (neg (S.tri.previousInFace e)) + S.vec (neg (S.tri.nextInFace e)) = S.vec e := by
  rw [h.flat.odd (S.tri.nextInFace e) (h.next_lt he), h.flat.odd _ (prev_lt h.flat he), prev_eq h.flat]
  have := h.flat.closed e (h.nb e he)
  unfold Tri.nextInFace
  rw [← neg_add, neg_eq_iff_eq_neg, eq_neg_iff_add_eq_zero, ← this]
  abel

theorem tree_runs {S : FlatTri T} (h : S.Shut) {v : Vec T} {e : HE} {m l : List HE}
    (ht : Tree S.tri.nextInFace S.tri.previousInFace (perp S v) e m l) (he : e < S.tri.size) : RunsAlong S e l := by
  induction ht with
  | @leaf e _ => exact ⟨⟨e, rfl, rfl⟩, ⟨e, rfl, rfl⟩, .singleton e, by simp⟩
  | @node e m m' l l' hu _ _ ih ih' =>
    have l1 := h.neg_lt (prev_lt h.flat he)
    have l2 := h.neg_lt (h.next_lt he)
    obtain ⟨⟨a, a1, a2⟩, ⟨b, b1, b2⟩, c1, c2⟩ := ih l1
    obtain ⟨⟨a', a1', a2'⟩, ⟨b', b1', b2'⟩, c1', c2'⟩ := ih' l2
    refine ⟨⟨a, ?_, ?_⟩, ⟨b', ?_, ?_⟩, ?_, ?_⟩
    · rw [List.head?_append, a1]; rfl
    · rw [a2, source_prev h he]
    · rw [List.getLast?_append, b1']; rfl
    · rw [b2', neg_neg', source_next h he]
    · rw [List.isChain_append]
      refine ⟨c1, c1', ?_⟩
      intro x hx y hy
      rw [b1] at hx
      rw [a1'] at hy
      cases hx
      cases hy
      rw [b2, a2', neg_neg']
      have := source_next h (h.next_lt he)
      rw [prev_eq h.flat]
      exact this.symm
    · rw [List.map_append, List.sum_append, c2, c2', tree_vec h he]

theorem RunsAlong.reverse {S : FlatTri T} (h : S.Shut) {e : HE} (he : e < S.tri.size) {l : List HE}
    (hl : ∀ x ∈ l, x < S.tri.size) (hr : RunsAlong S e l) : RunsAlong S (neg e) (l.map neg).reverse := by
  obtain ⟨⟨a, a1, a2⟩, ⟨b, b1, b2⟩, c1, c2⟩ := hr
  refine ⟨⟨neg b, ?_, b2⟩, ⟨neg a, ?_, ?_⟩, ?_, ?_⟩
  · rw [List.head?_reverse, List.getLast?_map, b1]; rfl
  · rw [List.getLast?_reverse, List.head?_map, a1]; rfl
  · rw [neg_neg', neg_neg', a2]
  · rw [List.isChain_reverse, List.isChain_map]
    refine c1.imp fun x y hxy => ?_
    show S.tri.source (neg (neg y)) = S.tri.source (neg x)
    rw [neg_neg', hxy]
  · rw [List.map_reverse, List.sum_reverse, List.map_map, h.flat.odd e he, ← c2]
    clear a1 b1 c1 c2
    induction l with
    | nil => simp
    | cons x l ih =>
      simp only [List.map_cons, List.sum_cons, Function.comp]
      rw [ih fun y hy => hl y (by simp [hy]), h.flat.odd x (hl x (by simp))]
      abel

/-! ### Areas -/

theorem tree_area {S : FlatTri T} (h : S.Shut) {v : Vec T} {e : HE} {m l : List HE}
    (ht : Tree S.tri.nextInFace S.tri.previousInFace (perp S v) e m l) (he : e < S.tri.size) :
    shoelace 0 (l.map S.vec) = -(m.map S.faceArea).sum := by
  induction ht with
  | @leaf e _ =>
    simp [shoelace, cross]
  | @node e m m' l l' hu ht ht' ih ih' =>
    have l0 := prev_lt h.flat he
    have l1 := h.neg_lt l0
    have l2 := h.neg_lt (h.next_lt he)
    have r1 := (tree_runs h ht l1).sum
    have r2 := (tree_runs h ht' l2).sum
    have f1 := h.flat.faceArea_fwd e
    have nb := h.nb _ (h.next_lt he)
    unfold faceArea at f1
    rw [if_neg (h.nb e he), if_neg nb] at f1
    rw [List.map_append, shoelace_append, ih l1, r1, zero_add,
      show S.vec (neg (S.tri.previousInFace e)) = S.vec (neg (S.tri.previousInFace e)) + 0 by simp, shoelace_shift, ih' l2, r2,
      List.map_cons, List.sum_cons, List.map_append, List.sum_append, h.flat.odd (S.tri.nextInFace e) (h.next_lt he), h.flat.odd _ l0,
      prev_eq h.flat]
    have key : S.faceArea e = cross (S.vec (S.tri.nextInFace e)) (S.vec (S.tri.nextInFace (S.tri.nextInFace e))) := by
      unfold faceArea Tri.nextInFace
      rw [if_neg (h.nb e he), f1]
    rw [key]
    unfold cross
    simp only [neg_x, neg_y]
    show _ + (_ + (-(S.vec (S.tri.nextInFace (S.tri.nextInFace e))).x * -(S.vec (S.tri.nextInFace e)).y -
      -(S.vec (S.tri.nextInFace (S.tri.nextInFace e))).y * -(S.vec (S.tri.nextInFace e)).x)) = _
    ring

/-! ### Large half edges -/

theorem length_eq (S : FlatTri T) (v : Vec T) (e : HE) : length S v e = horizontalLength S v e := by
  unfold length horizontalLength
  simp only [projectPerpendicular_eq]
  split_ifs with h1
  · exact (abs_of_pos h1).symm
  · exact (abs_of_nonpos (not_lt.1 h1)).symm

theorem Ready.length_neg {S : FlatTri T} {v : Vec T} (h : Ready S v) {e : HE} (he : e < S.tri.size) :
    horizontalLength S v (neg e) = horizontalLength S v e := by
  have := h.ok.odd e he
  unfold horizontalLength
  rw [show cross (S.vec (neg e)) v = -cross (S.vec e) v from this, abs_neg]

theorem Ready.isLarge_iff {S : FlatTri T} {v : Vec T} (h : Ready S v) {e : HE} (he : e < S.tri.size) : IsLarge S v e ↔
    horizontalLength S v (S.tri.nextInFace e) ≤ horizontalLength S v e ∧
    horizontalLength S v (S.tri.previousInFace e) ≤ horizontalLength S v e ∧
    horizontalLength S v (S.tri.nextInFace (neg e)) ≤ horizontalLength S v e ∧
    horizontalLength S v (S.tri.previousInFace (neg e)) ≤ horizontalLength S v e := by
  have hn := h.length_neg he
  unfold IsLarge SideOf
  constructor
  · intro hx
    refine ⟨hx _ (by tauto), hx _ ?_, hx _ (by tauto), hx _ ?_⟩
    · have := h.tame.side e
      tauto
    · have := h.tame.side (neg e)
      tauto
  · rintro ⟨h1, h2, h3, h4⟩ x hx
    rcases hx with (rfl | rfl | rfl) | (rfl | rfl | rfl)
    · exact le_refl _
    · exact h1
    · rcases h.tame.side' e with k | k <;> rw [k]
      exact h2
    · exact hn.le
    · exact h3
    · rcases h.tame.side' (neg e) with k | k <;> rw [k]
      · exact hn.le
      · exact h4

theorem Ready.isLarge_neg {S : FlatTri T} {v : Vec T} (h : Ready S v) {e : HE} (he : e < S.tri.size) :
    IsLarge S v (neg e) ↔ IsLarge S v e := by
  rw [h.isLarge_iff he, h.isLarge_iff (h.ok.neg_lt e he), neg_neg', h.length_neg he]
  tauto

theorem Ready.large_iff {S : FlatTri T} {v : Vec T} (h : Ready S v) {e : HE} (he : e < S.tri.size) :
    large S v e = true ↔ IsLarge S v e := by
  rw [h.isLarge_iff he]
  unfold large
  simp only [length_eq, ge_iff_le, Bool.and_eq_true, decide_eq_true_eq]
  tauto

theorem large_iff {S : FlatTri T} (h : S.Flat) {v : Vec T} {e : HE} (he : e < S.tri.size) :
    large S v e = true ↔ IsLarge S v e := by
  rw [isLarge_iff h he]
  unfold large
  simp only [length_eq, ge_iff_le, Bool.and_eq_true, decide_eq_true_eq]
  tauto

theorem Ready.flow_large_iff {S : FlatTri T} {v : Vec T} (h : Ready S v) {e : HE} (he : e < S.tri.size)
    (hp : 0 < perp S v e) : Large S.tri.nextInFace S.tri.previousInFace (perp S v) e ↔ IsLarge S v e := by
  rw [h.isLarge_iff he, h.ok.large_iff he hp]
  rfl

/-- A union of components. -/
structure Part (S : FlatTri T) (c : List HE) : Prop where
  lt : ∀ x ∈ c, x < S.tri.size
  neg : ∀ x ∈ c, neg x ∈ c
  nx : ∀ x ∈ c, S.tri.nextInFace x ∈ c
  pv : ∀ x ∈ c, S.tri.previousInFace x ∈ c
  ne : c ≠ []
  nodup : c.Nodup

theorem Components.part {S : FlatTri T} {v : Vec T} (h : Ready S v) {cs : List (List HE)}
    (hc : Components S v cs) {c : List HE} (hm : c ∈ cs) : Part S c := by
  obtain ⟨nd, s, s1, s2, s3⟩ := hc.comp c hm
  have lt : ∀ x ∈ c, x < S.tri.size := by
    intro x hx
    have := (s3 x).1 hx
    clear hx
    induction this with
    | refl => exact s2
    | across _ _ ih => exact h.ok.neg_lt _ ih
    | face _ _ hs ih =>
      rcases hs with rfl | rfl | rfl
      · exact ih
      · exact h.ok.nx_lt _ ih
      · exact h.ok.nx_lt _ (h.ok.nx_lt _ ih)
  have nv : ∀ x ∈ c, cross (S.vec x) v ≠ 0 := fun x hx => h.ok.ne x (lt x hx)
  refine ⟨lt, fun x hx => ?_, fun x hx => ?_, fun x hx => ?_, List.ne_nil_of_mem s1, nd⟩
  · exact (s3 _).2 (.across ((s3 x).1 hx) (nv x hx))
  · exact (s3 _).2 (.face ((s3 x).1 hx) (nv x hx) (.inr (.inl rfl)))
  · exact (s3 _).2 (.face ((s3 x).1 hx) (nv x hx) (.inr (h.tame.side x)))

theorem Part.exists_large {S : FlatTri T} (v : Vec T) {c : List HE} (hc : Part S c) :
    ∃ x ∈ c, IsLarge S v x := by
  obtain ⟨x, hx, hm⟩ := Finset.exists_max_image c.toFinset (horizontalLength S v) (by
    obtain ⟨x, hx⟩ := List.exists_mem_of_ne_nil c hc.ne
    exact ⟨x, List.mem_toFinset.2 hx⟩)
  rw [List.mem_toFinset] at hx
  refine ⟨x, hx, fun y hy => hm y (List.mem_toFinset.2 ?_)⟩
  rcases hy with (rfl | rfl | rfl) | (rfl | rfl | rfl)
  · exact hx
  · exact hc.nx _ hx
  · exact hc.nx _ (hc.nx _ hx)
  · exact hc.neg _ hx
  · exact hc.nx _ (hc.neg _ hx)
  · exact hc.nx _ (hc.nx _ (hc.neg _ hx))

/-! ### Components -/

/-- In a set of half edges, there is at most one large edge. -/
def UniqueLarge (S : FlatTri T) (v : Vec T) (c : List HE) : Prop :=
  ∀ x ∈ c, ∀ y ∈ c, IsLarge S v x → IsLarge S v y → y = x ∨ y = neg x

theorem uniqueLarge {S : FlatTri T} {v : Vec T} (h : Ready S v) (hu : UniqueLargeEdges S v)
    {cs : List (List HE)} (hc : Components S v cs) {c : List HE} (hm : c ∈ cs) : UniqueLarge S v c := by
  have hp := Components.part h hc hm
  obtain ⟨-, s, s1, -, s3⟩ := hc.comp c hm
  intro x hx y hy
  refine hu x (mem_halfEdges.2 (hp.lt x hx)) y (mem_halfEdges.2 (hp.lt y hy)) ?_
  rw [joined_iff h.tame]
  refine (reach_symm h.tame ((joined_iff h.tame).1 ((s3 x).1 hx)) ?_).trans ((joined_iff h.tame).1 ((s3 y).1 hy))
  exact h.ok.ne x (hp.lt x hx)

/-- What a component is made from. -/
structure Built (S : FlatTri T) (v : Vec T) (d : Component) (mu lu md ld : List HE) : Prop where
  part : Part S d.halfEdges
  mem : d.large ∈ d.halfEdges
  large : IsLarge S v d.large
  pos : 0 < perp S v d.large
  up : Tree S.tri.nextInFace S.tri.previousInFace (perp S v) d.large mu lu
  down : Tree S.tri.nextInFace S.tri.previousInFace (perp S (-v)) (Verif.neg d.large) md ld
  top : d.topEdges = (lu.map Verif.neg).reverse
  bottom : d.bottomEdges = (ld.map Verif.neg).reverse

theorem ccw_counterclockwise (A : Option (Approx T K)) {v w : Vec T} (h : cross w v < 0) : Vec.ccw A v w = .counterclockwise := by
  rw [ccw_eq, ccwExact_ccw]
  have : cross v w = -cross w v := by unfold cross; ring
  linarith

theorem makeComponent_built {S : FlatTri T} {v : Vec T} (h : Ready S v) (A : Option (Approx T K)) (dbg : Bool)
    {c : List HE} (hc : Part S c) : ∃ d mu lu md ld, d.halfEdges = c ∧ Built S v d mu lu md ld ∧
      ∃ N, ∀ n ≥ N, makeComponent S A dbg v n c = some (.ok d) := by
  have ht := h.ok
  obtain ⟨x, hx, hl⟩ := hc.exists_large v
  cases hf : c.find? (large S v) with
  | none => exact absurd ((h.large_iff (hc.lt x hx)).2 hl) (by simpa using List.find?_eq_none.1 hf x hx)
  | some l =>
    have l1 := List.mem_of_find?_eq_some hf
    have l2 := (h.large_iff (hc.lt l l1)).1 (List.find?_some hf)
    obtain ⟨e, he⟩ : ∃ e, e = if Vec.ccw A v (S.vec l) = .counterclockwise then neg l else l := ⟨_, rfl⟩
    have key : e ∈ c ∧ IsLarge S v e ∧ 0 < perp S v e := by
      rcases lt_or_gt_of_ne (ht.ne l (hc.lt l l1)) with h1 | h1
      · rw [ccw_counterclockwise A h1, if_pos rfl] at he
        rw [he]
        exact ⟨hc.neg l l1, (h.isLarge_neg (hc.lt l l1)).2 l2, (ht.pos_neg (hc.lt l l1)).2 h1⟩
      · rw [ccw_clockwise A h1, if_neg (by simp)] at he
        rw [he]
        exact ⟨l1, l2, h1⟩
    obtain ⟨k1, k2, k3⟩ := key
    have k4 := hc.lt e k1
    have ht' := ht.reverse
    have k5 := ht.neg_lt _ k4
    have k6 : 0 < perp S (-v) (neg e) := by
      rw [perp_neg]
      simp only
      rw [ht.odd e k4]
      linarith
    obtain ⟨mu, lu, hu⟩ := ht.exists_tree e k4 k3
    obtain ⟨md, ld, hd⟩ := OK.exists_tree ht' (neg e) k5 k6
    obtain ⟨N, hN⟩ := makeContour_tree ht A dbg hu k4 k3
    obtain ⟨N', hN'⟩ := makeContour_tree ht' A dbg hd k5 k6
    refine ⟨⟨c, e, (lu.map neg).reverse, (ld.map neg).reverse⟩, mu, lu, md, ld, rfl, ⟨hc, k1, k2, k3, hu, hd, rfl, rfl⟩,
      max N N', fun n hn => ?_⟩
    unfold makeComponent
    rw [hf]
    simp only
    rw [← he, ccw_clockwise A k3, if_neg (by simp), hN n (by omega)]
    simp only
    rw [hN' n (by omega)]

theorem makeComponents_built {S : FlatTri T} {v : Vec T} (h : Ready S v) (A : Option (Approx T K)) (dbg : Bool)
    {cs : List (List HE)} (hc : ∀ c ∈ cs, Part S c) : ∃ ds : List Component, ds.map Component.halfEdges = cs ∧
      (∀ d ∈ ds, ∃ mu lu md ld, Built S v d mu lu md ld) ∧
      ∃ N, ∀ n ≥ N, makeComponents S A dbg v n cs = some (.ok ds) := by
  induction cs with
  | nil => exact ⟨[], rfl, by simp, 0, fun _ _ => rfl⟩
  | cons c cs ih =>
    obtain ⟨d, mu, lu, md, ld, d1, d2, N, d3⟩ := makeComponent_built h A dbg (hc c (by simp))
    obtain ⟨ds, i1, i2, N', i3⟩ := ih fun c hx => hc c (by simp [hx])
    refine ⟨d :: ds, by simp [d1, i1], ?_, max N N', fun n hn => ?_⟩
    · intro x hx
      rcases List.mem_cons.1 hx with rfl | hx
      · exact ⟨mu, lu, md, ld, d2⟩
      · exact i2 x hx
    · rw [makeComponents, d3 n (by omega)]
      simp only
      rw [i3 n (by omega)]

theorem decompose_built {S : FlatTri T} {v : Vec T} (h : Ready S v) (A : Option (Approx T K)) (dbg : Bool) :
    ∃ (ds : List Component) (cs : List (List HE)), ds.map Component.halfEdges = cs ∧ Components S v cs ∧
      (∀ x < S.tri.size, ∃ c ∈ cs, x ∈ c) ∧ (∀ d ∈ ds, ∃ mu lu md ld, Built S v d mu lu md ld) ∧
      ∃ N, ∀ n ≥ N, components S A v n = some cs ∧ decompose S A dbg v n = some (.ok ds) := by
  obtain ⟨cs, c1, c2, c3⟩ := components_components h.tame A v (n := S.tri.size + 1) (by omega)
  obtain ⟨ds, d1, d2, N, d3⟩ := makeComponents_built h A dbg (cs := cs) fun c hc => Components.part h c2 hc
  refine ⟨ds, cs, d1, c2, c3, d2, max N (S.tri.size + 1), fun n hn => ?_⟩
  have := loop_mono (show S.tri.size + 1 ≤ n by omega) c1
  unfold decompose
  change components S A v n = some cs at this
  rw [this]
  exact ⟨rfl, d3 n (by omega)⟩

end Verif.Contour
