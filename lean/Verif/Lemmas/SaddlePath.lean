import Verif.Model.SaddlePath
import Verif.Spec.SaddlePath
import Verif.Lemmas.SaddleSector

set_option linter.unusedSectionVars false

/-!
# Following a direction with the search for saddle connections
-/

namespace Verif

open Vec Spec FlatTri

variable {T : Type} [CommRing T] [LinearOrder T] [IsStrictOrderedRing T]
variable {K : Type} [Field K] [LinearOrder K] [IsStrictOrderedRing K]

theorem Spec.Hits.crosses {S : FlatTri T} {v : Vec T} {x : HE} {q : Vec T} {t : HE} (h : Hits S v x q t) : ∃ l, Crosses S v x q t l := by
  induction h with
  | here h => exact ⟨_, .here h⟩
  | right h _ ih => obtain ⟨l, hl⟩ := ih; exact ⟨_, .right h hl⟩
  | left h _ ih => obtain ⟨l, hl⟩ := ih; exact ⟨_, .left h hl⟩

namespace SaddleSearch

variable {P : Params T K}

/-- What does not change while we follow a direction. -/
structure Course (P : Params T K) (e : HE) (m : Machine T) : Prop where
  sectors : ∃ s ss, m.sectors = s :: ss ∧ s.source = e
  lt : m.edge < P.S.tri.size

/-- The search is about to cross the half edge `x`, which ends at `q`. The vector `v` is in the search sector. If `strict`,
then it is not on its boundary. -/
structure Ahead (P : Params T K) (e : HE) (strict : Prop) (v : Vec T) (x : HE) (q : Vec T) (m : Machine T) : Prop extends Course P e m where
  state : ∃ s t rest, m.state = .start s t :: rest ∧ s ≠ some true ∧ t ≠ some true
  view : SaddleSearch.view P.S m = (x, q)
  chain0 : m.b0.isChain = true
  chain1 : m.b1.isChain = true
  node : Node P.S (bd P.S m.b0) (bd P.S m.b1) x q
  half : 0 < cross v (P.S.vec x)
  left : 0 ≤ cross (m.b0.vec P.S) v
  left' : strict → 0 < cross (m.b0.vec P.S) v
  right : 0 < cross v (m.b1.vec P.S)

/-- The search has crossed the half edge `x`, which ends at `q`, and found a vertex. -/
structure AtVertex (P : Params T K) (e : HE) (strict : Prop) (v : Vec T) (x : HE) (q : Vec T) (m : Machine T) : Prop extends Course P e m where
  state : ∃ s t rest, m.state = .found :: .start s (some false) :: .searchingFirst :: .start (some false) t :: .searchingSecond :: rest ∧
    s ≠ some true ∧ t ≠ some true
  edge : m.edge = P.S.tri.nextInFace (neg x)
  moves : m.moves = []
  vertex : P.S.chainVector m.edgeEnd = apex P.S x q
  chain0 : m.b0.isChain = true
  b1 : m.b1 = .chain m.edgeEnd
  tmp : ∃ B l, m.tmp = B :: l ∧ B.isChain = true ∧ Node P.S (bd P.S m.b0) (bd P.S B) x q ∧ 0 < cross v (B.vec P.S) ∧
    0 < cross (apex P.S x q) (B.vec P.S)
  first : 0 < cross (m.b0.vec P.S) (apex P.S x q)
  half : 0 < cross v (P.S.vec x)
  left : 0 ≤ cross (m.b0.vec P.S) v
  left' : strict → 0 < cross (m.b0.vec P.S) v

/-- The search is about to cross a half edge, maybe after one more step. -/
def Soon (P : Params T K) (e : HE) (strict : Prop) (v : Vec T) (x : HE) (q : Vec T) (m : Machine T) : Prop :=
  Course P e m ∧ (Ahead P e strict v x q m ∨ ∃ m', Ahead P e strict v x q m' ∧
    ∀ fuel, intersectionLoop P (fuel + 1) m = intersectionLoop P fuel m')

/-- What comes after crossing a half edge. -/
inductive Next (P : Params T K) (e : HE) (strict : Prop) (v : Vec T) (x : HE) (q : Vec T) (m : Machine T) : Prop
  | left : cross v (apex P.S x q) ≤ 0 → (strict → cross v (apex P.S x q) < 0) →
      Ahead P e strict v (P.S.tri.nextInFace (P.S.tri.nextInFace (neg x))) q m → Next P e strict v x q m
  | right : 0 < cross v (apex P.S x q) →
      Ahead P e strict v (P.S.tri.nextInFace (neg x)) (apex P.S x q) m → Next P e strict v x q m
  | vertex : AtVertex P e strict v x q m → Next P e strict v x q m

theorem none_step (hr : P.radius = none) {m : Machine T} {s t : Option Bool} {rest : List Label} (hs : m.state = .start s t :: rest)
    (h1 : s ≠ some true) (h2 : t ≠ some true) (hg : Guard P m) : increment P m = .ok (crossEdge P { m with state := rest } s t) := by
  unfold increment
  rw [if_neg hg.not, hs]
  have : settle P { m with state := rest } s t = (s, t, { m with state := rest }) := by
    unfold settle
    rw [hr]
    cases s <;> cases t <;> rfl
  simp only
  rw [this]
  simp only
  rw [if_neg (by simp [h1, h2])]

variable {e : HE} {strict : Prop} {v : Vec T} {x : HE} {q : Vec T}

theorem half_next (h : P.S.Shut) (hx : x < P.S.tri.size) (hp0 : 0 ≤ cross (q - P.S.vec x) v)
    (ha : 0 < cross v (apex P.S x q)) : 0 < cross v (P.S.vec (P.S.tri.nextInFace (neg x))) := by
  obtain ⟨-, -, k, -, -⟩ := apex_spec (q := q) h hx
  have e1 : P.S.vec (P.S.tri.nextInFace (neg x)) = apex P.S x q - (q - P.S.vec x) := by rw [← k]; abel
  rw [e1]
  have : cross v (apex P.S x q - (q - P.S.vec x)) = cross v (apex P.S x q) + cross (q - P.S.vec x) v := by
    simp only [cross, Vec.sub_x, Vec.sub_y]; ring
  rw [this]
  linarith

theorem half_next' (h : P.S.Shut) (hx : x < P.S.tri.size) (hp1 : 0 < cross v q)
    (ha : cross v (apex P.S x q) ≤ 0) : 0 < cross v (P.S.vec (P.S.tri.nextInFace (P.S.tri.nextInFace (neg x)))) := by
  obtain ⟨-, -, -, k, -⟩ := apex_spec (q := q) h hx
  have e1 : P.S.vec (P.S.tri.nextInFace (P.S.tri.nextInFace (neg x))) = q - apex P.S x q := by rw [← k]; abel
  rw [e1]
  have : cross v (q - apex P.S x q) = cross v q - cross v (apex P.S x q) := by
    simp only [cross, Vec.sub_x, Vec.sub_y]; ring
  rw [this]
  linarith

theorem Ahead.wedge {m : Machine T} (ha : Ahead P e strict v x q m) : 0 ≤ cross (q - P.S.vec x) v ∧ 0 < cross v q := by
  have hp' : 0 < cross (q - P.S.vec x) (P.S.vec x) := by rw [half_p]; exact ha.node.pos
  have hq' : 0 < cross q (P.S.vec x) := by rw [half_q]; exact ha.node.pos
  exact ⟨cross_trans hp' ha.node.half0 ha.half ha.node.p0 ha.left,
    cross_trans_lt_le ha.half ha.node.half1 hq' ha.right ha.node.q1⟩

theorem Ahead.guard {m : Machine T} (ha : Ahead P e strict v x q m) : Guard P m := by
  obtain ⟨s, ss, h1, -⟩ := ha.sectors
  refine ⟨by rw [h1]; simp, ?_⟩
  exact cross_trans ha.node.half0 ha.half ha.node.half1 ha.left ha.right.le

/-- Crossing a half edge. -/
theorem Ahead.step (h : P.S.Shut) (hr : P.radius = none) {m : Machine T} (ha : Ahead P e strict v x q m) :
    ∃ m' b, increment P m = .ok (m', b) ∧ Next P e strict v x q m' := by
  obtain ⟨s, t, rest, hs, h1, h2⟩ := ha.state
  have hx := ha.node.lt
  have hn := ha.node
  obtain ⟨w1, w2⟩ := ha.wedge
  have hinc := none_step hr hs h1 h2 ha.guard
  obtain ⟨m2, e1, e2, e3, e4, e5, e6, e7, e8, e9, e10⟩ := crossEdge_eq (m := { m with state := rest }) h ha.lt (s := s) (t := t) ha.view
  rw [e10] at hinc
  have hhalf := hn.halfa h
  have c0 : (bd P.S m.b0).1 = true := ha.chain0
  have c1 : (bd P.S m.b1).1 = true := ha.chain1
  obtain ⟨sec, ss, hsec, hsrc⟩ := ha.sectors
  by_cases hcw : cross (m.b0.vec P.S) (apex P.S x q) ≤ 0
  · have hc : Cw (bd P.S m.b0) (apex P.S x q) := by
      rcases hcw.lt_or_eq with k | k
      · exact Or.inl k
      · exact Or.inr ⟨k, c0⟩
    have hcl := (classify_eq (m := m2) e7).1 (by rw [e2]; exact hc)
    rw [hcl] at hinc
    simp only [hr] at hinc
    have hva : cross v (apex P.S x q) ≤ 0 := by
      have : 0 ≤ cross (apex P.S x q) v :=
        cross_trans hhalf hn.half0 ha.half (by rw [cross_comm]; change 0 ≤ -cross (m.b0.vec P.S) _; linarith) ha.left
      rw [cross_comm]; linarith
    refine ⟨_, _, hinc, .left hva (fun hst => ?_) ?_⟩
    · have : 0 < cross (apex P.S x q) v :=
        cross_trans_le_lt hhalf hn.half0 ha.half (by rw [cross_comm]; change 0 ≤ -cross (m.b0.vec P.S) _; linarith) (ha.left' hst)
      rw [cross_comm]; linarith
    · refine ⟨⟨⟨sec, ss, e1.trans hsec, hsrc⟩, e9⟩, ⟨_, _, _, rfl, by simp, h2⟩, ?_, ?_, ?_, ?_, half_next' h hx w2 hva, ?_, ?_, ?_⟩
      · change SaddleSearch.view P.S { m2 with moves := m2.moves ++ [.nextEdge] } = _
        rw [view_append, view_nil e8, e6, e7]
        exact walk_second h hx
      · change m2.b0.isChain = true; rw [e2]; exact ha.chain0
      · change m2.b1.isChain = true; rw [e3]; exact ha.chain1
      · change Node P.S (bd P.S m2.b0) (bd P.S m2.b1) _ _; rw [e2, e3]; exact hn.clockwise h hc
      · change 0 ≤ cross (m2.b0.vec P.S) v; rw [e2]; exact ha.left
      · change strict → 0 < cross (m2.b0.vec P.S) v; rw [e2]; exact ha.left'
      · change 0 < cross v (m2.b1.vec P.S); rw [e3]; exact ha.right
  · push Not at hcw
    by_cases hccw : 0 ≤ cross (m.b1.vec P.S) (apex P.S x q)
    · have hcl := (classify_eq (m := m2) e7).2.1 (by rw [e2]; exact hcw) (by rw [e3]; exact hccw)
      rw [hcl] at hinc
      simp only at hinc
      have hva : 0 < cross v (apex P.S x q) := cross_trans_lt_le ha.half hn.half1 hhalf ha.right hccw
      refine ⟨_, _, hinc, .right hva ?_⟩
      refine ⟨⟨⟨sec, ss, e1.trans hsec, hsrc⟩, e9⟩, ⟨_, _, _, rfl, h1, by simp⟩, ?_, ?_, ?_, ?_, half_next h hx w1 hva, ?_, ?_, ?_⟩
      · change SaddleSearch.view P.S m2 = _
        rw [view_nil e8, e6, e7]
      · change m2.b0.isChain = true; rw [e2]; exact ha.chain0
      · change m2.b1.isChain = true; rw [e3]; exact ha.chain1
      · change Node P.S (bd P.S m2.b0) (bd P.S m2.b1) _ _; rw [e2, e3]; exact hn.counterclockwise h hcw hccw
      · change 0 ≤ cross (m2.b0.vec P.S) v; rw [e2]; exact ha.left
      · change strict → 0 < cross (m2.b0.vec P.S) v; rw [e2]; exact ha.left'
      · change 0 < cross v (m2.b1.vec P.S); rw [e3]; exact ha.right
    · push Not at hccw
      have hcl := (classify_eq (m := m2) e7).2.2 (by rw [e2, e3]; exact Or.inr ⟨hcw, hccw⟩)
      rw [hcl] at hinc
      simp only at hinc
      have e0 : m2.b0.isChain = true := by rw [e2]; exact ha.chain0
      have e1' : m2.b1.isChain = true := by rw [e3]; exact ha.chain1
      have hsad : saddle P m2 s t = ({ m2 with b1 := .chain m2.edgeEnd, tmp := m2.b1 :: m2.tmp, state := .found :: .start s (some false) :: .searchingFirst :: .start (some false) t :: .searchingSecond :: m2.state }, Vec.gtBound P.A (P.S.chainVector m2.edgeEnd) P.lower) := by
        unfold saddle
        simp only [hr, e0, e1']
        rfl
      rw [hsad] at hinc
      refine ⟨_, _, hinc, .vertex ⟨⟨⟨sec, ss, e1.trans hsec, hsrc⟩, e9⟩, ⟨_, _, _, rfl, h1, h2⟩, e6, e8, e7, e0, rfl, ?_, ?_, ha.half, ?_, ?_⟩⟩
      · refine ⟨m2.b1, _, rfl, e1', ?_, ?_, ?_⟩
        · change Node P.S (bd P.S m2.b0) (bd P.S m2.b1) _ _; rw [e2, e3]; exact hn
        · rw [e3]; exact ha.right
        · rw [e3, cross_comm]; change 0 < -cross (m.b1.vec P.S) _; linarith
      · change 0 < cross (m2.b0.vec P.S) _; rw [e2]; exact hcw
      · change 0 ≤ cross (m2.b0.vec P.S) v; rw [e2]; exact ha.left
      · change strict → 0 < cross (m2.b0.vec P.S) v; rw [e2]; exact ha.left'

theorem same_ahead (h : P.S.Shut) {m : Machine T} (ha : Ahead P e strict v x q m) : Ahead P e strict v x q (applyMoves P.S m) := by
  have k := same_applyMoves (P := P) h ha.lt
  obtain ⟨sec, ss, hsec, hsrc⟩ := ha.sectors
  exact ⟨⟨⟨sec, ss, k.sectors.trans hsec, hsrc⟩, k.lt⟩, ha.state, k.view.trans ha.view, ha.chain0, ha.chain1, ha.node, ha.half,
    ha.left, ha.left', ha.right⟩

/-- The intersection that is reported when crossing a half edge. -/
theorem Ahead.intersection (h : P.S.Shut) (hr : P.radius = none) {m : Machine T} (ha : Ahead P e strict v x q m) :
    ∃ m' base, Next P e strict v x q m' ∧ P.S.chainVector base = q - P.S.vec x ∧
      ∀ fuel, intersectionLoop P (fuel + 1) m = some (.ok (m', some (base, x))) := by
  obtain ⟨m', b, h1, h2⟩ := (same_ahead h ha).step h hr
  obtain ⟨a1, a2, a3, a4⟩ := applyMoves_spec h ha.lt
  rw [ha.view] at a1 a2
  refine ⟨m', Chain.bump (applyMoves P.S m).edgeEnd (neg x), h2, ?_, fun fuel => ?_⟩
  · rw [chainVector_bump h.even h.flat.odd _ (neg_lt_of_even h.even ha.node.lt), a2, h.flat.odd _ ha.node.lt]
    change q + -P.S.vec x = _
    abel
  · obtain ⟨s, t, rest, hs, -, -⟩ := ha.state
    obtain ⟨sec, ss, hsec, -⟩ := ha.sectors
    unfold intersectionLoop
    rw [if_neg (by rw [hsec]; simp), hs]
    simp only
    rw [h1, a1]
    rfl

theorem Course.sectors_ne {m : Machine T} (h : Course P e m) : m.sectors ≠ [] := by
  obtain ⟨s, ss, h1, -⟩ := h.sectors
  rw [h1]
  simp

theorem Soon.intersection (h : P.S.Shut) (hr : P.radius = none) {m : Machine T} (ha : Soon P e strict v x q m) :
    ∃ m' base, Next P e strict v x q m' ∧ P.S.chainVector base = q - P.S.vec x ∧
      ∀ fuel, incrementWithIntersections P (fuel + 2) m = some (.ok (m', some (base, x))) := by
  obtain ⟨hc, ha⟩ := ha
  have key : ∀ fuel, incrementWithIntersections P fuel m = intersectionLoop P fuel m := by
    intro fuel
    unfold incrementWithIntersections
    rw [if_neg]
    rintro ⟨-, k⟩
    exact hc.sectors_ne (by simpa using k)
  rcases ha with ha | ⟨m1, ha, h1⟩
  · obtain ⟨m', base, k1, k2, k3⟩ := ha.intersection h hr
    exact ⟨m', base, k1, k2, fun fuel => by rw [key, k3]⟩
  · obtain ⟨m', base, k1, k2, k3⟩ := ha.intersection h hr
    exact ⟨m', base, k1, k2, fun fuel => by rw [key, h1, k3]⟩

theorem AtVertex.intersection {m : Machine T} (ha : AtVertex P e strict v x q m) (fuel : ℕ) :
    incrementWithIntersections P (fuel + 1) m = some (.ok (m, none)) := by
  obtain ⟨s, t, rest, hs, -, -⟩ := ha.state
  have hne := ha.sectors_ne
  unfold incrementWithIntersections
  rw [if_neg (by rintro ⟨-, k⟩; exact hne (by simpa using k))]
  unfold intersectionLoop
  rw [if_neg (by simpa using hne), hs]

/-- The saddle connection that has been found. -/
theorem AtVertex.dereference (h : P.S.Shut) (hr : P.radius = none) (hl : P.lower = .zero) {m : Machine T} (ha : AtVertex P e strict v x q m) :
    SaddleSearch.dereference P m = .ok ⟨e, P.S.tri.nextInFace (P.S.tri.nextInFace (neg x)), m.edgeEnd⟩ := by
  obtain ⟨s, t, rest, hs, -, -⟩ := ha.state
  obtain ⟨sec, ss, hsec, rfl⟩ := ha.sectors
  obtain ⟨B, l, -, -, hn, -, -⟩ := ha.tmp
  have hhalf := hn.halfa h
  have hane : apex P.S x q ≠ 0 := by intro k; rw [k] at hhalf; simp at hhalf
  have hmake : Saddle.make P.dbg P.S.tri.size sec.source (P.S.tri.previousAtVertex (neg m.edge)) m.edgeEnd =
      .ok ⟨sec.source, P.S.tri.nextInFace (P.S.tri.nextInFace (neg x)), m.edgeEnd⟩ := by
    have hprev : P.S.tri.previousAtVertex (neg m.edge) = P.S.tri.nextInFace (P.S.tri.nextInFace (neg x)) := by
      rw [h.previousAtVertex (neg_lt_of_even h.even ha.lt), neg_neg', ha.edge]
      rfl
    unfold Saddle.make
    rw [if_neg, hprev]
    intro hz
    rw [Bool.and_eq_true] at hz
    have hz' := hz.2
    rw [List.all_eq_true] at hz'
    apply hane
    rw [← ha.vertex, chainVector_congr P.S (c' := fun _ => 0), chainVector_zero]
    intro i hi
    have := hz' i (List.mem_range.2 hi)
    simpa using this
  unfold SaddleSearch.dereference
  simp only [hsec, hs, hmake, hr, bind, Except.bind, pure, Except.pure]
  rw [if_neg]
  rintro ⟨-, k | k⟩
  · exact absurd k (by decide)
  · apply k
    rw [gtBound_eq, hl]
    unfold saddleVector
    rw [ha.vertex]
    simpa [Bound.zero] using dot_self_pos hane

theorem AtVertex.skip_left (h : P.S.Shut) {m : Machine T} (ha : AtVertex P e strict v x q m) (hv : cross v (apex P.S x q) < 0) :
    ∃ m', skipSector P m .clockwise = .ok m' ∧ Soon P e strict v (P.S.tri.nextInFace (P.S.tri.nextInFace (neg x))) q m' := by
  obtain ⟨s, t, rest, hs, h1, h2⟩ := ha.state
  obtain ⟨sec, ss, hsec, hsrc⟩ := ha.sectors
  obtain ⟨B, l, htmp, hB, hn, hv1, ha1⟩ := ha.tmp
  have hx := hn.lt
  have hhalf := hn.halfa h
  have hq' : 0 < cross q (P.S.vec x) := by rw [half_q]; exact hn.pos
  have hvq : 0 < cross v q := cross_trans_lt_le ha.half hn.half1 hq' hv1 hn.q1
  refine ⟨{ m with state := .searchingFirst :: .start (some false) t :: .searchingSecond :: rest }, ?_, ⟨⟨sec, ss, hsec, hsrc⟩, ha.lt⟩, .inr ?_⟩
  · unfold skipSector
    rw [if_neg (by simp), hs]
    simp
  · obtain ⟨c1, c2, c3, c4⟩ := applyMoves_spec (m := { m with state := .start (some false) t :: .searchingSecond :: rest, b1 := B, tmp := l }) h ha.lt
    have hview : SaddleSearch.view P.S { m with state := .start (some false) t :: .searchingSecond :: rest, b1 := B, tmp := l } =
        (P.S.tri.nextInFace (neg x), apex P.S x q) := by
      rw [view_nil (by exact ha.moves)]
      exact Prod.ext ha.edge ha.vertex
    rw [hview] at c1 c2
    obtain ⟨m1, hm1⟩ : ∃ m1, m1 = applyMoves P.S { m with state := .start (some false) t :: .searchingSecond :: rest, b1 := B, tmp := l } := ⟨_, rfl⟩
    rw [← hm1] at c1 c2 c3 c4
    have f1 : m1.b0 = m.b0 := by rw [hm1]; rfl
    have f2 : m1.b1 = B := by rw [hm1]; rfl
    have f3 : m1.sectors = sec :: ss := by rw [hm1]; exact hsec
    have f4 : m1.state = .start (some false) t :: .searchingSecond :: rest := by rw [hm1]; rfl
    have hinc : increment P { m with state := .searchingFirst :: .start (some false) t :: .searchingSecond :: rest } =
        .ok ({ m1 with tmp := m1.b0 :: m1.tmp, b0 := .chain m1.edgeEnd, moves := m1.moves ++ [.nextEdge] }, false) := by
      unfold increment
      rw [if_neg (Guard.not ⟨by change m.sectors ≠ []; rw [hsec]; simp, ?_⟩)]
      · simp only
        rw [htmp]
        simp only
        rw [← hm1, f1, ha.chain0]
        simp
      · change 0 ≤ cross (m.b0.vec P.S) (m.b1.vec P.S)
        rw [ha.b1]
        change 0 ≤ cross (m.b0.vec P.S) (P.S.chainVector m.edgeEnd)
        rw [ha.vertex]
        exact ha.first.le
    have hav : 0 < cross (apex P.S x q) v := by rw [cross_comm]; linarith
    refine ⟨{ m1 with tmp := m1.b0 :: m1.tmp, b0 := .chain m1.edgeEnd, moves := m1.moves ++ [.nextEdge] }, ?_, fun fuel => ?_⟩
    rotate_left
    · conv_lhs => unfold intersectionLoop
      rw [if_neg (by change ¬m.sectors.isEmpty = true; rw [hsec]; simp)]
      simp only
      unfold incrementFull
      simp only
      rw [hinc]
      rfl
    · refine ⟨⟨⟨sec, ss, f3, hsrc⟩, c4⟩, ⟨_, _, _, f4, by simp, h2⟩, ?_, rfl, ?_, ?_, half_next' h hx hvq hv.le, ?_, fun _ => ?_, ?_⟩
      · change SaddleSearch.view P.S { m1 with moves := m1.moves ++ [.nextEdge] } = _
        rw [view_append, view_nil c3, c1, c2]
        exact walk_second h hx
      · change m1.b1.isChain = true; rw [f2]; exact hB
      · have : bd P.S (.chain m1.edgeEnd) = (true, apex P.S x q) := Prod.ext rfl c2
        change Node P.S (bd P.S (.chain m1.edgeEnd)) (bd P.S m1.b1) _ _
        rw [this, f2]
        exact hn.second h ha1
      · change 0 ≤ cross (P.S.chainVector m1.edgeEnd) v; rw [c2]; exact hav.le
      · change 0 < cross (P.S.chainVector m1.edgeEnd) v; rw [c2]; exact hav
      · change 0 < cross v (m1.b1.vec P.S); rw [f2]; exact hv1

theorem AtVertex.skip_right (h : P.S.Shut) {m : Machine T} (ha : AtVertex P e strict v x q m) (hv : 0 < cross v (apex P.S x q)) :
    ∃ m', skipSector P m .counterclockwise = .ok m' ∧ Soon P e strict v (P.S.tri.nextInFace (neg x)) (apex P.S x q) m' := by
  obtain ⟨s, t, rest, hs, h1, h2⟩ := ha.state
  obtain ⟨sec, ss, hsec, hsrc⟩ := ha.sectors
  obtain ⟨B, l, htmp, hB, hn, hv1, ha1⟩ := ha.tmp
  have hx := hn.lt
  have hhalf := hn.halfa h
  have hp' : 0 < cross (q - P.S.vec x) (P.S.vec x) := by rw [half_p]; exact hn.pos
  have hpv : 0 ≤ cross (q - P.S.vec x) v := cross_trans hp' hn.half0 ha.half hn.p0 ha.left
  have hb1 : bd P.S m.b1 = (true, apex P.S x q) := by
    rw [ha.b1]
    exact Prod.ext rfl ha.vertex
  refine ⟨{ m with state := .start s (some false) :: .searchingFirst :: .searchingSecond :: rest }, ?_, ⟨⟨sec, ss, hsec, hsrc⟩, ha.lt⟩, .inl ?_⟩
  · unfold skipSector
    rw [if_neg (by simp), hs]
    simp [dropSecond, Label.isStart]
  · refine ⟨⟨⟨sec, ss, hsec, hsrc⟩, ha.lt⟩, ⟨_, _, _, rfl, h1, by simp⟩, ?_, ha.chain0, ?_, ?_, half_next h hx hpv hv, ha.left, ha.left', ?_⟩
    · change SaddleSearch.view P.S m = _
      rw [view_nil ha.moves]
      exact Prod.ext ha.edge ha.vertex
    · change (bd P.S m.b1).1 = true; rw [hb1]
    · change Node P.S (bd P.S m.b0) (bd P.S m.b1) _ _
      rw [hb1]
      exact hn.first h ha.first
    · change 0 < cross v (bd P.S m.b1).2; rw [hb1]; exact hv

/-- The beginning of the search. -/
theorem start_single (h : P.S.Shut) (hr : P.radius = none) (hl : P.lower = .zero) (he : e < P.S.tri.size) :
    ∃ m, (∀ fuel, start P fuel [⟨e, none⟩] = some (.ok m)) ∧ m.state = [.start none none, .stop] ∧ m.sectors = [⟨e, none⟩] ∧
      ∀ v, 0 ≤ cross (P.S.vec e) v → 0 < cross v (P.S.vec e + P.S.vec (P.S.tri.nextInFace e)) →
        Ahead P e (0 < cross (P.S.vec e) v) v (P.S.tri.nextInFace e) (P.S.vec e + P.S.vec (P.S.tri.nextInFace e)) m := by
  obtain ⟨r1, r2⟩ := root h he
  have hlt := next_lt h he
  have hv1 : P.S.chainVector (Chain.bump (fun _ => 0) e) = P.S.vec e := by
    rw [chainVector_bump h.even h.flat.odd _ he, chainVector_zero, zero_add]
  have hv2 : P.S.chainVector (Chain.bump (Chain.bump (fun _ => 0) e) (P.S.tri.nextInFace e)) =
      P.S.vec e + P.S.vec (P.S.tri.nextInFace e) := by
    rw [chainVector_bump h.even h.flat.odd _ hlt, hv1]
  have hne : P.S.vec e ≠ 0 := by intro k; rw [k] at r2; simp at r2
  refine ⟨⟨[⟨e, none⟩], .chain (Chain.bump (fun _ => 0) e), .chain (Chain.bump (Chain.bump (fun _ => 0) e) (P.S.tri.nextInFace e)),
    P.S.tri.nextInFace e, Chain.bump (Chain.bump (fun _ => 0) e) (P.S.tri.nextInFace e), [.start none none, .stop], [], []⟩,
    fun fuel => ?_, rfl, rfl, fun v h1 h2 => ?_⟩
  · have hg : gtBound P.A (P.S.vec e) P.lower = true := by
      rw [gtBound_eq, hl]
      simpa [Bound.zero] using dot_self_pos hne
    unfold start prepare
    rw [if_neg (by simp), if_neg (by unfold Tri.boundary; simpa using h.nb _ he)]
    simp only [SaddleConnections.contains, bind, Except.bind, pure, Except.pure, hr, hg]
    simp
  · have hp : P.S.vec e + P.S.vec (P.S.tri.nextInFace e) - P.S.vec (P.S.tri.nextInFace e) = P.S.vec e := by abel
    refine ⟨⟨⟨_, _, rfl, rfl⟩, hlt⟩, ⟨_, _, _, rfl, by simp, by simp⟩, ?_, rfl, rfl, ?_, ?_, ?_, ?_, ?_⟩
    · rw [view_nil rfl]
      exact Prod.ext rfl hv2
    · have e0 : bd P.S (.chain (Chain.bump (fun _ => 0) e)) = (true, P.S.vec e) := Prod.ext rfl hv1
      have e1 : bd P.S (.chain (Chain.bump (Chain.bump (fun _ => 0) e) (P.S.tri.nextInFace e))) =
        (true, P.S.vec e + P.S.vec (P.S.tri.nextInFace e)) := Prod.ext rfl hv2
      rw [e0, e1]
      refine ⟨hlt, ?_, ?_, by simp, ?_, ?_, ?_, .inl ?_⟩ <;> try rw [hp]
      · exact r2
      · rw [cross_self]
      · exact r2
      · exact r2
      · rw [cross_self]
      · exact r2
    · have : cross v (P.S.vec (P.S.tri.nextInFace e)) = cross v (P.S.vec e + P.S.vec (P.S.tri.nextInFace e)) + cross (P.S.vec e) v := by
        simp only [cross, Vec.add_x, Vec.add_y]; ring
      rw [this]
      linarith
    · change 0 ≤ cross (P.S.chainVector _) v; rw [hv1]; exact h1
    · change _ → 0 < cross (P.S.chainVector _) v; rw [hv1]; exact id
    · change 0 < cross v (P.S.chainVector _); rw [hv2]; exact h2

/-- The rest of `path` after a sector has been skipped. -/
def onwards (P : Params T K) (c : Saddle) (F n fuel : ℕ) (m : Machine T) : Option (Except Err (Saddle × List ((ℕ → ℤ) × HE))) :=
  (gather P F n m).bind fun
    | .error err => some (.error err)
    | .ok (m, l) => (pathLoop P c F fuel m).map (·.map fun r => (r.1, l ++ r.2))

theorem onwards_cons {c : Saddle} {F n fuel : ℕ} {m m' : Machine T} {i : (ℕ → ℤ) × HE}
    (h : incrementWithIntersections P F m = some (.ok (m', some i))) {d : Saddle} {l : List ((ℕ → ℤ) × HE)}
    (h' : onwards P c F n fuel m' = some (.ok (d, l))) : onwards P c F (n + 1) fuel m = some (.ok (d, i :: l)) := by
  unfold onwards at h' ⊢
  unfold gather
  rw [h]
  simp only [Option.bind_some]
  cases hg : gather P F n m' with
  | none => rw [hg] at h'; simp at h'
  | some r =>
    rw [hg] at h'
    cases r with
    | error err => simp at h'
    | ok r =>
      obtain ⟨m1, l1⟩ := r
      simp only [Option.bind_some] at h'
      simp only [Option.map_some, Except.map, Option.bind_some]
      cases hp : pathLoop P c F fuel m1 with
      | none => rw [hp] at h'; simp at h'
      | some r =>
        rw [hp] at h'
        cases r with
        | error err => simp [Except.map] at h'
        | ok r =>
          simp only [Option.map_some, Except.map, Option.some.injEq, Except.ok.injEq, Prod.mk.injEq] at h'
          obtain ⟨h1, h2⟩ := h'
          simp [h1, h2]

theorem onwards_found {c : Saddle} {F n fuel : ℕ} {m : Machine T}
    (h : incrementWithIntersections P F m = some (.ok (m, none))) : onwards P c F (n + 1) fuel m = pathLoop P c F fuel m := by
  unfold onwards gather
  rw [h]
  simp only [Option.bind_some, List.nil_append]
  cases pathLoop P c F fuel m with
  | none => rfl
  | some r => cases r <;> rfl

theorem pathLoop_skip {c d : Saddle} {F fuel : ℕ} {m m' : Machine T} {w : CCW} (h1 : dereference P m = .ok d)
    (h2 : P.S.saddleVector d ≠ P.S.saddleVector c) (h3 : Vec.ccw P.A (P.S.saddleVector d) (P.S.saddleVector c) = w) (h4 : w ≠ .collinear)
    (h5 : skipSector P m w.neg = .ok m') : pathLoop P c F (fuel + 1) m = onwards P c F F fuel m' := by
  unfold pathLoop
  have he : equal P d c = .ok false := by
    unfold equal saddleEq
    simp [h2]
  rw [h1]
  simp only
  rw [he]
  simp only
  rw [h3, if_neg (by rintro ⟨-, k⟩; exact h4 k), h5]
  rfl

theorem pathLoop_done {c d : Saddle} {F fuel : ℕ} {m : Machine T} (h1 : dereference P m = .ok d)
    (h2 : P.S.saddleVector d = P.S.saddleVector c) (h3 : d.source = c.source) (h4 : d.target = c.target) :
    pathLoop P c F (fuel + 1) m = some (.ok (d, [])) := by
  unfold pathLoop
  have he : equal P d c = .ok true := by
    unfold equal saddleEq
    simp [h2, h3, h4]
  rw [h1]
  simp only
  rw [he]

/-- Following the direction of a saddle connection. -/
theorem Spec.Crosses.follow (h : P.S.Shut) (hr : P.radius = none) (hl : P.lower = .zero) {c : Saddle} {t : HE} {l : List (HE × Vec T)}
    (hc : Crosses P.S (P.S.saddleVector c) x q t l) (ht : t = c.target) : ∀ m, Soon P c.source True (P.S.saddleVector c) x q m →
    ∃ d l', d.target = t ∧ l'.map (fun i => (i.2, P.S.chainVector i.1)) = l ∧
      ∃ N, ∀ F ≥ N, ∀ n ≥ N, ∀ fuel ≥ N, onwards P c F n fuel m = some (.ok (d, l')) := by
  induction hc with
  | @here x q hv =>
    intro m hm
    obtain ⟨m1, base, hn, k1, k2⟩ := hm.intersection h hr
    rcases hn with hn | hn | hn
    · rw [← hv, cross_self] at hn; exact absurd (‹True → _› True.intro) (by rw [← hv, cross_self]; exact lt_irrefl _)
    · rw [← hv, cross_self] at hn; exact absurd hn (lt_irrefl _)
    · have hd := hn.dereference h hr hl
      refine ⟨⟨c.source, P.S.tri.nextInFace (P.S.tri.nextInFace (neg x)), m1.edgeEnd⟩, [(base, x)], rfl, by simp [k1], 2, fun F hF n hn' fuel hfuel => ?_⟩
      obtain ⟨F, rfl⟩ : ∃ g, F = g + 2 := ⟨F - 2, by omega⟩
      obtain ⟨n, rfl⟩ : ∃ g, n = g + 2 := ⟨n - 2, by omega⟩
      obtain ⟨fuel, rfl⟩ : ∃ g, fuel = g + 1 := ⟨fuel - 1, by omega⟩
      refine onwards_cons (k2 F) ?_
      rw [onwards_found (hn.intersection _)]
      exact pathLoop_done hd (hn.vertex.trans hv.symm) rfl ht
  | @right x q t l hv _ ih =>
    intro m hm
    obtain ⟨m1, base, hn, k1, k2⟩ := hm.intersection h hr
    rcases hn with hn | hn | hn
    · exact absurd hv (not_lt.2 hn)
    · obtain ⟨d, l', d1, d2, N, hN⟩ := ih ht m1 ⟨‹Ahead P _ _ _ _ _ m1›.toCourse, .inl ‹_›⟩
      refine ⟨d, (base, x) :: l', d1, by simp [k1, d2], N + 2, fun F hF n hn' fuel hfuel => ?_⟩
      obtain ⟨F, rfl⟩ : ∃ g, F = g + 2 := ⟨F - 2, by omega⟩
      obtain ⟨n, rfl⟩ : ∃ g, n = g + 1 := ⟨n - 1, by omega⟩
      exact onwards_cons (k2 F) (hN _ (by omega) _ (by omega) _ (by omega))
    · obtain ⟨m2, s1, s2⟩ := hn.skip_right h hv
      obtain ⟨d, l', d1, d2, N, hN⟩ := ih ht m2 s2
      have hd := hn.dereference h hr hl
      refine ⟨d, (base, x) :: l', d1, by simp [k1, d2], N + 2, fun F hF n hn' fuel hfuel => ?_⟩
      obtain ⟨F, rfl⟩ : ∃ g, F = g + 2 := ⟨F - 2, by omega⟩
      obtain ⟨n, rfl⟩ : ∃ g, n = g + 2 := ⟨n - 2, by omega⟩
      obtain ⟨fuel, rfl⟩ : ∃ g, fuel = g + 1 := ⟨fuel - 1, by omega⟩
      refine onwards_cons (k2 F) ?_
      have hvec : P.S.saddleVector ⟨c.source, P.S.tri.nextInFace (P.S.tri.nextInFace (neg x)), m1.edgeEnd⟩ = apex P.S x q := hn.vertex
      rw [onwards_found (hn.intersection _), pathLoop_skip (w := .clockwise) hd _ _ (by decide) s1]
      · exact hN _ (by omega) _ (by omega) _ (by omega)
      · rw [hvec]; intro k; rw [k, cross_self] at hv; exact lt_irrefl _ hv
      · rw [hvec, ccw_eq, ccwExact_clockwise, cross_comm]; linarith
  | @left x q t l hv _ ih =>
    intro m hm
    obtain ⟨m1, base, hn, k1, k2⟩ := hm.intersection h hr
    rcases hn with hn | hn | hn
    · obtain ⟨d, l', d1, d2, N, hN⟩ := ih ht m1 ⟨‹Ahead P _ _ _ _ _ m1›.toCourse, .inl ‹_›⟩
      refine ⟨d, (base, x) :: l', d1, by simp [k1, d2], N + 2, fun F hF n hn' fuel hfuel => ?_⟩
      obtain ⟨F, rfl⟩ : ∃ g, F = g + 2 := ⟨F - 2, by omega⟩
      obtain ⟨n, rfl⟩ : ∃ g, n = g + 1 := ⟨n - 1, by omega⟩
      exact onwards_cons (k2 F) (hN _ (by omega) _ (by omega) _ (by omega))
    · exact absurd hv (not_lt.2 hn.le)
    · obtain ⟨m2, s1, s2⟩ := hn.skip_left h hv
      obtain ⟨d, l', d1, d2, N, hN⟩ := ih ht m2 s2
      have hd := hn.dereference h hr hl
      refine ⟨d, (base, x) :: l', d1, by simp [k1, d2], N + 2, fun F hF n hn' fuel hfuel => ?_⟩
      obtain ⟨F, rfl⟩ : ∃ g, F = g + 2 := ⟨F - 2, by omega⟩
      obtain ⟨n, rfl⟩ : ∃ g, n = g + 2 := ⟨n - 2, by omega⟩
      obtain ⟨fuel, rfl⟩ : ∃ g, fuel = g + 1 := ⟨fuel - 1, by omega⟩
      refine onwards_cons (k2 F) ?_
      have hvec : P.S.saddleVector ⟨c.source, P.S.tri.nextInFace (P.S.tri.nextInFace (neg x)), m1.edgeEnd⟩ = apex P.S x q := hn.vertex
      rw [onwards_found (hn.intersection _), pathLoop_skip (w := .counterclockwise) hd _ _ (by decide) s1]
      · exact hN _ (by omega) _ (by omega) _ (by omega)
      · rw [hvec]; intro k; rw [k, cross_self] at hv; exact lt_irrefl _ hv
      · rw [hvec, ccw_eq, ccwExact_ccw, cross_comm]; linarith

theorem sector_halfEdge (S : FlatTri T) (he : e < S.tri.size) :
    (SaddleConnections.sectorHalfEdge (SaddleConnections.make S) e).sectors = [⟨e, none⟩] := by
  unfold SaddleConnections.sectorHalfEdge SaddleConnections.make Tri.halfEdges
  simp only [List.filter_map]
  have : (List.range S.tri.size).filter ((fun t : SaddleConnections.Sector T => decide (t.source = e)) ∘ fun e => ⟨e, none⟩) = [e] := by
    have : ((fun t : SaddleConnections.Sector T => decide (t.source = e)) ∘ fun e => ⟨e, none⟩) = fun i : ℕ => decide (i = e) := rfl
    rw [this]
    have k := List.filter_eq (l := List.range S.tri.size) e
    rw [List.count_eq_one_of_mem List.nodup_range (List.mem_range.2 he), List.replicate_one] at k
    rw [← k]
  rw [this]
  rfl

section geometry

variable {f : T →+* ℝ} {S : FlatTri T} {v : Vec T} {x : HE} {q : Vec T}

/-- The intersection with a half edge that starts at `p`. -/
def meets (S : FlatTri T) (v : Vec T) (i : HE × Vec T) : HalfEdgeIntersection T := .make S (-i.2) i.1 v

theorem meetsAt (hf : StrictMono f) (h1 : 0 < cross (q - S.vec x) v) (h2 : 0 < cross v q) :
    MeetsAt f (meets S v (x, q - S.vec x)) (f (cross (q - S.vec x) (S.vec x)) / f (cross v (S.vec x))) := by
  have hD : 0 < cross v (S.vec x) := by rw [half_eq (q := q)]; linarith
  have hD' : 0 < f (cross v (S.vec x)) := by rw [← map_zero f]; exact hf hD
  have h1' : 0 < f (cross (q - S.vec x) v) := by rw [← map_zero f]; exact hf h1
  have h2' : f (cross (q - S.vec x) v) < f (cross v (S.vec x)) := by
    apply hf
    rw [half_eq (q := q)]; linarith
  refine ⟨f (cross (q - S.vec x) v) / f (cross v (S.vec x)), div_pos h1' hD', (div_lt_one hD').2 h2', ?_⟩
  unfold meets HalfEdgeIntersection.make
  have e1 : (v.x * (S.vec x).y - v.y * (S.vec x).x) = cross v (S.vec x) := by simp only [cross]
  ext
  · simp only [Vec.map, Vec.add_x, Vec.smul_x, Vec.neg_x]
    field_simp
    simp only [← map_mul, ← map_add]
    congr 1
    simp only [cross, Vec.sub_x, Vec.sub_y]
    ring
  · simp only [Vec.map, Vec.add_y, Vec.smul_y, Vec.neg_y]
    field_simp
    simp only [← map_mul, ← map_add]
    congr 1
    simp only [cross, Vec.sub_x, Vec.sub_y]
    ring

/-- The position on a saddle connection relative to a half edge that it meets. -/
theorem meetsAt_cross {s : ℝ} {p : Vec T} (h : MeetsAt f (meets S v (x, p)) s) (Z : Vec ℝ) :
    ∃ t, 0 < t ∧ t < 1 ∧ s * cross Z (v.map f) = cross Z (p.map f) + t * cross Z ((S.vec x).map f) := by
  obtain ⟨t, h1, h2, h3⟩ := h
  refine ⟨t, h1, h2, ?_⟩
  unfold meets HalfEdgeIntersection.make at h3
  have hx := congrArg Vec.x h3
  have hy := congrArg Vec.y h3
  simp only [Vec.map, Vec.add_x, Vec.add_y, Vec.smul_x, Vec.smul_y, Vec.neg_x, Vec.neg_y, map_neg] at hx hy
  simp only [cross, Vec.map]
  linear_combination Z.x * hy - Z.y * hx

/-- The order of two half edges of the same face. -/
theorem meets_order (h : S.Shut) (hf : StrictMono f) (hx : x < S.tri.size) (hv : 0 < cross v (S.vec x)) {s s' : ℝ} {W : Vec ℝ}
    (hs : MeetsAt f (meets S v (x, q - S.vec x)) s) {a b : ℝ} (ha : 0 < a)
    (hW : W = a • (apex S x q).map f + b • q.map f + (1 - a - b) • (q - S.vec x).map f) (hs' : W = s' • v.map f) : s < s' := by
  obtain ⟨-, -, -, -, ha'⟩ := apex_spec (q := q) h hx
  obtain ⟨t, -, -, ht⟩ := meetsAt_cross hs ((S.vec x).map f)
  have e0 : cross ((S.vec x).map f) ((S.vec x).map f) = 0 := cross_self _
  rw [e0, mul_zero, add_zero] at ht
  have e1 : cross ((S.vec x).map f) W = cross ((S.vec x).map f) ((q - S.vec x).map f) - a * (f (cross (apex S x q) (S.vec x)) - f (cross (q - S.vec x) q)) := by
    rw [hW]
    simp only [cross, Vec.map, Vec.add_x, Vec.add_y, Vec.smul_x, Vec.smul_y, Vec.sub_x, Vec.sub_y, map_sub, map_mul]
    ring
  have e2 : cross ((S.vec x).map f) W = s' * cross ((S.vec x).map f) (v.map f) := by
    rw [hs']
    simp only [cross, Vec.smul_x, Vec.smul_y]
    ring
  have e3 : 0 < f (cross (apex S x q) (S.vec x)) - f (cross (q - S.vec x) q) := by
    rw [← map_sub, ← map_zero f]
    exact hf ha'
  have e4 : cross ((S.vec x).map f) (v.map f) < 0 := by
    rw [cross_comm, cross_map, neg_lt_zero, ← map_zero f]
    exact hf hv
  have : 0 < a * (f (cross (apex S x q) (S.vec x)) - f (cross (q - S.vec x) q)) := mul_pos ha e3
  by_contra hn
  push Not at hn
  nlinarith

theorem meetsAt_point {s : ℝ} {p : Vec T} (h : MeetsAt f (meets S v (x, p)) s) :
    ∃ t : ℝ, 0 < t ∧ t < 1 ∧ s • v.map f = p.map f + t • (S.vec x).map f := by
  obtain ⟨t, h1, h2, h3⟩ := h
  refine ⟨t, h1, h2, ?_⟩
  unfold meets HalfEdgeIntersection.make at h3
  have hx := congrArg Vec.x h3
  have hy := congrArg Vec.y h3
  simp only [Vec.map, Vec.add_x, Vec.add_y, Vec.smul_x, Vec.smul_y, Vec.neg_x, Vec.neg_y, map_neg] at hx hy
  ext
  · simp only [Vec.map, Vec.add_x, Vec.smul_x]; linarith
  · simp only [Vec.map, Vec.add_y, Vec.smul_y]; linarith

/-- The half edges that are crossed are met in this order. -/
theorem crosses_meet (h : S.Shut) (hf : StrictMono f) {t : HE} {l : List (HE × Vec T)} (hc : Crosses S v x q t l) :
    x < S.tri.size → 0 < cross (q - S.vec x) v → 0 < cross v q →
    (∀ i ∈ l, 0 < cross v (S.vec i.1)) ∧
    ∃ s σ, MeetsAt f (meets S v (x, q - S.vec x)) s ∧ List.Forall₂ (MeetsAt f) (l.map (meets S v)) (s :: σ) ∧
      (s :: σ).Pairwise (· < ·) ∧ ∀ r ∈ s :: σ, r < 1 := by
  induction hc with
  | @here x q hv =>
    intro hx h1 h2
    have hD : 0 < cross v (S.vec x) := by rw [half_eq (q := q)]; linarith
    have hm := meetsAt hf h1 h2
    refine ⟨by simpa using hD, _, [], hm, .cons hm .nil, by simp, ?_⟩
    simp only [List.mem_singleton, forall_eq]
    refine meets_order (W := v.map f) h hf hx hD hm (a := 1) (b := 0) one_pos ?_ (by simp)
    rw [hv]
    simp
  | @right x q t l hv _ ih =>
    intro hx h1 h2
    have hD : 0 < cross v (S.vec x) := by rw [half_eq (q := q)]; linarith
    have hm := meetsAt hf h1 h2
    obtain ⟨k1, -, k2, k3, -⟩ := apex_spec (q := q) h hx
    obtain ⟨i0, s, σ, i1, i2, i3, i4⟩ := ih k1 (by rw [k2]; exact h1) hv
    have hlt : f (cross (q - S.vec x) (S.vec x)) / f (cross v (S.vec x)) < s := by
      obtain ⟨t', t1, t2, t3⟩ := meetsAt_point i1
      refine meets_order h hf hx hD hm (a := t') (b := 0) t1 ?_ rfl
      rw [t3, k2]
      have : S.vec (S.tri.nextInFace (neg x)) = apex S x q - (q - S.vec x) := by rw [← k2]; abel
      rw [this]
      ext <;> simp [Vec.map] <;> ring
    refine ⟨List.forall_mem_cons.2 ⟨hD, i0⟩, _, s :: σ, hm, .cons hm i2, List.pairwise_cons.2 ⟨fun r hr => ?_, i3⟩,
      List.forall_mem_cons.2 ⟨hlt.trans (i4 _ (by simp)), i4⟩⟩
    rcases List.mem_cons.1 hr with rfl | hr
    · exact hlt
    · exact hlt.trans ((List.pairwise_cons.1 i3).1 r hr)
  | @left x q t l hv _ ih =>
    intro hx h1 h2
    have hD : 0 < cross v (S.vec x) := by rw [half_eq (q := q)]; linarith
    have hm := meetsAt hf h1 h2
    obtain ⟨-, k1, -, k2, -⟩ := apex_spec (q := q) h hx
    obtain ⟨i0, s, σ, i1, i2, i3, i4⟩ := ih k1 (by rw [k2, cross_comm]; linarith) h2
    have hlt : f (cross (q - S.vec x) (S.vec x)) / f (cross v (S.vec x)) < s := by
      obtain ⟨t', t1, t2, t3⟩ := meetsAt_point i1
      refine meets_order h hf hx hD hm (a := 1 - t') (b := t') (by linarith) ?_ rfl
      rw [t3, k2]
      have : S.vec (S.tri.nextInFace (S.tri.nextInFace (neg x))) = q - apex S x q := by rw [← k2]; abel
      rw [this]
      ext <;> simp [Vec.map] <;> ring
    refine ⟨List.forall_mem_cons.2 ⟨hD, i0⟩, _, s :: σ, hm, .cons hm i2, List.pairwise_cons.2 ⟨fun r hr => ?_, i3⟩,
      List.forall_mem_cons.2 ⟨hlt.trans (i4 _ (by simp)), i4⟩⟩
    rcases List.mem_cons.1 hr with rfl | hr
    · exact hlt
    · exact hlt.trans ((List.pairwise_cons.1 i3).1 r hr)

end geometry

end SaddleSearch

end Verif
