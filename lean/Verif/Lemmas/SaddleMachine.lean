import Verif.Lemmas.SaddleMoves
import Verif.Lemmas.LinearPath

set_option linter.unusedSectionVars false

/-!
# The machine that searches for saddle connections
-/

namespace Verif

open Vec Spec FlatTri

variable {T : Type} [CommRing T] [LinearOrder T] [IsStrictOrderedRing T]
variable {K : Type} [Field K] [LinearOrder K] [IsStrictOrderedRing K]

namespace SaddleSearch

/-- A boundary as it is seen by the search. -/
def bd (S : FlatTri T) (b : Boundary T) : Bd T := (b.isChain, b.vec S)

/-- What is reported until the search is over. -/
inductive Runs (P : Params T K) : Machine T → List Saddle → Prop
  | quiet {m m' : Machine T} {l : List Saddle} : increment P m = .ok (m', false) → Runs P m' l → Runs P m l
  | report {m m' : Machine T} {c : Saddle} {l : List Saddle} : increment P m = .ok (m', true) → m'.sectors ≠ [] →
      dereference P m' = .ok c → Runs P m' l → Runs P m (c :: l)
  | done {m m' : Machine T} : increment P m = .ok (m', true) → m'.sectors = [] → Runs P m []

theorem advance_collect {P : Params T K} {m : Machine T} {l : List Saddle} (h : Runs P m l) :
    ∃ N, ∀ F ≥ N, ∀ fuel ≥ N, ∀ n ≥ N, ((advance P fuel m).bind fun
      | .error err => some (.error err)
      | .ok m => collect P F n m) = some (.ok l) := by
  induction h with
  | @quiet m m' l h1 _ ih =>
    obtain ⟨N, hN⟩ := ih
    refine ⟨N + 1, fun F hF fuel hfuel n hn => ?_⟩
    obtain ⟨g, rfl⟩ : ∃ g, fuel = g + 1 := ⟨fuel - 1, by omega⟩
    rw [← hN F (by omega) g (by omega) n (by omega)]
    conv_lhs => unfold advance
    rw [h1]
  | @report m m' c l h1 h2 h3 _ ih =>
    obtain ⟨N, hN⟩ := ih
    refine ⟨N + 1, fun F hF fuel hfuel n hn => ?_⟩
    obtain ⟨g, rfl⟩ : ∃ g, fuel = g + 1 := ⟨fuel - 1, by omega⟩
    obtain ⟨n, rfl⟩ : ∃ g, n = g + 1 := ⟨n - 1, by omega⟩
    unfold advance
    rw [h1]
    simp only [Option.bind_some]
    unfold collect
    rw [if_neg (by simpa using h2), h3]
    simp only
    have := hN F (by omega) F (by omega) n (by omega)
    revert this
    rcases advance P F m' with _ | _ | m''
    · simp
    · simp
    · simp only [Option.bind_some]
      intro k
      rw [k]
      rfl
  | @done m m' h1 h2 =>
    refine ⟨1, fun F hF fuel hfuel n hn => ?_⟩
    obtain ⟨g, rfl⟩ : ∃ g, fuel = g + 1 := ⟨fuel - 1, by omega⟩
    obtain ⟨n, rfl⟩ : ∃ g, n = g + 1 := ⟨n - 1, by omega⟩
    unfold advance
    rw [h1]
    simp only [Option.bind_some]
    unfold collect
    rw [if_pos (by simpa using h2)]

variable {P : Params T K}

/-- The assertion in the beginning holds. -/
structure Guard (P : Params T K) (m : Machine T) : Prop where
  sectors : m.sectors ≠ []
  order : 0 ≤ cross (m.b0.vec P.S) (m.b1.vec P.S)

theorem Guard.not {m : Machine T} (h : Guard P m) :
    ¬(P.dbg ∧ (m.sectors.isEmpty ∨ Vec.ccw P.A (m.b0.vec P.S) (m.b1.vec P.S) = .clockwise)) := by
  rintro ⟨-, k | k⟩
  · exact h.sectors (by simpa using k)
  · rw [ccw_eq, ccwExact_clockwise] at k
    exact absurd h.order (not_le.2 k)

/-- The machine is in the same situation. -/
structure Same (S : FlatTri T) (m m' : Machine T) : Prop where
  sectors : m'.sectors = m.sectors
  b0 : m'.b0 = m.b0
  b1 : m'.b1 = m.b1
  tmp : m'.tmp = m.tmp
  lt : m'.edge < S.tri.size
  view : SaddleSearch.view S m' = SaddleSearch.view S m

theorem same_applyMoves (h : P.S.Shut) {m : Machine T} (hm : m.edge < P.S.tri.size) : Same P.S m (applyMoves P.S m) := by
  obtain ⟨h1, h2, h3, h4⟩ := applyMoves_spec h hm
  refine ⟨rfl, rfl, rfl, rfl, h4, ?_⟩
  conv_lhs => unfold SaddleSearch.view
  rw [h1, h2, h3]
  rfl

theorem applyMoves_state (m : Machine T) : (applyMoves P.S m).state = m.state := rfl

theorem settle_spec (h : P.S.Shut) {r : Bound} (hr : P.radius = some r) {m : Machine T} (hm : m.edge < P.S.tri.size) {s t : Option Bool}
    {x : HE} {q : Vec T} (hv : view P.S m = (x, q)) : ∃ m', settle P m s t = ((settled (some r) q s t).1, (settled (some r) q s t).2, m') ∧
      Same P.S m m' ∧ m'.state = m.state := by
  unfold settle settled
  rw [hr]
  rcases s with _ | s <;> rcases t with _ | t
  · refine ⟨applyMoves P.S m, ?_, same_applyMoves h hm, rfl⟩
    simp only
    rw [(applyMoves_spec h hm).2.1, hv, ltBound_eq]
  all_goals exact ⟨m, rfl, ⟨rfl, rfl, rfl, rfl, hm, rfl⟩, rfl⟩

theorem start_step (h : P.S.Shut) {r : Bound} (hr : P.radius = some r) {m : Machine T} (hm : m.edge < P.S.tri.size) {s t : Option Bool}
    {rest : List Label} (hs : m.state = .start s t :: rest) {x : HE} {q : Vec T} (hv : view P.S m = (x, q)) (hg : Guard P m)
    {s' t' : Option Bool} (hst : settled (some r) q s t = (s', t')) :
    ∃ m', Same P.S m m' ∧ m'.state = rest ∧ (Prune P.S (some r) s' t' x q → increment P m = .ok (m', false)) ∧
      (¬Prune P.S (some r) s' t' x q → increment P m = .ok (crossEdge P m' s' t')) := by
  obtain ⟨m1, e1, k1, k2⟩ := settle_spec (m := { m with state := rest }) h hr hm (s := s) (t := t) (x := x) (q := q) hv
  rw [hst] at e1
  have hsame : Same P.S m m1 := ⟨k1.sectors, k1.b0, k1.b1, k1.tmp, k1.lt, k1.view⟩
  have hv1 : view P.S m1 = (x, q) := k1.view.trans hv
  have hinc : increment P m = if s' = some true ∨ t' = some true then
      (if outside P (applyMoves P.S m1) r then .ok (applyMoves P.S m1, false) else .ok (crossEdge P (applyMoves P.S m1) s' t'))
      else .ok (crossEdge P m1 s' t') := by
    unfold increment
    rw [if_neg hg.not, hs]
    simp only
    rw [e1]
    simp only [hr]
  by_cases ho : s' = some true ∨ t' = some true
  · rw [if_pos ho] at hinc
    obtain ⟨a1, a2, a3, a4⟩ := applyMoves_spec h k1.lt
    have hsame' := same_applyMoves (P := P) h k1.lt
    refine ⟨applyMoves P.S m1, ⟨hsame.sectors, hsame.b0, hsame.b1, hsame.tmp, a4, hsame'.view.trans hsame.view⟩, k2, ?_, ?_⟩
    · rintro ⟨-, r', hr', ho'⟩
      rw [hinc, if_pos]
      injection hr' with hr'
      subst hr'
      unfold outside
      rw [a1, a2, hv1]
      exact ho'
    · intro hp
      rw [hinc, if_neg]
      intro ho'
      refine hp ⟨ho, r, rfl, ?_⟩
      unfold outside at ho'
      rw [a1, a2, hv1] at ho'
      exact ho'
  · rw [if_neg ho] at hinc
    exact ⟨m1, hsame, k2, fun hp => absurd hp.1 ho, fun _ => hinc⟩

theorem crossEdge_eq (h : P.S.Shut) {m : Machine T} (hm : m.edge < P.S.tri.size) {s t : Option Bool} {x : HE} {q : Vec T}
    (hv : view P.S m = (x, q)) : ∃ m', m'.sectors = m.sectors ∧ m'.b0 = m.b0 ∧ m'.b1 = m.b1 ∧ m'.tmp = m.tmp ∧ m'.state = m.state ∧
      m'.edge = P.S.tri.nextInFace (neg x) ∧ P.S.chainVector m'.edgeEnd = apex P.S x q ∧ m'.moves = [] ∧ m'.edge < P.S.tri.size ∧
      crossEdge P m s t = match classify P m' with
        | .clockwise =>
          let beyond : Bool := match P.radius with
            | some r => !Vec.ltBound P.A (P.S.chainVector m'.edgeEnd) r
            | none => false
          ({ m' with moves := m'.moves ++ [.nextEdge], state := .start (some beyond) t :: .outsideClockwise :: m'.state }, false)
        | .counterclockwise => ({ m' with state := .start s none :: .outsideCounterclockwise :: m'.state }, false)
        | .saddleConnection => saddle P m' s t := by
  obtain ⟨a1, a2, a3, a4⟩ := applyMoves_spec (m := { m with moves := m.moves ++ [.otherFace] }) h hm
  have hv1 : view P.S { m with moves := m.moves ++ [.otherFace] } = (neg x, q - P.S.vec x) := by
    unfold view
    simp only
    rw [walk_append]
    change walk P.S [.otherFace] (view P.S m) = _
    rw [hv]
    rfl
  rw [hv1] at a1 a2
  generalize hm1 : applyMoves P.S { m with moves := m.moves ++ [.otherFace] } = m1 at *
  obtain ⟨c1, c2, c3, c4⟩ := applyMoves_spec (m := { m1 with moves := m1.moves ++ [.nextEdge] }) h a4
  have hv2 : view P.S { m1 with moves := m1.moves ++ [.nextEdge] } = (P.S.tri.nextInFace (neg x), apex P.S x q) := by
    unfold view
    simp only
    rw [a3, a1, a2]
    rfl
  rw [hv2] at c1 c2
  refine ⟨applyMoves P.S { m1 with moves := m1.moves ++ [.nextEdge] }, ?_, ?_, ?_, ?_, ?_, c1, c2, c3, c4, ?_⟩
  · rw [← hm1]; rfl
  · rw [← hm1]; rfl
  · rw [← hm1]; rfl
  · rw [← hm1]; rfl
  · rw [← hm1]; rfl
  · unfold crossEdge
    simp only
    rw [hm1, if_neg]
    · rfl
    · unfold Tri.boundary
      simpa using h.nb _ a4

theorem classify_eq {m : Machine T} {a : Vec T} (ha : P.S.chainVector m.edgeEnd = a) :
    (Cw (bd P.S m.b0) a → classify P m = .clockwise) ∧
    (0 < cross (bd P.S m.b0).2 a → 0 ≤ cross (bd P.S m.b1).2 a → classify P m = .counterclockwise) ∧
    (Sad (bd P.S m.b0) (bd P.S m.b1) a → classify P m = .saddleConnection) := by
  unfold classify bd
  simp only [ha]
  refine ⟨?_, ?_, ?_⟩
  · rintro (k | ⟨k, k'⟩)
    · rw [ccw_eq, ccwExact_clockwise.2 k]
    · rw [ccw_eq, ccwExact_collinear.2 k]
      simp only at k' ⊢
      rw [if_pos k']
  · intro k k'
    rw [ccw_eq, ccwExact_ccw.2 k]
    simp only [ccw_eq]
    have : ccwExact (m.b1.vec P.S) a ≠ .clockwise := fun k'' => absurd (ccwExact_clockwise.1 k'') (not_lt.2 k')
    revert this
    cases ccwExact (m.b1.vec P.S) a <;> simp
  · rintro (⟨k, k'⟩ | ⟨k, k'⟩)
    · rw [ccw_eq, ccwExact_collinear.2 k]
      simp only at k' ⊢
      rw [k']
      simp
    · rw [ccw_eq, ccwExact_ccw.2 k]
      simp only [ccw_eq]
      rw [ccwExact_clockwise.2 k']

/-- A vector in the same direction has the same things to its left. -/
theorem same_nonneg {u v z : Vec T} (h : cross u v = 0) (hd : 0 < dot u v) (hz : 0 ≤ cross u z) : 0 ≤ cross v z := by
  have e : dot u u * cross v z = dot u v * cross u z := by
    have : dot u u * cross v z - dot u v * cross u z = -(cross u v * dot u z) := by simp only [cross, dot]; ring
    rw [h] at this
    linear_combination this
  have hu : 0 < dot u u := dot_self_pos (by rintro rfl; simp [dot] at hd)
  have : 0 ≤ dot u u * cross v z := by rw [e]; positivity
  exact nonneg_of_mul_nonneg_right this hu

/-- The beginning of the sector does not change its direction. -/
theorem Visit.same {S : FlatTri T} {R : Option Bound} {L : Bound} (h : S.Shut) {s t : Option Bool} {b0 b1 : Bd T} {x : HE} {q : Vec T}
    {l : List (HE × Vec T)} {b : Bd T} (hv : Visit S R L s t b0 b1 x q l b) (hn : Node S b0 b1 x q) :
    cross b0.2 b.2 = 0 ∧ 0 < dot b0.2 b.2 := by
  have self : ∀ {b0 b1 : Bd T} {x : HE} {q : Vec T}, Node S b0 b1 x q → cross b0.2 b0.2 = 0 ∧ 0 < dot b0.2 b0.2 := by
    intro b0 b1 x q hn
    exact ⟨cross_self _, dot_pos_of_half hn.half0 hn.half0 (cross_self _)⟩
  induction hv with
  | prune => exact self hn
  | cw _ _ hc _ ih => exact ih (hn.clockwise h hc)
  | ccw _ _ h0 h1 _ ih => exact ih (hn.counterclockwise h h0 h1)
  | @saddle s t s' t' b0 b1 x q l l' b b' _ _ hs v1 v2 ih1 ih2 =>
    have ha := hn.halfa h
    have h01 : 0 ≤ cross b0.2 b1.2 := by
      rcases hn.b with hb | hb
      · exact hb.le
      · exact hb.2.ge
    have h1 : 0 ≤ cross (apex S x q) b1.2 := by
      rcases hs with hs | hs
      · exact cross_trans ha hn.half0 hn.half1 (by rw [cross_comm, hs.1, neg_zero]) h01
      · rw [cross_comm]; linarith
    have hend : shrinkEnd b1 (apex S x q) = (true, apex S x q) := by
      unfold shrinkEnd
      rw [if_pos]
      right
      rw [cross_comm]
      linarith
    rw [hend] at v1 ih1
    rcases hs with hs | hs
    · have ht : touch b0 (apex S x q) = (true, apex S x q) := by
        unfold touch; rw [if_pos ⟨hs.2, hs.1⟩]
      rw [ht] at v1
      rw [(v1.void (void_of_same ha ha (cross_self _))).2]
      exact ⟨hs.1, dot_pos_of_half hn.half0 ha hs.1⟩
    · have ht : touch b0 (apex S x q) = b0 := by
        unfold touch; rw [if_neg]; rintro ⟨-, k⟩; exact absurd hs.1 (by rw [k]; exact lt_irrefl _)
      rw [ht] at ih1
      exact ih1 (hn.first h hs.1)

theorem Void.order {b0 b1 : Bd T} (h : Void b0 b1) : 0 ≤ cross b0.2 b1.2 := by
  by_contra hc
  push Not at hc
  have := h.2 (-b0.2 - b1.2) (by
    have : cross b0.2 (-b0.2 - b1.2) = -cross b0.2 b1.2 := by simp only [cross, Vec.sub_x, Vec.sub_y, Vec.neg_x, Vec.neg_y]; ring
    rw [this]; linarith)
  have e : cross b1.2 (-b0.2 - b1.2) = cross b0.2 b1.2 := by simp only [cross, Vec.sub_x, Vec.sub_y, Vec.neg_x, Vec.neg_y]; ring
  rw [e] at this
  linarith

/-- The search sector is inside the cone of rays that cross an edge, or it is empty. -/
def Fine (S : FlatTri T) (b0 b1 : Bd T) (x : HE) (q : Vec T) : Prop := Node S b0 b1 x q ∨ Void b0 b1

theorem Fine.order {S : FlatTri T} {b0 b1 : Bd T} {x : HE} {q : Vec T} (h : Fine S b0 b1 x q) : 0 ≤ cross b0.2 b1.2 := by
  rcases h with h | h
  · rcases h.b with hb | hb
    · exact hb.le
    · exact hb.2.ge
  · exact h.order

theorem Visit.order {S : FlatTri T} {R : Option Bound} {L : Bound} (h : S.Shut) {s t : Option Bool} {b0 b1 : Bd T} {x : HE} {q : Vec T}
    {l : List (HE × Vec T)} {b : Bd T} (hv : Visit S R L s t b0 b1 x q l b) (hn : Fine S b0 b1 x q) : 0 ≤ cross b.2 b1.2 := by
  have ho := hn.order
  rcases hn with hn | hn
  · obtain ⟨h1, h2⟩ := hv.same h hn
    exact same_nonneg h1 h2 ho
  · rw [(hv.void hn).2]
    exact ho

/-- The machine when the search across an edge is over. -/
structure After (S : FlatTri T) (m m' : Machine T) (rest : List Label) (b : Bd T) : Prop where
  state : m'.state = rest
  sectors : m'.sectors = m.sectors
  b0 : bd S m'.b0 = b
  b1 : m'.b1 = m.b1
  tmp : m'.tmp = m.tmp
  lt : m'.edge < S.tri.size
  view : SaddleSearch.view S m' = SaddleSearch.view S m

theorem walk_back (h : P.S.Shut) {x : HE} {q : Vec T} :
    walk P.S [.nextEdge, .otherFace] (P.S.tri.nextInFace (P.S.tri.nextInFace (neg x)), q) = (x, q) := by
  rw [walk_cons, walk_cons, next_other]
  change (neg (P.S.tri.nextInFace (P.S.tri.nextInFace (P.S.tri.nextInFace (neg x)))), q) = _
  rw [next_three h, neg_neg']

theorem walk_second (h : P.S.Shut) {x : HE} (hx : x < P.S.tri.size) {q : Vec T} :
    vmove P.S .nextEdge (P.S.tri.nextInFace (neg x), apex P.S x q) = (P.S.tri.nextInFace (P.S.tri.nextInFace (neg x)), q) := by
  obtain ⟨-, -, -, h4, -⟩ := apex_spec (q := q) h hx
  unfold vmove
  dsimp only
  refine Prod.ext rfl ?_
  dsimp only
  rw [← h4]
  abel

theorem view_append {S : FlatTri T} {m : Machine T} (ms : List Move) : view S { m with moves := m.moves ++ ms } = walk S ms (view S m) := by
  unfold view
  simp only
  rw [walk_append]

theorem view_nil {S : FlatTri T} {m : Machine T} (hm : m.moves = []) : view S m = (m.edge, S.chainVector m.edgeEnd) := by
  unfold view
  rw [hm]
  rfl

/-- The machine does what the search across an edge should do. -/
theorem Visit.sim (h : P.S.Shut) {r : Bound} (hr : P.radius = some r) {s t : Option Bool} {b0 b1 : Bd T} {x : HE} {q : Vec T}
    {l : List (HE × Vec T)} {b : Bd T} (hv : Visit P.S (some r) P.lower s t b0 b1 x q l b) :
    ∀ (m : Machine T) (rest : List Label) (sec : SaddleConnections.Sector T) (ss : List (SaddleConnections.Sector T)), Fine P.S b0 b1 x q →
      m.state = .start s t :: rest → m.sectors = sec :: ss → m.edge < P.S.tri.size → view P.S m = (x, q) → bd P.S m.b0 = b0 →
      bd P.S m.b1 = b1 → ∃ m' l', After P.S m m' rest b ∧ l'.map (fun c => (c.target, P.S.saddleVector c)) = l ∧
        (∀ c ∈ l', c.source = sec.source) ∧ ∀ tail, Runs P m' tail → Runs P m (l' ++ tail) := by
  induction hv with
  | @prune s t s' t' b0 b1 x q hst hp =>
    intro m rest sec ss hfine hs hsec hm hview hb0 hb1
    obtain ⟨m', k1, k2, k3, -⟩ := start_step h hr hm hs hview ⟨by rw [hsec]; simp, by
      have := hfine.order; rw [← hb0, ← hb1] at this; exact this⟩ hst
    exact ⟨m', [], ⟨k2, k1.sectors, by rw [k1.b0, hb0], k1.b1, k1.tmp, k1.lt, k1.view⟩, rfl, fun c hc => absurd hc (by simp),
      fun tail ht => .quiet (k3 hp) ht⟩
  | @cw s t s' t' b0 b1 x q l b hst hp hc hvis ih =>
    intro m rest sec ss hfine hs hsec hm hview hb0 hb1
    obtain ⟨m1, k1, k2, -, k3⟩ := start_step h hr hm hs hview ⟨by rw [hsec]; simp, by
      have := hfine.order; rw [← hb0, ← hb1] at this; exact this⟩ hst
    have hview1 : view P.S m1 = (x, q) := k1.view.trans hview
    have hx : x < P.S.tri.size := by
      have := walk_lt h m.moves (p := (m.edge, P.S.chainVector m.edgeEnd)) hm
      change (view P.S m).1 < _ at this
      rwa [hview] at this
    obtain ⟨m2, e1, e2, e3, e4, e5, e6, e7, e8, e9, e10⟩ := crossEdge_eq h k1.lt (s := s') (t := t') hview1
    have hcl := (classify_eq (m := m2) e7).1 (by rw [e2, k1.b0, hb0]; exact hc)
    rw [hcl] at e10
    simp only [hr, e7, ltBound_eq] at e10
    have hfine' : Fine P.S b0 b1 (P.S.tri.nextInFace (P.S.tri.nextInFace (neg x))) q := hfine.imp (fun hn => hn.clockwise h hc) id
    have hview2 : view P.S { m2 with moves := m2.moves ++ [.nextEdge], state := .start (some (notNear (some r) (apex P.S x q))) t' :: .outsideClockwise :: m2.state } =
        (P.S.tri.nextInFace (P.S.tri.nextInFace (neg x)), q) := by
      change view P.S { m2 with moves := m2.moves ++ [.nextEdge] } = _
      rw [view_append, view_nil e8, e6, e7]
      exact walk_second h hx
    obtain ⟨m3, l3, a, a1, a2, a3⟩ := ih { m2 with moves := m2.moves ++ [.nextEdge], state := .start (some (notNear (some r) (apex P.S x q))) t' :: .outsideClockwise :: m2.state }
      (.outsideClockwise :: m2.state) sec ss hfine' rfl (e1.trans (k1.sectors.trans hsec)) e9 hview2
      (by rw [← hb0, ← k1.b0, ← e2]) (by rw [← hb1, ← k1.b1, ← e3])
    have hb1' : m3.b1 = m.b1 := a.b1.trans (e3.trans k1.b1)
    have hsec' : m3.sectors = m.sectors := a.sectors.trans (e1.trans k1.sectors)
    refine ⟨{ m3 with state := m2.state, moves := m3.moves ++ [.nextEdge, .otherFace] }, l3, ⟨e5.trans k2, hsec', a.b0, hb1',
      a.tmp.trans (e4.trans k1.tmp), a.lt, ?_⟩, a1, a2, fun tail ht => ?_⟩
    · change view P.S { m3 with moves := m3.moves ++ [.nextEdge, .otherFace] } = _
      rw [view_append, a.view, hview2, walk_back h, hview]
    · refine .quiet (by rw [k3 hp, e10]; rfl) (a3 tail (.quiet ?_ ht))
      unfold increment
      rw [if_neg (Guard.not ⟨by rw [hsec', hsec]; simp, ?_⟩), a.state]
      have := hvis.order h hfine'
      rw [← hb1, ← hb1', ← a.b0] at this
      exact this
  | @ccw s t s' t' b0 b1 x q l b hst hp h0 h1 hvis ih =>
    intro m rest sec ss hfine hs hsec hm hview hb0 hb1
    obtain ⟨m1, k1, k2, -, k3⟩ := start_step h hr hm hs hview ⟨by rw [hsec]; simp, by
      have := hfine.order; rw [← hb0, ← hb1] at this; exact this⟩ hst
    have hview1 : view P.S m1 = (x, q) := k1.view.trans hview
    have hx : x < P.S.tri.size := by
      have := walk_lt h m.moves (p := (m.edge, P.S.chainVector m.edgeEnd)) hm
      change (view P.S m).1 < _ at this
      rwa [hview] at this
    obtain ⟨m2, e1, e2, e3, e4, e5, e6, e7, e8, e9, e10⟩ := crossEdge_eq h k1.lt (s := s') (t := t') hview1
    have hcl := (classify_eq (m := m2) e7).2.1 (by rw [e2, k1.b0, hb0]; exact h0) (by rw [e3, k1.b1, hb1]; exact h1)
    rw [hcl] at e10
    simp only at e10
    have hfine' : Fine P.S b0 b1 (P.S.tri.nextInFace (neg x)) (apex P.S x q) := hfine.imp (fun hn => hn.counterclockwise h h0 h1) id
    have hview2 : view P.S { m2 with state := .start s' none :: .outsideCounterclockwise :: m2.state } =
        (P.S.tri.nextInFace (neg x), apex P.S x q) := by
      change view P.S m2 = _
      rw [view_nil e8, e6, e7]
    obtain ⟨m3, l3, a, a1, a2, a3⟩ := ih { m2 with state := .start s' none :: .outsideCounterclockwise :: m2.state }
      (.outsideCounterclockwise :: m2.state) sec ss hfine' rfl (e1.trans (k1.sectors.trans hsec)) e9 hview2
      (by rw [← hb0, ← k1.b0, ← e2]) (by rw [← hb1, ← k1.b1, ← e3])
    have hb1' : m3.b1 = m.b1 := a.b1.trans (e3.trans k1.b1)
    have hsec' : m3.sectors = m.sectors := a.sectors.trans (e1.trans k1.sectors)
    refine ⟨{ m3 with state := m2.state, moves := m3.moves ++ [.nextEdge, .nextEdge, .otherFace] }, l3, ⟨e5.trans k2, hsec', a.b0, hb1',
      a.tmp.trans (e4.trans k1.tmp), a.lt, ?_⟩, a1, a2, fun tail ht => ?_⟩
    · change view P.S { m3 with moves := m3.moves ++ [.nextEdge, .nextEdge, .otherFace] } = _
      rw [view_append, a.view, hview2, walk_cons, walk_second h hx, walk_back h, hview]
    · refine .quiet (by rw [k3 hp, e10]) (a3 tail (.quiet ?_ ht))
      unfold increment
      rw [if_neg (Guard.not ⟨by rw [hsec', hsec]; simp, ?_⟩), a.state]
      have := hvis.order h hfine'
      rw [← hb1, ← hb1', ← a.b0] at this
      exact this
  | @saddle s t s' t' b0 b1 x q l l' b b' hst hp hsad hv1 hv2 ih1 ih2 =>
    intro m rest sec ss hfine hs hsec hm hview hb0 hb1
    obtain ⟨m1, k1, k2, -, k3⟩ := start_step h hr hm hs hview ⟨by rw [hsec]; simp, by
      have := hfine.order; rw [← hb0, ← hb1] at this; exact this⟩ hst
    have hview1 : view P.S m1 = (x, q) := k1.view.trans hview
    have hn : Node P.S b0 b1 x q := by
      rcases hfine with hn | hn
      · exact hn
      · exfalso
        rcases hsad with k | k
        · rw [hn.1] at k; exact absurd k.2 (by decide)
        · exact absurd k.2 (not_lt.2 (hn.2 _ k.1))
    have hx := hn.lt
    have ha := hn.halfa h
    have h01 := hfine.order
    have n0 : 0 ≤ cross b0.2 (apex P.S x q) := by
      rcases hsad with k | k
      · exact k.1.ge
      · exact k.1.le
    have n1 : 0 ≤ cross (apex P.S x q) b1.2 := by
      rcases hsad with k | k
      · exact cross_trans ha hn.half0 hn.half1 (by rw [cross_comm, k.1, neg_zero]) h01
      · rw [cross_comm]; linarith
    have hend : shrinkEnd b1 (apex P.S x q) = (true, apex P.S x q) := by
      unfold shrinkEnd
      rw [if_pos]
      right
      rw [cross_comm]
      linarith
    have hane : apex P.S x q ≠ 0 := by intro k; rw [k] at ha; simp at ha
    -- The first part.
    have hfine1 : Fine P.S (touch b0 (apex P.S x q)) (shrinkEnd b1 (apex P.S x q)) (P.S.tri.nextInFace (neg x)) (apex P.S x q) := by
      rw [hend]
      rcases hsad with k | k
      · right
        unfold touch
        rw [if_pos ⟨k.2, k.1⟩]
        exact void_of_same ha ha (cross_self _)
      · left
        unfold touch
        rw [if_neg (by rintro ⟨-, k'⟩; exact absurd k.1 (by rw [k']; exact lt_irrefl _))]
        exact hn.first h k.1
    have hb : 0 ≤ cross b.2 (apex P.S x q) := by
      have := hv1.order h hfine1
      rw [hend] at this
      exact this
    have hbeg : shrinkBegin b (apex P.S x q) = (true, apex P.S x q) := by
      unfold shrinkBegin
      rw [if_pos (Or.inr (not_lt.2 hb))]
    have hfine2 : Fine P.S (shrinkBegin b (apex P.S x q)) b1 (P.S.tri.nextInFace (P.S.tri.nextInFace (neg x))) q := by
      rw [hbeg]
      rcases n1.lt_or_eq with k | k
      · exact Or.inl (hn.second h k)
      · exact Or.inr (void_of_same ha hn.half1 k.symm)
    obtain ⟨m2, e1, e2, e3, e4, e5, e6, e7, e8, e9, e10⟩ := crossEdge_eq h k1.lt (s := s') (t := t') hview1
    have hm2b0 : bd P.S m2.b0 = b0 := by rw [e2, k1.b0, hb0]
    have hm2b1 : bd P.S m2.b1 = b1 := by rw [e3, k1.b1, hb1]
    have hcl := (classify_eq (m := m2) e7).2.2 (by rw [hm2b0, hm2b1]; exact hsad)
    rw [hcl] at e10
    simp only at e10
    -- The machine after crossing the edge.
    obtain ⟨b0', hb0'⟩ : ∃ b0', b0' = if m2.b0.isChain = false ∧ Vec.ccw P.A (m2.b0.vec P.S) (apex P.S x q) = .collinear then
      .chain m2.edgeEnd else m2.b0 := ⟨_, rfl⟩
    obtain ⟨b1', hb1'⟩ : ∃ b1', b1' = if m2.b1.isChain ∨ Vec.ccw P.A (m2.b1.vec P.S) (apex P.S x q) ≠ .counterclockwise then
      .chain m2.edgeEnd else m2.b1 := ⟨_, rfl⟩
    have hchain : bd P.S (.chain m2.edgeEnd) = (true, apex P.S x q) := by
      rw [← e7]
      rfl
    have hbd0 : bd P.S b0' = touch b0 (apex P.S x q) := by
      rw [hb0', ← hm2b0]
      unfold touch
      simp only [ccw_eq, ccwExact_collinear]
      change bd P.S (if (bd P.S m2.b0).1 = false ∧ cross (bd P.S m2.b0).2 (apex P.S x q) = 0 then _ else _) = _
      split_ifs
      · exact hchain
      · rfl
    have hbd1 : bd P.S b1' = shrinkEnd b1 (apex P.S x q) := by
      rw [hb1', ← hm2b1]
      unfold shrinkEnd
      simp only [ccw_eq, ne_eq, ccwExact_ccw]
      change bd P.S (if (bd P.S m2.b1).1 = true ∨ ¬0 < cross (bd P.S m2.b1).2 (apex P.S x q) then _ else _) = _
      split_ifs
      · exact hchain
      · rfl
    have hfar : (match P.radius with
        | some r => Vec.gtBound P.A (apex P.S x q) r
        | none => false) = far (some r) (apex P.S x q) := by
      rw [hr]
      simp only [gtBound_eq]
      rfl
    have hlow : Vec.gtBound P.A (apex P.S x q) P.lower = decide ((P.lower.square : T) < dot (apex P.S x q) (apex P.S x q)) := gtBound_eq _ _ _
    obtain ⟨st, hst'⟩ : ∃ st : List Label, st = .start s' (some (far (some r) (apex P.S x q))) :: .searchingFirst ::
      .start (some (far (some r) (apex P.S x q))) t' :: .searchingSecond :: m2.state := ⟨_, rfl⟩
    have e11 : crossEdge P m1 s' t' = if far (some r) (apex P.S x q) = true then
        ({ m2 with b0 := b0', b1 := b1', tmp := m2.b1 :: m2.tmp, state := st }, false)
        else ({ m2 with b0 := b0', b1 := b1', tmp := m2.b1 :: m2.tmp, state := .found :: st },
          decide ((P.lower.square : T) < dot (apex P.S x q) (apex P.S x q))) := by
      rw [e10]
      unfold SaddleSearch.saddle
      simp only [e7, hr, gtBound_eq]
      rw [hb0', hb1', hst']
      rfl
    -- The first part of the search.
    have hview2 : view P.S { m2 with b0 := b0', b1 := b1', tmp := m2.b1 :: m2.tmp, state := st } =
        (P.S.tri.nextInFace (neg x), apex P.S x q) := by
      change view P.S m2 = _
      rw [view_nil e8, e6, e7]
    have hsec2 : m2.sectors = sec :: ss := e1.trans (k1.sectors.trans hsec)
    obtain ⟨m3, l3, a, a1, a2, a3⟩ := ih1 { m2 with b0 := b0', b1 := b1', tmp := m2.b1 :: m2.tmp, state := st }
      _ sec ss hfine1 hst' hsec2 e9 hview2 hbd0 hbd1
    have hsec3 : m3.sectors = sec :: ss := a.sectors.trans hsec2
    obtain ⟨c1, c2, c3, c4⟩ := applyMoves_spec (m := { m3 with
      state := .start (some (far (some r) (apex P.S x q))) t' :: .searchingSecond :: m2.state, b1 := m2.b1, tmp := m2.tmp }) h a.lt
    have hview3 : view P.S { m3 with
        state := .start (some (far (some r) (apex P.S x q))) t' :: .searchingSecond :: m2.state, b1 := m2.b1, tmp := m2.tmp } =
        (P.S.tri.nextInFace (neg x), apex P.S x q) := by
      change view P.S m3 = _
      rw [a.view, hview2]
    rw [hview3] at c1 c2
    -- The machine in between.
    obtain ⟨m4, hm4⟩ : ∃ m4, m4 = applyMoves P.S { m3 with
      state := .start (some (far (some r) (apex P.S x q))) t' :: .searchingSecond :: m2.state, b1 := m2.b1, tmp := m2.tmp } := ⟨_, rfl⟩
    have f1 : m4.b0 = m3.b0 := by rw [hm4]; rfl
    have f2 : m4.tmp = m2.tmp := by rw [hm4]; rfl
    have f3 : m4.b1 = m2.b1 := by rw [hm4]; rfl
    have f4 : m4.sectors = sec :: ss := by rw [hm4]; exact hsec3
    have f5 : m4.state = .start (some (far (some r) (apex P.S x q))) t' :: .searchingSecond :: m2.state := by rw [hm4]; rfl
    rw [← hm4] at c1 c2 c3 c4
    obtain ⟨b0'', hb0''⟩ : ∃ b0'', b0'' = if m4.b0.isChain ∨ Vec.ccw P.A (m4.b0.vec P.S) (apex P.S x q) ≠ .clockwise then
      .chain m4.edgeEnd else m4.b0 := ⟨_, rfl⟩
    have hbd0'' : bd P.S b0'' = shrinkBegin b (apex P.S x q) := by
      have hchain' : bd P.S (.chain m4.edgeEnd) = (true, apex P.S x q) := by
        refine Prod.ext rfl ?_
        exact c2
      have : bd P.S m4.b0 = b := by rw [f1, a.b0]
      rw [hb0'', ← this]
      unfold shrinkBegin
      simp only [ccw_eq, ne_eq, ccwExact_clockwise]
      change bd P.S (if (bd P.S m4.b0).1 = true ∨ ¬cross (bd P.S m4.b0).2 (apex P.S x q) < 0 then _ else _) = _
      split_ifs
      · exact hchain'
      · rfl
    have hinc3 : increment P m3 = .ok ({ m4 with tmp := m4.b0 :: m4.tmp, b0 := b0'', moves := m4.moves ++ [.nextEdge] }, false) := by
      unfold increment
      rw [if_neg (Guard.not ⟨by rw [hsec3]; simp, ?_⟩), a.state]
      · simp only
        rw [a.tmp]
        simp only
        rw [← hm4, c2, hb0'']
      · have := hv1.order h hfine1
        rw [← hbd1, ← a.b0] at this
        rw [a.b1]
        exact this
    have hview4 : view P.S { m4 with tmp := m4.b0 :: m4.tmp, b0 := b0'', moves := m4.moves ++ [.nextEdge] } =
        (P.S.tri.nextInFace (P.S.tri.nextInFace (neg x)), q) := by
      change view P.S { m4 with moves := m4.moves ++ [.nextEdge] } = _
      rw [view_append, view_nil c3, c1, c2]
      exact walk_second h hx
    obtain ⟨m5, l5, d, d1, d2, d3⟩ := ih2 { m4 with tmp := m4.b0 :: m4.tmp, b0 := b0'', moves := m4.moves ++ [.nextEdge] }
      _ sec ss hfine2 f5 f4 c4 hview4 hbd0'' (by change bd P.S m4.b1 = b1; rw [f3, hm2b1])
    have hsec5 : m5.sectors = sec :: ss := d.sectors.trans f4
    have hinc5 : increment P m5 = .ok ({ m5 with state := m2.state, b0 := m4.b0, tmp := m4.tmp, moves := m5.moves ++ [.nextEdge, .otherFace] }, false) := by
      unfold increment
      rw [if_neg (Guard.not ⟨by rw [hsec5]; simp, ?_⟩), d.state]
      · simp only
        rw [d.tmp]
      · have := hv2.order h hfine2
        rw [← d.b0, ← hm2b1, ← f3] at this
        rw [d.b1]
        exact this
    have hafter : After P.S m { m5 with state := m2.state, b0 := m4.b0, tmp := m4.tmp, moves := m5.moves ++ [.nextEdge, .otherFace] } rest b := by
      refine ⟨e5.trans k2, hsec5.trans hsec.symm, by rw [← a.b0, ← f1], d.b1.trans (f3.trans (e3.trans k1.b1)),
        f2.trans (e4.trans k1.tmp), d.lt, ?_⟩
      change view P.S { m5 with moves := m5.moves ++ [.nextEdge, .otherFace] } = _
      rw [view_append, d.view, hview4, walk_back h, hview]
    have hrun : ∀ tail, Runs P { m5 with state := m2.state, b0 := m4.b0, tmp := m4.tmp, moves := m5.moves ++ [.nextEdge, .otherFace] } tail →
        Runs P { m2 with b0 := b0', b1 := b1', tmp := m2.b1 :: m2.tmp, state := st } (l3 ++ (l5 ++ tail)) :=
      fun tail ht => a3 _ (.quiet hinc3 (d3 _ (.quiet hinc5 ht)))
    have hguard : Guard P { m2 with b0 := b0', b1 := b1', tmp := m2.b1 :: m2.tmp, state := .found :: st } := by
      refine ⟨by change m2.sectors ≠ []; rw [hsec2]; simp, ?_⟩
      have := hfine1.order
      rw [← hbd0, ← hbd1] at this
      exact this
    have hfound : increment P { m2 with b0 := b0', b1 := b1', tmp := m2.b1 :: m2.tmp, state := .found :: st } =
        .ok ({ m2 with b0 := b0', b1 := b1', tmp := m2.b1 :: m2.tmp, state := st }, false) := by
      unfold increment
      rw [if_neg hguard.not]
    by_cases hw : far (some r) (apex P.S x q) = false ∧ (P.lower.square : T) < dot (apex P.S x q) (apex P.S x q)
    · refine ⟨_, ⟨sec.source, P.S.tri.nextInFace (P.S.tri.nextInFace (neg x)), m2.edgeEnd⟩ :: (l3 ++ l5), hafter, ?_, ?_, fun tail ht => ?_⟩
      · rw [if_pos hw, List.map_cons, List.map_append, a1, d1]
        unfold saddleVector
        rw [e7]
        rfl
      · intro c hc
        rcases List.mem_cons.1 hc with rfl | hc
        · rfl
        · rcases List.mem_append.1 hc with hc | hc
          · exact a2 c hc
          · exact d2 c hc
      · rw [List.cons_append, List.append_assoc]
        refine .report (m' := { m2 with b0 := b0', b1 := b1', tmp := m2.b1 :: m2.tmp, state := .found :: st }) ?_ hguard.sectors ?_
          (.quiet hfound (hrun tail ht))
        · rw [k3 hp, e11, if_neg (by rw [hw.1]; decide), decide_eq_true hw.2]
        · have hmake : Saddle.make P.dbg P.S.tri.size sec.source (P.S.tri.previousAtVertex (neg m2.edge)) m2.edgeEnd =
              .ok ⟨sec.source, P.S.tri.nextInFace (P.S.tri.nextInFace (neg x)), m2.edgeEnd⟩ := by
            have hprev : P.S.tri.previousAtVertex (neg m2.edge) = P.S.tri.nextInFace (P.S.tri.nextInFace (neg x)) := by
              rw [h.previousAtVertex (neg_lt_of_even h.even e9), neg_neg', e6]
              rfl
            unfold Saddle.make
            rw [if_neg, hprev]
            intro hz
            rw [Bool.and_eq_true] at hz
            have hz' := hz.2
            rw [List.all_eq_true] at hz'
            apply hane
            rw [← e7, chainVector_congr P.S (c' := fun _ => 0), chainVector_zero]
            intro i hi
            have := hz' i (List.mem_range.2 hi)
            simpa using this
          unfold dereference
          simp only [hsec2, hmake]
          have hg1 : (match P.radius with
              | some r => Vec.gtBound P.A (P.S.saddleVector ⟨sec.source, P.S.tri.nextInFace (P.S.tri.nextInFace (neg x)), m2.edgeEnd⟩) r
              | none => false) = false := by
            unfold saddleVector
            simp only [e7]
            rw [hfar, hw.1]
          have hg2 : Vec.gtBound P.A (P.S.saddleVector ⟨sec.source, P.S.tri.nextInFace (P.S.tri.nextInFace (neg x)), m2.edgeEnd⟩) P.lower = true := by
            unfold saddleVector
            simp only [e7]
            rw [hlow, decide_eq_true hw.2]
          simp only [bind, Except.bind, pure, Except.pure]
          rw [if_neg]
          rintro ⟨-, k | k⟩
          · exact absurd (hg1.symm.trans k) (by decide)
          · exact k hg2
    · refine ⟨_, l3 ++ l5, hafter, ?_, ?_, fun tail ht => ?_⟩
      · rw [if_neg hw, List.map_append, a1, d1, List.nil_append]
      · intro c hc
        rcases List.mem_append.1 hc with hc | hc
        · exact a2 c hc
        · exact d2 c hc
      · rw [List.append_assoc]
        by_cases hfar' : far (some r) (apex P.S x q) = true
        · refine .quiet ?_ (hrun tail ht)
          rw [k3 hp, e11, if_pos hfar']
        · refine .quiet (m' := { m2 with b0 := b0', b1 := b1', tmp := m2.b1 :: m2.tmp, state := .found :: st }) ?_
            (.quiet hfound (hrun tail ht))
          rw [k3 hp, e11, if_neg hfar', decide_eq_false]
          intro k
          exact hw ⟨by simpa using hfar', k⟩

end SaddleSearch

end Verif
