import Verif.Model.SaddleSample
import Verif.Lemmas.SaddlePath
import Verif.Lemmas.SaddleExists
import Verif.Lemmas.Chain

set_option linter.unusedSectionVars false

/-!
# Sampling saddle connections
-/

namespace Verif

open Vec Spec FlatTri

variable {T : Type} [CommRing T] [LinearOrder T] [IsStrictOrderedRing T]
variable {K : Type} [Field K] [LinearOrder K] [IsStrictOrderedRing K]

namespace SaddleSample

open SaddleSearch

theorem bump_neg (c : ℕ → ℤ) (x : HE) : Chain.bump (Chain.bump c x) (neg x) = c := by
  have h := neg_def x
  funext k
  unfold Chain.bump
  rw [neg_div]
  by_cases hk : k = x / 2
  · subst hk
    simp only [Function.update_self]
    by_cases hx : x = 2 * (x / 2)
    · rw [if_pos hx, if_neg (by rw [h]; split_ifs <;> omega)]; ring
    · rw [if_neg hx, if_pos (by rw [h]; split_ifs <;> omega)]; ring
  · simp only [Function.update_of_ne hk]

/-- The chain to the vertex of the triangle on the other side of a half edge. -/
def apexChain (S : FlatTri T) (x : HE) (Q : ℕ → ℤ) : ℕ → ℤ := Chain.bump (Chain.bump Q (neg x)) (S.tri.nextInFace (neg x))

/-- Following a ray until it hits a vertex, also with the chain that is built up. -/
inductive Chained (S : FlatTri T) (v : Vec T) : HE → (ℕ → ℤ) → HE → (ℕ → ℤ) → Prop
  | here {x : HE} {Q : ℕ → ℤ} : v = S.chainVector (apexChain S x Q) →
      Chained S v x Q (S.tri.nextInFace (S.tri.nextInFace (neg x))) (apexChain S x Q)
  | right {x : HE} {Q : ℕ → ℤ} {t : HE} {c : ℕ → ℤ} : 0 < cross v (S.chainVector (apexChain S x Q)) →
      Chained S v (S.tri.nextInFace (neg x)) (apexChain S x Q) t c → Chained S v x Q t c
  | left {x : HE} {Q : ℕ → ℤ} {t : HE} {c : ℕ → ℤ} : cross v (S.chainVector (apexChain S x Q)) < 0 →
      Chained S v (S.tri.nextInFace (S.tri.nextInFace (neg x)))
        (Chain.bump (apexChain S x Q) (S.tri.nextInFace (S.tri.nextInFace (neg x)))) t c → Chained S v x Q t c

variable {S : FlatTri T}

theorem chainVector_apex (h : S.Shut) {x : HE} (hx : x < S.tri.size) (Q : ℕ → ℤ) :
    S.chainVector (apexChain S x Q) = apex S x (S.chainVector Q) := by
  have hn := neg_lt_of_even h.even hx
  unfold apexChain apex
  rw [chainVector_bump h.even h.flat.odd _ (next_lt h hn), chainVector_bump h.even h.flat.odd _ hn, h.flat.odd _ hx, sub_eq_add_neg]

theorem chainVector_second (h : S.Shut) {x : HE} (hx : x < S.tri.size) (Q : ℕ → ℤ) :
    S.chainVector (Chain.bump (apexChain S x Q) (S.tri.nextInFace (S.tri.nextInFace (neg x)))) = S.chainVector Q := by
  obtain ⟨-, h1, -, h2, -⟩ := apex_spec (q := S.chainVector Q) h hx
  rw [chainVector_bump h.even h.flat.odd _ h1, chainVector_apex h hx, ← h2]
  abel

theorem Chained.hits (h : S.Shut) {v : Vec T} {x : HE} {Q : ℕ → ℤ} {t : HE} {c : ℕ → ℤ} (hc : Chained S v x Q t c) :
    x < S.tri.size → Hits S v x (S.chainVector Q) t ∧ S.chainVector c = v := by
  induction hc with
  | here hv =>
    intro hx
    exact ⟨.here (hv.trans (chainVector_apex h hx _)), hv.symm⟩
  | right hv _ ih =>
    intro hx
    rw [chainVector_apex h hx] at hv ih
    exact ⟨.right hv (ih (apex_spec (q := 0) h hx).1).1, (ih (apex_spec (q := 0) h hx).1).2⟩
  | left hv _ ih =>
    intro hx
    rw [chainVector_apex h hx] at hv
    rw [chainVector_second h hx] at ih
    exact ⟨.left hv (ih (apex_spec (q := 0) h hx).2.1).1, (ih (apex_spec (q := 0) h hx).2.1).2⟩

theorem Chained.unique {v : Vec T} {x : HE} {Q : ℕ → ℤ} {t t' : HE} {c c' : ℕ → ℤ} (h : Chained S v x Q t c) (h' : Chained S v x Q t' c') :
    t = t' ∧ c = c' := by
  induction h generalizing t' c' with
  | here hv =>
    cases h' with
    | here => exact ⟨rfl, rfl⟩
    | right k _ => rw [← hv, cross_self] at k; exact absurd k (lt_irrefl _)
    | left k _ => rw [← hv, cross_self] at k; exact absurd k (lt_irrefl _)
  | right hv _ ih =>
    cases h' with
    | here k => rw [← k, cross_self] at hv; exact absurd hv (lt_irrefl _)
    | right _ k => exact ih k
    | left k _ => exact absurd hv (not_lt.2 k.le)
  | left hv _ ih =>
    cases h' with
    | here k => rw [← k, cross_self] at hv; exact absurd hv (lt_irrefl _)
    | right k _ => exact absurd hv (not_lt.2 k.le)
    | left _ k => exact ih k

/-- The end of the half edge opposite to a corner. -/
def opposite (S : FlatTri T) (e : HE) : Vec T := S.vec e + S.vec (S.tri.nextInFace e)

/-- The chain to the end of the half edge opposite to a corner. -/
def oppositeChain (S : FlatTri T) (e : HE) : ℕ → ℤ := Chain.bump (Chain.bump (fun _ => 0) e) (S.tri.nextInFace e)

theorem chainVector_opposite (h : S.Shut) {e : HE} (he : e < S.tri.size) : S.chainVector (oppositeChain S e) = opposite S e := by
  unfold oppositeChain opposite
  rw [chainVector_bump h.even h.flat.odd _ (next_lt h he), chainVector_bump h.even h.flat.odd _ he, chainVector_zero, zero_add]

/-- A saddle connection in the interior of a corner, with the chain that the search builds up. -/
structure Traced (S : FlatTri T) (c : Saddle) : Prop where
  left : 0 < cross (S.vec c.source) (S.saddleVector c)
  right : 0 < cross (S.saddleVector c) (opposite S c.source)
  chained : Chained S (S.saddleVector c) (S.tri.nextInFace c.source) (oppositeChain S c.source) c.target c.chain

theorem Traced.isSaddle (h : S.Shut) {c : Saddle} (hc : Traced S c) (he : c.source < S.tri.size) :
    IsSaddleConnection S c.source (S.saddleVector c) c.target := by
  have := (hc.chained.hits h (next_lt h he)).1
  rw [chainVector_opposite h he] at this
  exact .crossing hc.left hc.right this

theorem Traced.unique {c d : Saddle} (hc : Traced S c) (hd : Traced S d) (h1 : c.source = d.source) (h2 : S.saddleVector c = S.saddleVector d) :
    c = d := by
  obtain ⟨s, t, c⟩ := c
  obtain ⟨s', t', d⟩ := d
  obtain rfl : s = s' := h1
  have k := hc.chained
  rw [h2] at k
  obtain ⟨rfl, rfl⟩ := k.unique hd.chained
  rfl

variable {P : Params T K}

/-- Where the search is, once the pending moves have been made. -/
def Pending (S : FlatTri T) (x : HE) (Q : ℕ → ℤ) (m : Machine T) : Prop :=
  m.moves = [] ∧ m.edge = x ∧ m.edgeEnd = Q ∨ m.moves = [.nextEdge] ∧ S.tri.nextInFace m.edge = x ∧ Chain.bump m.edgeEnd x = Q

theorem cross_chain (h : P.S.Shut) (hr : P.radius = none) {m : Machine T} (hm : m.edge < P.S.tri.size) {s t : Option Bool} {x : HE} {Q : ℕ → ℤ}
    (hp : Pending P.S x Q m) : ∃ m', m'.sectors = m.sectors ∧ m'.b0 = m.b0 ∧ m'.b1 = m.b1 ∧ m'.tmp = m.tmp ∧ m'.state = m.state ∧
      m'.edge = P.S.tri.nextInFace (neg x) ∧ m'.edgeEnd = apexChain P.S x Q ∧ m'.moves = [] ∧ m'.edge < P.S.tri.size ∧ x < P.S.tri.size ∧
      crossEdge P m s t = match classify P m' with
        | .clockwise => ({ m' with moves := [.nextEdge], state := .start (some false) t :: .outsideClockwise :: m'.state }, false)
        | .counterclockwise => ({ m' with state := .start s none :: .outsideCounterclockwise :: m'.state }, false)
        | .saddleConnection => saddle P m' s t := by
  have hx : x < P.S.tri.size := by
    rcases hp with ⟨-, h1, -⟩ | ⟨-, h1, -⟩
    · exact h1 ▸ hm
    · exact h1 ▸ next_lt h hm
  have hn := neg_lt_of_even h.even hx
  have h1 : applyMoves P.S { m with moves := m.moves ++ [.otherFace] } = { m with edge := neg x, edgeEnd := Chain.bump Q (neg x), moves := [] } := by
    rcases hp with ⟨h1, h2, h3⟩ | ⟨h1, h2, h3⟩
    · unfold applyMoves
      simp only [h1, h2, h3]
      rfl
    · unfold applyMoves
      simp only [h1]
      have : applyMovesLoop P.S 4 [.nextEdge, .otherFace] (m.edge, m.edgeEnd) = (neg x, Chain.bump Q (neg x)) := by
        rw [← h3, bump_neg, ← h2]
        rfl
      change { m with edge := (applyMovesLoop P.S 4 [.nextEdge, .otherFace] (m.edge, m.edgeEnd)).1, edgeEnd := (applyMovesLoop P.S 4 [.nextEdge, .otherFace] (m.edge, m.edgeEnd)).2, moves := [] } = _
      rw [this]
  refine ⟨{ m with edge := P.S.tri.nextInFace (neg x), edgeEnd := apexChain P.S x Q, moves := [] }, rfl, rfl, rfl, rfl, rfl, rfl, rfl, rfl,
    next_lt h hn, hx, ?_⟩
  unfold crossEdge
  simp only
  rw [h1]
  simp only
  rw [if_neg (by unfold Tri.boundary; simpa using h.nb _ hn)]
  have h2 : applyMoves P.S { m with edge := neg x, edgeEnd := Chain.bump Q (neg x), moves := [] ++ [.nextEdge] } =
      { m with edge := P.S.tri.nextInFace (neg x), edgeEnd := apexChain P.S x Q, moves := [] } := rfl
  rw [h2]
  simp only [hr]
  rfl

/-- The search is about to cross the half edge `x`. -/
structure Going (P : Params T K) (e : HE) (x : HE) (Q : ℕ → ℤ) (m : Machine T) : Prop extends Course P e m where
  state : ∃ s t rest, m.state = .start s t :: rest ∧ s ≠ some true ∧ t ≠ some true
  pending : Pending P.S x Q m
  chain0 : m.b0.isChain = true
  chain1 : m.b1.isChain = true
  node : Node P.S (bd P.S m.b0) (bd P.S m.b1) x (P.S.chainVector Q)
  lead : ∀ c : Saddle, c.source = e → 0 < cross (m.b0.vec P.S) (P.S.saddleVector c) → 0 < cross (P.S.saddleVector c) (m.b1.vec P.S) →
    Chained P.S (P.S.saddleVector c) x Q c.target c.chain → Traced P.S c

/-- The search has found a vertex. -/
structure There (P : Params T K) (e : HE) (b0 b1 : Vec T) (x : HE) (Q : ℕ → ℤ) (m : Machine T) : Prop extends Course P e m where
  state : ∃ s t rest, m.state = .found :: .start s (some false) :: .searchingFirst :: .start (some false) t :: .searchingSecond :: rest ∧
    s ≠ some true ∧ t ≠ some true
  edge : m.edge = P.S.tri.nextInFace (neg x)
  moves : m.moves = []
  vertex : m.edgeEnd = apexChain P.S x Q
  chain0 : m.b0.isChain = true
  vec0 : m.b0.vec P.S = b0
  chain1 : m.b1 = .chain m.edgeEnd
  tmp : ∃ B l, m.tmp = B :: l ∧ B.isChain = true ∧ B.vec P.S = b1
  node : Node P.S (true, b0) (true, b1) x (P.S.chainVector Q)
  first : 0 < cross b0 (apex P.S x (P.S.chainVector Q))
  second : 0 < cross (apex P.S x (P.S.chainVector Q)) b1
  lead : ∀ c : Saddle, c.source = e → 0 < cross b0 (P.S.saddleVector c) → 0 < cross (P.S.saddleVector c) b1 →
    Chained P.S (P.S.saddleVector c) x Q c.target c.chain → Traced P.S c

theorem bd_chain {b : Boundary T} (h : b.isChain = true) : bd P.S b = (true, b.vec P.S) := Prod.ext h rfl

theorem Going.guard {e x : HE} {Q : ℕ → ℤ} {m : Machine T} (hg : Going P e x Q m) : Guard P m := by
  obtain ⟨s, ss, h1, -⟩ := hg.sectors
  refine ⟨by rw [h1]; simp, ?_⟩
  rcases hg.node.b with k | k
  · exact k.le
  · exact absurd (show (bd P.S m.b0).1 = true from hg.chain0) (by rw [k.1]; simp)

/-- Crossing a half edge. -/
theorem Going.step (h : P.S.Shut) (hr : P.radius = none) (hl : P.lower = .zero) {e x : HE} {Q : ℕ → ℤ} {m : Machine T} (hg : Going P e x Q m) :
    ∃ m', (SaddleSearch.increment P m = .ok (m', false) ∧ m'.b0 = m.b0 ∧ m'.b1 = m.b1 ∧
        (cross (m.b0.vec P.S) (apex P.S x (P.S.chainVector Q)) ≤ 0 ∧ Going P e (P.S.tri.nextInFace (P.S.tri.nextInFace (neg x)))
          (Chain.bump (apexChain P.S x Q) (P.S.tri.nextInFace (P.S.tri.nextInFace (neg x)))) m' ∨
        0 < cross (m.b0.vec P.S) (apex P.S x (P.S.chainVector Q)) ∧ 0 ≤ cross (m.b1.vec P.S) (apex P.S x (P.S.chainVector Q)) ∧
          Going P e (P.S.tri.nextInFace (neg x)) (apexChain P.S x Q) m')) ∨
      SaddleSearch.increment P m = .ok (m', true) ∧ There P e (m.b0.vec P.S) (m.b1.vec P.S) x Q m' := by
  obtain ⟨s, t, rest, hs, h1, h2⟩ := hg.state
  have hinc := none_step hr hs h1 h2 hg.guard
  have hn := hg.node
  obtain ⟨m2, e1, e2, e3, e4, e5, e6, e7, e8, e9, hx, e10⟩ := cross_chain (m := { m with state := rest }) h hr hg.lt (s := s) (t := t) hg.pending
  rw [e10] at hinc
  have ev : P.S.chainVector m2.edgeEnd = apex P.S x (P.S.chainVector Q) := by rw [e7, chainVector_apex h hx]
  obtain ⟨sec, ss, hsec, hsrc⟩ := hg.sectors
  have hcone : ∀ {v : Vec T}, 0 < cross (m.b0.vec P.S) v → 0 < cross v (m.b1.vec P.S) → InS (bd P.S m.b0) (bd P.S m.b1) v := fun a b => .inr ⟨a, b⟩
  by_cases hcw : cross (m.b0.vec P.S) (apex P.S x (P.S.chainVector Q)) ≤ 0
  · have hc : Cw (bd P.S m.b0) (apex P.S x (P.S.chainVector Q)) := by
      rcases hcw.lt_or_eq with k | k
      · exact Or.inl k
      · exact Or.inr ⟨k, hg.chain0⟩
    have hcl := (classify_eq (m := m2) ev).1 (by rw [e2]; exact hc)
    rw [hcl] at hinc
    simp only at hinc
    refine ⟨_, .inl ⟨hinc, e2, e3, .inl ⟨hcw, ⟨⟨sec, ss, e1.trans hsec, hsrc⟩, e9⟩, ⟨_, _, _, rfl, by simp, h2⟩, ?_, ?_, ?_, ?_, ?_⟩⟩⟩
    · refine .inr ⟨rfl, ?_, ?_⟩
      · change P.S.tri.nextInFace m2.edge = _; rw [e6]
      · change Chain.bump m2.edgeEnd _ = _; rw [e7]
    · change m2.b0.isChain = true; rw [e2]; exact hg.chain0
    · change m2.b1.isChain = true; rw [e3]; exact hg.chain1
    · change Node P.S (bd P.S m2.b0) (bd P.S m2.b1) _ _
      rw [e2, e3, chainVector_second h hx]
      exact hn.clockwise h hc
    · intro c c1 c2 c3 c4
      change 0 < cross (m2.b0.vec P.S) _ at c2
      change 0 < cross _ (m2.b1.vec P.S) at c3
      rw [e2] at c2
      rw [e3] at c3
      refine hg.lead c c1 c2 c3 (.left ?_ c4)
      rw [chainVector_apex h hx]
      exact hn.clockwise_of h hc (hcone c2 c3)
  · push Not at hcw
    by_cases hccw : 0 ≤ cross (m.b1.vec P.S) (apex P.S x (P.S.chainVector Q))
    · have hcl := (classify_eq (m := m2) ev).2.1 (by rw [e2]; exact hcw) (by rw [e3]; exact hccw)
      rw [hcl] at hinc
      simp only at hinc
      refine ⟨_, .inl ⟨hinc, e2, e3, .inr ⟨hcw, hccw, ⟨⟨sec, ss, e1.trans hsec, hsrc⟩, e9⟩, ⟨_, _, _, rfl, h1, by simp⟩, .inl ⟨e8, e6, e7⟩, ?_, ?_, ?_, ?_⟩⟩⟩
      · change m2.b0.isChain = true; rw [e2]; exact hg.chain0
      · change m2.b1.isChain = true; rw [e3]; exact hg.chain1
      · change Node P.S (bd P.S m2.b0) (bd P.S m2.b1) _ _
        rw [e2, e3, chainVector_apex h hx]
        exact hn.counterclockwise h hcw hccw
      · intro c c1 c2 c3 c4
        change 0 < cross (m2.b0.vec P.S) _ at c2
        change 0 < cross _ (m2.b1.vec P.S) at c3
        rw [e2] at c2
        rw [e3] at c3
        refine hg.lead c c1 c2 c3 (.right ?_ c4)
        rw [chainVector_apex h hx]
        exact hn.counterclockwise_of h hcw hccw (hcone c2 c3)
    · push Not at hccw
      have hcl := (classify_eq (m := m2) ev).2.2 (by rw [e2, e3]; exact Or.inr ⟨hcw, hccw⟩)
      rw [hcl] at hinc
      simp only at hinc
      have e0 : m2.b0.isChain = true := by rw [e2]; exact hg.chain0
      have e1' : m2.b1.isChain = true := by rw [e3]; exact hg.chain1
      have hhalf := hn.halfa h
      have hane : apex P.S x (P.S.chainVector Q) ≠ 0 := by intro k; rw [k] at hhalf; simp at hhalf
      have hgt : Vec.gtBound P.A (P.S.chainVector m2.edgeEnd) P.lower = true := by
        rw [gtBound_eq, hl, ev]
        simpa [Bound.zero] using dot_self_pos hane
      have hsad : saddle P m2 s t = ({ m2 with b1 := .chain m2.edgeEnd, tmp := m2.b1 :: m2.tmp, state := .found :: .start s (some false) :: .searchingFirst :: .start (some false) t :: .searchingSecond :: m2.state }, true) := by
        rw [← hgt]
        unfold saddle
        simp only [hr, e0, e1']
        rfl
      rw [hsad] at hinc
      have hb0 : bd P.S m.b0 = (true, m.b0.vec P.S) := bd_chain hg.chain0
      have hb1 : bd P.S m.b1 = (true, m.b1.vec P.S) := bd_chain hg.chain1
      refine ⟨_, .inr ⟨hinc, ⟨⟨sec, ss, e1.trans hsec, hsrc⟩, e9⟩, ⟨_, _, _, rfl, h1, h2⟩, e6, e8, e7, e0, by rw [← e2], rfl, ⟨m2.b1, _, rfl, e1', by rw [e3]⟩,
        by rw [← hb0, ← hb1]; exact hn, hcw, ?_, hg.lead⟩⟩
      rw [cross_comm]
      linarith

/-- The search gets to a vertex. -/
theorem Going.reach {f : T →+* ℝ} (hf : StrictMono f) (h : P.S.Shut) (hr : P.radius = none) (hl : P.lower = .zero) {e x : HE} {Q : ℕ → ℤ} {m : Machine T}
    (hg : Going P e x Q m) : ∃ N m' x' Q', (∀ fuel ≥ N, advance P fuel m = some (.ok m')) ∧ There P e (m.b0.vec P.S) (m.b1.vec P.S) x' Q' m' := by
  obtain ⟨r1, r2, δ, D, N, hS⟩ := exists_strip h hf
  have hD := hS.pos'
  have up : ∀ {a b : Vec T}, 0 < cross a b → 0 < cross (a.map f) (b.map f) := by
    intro a b hab
    rw [cross_map, ← map_zero f]
    exact hf hab
  have up' : ∀ {a b : Vec T}, 0 ≤ cross a b → 0 ≤ cross (a.map f) (b.map f) := by
    intro a b hab
    rw [cross_map, ← map_zero f]
    exact hf.monotone hab
  have msub : ∀ a b : Vec T, (a - b).map f = a.map f - b.map f := by
    intro a b
    ext <;> simp [Vec.map]
  have hopen : 0 < cross (m.b0.vec P.S) (m.b1.vec P.S) := by
    rcases hg.node.b with k | k
    · exact k
    · exact absurd (show (bd P.S m.b0).1 = true from hg.chain0) (by rw [k.1]; simp)
  have hne0 : (m.b0.vec P.S).map f ≠ 0 := by
    intro k; have := up hopen; rw [k] at this; simp at this
  have hne1 : (m.b1.vec P.S).map f ≠ 0 := by
    intro k; have := up hopen; rw [k] at this; simp at this
  obtain ⟨c0, c0pos, hW⟩ := exists_unit hne0
  obtain ⟨c1, c1pos, hW1⟩ := exists_unit hne1
  obtain ⟨W, hWdef⟩ : ∃ W, W = c0 • (m.b0.vec P.S).map f := ⟨_, rfl⟩
  obtain ⟨W1, hW1def⟩ : ∃ W, W = c1 • (m.b1.vec P.S).map f := ⟨_, rfl⟩
  rw [← hWdef] at hW
  rw [← hW1def] at hW1
  have cW : ∀ z, cross W z = c0 * cross ((m.b0.vec P.S).map f) z := by
    intro z; rw [hWdef]; simp only [cross, Vec.smul_x, Vec.smul_y]; ring
  have cW' : ∀ z, cross z W = c0 * cross z ((m.b0.vec P.S).map f) := by
    intro z; rw [hWdef]; simp only [cross, Vec.smul_x, Vec.smul_y]; ring
  have cW1 : ∀ z, cross W1 z = c1 * cross ((m.b1.vec P.S).map f) z := by
    intro z; rw [hW1def]; simp only [cross, Vec.smul_x, Vec.smul_y]; ring
  have hκ : 0 < cross W W1 := by
    rw [cW, cross_comm, cW1, ← mul_neg, ← cross_comm]
    exact mul_pos c0pos (mul_pos c1pos (up hopen))
  obtain ⟨n, hn⟩ := exists_nat_gt (D / cross W W1)
  obtain ⟨M, hM⟩ := Gets.bound h hf (.ofInt n)
  suffices key : ∀ k j x Q m', j + k = M + 1 → Going P e x Q m' → m'.b0 = m.b0 → m'.b1 = m.b1 → Gets f P.S W j x (P.S.chainVector Q) →
      ∃ N m'' x' Q', (∀ fuel ≥ N, advance P fuel m' = some (.ok m'')) ∧ There P e (m.b0.vec P.S) (m.b1.vec P.S) x' Q' m'' by
    refine key (M + 1) 0 x Q m (by omega) hg rfl rfl ⟨x, _, hg.node.lt, ?_, ?_, ?_, .root⟩
    · have := up hg.node.pos
      rwa [msub] at this
    · rw [cW', ← msub]
      exact mul_nonneg c0pos.le (up' hg.node.p0)
    · rw [cW]
      exact mul_nonneg c0pos.le (up hg.node.q0).le
  intro k
  induction k with
  | zero =>
    intro j x Q m' hj hgo hb0 hb1 hget
    exfalso
    have hnode := hgo.node
    rw [hb0, hb1] at hnode
    have hx := hnode.lt
    refine absurd (hM W hW j x _ hget ?_) (by omega)
    obtain ⟨s, lam, s0, s1, hs⟩ := exists_on hW (u := (P.S.vec x).map f) (q := (P.S.chainVector Q).map f)
      (by rw [cW', ← msub]; exact mul_nonneg c0pos.le (up' hnode.p0)) (by rw [cW]; exact mul_nonneg c0pos.le (up hnode.q0).le)
    refine ⟨s, s0, s1, ?_⟩
    rw [hs]
    have e1 : dot (lam • W) (lam • W) = lam ^ 2 := by
      have : dot (lam • W) (lam • W) = lam ^ 2 * dot W W := by simp only [dot, Vec.smul_x, Vec.smul_y]; ring
      rw [this, hW, mul_one]
    have e2 : f (((Bound.ofInt n).square : ℤ) : T) = (n : ℝ) ^ 2 := by
      unfold Bound.ofInt
      simp [pow_two]
    rw [e1, e2]
    have hl0 : 0 < lam := by
      have k1 : cross (lam • W) ((P.S.vec x).map f) = cross ((P.S.chainVector Q).map f) ((P.S.vec x).map f) := by
        rw [← hs]; simp only [cross, Vec.sub_x, Vec.sub_y, Vec.smul_x, Vec.smul_y]; ring
      have k2 : cross (lam • W) ((P.S.vec x).map f) = lam * cross W ((P.S.vec x).map f) := by
        simp only [cross, Vec.smul_x, Vec.smul_y]; ring
      have k3 : 0 < cross W ((P.S.vec x).map f) := by rw [cW]; exact mul_pos c0pos (up hnode.half0)
      have k4 : 0 < cross ((P.S.chainVector Q).map f) ((P.S.vec x).map f) := by
        apply up
        rw [half_q]
        exact hnode.pos
      rw [k1] at k2
      rw [k2] at k4
      exact pos_of_mul_pos_left k4 k3.le
    have hle : lam * cross W W1 ≤ D := by
      have k1 : lam * cross W W1 = cross (lam • W) W1 := by simp only [cross, Vec.smul_x, Vec.smul_y]; ring
      have k2 : cross (lam • W) W1 = -cross W1 ((P.S.chainVector Q).map f) + s * cross W1 ((P.S.vec x).map f) := by
        rw [← hs]; simp only [cross, Vec.sub_x, Vec.sub_y, Vec.smul_x, Vec.smul_y]; ring
      have k3 : 0 ≤ cross W1 ((P.S.chainVector Q).map f) := by rw [cW1]; exact mul_nonneg c1pos.le (up' hnode.q1)
      have k4 := cross_le hW1 hD (hS.size x hx)
      rw [k1, k2]
      nlinarith
    have hlt : lam < n := lt_of_le_of_lt ((le_div_iff₀ hκ).2 hle) hn
    exact pow_le_pow_left₀ hl0.le hlt.le 2
  | succ k ih =>
    intro j x Q m' hj hgo hb0 hb1 hget
    have hx := hgo.node.lt
    obtain ⟨m1, ⟨i1, i2, i3, i4⟩ | ⟨i1, i2⟩⟩ := hgo.step h hr hl
    · have more : ∀ {N m''}, (∀ fuel ≥ N, advance P fuel m1 = some (.ok m'')) → ∀ fuel ≥ N + 1, advance P fuel m' = some (.ok m'') := by
        intro N m'' hN fuel hfuel
        obtain ⟨g, rfl⟩ : ∃ g, fuel = g + 1 := ⟨fuel - 1, by omega⟩
        unfold advance
        rw [i1]
        exact hN g (by omega)
      have i5 := i4
      rcases i5 with ⟨i5, i6⟩ | ⟨i5, i6⟩
      · rw [hb0] at i5
        have hg' : Gets f P.S W (j + 1) (P.S.tri.nextInFace (P.S.tri.nextInFace (neg x))) (P.S.chainVector Q) :=
          hget.left (by
            rw [cW]
            have : cross ((m.b0.vec P.S).map f) ((apex P.S x (P.S.chainVector Q)).map f) ≤ 0 := by
              rw [cross_map, ← map_zero f]
              exact hf.monotone i5
            nlinarith)
        rw [← chainVector_second h hx] at hg'
        obtain ⟨N, m'', x', Q', j1, j2⟩ := ih (j + 1) _ _ m1 (by omega) i6 (i2.trans hb0) (i3.trans hb1) hg'
        exact ⟨N + 1, m'', x', Q', more j1, j2⟩
      · rw [hb0] at i5
        have hg' : Gets f P.S W (j + 1) (P.S.tri.nextInFace (neg x)) (apex P.S x (P.S.chainVector Q)) :=
          hget.right (by rw [cW]; exact (mul_pos c0pos (up i5)).le)
        rw [← chainVector_apex h hx] at hg'
        obtain ⟨N, m'', x', Q', j1, j2⟩ := ih (j + 1) _ _ m1 (by omega) i6.2 (i2.trans hb0) (i3.trans hb1) hg'
        exact ⟨N + 1, m'', x', Q', more j1, j2⟩
    · rw [hb0, hb1] at i2
      refine ⟨1, m1, x, Q, fun fuel hfuel => ?_, i2⟩
      obtain ⟨g, rfl⟩ : ∃ g, fuel = g + 1 := ⟨fuel - 1, by omega⟩
      unfold advance
      rw [i1]

/-- The saddle connection that has been found. -/
theorem There.dereference (h : P.S.Shut) (hr : P.radius = none) (hl : P.lower = .zero) {e x : HE} {b0 b1 : Vec T} {Q : ℕ → ℤ} {m : Machine T}
    (ht : There P e b0 b1 x Q m) : ∃ c, SaddleSearch.dereference P m = .ok c ∧ c.source = e ∧ Traced P.S c ∧
      P.S.saddleVector c = apex P.S x (P.S.chainVector Q) := by
  obtain ⟨s, t, rest, hs, -, -⟩ := ht.state
  obtain ⟨sec, ss, hsec, rfl⟩ := ht.sectors
  have hn := ht.node
  have hx := hn.lt
  have hhalf := hn.halfa h
  have hv : P.S.chainVector m.edgeEnd = apex P.S x (P.S.chainVector Q) := by rw [ht.vertex, chainVector_apex h hx]
  have hane : apex P.S x (P.S.chainVector Q) ≠ 0 := by intro k; rw [k] at hhalf; simp at hhalf
  have hmake : Saddle.make P.dbg P.S.tri.size sec.source (P.S.tri.previousAtVertex (neg m.edge)) m.edgeEnd =
      .ok ⟨sec.source, P.S.tri.nextInFace (P.S.tri.nextInFace (neg x)), m.edgeEnd⟩ := by
    have hprev : P.S.tri.previousAtVertex (neg m.edge) = P.S.tri.nextInFace (P.S.tri.nextInFace (neg x)) := by
      rw [h.previousAtVertex (neg_lt_of_even h.even ht.lt), neg_neg', ht.edge]
      rfl
    unfold Saddle.make
    rw [if_neg, hprev]
    intro hz
    rw [Bool.and_eq_true] at hz
    have hz' := hz.2
    rw [List.all_eq_true] at hz'
    apply hane
    rw [← hv, chainVector_congr P.S (c' := fun _ => 0), chainVector_zero]
    intro i hi
    have := hz' i (List.mem_range.2 hi)
    simpa using this
  refine ⟨⟨sec.source, P.S.tri.nextInFace (P.S.tri.nextInFace (neg x)), m.edgeEnd⟩, ?_, rfl, ?_, hv⟩
  · unfold SaddleSearch.dereference
    simp only [hsec, hs, hmake, hr, bind, Except.bind, pure, Except.pure]
    rw [if_neg]
    rintro ⟨-, k | k⟩
    · exact absurd k (by decide)
    · apply k
      rw [gtBound_eq, hl]
      unfold saddleVector
      rw [hv]
      simpa [Bound.zero] using dot_self_pos hane
  · have e1 : P.S.saddleVector ⟨sec.source, P.S.tri.nextInFace (P.S.tri.nextInFace (neg x)), m.edgeEnd⟩ = apex P.S x (P.S.chainVector Q) := hv
    refine ht.lead _ rfl (by rw [e1]; exact ht.first) (by rw [e1]; exact ht.second) ?_
    rw [e1]
    simp only [ht.vertex]
    exact .here (chainVector_apex h hx Q).symm

/-- Going on to the left of a saddle connection. -/
theorem There.skip_left (h : P.S.Shut) {e x : HE} {b0 b1 : Vec T} {Q : ℕ → ℤ} {m : Machine T} (ht : There P e b0 b1 x Q m) :
    ∃ m' m'', skipSector P m .clockwise = .ok m' ∧ SaddleSearch.increment P m' = .ok (m'', false) ∧
      Going P e (P.S.tri.nextInFace (P.S.tri.nextInFace (neg x))) (Chain.bump (apexChain P.S x Q) (P.S.tri.nextInFace (P.S.tri.nextInFace (neg x)))) m'' ∧
      m''.b0.vec P.S = apex P.S x (P.S.chainVector Q) ∧ m''.b1.vec P.S = b1 := by
  obtain ⟨s, t, rest, hs, h1, h2⟩ := ht.state
  obtain ⟨sec, ss, hsec, hsrc⟩ := ht.sectors
  obtain ⟨B, l, htmp, hB, hBv⟩ := ht.tmp
  have hn := ht.node
  have hx := hn.lt
  have hv : P.S.chainVector m.edgeEnd = apex P.S x (P.S.chainVector Q) := by rw [ht.vertex, chainVector_apex h hx]
  refine ⟨{ m with state := .searchingFirst :: .start (some false) t :: .searchingSecond :: rest },
    { m with state := .start (some false) t :: .searchingSecond :: rest, b1 := B, tmp := m.b0 :: l, b0 := .chain m.edgeEnd, moves := [.nextEdge] }, ?_, ?_, ?_, hv, hBv⟩
  · unfold skipSector
    rw [if_neg (by simp), hs]
    simp
  · unfold SaddleSearch.increment
    rw [if_neg (Guard.not ⟨by change m.sectors ≠ []; rw [hsec]; simp, ?_⟩)]
    · simp only
      rw [htmp]
      simp only
      have : applyMoves P.S { m with state := .start (some false) t :: .searchingSecond :: rest, b1 := B, tmp := l } =
          { m with state := .start (some false) t :: .searchingSecond :: rest, b1 := B, tmp := l, moves := [] } := by
        unfold applyMoves
        simp only [ht.moves]
        rfl
      rw [this]
      simp only [ht.chain0, true_or, if_true]
      rfl
    · change 0 ≤ cross (m.b0.vec P.S) (m.b1.vec P.S)
      rw [ht.chain1, ht.vec0]
      change 0 ≤ cross b0 (P.S.chainVector m.edgeEnd)
      rw [hv]
      exact ht.first.le
  · refine ⟨⟨⟨sec, ss, hsec, hsrc⟩, ht.lt⟩, ⟨_, _, _, rfl, by simp, h2⟩, .inr ⟨rfl, ?_, ?_⟩, rfl, hB, ?_, ?_⟩
    · change P.S.tri.nextInFace m.edge = _; rw [ht.edge]
    · change Chain.bump m.edgeEnd _ = _; rw [ht.vertex]
    · have k1 : bd P.S (.chain m.edgeEnd) = (true, apex P.S x (P.S.chainVector Q)) := Prod.ext rfl hv
      have k2 : bd P.S B = (true, b1) := Prod.ext hB hBv
      change Node P.S (bd P.S (.chain m.edgeEnd)) (bd P.S B) _ _
      rw [k1, k2, chainVector_second h hx]
      exact hn.second h ht.second
    · intro c c1 c2 c3 c4
      change 0 < cross (P.S.chainVector m.edgeEnd) _ at c2
      change 0 < cross _ (B.vec P.S) at c3
      rw [hv] at c2
      rw [hBv] at c3
      have hn' := hn.wide_second h ht.first.le ht.second
      have hh := hn'.inS (v := P.S.saddleVector c) (.inr ⟨c2, c3⟩)
      refine ht.lead c c1 ?_ c3 (.left ?_ c4)
      · exact cross_trans_lt_le hn.half0 (hn.halfa h) hh.1 ht.first c2.le
      · rw [chainVector_apex h hx, cross_comm]
        linarith

/-- Going on to the right of a saddle connection. -/
theorem There.skip_right (h : P.S.Shut) {e x : HE} {b0 b1 : Vec T} {Q : ℕ → ℤ} {m : Machine T} (ht : There P e b0 b1 x Q m) :
    ∃ m', skipSector P m .counterclockwise = .ok m' ∧ Going P e (P.S.tri.nextInFace (neg x)) (apexChain P.S x Q) m' ∧
      m'.b0.vec P.S = b0 ∧ m'.b1.vec P.S = apex P.S x (P.S.chainVector Q) := by
  obtain ⟨s, t, rest, hs, h1, h2⟩ := ht.state
  obtain ⟨sec, ss, hsec, hsrc⟩ := ht.sectors
  have hn := ht.node
  have hx := hn.lt
  have hv : P.S.chainVector m.edgeEnd = apex P.S x (P.S.chainVector Q) := by rw [ht.vertex, chainVector_apex h hx]
  have hb1 : bd P.S m.b1 = (true, apex P.S x (P.S.chainVector Q)) := by
    rw [ht.chain1]
    exact Prod.ext rfl hv
  have hb0 : bd P.S m.b0 = (true, b0) := Prod.ext ht.chain0 ht.vec0
  have hb1v : m.b1.vec P.S = apex P.S x (P.S.chainVector Q) := congrArg Prod.snd hb1
  refine ⟨{ m with state := .start s (some false) :: .searchingFirst :: .searchingSecond :: rest }, ?_,
    ⟨⟨⟨sec, ss, hsec, hsrc⟩, ht.lt⟩, ⟨_, _, _, rfl, h1, by simp⟩, .inl ⟨ht.moves, ht.edge, ht.vertex⟩, ht.chain0, congrArg Prod.fst hb1, ?_, ?_⟩, ht.vec0, hb1v⟩
  · unfold skipSector
    rw [if_neg (by simp), hs]
    simp [dropSecond, Label.isStart]
  · change Node P.S (bd P.S m.b0) (bd P.S m.b1) _ _
    rw [hb0, hb1, chainVector_apex h hx]
    exact hn.first h ht.first
  · intro c c1 c2 c3 c4
    change 0 < cross (m.b0.vec P.S) _ at c2
    change 0 < cross _ (m.b1.vec P.S) at c3
    rw [ht.vec0] at c2
    rw [hb1v] at c3
    have hn' := hn.wide_first h ht.first ht.second
    have hh := hn'.inS (v := P.S.saddleVector c) (.inr ⟨c2, c3⟩)
    refine ht.lead c c1 c2 ?_ (.right ?_ c4)
    · exact cross_trans_lt_le hh.1 (hn.halfa h) hn.half1 c3 ht.second.le
    · rw [chainVector_apex h hx]
      exact c3

theorem find_eq {seen : List Saddle} (hseen : ∀ d ∈ seen, Traced P.S d) {c : Saddle} (hc : Traced P.S c) :
    find P seen c = .ok (seen.any fun d => P.S.saddleEq d c) := by
  have key : ∀ d ∈ seen, P.S.saddleEq d c = true → d = c := by
    intro d hd k
    unfold saddleEq at k
    rw [Bool.and_eq_true, decide_eq_true_eq, decide_eq_true_eq] at k
    exact (hseen d hd).unique hc k.2 k.1
  unfold find
  simp only
  rw [if_neg]
  · congr 1
    rw [Bool.eq_iff_iff, List.any_eq_true, List.any_eq_true]
    constructor
    · rintro ⟨d, d1, d2⟩
      exact ⟨d, (List.mem_filter.1 d1).1, d2⟩
    · rintro ⟨d, d1, d2⟩
      refine ⟨d, List.mem_filter.2 ⟨d1, ?_⟩, d2⟩
      rw [key d d1 d2]
      simp
  · rintro ⟨-, k⟩
    obtain ⟨d, d1, d2⟩ := List.any_eq_true.1 k
    rw [Bool.and_eq_true, decide_eq_true_eq] at d2
    rw [key d (List.mem_filter.1 d1).1 d2.1] at d2
    exact d2.2 rfl

theorem ccw_eq' {b0 b1 c : Vec T} (h : 0 < cross b0 b1) (h0 : 0 < cross b0 c) (h1 : 0 < cross c b1) {b : Bool} :
    ccw P b0 b1 c (some b) = .ok b := by
  have n0 : b0 ≠ 0 := by rintro rfl; simp at h
  have n1 : b1 ≠ 0 := by rintro rfl; simp at h
  have nc : c ≠ 0 := by rintro rfl; simp at h0
  have : Vec.inSector P.A c b0 b1 = .ok true := by
    rw [inSector_eq P.A nc n0 n1]
    congr 1
    rw [decide_eq_true_eq]
    exact .inr (.inr (.inl ⟨h, h0.le, h1⟩))
  unfold ccw
  rw [this]
  cases P.dbg <;> rfl

/-- The saddle connection is reported by the next call. -/
structure Fresh (P : Params T K) (lower : Bound) (e : HE) (seen : List Saddle) (c : Saddle) : Prop where
  source : c.source = e
  traced : Traced P.S c
  longer : Vec.gtBound P.A (P.S.saddleVector c) lower = true
  new : ∀ d ∈ seen, (d.source, P.S.saddleVector d) ≠ (c.source, P.S.saddleVector c)

theorem advance_step {m m' : Machine T} (h : SaddleSearch.increment P m = .ok (m', false)) {N : ℕ} {r : Option (Except Err (Machine T))}
    (hN : ∀ fuel ≥ N, advance P fuel m' = r) : ∀ fuel ≥ N + 1, advance P fuel m = r := by
  intro fuel hfuel
  obtain ⟨g, rfl⟩ : ∃ g, fuel = g + 1 := ⟨fuel - 1, by omega⟩
  rw [advance, h]
  exact hN g (by omega)

/-- The loop has found a saddle connection that it reports, or it turns to one of its sides. -/
theorem There.choice (h : P.S.Shut) (hr : P.radius = none) (hl : P.lower = .zero) {e : HE} (he : e < P.S.tri.size) (lower : Bound) {seen : List Saddle}
    (hseen : ∀ d ∈ seen, Traced P.S d) {b0 b1 : Vec T} {x : HE} {Q : ℕ → ℤ} {m : Machine T} (ht : There P e b0 b1 x Q m) :
    ∃ c, c.source = e ∧ Traced P.S c ∧ P.S.saddleVector c = apex P.S x (P.S.chainVector Q) ∧
      ((Fresh P lower e seen c ∧ ∀ side F fuel i, loop P lower (P.S.vec e) (P.S.vec (P.S.tri.nextAtVertex e)) side seen F (fuel + 1) i b0 b1 m = some (.ok (c, c :: seen))) ∨
      (Vec.gtBound P.A (P.S.saddleVector c) lower = false ∨ ∃ d ∈ seen, d.source = c.source ∧ P.S.saddleVector d = P.S.saddleVector c) ∧
      ∀ side F fuel i b, side i = some b → loop P lower (P.S.vec e) (P.S.vec (P.S.tri.nextAtVertex e)) side seen F (fuel + 1) i b0 b1 m =
            match skipSector P m (if b then .clockwise else .counterclockwise) with
            | .error err => some (.error err)
            | .ok m => (advance P F m).bind fun
              | .error err => some (.error err)
              | .ok m => loop P lower (P.S.vec e) (P.S.vec (P.S.tri.nextAtVertex e)) side seen F fuel (i + 1)
                (if b then apex P.S x (P.S.chainVector Q) else b0) (if b then b1 else apex P.S x (P.S.chainVector Q)) m) := by
  obtain ⟨c, c1, c2, c3, c4⟩ := ht.dereference h hr hl
  refine ⟨c, c2, c3, c4, ?_⟩
  rw [← c4]
  by_cases hel : Vec.gtBound P.A (P.S.saddleVector c) lower = true ∧ (seen.any fun d => P.S.saddleEq d c) = false
  · obtain ⟨k1, k2⟩ := hel
    refine .inl ⟨⟨c2, c3, k1, fun d hd k => ?_⟩, fun side F fuel i => ?_⟩
    · rw [List.any_eq_false] at k2
      apply k2 d hd
      unfold saddleEq
      rw [Prod.mk.injEq] at k
      simp [k.1, k.2]
    · rw [loop, c1]
      simp only [k1, if_true, find_eq hseen c3, k2]
  · have hno : (if Vec.gtBound P.A (P.S.saddleVector c) lower then find P seen c else .ok true : Except Err Bool) = .ok true := by
      by_cases k : Vec.gtBound P.A (P.S.saddleVector c) lower = true
      · rw [if_pos k, find_eq hseen c3]
        cases k' : (seen.any fun d => P.S.saddleEq d c)
        · exact absurd ⟨k, k'⟩ hel
        · rfl
      · rw [if_neg k]
    have hne0 : P.S.saddleVector c ≠ P.S.vec e := by
      intro k
      have := c3.left
      rw [c2, k, cross_self] at this
      exact lt_irrefl _ this
    have hne1 : P.S.saddleVector c ≠ P.S.vec (P.S.tri.nextAtVertex e) := by
      intro k
      have := c3.right
      rw [c2, k, (root h he).1] at this
      unfold opposite at this
      rw [cross_self] at this
      exact lt_irrefl _ this
    have hopen : 0 < cross b0 b1 := by
      rcases ht.node.b with k | k
      · exact k
      · exact absurd k.1 (by simp)
    have f0 : 0 < cross b0 (P.S.saddleVector c) := by rw [c4]; exact ht.first
    have f1 : 0 < cross (P.S.saddleVector c) b1 := by rw [c4]; exact ht.second
    refine .inr ⟨?_, fun side F fuel i b hb => ?_⟩
    · by_cases k : Vec.gtBound P.A (P.S.saddleVector c) lower = true
      · right
        have : (seen.any fun d => P.S.saddleEq d c) = true := by
          by_contra k'
          exact hel ⟨k, by simpa using k'⟩
        obtain ⟨d, d1, d2⟩ := List.any_eq_true.1 this
        unfold saddleEq at d2
        rw [Bool.and_eq_true, decide_eq_true_eq, decide_eq_true_eq] at d2
        exact ⟨d, d1, d2.2, d2.1⟩
      · exact .inl (by simpa using k)
    · rw [loop, c1]
      simp only [hno, if_neg hne0, if_neg hne1]
      rw [hb, ccw_eq' hopen f0 f1]
      cases b <;> rfl

theorem There.left_of (h : P.S.Shut) {e : HE} {b0 b1 : Vec T} {x : HE} {Q : ℕ → ℤ} {m : Machine T} (ht : There P e b0 b1 x Q m) {v : Vec T}
    (h0 : 0 < cross (apex P.S x (P.S.chainVector Q)) v) (h1 : 0 < cross v b1) : 0 < cross b0 v :=
  have hn' := ht.node.wide_second h ht.first.le ht.second
  cross_trans_lt_le ht.node.half0 (ht.node.halfa h) (hn'.inS (v := v) (.inr ⟨h0, h1⟩)).1 ht.first h0.le

theorem There.right_of (h : P.S.Shut) {e : HE} {b0 b1 : Vec T} {x : HE} {Q : ℕ → ℤ} {m : Machine T} (ht : There P e b0 b1 x Q m) {v : Vec T}
    (h0 : 0 < cross b0 v) (h1 : 0 < cross v (apex P.S x (P.S.chainVector Q))) : 0 < cross v b1 :=
  have hn' := ht.node.wide_first h ht.first ht.second
  cross_trans_lt_le (hn'.inS (v := v) (.inr ⟨h0, h1⟩)).1 (ht.node.halfa h) ht.node.half1 h1 ht.second.le

/-- The loop comes to an end, as there are only finitely many saddle connections that are not eligible. -/
theorem There.finds {f : T →+* ℝ} (hf : StrictMono f) (h : P.S.Shut) (hr : P.radius = none) (hl : P.lower = .zero) {e : HE} (he : e < P.S.tri.size)
    {lower : Bound} {side : ℕ → Option Bool} (hside : ∀ i, (side i).isSome) {seen : List Saddle} (hseen : ∀ d ∈ seen, Traced P.S d) {bad : Finset (Vec T)}
    (hbad : ∀ c : Saddle, c.source = e → Traced P.S c → Vec.gtBound P.A (P.S.saddleVector c) lower = false → P.S.saddleVector c ∈ bad)
    (hbad' : ∀ d ∈ seen, P.S.saddleVector d ∈ bad) :
    ∀ n i b0 b1 x Q m, (bad.filter fun v => 0 < cross b0 v ∧ 0 < cross v b1).card < n → There P e b0 b1 x Q m →
      ∃ c N, Fresh P lower e seen c ∧
        ∀ F ≥ N, ∀ fuel ≥ N, loop P lower (P.S.vec e) (P.S.vec (P.S.tri.nextAtVertex e)) side seen F fuel i b0 b1 m = some (.ok (c, c :: seen)) := by
  intro n
  induction n with
  | zero =>
    intro i b0 b1 x Q m hn
    exact absurd hn (Nat.not_lt_zero _)
  | succ n ih =>
    intro i b0 b1 x Q m hn ht
    obtain ⟨c, c2, c3, c4, ⟨k1, k2⟩ | ⟨k1, hstep⟩⟩ := ht.choice h hr hl he lower hseen
    · refine ⟨c, 1, k1, fun F _ fuel hfuel => ?_⟩
      obtain ⟨g, rfl⟩ : ∃ g, fuel = g + 1 := ⟨fuel - 1, by omega⟩
      exact k2 _ _ _ _
    · have hmem : apex P.S x (P.S.chainVector Q) ∈ bad := by
        rw [← c4]
        rcases k1 with k | ⟨d, d1, d2, d3⟩
        · exact hbad c c2 c3 k
        · exact d3 ▸ hbad' d d1
      have hless : ∀ {a0 a1 : Vec T}, (∀ v, 0 < cross a0 v → 0 < cross v a1 → (0 < cross b0 v ∧ 0 < cross v b1) ∧ v ≠ apex P.S x (P.S.chainVector Q)) →
          (bad.filter fun v => 0 < cross a0 v ∧ 0 < cross v a1).card < n := by
        intro a0 a1 ha
        have : (bad.filter fun v => 0 < cross a0 v ∧ 0 < cross v a1) ⊂ (bad.filter fun v => 0 < cross b0 v ∧ 0 < cross v b1) := by
          rw [Finset.ssubset_iff_of_subset]
          · refine ⟨_, Finset.mem_filter.2 ⟨hmem, ht.first, ht.second⟩, fun k => ?_⟩
            obtain ⟨-, k1, k2⟩ := Finset.mem_filter.1 k
            exact (ha _ k1 k2).2 rfl
          · intro v hv
            obtain ⟨k0, k1, k2⟩ := Finset.mem_filter.1 hv
            exact Finset.mem_filter.2 ⟨k0, (ha v k1 k2).1⟩
        have := Finset.card_lt_card this
        omega
      obtain ⟨b, hb⟩ := Option.isSome_iff_exists.1 (hside i)
      cases b with
      | true =>
        obtain ⟨m1, m2, s1, s2, s3, s4, s5⟩ := ht.skip_left h
        obtain ⟨N, m3, x3, Q3, g1, g2⟩ := s3.reach hf h hr hl
        rw [s4, s5] at g2
        obtain ⟨d, N', d1, d2⟩ := ih (i + 1) _ _ _ _ m3 (hless fun v k1 k2 => by
          refine ⟨⟨ht.left_of h k1 k2, k2⟩, ?_⟩
          rintro rfl
          rw [cross_self] at k1
          exact lt_irrefl _ k1) g2
        refine ⟨d, N + N' + 2, d1, fun F hF fuel hfuel => ?_⟩
        obtain ⟨g, rfl⟩ : ∃ g, fuel = g + 1 := ⟨fuel - 1, by omega⟩
        rw [hstep _ _ _ _ _ hb]
        simp only [if_true, s1]
        rw [advance_step s2 g1 F (by omega)]
        exact d2 F (by omega) g (by omega)
      | false =>
        obtain ⟨m1, s1, s3, s4, s5⟩ := ht.skip_right h
        obtain ⟨N, m3, x3, Q3, g1, g2⟩ := s3.reach hf h hr hl
        rw [s4, s5] at g2
        obtain ⟨d, N', d1, d2⟩ := ih (i + 1) _ _ _ _ m3 (hless fun v k1 k2 => by
          refine ⟨⟨k1, ht.right_of h k1 k2⟩, ?_⟩
          rintro rfl
          rw [cross_self] at k2
          exact lt_irrefl _ k2) g2
        refine ⟨d, N + N' + 2, d1, fun F hF fuel hfuel => ?_⟩
        obtain ⟨g, rfl⟩ : ∃ g, fuel = g + 1 := ⟨fuel - 1, by omega⟩
        rw [hstep _ _ _ _ _ hb]
        simp only [Bool.false_eq_true, if_false, s1]
        rw [g1 F (by omega)]
        exact d2 F (by omega) g (by omega)

/-- What has to be shown about a search that is on its way to a saddle connection. -/
def Sampled (P : Params T K) (lower : Bound) (e : HE) (seen : List Saddle) (v : Vec T) (B : Finset (Vec T)) (m : Machine T) (i : ℕ) : Prop :=
  ∃ (side : ℕ → Option Bool) (c : Saddle) (N : ℕ), (∀ j, (side j).isSome) ∧ Fresh P lower e seen c ∧ (P.S.saddleVector c = v ∨ P.S.saddleVector c ∈ B) ∧
    ∃ m', (∀ F ≥ N, advance P F m = some (.ok m')) ∧ ∀ F ≥ N, ∀ fuel ≥ N, ∀ side' : ℕ → Option Bool, (∀ j ≥ i, side' j = side j) →
      loop P lower (P.S.vec e) (P.S.vec (P.S.tri.nextAtVertex e)) side' seen F fuel i (m.b0.vec P.S) (m.b1.vec P.S) m' = some (.ok (c, c :: seen))

theorem Sampled.step {lower : Bound} {e : HE} {seen : List Saddle} {v : Vec T} {B : Finset (Vec T)} {m m' : Machine T} {i : ℕ}
    (h : SaddleSearch.increment P m = .ok (m', false)) (h0 : m'.b0 = m.b0) (h1 : m'.b1 = m.b1) (hs : Sampled P lower e seen v B m' i) : Sampled P lower e seen v B m i := by
  obtain ⟨side, c, N, k1, k2, k3, m2, k4, k5⟩ := hs
  rw [h0, h1] at k5
  exact ⟨side, c, N + 1, k1, k2, k3, m2, advance_step h k4, fun F hF fuel hfuel => k5 F (by omega) fuel (by omega)⟩

theorem Sampled.mono {lower : Bound} {e : HE} {seen : List Saddle} {v : Vec T} {B B' : Finset (Vec T)} {m : Machine T} {i : ℕ}
    (hs : Sampled P lower e seen v B m i) (hB : B ⊆ B') : Sampled P lower e seen v B' m i := by
  obtain ⟨side, c, N, k1, k2, k3, k4⟩ := hs
  exact ⟨side, c, N, k1, k2, k3.imp_right fun k => hB k, k4⟩

/-- Each saddle connection can be found once those on the way to it have been found. -/
theorem Chained.sampled (h : P.S.Shut) (hr : P.radius = none) (hl : P.lower = .zero) {e : HE} (he : e < P.S.tri.size)
    {lower : Bound} {v : Vec T} (hlong : Vec.gtBound P.A v lower = true) {x : HE} {Q : ℕ → ℤ} {t : HE} {ch : ℕ → ℤ} (hc : Chained P.S v x Q t ch) :
    x < P.S.tri.size → ∃ B : Finset (Vec T), ∀ seen : List Saddle, (∀ d ∈ seen, Traced P.S d) → (∀ d ∈ seen, (d.source, P.S.saddleVector d) ≠ (e, v)) →
      ∀ m i, Going P e x Q m → 0 < cross (m.b0.vec P.S) v → 0 < cross v (m.b1.vec P.S) → Sampled P lower e seen v B m i := by
  have one : ∀ {m m' : Machine T}, SaddleSearch.increment P m = .ok (m', true) → ∀ F ≥ 1, advance P F m = some (.ok m') := by
    intro m m' hm F hF
    obtain ⟨g, rfl⟩ : ∃ g, F = g + 1 := ⟨F - 1, by omega⟩
    rw [advance, hm]
  have now : ∀ {seen : List Saddle} {m m' : Machine T} {c : Saddle} {i : ℕ} {B : Finset (Vec T)}, SaddleSearch.increment P m = .ok (m', true) → Fresh P lower e seen c →
      (P.S.saddleVector c = v ∨ P.S.saddleVector c ∈ B) →
      (∀ side F fuel i, loop P lower (P.S.vec e) (P.S.vec (P.S.tri.nextAtVertex e)) side seen F (fuel + 1) i (m.b0.vec P.S) (m.b1.vec P.S) m' = some (.ok (c, c :: seen))) →
      Sampled P lower e seen v B m i := by
    intro seen m m' c i B k1 k2 k3 k4
    refine ⟨fun _ => some true, c, 1, fun _ => rfl, k2, k3, m', one k1, fun F _ fuel hfuel side' _ => ?_⟩
    obtain ⟨g, rfl⟩ : ∃ g, fuel = g + 1 := ⟨fuel - 1, by omega⟩
    exact k4 _ _ _ _
  induction hc with
  | @here x Q hv =>
    intro hx
    rw [chainVector_apex h hx] at hv
    refine ⟨∅, fun seen hseen hnew m i hg h0 h1 => ?_⟩
    obtain ⟨m', ⟨-, -, -, ⟨k, -⟩ | ⟨-, k, -⟩⟩ | ⟨k1, k2⟩⟩ := hg.step h hr hl
    · rw [← hv] at k
      exact absurd h0 (not_lt.2 k)
    · rw [← hv, cross_comm] at k
      exact absurd h1 (not_lt.2 (by linarith))
    · obtain ⟨c, c2, c3, c4, ⟨d1, d2⟩ | ⟨d1, -⟩⟩ := k2.choice h hr hl he lower hseen
      · exact now k1 d1 (.inl (c4.trans hv.symm)) d2
      · rw [← hv] at c4
        rcases d1 with d1 | ⟨d, d1, d2, d3⟩
        · rw [c4, hlong] at d1
          cases d1
        · exact absurd (Prod.ext (d2.trans c2) (d3.trans c4)) (hnew d d1)
  | @right x Q t ch hv _ ih =>
    intro hx
    rw [chainVector_apex h hx] at hv
    obtain ⟨B, hB⟩ := ih (apex_spec (q := 0) h hx).1
    refine ⟨insert (apex P.S x (P.S.chainVector Q)) B, fun seen hseen hnew m i hg h0 h1 => ?_⟩
    obtain ⟨m', ⟨k1, k2, k3, ⟨k, -⟩ | ⟨-, -, k⟩⟩ | ⟨k1, k2⟩⟩ := hg.step h hr hl
    · have hcw : Cw (bd P.S m.b0) (apex P.S x (P.S.chainVector Q)) := by
        rcases k.lt_or_eq with k | k
        · exact Or.inl k
        · exact Or.inr ⟨k, hg.chain0⟩
      exact absurd hv (not_lt.2 (hg.node.clockwise_of h hcw (.inr ⟨h0, h1⟩)).le)
    · exact (hB seen hseen hnew m' i k (by rw [k2]; exact h0) (by rw [k3]; exact h1)).step k1 k2 k3 |>.mono (Finset.subset_insert _ _)
    · obtain ⟨c, c2, c3, c4, ⟨d1, d2⟩ | ⟨-, hstep⟩⟩ := k2.choice h hr hl he lower hseen
      · exact now k1 d1 (.inr (by rw [c4]; exact Finset.mem_insert_self _ _)) d2
      · obtain ⟨m1, s1, s3, s4, s5⟩ := k2.skip_right h
        obtain ⟨side, c, N, g1, g2, g3, m2, g4, g5⟩ := hB seen hseen hnew m1 (i + 1) s3 (by rw [s4]; exact h0) (by rw [s5]; exact hv)
        refine ⟨Function.update side i (some false), c, N + 1, fun j => ?_, g2, g3.imp_right fun k => Finset.mem_insert_of_mem k, m', fun F hF => one k1 F (by omega),
          fun F hF fuel hfuel side' hside => ?_⟩
        · by_cases k : j = i
          · subst k; simp
          · rw [Function.update_of_ne k]; exact g1 j
        · obtain ⟨g, rfl⟩ : ∃ g, fuel = g + 1 := ⟨fuel - 1, by omega⟩
          rw [hstep _ _ _ _ false (by rw [hside i le_rfl, Function.update_self])]
          simp only [Bool.false_eq_true, if_false, s1]
          rw [g4 F (by omega)]
          rw [s4, s5] at g5
          refine g5 F (by omega) g (by omega) side' fun j hj => ?_
          rw [hside j (by omega), Function.update_of_ne (by omega)]
  | @left x Q t ch hv _ ih =>
    intro hx
    rw [chainVector_apex h hx] at hv
    obtain ⟨B, hB⟩ := ih (apex_spec (q := 0) h hx).2.1
    refine ⟨insert (apex P.S x (P.S.chainVector Q)) B, fun seen hseen hnew m i hg h0 h1 => ?_⟩
    obtain ⟨m', ⟨k1, k2, k3, ⟨-, k⟩ | ⟨k, k', -⟩⟩ | ⟨k1, k2⟩⟩ := hg.step h hr hl
    · exact (hB seen hseen hnew m' i k (by rw [k2]; exact h0) (by rw [k3]; exact h1)).step k1 k2 k3 |>.mono (Finset.subset_insert _ _)
    · exact absurd hv (not_lt.2 (hg.node.counterclockwise_of h k k' (.inr ⟨h0, h1⟩)).le)
    · obtain ⟨c, c2, c3, c4, ⟨d1, d2⟩ | ⟨-, hstep⟩⟩ := k2.choice h hr hl he lower hseen
      · exact now k1 d1 (.inr (by rw [c4]; exact Finset.mem_insert_self _ _)) d2
      · obtain ⟨m0, m1, s1, s2, s3, s4, s5⟩ := k2.skip_left h
        obtain ⟨side, c, N, g1, g2, g3, m2, g4, g5⟩ := hB seen hseen hnew m1 (i + 1) s3 (by rw [s4, cross_comm]; linarith) (by rw [s5]; exact h1)
        refine ⟨Function.update side i (some true), c, N + 2, fun j => ?_, g2, g3.imp_right fun k => Finset.mem_insert_of_mem k, m', fun F hF => one k1 F (by omega),
          fun F hF fuel hfuel side' hside => ?_⟩
        · by_cases k : j = i
          · subst k; simp
          · rw [Function.update_of_ne k]; exact g1 j
        · obtain ⟨g, rfl⟩ : ∃ g, fuel = g + 1 := ⟨fuel - 1, by omega⟩
          rw [hstep _ _ _ _ true (by rw [hside i le_rfl, Function.update_self])]
          simp only [if_true, s1]
          rw [advance_step s2 g4 F (by omega)]
          rw [s4, s5] at g5
          refine g5 F (by omega) g (by omega) side' fun j hj => ?_
          rw [hside j (by omega), Function.update_of_ne (by omega)]

/-- The search in a corner starts. -/
theorem start_going (h : P.S.Shut) (hr : P.radius = none) (hl : P.lower = .zero) {e : HE} (he : e < P.S.tri.size) :
    ∃ m, (∀ fuel, start P fuel [⟨e, none⟩] = some (.ok m)) ∧ Going P e (P.S.tri.nextInFace e) (oppositeChain P.S e) m ∧
      m.b0.vec P.S = P.S.vec e ∧ m.b1.vec P.S = P.S.vec (P.S.tri.nextAtVertex e) := by
  obtain ⟨r1, r2⟩ := root h he
  have hlt := next_lt h he
  have hv1 : P.S.chainVector (Chain.bump (fun _ => 0) e) = P.S.vec e := by
    rw [chainVector_bump h.even h.flat.odd _ he, chainVector_zero, zero_add]
  have hv2 := chainVector_opposite h he
  have hne : P.S.vec e ≠ 0 := by intro k; rw [k] at r2; simp at r2
  refine ⟨⟨[⟨e, none⟩], .chain (Chain.bump (fun _ => 0) e), .chain (oppositeChain P.S e),
    P.S.tri.nextInFace e, oppositeChain P.S e, [.start none none, .stop], [], []⟩,
    fun fuel => ?_, ?_, hv1, hv2.trans r1.symm⟩
  · have hg : gtBound P.A (P.S.vec e) P.lower = true := by
      rw [gtBound_eq, hl]
      simpa [Bound.zero] using dot_self_pos hne
    unfold start prepare
    rw [if_neg (by simp), if_neg (by unfold Tri.boundary; simpa using h.nb _ he)]
    simp only [SaddleConnections.contains, bind, Except.bind, pure, Except.pure, hr, hg]
    simp
    rfl
  · have hp : opposite P.S e - P.S.vec (P.S.tri.nextInFace e) = P.S.vec e := by unfold opposite; abel
    refine ⟨⟨⟨_, _, rfl, rfl⟩, hlt⟩, ⟨_, _, _, rfl, by simp, by simp⟩, .inl ⟨rfl, rfl, rfl⟩, rfl, rfl, ?_, ?_⟩
    · have e0 : bd P.S (.chain (Chain.bump (fun _ => 0) e)) = (true, P.S.vec e) := Prod.ext rfl hv1
      have e1 : bd P.S (.chain (oppositeChain P.S e)) = (true, opposite P.S e) := Prod.ext rfl hv2
      rw [e0, e1, hv2]
      refine ⟨hlt, ?_, ?_, by simp, ?_, ?_, ?_, .inl ?_⟩ <;> try rw [hp]
      · exact r2
      · rw [cross_self]
      · exact r2
      · exact r2
      · rw [cross_self]
      · exact r2
    · rintro c rfl c2 c3 c4
      change 0 < cross (P.S.chainVector (Chain.bump (fun _ => 0) c.source)) _ at c2
      change 0 < cross _ (P.S.chainVector (oppositeChain P.S c.source)) at c3
      rw [hv1] at c2
      rw [hv2] at c3
      exact ⟨c2, c3, c4⟩

end SaddleSample

end Verif
