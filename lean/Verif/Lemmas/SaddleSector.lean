import Verif.Lemmas.SaddleMachine
import Verif.Lemmas.SaddleExists
import Verif.Lemmas.SaddleFilters

set_option linter.unusedSectionVars false

/-!
# The search in a sector
-/

namespace Verif

open Vec Spec FlatTri Real

variable {T : Type} [CommRing T] [LinearOrder T] [IsStrictOrderedRing T]
variable {K : Type} [Field K] [LinearOrder K] [IsStrictOrderedRing K]

namespace SaddleSearch

open SaddleConnections

variable {f : T →+* ℝ} {S : FlatTri T} {θ : HE → ℝ}

theorem cross_at (hf : StrictMono f) {u v w : Vec T} {x y : ℝ} (h : At f u v x) (h' : At f u w y) (hx : x < π) (hy : y < π) :
    (0 < cross v w ↔ x < y) ∧ (cross v w = 0 ↔ x = y) := by
  obtain ⟨h1, -, h2⟩ := ccw_at (none : Option (Approx T ℚ)) hf h.ne h h'
  rw [ccw_eq, ccwExact_ccw] at h1
  rw [ccw_eq, ccwExact_collinear] at h2
  have := h.nonneg
  have := h'.nonneg
  rw [h1, h2]
  refine ⟨⟨fun k => ?_, fun k => .inl ⟨k, by linarith⟩⟩, ⟨fun k => ?_, fun k => .inl k.symm⟩⟩
  · rcases k with k | k <;> linarith
  · rcases k with k | k | k <;> linarith

theorem dot_at (hf : StrictMono f) {u v w : Vec T} {x : ℝ} (h : At f u v x) (h' : At f u w x) : 0 < dot v w := by
  have := same_at (none : Option (Approx T ℚ)) hf h' h
  rw [decide_eq_true rfl, Bool.and_eq_true, decide_eq_true_eq, decide_eq_true_eq, orientation_same] at this
  exact this.2

/-- The triangle at the source of a half edge. -/
theorem root (h : S.Shut) {e : HE} (he : e < S.tri.size) :
    S.vec (S.tri.nextAtVertex e) = S.vec e + S.vec (S.tri.nextInFace e) ∧
      0 < cross (S.vec e) (S.vec e + S.vec (S.tri.nextInFace e)) := by
  have := h.flat.corner (h.nb e he)
  exact ⟨this.1, this.1 ▸ this.2⟩

/-- Directions in the interior of a corner. -/
theorem at_corner (h : S.Shut) (hc : Cor f S θ) {e : HE} (he : e < S.tri.size) {v : Vec T} (h1 : 0 < cross (S.vec e) v)
    (h2 : 0 < cross v (S.vec e + S.vec (S.tri.nextInFace e))) : ∃ ρ, At f (S.vec e) v ρ ∧ 0 < ρ ∧ ρ < θ e := by
  have hv : v ≠ 0 := by rintro rfl; simp at h1
  obtain ⟨ρ, hρ⟩ := exists_at hc.mono (hc.ne e he) hv
  obtain ⟨k, -, -⟩ := ccw_at (none : Option (Approx T ℚ)) hc.mono (hc.ne e he) (at_self (hc.ne e he)) hρ
  rw [ccw_eq, ccwExact_ccw] at k
  have h3 : 0 < ρ ∧ ρ < π := by
    rcases k.1 h1 with k | k
    · exact ⟨k.1, by linarith [k.2]⟩
    · linarith [hρ.nonneg, pi_pos]
  refine ⟨ρ, hρ, h3.1, ?_⟩
  rw [← (root h he).1] at h2
  exact (cross_at hc.mono hρ (hc.next e he) h3.2 (hc.lt e he)).1.1 h2

/-- Saddle connections leave a vertex in a corner. -/
theorem isDirection (h : S.Shut) (hc : Cor f S θ) {e : HE} (he : e < S.tri.size) {v : Vec T} {t : HE} (hs : IsSaddleConnection S e v t) :
    IsDirection f S θ (e, v) := by
  refine ⟨he, ?_⟩
  rcases hs with hs | hs
  · exact ⟨0, le_rfl, hc.pos e he, by rw [hs]; exact turns_self _⟩
  · obtain ⟨ρ, h1, h2, h3⟩ := at_corner h hc he (by assumption) (by assumption)
    exact ⟨ρ, h2.le, h3, h1.turns⟩

/-- Where the search in a sector begins. -/
noncomputable def begin (S : FlatTri T) (s : Sector T) (x : ℝ) : Bd T := if x = 0 then (true, S.vec s.source) else (false, (limits S s).1)

theorem begin_fine (h : S.Shut) (hc : Cor f S θ) {s : Sector T} {x y : ℝ} (hs : Ok f S θ s x y) (b : Bool) :
    Fine S (begin S s x) (b, (limits S s).2) (S.tri.nextInFace s.source) (S.vec s.source + S.vec (S.tri.nextInFace s.source)) := by
  have he := hs.lt
  obtain ⟨r1, r2⟩ := root h he
  have hn := hc.next _ he
  rw [r1] at hn
  have hθ := hc.lt _ he
  have h0 := at_self (f := f) (hc.ne _ he)
  have hx : x < π := hs.lt'.trans hθ
  have hy : y < π := hs.le'.trans_lt hθ
  have hlt := next_lt h he
  have hp : S.vec s.source + S.vec (S.tri.nextInFace s.source) - S.vec (S.tri.nextInFace s.source) = S.vec s.source := by abel
  have yq : 0 ≤ cross (limits S s).2 (S.vec s.source + S.vec (S.tri.nextInFace s.source)) := by
    obtain ⟨k1, k2⟩ := cross_at hc.mono hs.stop hn hy hθ
    rcases hs.le'.lt_or_eq with k | k
    · exact (k1.2 k).le
    · exact (k2.2 k).ge
  unfold begin
  split_ifs with hx0
  · rcases (hs.stop.nonneg).lt_or_eq with k | k
    · left
      have h1 := (cross_at hc.mono h0 hs.stop pi_pos hy).1.2 k
      exact ⟨hlt, by rw [hp]; exact r2, by rw [hp, cross_self], fun k => absurd k (by simp), r2, by rw [hp]; exact h1, yq, .inl h1⟩
    · right
      have h1 := (cross_at hc.mono h0 hs.stop pi_pos hy).2.2 k
      refine void_of_same (n := S.vec (S.tri.nextInFace s.source)) ?_ ?_ h1
      · rw [half_eq (q := S.vec s.source + S.vec (S.tri.nextInFace s.source)), hp, cross_self]
        linarith
      · rw [half_eq (q := S.vec s.source + S.vec (S.tri.nextInFace s.source)), hp, h1]
        have := (cross_at hc.mono hs.stop hn hy hθ).1.2 (by linarith [hc.pos _ he])
        linarith
  · left
    have hx0' : 0 < x := lt_of_le_of_ne hs.start.nonneg (Ne.symm hx0)
    have h1 := (cross_at hc.mono h0 hs.start pi_pos hx).1.2 hx0'
    have h2 := (cross_at hc.mono h0 hs.stop pi_pos hy).1.2 (hx0'.trans_le hs.le)
    refine ⟨hlt, by rw [hp]; exact r2, by rw [hp]; exact h1.le, fun _ => by rw [hp]; exact h1,
      (cross_at hc.mono hs.start hn hx hθ).1.2 hs.lt', by rw [hp]; exact h2, yq, ?_⟩
    obtain ⟨k1, k2⟩ := cross_at hc.mono hs.start hs.stop hx hy
    rcases hs.le.lt_or_eq with k | k
    · exact .inl (k1.2 k)
    · exact .inr ⟨rfl, k2.2 k⟩

/-- The search sector is the sector. -/
theorem begin_inS (hc : Cor f S θ) {s : Sector T} {x y : ℝ} (hs : Ok f S θ s x y) (b : Bool) (A : Option (Approx T K)) {v : Vec T} {ρ : ℝ}
    (hv : At f (S.vec s.source) v ρ) (h0 : 0 < ρ) (h1 : ρ < θ s.source) :
    InS (begin S s x) (b, (limits S s).2) v ↔ has A (s.source, v) s = true := by
  have he := hs.lt
  have hθ := hc.lt _ he
  have hx : x < π := hs.lt'.trans hθ
  have hy : y < π := hs.le'.trans_lt hθ
  have hρ : ρ < π := h1.trans hθ
  rw [hs.has A hc hv h1, decide_eq_true_eq, cyc_of_le hs.le]
  unfold InS begin
  split_ifs with hx0
  · simp only [false_and, false_or]
    rw [(cross_at hc.mono (at_self (hc.ne _ he)) hv pi_pos hρ).1, (cross_at hc.mono hv hs.stop hρ hy).1]
    constructor
    · rintro ⟨k1, k2⟩
      exact ⟨by linarith, .inl k2⟩
    · rintro ⟨k1, k2 | k2⟩
      · exact ⟨h0, k2⟩
      · linarith [k2.1]
  · simp only [true_and]
    obtain ⟨k1, k2⟩ := cross_at hc.mono hs.start hv hx hρ
    rw [k1, k2, (cross_at hc.mono hv hs.stop hρ hy).1]
    constructor
    · rintro (⟨rfl, -⟩ | ⟨k3, k4⟩)
      · refine ⟨le_rfl, ?_⟩
        rcases hs.le.lt_or_eq with k | k
        · exact .inl k
        · exact .inr ⟨rfl, k⟩
      · exact ⟨k3.le, .inl k4⟩
    · rintro ⟨k3, k4⟩
      rcases k3.lt_or_eq with k | rfl
      · right
        refine ⟨k, ?_⟩
        rcases k4 with k4 | k4
        · exact k4
        · linarith [k4.1]
      · exact .inl ⟨rfl, dot_at hc.mono hs.start hv⟩

theorem has_edge (hc : Cor f S θ) {s : Sector T} {x y : ℝ} (hs : Ok f S θ s x y) (A : Option (Approx T K)) :
    contains A s s.source (S.vec s.source) = .ok (decide (x = 0)) := by
  have he := hs.lt
  have h0 := at_self (f := f) (hc.ne _ he)
  have key : ∀ v, contains A s s.source v ≠ .ok true → contains A s s.source v ≠ .ok false → ∃ p, s.sector = some p ∧ Vec.inSector A v p.1 p.2 ≠ .ok true ∧ Vec.inSector A v p.1 p.2 ≠ .ok false := by
    intro v k1 k2
    unfold contains at k1 k2
    rw [if_neg (by simp)] at k1 k2
    cases hsec : s.sector with
    | none => rw [hsec] at k1; simp at k1
    | some p =>
      rw [hsec] at k1 k2
      exact ⟨p, rfl, k1, k2⟩
  have hh := hs.has A hc h0 (hc.pos _ he)
  have hcyc : Cyc x y 0 ↔ x = 0 := by
    rw [cyc_of_le hs.le]
    have := hs.start.nonneg
    constructor
    · rintro ⟨k, -⟩
      linarith
    · rintro rfl
      refine ⟨le_rfl, ?_⟩
      rcases hs.le.lt_or_eq with k | k
      · exact .inl k
      · exact .inr ⟨rfl, k⟩
  have e2 : decide (Cyc x y 0) = decide (x = 0) := decide_eq_decide.2 hcyc
  rw [e2] at hh
  unfold has at hh
  cases hcon : contains A s s.source (S.vec s.source) with
  | ok r => rw [hcon] at hh; simp only at hh; rw [hh]
  | error err =>
    obtain ⟨p, p1, p2, p3⟩ := key (S.vec s.source) (by rw [hcon]; simp) (by rw [hcon]; simp)
    have hstart := hs.start
    have hstop := hs.stop
    unfold limits at hstart hstop
    rw [p1] at hstart hstop
    have := inSector_at A hc.mono h0 hstart hstop
    simp only [Option.getD_some] at this
    rw [this] at p2 p3
    cases hd : decide (Cyc x y 0)
    · rw [hd] at p3; exact absurd rfl p3
    · rw [hd] at p2; exact absurd rfl p2

/-- What should be found in a sector. -/
structure Found (P : Params T K) (s : Sector T) (l : List Saddle) : Prop where
  source : ∀ c ∈ l, c.source = s.source
  iff : ∀ c : HE × Vec T, c ∈ l.map (fun c => (c.target, P.S.saddleVector c)) ↔
    IsSaddleConnection P.S s.source c.2 c.1 ∧ has P.A (s.source, c.2) s = true ∧ Within P.radius P.lower c.2
  once : l.Pairwise fun c d => P.S.saddleVector c ≠ P.S.saddleVector d

variable {P : Params T K}

/-- The machine has nothing left to do. -/
structure Idle (m : Machine T) : Prop where
  state : m.state = []
  moves : m.moves = []
  tmp : m.tmp = []

/-- The list is reported, beginning with what is returned by a call. -/
def Goes (P : Params T K) (r : Except Err (Machine T × Bool)) (l : List Saddle) : Prop :=
  ∃ m b, r = .ok (m, b) ∧ if b then (m.sectors = [] ∧ l = []) ∨
    (m.sectors ≠ [] ∧ ∃ c l', l = c :: l' ∧ dereference P m = .ok c ∧ Runs P m l') else Runs P m l

theorem Goes.runs {m : Machine T} {l : List Saddle} (h : Goes P (increment P m) l) : Runs P m l := by
  obtain ⟨m', b, h1, h2⟩ := h
  cases b
  · exact .quiet h1 h2
  · rcases h2 with ⟨h2, rfl⟩ | ⟨h2, c, l', rfl, h3, h4⟩
    · exact .done h1 h2
    · exact .report h1 h2 h3 h4

theorem saddleVector_ofHalfEdge (h : S.Shut) {e : HE} (he : e < S.tri.size) : S.saddleVector (Saddle.ofHalfEdge e) = S.vec e := by
  unfold saddleVector Saddle.ofHalfEdge
  rw [chainVector_bump h.even h.flat.odd _ he]
  have : S.chainVector (fun _ => 0) = 0 := chainVector_zero S
  rw [this, zero_add]

open Classical in
/-- The search in one sector. -/
theorem sector_goes (h : P.S.Shut) (hf : StrictMono f) (hc : Cor f P.S θ) {r : Bound} (hr : P.radius = some r) {s : Sector T}
    {x y : ℝ} (hs : Ok f P.S θ s x y) (ss : List (Sector T)) {m : Machine T} (hm : Idle m) :
    ∃ l, Found P s l ∧ ∃ m', Idle m' ∧ ∀ tail, Goes P (prepare P m' ss) tail → Goes P (prepare P m (s :: ss)) (l ++ tail) := by
  have he := hs.lt
  have hlt := next_lt h he
  obtain ⟨r1, r2⟩ := root h he
  have hcon := has_edge hc hs P.A
  have hp : P.S.vec s.source + P.S.vec (P.S.tri.nextInFace s.source) - P.S.vec (P.S.tri.nextInFace s.source) = P.S.vec s.source := by abel
  -- The machine
  obtain ⟨b1, hb1⟩ : ∃ b1 : Boundary T, b1 = match s.sector with
    | some p => .vector p.2
    | none => .chain (Chain.bump (Chain.bump (fun _ => 0) s.source) (P.S.tri.nextInFace s.source)) := ⟨_, rfl⟩
  obtain ⟨b0, hb0⟩ : ∃ b0 : Boundary T, b0 = match s.sector with
    | some p => if decide (x = 0) = true then .chain (Chain.bump (fun _ => 0) s.source) else .vector p.1
    | none => .chain (Chain.bump (fun _ => 0) s.source) := ⟨_, rfl⟩
  have hz : P.S.chainVector (fun _ => 0) = 0 := chainVector_zero P.S
  have hv1 : P.S.chainVector (Chain.bump (fun _ => 0) s.source) = P.S.vec s.source := by
    rw [chainVector_bump h.even h.flat.odd _ he, hz, zero_add]
  have hv2 : P.S.chainVector (Chain.bump (Chain.bump (fun _ => 0) s.source) (P.S.tri.nextInFace s.source)) =
      P.S.vec s.source + P.S.vec (P.S.tri.nextInFace s.source) := by
    rw [chainVector_bump h.even h.flat.odd _ hlt, hv1]
  have hbd1 : bd P.S b1 = (b1.isChain, (limits P.S s).2) := by
    rw [hb1]
    unfold limits
    cases s.sector with
    | none =>
      refine Prod.ext rfl ?_
      simp only [Option.getD_none]
      rw [r1]
      exact hv2
    | some p => rfl
  have hbd0 : bd P.S b0 = begin P.S s x := by
    rw [hb0]
    unfold begin
    cases hsec : s.sector with
    | none =>
      have : x = 0 := by
        have k := hs.start
        unfold limits at k
        rw [hsec] at k
        exact At.unique hc.mono (hc.ne _ he) k (at_self (hc.ne _ he))
      rw [if_pos this]
      exact Prod.ext rfl hv1
    | some p =>
      simp only [decide_eq_true_eq]
      split_ifs with k
      · exact Prod.ext rfl hv1
      · refine Prod.ext rfl ?_
        unfold limits
        rw [hsec]
        rfl
  obtain ⟨m1, hm1⟩ : ∃ m1 : Machine T, m1 = ⟨s :: ss, b0, b1, P.S.tri.nextInFace s.source,
    Chain.bump (Chain.bump (fun _ => 0) s.source) (P.S.tri.nextInFace s.source), .start none none :: .stop :: m.state, m.moves, m.tmp⟩ := ⟨_, rfl⟩
  have hprep : prepare P m (s :: ss) = .ok (m1, decide (x = 0 ∧ Within P.radius P.lower (P.S.vec s.source))) := by
    unfold prepare
    rw [if_neg (by rw [hm.state, hm.moves, hm.tmp]; simp), if_neg (by unfold Tri.boundary; simpa using h.nb _ he)]
    simp only [hcon, bind, Except.bind, pure, Except.pure]
    rw [hm1, hb0, hb1]
    congr 2
    rw [hr, Bool.eq_iff_iff]
    simp only [gtBound_eq, Bool.not_eq_true', Bool.or_eq_false_iff, decide_eq_true_eq, Bool.not_eq_false', decide_eq_false_iff_not, not_lt]
    unfold Within
    constructor
    · rintro ⟨⟨k1, k2⟩, k3⟩
      exact ⟨k2, fun r' hr' => by injection hr' with hr'; subst hr'; exact k1, k3⟩
    · rintro ⟨k1, k2, k3⟩
      exact ⟨⟨k2 r rfl, k1⟩, k3⟩
  have hview : view P.S m1 = (P.S.tri.nextInFace s.source, P.S.vec s.source + P.S.vec (P.S.tri.nextInFace s.source)) := by
    rw [view_nil (by rw [hm1]; exact hm.moves), hm1]
    exact Prod.ext rfl hv2
  have hfine := begin_fine h hc hs b1.isChain
  -- The search comes to an end
  obtain ⟨M, hM⟩ := Gets.bound h hf r
  have gets : ∀ W, 0 ≤ cross ((P.S.vec s.source).map f) W → 0 ≤ cross W ((P.S.vec s.source + P.S.vec (P.S.tri.nextInFace s.source)).map f) →
      Gets f P.S W 0 (P.S.tri.nextInFace s.source) (P.S.vec s.source + P.S.vec (P.S.tri.nextInFace s.source)) := by
    intro W k1 k2
    have hp' : (P.S.vec s.source + P.S.vec (P.S.tri.nextInFace s.source)).map f - (P.S.vec (P.S.tri.nextInFace s.source)).map f =
        (P.S.vec s.source).map f := by
      ext <;> simp [Vec.map]
    refine ⟨P.S.tri.nextInFace s.source, _, hlt, ?_, ?_, k2, .root⟩
    · rw [hp', cross_map, ← map_zero f]
      exact hf r2
    · rw [hp']
      exact k1
  have truth : Truth P.S r none none (P.S.tri.nextInFace s.source) (P.S.vec s.source + P.S.vec (P.S.tri.nextInFace s.source)) :=
    ⟨fun k => absurd k (by simp), fun k => absurd k (by simp)⟩
  have hvis : ∃ l b, Visit P.S (some r) P.lower none none (begin P.S s x) (b1.isChain, (limits P.S s).2) (P.S.tri.nextInFace s.source)
      (P.S.vec s.source + P.S.vec (P.S.tri.nextInFace s.source)) l b := by
    rcases hfine with hn | hn
    · refine Visit.exists_node h hf hM (M + 1) 0 none none _ _ _ _ (by omega) hn truth fun W _ hW => gets W ?_ ?_
      · have k1 := hn.p0
        have k2 := hn.p1
        rw [hp] at k1 k2
        rw [cross_comm]
        have := hW.nonpos (z := (P.S.vec s.source).map f) (by
          rw [cross_map, ← map_zero f]; apply hf.monotone; rw [cross_comm]; linarith) (by
          rw [cross_map, ← map_zero f]; apply hf.monotone; rw [cross_comm]; linarith)
        linarith
      · exact hW.nonneg (by rw [cross_map, ← map_zero f]; exact hf.monotone hn.q0.le) (by rw [cross_map, ← map_zero f]; exact hf.monotone hn.q1)
    · have hx0 : x = 0 := by
        have := hn.1
        unfold begin at this
        split_ifs at this with k
        exact k
      have hb : (begin P.S s x).2 = P.S.vec s.source := by unfold begin; rw [if_pos hx0]
      obtain ⟨c, c0, c1⟩ := exists_unit (map_ne_zero f hf (hc.ne _ he))
      refine Visit.exists_dead h hf hM hn c1 ?_ (M + 1) 0 none none _ _ (by omega) hlt truth (gets _ ?_ ?_)
      · rw [hb]
        exact (InCone.left _ _).smul c0.le
      · rw [cross_smul_right, cross_self, mul_zero]
      · rw [cross_smul_left]
        refine mul_nonneg c0.le ?_
        rw [cross_map, ← map_zero f]
        exact hf.monotone r2.le
  obtain ⟨l, b, hvis⟩ := hvis
  obtain ⟨m2, l2, a, a1, a2, a3⟩ := hvis.sim h hr m1 (.stop :: m.state) s ss hfine (by rw [hm1]) (by rw [hm1]) (by rw [hm1]; exact hlt) hview
    (by rw [← hbd0, hm1]) (by rw [← hbd1, hm1])
  -- What has been found
  have hmem : ∀ c : HE × Vec T, c ∈ l ↔ (0 < cross (P.S.vec s.source) c.2 ∧ 0 < cross c.2 (P.S.vec s.source + P.S.vec (P.S.tri.nextInFace s.source)) ∧
      Hits P.S c.2 (P.S.tri.nextInFace s.source) (P.S.vec s.source + P.S.vec (P.S.tri.nextInFace s.source)) c.1) ∧
      has P.A (s.source, c.2) s = true ∧ Within P.radius P.lower c.2 := by
    intro c
    rcases hfine with hn | hn
    · rw [(hvis.correct hf h hn).2.1 c, hr]
      constructor
      · rintro ⟨k1, k2, k3⟩
        obtain ⟨-, i1, i2⟩ := hn.inS k1
        rw [hp] at i1
        obtain ⟨ρ, p1, p2, p3⟩ := at_corner h hc he i1 i2
        exact ⟨⟨i1, i2, k2⟩, (begin_inS hc hs _ P.A p1 p2 p3).1 k1, k3⟩
      · rintro ⟨⟨i1, i2, k2⟩, k1, k3⟩
        obtain ⟨ρ, p1, p2, p3⟩ := at_corner h hc he i1 i2
        exact ⟨(begin_inS hc hs _ P.A p1 p2 p3).2 k1, k2, k3⟩
    · rw [(hvis.void hn).1]
      refine ⟨fun k => absurd k (by simp), ?_⟩
      rintro ⟨⟨i1, i2, k2⟩, k1, k3⟩
      obtain ⟨ρ, p1, p2, p3⟩ := at_corner h hc he i1 i2
      exact absurd ((begin_inS hc hs _ P.A p1 p2 p3).2 k1) (hn.not_inS _)
  have honce : l.Pairwise fun c d => c.2 ≠ d.2 := by
    rcases hfine with hn | hn
    · refine (hvis.correct hf h hn).2.2.imp ?_
      intro c d k hcd
      rw [hcd, cross_self] at k
      exact k rfl
    · rw [(hvis.void hn).1]
      exact List.Pairwise.nil
  have hhas : has P.A (s.source, P.S.vec s.source) s = decide (x = 0) := by
    unfold has
    simp only
    rw [hcon]
  obtain ⟨c1, c2, c3, c4⟩ := applyMoves_spec (m := { m2 with state := m.state }) h a.lt
  refine ⟨(if x = 0 ∧ Within P.radius P.lower (P.S.vec s.source) then [Saddle.ofHalfEdge s.source] else []) ++ l2, ⟨?_, ?_, ?_⟩,
    applyMoves P.S { m2 with state := m.state }, ⟨hm.state, c3, ?_⟩, fun tail ht => ?_⟩
  · intro c hcm
    rcases List.mem_append.1 hcm with k | k
    · split_ifs at k with k'
      · rw [List.mem_singleton.1 k]
        rfl
      · simp at k
    · exact a2 c k
  · intro c
    rw [List.map_append, List.mem_append, a1, hmem]
    constructor
    · rintro (k | ⟨⟨k1, k2, k3⟩, k4⟩)
      · split_ifs at k with k'
        · rw [List.map_singleton, List.mem_singleton] at k
          rw [k, saddleVector_ofHalfEdge h he]
          exact ⟨.halfEdge rfl rfl, by rw [hhas]; exact decide_eq_true k'.1, k'.2⟩
        · simp at k
      · exact ⟨.crossing k1 k2 k3, k4⟩
    · rintro ⟨k, k1, k2⟩
      obtain ⟨t, v⟩ := c
      rcases k with ⟨e1, e2⟩ | ⟨i1, i2, i3⟩
      · left
        simp only at e1 e2 k1 k2
        subst e1 e2
        rw [if_pos ⟨by rw [hhas] at k1; simpa using k1, k2⟩, List.map_singleton, saddleVector_ofHalfEdge h he]
        exact List.mem_singleton.2 rfl
      · exact .inr ⟨⟨i1, i2, i3⟩, k1, k2⟩
  · rw [List.pairwise_append]
    refine ⟨?_, ?_, ?_⟩
    · split_ifs
      · exact List.pairwise_singleton _ _
      · exact List.Pairwise.nil
    · rw [← a1, List.pairwise_map] at honce
      exact honce
    · intro c hc1 d hd
      split_ifs at hc1
      · rw [List.mem_singleton.1 hc1, saddleVector_ofHalfEdge h he]
        intro k
        have : (d.target, P.S.saddleVector d) ∈ l := by rw [← a1]; exact List.mem_map_of_mem hd
        have := ((hmem _).1 this).1.1
        simp only at this
        rw [← k, cross_self] at this
        exact lt_irrefl _ this
      · simp at hc1
  · change m2.tmp = []
    rw [a.tmp, hm1]
    exact hm.tmp
  · -- The machine
    have hinc : increment P m2 = prepare P (applyMoves P.S { m2 with state := m.state }) ss := by
      unfold increment
      rw [if_neg (Guard.not ⟨by rw [a.sectors, hm1]; simp, ?_⟩), a.state]
      · simp only
        rw [a.sectors, hm1]
      · have := hvis.order h hfine
        rw [← a.b0, ← hbd1] at this
        rw [a.b1, hm1]
        exact this
    have hrun : Runs P m1 (l2 ++ tail) := a3 tail (Goes.runs (by rw [hinc]; exact ht))
    refine ⟨m1, _, hprep, ?_⟩
    by_cases k : x = 0 ∧ Within P.radius P.lower (P.S.vec s.source)
    · rw [decide_eq_true k, if_pos rfl, if_pos k]
      refine .inr ⟨by rw [hm1]; simp, Saddle.ofHalfEdge s.source, l2 ++ tail, by simp, ?_, hrun⟩
      obtain ⟨-, k1, k2⟩ := k
      rw [hr] at k1
      unfold dereference
      rw [hm1]
      simp only [bind, Except.bind, pure, Except.pure, saddleVector_ofHalfEdge h he, hr, gtBound_eq]
      rw [if_neg]
      rintro ⟨-, k | k⟩
      · exact absurd (of_decide_eq_true k) (not_lt.2 (k1 r rfl))
      · exact k (decide_eq_true k2)
    · rw [decide_eq_false k, if_neg (by simp), if_neg k]
      exact hrun

/-- The search in all the sectors. -/
theorem sectors_go (h : P.S.Shut) (hf : StrictMono f) (hc : Cor f P.S θ) {r : Bound} (hr : P.radius = some r) :
    ∀ (ss : List (Sector T)), (∀ s ∈ ss, ∃ x y, Ok f P.S θ s x y) → ∀ {m : Machine T}, Idle m →
    ∃ L, List.Forall₂ (Found P) ss L ∧ Goes P (prepare P m ss) L.flatten := by
  intro ss
  induction ss with
  | nil =>
    intro _ m _
    refine ⟨[], .nil, { m with sectors := [] }, true, rfl, ?_⟩
    rw [if_pos rfl]
    exact .inl ⟨rfl, rfl⟩
  | cons s ss ih =>
    intro hss m hm
    obtain ⟨x, y, hs⟩ := hss s List.mem_cons_self
    obtain ⟨l, hl, m', hm', hgo⟩ := sector_goes h hf hc hr hs ss hm
    obtain ⟨L, hL, hgo'⟩ := ih (fun s hs => hss s (List.mem_cons_of_mem _ hs)) hm'
    exact ⟨l :: L, .cons hl hL, hgo _ hgo'⟩

end SaddleSearch

end Verif
