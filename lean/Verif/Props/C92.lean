import Verif.Props.C40

/-!
# C92: the search for saddle connections gets to the next saddle connection if there is one
-/

namespace Verif.C92

open Verif Spec Tri FlatTri Examples Vec Real SaddleConnections SaddleSearch

variable {T : Type} [CommRing T] [LinearOrder T] [IsStrictOrderedRing T]
variable {K : Type} [Field K] [LinearOrder K] [IsStrictOrderedRing K]

/-- If a search is bounded, then every saddle connection that it admits is reached after finitely many steps. (Missing:
searches without a bound, see `never_advances`.) -/
theorem reached_partial {f : T →+* ℝ} (hf : StrictMono f) (A : Option (Approx T K)) {dbg : Bool} {S : FlatTri T}
    (h : Closed dbg S) {θ : HE → ℝ} (hθ : AllCorners f S θ) {fs : List (Restriction T)} (hv : ∀ g ∈ fs, ValidRestriction f S θ g)
    (hb : ∃ b, .bound b ∈ fs) {e t : HE} {v : Vec T} (he : e < S.tri.size) (hs : IsSaddleConnection S e v t)
    (ha : ∀ g ∈ fs, Admits f S θ (e, v) g) :
    ∃ N, ∀ fuel ≥ N, ∃ st, run A false S fuel (make S) fs = some (.ok st) ∧
      ∀ debug, ∃ L M, (∀ fuel ≥ M, enumerate A debug S st fuel = some (.ok L)) ∧ ∃ c ∈ L, c.source = e ∧ S.saddleVector c = v := by
  obtain ⟨N, hN⟩ := C40.search_exact hf A h hθ hv hb
  refine ⟨N, fun fuel hfuel => ?_⟩
  obtain ⟨st, h1, h2⟩ := hN fuel hfuel
  refine ⟨st, h1, fun debug => ?_⟩
  obtain ⟨L, M, k1, -, -, k2⟩ := h2 debug
  exact ⟨L, M, k1, (k2 e v).2 ⟨he, ⟨t, hs⟩, ha⟩⟩

/-- The hypotheses can be met by a search on a torus and a saddle connection that crosses some edges. -/
example : ∃ θ : HE → ℝ, AllCorners (Int.castRingHom ℝ) flatTorus θ ∧
    (∀ g ∈ ([.halfEdge 0, .bound (.ofInt 4)] : List (Restriction ℤ)), ValidRestriction (Int.castRingHom ℝ) flatTorus θ g) ∧
    Closed true flatTorus ∧ (∃ b, .bound b ∈ ([.halfEdge 0, .bound (.ofInt 4)] : List (Restriction ℤ))) ∧
    0 < flatTorus.tri.size ∧ IsSaddleConnection flatTorus 0 ⟨3, 2⟩ 1 ∧
      ∀ g ∈ ([.halfEdge 0, .bound (.ofInt 4)] : List (Restriction ℤ)), Admits (Int.castRingHom ℝ) flatTorus θ (0, ⟨3, 2⟩) g := by
  obtain ⟨θ, hθ⟩ := C39.corners_exist (f := Int.castRingHom ℝ) Int.cast_strictMono C30.flatTorus_closed
  have key : ∀ {v : Vec ℤ} {x t : HE} {q : Vec ℤ}, v = apex flatTorus x q →
      t = flatTorus.tri.nextInFace (flatTorus.tri.nextInFace (neg x)) → Hits flatTorus v x q t := by
    rintro v x t q h rfl
    exact .here h
  refine ⟨θ, hθ, fun g hg => ?_, C30.flatTorus_closed, ⟨.ofInt 4, by simp⟩, by decide,
    .crossing (by decide) (by decide) (.left (by decide) (.right (by decide) (key (by decide) (by decide)))), fun g hg => ?_⟩
  · fin_cases hg <;> trivial
  · fin_cases hg
    · rfl
    · show dot (⟨3, 2⟩ : Vec ℤ) ⟨3, 2⟩ ≤ _
      decide

/-- A search about to cross an edge when there is nothing left between the boundaries of the search sector. -/
def Stuck (P : Params T K) (m : Machine T) : Prop :=
  m.edge < P.S.tri.size ∧ m.sectors ≠ [] ∧ m.b0.isChain ∧ m.b1.vec P.S = m.b0.vec P.S ∧ ∃ s t l, m.state = .start s t :: l ∧ s ≠ some true ∧ t ≠ some true

/-- The half edges can be walked without leaving the surface or getting to its boundary. -/
def Inside (S : FlatTri T) : Prop := ∀ e < S.tri.size, S.tri.boundary e = false ∧ neg e < S.tri.size ∧
  S.tri.nextInFace e < S.tri.size ∧ S.tri.nextAtVertex e < S.tri.size

omit [IsStrictOrderedRing T] in
theorem applyMove_lt {S : FlatTri T} (hb : Inside S) {m : SaddleSearch.Move} {p : HE × (ℕ → ℤ)} (hp : p.1 < S.tri.size) : (applyMove S m p).1 < S.tri.size := by
  cases m with
  | nextEdge => exact (hb _ hp).2.2.1
  | previousEdge => exact (hb _ (hb _ hp).2.2.2).2.1
  | otherFace => exact (hb _ hp).2.1

omit [IsStrictOrderedRing T] in
theorem applyMovesLoop_lt {S : FlatTri T} (hb : Inside S) : ∀ (fuel : ℕ) (l : List SaddleSearch.Move) (p : HE × (ℕ → ℤ)), p.1 < S.tri.size →
    (applyMovesLoop S fuel l p).1 < S.tri.size := by
  intro fuel
  induction fuel with
  | zero =>
    intro l p hp
    match l with
    | [] => exact hp
    | [m] => exact applyMove_lt hb hp
    | m :: n :: l => exact hp
  | succ k ih =>
    intro l p hp
    match l with
    | [] => exact hp
    | [m] => exact applyMove_lt hb hp
    | m :: n :: l =>
      cases m <;> cases n <;> unfold applyMovesLoop <;> apply ih <;> first
        | exact hp
        | exact applyMove_lt hb hp
        | exact (hb _ (hb _ hp).2.2.1).2.1
        | exact (hb _ (hb _ (hb _ hp).2.1).2.2.2).2.1

omit [IsStrictOrderedRing T] in
theorem applyMoves_lt {S : FlatTri T} (hb : Inside S) {m : Machine T} (hp : m.edge < S.tri.size) : (applyMoves S m).edge < S.tri.size :=
  applyMovesLoop_lt hb (2 * m.moves.length) m.moves (m.edge, m.edgeEnd) hp

/-- Without a bound, such a search goes on to the next edge. -/
theorem stuck_step {P : Params T K} (hr : P.radius = none) (hb : Inside P.S) {m : Machine T} (h : Stuck P m) :
    ∃ m', increment P m = .ok (m', false) ∧ Stuck P m' := by
  obtain ⟨h0, h1, h2, h3, s, t, l, h4, h5, h6⟩ := h
  have hset : ∀ m' : Machine T, settle P m' s t = (s, t, m') := by
    intro m'
    unfold settle
    rw [hr]
    cases s <;> cases t <;> rfl
  have hcol : Vec.ccw P.A (m.b0.vec P.S) (m.b1.vec P.S) ≠ .clockwise := by
    rw [h3, ccw_eq, Ne, ccwExact_clockwise]
    unfold cross
    rw [mul_comm]
    simp
  unfold increment
  rw [if_neg (by rintro ⟨-, k | k⟩; exacts [h1 (by simpa using k), hcol k]), h4]
  simp only [hset]
  rw [if_neg (by simp [h5, h6])]
  unfold crossEdge
  obtain ⟨m1, hm1⟩ : ∃ m1, m1 = applyMoves P.S { m with state := l, moves := m.moves ++ [.otherFace] } := ⟨_, rfl⟩
  have hlt : m1.edge < P.S.tri.size := by rw [hm1]; exact applyMoves_lt hb h0
  obtain ⟨m2, hm2⟩ : ∃ m2, m2 = applyMoves P.S { m1 with moves := m1.moves ++ [.nextEdge] } := ⟨_, rfl⟩
  have hlt' : m2.edge < P.S.tri.size := by rw [hm2]; exact applyMoves_lt hb hlt
  simp only [← hm1, ← hm2, (hb _ hlt).1, Bool.false_eq_true, if_false, hr]
  have f1 : m2.sectors = m.sectors := by rw [hm2, hm1]; rfl
  have f2 : m2.b0 = m.b0 := by rw [hm2, hm1]; rfl
  have f3 : m2.b1 = m.b1 := by rw [hm2, hm1]; rfl
  cases hcl : classify P m2 with
  | clockwise =>
    refine ⟨_, rfl, hlt', by simpa [f1] using h1, ?_, ?_, some false, t, _, rfl, by simp, h6⟩
    · simp only [f2]; exact h2
    · simp only [f2, f3]; exact h3
  | counterclockwise =>
    refine ⟨_, rfl, hlt', by simpa [f1] using h1, ?_, ?_, s, none, _, rfl, h5, by simp⟩
    · simp only [f2]; exact h2
    · simp only [f2, f3]; exact h3
  | saddleConnection =>
    exfalso
    unfold classify at hcl
    rw [f2, f3, h3, h2] at hcl
    simp only [if_true] at hcl
    cases hc : Vec.ccw P.A (m.b0.vec P.S) (P.S.chainVector m2.edgeEnd) with
    | clockwise => rw [hc] at hcl; cases hcl
    | collinear => rw [hc] at hcl; cases hcl
    | counterclockwise => rw [hc] at hcl; cases hcl

/-- Without a bound, such a search goes on forever. -/
theorem stuck_forever {P : Params T K} (hr : P.radius = none) (hb : Inside P.S) :
    ∀ (fuel : ℕ) {m : Machine T}, Stuck P m → advance P fuel m = none := by
  intro fuel
  induction fuel with
  | zero => intro m _; rfl
  | succ n ih =>
    intro m h
    obtain ⟨m', h1, h2⟩ := stuck_step hr hb h
    unfold advance
    rw [h1]
    exact ih h2

omit [IsStrictOrderedRing T] in
theorem advance_more {P : Params T K} : ∀ (fuel : ℕ) {m : Machine T} {r : Except Err (Machine T)}, advance P fuel m = some r →
    ∀ n ≥ fuel, advance P n m = some r := by
  intro fuel
  induction fuel with
  | zero => intro m r h; cases h
  | succ k ih =>
    intro m r h n hn
    obtain ⟨j, rfl⟩ : ∃ j, n = j + 1 := ⟨n - 1, by omega⟩
    unfold advance at h ⊢
    split at h
    · exact h
    · exact h
    · exact ih h j (by omega)

omit [IsStrictOrderedRing T] in
theorem start_more {P : Params T K} {fuel : ℕ} {l : List (Sector T)} {r : Except Err (Machine T)} (h : start P fuel l = some r) :
    ∀ n ≥ fuel, start P n l = some r := by
  intro n hn
  unfold start at h ⊢
  split at h
  · exact h
  · exact h
  · exact advance_more fuel h n hn

/-- What can be seen of the machine when `(2, 1)` is reported. -/
def look (m : Machine ℤ) : Bool := m.edge < flatTorus.tri.size ∧ m.sectors.isEmpty = false ∧ m.b0.isChain ∧ m.b1.vec flatTorus = m.b0.vec flatTorus ∧
  m.state.take 2 = [.found, .start none (some false)]

/-- Searching on a torus between the directions `(2, 1)` and `(1, 1)` without a bound, the first saddle connection that is
reported is `(2, 1)`. The saddle connection `(3, 2)` is also between these directions, but `++it` never returns. -/
theorem never_advances (debug : Bool) : ∃ st, run (none : Option (Approx ℤ ℚ)) debug flatTorus 0 (make flatTorus) [.vectors ⟨2, 1⟩ ⟨1, 1⟩] = some (.ok st) ∧
    st.searchRadius = none ∧ Searched (none : Option (Approx ℤ ℚ)) st (0, ⟨3, 2⟩) ∧ IsSaddleConnection flatTorus 0 ⟨3, 2⟩ 1 ∧
    ∃ m c, (∀ fuel ≥ 5, start (⟨none, debug, flatTorus, none, st.lowerBound⟩ : Params ℤ ℚ) fuel st.sectors = some (.ok m)) ∧
      m.sectors ≠ [] ∧
      dereference (⟨none, debug, flatTorus, none, st.lowerBound⟩ : Params ℤ ℚ) m = .ok c ∧ c.source = 0 ∧ flatTorus.saddleVector c = ⟨2, 1⟩ ∧
      ∀ fuel, advance (⟨none, debug, flatTorus, none, st.lowerBound⟩ : Params ℤ ℚ) fuel m = none := by
  have key : ∀ {v : Vec ℤ} {x t : HE} {q : Vec ℤ}, v = apex flatTorus x q →
      t = flatTorus.tri.nextInFace (flatTorus.tri.nextInFace (neg x)) → Hits flatTorus v x q t := by
    rintro v x t q h rfl
    exact .here h
  have inside : Inside flatTorus := by unfold Inside; decide
  have h1 : (run (none : Option (Approx ℤ ℚ)) debug flatTorus 0 (make flatTorus) [.vectors ⟨2, 1⟩ ⟨1, 1⟩]) =
      some (.ok ⟨[⟨0, some (⟨2, 1⟩, ⟨1, 1⟩)⟩], none, .zero⟩) := by
    cases debug <;> rfl
  refine ⟨_, h1, rfl, ⟨⟨_, List.mem_singleton.2 rfl, by rfl⟩, fun r hr => (by cases hr), by decide⟩,
    .crossing (by decide) (by decide) (.left (by decide) (.right (by decide) (key (by decide) (by decide)))), ?_⟩
  obtain ⟨P, hP⟩ : ∃ P : Params ℤ ℚ, P = ⟨none, debug, flatTorus, none, .zero⟩ := ⟨_, rfl⟩
  have h2 : ((start P 5 [⟨0, some (⟨2, 1⟩, ⟨1, 1⟩)⟩]).map fun r => r.toOption.map fun m =>
      (look m, (dereference P m).toOption.map fun c => (c.source, flatTorus.saddleVector c))) = some (some (true, some (0, ⟨2, 1⟩))) := by
    rw [hP]
    cases debug <;> decide +kernel
  rw [Option.map_eq_some_iff] at h2
  obtain ⟨r, hr, h2⟩ := h2
  cases r with
  | error err => cases h2
  | ok m =>
    injection h2 with h2
    obtain ⟨h3, h4⟩ := Prod.ext_iff.1 h2
    cases hd : dereference P m with
    | error err => simp only [hd] at h4; cases h4
    | ok c =>
      simp only [hd] at h4
      injection h4 with h4
      obtain ⟨h5, h6⟩ := Prod.ext_iff.1 h4
      have h7 := of_decide_eq_true (show decide _ = true from h3)
      obtain ⟨k0, k1, k2, k3, k4⟩ := h7
      have hne : m.sectors ≠ [] := by simpa using k1
      subst hP
      refine ⟨m, c, start_more hr, hne, hd, h5, h6, fun fuel => ?_⟩
      cases fuel with
      | zero => rfl
      | succ n =>
        obtain ⟨l, hl⟩ : ∃ l, m.state = .found :: .start none (some false) :: l := by
          cases hs : m.state with
          | nil => rw [hs] at k4; cases k4
          | cons a l =>
            cases l with
            | nil => rw [hs] at k4; cases k4
            | cons b l =>
              rw [hs] at k4
              injection k4 with k4 k5
              injection k5 with k5
              exact ⟨l, by rw [k4, k5]⟩
        have hcol : Vec.ccw (none : Option (Approx ℤ ℚ)) (m.b0.vec flatTorus) (m.b1.vec flatTorus) ≠ .clockwise := by
          rw [k3, ccw_eq, Ne, ccwExact_clockwise]
          unfold cross
          rw [mul_comm]
          simp
        unfold advance increment
        rw [if_neg (by rintro ⟨-, k | k⟩; exacts [hne (by simpa using k), hcol k]), hl]
        exact stuck_forever rfl inside n ⟨k0, hne, k2, k3, none, some false, l, rfl, by simp, by simp⟩

end Verif.C92
