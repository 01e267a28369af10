import Verif.Lemmas.SaddleConnect
import Verif.Props.C41
import Verif.Props.C47

/-!
C136: a saddle connection can be found from its vector and its direction.

C137: searching for a vector that does not belong to a saddle connection is an error. Here, the property does not hold.

C138: searching for a saddle connection in a direction in which there is none is an error. Here, the property does not hold.
-/

set_option linter.unusedSectionVars false

namespace Verif.C136

open Verif Spec Tri FlatTri Examples Vec Real SaddleConnections ByLength

variable {T : Type} [CommRing T] [LinearOrder T] [IsStrictOrderedRing T]
variable {K : Type} [Field K] [LinearOrder K] [IsStrictOrderedRing K]

theorem not_zero (A : Option (Approx T K)) {S : FlatTri T} {e : HE} {v : Vec T} (h : S.inSector A e v = true) : v ≠ 0 := by
  rintro rfl
  unfold FlatTri.inSector at h
  simp only [ccw_eq, ne_eq, ccwExact_clockwise] at h
  simp [cross] at h

/-- The search for a single saddle connection in debug builds is the same as in release builds. -/
theorem run_eq {f : T →+* ℝ} (hf : StrictMono f) (A : Option (Approx T K)) {dbg : Bool} {S : FlatTri T} (h : Closed dbg S)
    {θ : HE → ℝ} (hθ : AllCorners f S θ) {fs : List (Restriction T)} (hfs : fs.countP directional ≤ 1) (fuel : ℕ) :
    run A dbg S fuel (SaddleConnections.make S) fs = run A false S fuel (SaddleConnections.make S) fs := by
  cases dbg with
  | false => rfl
  | true =>
    refine run_whole A (cor h.shut hf hθ) hfs fun s hs => ?_
    obtain ⟨e, he, rfl⟩ := List.mem_map.1 hs
    exact ⟨List.mem_range.1 he, rfl⟩

theorem sector_of_connection {f : T →+* ℝ} (hf : StrictMono f) (A : Option (Approx T K)) {dbg : Bool} {S : FlatTri T} (h : Closed dbg S)
    {e : HE} (he : e < S.tri.size) {v w : Vec T} {t : HE} (hw : IsSaddleConnection S e w t) (hd : SameDirection v w) : S.inSector A e v = true := by
  obtain ⟨θ, hθ⟩ := C39.corners_exist hf h
  rw [inSector_sameDirection A hd]
  exact ((C39.isDirection_iff hf A h hθ (e, w)).1 (SaddleSearch.isDirection h.shut (cor h.shut hf hθ) he hw)).2

/-- Searching for a vector in the sector at a half edge either returns a saddle connection or an error. Such a saddle connection is in
the direction of the vector. If there is a saddle connection with that vector, or a shorter one in the same direction, it is returned.
This holds however much `Bound::upper` rounds up. -/
theorem inSector_correct {f : T →+* ℝ} (hf : StrictMono f) (A : Option (Approx T K)) {dbg : Bool} {S : FlatTri T} (h : Closed dbg S) {e : HE}
    (he : e < S.tri.size) {upper : Vec T → Bound} (hup : ∀ v, dot v v ≤ ((upper v).square : T)) (v : Vec T) :
    ∃ N, ∀ fuel ≥ N, ∃ r, Saddle.inSector A dbg upper fuel S e v = some r ∧
      (∀ c, r = .ok c → c.source = e ∧ IsSaddleConnection S e (S.saddleVector c) c.target ∧ SameDirection v (S.saddleVector c) ∧
        dot (S.saddleVector c) (S.saddleVector c) ≤ ((upper v).square : T)) ∧
      (∀ w t, IsSaddleConnection S e w t → SameDirection v w → dot w w ≤ dot v v →
        ∃ c, r = .ok c ∧ c.source = e ∧ S.saddleVector c = w ∧ c.target = t) ∧
      ∀ err, r = .error err → err = .invalidArgument := by
  cases hsec : S.inSector A e v with
  | false =>
    refine ⟨0, fun fuel _ => ⟨.error .invalidArgument, by unfold Saddle.inSector; simp [hsec], by simp, fun w t hw hd _ => ?_, by simp⟩⟩
    rw [sector_of_connection hf A h he hw hd] at hsec
    cases hsec
  | true =>
    have hv := not_zero A hsec
    obtain ⟨θ, hθ⟩ := C39.corners_exist hf h
    obtain ⟨N, hN⟩ := C40.search_exact hf A h hθ (fs := [.bound (upper v), .halfEdge e, .vectors v v])
      (fun g hg => by
        simp only [List.mem_cons, List.not_mem_nil, or_false] at hg
        rcases hg with rfl | rfl | rfl
        · trivial
        · trivial
        · exact ⟨hv, hv⟩) ⟨upper v, by simp⟩
    obtain ⟨st, e1, e2⟩ := hN N le_rfl
    obtain ⟨L, M, e3, e4, e5, e6⟩ := e2 dbg
    have hrun : ∀ fuel, run A dbg S fuel (SaddleConnections.make S) [.bound (upper v), .halfEdge e, .vectors v v] = some (.ok st) := fun fuel => by
      rw [run_eq hf A h hθ (by simp [directional])]
      exact e1
    have admits : ∀ x w, (∀ g ∈ ([.bound (upper v), .halfEdge e, .vectors v v] : List (Restriction T)), Admits f S θ (x, w) g) ↔
        dot w w ≤ ((upper v).square : T) ∧ x = e ∧ SameDirection v w := by
      intro x w
      simp only [List.forall_mem_cons, List.not_mem_nil, false_imp_iff, implies_true, and_true]
      exact and_congr_right fun _ => and_congr_right fun _ => between_self hf hv
    have found : ∀ c ∈ L, c.source = e ∧ IsSaddleConnection S e (S.saddleVector c) c.target ∧ SameDirection v (S.saddleVector c) ∧
        dot (S.saddleVector c) (S.saddleVector c) ≤ ((upper v).square : T) := by
      intro c hc
      obtain ⟨-, -, k⟩ := (e6 c.source (S.saddleVector c)).1 ⟨c, hc, rfl, rfl⟩
      obtain ⟨k1, k2, k3⟩ := (admits _ _).1 k
      have := e4 c hc
      rw [k2] at this
      exact ⟨k2, this, k3, k1⟩
    have once : ∀ w t, IsSaddleConnection S e w t → SameDirection v w → ∀ c ∈ L, S.saddleVector c = w ∧ c.target = t := by
      intro w t hw hd c hc
      obtain ⟨-, k1, k2, -⟩ := found c hc
      have k := k2.common hv hd
      exact C40.direction_unique k1 hw k.1 k.2
    refine ⟨M, fun fuel hfuel => ?_⟩
    obtain ⟨m, g1, g2⟩ := begin_of_enumerate (e3 fuel hfuel)
    rcases g2 with ⟨g2, rfl⟩ | ⟨g2, c, l, rfl, g3⟩
    · refine ⟨.error .invalidArgument, ?_, by simp, fun w t hw hd hle => ?_, by simp⟩
      · unfold Saddle.inSector
        simp [hsec, hrun, g1, g2]
      · obtain ⟨c, hc, -⟩ := (e6 e w).2 ⟨he, ⟨t, hw⟩, (admits e w).2 ⟨hle.trans (hup v), rfl, hd⟩⟩
        cases hc
    · refine ⟨.ok c, ?_, ?_, fun w t hw hd hle => ?_, by simp⟩
      · unfold Saddle.inSector
        simp [hsec, hrun, g1, g2, g3]
      · intro c' hc'
        injection hc' with hc'
        subst hc'
        exact found c List.mem_cons_self
      · exact ⟨c, rfl, (found c List.mem_cons_self).1, once w t hw hd c List.mem_cons_self⟩

/-- In particular, each saddle connection is found from the half edge at its source and its vector. -/
theorem inSector_finds {f : T →+* ℝ} (hf : StrictMono f) (A : Option (Approx T K)) {dbg : Bool} {S : FlatTri T} (h : Closed dbg S) {e : HE}
    (he : e < S.tri.size) {upper : Vec T → Bound} (hup : ∀ v, dot v v ≤ ((upper v).square : T)) {v : Vec T} {t : HE}
    (hv : IsSaddleConnection S e v t) :
    ∃ N, ∀ fuel ≥ N, ∃ c, Saddle.inSector A dbg upper fuel S e v = some (.ok c) ∧ c.source = e ∧ S.saddleVector c = v ∧ c.target = t := by
  obtain ⟨θ, hθ⟩ := C39.corners_exist hf h
  obtain ⟨N, hN⟩ := inSector_correct hf A h he hup v
  refine ⟨N, fun fuel hfuel => ?_⟩
  obtain ⟨r, h1, -, h2, -⟩ := hN fuel hfuel
  obtain ⟨c, rfl, k⟩ := h2 v t hv ⟨by unfold cross; ring, saddle_pos h.shut hf hθ hv he⟩ le_rfl
  exact ⟨c, h1, k⟩

/-- Each saddle connection is found from the half edge at its source and its direction, which can be given by any vector in that
direction. -/
theorem direction_finds {f : T →+* ℝ} (hf : StrictMono f) (A : Option (Approx T K)) {dbg : Bool} {S : FlatTri T} (h : Closed dbg S) {e : HE}
    (he : e < S.tri.size) {sort : List Saddle → List Saddle} (hs : SortsByLength S A sort) {upper : Vec T → Bound}
    (hup : ∀ v, dot v v ≤ ((upper v).square : T)) {v w : Vec T} {t : HE} (hw : IsSaddleConnection S e w t) (hd : SameDirection v w) :
    ∃ N, ∀ fuel ≥ N, ∃ c, Saddle.inSectorDirection A dbg sort upper fuel S e v = some (.ok c) ∧ c.source = e ∧ S.saddleVector c = w ∧
      c.target = t := by
  have hsec := sector_of_connection hf A h he hw hd
  have hv := not_zero A hsec
  obtain ⟨θ, hθ⟩ := C39.corners_exist hf h
  obtain ⟨N, hN⟩ := C41.shortest_first hf A h (by omega) hθ (fs := [.halfEdge e, .vectors v v])
    (fun g hg => by
      simp only [List.mem_cons, List.not_mem_nil, or_false] at hg
      rcases hg with rfl | rfl
      · trivial
      · exact ⟨hv, hv⟩) (by simp) hs hup
  obtain ⟨st, e1, e2⟩ := hN N le_rfl
  have hrun : ∀ fuel, run A dbg S fuel (SaddleConnections.make S) [.halfEdge e, .vectors v v] = some (.ok st) := fun fuel => by
    rw [run_eq hf A h hθ (by simp [directional])]
    exact e1
  obtain ⟨L, M, e3, e4, e5, -, -, e8⟩ := e2 dbg [(e, w)] (by simp) (by simp) (fun x hx => by
    rw [List.mem_singleton] at hx
    subst hx
    refine ⟨he, ⟨t, hw⟩, fun g hg => ?_⟩
    simp only [List.mem_cons, List.not_mem_nil, or_false] at hg
    rcases hg with rfl | rfl
    · rfl
    · exact (between_self hf hv).2 hd)
  obtain ⟨c, rfl⟩ := List.length_eq_one_iff.1 e4
  obtain ⟨k1, k2⟩ := e5 c (by simp)
  have k3 : c.source = e := k2 (.halfEdge e) (by simp)
  have k4 : SameDirection v (S.saddleVector c) := (between_self hf hv).1 (k2 (.vectors v v) (by simp))
  have hcw := k4.common hv hd
  rw [k3] at k1
  refine ⟨M, fun fuel hfuel => ⟨c, ?_, k3, C40.direction_unique k1 hw hcw.1 hcw.2⟩⟩
  have e3' := e3 fuel hfuel
  unfold ByLength.enumerateFirsts at e3'
  unfold Saddle.inSectorDirection
  simp only [hsec, hrun, Bool.not_true, Bool.false_eq_true, if_false]
  cases hb : ByLength.begin (K := K) ⟨A, dbg, S, st, sort, upper⟩ fuel with
  | none => rw [hb] at e3'; cases e3'
  | some r =>
    rw [hb] at e3'
    cases r with
    | error err => injection e3' with e3'; cases e3'
    | ok it =>
      simp only [Option.bind_some, List.length_singleton] at e3'
      unfold ByLength.firsts at e3'
      by_cases ha : ByLength.atEnd it = true
      · rw [if_pos ha] at e3'
        injection e3' with e3'
        injection e3' with e3'
        cases e3'
      · rw [if_neg ha] at e3'
        cases hc' : ByLength.dereference (K := K) ⟨A, dbg, S, st, sort, upper⟩ it with
        | error err =>
          rw [hc'] at e3'
          injection e3' with e3'
          cases e3'
        | ok c' =>
          rw [hc'] at e3'
          simp only [if_true, Option.some.injEq, Except.ok.injEq, List.cons.injEq, and_true] at e3'
          rw [← e3']
          exact congrArg some hc'

/-- The hypotheses are satisfied by a torus and a saddle connection that crosses some half edges. -/
example : Closed true flatTorus ∧ StrictMono (Int.castRingHom ℝ) ∧ 0 < flatTorus.tri.size ∧
    SortsByLength flatTorus (none : Option (Approx ℤ ℚ)) (C41.sortInt flatTorus) ∧
    (∀ v : Vec ℤ, dot v v ≤ ((Bound.upperInt v).square : ℤ)) ∧ IsSaddleConnection flatTorus 0 ⟨3, 2⟩ 1 ∧ SameDirection (⟨6, 4⟩ : Vec ℤ) ⟨3, 2⟩ := by
  refine ⟨C30.flatTorus_closed, Int.cast_strictMono, by decide, C41.sortInt_spec _, fun v => le_rfl, ?_, by decide, by decide⟩
  have key : ∀ {v : Vec ℤ} {x t : HE} {q : Vec ℤ}, v = apex flatTorus x q →
      t = flatTorus.tri.nextInFace (flatTorus.tri.nextInFace (neg x)) → Hits flatTorus v x q t := by
    rintro v x t q h rfl
    exact .here h
  exact .crossing (by decide) (by decide) (.left (by decide) (.right (by decide) (key (by decide) (by decide))))

/-- What is returned. -/
def answer (r : Option (Except Err Saddle)) : Option (Except Err (HE × Vec ℤ × HE)) :=
  r.map fun r => r.map fun c => (c.source, flatTorus.saddleVector c, c.target)

example :
    answer (Saddle.inSector (none : Option (Approx ℤ ℚ)) true Bound.upperInt 100 flatTorus 0 ⟨3, 2⟩) = some (.ok (0, ⟨3, 2⟩, 1)) ∧
    answer (Saddle.inSector (none : Option (Approx ℤ ℚ)) true Bound.upperInt 100 flatTorus 0 ⟨2, 3⟩) = some (.error .invalidArgument) ∧
    answer (Saddle.inSectorDirection (none : Option (Approx ℤ ℚ)) true (C41.sortInt flatTorus) Bound.upperInt 100 flatTorus 0 ⟨6, 4⟩) =
      some (.ok (0, ⟨3, 2⟩, 1)) := by
  decide +kernel

end Verif.C136

namespace Verif.C137

open Verif Spec Tri FlatTri Examples Vec Real SaddleConnections

variable {T : Type} [CommRing T] [LinearOrder T] [IsStrictOrderedRing T]
variable {K : Type} [Field K] [LinearOrder K] [IsStrictOrderedRing K]

/-- The property: what is returned has the vector that has been asked for. -/
def Exact (dbg : Bool) : Prop := ∀ (S : FlatTri ℤ) (e : HE) (v : Vec ℤ), Closed dbg S → e < S.tri.size →
  ∀ fuel c, Saddle.inSector (none : Option (Approx ℤ ℚ)) dbg Bound.upperInt fuel S e v = some (.ok c) → S.saddleVector c = v

/-- When asking for a vector of length two on a square torus, a saddle connection of length one is returned. -/
theorem shorter (dbg : Bool) :
    C136.answer (Saddle.inSector (none : Option (Approx ℤ ℚ)) dbg Bound.upperInt 100 flatTorus 0 ⟨2, 0⟩) = some (.ok (0, ⟨1, 0⟩, 1)) := by
  cases dbg <;> decide +kernel

theorem not_exact (dbg : Bool) : ¬ Exact dbg := by
  intro hE
  have h := shorter dbg
  unfold C136.answer at h
  cases hr : Saddle.inSector (none : Option (Approx ℤ ℚ)) dbg Bound.upperInt 100 flatTorus 0 ⟨2, 0⟩ with
  | none => rw [hr] at h; cases h
  | some r =>
    rw [hr] at h
    cases r with
    | error err => injection h with h; cases h
    | ok c =>
      have hC : Closed dbg flatTorus := ⟨torus_reachable dbg, C30.flatTorus_closed.flat, C30.flatTorus_closed.closed⟩
      have h1 := hE flatTorus 0 ⟨2, 0⟩ hC (by decide) 100 c hr
      injection h with h
      injection h with h
      have h2 := congrArg (fun x => x.2.1) h
      dsimp only at h2
      rw [h1] at h2
      exact absurd h2 (by decide)

/-- An error is reported if there is no saddle connection in the direction of the vector. (Missing: vectors that are longer than a
saddle connection in the same direction, see `not_exact`.) -/
theorem rejected_partial {f : T →+* ℝ} (hf : StrictMono f) (A : Option (Approx T K)) {dbg : Bool} {S : FlatTri T} (h : Closed dbg S) {e : HE}
    (he : e < S.tri.size) {upper : Vec T → Bound} (hup : ∀ v, dot v v ≤ ((upper v).square : T)) {v : Vec T}
    (hno : ∀ w t, IsSaddleConnection S e w t → ¬ SameDirection v w) :
    ∃ N, ∀ fuel ≥ N, Saddle.inSector A dbg upper fuel S e v = some (.error .invalidArgument) := by
  obtain ⟨N, hN⟩ := C136.inSector_correct hf A h he hup v
  refine ⟨N, fun fuel hfuel => ?_⟩
  obtain ⟨r, h1, h2, -, h3⟩ := hN fuel hfuel
  rw [h1]
  cases r with
  | error err => rw [h3 err rfl]
  | ok c =>
    obtain ⟨-, k1, k2, -⟩ := h2 c rfl
    exact absurd k2 (hno _ _ k1)

end Verif.C137

namespace Verif.C138

open Verif Spec Tri FlatTri Examples Vec Real SaddleConnections ByLength

variable {T : Type} [CommRing T] [LinearOrder T] [IsStrictOrderedRing T]
variable {K : Type} [Field K] [LinearOrder K] [IsStrictOrderedRing K]

/-- If there is no saddle connection in that direction, then the search never ends. -/
theorem never_returns {f : T →+* ℝ} (hf : StrictMono f) (A : Option (Approx T K)) {dbg : Bool} {S : FlatTri T} (h : Closed dbg S) {e : HE}
    (he : e < S.tri.size) {sort : List Saddle → List Saddle} (hs : SortsByLength S A sort) (upper : Vec T → Bound) {v : Vec T}
    (hsec : S.inSector A e v = true) (hno : ∀ w t, IsSaddleConnection S e w t → ¬ SameDirection v w) (fuel : ℕ) :
    Saddle.inSectorDirection A dbg sort upper fuel S e v = none := by
  have hv := C136.not_zero A hsec
  obtain ⟨θ, hθ⟩ := C39.corners_exist hf h
  have hfs : ∀ g ∈ ([.halfEdge e, .vectors v v] : List (Restriction T)), ValidRestriction f S θ g := fun g hg => by
    simp only [List.mem_cons, List.not_mem_nil, or_false] at hg
    rcases hg with rfl | rfl
    · trivial
    · exact ⟨hv, hv⟩
  have hc := cor h.shut hf hθ
  obtain ⟨N, hN⟩ := exists_fuel (S := S) ([.halfEdge e, .vectors v v] : List (Restriction T))
  obtain ⟨N', hN'⟩ := C39.filters_intersect hf A h hθ hfs
  obtain ⟨st, h1, h2, -⟩ := run_spec A h.shut hf hθ _ (hN (max N N') (le_max_left _ _)) hfs
    (make_inv A hc fun e he => (hθ e (Finset.mem_range.2 he)).2.1)
  obtain ⟨st', h1', h3⟩ := hN' (max N N') (le_max_right _ _)
  rw [h1] at h1'
  injection h1' with h1'
  injection h1' with h1'
  subst h1'
  have hrun : run A dbg S fuel (SaddleConnections.make S) [.halfEdge e, .vectors v v] = some (.ok st) := by
    rw [C136.run_eq hf A h hθ (by simp [directional])]
    exact h1
  have hr := run_none A _ h1 rfl (by simp)
  have hen : ∀ lo up, SaddleSearch.enumerate A dbg S (lowerBound (bound st up) lo) fuel = none ∨
      SaddleSearch.enumerate A dbg S (lowerBound (bound st up) lo) fuel = some (.ok []) := by
    intro lo up
    obtain ⟨L, M, k1, k2⟩ := annulus (P := ⟨A, dbg, S, st, sort, upper⟩) h.shut hf hθ h2 hs lo up
    have hL : L = [] := by
      rw [List.eq_nil_iff_forall_not_mem]
      intro c hcl
      have hcl' := (hs L).1.mem_iff.2 hcl
      obtain ⟨i1, ⟨t, i2⟩, i3, -⟩ := (k2.iff c.source (S.saddleVector c)).1 ⟨c, hcl', rfl, rfl⟩
      have i4 := (h3 _ (SaddleSearch.isDirection h.shut hc i1 i2)).1.1 i3
      have i5 : c.source = e := i4 (.halfEdge e) (by simp)
      have i6 : SameDirection v (S.saddleVector c) := (between_self hf hv).1 (i4 (.vectors v v) (by simp))
      rw [i5] at i2
      exact hno _ _ i2 i6
    subst hL
    cases hr : SaddleSearch.enumerate A dbg S (lowerBound (bound st up) lo) fuel with
    | none => exact .inl rfl
    | some r =>
      have := enumerate_mono (le_max_left fuel M) hr
      rw [k1 _ (le_max_right fuel M)] at this
      exact .inr this.symm
  have hsh : S.shortest.isSome := by
    have := h.shut.even
    obtain ⟨i, -, hi⟩ := shortest_some (S := S) (by omega)
    rw [hi]
    rfl
  unfold Saddle.inSectorDirection
  simp only [hsec, hrun, Bool.not_true, Bool.false_eq_true, if_false]
  have : ByLength.begin (K := K) ⟨A, dbg, S, st, sort, upper⟩ fuel = none := by
    unfold ByLength.begin
    rw [fill_stuck (P := ⟨A, dbg, S, st, sort, upper⟩) hr fuel hen (List.Perm.eq_nil (hs []).1) hsh fuel .end rfl]
    rfl
  rw [this]

/-- A square torus with coordinates in ℤ[√2]. -/
def torus2 : FlatTri C47.R := ⟨torus, listed [⟨1, 0⟩, ⟨0, 1⟩, ⟨1, 1⟩]⟩

theorem torus2_closed : Closed true torus2 :=
  ⟨torus_reachable true,
    (isFlat_of_check (none : Option (Approx C47.R ℚ)) (torus_reachable true) fun e _ => listed_neg _ e).1 (by decide +kernel), by decide⟩

/-- The coordinates are integers. -/
def Rational (v : Vec C47.R) : Prop := v.x.im = 0 ∧ v.y.im = 0

theorem rational_vec (x : HE) : Rational (torus2.vec x) := by
  have key : ∀ i, Rational ([⟨1, 0⟩, ⟨0, 1⟩, ⟨1, 1⟩].getD i (0 : Vec C47.R)) := by
    intro i
    match i with
    | 0 => exact ⟨rfl, rfl⟩
    | 1 => exact ⟨rfl, rfl⟩
    | 2 => exact ⟨rfl, rfl⟩
    | i + 3 => exact ⟨rfl, rfl⟩
  change Rational (listed _ x)
  unfold listed
  obtain ⟨k1, k2⟩ := key (x / 2)
  split_ifs
  · exact ⟨k1, k2⟩
  · generalize [(⟨1, 0⟩ : Vec C47.R), ⟨0, 1⟩, ⟨1, 1⟩].getD (x / 2) 0 = a at *
    exact ⟨by simp [k1], by simp [k2]⟩

theorem Rational.add {v w : Vec C47.R} (hv : Rational v) (hw : Rational w) : Rational (v + w) := by
  obtain ⟨h1, h2⟩ := hv
  obtain ⟨h3, h4⟩ := hw
  exact ⟨by simp [h1, h3], by simp [h2, h4]⟩

theorem Rational.apex {x : HE} {q : Vec C47.R} (hq : Rational q) : Rational (apex torus2 x q) := by
  obtain ⟨h1, h2⟩ := hq
  obtain ⟨h3, h4⟩ := rational_vec x
  obtain ⟨h5, h6⟩ := rational_vec (torus2.tri.nextInFace (neg x))
  unfold Spec.apex
  exact ⟨by simp [h1, h3, h5], by simp [h2, h4, h6]⟩

theorem rational_of_hits {v : Vec C47.R} {x : HE} {q : Vec C47.R} {t : HE} (h : Hits torus2 v x q t) (hq : Rational q) : Rational v := by
  induction h with
  | here e => rw [e]; exact hq.apex
  | right _ _ ih => exact ih hq.apex
  | left _ _ ih => exact ih hq

theorem rational_of_connection {e : HE} {v : Vec C47.R} {t : HE} (h : IsSaddleConnection torus2 e v t) : Rational v := by
  rcases h with ⟨h, -⟩ | ⟨-, -, h⟩
  · rw [h]; exact rational_vec e
  · exact rational_of_hits h ((rational_vec _).add (rational_vec _))

/-- There is no saddle connection in the direction of (√2, 1). -/
theorem no_connection (w : Vec C47.R) (t : HE) (h : IsSaddleConnection torus2 0 w t) : ¬ SameDirection (⟨⟨0, 1⟩, 1⟩ : Vec C47.R) w := by
  rintro ⟨h1, h2⟩
  obtain ⟨k1, k2⟩ := rational_of_connection h
  have i1 := congrArg Zsqrtd.re h1
  have i2 := congrArg Zsqrtd.im h1
  simp only [cross, Zsqrtd.re_sub, Zsqrtd.im_sub, Zsqrtd.re_mul, Zsqrtd.im_mul, Zsqrtd.re_one, Zsqrtd.im_one, Zsqrtd.re_zero, Zsqrtd.im_zero, k1, k2] at i1 i2
  have hx : w.x = 0 := Zsqrtd.ext (by simp; linarith) k1
  have hy : w.y = 0 := Zsqrtd.ext (by simp; linarith) k2
  simp [dot, hx, hy] at h2

/-- The hypotheses of `never_returns` and `C137.rejected_partial` are satisfied. -/
example : Closed true torus2 ∧ StrictMono C47.emb ∧ 0 < torus2.tri.size ∧
    torus2.inSector (none : Option (Approx C47.R ℚ)) 0 ⟨⟨0, 1⟩, 1⟩ = true ∧
    ∀ w t, IsSaddleConnection torus2 0 w t → ¬ SameDirection (⟨⟨0, 1⟩, 1⟩ : Vec C47.R) w :=
  ⟨torus2_closed, C47.emb_strictMono, by decide, by decide +kernel, no_connection⟩

/-- The property: the search for a saddle connection in some direction comes to an end. -/
def Returns (T : Type) [CommRing T] [LinearOrder T] [IsStrictOrderedRing T] (dbg : Bool) : Prop :=
  ∀ (S : FlatTri T) (e : HE) (v : Vec T) (sort : List Saddle → List Saddle) (upper : Vec T → Bound), Closed dbg S → e < S.tri.size →
    SortsByLength S (none : Option (Approx T ℚ)) sort → (∀ v, dot v v ≤ ((upper v).square : T)) →
    ∃ fuel, (Saddle.inSectorDirection (none : Option (Approx T ℚ)) dbg sort upper fuel S e v).isSome

/-- A way to sort by length. -/
def sortLength (S : FlatTri T) (l : List Saddle) : List Saddle :=
  l.insertionSort fun c d => dot (S.saddleVector c) (S.saddleVector c) ≤ dot (S.saddleVector d) (S.saddleVector d)

theorem sortLength_spec (A : Option (Approx T K)) (S : FlatTri T) : SortsByLength S A (sortLength S) := by
  intro l
  refine ⟨List.perm_insertionSort _ l, ?_⟩
  have : Std.Total fun c d : Saddle => dot (S.saddleVector c) (S.saddleVector c) ≤ dot (S.saddleVector d) (S.saddleVector d) :=
    ⟨fun c d => le_total _ _⟩
  have : IsTrans Saddle fun c d : Saddle => dot (S.saddleVector c) (S.saddleVector c) ≤ dot (S.saddleVector d) (S.saddleVector d) :=
    ⟨fun _ _ _ => le_trans⟩
  refine (List.pairwise_insertionSort (fun c d : Saddle => dot (S.saddleVector c) (S.saddleVector c) ≤ dot (S.saddleVector d) (S.saddleVector d)) l).imp fun k => ?_
  rw [compareLength_eq, decide_eq_false_iff_not, not_lt]
  exact k

/-- A way to round up exists. -/
theorem upper_exists {f : T →+* ℝ} (hf : StrictMono f) : ∃ upper : Vec T → Bound, ∀ v, dot v v ≤ ((upper v).square : T) := by
  have : ∀ v : Vec T, ∃ b : Bound, dot v v ≤ (b.square : T) := by
    intro v
    obtain ⟨n, hn⟩ := exists_nat_ge (f (dot v v))
    refine ⟨⟨n⟩, ?_⟩
    rw [← hf.le_iff_le]
    push_cast
    simpa using hn
  choose u hu using this
  exact ⟨u, hu⟩

theorem inSector_torus2 : torus2.inSector (none : Option (Approx C47.R ℚ)) 0 ⟨⟨0, 1⟩, 1⟩ = true := by decide +kernel

/-- The search never returns on a square torus in direction of (√2, 1). -/
theorem not_returns (dbg : Bool) : ¬ Returns C47.R dbg := by
  intro hR
  have hC : Closed dbg torus2 := ⟨torus_reachable dbg, torus2_closed.flat, torus2_closed.closed⟩
  obtain ⟨upper, hup⟩ := upper_exists C47.emb_strictMono
  obtain ⟨fuel, h⟩ := hR torus2 0 ⟨⟨0, 1⟩, 1⟩ (sortLength torus2) upper hC (by decide) (sortLength_spec _ _) hup
  rw [never_returns C47.emb_strictMono none hC (by decide) (sortLength_spec _ _) upper inSector_torus2 no_connection] at h
  cases h

/-- The search ends if there is a saddle connection in that direction, and with an error if the direction is not in the sector.
(Missing: directions in the sector without a saddle connection, see `never_returns`.) -/
theorem returns_partial {f : T →+* ℝ} (hf : StrictMono f) (A : Option (Approx T K)) {dbg : Bool} {S : FlatTri T} (h : Closed dbg S) {e : HE}
    (he : e < S.tri.size) {sort : List Saddle → List Saddle} (hs : SortsByLength S A sort) {upper : Vec T → Bound}
    (hup : ∀ v, dot v v ≤ ((upper v).square : T)) {v : Vec T}
    (hv : S.inSector A e v = false ∨ ∃ w t, IsSaddleConnection S e w t ∧ SameDirection v w) :
    ∃ N, ∀ fuel ≥ N, ∃ r, Saddle.inSectorDirection A dbg sort upper fuel S e v = some r ∧
      (r = .error .invalidArgument ↔ S.inSector A e v = false) ∧
      ∀ c, r = .ok c → c.source = e ∧ IsSaddleConnection S e (S.saddleVector c) c.target ∧ SameDirection v (S.saddleVector c) := by
  rcases hv with hv | ⟨w, t, hw, hd⟩
  · refine ⟨0, fun fuel _ => ⟨.error .invalidArgument, by unfold Saddle.inSectorDirection; simp [hv], by simp [hv], by simp⟩⟩
  · obtain ⟨N, hN⟩ := C136.direction_finds hf A h he hs hup hw hd
    refine ⟨N, fun fuel hfuel => ?_⟩
    obtain ⟨c, h1, h2, h3, h4⟩ := hN fuel hfuel
    refine ⟨.ok c, h1, by simp [C136.sector_of_connection hf A h he hw hd], fun c' hc' => ?_⟩
    injection hc' with hc'
    subst hc'
    rw [h3, h4]
    exact ⟨h2, hw, hd⟩

end Verif.C138
