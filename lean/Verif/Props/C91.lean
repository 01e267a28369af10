import Verif.Props.C41

/-!
# C91: iterating by length gets to the next saddle connection or the end
-/

namespace Verif.C91

open Verif Spec Tri FlatTri Examples Vec Real SaddleConnections ByLength

variable {T : Type} [CommRing T] [LinearOrder T] [IsStrictOrderedRing T]
variable {K : Type} [Field K] [LinearOrder K] [IsStrictOrderedRing K]

/-- `byLength().begin()` comes to an end without any error if the search is bounded or if there is a saddle connection that
it admits. (Missing: searches without a bound that admit no saddle connection, see `never_begins`, and the surface without
any half edges, see `undefined_on_empty_surface`.) -/
theorem begins_partial {f : T →+* ℝ} (hf : StrictMono f) (A : Option (Approx T K)) {dbg : Bool} {S : FlatTri T}
    (h : Closed dbg S) (hne : 0 < S.tri.size) {θ : HE → ℝ} (hθ : AllCorners f S θ) {fs : List (Restriction T)}
    (hv : ∀ g ∈ fs, ValidRestriction f S θ g)
    (hb : (∃ b, .bound b ∈ fs) ∨ (∀ b, .bound b ∉ fs) ∧ ∃ e v t, e < S.tri.size ∧ IsSaddleConnection S e v t ∧ ∀ g ∈ fs, Admits f S θ (e, v) g)
    {sort : List Saddle → List Saddle} (hs : SortsByLength S A sort) {upper : Vec T → Bound} (hup : ∀ v, dot v v ≤ ((upper v).square : T)) :
    ∃ N, ∀ fuel ≥ N, ∃ st, run A false S fuel (make S) fs = some (.ok st) ∧
      ∀ debug, ∃ M, ∀ fuel ≥ M, ∃ it, begin ⟨A, debug, S, st, sort, upper⟩ fuel = some (.ok it) := by
  have key : ∀ {P : ByLength.Params T K} {fuel : ℕ} {L : List Saddle} {g : Iterator → Option (Except Err (List Saddle))},
      ((begin P fuel).bind fun
        | .error err => some (.error err)
        | .ok it => g it) = some (.ok L) → ∃ it, begin P fuel = some (.ok it) := by
    intro P fuel L g hk
    cases hbg : begin P fuel with
    | none => rw [hbg] at hk; cases hk
    | some r =>
      rw [hbg] at hk
      cases r with
      | error err => injection hk with hk; cases hk
      | ok it => exact ⟨it, rfl⟩
  rcases hb with hb | ⟨hb, e, v, t, he, ht, ha⟩
  · obtain ⟨N, hN⟩ := C41.same_connections_sorted hf A h hne hθ hv hb hs hup
    refine ⟨N, fun fuel hfuel => ?_⟩
    obtain ⟨st, h1, h2⟩ := hN fuel hfuel
    refine ⟨st, h1, fun debug => ?_⟩
    obtain ⟨L, L', M, -, h3, -⟩ := h2 debug
    exact ⟨M, fun fuel hfuel => key (h3 fuel hfuel)⟩
  · obtain ⟨N, hN⟩ := C41.shortest_first hf A h hne hθ hv hb hs hup
    refine ⟨N, fun fuel hfuel => ?_⟩
    obtain ⟨st, h1, h2⟩ := hN fuel hfuel
    refine ⟨st, h1, fun debug => ?_⟩
    obtain ⟨L, M, h3, -⟩ := h2 debug [(e, v)] (by simp) (by simp) (fun x hx => by
      rw [List.mem_singleton] at hx
      subst hx
      exact ⟨he, ⟨t, ht⟩, ha⟩)
    exact ⟨M, fun fuel hfuel => key (h3 fuel hfuel)⟩

/-- The hypotheses can be met by a search without a bound. -/
example : ∃ θ : HE → ℝ, AllCorners (Int.castRingHom ℝ) flatTorus θ ∧
    (∀ g ∈ ([.halfEdge 0] : List (Restriction ℤ)), ValidRestriction (Int.castRingHom ℝ) flatTorus θ g) ∧
    Closed true flatTorus ∧ 0 < flatTorus.tri.size ∧ SortsByLength flatTorus (none : Option (Approx ℤ ℚ)) (C41.sortInt flatTorus) ∧
    (∀ v : Vec ℤ, dot v v ≤ ((Bound.upperInt v).square : ℤ)) ∧ (∀ b, .bound b ∉ ([.halfEdge 0] : List (Restriction ℤ))) ∧
    ∃ e v t, e < flatTorus.tri.size ∧ IsSaddleConnection flatTorus e v t ∧
      ∀ g ∈ ([.halfEdge 0] : List (Restriction ℤ)), Admits (Int.castRingHom ℝ) flatTorus θ (e, v) g := by
  obtain ⟨θ, hθ⟩ := C39.corners_exist (f := Int.castRingHom ℝ) Int.cast_strictMono C30.flatTorus_closed
  exact ⟨θ, hθ, fun g hg => by fin_cases hg; trivial, C30.flatTorus_closed, by decide, C41.sortInt_spec _, fun v => le_rfl, fun b => by simp,
    0, ⟨1, 0⟩, 1, by decide, .halfEdge (by decide) (by decide), fun g hg => by fin_cases hg; rfl⟩

/-- A search that is restricted to two different half edges admits no saddle connections, so its enumeration is empty, yet
`byLength().begin()` never returns, and so the enumeration by length does not end. -/
theorem never_begins (debug : Bool) (sort : List Saddle → List Saddle) (hs : SortsByLength flatTorus (none : Option (Approx ℤ ℚ)) sort) (upper : Vec ℤ → Bound) :
    ∃ st, run (none : Option (Approx ℤ ℚ)) debug flatTorus 0 (make flatTorus) [.halfEdge 0, .halfEdge 2] = some (.ok st) ∧
      (∀ fuel ≥ 1, SaddleSearch.enumerate (none : Option (Approx ℤ ℚ)) debug flatTorus st fuel = some (.ok [])) ∧
      ∀ fuel, begin ⟨(none : Option (Approx ℤ ℚ)), debug, flatTorus, st, sort, upper⟩ fuel = none ∧
        ByLength.enumerate ⟨(none : Option (Approx ℤ ℚ)), debug, flatTorus, st, sort, upper⟩ fuel = none := by
  have hen : ∀ (st : State ℤ), st.sectors = [] → ∀ fuel, SaddleSearch.enumerate (none : Option (Approx ℤ ℚ)) debug flatTorus st fuel = none ∨
      SaddleSearch.enumerate (none : Option (Approx ℤ ℚ)) debug flatTorus st fuel = some (.ok []) := by
    intro st hst fuel
    unfold SaddleSearch.enumerate SaddleSearch.start
    rw [hst]
    cases fuel with
    | zero => exact .inl rfl
    | succ n => exact .inr rfl
  refine ⟨⟨[], none, .zero⟩, rfl, fun fuel hfuel => ?_, fun fuel => ?_⟩
  · obtain ⟨n, rfl⟩ : ∃ n, fuel = n + 1 := ⟨fuel - 1, by omega⟩
    rfl
  · have hb : begin ⟨(none : Option (Approx ℤ ℚ)), debug, flatTorus, ⟨[], none, .zero⟩, sort, upper⟩ fuel = none := by
      unfold begin
      rw [fill_stuck (P := ⟨(none : Option (Approx ℤ ℚ)), debug, flatTorus, ⟨[], none, .zero⟩, sort, upper⟩) rfl fuel (fun lo up => hen _ rfl _)
        (List.Perm.eq_nil (hs []).1) (show flatTorus.shortest.isSome = true by decide) fuel .end rfl]
      rfl
    refine ⟨hb, ?_⟩
    unfold ByLength.enumerate
    rw [hb]
    rfl

/-- There is a way to sort as in `never_begins`. -/
example : SortsByLength flatTorus (none : Option (Approx ℤ ℚ)) (C41.sortInt flatTorus) := C41.sortInt_spec _

omit [IsStrictOrderedRing T] in
/-- On a surface without half edges, `byLength().begin()` has undefined behavior: it asks for the shortest edge. -/
theorem undefined_on_empty_surface (A : Option (Approx T K)) (debug : Bool) {S : FlatTri T} (h : S.tri.size = 0) (st : State T)
    (sort : List Saddle → List Saddle) (upper : Vec T → Bound) (fuel : ℕ) :
    begin ⟨A, debug, S, st, sort, upper⟩ (fuel + 1) = some (.error .undefined) := by
  have hsh : S.shortest = none := by
    unfold FlatTri.shortest
    rw [h]
    rfl
  unfold begin fill
  rw [if_neg (by unfold Iterator.end; simp)]
  simp only [hsh]
  rw [if_pos (by rfl)]
  rfl

/-- There is such a surface, namely the one created by the constructor without any arguments. -/
example : (⟨⟨⟨0, id, id⟩, ⟨0, id, id⟩, []⟩, fun _ => 0⟩ : FlatTri ℤ).tri.size = 0 := rfl

end Verif.C91
