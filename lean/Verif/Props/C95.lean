import Verif.Props.C54

/-!
# C95: Moving a point ends
-/

namespace Verif.C95

open Verif Spec Tri FlatTri Vec Move Examples

variable {T : Type} [CommRing T] [LinearOrder T] [IsStrictOrderedRing T]
variable {K : Type} [Field K] [LinearOrder K] [IsStrictOrderedRing K]
variable {f : T →+* ℝ} {dbg : Bool} {S : FlatTri T} {div : T → T → Option T} {d p : Point T} {v : Vec T}

theorem turnTo_zero (A : Option (Approx T K)) (S : FlatTri T) (fuel : ℕ) (e : HE) : S.turnTo A fuel e 0 = none := by
  have hout : ∀ e, S.inSector A e 0 = false := fun e => by
    rw [Bool.eq_false_iff, Ne, inSector_iff]
    rintro ⟨-, k⟩
    simp [cross] at k
  unfold turnTo
  induction fuel generalizing e with
  | zero => rfl
  | succ n ih =>
    unfold walk
    rw [if_pos (by rw [hout]; rfl)]
    exact ih _

/-- Moving a marked vertex by zero never returns. -/
theorem zero_never_ends (hf : StrictMono f) (A : Option (Approx T K)) (h : Closed dbg S)
    (elsewhere : Point T → Vec T → Option (Except Err (Point T))) (hp : C30.Created dbg S d p) {V : Finset HE}
    (hV : S.vertexOf p = some V) (hm : MarkedPoint f S p.face) : ∀ fuel, S.movePoint A dbg div elsewhere fuel p 0 = none := by
  intro fuel
  obtain ⟨hn, -⟩ := hp.normal h
  unfold movePoint
  rcases hk : S.pointAngle fuel p with _ | k
  · rfl
  have hk1 : k = 1 := by
    unfold pointAngle at hk
    rw [hV] at hk
    dsimp only at hk
    unfold vertexOf at hV
    split at hV
    · cases hV
    obtain ⟨m, m1, m2⟩ := (C52.isMarked_eq hf h hn.lt).1 fuel (.ok (decide (k = 1))) (by
      unfold isMarked
      rw [hV]
      dsimp only
      rw [hk]
      rfl)
    injection m1 with m1
    rw [← m1, decide_eq_true_eq] at m2
    exact m2.2 hm
  simp [hk1, hV, turnTo_zero]

/-- The vertex of a torus. -/
theorem zero_torus (dbg : Bool) : C30.Created dbg bigTorus ⟨0, 1, 0, 0⟩ ⟨0, 1, 0, 0⟩ ∧
    ∀ fuel, bigTorus.movePoint (none : Option (Approx ℤ ℚ)) dbg C31.intDiv (fun _ _ => none) fuel ⟨0, 1, 0, 0⟩ 0 = none := by
  have hp : C30.Created dbg bigTorus ⟨0, 1, 0, 0⟩ ⟨0, 1, 0, 0⟩ := ⟨⟨by decide, by decide, by decide⟩, rfl⟩
  refine ⟨hp, ?_⟩
  obtain ⟨V, hV⟩ := Option.isSome_iff_exists.1 (show (bigTorus.vertexOf ⟨0, 1, 0, 0⟩).isSome by decide)
  exact zero_never_ends (f := Int.castRingHom ℝ) Int.cast_strictMono none (bigTorus_closed dbg) _ hp hV (bigTorus_marked 0 (by decide))

/-- Moving a point that is not a vertex and moving a vertex by a vector that is not parallel to a half edge ends.
Missing are vertices moving parallel to a half edge when there is a vertex that is not marked, points that are not vertices and leave
their face; moving a vertex by zero does not end, see `zero_never_ends`. -/
theorem ends_partial (hf : StrictMono f) (A : Option (Approx T K)) (h : Closed dbg S) (hdiv : TrueDivision div)
    (elsewhere : Point T → Vec T → Option (Except Err (Point T))) (hp : C30.Created dbg S d p) :
    (∀ V, S.vertexOf p = some V → v ≠ 0 → ((∀ y < S.tri.size, MarkedPoint f S y) ∨ ∀ y < S.tri.size, cross (S.vec y) v ≠ 0) →
      ∃ N, ∀ fuel ≥ N, ∃ r, S.movePoint A dbg div elsewhere fuel p v = some r) ∧
    (S.vertexOf p = none → (∀ q w, ∃ r, elsewhere q w = some r) → ∀ fuel ≥ 1, ∃ r, S.movePoint A dbg div elsewhere fuel p v = some r) := by
  refine ⟨fun V hV hv hfree => ?_, fun hV hels fuel hfuel => ?_⟩
  · obtain ⟨N, hN⟩ := C54.vertex_partial hf A h hdiv elsewhere hp hV hv hfree
    refine ⟨N, fun fuel hfuel => ?_⟩
    rcases hN fuel hfuel with ⟨-, k⟩ | ⟨-, e, he, -, -, ⟨p', d', k1, k2, k3⟩ | ⟨k, -⟩⟩
    exacts [⟨_, k⟩, ⟨_, k1⟩, ⟨_, k⟩]
  · obtain ⟨n, rfl⟩ : ∃ n, fuel = n + 1 := ⟨fuel - 1, by omega⟩
    obtain ⟨q, -, -, -, ⟨k, -⟩ | ⟨-, p', d', k, -⟩ | ⟨-, k⟩⟩ := C54.face_partial hf A h hdiv elsewhere hp hV v n
    · exact ⟨_, k⟩
    · exact ⟨_, k⟩
    · obtain ⟨r, hr⟩ := hels q v
      exact ⟨r, k.trans hr⟩

example : C30.Created true bigTorus ⟨0, 1, 0, 0⟩ ⟨0, 1, 0, 0⟩ ∧ (bigTorus.vertexOf ⟨0, 1, 0, 0⟩).isSome ∧
    (∀ y < bigTorus.tri.size, MarkedPoint (Int.castRingHom ℝ) bigTorus y) ∧
    C30.Created true bigTorus ⟨0, 1, 1, 1⟩ ⟨0, 1, 1, 1⟩ ∧ bigTorus.vertexOf ⟨0, 1, 1, 1⟩ = none :=
  ⟨⟨⟨by decide, by decide, by decide⟩, rfl⟩, by decide, bigTorus_marked, ⟨⟨by decide, by decide, by decide⟩, rfl⟩, by decide⟩

end Verif.C95
