import Verif.Lemmas.FlipPath
import Verif.Model.Retriangulation
import Verif.Props.C20
import Verif.Props.C21
import Verif.Props.C30
import Verif.Spec.Retriangulation

/-!
# C52: mapping a path through a retriangulation terminates

This is false unless the path is straight: for all other paths, the loop that combines segments never ends.
-/

namespace Verif.C52

open Verif Spec Tri FlatTri Examples Vec Real

variable {T : Type} [CommRing T] [LinearOrder T] [IsStrictOrderedRing T]
variable {K : Type} [Field K] [LinearOrder K] [IsStrictOrderedRing K]

/-- Adding a vector in the same direction does not change the direction. -/
theorem sameDirection_add {u v w : Vec T} (h : SameDirection u v) : SameDirection (u + v) w ↔ SameDirection u w := by
  obtain ⟨h1, h2⟩ := h
  have hu : 0 < dot u u := by
    refine dot_self_pos fun h0 => ?_
    rw [h0] at h2
    simp [dot] at h2
  have hx : (u + v).x = u.x + v.x := rfl
  have hy : (u + v).y = u.y + v.y := rfl
  have e1 : dot u u * cross (u + v) w = (dot u u + dot u v) * cross u w := by
    have : u.x * v.y - u.y * v.x = 0 := h1
    unfold dot cross
    rw [hx, hy]
    linear_combination (u.x * w.x + u.y * w.y) * (-1) * this
  have e2 : dot u u * dot (u + v) w = (dot u u + dot u v) * dot u w := by
    have : u.x * v.y - u.y * v.x = 0 := h1
    unfold dot
    rw [hx, hy]
    linear_combination (u.x * w.y - u.y * w.x) * this
  have hs : 0 < dot u u + dot u v := add_pos hu h2
  unfold SameDirection
  refine and_congr ⟨fun h => ?_, fun h => ?_⟩ ⟨fun h => ?_, fun h => ?_⟩
  · rw [h, mul_zero] at e1
    exact (mul_eq_zero.1 e1.symm).resolve_left hs.ne'
  · rw [h, mul_zero] at e1
    exact (mul_eq_zero.1 e1).resolve_left hu.ne'
  · have := mul_pos hu h
    rw [e2] at this
    exact (mul_pos_iff_of_pos_left hs).1 this
  · have := mul_pos hs h
    rw [← e2] at this
    exact (mul_pos_iff_of_pos_left hu).1 this

omit [IsStrictOrderedRing T] in
theorem angleLoop_mono {S : FlatTri T} {first : HE} : ∀ {fuel : ℕ} {x : HE} {k r : ℕ}, S.angleLoop first fuel x k = some r →
    ∀ n ≥ fuel, S.angleLoop first n x k = some r
  | 0, _, _, _, h, _, _ => by cases h
  | fuel + 1, x, k, r, h, n, hn => by
    obtain ⟨n, rfl⟩ : ∃ m, n = m + 1 := ⟨n - 1, by omega⟩
    unfold angleLoop at h ⊢
    dsimp only at h ⊢
    by_cases hc : S.tri.nextAtVertex x ≠ first
    · rw [if_pos hc] at h ⊢
      exact angleLoop_mono h n (by omega)
    · rwa [if_neg hc] at h ⊢

/-- Whether the vertex is a marked point, as determined by the code. -/
theorem isMarked_eq {f : T →+* ℝ} (hf : StrictMono f) {dbg : Bool} {S : FlatTri T} (h : Closed dbg S) {e : HE} (he : e < S.tri.size) :
    (∀ fuel b, S.isMarked fuel e = some b → ∃ m, b = .ok m ∧ (m = true ↔ MarkedPoint f S e)) ∧
      ∃ N, ∀ fuel ≥ N, ∃ b, S.isMarked fuel e = some b := by
  obtain ⟨V, hs, ho⟩ := h.shut.source he
  have hV : V ∈ S.tri.vertexes := List.mem_of_find?_eq_some hs
  have he' : e ∈ V := (ho e).2 (Perm.Orb.refl _ e)
  have hF := IsFlat.flat h.reachable h.flat
  have hb : ∀ x ∈ V, S.tri.boundary x = false := fun x hx =>
    boundary_false.2 (hasBoundary_false.1 h.closed x (((ho x).1 hx).lt hF.coh.hv he))
  obtain ⟨k, N, hN, hk, hsum⟩ := C20.angle_correct f hf h.reachable h.flat hV hb
  obtain ⟨θ, hθ⟩ := C21.corners_exist hf h.reachable h.flat hV hb
  have hm : k = 1 ↔ MarkedPoint f S e := by
    constructor
    · rintro rfl
      refine ⟨V, hV, he', fun θ hθ => ?_⟩
      rw [hsum θ hθ]; simp
    · rintro ⟨W, hW, heW, hW'⟩
      have : W = V := by
        obtain ⟨x, hx, hx'⟩ := hF.ver.orbit W hW
        ext y
        have hxe := (hx' e).1 heW
        rw [hx', ho]
        exact ⟨fun hy => (Perm.Orb.symm hF.coh.hv hxe).trans hy, fun hy => hxe.trans hy⟩
      subst this
      have := (hsum θ hθ).symm.trans (hW' θ hθ)
      have h2 : (k : ℝ) * (2 * π) = 1 * (2 * π) := by rw [this, one_mul]
      have h3 := mul_right_cancel₀ (by positivity) h2
      exact_mod_cast h3
  refine ⟨fun fuel b hb => ?_, N, fun fuel hfuel => ?_⟩
  · unfold isMarked at hb
    rw [hs] at hb
    dsimp only at hb
    obtain ⟨a, ha, rfl⟩ := Option.map_eq_some_iff.1 hb
    refine ⟨_, rfl, ?_⟩
    have : a = k := by
      unfold angle at ha hN
      split at ha
      · have h1 := angleLoop_mono ha (max fuel N) (le_max_left _ _)
        have h2 := hN (max fuel N) (le_max_right _ _)
        rw [dif_pos ‹_›] at h2
        rw [h1] at h2
        exact Option.some_inj.1 h2
      · cases ha
    rw [this, decide_eq_true_eq]
    exact hm
  · unfold isMarked
    rw [hs]
    dsimp only
    rw [hN fuel hfuel]
    exact ⟨_, rfl⟩

/-- The loop combines a straight path into a single vector, and it does not terminate for any other path. -/
theorem gather_correct {f : T →+* ℝ} (hf : StrictMono f) (A : Option (Approx T K)) {dbg : Bool} {S : FlatTri T} (h : Closed dbg S)
    (target : HE) (v : Vec T) (path : List Saddle) (hs : ∀ s ∈ path, s.source < S.tri.size) :
    ((∀ t ∈ path, SameDirection v (S.saddleVector t) ∧ MarkedPoint f S t.source) →
      ∃ N, ∀ n ≥ N, ∀ fuel ≥ path.length, gather A S n fuel target v path =
        some (.ok ((path.getLast?.map Saddle.target).getD target, v + (path.map S.saddleVector).sum))) ∧
    ((¬∀ t ∈ path, SameDirection v (S.saddleVector t) ∧ MarkedPoint f S t.source) → ∀ n fuel, gather A S n fuel target v path = none) := by
  induction path generalizing target v with
  | nil =>
    refine ⟨fun _ => ⟨0, fun n _ fuel _ => ?_⟩, fun hn => absurd (by simp) hn⟩
    unfold gather
    simp
  | cons s path ih =>
    have hcond : (Vec.ccw A v (S.saddleVector s) = .collinear ∧ Vec.orientation A v (S.saddleVector s) = .same) ↔
        SameDirection v (S.saddleVector s) := by
      rw [ccw_eq, ccwExact_collinear, orientation_same]
      rfl
    obtain ⟨hm, N1, hN1⟩ := isMarked_eq hf h (hs s (by simp))
    have ih' := ih s.target (v + S.saddleVector s) fun t ht => hs t (by simp [ht])
    have hadd : SameDirection v (S.saddleVector s) → ((∀ t ∈ path, SameDirection (v + S.saddleVector s) (S.saddleVector t) ∧
        MarkedPoint f S t.source) ↔ ∀ t ∈ path, SameDirection v (S.saddleVector t) ∧ MarkedPoint f S t.source) := fun ha =>
      forall_congr' fun t => forall_congr' fun _ => and_congr_left fun _ => sameDirection_add ha
    constructor
    · intro hall
      obtain ⟨ha, hmark⟩ := hall s (by simp)
      obtain ⟨N2, hN2⟩ := ih'.1 ((hadd ha).2 fun t ht => hall t (by simp [ht]))
      refine ⟨max N1 N2, fun n hn fuel hfuel => ?_⟩
      obtain ⟨fuel, rfl⟩ : ∃ m, fuel = m + 1 := ⟨fuel - 1, by simp at hfuel; omega⟩
      obtain ⟨b, hb⟩ := hN1 n (le_trans (le_max_left _ _) hn)
      obtain ⟨m, rfl, hmm⟩ := hm n b hb
      have hm1 : m = true := hmm.2 hmark
      subst hm1
      unfold gather
      dsimp only
      rw [if_pos (hcond.2 ha), hb]
      dsimp only
      rw [hN2 n (le_trans (le_max_right _ _) hn) fuel (by simp at hfuel; omega)]
      congr 3
      · cases path with
        | nil => rfl
        | cons t path => simp [List.getLast?_cons]
      · rw [List.map_cons, List.sum_cons, add_assoc]
    · intro hnot n fuel
      induction fuel with
      | zero => rfl
      | succ fuel ihf =>
        unfold gather
        dsimp only
        by_cases ha : SameDirection v (S.saddleVector s)
        · rw [if_pos (hcond.2 ha)]
          cases hb : S.isMarked n s.source with
          | none => rfl
          | some b =>
            obtain ⟨m, rfl, hmm⟩ := hm n b hb
            cases m with
            | false => exact ihf
            | true =>
              refine ih'.2 (fun hall => hnot ?_) n fuel
              rw [hadd ha] at hall
              intro t ht
              rcases List.mem_cons.1 ht with rfl | ht
              · exact ⟨ha, hmm.1 rfl⟩
              · exact hall t ht
        · rw [if_neg fun hc => ha (hcond.1 hc)]
          exact ihf

/-- A straight path is mapped as if it were a single vector. -/
theorem straight_partial {f : T →+* ℝ} (hf : StrictMono f) (A : Option (Approx T K)) {dbg : Bool} {S : FlatTri T} (h : Closed dbg S)
    (single : HE → HE → Vec T → Option (Except Err (Option (List Saddle)))) {s : Saddle} {path : List Saddle}
    (hs : ∀ s ∈ path, s.source < S.tri.size) (hp : Straight f S (s :: path)) :
    ∃ N, ∀ fuel ≥ N, S.retriangulatePath A single fuel (s :: path) =
      single s.source ((s :: path).getLast (by simp)).target (((s :: path).map S.saddleVector).sum) := by
  obtain ⟨N, hN⟩ := (gather_correct hf A h s.target (S.saddleVector s) path hs).1 hp
  refine ⟨max N path.length, fun fuel hfuel => ?_⟩
  unfold retriangulatePath
  dsimp only
  rw [hN fuel (le_trans (le_max_left _ _) hfuel) fuel (le_trans (le_max_right _ _) hfuel)]
  dsimp only
  rw [List.map_cons, List.sum_cons]
  congr 1
  cases path with
  | nil => rfl
  | cons t path =>
    rw [List.getLast_cons (by simp), List.getLast?_eq_some_getLast (by simp)]
    rfl

/-- Paths that are not straight are not mapped: the code loops forever. -/
theorem not_straight {f : T →+* ℝ} (hf : StrictMono f) (A : Option (Approx T K)) {dbg : Bool} {S : FlatTri T} (h : Closed dbg S)
    (single : HE → HE → Vec T → Option (Except Err (Option (List Saddle)))) {path : List Saddle}
    (hs : ∀ s ∈ path, s.source < S.tri.size) (hp : ¬Straight f S path) (fuel : ℕ) : S.retriangulatePath A single fuel path = none := by
  cases path with
  | nil => exact absurd True.intro hp
  | cons s path =>
    unfold retriangulatePath
    dsimp only
    rw [(gather_correct hf A h s.target (S.saddleVector s) path fun t ht => hs t (by simp [ht])).2 hp fuel fuel]

/-- The property as it would have to hold for all paths. -/
def Terminates (S : FlatTri T) (A : Option (Approx T K)) : Prop :=
  ∀ path : List Saddle, (∀ s ∈ path, LeavesCorner S s.source (S.saddleVector s) ∧ LeavesCorner S s.target (-S.saddleVector s)) →
    Spec.Connected S path → ∀ single : HE → HE → Vec T → Option (Except Err (Option (List Saddle))),
    (∀ x y v, single x y v ≠ none) → ∃ fuel, S.retriangulatePath A single fuel path ≠ none

/-- A path around the corner of a square. -/
def corner : List Saddle := [.ofHalfEdge 0, .ofHalfEdge 2]

theorem corner_conns : (∀ s ∈ corner, LeavesCorner flatTorus s.source (flatTorus.saddleVector s) ∧
    LeavesCorner flatTorus s.target (-flatTorus.saddleVector s)) ∧ Spec.Connected flatTorus corner := by
  constructor
  · unfold corner LeavesCorner
    decide +kernel
  · unfold corner Spec.Connected
    rw [List.isChain_cons_cons]
    exact ⟨⟨_, _, rfl, rfl, rfl⟩, List.IsChain.singleton _⟩

theorem corner_bent (f : ℤ →+* ℝ) : ¬Straight f flatTorus corner := by
  intro h
  have := (h (.ofHalfEdge 2) (by simp)).1
  revert this
  unfold SameDirection
  decide +kernel

/-- The property fails on the unit torus. -/
theorem not_terminates (A : Option (Approx ℤ K)) : ¬Terminates flatTorus A := by
  intro h
  obtain ⟨fuel, hf⟩ := h corner corner_conns.1 corner_conns.2 (fun _ _ _ => some (.ok none)) (by simp)
  exact hf (not_straight (f := Int.castRingHom ℝ) (fun a b hab => by simpa using hab) A C30.flatTorus_closed _
    (by intro s hs; exact (corner_conns.1 s hs).1.1) (corner_bent _) fuel)

/-- A path that goes around the torus twice is straight. -/
example : ∃ N, ∀ fuel ≥ N, flatTorus.retriangulatePath (none : Option (Approx ℤ ℚ)) (fun _ _ _ => some (.ok none)) fuel
    [.ofHalfEdge 0, .ofHalfEdge 0] = some (.ok none) := by
  have hf : StrictMono (Int.castRingHom ℝ) := fun a b hab => by simpa using hab
  refine straight_partial hf _ C30.flatTorus_closed _ (by decide) ?_
  intro t ht
  rw [List.mem_singleton] at ht
  subst ht
  refine ⟨by unfold SameDirection; decide +kernel, ?_⟩
  obtain ⟨h1, N, hN⟩ := isMarked_eq hf C30.flatTorus_closed (e := 0) (by decide)
  obtain ⟨m, h2, h3⟩ := h1 10 (.ok true) (by decide +kernel)
  cases h2
  exact h3.1 rfl

end Verif.C52
