import Verif.Lemmas.CollapsedExamples
import Verif.Lemmas.Tighten
import Verif.Props.C139
import Verif.Spec.Tighten

/-!
C142: tightening a path changes neither where the path starts and ends nor its holonomy.

C143: a tightened path is tight, and tight paths do not change when they are tightened.

C144: a tight path followed by its reverse is tightened to the empty path.
-/

set_option linter.unusedSectionVars false

namespace Verif.C142

open Verif Spec Tri FlatTri Examples Vec Real Tighten

variable {T : Type} [CommRing T] [LinearOrder T] [IsStrictOrderedRing T]
variable {K : Type} [Field K] [LinearOrder K] [IsStrictOrderedRing K]

theorem tighten_ok {A : Option (Approx T K)} {dbg : Bool} {upper : Vec T → Bound} {fuel : ℕ} {S : FlatTri T} {p q : List Saddle}
    (h : tighten A dbg upper fuel S p = some (.ok q)) : loop A dbg upper fuel S fuel [] p = some (.ok q) := by
  unfold tighten at h
  obtain ⟨q', h1, h2⟩ := andThen_ok.1 h
  rw [makePath_ok (Option.some.inj h2)]
  exact h1

/-- The sum of the vectors of the segments does not change when a path is tightened. -/
theorem holonomy_preserved {A : Option (Approx T K)} {dbg : Bool} {upper : Vec T → Bound} {fuel : ℕ} {S : FlatTri T} {p q : List Saddle}
    (h : tighten A dbg upper fuel S p = some (.ok q)) : holonomy S q = holonomy S p := by
  refine loop_invariant (fun x => holonomy S x = holonomy S p) ?_ _ _ _ _ (tighten_ok h) rfl
  intro x a b y r hr hx
  rw [← hx, holonomy_append, holonomy_append, holonomy_append, replacement_holonomy hr, holonomy_cons, holonomy_cons]
  abel

/-- A tightened path goes from the vertex at which the path starts to the vertex at which the path ends, and each of its segments starts
where the previous one ends. -/
theorem ends_preserved {A : Option (Approx T K)} {dbg : Bool} {upper : Vec T → Bound} {fuel : ℕ} {S : FlatTri T} {debug : Bool}
    (hS : Closed debug S) {p q : List Saddle} (h : tighten A dbg upper fuel S p = some (.ok q)) {e e' : HE} (hp : PathFrom S e p e') :
    PathFrom S e q e' := by
  refine loop_invariant (fun x => PathFrom S e x e') ?_ _ _ _ _ (tighten_ok h) hp
  intro x a b y r hr hx
  obtain ⟨m, h1, h2, -, h4⟩ := PathFrom.split hx
  exact PathFrom.append (PathFrom.pre h2 (PathFrom.append h4 (replacement_leads hS.shut hr))) h1

/-- Two half edges of the L that are tightened to a single saddle connection. -/
example : Closed true flatEll ∧ PathFrom flatEll 0 [.ofHalfEdge 0, .ofHalfEdge 14] 15 ∧
    (match tighten (none : Option (Approx ℤ ℚ)) true Bound.upperInt 30 flatEll [.ofHalfEdge 0, .ofHalfEdge 14] with
    | some (.ok q) => decide (q.map (fun c => (c.source, flatEll.saddleVector c, c.target)) = [(0, ⟨2, 1⟩, 3)])
    | _ => false) = true :=
  ⟨flatEll_closed, ⟨⟨0, rfl⟩, (by
    show ∃ k, flatEll.tri.nextAtVertex^[k] 1 = 14
    have : ∃ k ∈ List.range 18, flatEll.tri.nextAtVertex^[k] 1 = 14 := by decide +kernel
    obtain ⟨k, -, hk⟩ := this
    exact ⟨k, hk⟩), ⟨0, rfl⟩⟩, by decide +kernel⟩

end Verif.C142

namespace Verif.C143

open Verif Spec Tri FlatTri Examples Vec Real Tighten Function C140 C141

variable {T : Type} [CommRing T] [LinearOrder T] [IsStrictOrderedRing T]
variable {K : Type} [Field K] [LinearOrder K] [IsStrictOrderedRing K]

theorem turnLoop_grow (A : Option (Approx T K)) {S : FlatTri T} {u v : Vec T} {t : HE} : ∀ {n : ℕ} {e : HE} {w : Vec T} {k r : ℕ} {s : CCW},
    S.turnLoop A u t v n e w k s = some r → ∀ m ≥ n, S.turnLoop A u t v m e w k s = some r
  | 0, _, _, _, _, _, h, _, _ => by cases h
  | n + 1, e, w, k, r, s, h, m, hm => by
    obtain ⟨m, rfl⟩ : ∃ m', m = m' + 1 := ⟨m - 1, by omega⟩
    unfold FlatTri.turnLoop at h ⊢
    by_cases hc : e ≠ t ∨ Vec.ccw A w v ≠ .collinear
    · rw [if_pos hc] at h ⊢
      dsimp only at h ⊢
      generalize (if e = t ∧ Vec.ccw A w v ≠ .clockwise then v else S.vec (S.tri.nextAtVertex e)) = w1 at h ⊢
      generalize (if e = t ∧ Vec.ccw A w v ≠ .clockwise then e else S.tri.nextAtVertex e) = e1 at h ⊢
      split at h
      · next h1 => rw [if_pos h1]; exact turnLoop_grow A h m (by omega)
      · next h1 => rw [if_neg h1]; exact turnLoop_grow A h m (by omega)
    · rwa [if_neg hc] at h ⊢

theorem turn_grow (A : Option (Approx T K)) {S : FlatTri T} {e t : HE} {u v : Vec T} {n m : ℕ} {r : Except Err ℕ} (hm : n ≤ m)
    (h : S.turn A n e u t v = some r) : S.turn A m e u t v = some r := by
  unfold FlatTri.turn at h ⊢
  split at h
  · exact h
  · split at h
    · next h1 =>
      rw [if_pos h1]
      obtain ⟨k, hk, hr⟩ := Option.map_eq_some_iff.1 h
      rw [turnLoop_grow A hk m hm, ← hr]
      rfl
    · next h1 => rwa [if_neg h1]

theorem saddleAngle_grow (A : Option (Approx T K)) {S : FlatTri T} {c : Saddle} {t : HE} {v : Vec T} {n m : ℕ} {r : Except Err ℕ} (hm : n ≤ m)
    (h : S.saddleAngle A n c t v = some r) : S.saddleAngle A m c t v = some r := by
  unfold FlatTri.saddleAngle at h ⊢
  obtain ⟨k, hk, hr⟩ := Option.map_eq_some_iff.1 h
  rw [turn_grow A hm hk, ← hr]
  rfl

theorem saddleCcw_grow (A : Option (Approx T K)) {S : FlatTri T} {c : Saddle} {t : HE} {v : Vec T} {n m : ℕ} {r : Except Err CCW} (hm : n ≤ m)
    (h : S.saddleCcw A n c t v = some r) : S.saddleCcw A m c t v = some r := by
  unfold FlatTri.saddleCcw at h ⊢
  obtain ⟨k, hk, hr⟩ := Option.bind_eq_some_iff.1 h
  rw [turn_grow A hm hk, Option.bind_some]
  cases k with
  | error err => exact hr
  | ok k =>
    simp only at hr ⊢
    split at hr
    · next h1 => rwa [if_pos h1]
    · next h1 =>
      rw [if_neg h1]
      split at hr
      · exact hr
      · next W _ =>
        obtain ⟨x, hx, hr⟩ := Option.map_eq_some_iff.1 hr
        have : S.angle m W = some x := by
          unfold FlatTri.angle at hx ⊢
          split at hx
          · next h2 =>
            rw [dif_pos h2]
            exact C52.angleLoop_mono hx m hm
          · cases hx
        rw [this, ← hr]
        rfl

theorem andThen_grow {α β : Type} {x y : Option (Except Err α)} {f g : α → Option (Except Err β)} {r : Except Err β}
    (hx : ∀ z, x = some z → y = some z) (hf : ∀ a z, f a = some z → g a = some z) (h : andThen x f = some r) : andThen y g = some r := by
  unfold andThen at h ⊢
  match x, h with
  | some (.error e), h => rw [hx _ rfl]; exact h
  | some (.ok a), h => rw [hx _ rfl]; exact hf _ _ h

theorem turns_grow (A : Option (Approx T K)) {S : FlatTri T} {a b : Saddle} {n m : ℕ} {r : Except Err (Option CCW)} (hm : n ≤ m)
    (h : turns A n S a b = some r) : turns A m S a b = some r := by
  unfold turns at h ⊢
  refine andThen_grow (fun z hz => saddleCcw_grow A hm hz) (fun ccw z hz => ?_) h
  split at hz
  · next h1 =>
    rw [if_pos h1]
    cases ccw
    · exact andThen_grow (fun z hz => saddleAngle_grow A hm hz) (fun _ _ hz => hz) hz
    · exact hz
    · exact andThen_grow (fun z hz => saddleAngle_grow A hm hz) (fun _ _ hz => hz) hz
  · next h1 => rwa [if_neg h1]

theorem inCorner_of {f : T →+* ℝ} (hf : StrictMono f) {dbg : Bool} {S : FlatTri T} (h : Closed dbg S) {θ : HE → ℝ}
    (hθ : AllCorners f S θ) {e : HE} (he : e < S.tri.size) {v : Vec T} {t : HE} (hs : IsSaddleConnection S e v t) :
    ∃ σ, InCorner f S θ e σ v := by
  have hv := ByLength.saddle_pos h.shut hf hθ hs he
  have := C136.sector_of_connection hf (none : Option (Approx T ℚ)) h he hs (v := v) ⟨by unfold cross; ring, hv⟩
  exact ((C39.isDirection_iff hf (none : Option (Approx T ℚ)) h hθ (e, v)).2 ⟨he, this⟩).2

/-- Turning on to get back to where one started. -/
theorem turn_back {f : T →+* ℝ} (hf : StrictMono f) {dbg : Bool} {S : FlatTri T} (h : Closed dbg S) {θ : HE → ℝ}
    (hθ : AllCorners f S θ) {V : Finset HE} (hV : V ∈ S.tri.vertexes) {e e' : HE} (he : e ∈ V) (he' : e' ∈ V) {u v : Vec T} {σ τ α : ℝ}
    (hu : InCorner f S θ e σ u) (hv : InCorner f S θ e' τ v) (ht : TurnsTo S θ e σ α e' τ) (h0 : α ≠ 0) (h1 : α < ∑ x ∈ V, θ x) :
    TurnsTo S θ e' τ (∑ x ∈ V, θ x - α) e σ := by
  obtain ⟨hc, ha⟩ := around hf h hθ hV
  have hb : ∀ e ∈ V, S.tri.boundary e = false := fun e he => (nonboundary h hV e he).2
  obtain ⟨β, ⟨b1, b2⟩, -⟩ := C75.turnsTo_existsUnique hf h.reachable h.flat hV hb hc he' he hv hu
  have hu' : ∀ {x y : ℝ}, TurnsTo S θ e σ x e σ ∧ x < ∑ x ∈ V, θ x → TurnsTo S θ e σ y e σ ∧ y < ∑ x ∈ V, θ x → x = y :=
    fun h1 h2 => (C75.turnsTo_existsUnique hf h.reachable h.flat hV hb hc he he hu hu).unique h1 h2
  have h00 : TurnsTo S θ e σ 0 e σ := ⟨le_rfl, 0, rfl, by rw [arc_zero]; ring⟩
  have htr := TurnsTo.trans ht b1
  obtain ⟨p, p0, p1, p2⟩ := ha.period
  have hα0 := ht.1
  have hΘ : 0 < ∑ x ∈ V, θ x := by linarith
  suffices hs : ∑ x ∈ V, θ x - α = β by rw [hs]; exact b1
  by_cases hlt : α + β < ∑ x ∈ V, θ x
  · have := hu' ⟨htr, hlt⟩ ⟨h00, hΘ⟩
    have := b1.1
    exact absurd (by linarith : α = 0) h0
  · have hlt := not_lt.1 hlt
    obtain ⟨-, m, m1, m2⟩ := htr
    have hm : p ≤ m := by
      by_contra hm
      have := ha.arc_lt he (by omega : m < p)
      rw [p2 e he] at this
      linarith
    obtain ⟨j, rfl⟩ := Nat.exists_eq_add_of_le' hm
    have e1 : S.tri.nextAtVertex^[j] e = e := by rwa [iterate_add_apply, p1 e he] at m1
    have e2 : arc S θ e (j + p) = ∑ x ∈ V, θ x + arc S θ e j := by
      rw [add_comm j p, arc_add, p2 e he, p1 e he]
    have := hu' (x := α + β - ∑ x ∈ V, θ x) (y := 0) ⟨⟨by linarith, j, e1, by linarith⟩, by linarith⟩ ⟨h00, hΘ⟩
    linarith

theorem turnsTo_turns {f : T →+* ℝ} {S : FlatTri T} {V : Finset HE} {θ : HE → ℝ} (ha : Around f S V θ) {e e' : HE} (he : e ∈ V)
    {u v : Vec T} {σ τ α : ℝ} (hu : InCorner f S θ e σ u) (hv : InCorner f S θ e' τ v) (ht : TurnsTo S θ e σ α e' τ) :
    Turns (u.map f) α (v.map f) := by
  obtain ⟨-, n, rfl, hn⟩ := ht
  have := (ha.turns_vec he hu n).trans hv.2.2
  rwa [show arc S θ e n - σ + τ = α by linarith] at this

theorem floor_zero {k : ℕ} {α : ℝ} (h0 : 0 ≤ α) (hk : (k : ℤ) = ⌊α / (2 * π)⌋) : k = 0 ↔ α < 2 * π := by
  have hpi := pi_pos
  constructor
  · rintro rfl
    have := Int.lt_floor_add_one (α / (2 * π))
    rw [← hk] at this
    simp only [Nat.cast_zero, Int.cast_zero, zero_add] at this
    rwa [div_lt_one (by linarith)] at this
  · intro hlt
    have : ⌊α / (2 * π)⌋ = 0 := by
      rw [Int.floor_eq_zero_iff]
      exact ⟨by positivity, by rwa [div_lt_one (by linarith)]⟩
    omega

/-- A turn by less than half of the total angle, to the left in the plane. -/
theorem small_turn {α Θ : ℝ} {m : ℕ} (h0 : 0 < α) (h1 : α < Θ - α) (hΘ : Θ = m * (2 * π)) : 
    (sin α ≤ 0 ∨ ¬ α < 2 * π → π ≤ α ∧ α + π ≤ Θ) ∧ (0 < sin α → α < 2 * π → ¬ (π ≤ α ∧ α + π ≤ Θ)) := by
  have hpi := pi_pos
  constructor
  · intro h
    have hle : π ≤ α := by
      by_contra hc
      rcases h with h | h
      · exact absurd (sin_pos_of_pos_of_lt_pi h0 (not_le.1 hc)) (not_lt.2 h)
      · linarith
    exact ⟨hle, by linarith⟩
  · rintro h2 h3 ⟨h4, -⟩
    have := ((sin_pos_iff h0.le h3).1 h2).2
    linarith

/-- The test for tight turns is correct. -/
theorem turns_correct {f : T →+* ℝ} (hf : StrictMono f) (A : Option (Approx T K)) {dbg : Bool} {S : FlatTri T} (h : Closed dbg S) {θ : HE → ℝ}
    (hθ : AllCorners f S θ) {V : Finset HE} (hV : V ∈ S.tri.vertexes) {a b : Saddle} (hat : a.target ∈ V) (hbs : b.source ∈ V) {σ τ α : ℝ}
    (hu : InCorner f S θ a.target σ (-S.saddleVector a)) (hv : InCorner f S θ b.source τ (S.saddleVector b))
    (ht : TurnsTo S θ a.target σ α b.source τ) (hlt : α < ∑ x ∈ V, θ x) :
    ∃ N r, (∀ n ≥ N, turns A n S a b = some (.ok r)) ∧ (r = none ↔ α = 0 ∨ π ≤ α ∧ α + π ≤ ∑ x ∈ V, θ x) := by
  have hpi := pi_pos
  obtain ⟨hc, ha⟩ := around hf h hθ hV
  have hb : ∀ e ∈ V, S.tri.boundary e = false := fun e he => (nonboundary h hV e he).2
  have hneg : S.saddleVector a.neg = -S.saddleVector a := saddleVector_neg S a
  have hun : InCorner f S θ a.neg.source σ (S.saddleVector a.neg) := by rw [hneg]; exact hu
  obtain ⟨N1, r1, c1, c2, c3, c4⟩ := C75.ccw_correct hf A h.reachable h.flat hV hb hc (c := a.neg) hat hbs hun hv ht hlt
  obtain ⟨m, M, -, hm, hΘ⟩ := C20.angle_correct f hf h.reachable h.flat hV hb
  have hΘ := hΘ θ hc
  have hm' : (1 : ℝ) ≤ m := by exact_mod_cast hm
  have hT := turnsTo_turns ha hat hu hv ht
  have hne : (-S.saddleVector a).map f ≠ 0 := fun h0 => by
    have := turns_ne hu.2.2 (ha.vec_ne hat)
    exact this h0
  have hsg := hT.cross_sign hne
  rw [cross_map, ← map_zero f, hf.lt_iff_lt, hf.lt_iff_lt, map_zero] at hsg
  have hα0 := ht.1
  match r1, c1, c2, c3, c4 with
  | .collinear, c1, c2, c3, c4 =>
    refine ⟨N1, none, fun n hn => ?_, ?_⟩
    · unfold turns
      rw [c1 n hn]
      simp only [andThen]
      split <;> rfl
    · refine iff_of_true rfl ((c2.1 rfl).imp_right fun hh => ?_)
      rw [hΘ] at hh ⊢
      have : α = m * π := by linarith
      constructor <;> nlinarith
  | .counterclockwise, c1, c2, c3, c4 =>
    obtain ⟨d1, d2⟩ := c3.1 rfl
    have hpos : 0 < α := lt_of_le_of_ne hα0 (Ne.symm d1)
    obtain ⟨s1, s2⟩ := small_turn hpos d2 hΘ
    obtain ⟨N2, k, k1, k2⟩ := C75.angle_correct hf A h.reachable h.flat hV hb hc (c := a.neg) hat hbs hun hv ht hlt
    have k3 := floor_zero hα0 k2
    by_cases hp : Vec.ccw A (-S.saddleVector a) (S.saddleVector b) = .counterclockwise
    · refine ⟨max N1 N2, if k = 0 then some .counterclockwise else none, fun n hn => ?_, ?_⟩
      · unfold turns
        rw [c1 n (le_of_max_le_left hn)]
        simp only [andThen]
        rw [hp, if_pos rfl, k1 n (le_of_max_le_right hn)]
      · rw [ccw_eq, ccwExact_ccw] at hp
        have hs := hsg.1.1 hp
        by_cases hk : k = 0
        · rw [if_pos hk]
          refine iff_of_false (by simp) ?_
          rintro (h1 | h1)
          · exact d1 h1
          · exact s2 hs (k3.1 hk) h1
        · rw [if_neg hk]
          exact iff_of_true rfl (Or.inr (s1 (Or.inr fun h1 => hk (k3.2 h1))))
    · refine ⟨N1, none, fun n hn => ?_, ?_⟩
      · unfold turns
        rw [c1 n hn]
        simp only [andThen]
        rw [if_neg fun h1 => hp h1.symm]
      · rw [ccw_eq, ccwExact_ccw] at hp
        exact iff_of_true rfl (Or.inr (s1 (Or.inl (not_lt.1 fun h1 => hp (hsg.1.2 h1)))))
  | .clockwise, c1, c2, c3, c4 =>
    obtain ⟨d1, d2⟩ := c4.1 rfl
    have hback := turn_back hf h hθ hV hat hbs hu hv ht d1 hlt
    set β := ∑ x ∈ V, θ x - α with hβ
    have hpos : 0 < β := by linarith
    have hα : α = ∑ x ∈ V, θ x - β := by linarith
    have hsin : sin β = -sin α := by
      rw [hβ, hΘ, show (m : ℝ) * (2 * π) - α = -α + m * (2 * π) by ring, sin_add_nat_mul_two_pi, sin_neg]
    obtain ⟨s1, s2⟩ := small_turn hpos (by linarith) hΘ
    have hun' : InCorner f S θ a.target σ (S.saddleVector a.neg) := by rw [hneg]; exact hu
    obtain ⟨N2, k, k1, k2⟩ := C75.angle_correct hf A h.reachable h.flat hV hb hc (c := b) hbs hat hv hun' hback
      (by have := lt_of_le_of_ne hα0 (Ne.symm d1); linarith)
    have k3 := floor_zero hpos.le k2
    have hiff : (α = 0 ∨ π ≤ α ∧ α + π ≤ ∑ x ∈ V, θ x) ↔ (π ≤ β ∧ β + π ≤ ∑ x ∈ V, θ x) := by
      constructor
      · rintro (h1 | ⟨h1, h2⟩)
        · exact absurd h1 d1
        · constructor <;> linarith
      · rintro ⟨h1, h2⟩
        right
        constructor <;> linarith
    rw [hiff]
    by_cases hp : Vec.ccw A (-S.saddleVector a) (S.saddleVector b) = .clockwise
    · refine ⟨max N1 N2, if k = 0 then some .clockwise else none, fun n hn => ?_, ?_⟩
      · unfold turns
        rw [c1 n (le_of_max_le_left hn)]
        simp only [andThen]
        rw [hp, if_pos rfl, k1 n (le_of_max_le_right hn)]
      · rw [ccw_eq, ccwExact_clockwise] at hp
        have hs := hsg.2.1 hp
        by_cases hk : k = 0
        · rw [if_pos hk]
          exact iff_of_false (by simp) (s2 (by linarith) (k3.1 hk))
        · rw [if_neg hk]
          exact iff_of_true rfl (s1 (Or.inr fun h1 => hk (k3.2 h1)))
    · refine ⟨N1, none, fun n hn => ?_, ?_⟩
      · unfold turns
        rw [c1 n hn]
        simp only [andThen]
        rw [if_neg fun h1 => hp h1.symm]
      · rw [ccw_eq, ccwExact_clockwise] at hp
        refine iff_of_true rfl (s1 (Or.inl ?_))
        have : ¬ sin α < 0 := fun h1 => hp (hsg.2.2 h1)
        linarith

theorem together {dbg : Bool} {S : FlatTri T} (h : Closed dbg S) {e e' : HE} (he : e < S.tri.size) (ht : StartTogether S e e') :
    ∃ V ∈ S.tri.vertexes, e ∈ V ∧ e' ∈ V := by
  obtain ⟨V, hs, ho⟩ := h.shut.source he
  exact ⟨V, List.mem_of_find?_eq_some hs, (ho e).2 (Perm.Orb.refl _ e), (ho e').2 ht⟩

theorem connected_of {dbg : Bool} {S : FlatTri T} (h : Closed dbg S) {V : Finset HE} (hV : V ∈ S.tri.vertexes) {a b : Saddle}
    (ha : a.target ∈ V) (hb : b.source ∈ V) : S.connected a b = true := by
  have hF := IsFlat.flat h.reachable h.flat
  unfold FlatTri.connected
  rw [C75.source_eq hF hV ha]
  exact (C75.isSource_iff hF hV hV hb).2 rfl

theorem assert_of {dbg cond : Bool} (h : cond = true) : Tighten.assert dbg cond = some (.ok ()) := by
  subst h
  cases dbg <;> rfl

/-- Two consecutive segments are left as they are only if the turn between them is tight. -/
theorem settled_tight {f : T →+* ℝ} (hf : StrictMono f) {A : Option (Approx T K)} {debug : Bool} {S : FlatTri T} (h : Closed debug S)
    {θ : HE → ℝ} (hθ : AllCorners f S θ) {dbg : Bool} {upper : Vec T → Bound} {n : ℕ} {a b : Saddle}
    (ha : a.source < S.tri.size ∧ IsSaddleConnection S a.source (S.saddleVector a) a.target)
    (hb : b.source < S.tri.size ∧ IsSaddleConnection S b.source (S.saddleVector b) b.target) (hab : StartTogether S a.target b.source)
    (hr : replacement A dbg upper n S a b = some (.ok none)) : TightTurn f S θ a b := by
  have hat := C139.target_lt h ha.1 ha.2
  have hra := C139.reverse h ha.1 ha.2
  obtain ⟨V, hV, haV, hbV⟩ := together h hat hab
  obtain ⟨σ, hσ⟩ := inCorner_of hf h hθ hat hra
  obtain ⟨τ, hτ⟩ := inCorner_of hf h hθ hb.1 hb.2
  obtain ⟨hc, haro⟩ := around hf h hθ hV
  have hbd : ∀ e ∈ V, S.tri.boundary e = false := fun e he => (nonboundary h hV e he).2
  obtain ⟨α, ⟨t1, t2⟩, -⟩ := C75.turnsTo_existsUnique hf h.reachable h.flat hV hbd hc haV hbV hσ hτ
  obtain ⟨N, r, r1, r2⟩ := turns_correct hf A h hθ hV haV hbV hσ hτ t1 t2
  unfold replacement at hr
  obtain ⟨opp, o1, hr⟩ := andThen_ok.1 hr
  have o2 : opp = S.saddleEq a b.neg := by
    unfold SaddleSearch.equal at o1
    split at o1
    · cases o1
    · cases o1; rfl
  split at hr
  · cases hr
  · next hopp =>
    obtain ⟨w, w1, w2⟩ := andThen_ok.1 hr
    have hw : w = r := by
      have e1 := turns_grow A (le_max_left n N) w1
      rw [r1 _ (le_max_right n N)] at e1
      cases e1; rfl
    have hnone : w = none := by
      match w, w2 with
      | none, _ => rfl
      | some .clockwise, w2 =>
        obtain ⟨_, -, w2⟩ := andThen_ok.1 w2
        cases w2
      | some .counterclockwise, w2 =>
        obtain ⟨_, -, w2⟩ := andThen_ok.1 w2
        cases w2
      | some .collinear, w2 =>
        obtain ⟨_, -, w2⟩ := andThen_ok.1 w2
        cases w2
    rcases r2.1 (hw ▸ hnone) with h0 | ⟨h1, h2⟩
    · exfalso
      apply hopp
      subst h0
      have hz : a.target = b.source ∧ σ = τ := by
        have := (C75.turnsTo_existsUnique hf h.reachable h.flat hV hbd hc haV hbV hσ hτ)
        obtain ⟨-, k, k1, k2⟩ := t1
        have hk : k = 0 := by
          by_contra hk
          have h3 := haro.arc_lt haV (by omega : 0 < k)
          have h4 : arc S θ a.target 1 ≤ arc S θ a.target k := by
            rcases Nat.lt_or_ge 1 k with h5 | h5
            · exact (haro.arc_lt haV h5).le
            · rw [show k = 1 by omega]
          rw [arc_one] at h4
          have := hσ.2.1
          have := hτ.1
          linarith
        subst hk
        rw [arc_zero] at k2
        exact ⟨k1, by linarith⟩
      obtain ⟨hz1, hz2⟩ := hz
      have hT := turnsTo_turns haro haV hσ hτ t1
      have hsame : SameDirection (-S.saddleVector a) (S.saddleVector b) := by
        obtain ⟨r, hr, he⟩ := hT
        rw [rotate_zero] at he
        have hne := ByLength.saddle_pos h.shut hf hθ hra hat
        constructor
        · have : cross ((-S.saddleVector a).map f) ((S.saddleVector b).map f) = 0 := by
            rw [he]
            simp only [cross, smul_x, smul_y]
            ring
          rw [cross_map] at this
          exact (map_eq_zero_iff f hf.injective).1 this
        · have : 0 < dot ((-S.saddleVector a).map f) ((S.saddleVector b).map f) := by
            rw [he]
            have e1 : dot ((-S.saddleVector a).map f) (r • (-S.saddleVector a).map f) = r * f (dot (-S.saddleVector a) (-S.saddleVector a)) := by
              rw [← dot_map]
              simp only [dot, smul_x, smul_y]
              ring
            rw [e1]
            have : 0 < f (dot (-S.saddleVector a) (-S.saddleVector a)) := by rw [← map_zero f]; exact hf hne
            positivity
          rw [dot_map, ← map_zero f] at this
          exact hf.lt_iff_lt.1 this
      have hb2 : IsSaddleConnection S a.target (S.saddleVector b) b.target := by rw [hz1]; exact hb.2
      obtain ⟨u1, u2⟩ := C40.direction_unique hra hb2 hsame.1 hsame.2
      rw [o2]
      unfold FlatTri.saddleEq
      simp only [Bool.and_eq_true, decide_eq_true_eq]
      refine ⟨?_, u2⟩
      rw [saddleVector_neg, ← u1, neg_neg]
    · exact ⟨V, hV, haV, hbV, σ, τ, α, hσ, hτ, t1, h1, h2⟩

/-- Two consecutive segments are left as they are if the turn between them is tight. -/
theorem tight_settled {f : T →+* ℝ} (hf : StrictMono f) (A : Option (Approx T K)) {debug : Bool} {S : FlatTri T} (h : Closed debug S)
    {θ : HE → ℝ} (hθ : AllCorners f S θ) (dbg : Bool) (upper : Vec T → Bound) {a b : Saddle}
    (ha : a.source < S.tri.size ∧ IsSaddleConnection S a.source (S.saddleVector a) a.target)
    (hb : b.source < S.tri.size ∧ IsSaddleConnection S b.source (S.saddleVector b) b.target) (ht : TightTurn f S θ a b) :
    ∃ N, ∀ n ≥ N, Settled A dbg upper n S a b := by
  have hpi := pi_pos
  obtain ⟨V, hV, haV, hbV, σ, τ, α, hσ, hτ, t1, t3, t4⟩ := ht
  have t2 : α < ∑ x ∈ V, θ x := by linarith
  obtain ⟨hc, haro⟩ := around hf h hθ hV
  have hbd : ∀ e ∈ V, S.tri.boundary e = false := fun e he => (nonboundary h hV e he).2
  obtain ⟨N, r, r1, r2⟩ := turns_correct hf A h hθ hV haV hbV hσ hτ t1 t2
  have hr := r2.2 (Or.inr ⟨t3, t4⟩)
  subst hr
  have hopp : S.saddleEq a b.neg = false := by
    rw [Bool.eq_false_iff]
    intro hopp
    unfold FlatTri.saddleEq at hopp
    simp only [Bool.and_eq_true, decide_eq_true_eq] at hopp
    obtain ⟨o1, o2⟩ := hopp
    rw [saddleVector_neg] at o1
    have o2 : a.source = b.target := o2
    have hrb := C139.reverse h hb.1 hb.2
    rw [← o1, ← o2] at hrb
    have hp := ByLength.saddle_pos h.shut hf hθ ha.2 ha.1
    obtain ⟨-, u⟩ := C40.direction_unique ha.2 hrb (by unfold cross; ring) hp
    have hτ' : InCorner f S θ a.target τ (-S.saddleVector a) := by rw [u, o1, neg_neg]; exact hτ
    have hστ := corner_unique hf h hθ (nonboundary h hV _ haV).1 hσ hτ'
    have := (C75.turnsTo_existsUnique hf h.reachable h.flat hV hbd hc haV hbV hσ hτ).unique ⟨t1, t2⟩
      (y₂ := 0) ⟨⟨le_rfl, 0, u, by rw [arc_zero]; linarith⟩, by linarith⟩
    linarith
  refine ⟨N, fun n hn => ⟨assert_of (connected_of h hV haV hbV), ?_⟩⟩
  unfold replacement SaddleSearch.equal
  simp only [hopp]
  rw [if_neg (by simp)]
  simp only [andThen]
  rw [r1 n hn]
  simp

theorem pathFrom_chain {S : FlatTri T} {e' : HE} : ∀ {p : List Saddle} {e : HE}, PathFrom S e p e' →
    p.IsChain fun a b => StartTogether S a.target b.source
  | [], _, _ => by simp
  | [_], _, _ => by simp
  | _ :: b :: p, _, h => List.isChain_cons_cons.2 ⟨h.2.1, pathFrom_chain h.2⟩

theorem chain_mp {R Q : Saddle → Saddle → Prop} : ∀ {p : List Saddle}, p.IsChain R → (∀ a ∈ p, ∀ b ∈ p, R a b → Q a b) → p.IsChain Q
  | [], _, _ => by simp
  | [_], _, _ => by simp
  | a :: b :: p, h, hq => by
    rw [List.isChain_cons_cons] at h ⊢
    exact ⟨hq a (by simp) b (by simp) h.1, chain_mp h.2 fun x hx y hy => hq x (by simp [hx]) y (by simp [hy])⟩

theorem chain_and {R Q : Saddle → Saddle → Prop} : ∀ {p : List Saddle}, p.IsChain R → p.IsChain Q → p.IsChain fun a b => R a b ∧ Q a b
  | [], _, _ => by simp
  | [_], _, _ => by simp
  | _ :: _ :: _, h, hq => by
    rw [List.isChain_cons_cons] at h hq ⊢
    exact ⟨⟨h.1, hq.1⟩, chain_and h.2 hq.2⟩

theorem chain_fuel {P : ℕ → Saddle → Saddle → Prop} : ∀ {p : List Saddle}, p.IsChain (fun a b => ∃ N, ∀ n ≥ N, P n a b) →
    ∃ N, ∀ n ≥ N, p.IsChain (P n)
  | [], _ => ⟨0, by simp⟩
  | [_], _ => ⟨0, by simp⟩
  | _ :: _ :: _, h => by
    rw [List.isChain_cons_cons] at h
    obtain ⟨⟨N, hN⟩, h2⟩ := h
    obtain ⟨M, hM⟩ := chain_fuel h2
    exact ⟨max N M, fun n hn => List.isChain_cons_cons.2 ⟨hN n (le_of_max_le_left hn), hM n (le_of_max_le_right hn)⟩⟩

theorem settled_connected {A : Option (Approx T K)} {dbg : Bool} {upper : Vec T → Bound} {n : ℕ} {S : FlatTri T} {p : List Saddle}
    (h : p.IsChain (Settled A dbg upper n S)) : S.makePath dbg p = .ok p := by
  unfold FlatTri.makePath
  rw [if_neg]
  cases dbg with
  | false => simp
  | true =>
    simp only [Bool.true_and, Bool.not_eq_true', Bool.not_eq_false]
    have key : ∀ q : List Saddle, q.IsChain (Settled A true upper n S) → ((q.zip q.tail).all fun cd => S.connected cd.1 cd.2) = true := by
      intro q
      induction q with
      | nil => simp
      | cons a q ih =>
        intro hq
        cases q with
        | nil => simp
        | cons b q =>
          rw [List.isChain_cons_cons] at hq
          have h1 := hq.1.1
          unfold Tighten.assert at h1
          have h2 : S.connected a b = true := by
            by_contra h3
            simp [h3] at h1
          have := ih hq.2
          simp only [List.tail_cons, List.zip_cons_cons, List.all_cons, h2, Bool.true_and] at this ⊢
          exact this
    exact key p h

theorem tighten_settled {A : Option (Approx T K)} {dbg : Bool} {upper : Vec T → Bound} {n : ℕ} {S : FlatTri T} {p : List Saddle}
    (h : p.IsChain (Settled A dbg upper n S)) (hn : p.length ≤ n) (h0 : 0 < n) : tighten A dbg upper n S p = some (.ok p) := by
  have key : ∀ fuel, p.length ≤ fuel → 0 < fuel → loop A dbg upper n S fuel [] p = some (.ok p) := by
    intro fuel hf h0
    match p, h, hf with
    | [], _, _ => obtain ⟨k, rfl⟩ : ∃ k, fuel = k + 1 := ⟨fuel - 1, by omega⟩; rfl
    | [a], _, _ => obtain ⟨k, rfl⟩ : ∃ k, fuel = k + 1 := ⟨fuel - 1, by omega⟩; rfl
    | a :: b :: q, h, hf =>
      obtain ⟨l, c, hl⟩ : ∃ l c, b :: q = l ++ [c] := ⟨(b :: q).dropLast, (b :: q).getLast (by simp), (List.dropLast_append_getLast _).symm⟩
      rw [hl] at h hf ⊢
      simp only [List.length_cons, List.length_append, List.length_nil] at hf
      obtain ⟨k, rfl⟩ : ∃ k, fuel = (k + 1) + (l.length + 1) := ⟨fuel - (l.length + 2), by omega⟩
      have := loop_walk (A := A) (dbg := dbg) (upper := upper) (n := n) (S := S) [] c l a [] (k + 1) h
      rw [this]
      simp [loop]
  unfold tighten
  rw [key n hn h0]
  simp only [andThen]
  rw [settled_connected h]

/-- In a tightened path, one turns at least by π on both sides of the path when going from one segment to the next. -/
theorem tight {f : T →+* ℝ} (hf : StrictMono f) {A : Option (Approx T K)} {debug : Bool} {S : FlatTri T} (h : Closed debug S)
    {θ : HE → ℝ} (hθ : AllCorners f S θ) {dbg : Bool} {upper : Vec T → Bound} {fuel : ℕ} {p q : List Saddle}
    (hq : tighten A dbg upper fuel S p = some (.ok q)) {e e' : HE} (hp : PathFrom S e p e')
    (hs : ∀ c ∈ q, c.source < S.tri.size ∧ IsSaddleConnection S c.source (S.saddleVector c) c.target) :
    q.IsChain (TightTurn f S θ) := by
  have h1 := pathFrom_chain (C142.ends_preserved h hq hp)
  obtain ⟨h2, -⟩ := loop_settled _ _ _ _ (C142.tighten_ok hq) (by cases p <;> simp) (by simp)
  refine chain_mp (chain_and h1 h2) fun a ha b hb hab => ?_
  exact settled_tight hf h hθ (hs a ha) (hs b hb) hab.1 hab.2.2

/-- Tightening a path again does not change it. -/
theorem idempotent {A : Option (Approx T K)} {dbg : Bool} {upper : Vec T → Bound} {fuel : ℕ} {S : FlatTri T} {p q : List Saddle}
    (h : tighten A dbg upper fuel S p = some (.ok q)) : tighten A dbg upper fuel S q = some (.ok q) := by
  have hl := C142.tighten_ok h
  obtain ⟨h2, h3⟩ := loop_settled _ _ _ _ hl (by cases p <;> simp) (by simp)
  refine tighten_settled h2 (by simpa using h3) ?_
  rcases Nat.eq_zero_or_pos fuel with rfl | h4
  · cases hl
  · exact h4

/-- A path with tight turns does not change. -/
theorem unchanged {f : T →+* ℝ} (hf : StrictMono f) (A : Option (Approx T K)) {debug : Bool} {S : FlatTri T} (h : Closed debug S)
    {θ : HE → ℝ} (hθ : AllCorners f S θ) (dbg : Bool) (upper : Vec T → Bound) {p : List Saddle}
    (hs : ∀ c ∈ p, c.source < S.tri.size ∧ IsSaddleConnection S c.source (S.saddleVector c) c.target) (hp : p.IsChain (TightTurn f S θ)) :
    ∃ N, ∀ fuel ≥ N, tighten A dbg upper fuel S p = some (.ok p) := by
  obtain ⟨N, hN⟩ := chain_fuel (P := fun n => Settled A dbg upper n S)
    (chain_mp hp fun a ha b hb hab => tight_settled hf A h hθ dbg upper (hs a ha) (hs b hb) hab)
  exact ⟨max N (p.length + 1), fun fuel hfuel => tighten_settled (hN _ (le_of_max_le_left hfuel))
    (by have := le_of_max_le_right hfuel; omega) (by have := le_of_max_le_right hfuel; omega)⟩

/-- A path that runs twice through the same edge of the L. -/
theorem twice_connections : ∀ c ∈ [Saddle.ofHalfEdge 0, Saddle.ofHalfEdge 0], c.source < flatEll.tri.size ∧
    IsSaddleConnection flatEll c.source (flatEll.saddleVector c) c.target := by
  intro c hc
  have hc : c = .ofHalfEdge 0 := by simpa using hc
  subst hc
  exact ⟨by decide, .halfEdge (by decide +kernel) rfl⟩

theorem twice_tight {f : ℤ →+* ℝ} (hf : StrictMono f) {θ : HE → ℝ} (hθ : AllCorners f flatEll θ) :
    [Saddle.ofHalfEdge 0, Saddle.ofHalfEdge 0].IsChain (TightTurn f flatEll θ) := by
  rw [List.isChain_cons_cons]
  refine ⟨settled_tight (A := (none : Option (Approx ℤ ℚ))) (dbg := true) (upper := Bound.upperInt) (n := 30) hf flatEll_closed hθ
    (twice_connections _ (by simp)) (twice_connections _ (by simp)) ?_ ?_, by simp⟩
  · show ∃ k, flatEll.tri.nextAtVertex^[k] 1 = 0
    have : ∃ k ∈ List.range 18, flatEll.tri.nextAtVertex^[k] 1 = 0 := by decide +kernel
    obtain ⟨k, -, hk⟩ := this
    exact ⟨k, hk⟩
  · have : (match replacement (none : Option (Approx ℤ ℚ)) true Bound.upperInt 30 flatEll (.ofHalfEdge 0) (.ofHalfEdge 0) with
      | some (.ok none) => true
      | _ => false) = true := by decide +kernel
    split at this
    · next h => exact h
    · cases this

example : ∃ θ, AllCorners (Int.castRingHom ℝ) flatEll θ ∧ Closed true flatEll ∧
    [Saddle.ofHalfEdge 0, Saddle.ofHalfEdge 0].IsChain (TightTurn (Int.castRingHom ℝ) flatEll θ) ∧
    (∀ c ∈ [Saddle.ofHalfEdge 0, Saddle.ofHalfEdge 0], c.source < flatEll.tri.size ∧
      IsSaddleConnection flatEll c.source (flatEll.saddleVector c) c.target) ∧ PathFrom flatEll 0 [.ofHalfEdge 0, .ofHalfEdge 0] 1 ∧
    ∃ fuel, tighten (none : Option (Approx ℤ ℚ)) true Bound.upperInt fuel flatEll [.ofHalfEdge 0, .ofHalfEdge 0] =
      some (.ok [.ofHalfEdge 0, .ofHalfEdge 0]) := by
  obtain ⟨θ, hθ⟩ := C39.corners_exist (f := Int.castRingHom ℝ) Int.cast_strictMono flatEll_closed
  have ht := twice_tight Int.cast_strictMono hθ
  obtain ⟨N, hN⟩ := unchanged Int.cast_strictMono (none : Option (Approx ℤ ℚ)) flatEll_closed hθ true Bound.upperInt twice_connections ht
  refine ⟨θ, hθ, flatEll_closed, ht, twice_connections, ⟨⟨0, rfl⟩, ?_, ⟨0, rfl⟩⟩, N, hN N le_rfl⟩
  show ∃ k, flatEll.tri.nextAtVertex^[k] 1 = 0
  have : ∃ k ∈ List.range 18, flatEll.tri.nextAtVertex^[k] 1 = 0 := by decide +kernel
  obtain ⟨k, -, hk⟩ := this
  exact ⟨k, hk⟩

end Verif.C143

namespace Verif.C144

open Verif Spec Tri FlatTri Examples Vec Real Tighten Function C140 C141

variable {T : Type} [CommRing T] [LinearOrder T] [IsStrictOrderedRing T]
variable {K : Type} [Field K] [LinearOrder K] [IsStrictOrderedRing K]

theorem replacement_neg (A : Option (Approx T K)) (dbg : Bool) (upper : Vec T → Bound) (n : ℕ) (S : FlatTri T) (c : Saddle) :
    replacement A dbg upper n S c c.neg = some (.ok (some [])) := by
  have e : c.neg.neg = c := by
    cases c
    simp [Saddle.neg]
  have h1 : SaddleSearch.equal (⟨A, dbg, S, none, .zero⟩ : SaddleSearch.Params T K) c c.neg.neg = .ok true := by
    rw [e]
    simp [SaddleSearch.equal, FlatTri.saddleEq]
  unfold replacement
  rw [h1]
  simp [andThen]

/-- A path that goes back the way it came disappears from the middle. -/
theorem loop_cancel (A : Option (Approx T K)) (dbg : Bool) (upper : Vec T → Bound) (n : ℕ) {S : FlatTri T} :
    ∀ (before : List Saddle) (c : Saddle) (fuel : ℕ), (∀ d ∈ c :: before, S.connected d d.neg = true) →
      loop A dbg upper n S (fuel + (before.length + 2)) before (c :: c.neg :: before.map Saddle.neg) = some (.ok []) := by
  intro before
  induction before with
  | nil =>
    intro c fuel hc
    show loop A dbg upper n S ((fuel + 1) + 1) [] [c, c.neg] = _
    rw [loop, C143.assert_of (hc c (by simp)), replacement_neg]
    rfl
  | cons d before ih =>
    intro c fuel hc
    show loop A dbg upper n S ((fuel + (before.length + 2)) + 1) (d :: before) _ = _
    rw [loop, C143.assert_of (hc c (by simp)), replacement_neg]
    exact ih d fuel fun x hx => hc x (by simp only [List.mem_cons] at hx ⊢; exact Or.inr hx)

/-- A tight path followed by its reverse is tightened to the empty path. -/
theorem cancels {f : T →+* ℝ} (hf : StrictMono f) (A : Option (Approx T K)) {debug : Bool} {S : FlatTri T} (h : Closed debug S)
    {θ : HE → ℝ} (hθ : AllCorners f S θ) (dbg : Bool) (upper : Vec T → Bound) {p : List Saddle}
    (hs : ∀ c ∈ p, c.source < S.tri.size ∧ IsSaddleConnection S c.source (S.saddleVector c) c.target) (hp : p.IsChain (TightTurn f S θ)) :
    ∃ N, ∀ fuel ≥ N, tighten A dbg upper fuel S (p ++ Path.neg p) = some (.ok []) := by
  obtain ⟨N, hN⟩ := C143.chain_fuel (P := fun n => Settled A dbg upper n S)
    (C143.chain_mp hp fun a ha b hb hab => C143.tight_settled hf A h hθ dbg upper (hs a ha) (hs b hb) hab)
  have hcon : ∀ c ∈ p, S.connected c c.neg = true := by
    intro c hc
    obtain ⟨V, hV, hcV⟩ := exists_vertex h (C139.target_lt h (hs c hc).1 (hs c hc).2)
    exact C143.connected_of h hV hcV hcV
  refine ⟨max N (2 * p.length + 2), fun n hn => ?_⟩
  have h1 := hN n (le_of_max_le_left hn)
  have h2 := le_of_max_le_right hn
  suffices hl : ∀ fuel ≥ 2 * p.length + 2, loop A dbg upper n S fuel [] (p ++ Path.neg p) = some (.ok []) by
    unfold tighten
    rw [hl n h2]
    simp [andThen, FlatTri.makePath]
  clear hN hn hp h2
  intro fuel h2
  rw [Path.neg_eq]
  rcases List.eq_nil_or_concat p with rfl | ⟨q, c, rfl⟩
  · obtain ⟨k, rfl⟩ : ∃ k, fuel = k + 1 := ⟨fuel - 1, by simp at h2; omega⟩
    rfl
  · simp only [List.concat_eq_append] at h1 h2 hcon ⊢
    simp only [List.length_append, List.length_cons, List.length_nil] at h2
    cases q with
    | nil =>
      obtain ⟨k, rfl⟩ : ∃ k, fuel = k + 2 := ⟨fuel - 2, by omega⟩
      exact loop_cancel A dbg upper n [] c k (by simpa using hcon)
    | cons a q =>
      obtain ⟨k, rfl⟩ : ∃ k, fuel = (k + ((q.reverse ++ [a]).length + 2)) + (q.length + 1) :=
        ⟨fuel - (2 * q.length + 4), by simp at h2 ⊢; omega⟩
      have e2 : a :: q ++ [c] ++ ((a :: q ++ [c]).map Saddle.neg).reverse =
          a :: (q ++ c :: (c.neg :: (q.reverse ++ [a]).map Saddle.neg)) := by simp
      have := loop_walk (A := A) (dbg := dbg) (upper := upper) (n := n) (S := S) (c.neg :: (q.reverse ++ [a]).map Saddle.neg) c q a []
        (k + ((q.reverse ++ [a]).length + 2)) (by simpa using h1)
      rw [e2, this]
      refine loop_cancel A dbg upper n (q.reverse ++ [a]) c k fun d hd => hcon d ?_
      simp only [List.mem_cons, List.mem_append, List.mem_reverse, List.not_mem_nil, or_false] at hd ⊢
      tauto

/-- The hypotheses hold for the path that runs twice through the same edge of the L. -/
example : ∃ θ, AllCorners (Int.castRingHom ℝ) flatEll θ ∧ ∃ N, ∀ fuel ≥ N,
    tighten (none : Option (Approx ℤ ℚ)) true Bound.upperInt fuel flatEll
      ([.ofHalfEdge 0, .ofHalfEdge 0] ++ Path.neg [.ofHalfEdge 0, .ofHalfEdge 0]) = some (.ok []) := by
  obtain ⟨θ, hθ⟩ := C39.corners_exist (f := Int.castRingHom ℝ) Int.cast_strictMono flatEll_closed
  exact ⟨θ, hθ, cancels Int.cast_strictMono (none : Option (Approx ℤ ℚ)) flatEll_closed hθ true Bound.upperInt C143.twice_connections
    (C143.twice_tight Int.cast_strictMono hθ)⟩

end Verif.C144
