import Verif.Lemmas.Cone

/-!
# Turning around a vertex
-/

set_option linter.unusedSectionVars false

namespace Verif.FlatTri

open Verif Spec Tri Vec Real Function

variable {T : Type} [CommRing T] [LinearOrder T] [IsStrictOrderedRing T]
variable {K : Type*} [Field K] [LinearOrder K] [IsStrictOrderedRing K]

/-- A vertex in the interior of a flat surface and the angles of its corners. -/
structure Around (f : T →+* ℝ) (S : FlatTri T) (V : Finset HE) (θ : HE → ℝ) : Prop where
  flat : S.Flat
  mono : StrictMono f
  orbit : ∃ x, ∀ y, y ∈ V ↔ S.tri.vertices.Orb x y
  nb : ∀ e ∈ V, S.tri.faces.fwd e ≠ e
  corners : Corners f S V θ

variable {f : T →+* ℝ} {S : FlatTri T} {V : Finset HE} {θ : HE → ℝ}

theorem Around.next_mem (h : Around f S V θ) {e : HE} (he : e ∈ V) : S.tri.nextAtVertex e ∈ V := by
  obtain ⟨x, hx⟩ := h.orbit
  rw [hx] at *
  exact he.trans (Perm.Orb.step _ e)

theorem Around.iterate_mem (h : Around f S V θ) {e : HE} (he : e ∈ V) (n : ℕ) : S.tri.nextAtVertex^[n] e ∈ V := by
  induction n with
  | zero => exact he
  | succ n ih => rw [iterate_succ_apply']; exact h.next_mem ih

theorem Around.reach (h : Around f S V θ) {e e' : HE} (he : e ∈ V) (he' : e' ∈ V) :
    ∃ k, S.tri.nextAtVertex^[k] e = e' := by
  obtain ⟨x, hx⟩ := h.orbit
  rw [hx] at *
  exact (Perm.Orb.symm h.flat.coh.hv he).trans he'

theorem Around.of_iterate (h : Around f S V θ) {e : HE} {n : ℕ} (he : S.tri.nextAtVertex^[n] e ∈ V) : e ∈ V := by
  obtain ⟨x, hx⟩ := h.orbit
  rw [hx] at *
  exact he.trans (Perm.Orb.symm h.flat.coh.hv ⟨n, rfl⟩)

theorem next_prev (h : S.Flat) (e : HE) : S.tri.nextAtVertex (S.tri.previousAtVertex e) = e := h.coh.hv.right e

theorem prev_next (h : S.Flat) (e : HE) : S.tri.previousAtVertex (S.tri.nextAtVertex e) = e := h.coh.hv.left e

theorem next_prev_iterate (h : S.Flat) (e : HE) (n : ℕ) : S.tri.nextAtVertex^[n] (S.tri.previousAtVertex^[n] e) = e := by
  have : LeftInverse S.tri.nextAtVertex S.tri.previousAtVertex := next_prev h
  exact this.iterate n e

theorem prev_next_iterate (h : S.Flat) (e : HE) (n : ℕ) : S.tri.previousAtVertex^[n] (S.tri.nextAtVertex^[n] e) = e := by
  have : LeftInverse S.tri.previousAtVertex S.tri.nextAtVertex := prev_next h
  exact this.iterate n e

theorem Around.prev_mem (h : Around f S V θ) {e : HE} (he : e ∈ V) : S.tri.previousAtVertex e ∈ V :=
  h.of_iterate (n := 1) (by rw [iterate_one, next_prev h.flat]; exact he)

theorem Around.prev_iterate_mem (h : Around f S V θ) {e : HE} (he : e ∈ V) (n : ℕ) :
    S.tri.previousAtVertex^[n] e ∈ V := by
  induction n with
  | zero => exact he
  | succ n ih => rw [iterate_succ_apply']; exact h.prev_mem ih

theorem Around.reach_prev (h : Around f S V θ) {e e' : HE} (he : e ∈ V) (he' : e' ∈ V) :
    ∃ k, S.tri.previousAtVertex^[k] e = e' := by
  obtain ⟨k, hk⟩ := h.reach he' he
  exact ⟨k, by rw [← hk, prev_next_iterate h.flat]⟩

theorem Around.vec_ne (h : Around f S V θ) {e : HE} (he : e ∈ V) : (S.vec e).map f ≠ 0 :=
  map_ne_zero f h.mono (h.flat.vec_ne (h.nb e he))

theorem Around.cross_neg (h : Around f S V θ) (u w : Vec T) : cross (u.map f) (w.map f) < 0 ↔ cross u w < 0 := by
  rw [cross_map, ← map_zero f, h.mono.lt_iff_lt]

theorem Around.pos (h : Around f S V θ) {e : HE} (he : e ∈ V) : 0 < θ e ∧ θ e < π := by
  obtain ⟨h0, h1, h2⟩ := h.corners e he
  refine h2.lt_pi (h.vec_ne he) h0 h1 ?_
  rw [cross_map, ← map_zero f, h.mono.lt_iff_lt]
  exact (h.flat.corner (h.nb e he)).2

/-! ### Arcs -/

theorem arc_zero (e : HE) : arc S θ e 0 = 0 := Finset.sum_range_zero _

theorem arc_succ (e : HE) (n : ℕ) : arc S θ e (n + 1) = arc S θ e n + θ (S.tri.nextAtVertex^[n] e) :=
  Finset.sum_range_succ _ _

theorem arc_add (e : HE) (m n : ℕ) : arc S θ e (m + n) = arc S θ e m + arc S θ (S.tri.nextAtVertex^[m] e) n := by
  unfold arc
  rw [Finset.sum_range_add]
  congr 1
  refine Finset.sum_congr rfl fun i _ => ?_
  rw [add_comm, iterate_add_apply]

theorem arc_one (e : HE) : arc S θ e 1 = θ e := Finset.sum_range_one _

theorem Around.arc_lt (h : Around f S V θ) {e : HE} (he : e ∈ V) {m n : ℕ} (hmn : m < n) : arc S θ e m < arc S θ e n := by
  have hs : StrictMono (arc S θ e) := strictMono_nat_of_lt_succ fun n => by
    rw [arc_succ]
    have := (h.pos (h.iterate_mem he n)).1
    linarith
  exact hs hmn

/-- There is a number of steps which is a full turn, also for all the half edges. -/
theorem Around.period (h : Around f S V θ) : ∃ p, 0 < p ∧ (∀ e ∈ V, S.tri.nextAtVertex^[p] e = e) ∧
    ∀ e ∈ V, arc S θ e p = ∑ x ∈ V, θ x := by
  obtain ⟨x, hx⟩ := h.orbit
  have hp := Perm.Orb.periodic h.flat.coh.hv x
  refine ⟨minimalPeriod S.tri.vertices.fwd x, minimalPeriod_pos_of_mem_periodicPts hp, ?_, ?_⟩
  · intro e he
    obtain ⟨k, rfl⟩ := (hx e).1 he
    change S.tri.vertices.fwd^[_] _ = _
    rw [← iterate_add_apply, add_comm, iterate_add_apply, iterate_minimalPeriod]
  · intro e he
    have ho := (hx e).1 he
    have hV' : ∀ y, y ∈ V ↔ S.tri.vertices.Orb e y := fun y =>
      (hx y).trans ⟨fun hy => (Perm.Orb.symm h.flat.coh.hv ho).trans hy, fun hy => ho.trans hy⟩
    rw [← Perm.orbit_sum h.flat.coh.hv hV' θ]
    obtain ⟨k, rfl⟩ := ho
    rw [minimalPeriod_apply_iterate hp]
    rfl

/-- A turn, written with sufficiently many full turns in counterclockwise direction. -/
theorem Around.forward (h : Around f S V θ) {e e' : HE} (he : e ∈ V) {α : ℝ} (ht : TurnedInto S θ e α e') :
    ∃ M₀ : ℕ, ∀ M : ℕ, M₀ ≤ M → ∃ n, S.tri.nextAtVertex^[n] e = e' ∧ arc S θ e n ≤ M * (∑ x ∈ V, θ x) + α ∧
      M * (∑ x ∈ V, θ x) + α < arc S θ e (n + 1) := by
  obtain ⟨p, hp, hper, harc⟩ := h.period
  obtain ⟨x, m, n, rfl, rfl, h1, h2⟩ := ht
  refine ⟨m, fun M hM => ?_⟩
  have hx := h.of_iterate he
  have hloop : ∀ M, S.tri.nextAtVertex^[M * p] x = x := by
    intro M
    induction M with
    | zero => rw [zero_mul]; rfl
    | succ M ih => rw [Nat.succ_mul, iterate_add_apply, hper x hx, ih]
  have harcs : ∀ M : ℕ, arc S θ x (M * p) = M * ∑ x ∈ V, θ x := by
    intro M
    induction M with
    | zero => rw [zero_mul, arc_zero]; simp
    | succ M ih => rw [Nat.succ_mul, arc_add, hloop, harc x hx, ih]; push_cast; ring
  have hle : m ≤ M * p := hM.trans (Nat.le_mul_of_pos_right M hp)
  obtain ⟨j, hj⟩ := Nat.exists_eq_add_of_le hle
  have hback : S.tri.nextAtVertex^[j] (S.tri.nextAtVertex^[m] x) = x := by
    rw [← iterate_add_apply, add_comm, ← hj, hloop]
  have e1 : arc S θ x m + arc S θ (S.tri.nextAtVertex^[m] x) j = M * ∑ x ∈ V, θ x := by
    rw [← arc_add, ← hj, harcs]
  refine ⟨j + n, ?_, ?_, ?_⟩
  · rw [add_comm, iterate_add_apply, hback]
  · rw [arc_add, hback]; linarith
  · rw [add_assoc, arc_add, hback]; linarith

/-- The corner one ends up in is uniquely determined. -/
theorem Around.unique (h : Around f S V θ) {e e' e'' : HE} (he : e ∈ V) {α : ℝ} (h1 : TurnedInto S θ e α e')
    (h2 : TurnedInto S θ e α e'') : e' = e'' := by
  obtain ⟨M1, h1⟩ := h.forward he h1
  obtain ⟨M2, h2⟩ := h.forward he h2
  obtain ⟨n, rfl, a1, a2⟩ := h1 (max M1 M2) (le_max_left _ _)
  obtain ⟨k, rfl, b1, b2⟩ := h2 (max M1 M2) (le_max_right _ _)
  rcases lt_trichotomy n k with hlt | rfl | hlt
  · exfalso
    rcases Nat.lt_or_ge (n + 1) k with h3 | h3
    · have := h.arc_lt he h3
      linarith
    · have : k = n + 1 := by omega
      subst this; linarith
  · rfl
  · exfalso
    rcases Nat.lt_or_ge (k + 1) n with h3 | h3
    · have := h.arc_lt he h3
      linarith
    · have : n = k + 1 := by omega
      subst this; linarith

/-- A full turn around the vertex. -/
theorem Around.lap (h : Around f S V θ) {e e' : HE} (he : e ∈ V) {α : ℝ} (ht : TurnedInto S θ e α e') :
    TurnedInto S θ e (α - ∑ x ∈ V, θ x) e' := by
  obtain ⟨p, hp, hper, harc⟩ := h.period
  obtain ⟨x, m, n, h1, h2, h3, h4⟩ := ht
  refine ⟨x, m + p, n, ?_, h2, ?_, ?_⟩
  · rw [add_comm, iterate_add_apply, h1, hper e he]
  · rw [arc_add, h1, harc e he]; linarith
  · rw [arc_add, h1, harc e he]; linarith

/-! ### Directions -/

/-- The angles from half edges at a vertex to a direction. -/
def Dir (f : T →+* ℝ) (S : FlatTri T) (V : Finset HE) (v : Vec T) (ρ : HE → ℝ) : Prop :=
  ∀ e ∈ V, 0 ≤ ρ e ∧ ρ e < 2 * π ∧ Turns ((S.vec e).map f) (ρ e) (v.map f)

theorem Around.exists_dir (h : Around f S V θ) {v : Vec T} (hv : v ≠ 0) : ∃ ρ, Dir f S V v ρ := by
  have hρ : ∀ e, ∃ t, e ∈ V → 0 ≤ t ∧ t < 2 * π ∧ Turns ((S.vec e).map f) t (v.map f) := by
    intro e
    by_cases he : e ∈ V
    · obtain ⟨t, h1, h2, h3⟩ := exists_turns (h.vec_ne he) (map_ne_zero f h.mono hv)
      exact ⟨t, fun _ => ⟨h1, h2, h3⟩⟩
    · exact ⟨0, fun hc => absurd hc he⟩
  choose ρ hρ using hρ
  exact ⟨ρ, hρ⟩

variable {v : Vec T} {ρ : HE → ℝ} (A : Option (Approx T K))

theorem Around.gap (h : Around f S V θ) (d : Dir f S V v ρ) {e : HE} (he : e ∈ V) :
    θ e = ρ e - ρ (S.tri.nextAtVertex e) + if S.inSector A e v then 2 * π else 0 := by
  obtain ⟨a1, a2, a3⟩ := d e he
  obtain ⟨b1, b2, b3⟩ := d _ (h.next_mem he)
  obtain ⟨c1, c2⟩ := h.pos he
  have := (h.corners e he).2.2.gap (h.vec_ne he) (h.vec_ne (h.next_mem he)) c1 c2 a3 a1 a2 b3 b1 b2
  simp only [h.cross_neg] at this
  rw [this]
  congr 1
  have hi := inSector_iff A S e v
  change _ ↔ _ ∧ cross (S.vec (S.tri.nextAtVertex e)) v < 0 at hi
  by_cases hs : S.inSector A e v = true
  · rw [if_pos hs, if_pos (hi.1 hs)]
  · rw [if_neg hs, if_neg (fun hc => hs (hi.2 hc))]

/-- A direction is in a sector if it is ahead by less than the angle of the corner. -/
theorem Around.inSector_iff_lt (h : Around f S V θ) (d : Dir f S V v ρ) {e : HE} (he : e ∈ V) :
    S.inSector A e v = true ↔ ρ e < θ e := by
  have hg := h.gap A d he
  obtain ⟨b1, b2, b3⟩ := d _ (h.next_mem he)
  by_cases hs : S.inSector A e v = true
  · rw [if_pos hs] at hg
    exact ⟨fun _ => by linarith, fun _ => hs⟩
  · rw [if_neg hs] at hg
    exact ⟨fun hc => absurd hc hs, fun hc => by linarith⟩

theorem Around.exists_sector (h : Around f S V θ) (hV : V.Nonempty) (hv : v ≠ 0) : ∃ e ∈ V, S.inSector A e v = true := by
  obtain ⟨x, hx⟩ := h.orbit
  have hc := h.flat.cone f h.mono A hx h.nb hv (fun e he => ⟨(h.corners e he).1, (h.corners e he).2.1⟩)
    (fun e he => (h.corners e he).2.2)
  have hpos : 0 < ∑ e ∈ V, θ e := Finset.sum_pos (fun e he => (h.pos he).1) hV
  by_contra hno
  push Not at hno
  rw [Finset.filter_eq_empty_iff.2 fun e he => hno e he] at hc
  rw [hc] at hpos
  simp at hpos

theorem Around.arc_until (h : Around f S V θ) (d : Dir f S V v ρ) {e : HE} (he : e ∈ V) {n : ℕ}
    (hn : ∀ i < n, S.inSector A (S.tri.nextAtVertex^[i] e) v = false) :
    arc S θ e n = ρ e - ρ (S.tri.nextAtVertex^[n] e) := by
  induction n with
  | zero => rw [arc_zero]; simp
  | succ n ih =>
    rw [arc_succ, ih fun i hi => hn i (by omega), h.gap A d (h.iterate_mem he n), hn n (by omega), iterate_succ_apply']
    simp

/-- The first sector in counterclockwise direction. -/
theorem Around.first (h : Around f S V θ) (d : Dir f S V v ρ) {e : HE} (he : e ∈ V) {n : ℕ}
    (hn : ∀ i < n, S.inSector A (S.tri.nextAtVertex^[i] e) v = false)
    (hs : S.inSector A (S.tri.nextAtVertex^[n] e) v = true) : TurnedInto S θ e (ρ e) (S.tri.nextAtVertex^[n] e) := by
  have hm := h.iterate_mem he n
  refine ⟨e, 0, n, rfl, rfl, ?_, ?_⟩
  · rw [h.arc_until A d he hn, arc_zero]
    linarith [(d _ hm).1]
  · rw [arc_succ, h.arc_until A d he hn, arc_zero]
    linarith [(h.inSector_iff_lt A d hm).1 hs]

/-- The second sector in counterclockwise direction. -/
theorem Around.second (h : Around f S V θ) (d : Dir f S V v ρ) {e : HE} (he : e ∈ V) {n : ℕ}
    (h0 : S.inSector A e v = true) (hn : ∀ i < n, S.inSector A (S.tri.nextAtVertex^[i + 1] e) v = false)
    (hs : S.inSector A (S.tri.nextAtVertex^[n + 1] e) v = true) :
    TurnedInto S θ e (ρ e + 2 * π) (S.tri.nextAtVertex^[n + 1] e) := by
  have hm := h.iterate_mem he (n + 1)
  have h1 := h.next_mem he
  have hu : arc S θ e (n + 1) = ρ e + 2 * π - ρ (S.tri.nextAtVertex^[n + 1] e) := by
    rw [add_comm n 1, arc_add, iterate_one, arc_one,
      h.arc_until A d h1 fun i hi => by rw [← iterate_succ_apply]; exact hn i hi, h.gap A d he, if_pos h0,
      add_comm 1 n, iterate_succ_apply]
    ring
  refine ⟨e, 0, n + 1, rfl, rfl, ?_, ?_⟩
  · rw [hu, arc_zero]
    linarith [(d _ hm).1]
  · rw [arc_succ, hu, arc_zero]
    linarith [(h.inSector_iff_lt A d hm).1 hs]

/-- The first sector in clockwise direction, not including the one at the starting point. -/
theorem Around.last (h : Around f S V θ) (d : Dir f S V v ρ) {e : HE} (he : e ∈ V) {n : ℕ}
    (hn : ∀ i < n, S.inSector A (S.tri.previousAtVertex^[i + 1] e) v = false)
    (hs : S.inSector A (S.tri.previousAtVertex^[n + 1] e) v = true) :
    TurnedInto S θ e (ρ e - 2 * π) (S.tri.previousAtVertex^[n + 1] e) := by
  have hm := h.prev_iterate_mem he (n + 1)
  set e' := S.tri.previousAtVertex^[n + 1] e with he'
  have hback : S.tri.nextAtVertex^[n + 1] e' = e := next_prev_iterate h.flat e (n + 1)
  have hmid : ∀ i < n, S.inSector A (S.tri.nextAtVertex^[i] (S.tri.nextAtVertex e')) v = false := by
    intro i hi
    have := hn (n - 1 - i) (by omega)
    have e1 : S.tri.nextAtVertex^[i] (S.tri.nextAtVertex e') = S.tri.previousAtVertex^[n - 1 - i + 1] e := by
      rw [← iterate_succ_apply, he', show n + 1 = (i + 1) + (n - 1 - i + 1) by omega, iterate_add_apply,
        next_prev_iterate h.flat]
    rw [e1]; exact this
  have hu : arc S θ e' (n + 1) = ρ e' + 2 * π - ρ e := by
    rw [add_comm n 1, arc_add, iterate_one, arc_one, h.arc_until A d (h.next_mem hm) hmid, h.gap A d hm, if_pos hs,
      ← iterate_succ_apply, hback]
    ring
  refine ⟨e', n + 1, 0, hback, rfl, ?_, ?_⟩
  · rw [hu, arc_zero]
    linarith [(d _ hm).1]
  · rw [hu, zero_add, arc_one]
    linarith [(h.inSector_iff_lt A d hm).1 hs]

/-! ### Loops -/

theorem walk_eq {next : HE → HE} {condition : HE → Bool} {e : HE} {n : ℕ} (hn : ∀ i < n, condition (next^[i] e) = true)
    (hs : condition (next^[n] e) = false) {fuel : ℕ} (hf : n < fuel) : walk next condition fuel e = some (next^[n] e) := by
  induction fuel generalizing e n with
  | zero => omega
  | succ fuel ih =>
    unfold walk
    cases n with
    | zero =>
      have : condition e = false := hs
      simp [this]
    | succ n =>
      have : condition e = true := hn 0 (by omega)
      rw [if_pos this, ih (n := n) (fun i hi => by rw [← iterate_succ_apply]; exact hn (i + 1) (by omega))
        (by rw [← iterate_succ_apply]; exact hs) (by omega), iterate_succ_apply]

theorem walk_spec {next : HE → HE} {condition : HE → Bool} {e : HE} (h : ∃ n, condition (next^[n] e) = false) :
    ∃ n, (∀ i < n, condition (next^[i] e) = true) ∧ condition (next^[n] e) = false ∧
      ∀ fuel > n, walk next condition fuel e = some (next^[n] e) := by
  classical
  refine ⟨Nat.find h, fun i hi => ?_, Nat.find_spec h, fun fuel hf => walk_eq (fun i hi => ?_) (Nat.find_spec h) hf⟩
  · have := Nat.find_min h hi
    simpa using this
  · have := Nat.find_min h hi
    simpa using this

theorem inSector_eq_clockwise (e : HE) :
    S.inSector A e v = (!S.clockwise A v e && S.clockwise A v (S.tri.nextAtVertex e)) := by
  unfold inSector clockwise
  congr 1
  simp

/-- Walking counterclockwise up to the first sector, from flat_triangulation.cc:815-820. -/
theorem Around.walk_next (h : Around f S V θ) (hv : v ≠ 0) {e : HE} (he : e ∈ V) :
    ∃ n N, (∀ i < n, S.inSector A (S.tri.nextAtVertex^[i] e) v = false) ∧
      S.inSector A (S.tri.nextAtVertex^[n] e) v = true ∧
      ∀ fuel ≥ N, ((walk S.tri.nextAtVertex (S.clockwise A v) fuel e).bind fun start =>
        (walk S.tri.nextAtVertex (fun e => !S.clockwise A v e) fuel start).map fun start =>
          (Except.ok (S.tri.previousAtVertex start) : Except Err HE)) = some (.ok (S.tri.nextAtVertex^[n] e)) := by
  obtain ⟨s, hs, hsec⟩ := h.exists_sector A ⟨e, he⟩ hv
  rw [inSector_eq_clockwise, Bool.and_eq_true, Bool.not_eq_true'] at hsec
  obtain ⟨k, hk⟩ := h.reach he hs
  obtain ⟨m, m1, m2, m3⟩ := walk_spec (next := S.tri.nextAtVertex) (condition := S.clockwise A v) (e := e)
    ⟨k, by rw [hk]; exact hsec.1⟩
  have hm := h.iterate_mem he m
  obtain ⟨k', hk'⟩ := h.reach hm (h.next_mem hs)
  obtain ⟨l, l1, l2, l3⟩ := walk_spec (next := S.tri.nextAtVertex) (condition := fun e => !S.clockwise A v e)
    (e := S.tri.nextAtVertex^[m] e) ⟨k', by rw [hk', hsec.2]; rfl⟩
  cases l with
  | zero =>
    change (!S.clockwise A v (S.tri.nextAtVertex^[m] e)) = false at l2
    rw [m2] at l2
    cases l2
  | succ l =>
    have ell : ∀ i, S.tri.nextAtVertex^[i] (S.tri.nextAtVertex^[m] e) = S.tri.nextAtVertex^[i + m] e := fun i =>
      (iterate_add_apply _ _ _ _).symm
    have l1' : ∀ i < l + 1, S.clockwise A v (S.tri.nextAtVertex^[i + m] e) = false := by
      intro i hi
      have := l1 i hi
      rw [ell] at this
      simpa using this
    have l2' : S.clockwise A v (S.tri.nextAtVertex^[l + 1 + m] e) = true := by
      have := l2
      rw [ell] at this
      simpa using this
    refine ⟨l + m, max m (l + 1) + 1, ?_, ?_, ?_⟩
    · intro i hi
      rw [inSector_eq_clockwise]
      by_cases hi' : i < m
      · rw [m1 i hi']; rfl
      · have := l1' (i + 1 - m) (by omega)
        rw [show i + 1 - m + m = i + 1 by omega, iterate_succ_apply'] at this
        rw [this, Bool.and_false]
    · rw [inSector_eq_clockwise, l1' l (by omega), ← iterate_succ_apply' S.tri.nextAtVertex,
        show (l + m).succ = l + 1 + m by omega, l2']
      rfl
    · intro fuel hfuel
      rw [m3 fuel (by omega)]
      change Option.map _ (walk _ _ fuel _) = _
      rw [l3 fuel (by omega), Option.map_some, ell, show l + 1 + m = (l + m) + 1 by omega, iterate_succ_apply',
        prev_next h.flat]

/-- Walking clockwise up to the first sector, from flat_triangulation.cc:821-826. -/
theorem Around.walk_prev (h : Around f S V θ) (hv : v ≠ 0) {e : HE} (he : e ∈ V) :
    ∃ n N, (∀ i < n, S.inSector A (S.tri.previousAtVertex^[i] e) v = false) ∧
      S.inSector A (S.tri.previousAtVertex^[n] e) v = true ∧
      ∀ fuel ≥ N, ((walk S.tri.previousAtVertex (fun e => !S.clockwise A v e) fuel (S.tri.nextAtVertex e)).bind
        fun start => (walk S.tri.previousAtVertex (S.clockwise A v) fuel start).map
          (Except.ok : HE → Except Err HE)) = some (.ok (S.tri.previousAtVertex^[n] e)) := by
  obtain ⟨s, hs, hsec⟩ := h.exists_sector A ⟨e, he⟩ hv
  rw [inSector_eq_clockwise, Bool.and_eq_true, Bool.not_eq_true'] at hsec
  have he1 := h.next_mem he
  obtain ⟨k, hk⟩ := h.reach_prev he1 (h.next_mem hs)
  obtain ⟨m, m1, m2, m3⟩ := walk_spec (next := S.tri.previousAtVertex) (condition := fun e => !S.clockwise A v e)
    (e := S.tri.nextAtVertex e) ⟨k, by rw [hk, hsec.2]; rfl⟩
  have hm := h.prev_iterate_mem he1 m
  obtain ⟨k', hk'⟩ := h.reach_prev hm hs
  obtain ⟨l, l1, l2, l3⟩ := walk_spec (next := S.tri.previousAtVertex) (condition := S.clockwise A v)
    (e := S.tri.previousAtVertex^[m] (S.tri.nextAtVertex e)) ⟨k', by rw [hk']; exact hsec.1⟩
  have m2' : S.clockwise A v (S.tri.previousAtVertex^[m] (S.tri.nextAtVertex e)) = true := by simpa using m2
  cases l with
  | zero =>
    change S.clockwise A v (S.tri.previousAtVertex^[m] (S.tri.nextAtVertex e)) = false at l2
    rw [l2] at m2'
    cases m2'
  | succ l =>
    -- the half edges that come one step later
    have enext : ∀ i, S.tri.nextAtVertex (S.tri.previousAtVertex^[i] e) =
        S.tri.previousAtVertex^[i] (S.tri.nextAtVertex e) := by
      intro i
      have : S.tri.previousAtVertex^[i + 1] (S.tri.nextAtVertex e) = S.tri.previousAtVertex^[i] e := by
        rw [iterate_succ_apply, prev_next h.flat]
      rw [← this, iterate_succ_apply', next_prev h.flat]
    have ell : ∀ i, S.tri.previousAtVertex^[i] (S.tri.previousAtVertex^[m] (S.tri.nextAtVertex e)) =
        S.tri.previousAtVertex^[i + m] (S.tri.nextAtVertex e) := fun i => (iterate_add_apply _ _ _ _).symm
    have eshift : ∀ i, S.tri.previousAtVertex^[i + 1] (S.tri.nextAtVertex e) = S.tri.previousAtVertex^[i] e := by
      intro i
      rw [iterate_succ_apply, prev_next h.flat]
    have l1' : ∀ i < l + 1, S.clockwise A v (S.tri.previousAtVertex^[i + m] (S.tri.nextAtVertex e)) = true := by
      intro i hi
      have := l1 i hi
      rwa [ell] at this
    have l2' : S.clockwise A v (S.tri.previousAtVertex^[l + 1 + m] (S.tri.nextAtVertex e)) = false := by
      have := l2
      rwa [ell] at this
    refine ⟨l + m, max m (l + 1) + 1, ?_, ?_, ?_⟩
    · intro i hi
      rw [inSector_eq_clockwise, enext]
      by_cases hi' : i < m
      · have := m1 i hi'
        rw [Bool.not_eq_true'] at this
        rw [this, Bool.and_false]
      · have := l1' (i + 1 - m) (by omega)
        rw [show i + 1 - m + m = i + 1 by omega, eshift] at this
        rw [this]; rfl
    · rw [inSector_eq_clockwise, enext, l1' l (by omega), ← eshift, show l + m + 1 = l + 1 + m by omega, l2']
      rfl
    · intro fuel hfuel
      rw [m3 fuel (by omega)]
      change Option.map _ (walk _ _ fuel _) = _
      rw [l3 fuel (by omega), Option.map_some, ell, show l + 1 + m = (l + m) + 1 by omega, eshift]

end Verif.FlatTri
