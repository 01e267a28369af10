import Verif.Lemmas.Cone
import Verif.Lemmas.FlatExamples
import Verif.Props.C06

/-!
# C20: Cone angles are positive integers that add up
-/

namespace Verif.C20

open Verif Spec Tri FlatTri Examples Vec Real

variable {T : Type} [CommRing T] [LinearOrder T] [IsStrictOrderedRing T]

/-- The angle at a vertex, reported by `angle` as a multiple of 2π, is the sum of the angles between consecutive half
edges at the vertex. -/
theorem angle_correct (f : T →+* ℝ) (hf : StrictMono f) {dbg : Bool} {S : FlatTri T} (h : S.tri.Reachable dbg)
    (hS : IsFlat S) {V : Finset HE} (hV : V ∈ S.tri.vertexes) (hb : ∀ e ∈ V, S.tri.boundary e = false) :
    ∃ k N, (∀ fuel ≥ N, S.angle fuel V = some k) ∧ 1 ≤ k ∧
      ∀ θ : HE → ℝ, Corners f S V θ → ∑ e ∈ V, θ e = k * (2 * π) := by
  have hF := IsFlat.flat h hS
  obtain ⟨x, hx, hV'⟩ := hF.ver.orbit V hV
  obtain ⟨N, hN⟩ := angle_eq (none : Option (Approx T ℚ)) hF.coh.hv hV'
  have key : ∀ θ : HE → ℝ, Corners f S V θ →
      ∑ e ∈ V, θ e = (V.filter fun e => S.inSector (none : Option (Approx T ℚ)) e ⟨0, 1⟩).card * (2 * π) := by
    intro θ hθ
    rw [hF.cone f hf (none : Option (Approx T ℚ)) hV' (fun e he => boundary_false.1 (hb e he)) (v := ⟨0, 1⟩) (by simp [Vec.ext_iff])
      (fun e he => ⟨(hθ e he).1, (hθ e he).2.1⟩) (fun e he => (hθ e he).2.2), mul_comm]
  refine ⟨_, N, hN, ?_, key⟩
  obtain ⟨θ, hθ⟩ := hF.exists_corners hf hV' fun e he => boundary_false.1 (hb e he)
  have hsum := key θ hθ
  have hpos : 0 < ∑ e ∈ V, θ e := by
    refine Finset.sum_pos (fun e he => ?_) ⟨x, (hV' x).2 (Perm.Orb.refl _ x)⟩
    have hbe := boundary_false.1 (hb e he)
    refine ((hθ e he).2.2.lt_pi (map_ne_zero f hf (hF.vec_ne hbe)) (hθ e he).1 (hθ e he).2.1 ?_).1
    rw [cross_map, ← map_zero f, hf.lt_iff_lt]
    exact (hF.corner hbe).2
  by_contra hk
  rw [not_le, Nat.lt_one_iff] at hk
  rw [hsum, hk] at hpos
  simp at hpos

/-- The angles in a triangle add up to π. -/
theorem triangle_angles {a b c : Vec ℝ} (ha : a ≠ 0) (hb : b ≠ 0) (hc : c ≠ 0) {α β γ : ℝ}
    (h1 : Turns a α (-c)) (h2 : Turns b β (-a)) (h3 : Turns c γ (-b)) (p1 : 0 < cross a (-c)) (p2 : 0 < cross b (-a))
    (p3 : 0 < cross c (-b)) (q1 : 0 ≤ α ∧ α < 2 * π) (q2 : 0 ≤ β ∧ β < 2 * π) (q3 : 0 ≤ γ ∧ γ < 2 * π) :
    α + β + γ = π := by
  have r1 := h1.lt_pi ha q1.1 q1.2 p1
  have r2 := h2.lt_pi hb q2.1 q2.2 p2
  have r3 := h3.lt_pi hc q3.1 q3.2 p3
  have h4 : Turns (-c) γ b := by
    have := h3.neg
    rwa [neg_neg] at this
  have h5 := (h1.trans h4).trans h2
  have := turns_opposite ha (by linarith) (by linarith) h5
  linarith

/-- On closed surfaces, twice the sum of the angles is the number of faces. -/
theorem gauss_bonnet (f : T →+* ℝ) (hf : StrictMono f) {dbg : Bool} {S : FlatTri T} (h : S.tri.Reachable dbg)
    (hS : IsFlat S) (hb : S.tri.hasBoundary = false) :
    ∃ N, ∀ fuel ≥ N, ∃ k : Finset HE → ℕ, (∀ V ∈ S.tri.vertexes, S.angle fuel V = some (k V) ∧ 1 ≤ k V) ∧
      2 * (S.tri.vertexes.map k).sum = C06.faceCount S.tri := by
  have hF := IsFlat.flat h hS
  have hbd := hasBoundary_false.1 hb
  have hVlt : ∀ V ∈ S.tri.vertexes, ∀ e ∈ V, e < S.tri.size := by
    intro V hV e he
    obtain ⟨x, hx, hV'⟩ := hF.ver.orbit V hV
    exact ((hV' e).1 he).lt hF.coh.hv hx
  have hang : ∀ V, ∃ k N, V ∈ S.tri.vertexes → (∀ fuel ≥ N, S.angle fuel V = some k) ∧ 1 ≤ k ∧
      ∀ θ : HE → ℝ, Corners f S V θ → ∑ e ∈ V, θ e = k * (2 * π) := by
    intro V
    by_cases hV : V ∈ S.tri.vertexes
    · obtain ⟨k, N, h1⟩ := angle_correct f hf h hS hV fun e he => boundary_false.2 (hbd e (hVlt V hV e he))
      exact ⟨k, N, fun _ => h1⟩
    · exact ⟨0, 0, fun hc => absurd hc hV⟩
  choose k N hang using hang
  have hne : ∀ e < S.tri.size, (S.vec e).map f ≠ 0 := fun e he => map_ne_zero f hf (hF.vec_ne (hbd e he))
  have hθ : ∀ e, ∃ t, e < S.tri.size → 0 ≤ t ∧ t < 2 * π ∧
      Turns ((S.vec e).map f) t ((S.vec (S.tri.nextAtVertex e)).map f) := by
    intro e
    by_cases he : e < S.tri.size
    · obtain ⟨t, h1, h2, h3⟩ := exists_turns (hne e he) (hne _ (hF.coh.hv.fwd_lt.2 he))
      exact ⟨t, fun _ => ⟨h1, h2, h3⟩⟩
    · exact ⟨0, fun hc => absurd hc he⟩
  choose θ hθ using hθ
  obtain ⟨M, hM⟩ : ∃ M, ∀ V ∈ S.tri.vertexes, N V ≤ M := by
    refine ⟨(S.tri.vertexes.map N).sum, fun V hV => ?_⟩
    exact List.single_le_sum (by simp) _ (List.mem_map_of_mem hV)
  refine ⟨M, fun fuel hfuel => ⟨k, fun V hV => ⟨(hang V hV).1 fuel ((hM V hV).trans hfuel), (hang V hV).2.1⟩, ?_⟩⟩
  -- the sum of all angles, by vertices
  have s1 : ∑ e ∈ Finset.range S.tri.size, θ e = ((S.tri.vertexes.map k).sum : ℝ) * (2 * π) := by
    rw [← hF.ver.sum hF.coh θ]
    have : (S.tri.vertexes.map fun V => ∑ e ∈ V, θ e) = S.tri.vertexes.map fun V => (k V : ℝ) * (2 * π) :=
      List.map_congr_left fun V hV => (hang V hV).2.2 θ fun e he => hθ e (hVlt V hV e he)
    rw [this, List.sum_map_mul_right]
    congr 1
    rw [Nat.cast_list_sum, List.map_map]
    rfl
  -- the sum of all angles, by faces
  have s2 : 3 * ∑ e ∈ Finset.range S.tri.size, θ e = S.tri.size * π := by
    have e1 := sum_fwd hF.coh.hf hF.coh.hs.le θ
    have e2 := sum_fwd hF.coh.hf hF.coh.hs.le fun e => θ (S.tri.faces.fwd e)
    have e3 : ∀ e ∈ Finset.range S.tri.size,
        θ e + θ (S.tri.faces.fwd e) + θ (S.tri.faces.fwd (S.tri.faces.fwd e)) = π := by
      intro e he
      rw [Finset.mem_range] at he
      have b0 := hbd e he
      have b1 := hF.fwd_ne b0
      have b2 := hF.fwd_ne b1
      have l1 := hF.coh.lt_of_not_boundary b1
      have l2 := hF.coh.lt_of_not_boundary b2
      have i0 : S.tri.faces.inv e = S.tri.faces.fwd (S.tri.faces.fwd e) := by
        rw [← hF.coh.hf.left (S.tri.faces.fwd (S.tri.faces.fwd e)), hF.coh.tri]
      have v0 : S.vec (S.tri.vertices.fwd e) = -S.vec (S.tri.faces.fwd (S.tri.faces.fwd e)) := by
        rw [hF.coh.link' b0, i0, hF.odd _ l2]
      have v1 : S.vec (S.tri.vertices.fwd (S.tri.faces.fwd e)) = -S.vec e := by
        rw [hF.coh.link' b1, hF.coh.hf.left, hF.odd _ he]
      have v2 : S.vec (S.tri.vertices.fwd (S.tri.faces.fwd (S.tri.faces.fwd e))) = -S.vec (S.tri.faces.fwd e) := by
        rw [hF.coh.link' b2, hF.coh.hf.left, hF.odd _ l1]
      have mn : ∀ v : Vec T, (-v).map f = -(v.map f) := fun v => by ext <;> simp [Vec.map]
      have c0 := hF.corner b0
      have c1 := hF.corner b1
      have c2 := hF.corner b2
      have t0 := hθ e he
      have t1 := hθ _ l1
      have t2 := hθ _ l2
      unfold Tri.nextAtVertex at t0 t1 t2
      rw [v0] at c0 t0
      rw [v1] at c1 t1
      rw [v2] at c2 t2
      rw [mn] at t0 t1 t2
      have pos : ∀ {u w : Vec T}, 0 < cross u (-w) → 0 < cross (u.map f) (-(w.map f)) := by
        intro u w hx
        rw [← mn, cross_map, ← map_zero f, hf.lt_iff_lt]
        exact hx
      exact triangle_angles (hne e he) (hne _ l1) (hne _ l2) t0.2.2 t1.2.2 t2.2.2 (pos c0.2) (pos c1.2) (pos c2.2)
        ⟨t0.1, t0.2.1⟩ ⟨t1.1, t1.2.1⟩ ⟨t2.1, t2.2.1⟩
    have e4 := Finset.sum_congr rfl e3
    rw [Finset.sum_add_distrib, Finset.sum_add_distrib, Finset.sum_const, Finset.card_range, nsmul_eq_mul, e2, e1] at e4
    linarith
  have hfc := C06.faceCount_spec hF.coh
  have hfil : ((List.range S.tri.size).filter fun x => !S.tri.boundary x).length = S.tri.size := by
    rw [List.filter_eq_self.2, List.length_range]
    intro e he
    rw [List.mem_range] at he
    rw [boundary_false.2 (hbd e he)]; rfl
  rw [hfil] at hfc
  have hfc' : (3 : ℝ) * C06.faceCount S.tri = S.tri.size := by exact_mod_cast hfc
  rw [s1, ← hfc'] at s2
  have hpi := pi_pos
  have : (2 : ℝ) * ((S.tri.vertexes.map k).sum : ℝ) = C06.faceCount S.tri := by
    have h3 : (3 * π) * ((2 : ℝ) * ((S.tri.vertexes.map k).sum : ℝ) - C06.faceCount S.tri) = 0 := by linear_combination s2
    rcases mul_eq_zero.1 h3 with h4 | h4
    · linarith
    · linarith
  exact_mod_cast this

/-- The torus has one vertex of angle 2π, the L-shaped surface has a vertex of angle 6π. -/
example : IsFlat flatTorus ∧ flatTorus.tri.hasBoundary = false ∧ flatTorus.tri.vertexes.map (flatTorus.angle 10) = [some 1] ∧
    IsFlat flatEll ∧ flatEll.tri.hasBoundary = false ∧ flatEll.tri.vertexes.map (flatEll.angle 20) = [some 3] :=
  ⟨flatTorus_isFlat, by decide +kernel, by decide +kernel, flatEll_isFlat, by decide +kernel, by decide +kernel⟩

/-- The integers are real numbers. -/
example : StrictMono (Int.castRingHom ℝ) := Int.cast_strictMono

end Verif.C20
