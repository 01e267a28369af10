import Verif.Props.C17
import Verif.Props.C44

/-!
# C45: vertical caches never go stale
-/

namespace Verif.C45

open Verif Spec Tri FlatTri Vec Vertical Examples

variable {T : Type} [CommRing T] [LinearOrder T] [IsStrictOrderedRing T]
variable {K : Type*} [Field K] [LinearOrder K] [IsStrictOrderedRing K]

/-- Operations only use half edges of the surface, and we only flip half edges with faces on both sides. (Such flips may
throw.) -/
def Legal (S : FlatTri T) : Op → Prop
  | .flip e => e ∈ S.tri.halfEdges ∧ S.tri.boundary e = false ∧ S.tri.boundary (neg e) = false
  | .projectPerpendicular e | .project e | .orientation e | .ccw e | .large e => e ∈ S.tri.halfEdges

theorem Sound.step (A : Option (Approx T K)) {dbg : Bool} {S : FlatTri T} (h : S.tri.Reachable dbg) (hf : IsFlat S)
    {v : Vec T} {V : Vertical T} (hV : Sound A S v V) {op : Op} (ho : Legal S op) :
    let s := step A dbg (S, V) op
    s.1.tri.Reachable dbg ∧ IsFlat s.1 ∧ s.1.tri.halfEdges = S.tri.halfEdges ∧
      (∀ e, s.1.tri.boundary e = S.tri.boundary e) ∧ Sound A s.1 v s.2 := by
  have hF := IsFlat.flat h hf
  cases op with
  | flip e =>
    obtain ⟨h1, h2, h3⟩ := ho
    have q := hF.coh.quad (hF.flippable (boundary_false.1 h2) (boundary_false.1 h3))
    by_cases hc : S.convex A e true = true
    · obtain ⟨S', g1, g2, g3⟩ := hF.flip_flip A dbg q hc
      obtain ⟨k1, k2, -, k4, k5, -⟩ := C17.flips_flat A h hf (S' := S') (es := [e]) (by
        unfold FlatTri.flips
        rw [g1]
        rfl)
      unfold Vertical.step
      simp only [g1]
      exact ⟨k1, k2, k4, k5, Sound.afterFlip hF q g3 (IsFlat.flat k1 k2) hV⟩
    · have g1 : S.flip A dbg e = (S, .error .invalidArgument) := by
        unfold FlatTri.flip
        rw [if_neg (not_le.2 (mem_halfEdges.1 h1))]
        simp [hc]
      unfold Vertical.step
      simp only [g1]
      exact ⟨h, hf, trivial, fun _ => trivial, hV⟩
  | projectPerpendicular e =>
    exact ⟨h, hf, rfl, fun _ => rfl, (perpendicular_answers hF (mem_halfEdges.1 ho) V hV).2⟩
  | project e => exact ⟨h, hf, rfl, fun _ => rfl, (parallel_answers hF (mem_halfEdges.1 ho) V hV).2⟩
  | orientation e => exact ⟨h, hf, rfl, fun _ => rfl, (orientation_answers hF (mem_halfEdges.1 ho) V hV).2⟩
  | ccw e => exact ⟨h, hf, rfl, fun _ => rfl, (ccw_answers hF (mem_halfEdges.1 ho) V hV).2⟩
  | large e => exact ⟨h, hf, rfl, fun _ => rfl, (large_answers hF (mem_halfEdges.1 ho) V hV).2⟩

theorem Sound.run (A : Option (Approx T K)) {dbg : Bool} {S : FlatTri T} (h : S.tri.Reachable dbg) (hf : IsFlat S)
    {v : Vec T} {V : Vertical T} (hV : Sound A S v V) {ops : List Op} (ho : ∀ op ∈ ops, Legal S op) :
    let s := run A dbg (S, V) ops
    s.1.tri.Reachable dbg ∧ IsFlat s.1 ∧ s.1.tri.halfEdges = S.tri.halfEdges ∧ Sound A s.1 v s.2 := by
  induction ops generalizing S V with
  | nil => exact ⟨h, hf, rfl, hV⟩
  | cons op ops ih =>
    obtain ⟨h1, h2, h3, h4, h5⟩ := Sound.step A h hf hV (ho op (by simp))
    have := ih h1 h2 h5 fun op' hop' => by
      have := ho op' (List.mem_cons_of_mem _ hop')
      cases op' <;> simp only [Legal, h3, h4] at this ⊢ <;> exact this
    unfold Vertical.run at *
    simp only [List.foldl_cons]
    exact ⟨this.1, this.2.1, this.2.2.1.trans h3, this.2.2.2⟩

/-- After any history of flips and queries, what a vertical returns is the value for the current surface. -/
theorem answers_correct (A : Option (Approx T K)) {dbg : Bool} {S S' : FlatTri T} (h : S.tri.Reachable dbg)
    (hf : IsFlat S) {v : Vec T} {V V' : Vertical T} (hV : Vertical.make v = .ok V) {ops : List Op}
    (ho : ∀ op ∈ ops, Legal S op) (hr : run A dbg (S, V) ops = (S', V')) {e : HE} (he : e ∈ S.tri.halfEdges) :
    ((largeAt S' e V').1 = true ↔ IsLarge S' v e) ∧
    (projectPerpendicularAt S' e V').1 = cross (S'.vec e) v ∧
    (projectAt S' e V').1 = dot v (S'.vec e) ∧
    (ccwAt S' A e V').1 = Vec.ccw A v (S'.vec e) ∧
    (A = none ∨ dot v (S'.vec e) ≠ 0 → (orientationAt S' A e V').1 = Vec.orientation A v (S'.vec e)) := by
  obtain ⟨h1, h2, h3, h4⟩ := Sound.run A h hf (sound_make hV) ho
  rw [hr] at h1 h2 h3 h4
  have hF := IsFlat.flat h1 h2
  rw [← h3] at he
  have he' := mem_halfEdges.1 he
  refine ⟨(large_answers hF he' V' h4).1, (perpendicular_answers hF he' V' h4).1, (parallel_answers hF he' V' h4).1, ?_, ?_⟩
  · rw [ccw_eq]
    exact (ccw_answers hF he' V' h4).1
  · intro hx
    rw [orientation_exact A hx]
    exact (orientation_answers hF he' V' h4).1 hx

/-- After any history of flips and queries, a vertical answers in the same way as a new one. -/
theorem never_stale (A : Option (Approx T K)) {dbg : Bool} {S S' : FlatTri T} (h : S.tri.Reachable dbg)
    (hf : IsFlat S) {v : Vec T} {V V' : Vertical T} (hV : Vertical.make v = .ok V) {ops : List Op}
    (ho : ∀ op ∈ ops, Legal S op) (hr : run A dbg (S, V) ops = (S', V')) {e : HE} (he : e ∈ S.tri.halfEdges) :
    (largeAt S' e V').1 = (largeAt S' e V).1 ∧
    (projectPerpendicularAt S' e V').1 = (projectPerpendicularAt S' e V).1 ∧
    (projectAt S' e V').1 = (projectAt S' e V).1 ∧
    (ccwAt S' A e V').1 = (ccwAt S' A e V).1 ∧
    (A = none ∨ dot v (S'.vec e) ≠ 0 → (orientationAt S' A e V').1 = (orientationAt S' A e V).1) := by
  obtain ⟨a1, a2, a3, a4, a5⟩ := answers_correct A h hf hV ho hr he
  obtain ⟨h1, h2, h3, -⟩ := Sound.run A h hf (sound_make hV) ho
  rw [hr] at h1 h2 h3
  rw [← h3] at he
  obtain ⟨b1, b2, b3, b4, b5⟩ := answers_correct A h1 h2 hV (ops := []) (S' := S') (V' := V) (by simp) rfl he
  refine ⟨?_, a2.trans b2.symm, a3.trans b3.symm, a4.trans b4.symm, fun hx => (a5 hx).trans (b5 hx).symm⟩
  rw [Bool.eq_iff_iff, a1, b1]

/-! ### A concrete case -/

/-- A history in which a query fills a cache, and a flip changes the answer. -/
example : (∀ op ∈ [Op.large 4, .ccw 4, .flip 4, .large 0], Legal flatTorus op) ∧ ∃ V S' V',
    Vertical.make (⟨1, 3⟩ : Vec ℤ) = .ok V ∧
    run (none : Option (Approx ℤ ℚ)) true (flatTorus, V) [.large 4, .ccw 4, .flip 4, .large 0] = (S', V') ∧
    (largeAt flatTorus 0 V).1 = true ∧ (largeAt S' 0 V').1 = false ∧ (largeAt S' 4 V').1 = true := by
  refine ⟨by simp only [List.mem_cons, List.not_mem_nil, or_false, forall_eq_or_imp, forall_eq, Legal]; decide, _, _, _, rfl,
    rfl, ?_⟩
  decide +kernel

end Verif.C45
