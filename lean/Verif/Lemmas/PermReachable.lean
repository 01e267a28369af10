import Verif.Lemmas.Permutation
import Verif.Spec.Permutation

namespace Verif.Perm

theorem mul_wf {p q r : Perm} (hp : p.WF) (hq : q.WF) (h : p.mul q = .ok r) : r.WF := by
  by_cases hs : p.size = q.size
  · obtain ⟨r', h1, h2, -⟩ := Perm.mul_spec hp hq hs
    rw [h] at h1
    cases h1
    exact h2
  · unfold Perm.mul at h
    rw [if_pos hs] at h
    cases h

theorem Reachable.wf {p : Perm} (h : Reachable p) : p.WF := by
  induction h with
  | ofImages h => exact (Perm.ofImages_ok h).1
  | ofPairs h => exact (Perm.ofPairs_ok h).1
  | ofCycles h => exact (Perm.ofCycles_ok h).1
  | mulCycle _ h ih => exact (Perm.mulCycle_spec ih h).choose
  | cycleMul _ h ih => exact (Perm.cycleMul_spec ih h).choose
  | mul _ _ h ih1 ih2 => exact mul_wf ih1 ih2 h
  | inverse _ h ih =>
    obtain ⟨q, h1, h2, -⟩ := Perm.inverse_spec ih
    rw [h] at h1
    cases h1
    exact h2

theorem reachable_of_wf {p : Perm} (h : p.WF) : Reachable p := by
  obtain ⟨q, h1, h2, h3, h4⟩ := ofImages_map_range (p := p) (f := p.fwd) (fun i j h' => h.inj h')
    (fun i hi => h.fwd_lt.2 hi) (fun i hi => h.out i hi)
  have : q = p := h2.ext h h3 fun i _ => h4 i
  rw [this] at h1
  exact .ofImages h1

/-- The reachable permutations are all bijections. -/
theorem reachable_iff {p : Perm} : Reachable p ↔ p.WF := ⟨Reachable.wf, reachable_of_wf⟩

end Verif.Perm
