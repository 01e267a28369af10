import Verif.Lemmas.PermReachable

/-!
# C04: cycles() is a faithful description of a permutation
-/

namespace Verif.C04

open Verif Spec Perm

/-- `cycles()` terminates, lists each element of the domain exactly once, in non-empty cycles which follow the
permutation, and rebuilding a permutation from them gives the same permutation. -/
theorem cycles_faithful {p : Perm} (hp : Reachable p) :
    ∃ cs, p.cycles = some cs ∧
      (∀ i, cs.flatten.count i = if i < p.size then 1 else 0) ∧
      (∀ c ∈ cs, c ≠ [] ∧ ∀ i (hi : i < c.length),
        p.fwd c[i] = c[(i + 1) % c.length]'(Nat.mod_lt _ (by omega))) ∧
      Perm.ofCycles cs = .ok p := by
  obtain ⟨cs, h1, h2, h3⟩ := Perm.cycles_spec hp.wf
  refine ⟨cs, h1, fun i => ?_, fun c hc => ⟨(h2 c hc).1, (h2 c hc).2.2⟩, Perm.ofCycles_cycles hp.wf h2 h3⟩
  rw [h3.count_eq]
  split_ifs with h
  · exact List.count_eq_one_of_mem List.nodup_range (List.mem_range.2 h)
  · exact List.count_eq_zero_of_not_mem fun hc => h (List.mem_range.1 hc)

example : ∃ p, Reachable p ∧ p.cycles = some [[2, 3, 0], [1]] :=
  ⟨_, .ofCycles (cs := [[0, 2, 3], [1]]) rfl, by decide⟩

/-- `cycle(first)` is the orbit of `first`, starting with `first`. -/
theorem cycle_orbit {p : Perm} (hp : Reachable p) {s : ℕ} (hs : s < p.size) :
    ∃ c, p.cycle s = some c ∧ c.Nodup ∧ c.head? = some s ∧ ∀ x, x ∈ c ↔ ∃ k, p.fwd^[k] s = x := by
  obtain ⟨c, h1, h2, h3, h4⟩ := Perm.cycle_spec hp.wf hs
  exact ⟨c, h1, h2.2.1, h3, h4⟩

example : ∃ p, Reachable p ∧ 2 < p.size ∧ p.cycle 2 = some [2, 3, 0] :=
  ⟨_, .ofCycles (cs := [[0, 2, 3], [1]]) rfl, by decide, by decide⟩

/-- Two permutations compare equal iff they have the same domain and the same images. -/
theorem beq_iff {p q : Perm} (hp : Reachable p) (hq : Reachable q) :
    p.beq q = true ↔ p.size = q.size ∧ ∀ i < p.size, p.fwd i = q.fwd i := by
  rw [Perm.beq_iff hp.wf hq.wf]
  constructor
  · rintro rfl; exact ⟨rfl, fun _ _ => rfl⟩
  · rintro ⟨h1, h2⟩; exact hp.wf.ext hq.wf h1 h2

theorem trivial_iff {p : Perm} (hp : Reachable p) : p.trivial = true ↔ ∀ i < p.size, p.fwd i = i :=
  Perm.trivial_iff hp.wf

example : ∃ p, Reachable p ∧ p.trivial = false := ⟨_, .ofCycles (cs := [[0, 2, 3], [1]]) rfl, by decide⟩

end Verif.C04
