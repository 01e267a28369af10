import Verif.Lemmas.CollapsedSquash

/-!
# Vertical half edges turn into connections
-/

set_option linter.unusedSectionVars false

namespace Verif.Net

open Verif Vec

variable {T : Type} [CommRing T] [LinearOrder T] [IsStrictOrderedRing T]
variable {v : Vec T} {N N' : Net T} {e x t c u z : HE}

/-- The vector if it is vertical. -/
def ifVertical (v w : Vec T) : Multiset (Vec T) := if cross w v = 0 then {w} else 0

/-- The vectors of the vertical half edges. -/
def verticals (v : Vec T) (N : Net T) : Multiset (Vec T) := ∑ z ∈ N.L, ifVertical v (N.vec z)

theorem ifVertical_zero {w : Vec T} (h : cross w v ≠ 0) : ifVertical v w = 0 := if_neg h

theorem Thin.verticals_eq (h : Thin v N e x t) : N.verticals v = N.vec e ::ₘ ∑ z ∈ N.L.erase e, ifVertical v (N.vec z) := by
  unfold verticals
  rw [← Finset.add_sum_erase _ _ h.mem, ifVertical, if_pos h.vertical, Multiset.singleton_add]

theorem Thin.cross_t_ne (h : Thin v N e x t) : cross (N.vec t) v ≠ 0 := by
  rw [h.cross_t]
  exact neg_ne_zero.2 h.cross_x

theorem Squeezed.verticals_eq (h : Thin v N e x t) {ρ : HE → HE} (s : Squeezed N N' e x t ρ) :
    N.verticals v = N.vec e ::ₘ N'.verticals v := by
  rw [h.verticals_eq]
  congr 1
  rw [← Finset.sum_erase (a := x) _ (ifVertical_zero h.cross_x), ← Finset.sum_erase (a := t) _ (ifVertical_zero h.cross_t_ne)]
  unfold verticals
  have mem : ∀ z, z ∈ ((N.L.erase e).erase x).erase t ↔ N.Away e x t z := by
    intro z
    simp only [Finset.mem_erase, Away]
    tauto
  refine Finset.sum_nbij ρ (fun z hz => s.mem z ((mem z).1 hz)) ?_ ?_ ?_
  · intro z hz w hw k
    exact s.inj z w ((mem z).1 hz) ((mem w).1 hw) k
  · intro y hy
    obtain ⟨z, hz, rfl⟩ := s.surj y hy
    exact ⟨z, (mem z).2 hz, rfl⟩
  · intro z hz
    rw [s.vec z ((mem z).1 hz)]

theorem Pinched.verticals_eq (h : Thin v N e x t) (s : Pinched N N' e x t) : N.verticals v = N.vec e ::ₘ N'.verticals v := by
  rw [h.verticals_eq]
  congr 1
  unfold verticals
  rw [s.L]
  refine Finset.sum_congr rfl fun z hz => ?_
  obtain ⟨z1, z2⟩ := Finset.mem_erase.1 hz
  by_cases k : z = x
  · rw [k, ifVertical_zero h.cross_x, s.vec_x, ifVertical_zero]
    rw [cross_neg_left]
    exact neg_ne_zero.2 h.cross_t_ne
  · rw [s.vec z z2 z1 k]

theorem Gadget.squash_verticals (g : Gadget v N e x t c u) :
    N.verticals v = N.vec e ::ₘ N.vec (neg e) ::ₘ (N.squash e x t c u).verticals v := by
  have h := g.half
  have h1 : N.verticals v = N.vec e ::ₘ (N.squashLeft e x t).verticals v := by
    unfold squashLeft
    split_ifs with k
    · exact g.left.pinch.verticals_eq g.left
    · exact (g.left.dropX k).verticals_eq g.left
  rw [h1, ← h.vec]
  congr 1
  unfold squash squashRight
  split_ifs with k
  · exact h.thin.pinch.verticals_eq h.thin
  · exact (h.thin.dropT k).verticals_eq h.thin

theorem Renamed.verticals_eq {σ : Equiv.Perm ℕ} (r : Renamed N N' σ) : N'.verticals v = N.verticals v := by
  unfold verticals
  rw [r.sum_eq]
  exact Finset.sum_congr rfl fun z hz => by rw [r.vec z hz]

end Verif.Net
