import Verif.Model.HalfEdge
import Mathlib.Tactic.Ring
import Mathlib.Algebra.Group.End

namespace Verif

theorem neg_def (e : HE) : neg e = if e % 2 = 0 then e + 1 else e - 1 := by
  unfold neg
  have h1 : (e ^^^ 1) / 2 = e / 2 := by rw [Nat.xor_div_two]; simp
  have h2 : (e ^^^ 1) % 2 = (e + 1) % 2 := by
    have := Nat.xor_mod_two_pow (a := e) (b := 1) (n := 1)
    simp only [pow_one] at this
    rw [this]
    rcases Nat.mod_two_eq_zero_or_one e with h | h <;> simp [h] <;> omega
  split <;> omega

@[simp] theorem neg_neg' (e : HE) : neg (neg e) = e := by
  rw [neg_def, neg_def]; split <;> split <;> omega

theorem neg_ne (e : HE) : neg e ≠ e := by
  rw [neg_def]; split <;> omega

theorem ne_neg (e : HE) : e ≠ neg e := (neg_ne e).symm

@[simp] theorem neg_inj' {a b : HE} : neg a = neg b ↔ a = b :=
  ⟨fun h => by rw [← neg_neg' a, h, neg_neg'], fun h => by rw [h]⟩

theorem neg_eq_comm' {a b : HE} : neg a = b ↔ a = neg b :=
  ⟨fun h => by rw [← h, neg_neg'], fun h => by rw [h, neg_neg']⟩

theorem neg_lt' {n : ℕ} (hn : n % 2 = 0) (e : HE) : neg e < n ↔ e < n := by
  rw [neg_def]; split <;> omega

theorem neg_div (e : HE) : neg e / 2 = e / 2 := by
  rw [neg_def]; split <;> omega

theorem neg_mod (e : HE) : neg e % 2 = 1 - e % 2 := by
  rw [neg_def]; split <;> omega

theorem neg_injective : Function.Injective neg := fun _ _ h => neg_inj'.1 h

/-- Negation as a permutation of all indices. -/
def negE : Equiv.Perm ℕ := ⟨neg, neg, neg_neg', neg_neg'⟩

@[simp] theorem negE_apply (e : HE) : negE e = neg e := rfl

@[simp] theorem negE_symm_apply (e : HE) : negE.symm e = neg e := rfl

@[simp] theorem negE_inv : negE⁻¹ = negE := rfl

@[simp] theorem negE_mul_negE : negE * negE = 1 := by ext; simp

end Verif
