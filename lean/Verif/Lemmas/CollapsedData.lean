import Verif.Model.Collapsed
import Verif.Lemmas.CollapsedVerticals
import Verif.Lemmas.VerticalComponents

/-!
# The data of collapsed half edges

The vectors and connections that are computed when a vertical edge is collapsed are the ones of `Net.squash`. There are seven cases depending
on which sides of the two triangles are identified.
-/

set_option linter.unusedSectionVars false
set_option linter.unusedSimpArgs false

namespace Verif.Collapsed

open Verif Vec Net

variable {T : Type} [CommRing T] [LinearOrder T] [IsStrictOrderedRing T]
variable {v : Vec T} {N : Net T} {e a b c d z : HE}

/-- The data when the new connection has been recorded. -/
def entry (N : Net T) (e b d : HE) : Data T := (Data.pushFront ⟨N.vec, N.conn⟩ b (N.vec e)).pushFront d (-N.vec e)

/-- The data is the one of the half edges. -/
def Agrees (m : Data T) (N : Net T) : Prop := ∀ z ∈ N.L, m.vec z = N.vec z ∧ m.conn z = N.conn z

/-- The connections are recorded. -/
def Filled (m : Data T) (a b c d : HE) : Prop := m.conn (neg a) ≠ [] ∧ m.conn b ≠ [] ∧ m.conn (neg c) ≠ [] ∧ m.conn d ≠ []

theorem squeeze_torus (nd : [b, c, neg b, neg c].Nodup) (hn : N.vec (neg e) = -N.vec e) (dbg : Bool)
    (he : b ≠ e ∧ b ≠ neg e ∧ c ≠ e ∧ c ≠ neg e) :
    ∃ m, squeeze dbg (entry N e b (neg b)) (neg c) b c (neg b) = .ok m ∧ Filled m (neg c) b c (neg b) ∧
      Agrees m (N.squash e b c (neg b) (neg c)) := by
  have nd' := nd
  simp only [List.nodup_cons, List.mem_cons, not_or, List.not_mem_nil, not_false_eq_true, List.nodup_nil, and_true, ← ne_eq] at nd
  obtain ⟨⟨b_c, b_nb, b_nc⟩, ⟨c_nb, c_nc⟩, nb_nc⟩ := nd
  obtain ⟨e0, e1, e2, e3⟩ := he
  have f0 : neg b ≠ neg e := fun k => e0 (neg_inj'.1 k)
  have f1 : neg b ≠ e := fun k => e1 (by rw [← k, neg_neg'])
  have f2 : neg c ≠ neg e := fun k => e2 (neg_inj'.1 k)
  have f3 : neg c ≠ e := fun k => e3 (by rw [← k, neg_neg'])
  refine ⟨_, by
    unfold squeeze
    simp only [neg_neg', and_self, if_true, if_false, true_or, or_true, or_false, false_or, and_true, true_and, and_false, false_and, not_true, ]; rfl, ?_, ?_⟩
  · unfold Filled entry Data.pushFront Data.append Data.prepend Data.set Data.setNeg
    dsimp only
    simp only [Function.update_apply, neg_neg']
    refine ⟨?_, ?_, ?_, ?_⟩ <;> simp [*, Ne.symm]
  · intro z hz
    have s1 : second b c (neg b) = c := if_pos rfl
    have s2 : ¬ (neg b = c) := by simp [*, Ne.symm, neg_neg']
    have s3 : (neg c = neg c) := by simp [*, Ne.symm, neg_neg']
    unfold Net.squash Net.squashRight Net.squashLeft at hz ⊢
    rw [s1, if_neg s2, if_pos s3] at hz ⊢
    rw [mem_pinch, mem_dropX] at hz
    obtain ⟨⟨z0, z1, z2, z3⟩, z4⟩ := hz
    clear s1 s2 s3
    unfold Net.pinch Net.dropX entry Data.pushFront Data.append Data.prepend Data.set Data.setNeg
    dsimp only
    simp only [Function.update_apply, neg_neg'] at *
    by_cases k0 : z = b
    · subst k0; simp_all [Ne.symm]
    by_cases k1 : z = c
    · subst k1; simp_all [Ne.symm]
    by_cases k2 : z = neg b
    · first | exact absurd k2 (by assumption) | simp [*, Ne.symm]
    by_cases k3 : z = neg c
    · first | exact absurd k3 (by assumption) | simp [*, Ne.symm]
    simp [*, Ne.symm]

theorem squeeze_inner_ac (nd : [b, c, d, neg b, neg c, neg d].Nodup) (hn : N.vec (neg e) = -N.vec e) (dbg : Bool)
    (he : b ≠ e ∧ b ≠ neg e ∧ c ≠ e ∧ c ≠ neg e ∧ d ≠ e ∧ d ≠ neg e) :
    ∃ m, squeeze dbg (entry N e b d) (neg c) b c d = .ok m ∧ Filled m (neg c) b c d ∧
      Agrees m (N.squash e b c d (neg c)) ∧
      Agrees m (N.squash (neg e) d (neg c) b c) := by
  have nd' := nd
  simp only [List.nodup_cons, List.mem_cons, not_or, List.not_mem_nil, not_false_eq_true, List.nodup_nil, and_true, ← ne_eq] at nd
  obtain ⟨⟨b_c, b_d, b_nb, b_nc, b_nd⟩, ⟨c_d, c_nb, c_nc, c_nd⟩, ⟨d_nb, d_nc, d_nd⟩, ⟨nb_nc, nb_nd⟩, nc_nd⟩ := nd
  obtain ⟨e0, e1, e2, e3, e4, e5⟩ := he
  have f0 : neg b ≠ neg e := fun k => e0 (neg_inj'.1 k)
  have f1 : neg b ≠ e := fun k => e1 (by rw [← k, neg_neg'])
  have f2 : neg c ≠ neg e := fun k => e2 (neg_inj'.1 k)
  have f3 : neg c ≠ e := fun k => e3 (by rw [← k, neg_neg'])
  have f4 : neg d ≠ neg e := fun k => e4 (neg_inj'.1 k)
  have f5 : neg d ≠ e := fun k => e5 (by rw [← k, neg_neg'])
  refine ⟨_, by
    unfold squeeze
    simp only [neg_neg', and_self, if_true, if_false, true_or, or_true, or_false, false_or, and_true, true_and, and_false, false_and, not_true, b_nd]; rfl, ?_, ?_, ?_⟩
  · unfold Filled entry Data.pushFront Data.append Data.set
    dsimp only
    simp only [Function.update_apply, neg_neg']
    refine ⟨?_, ?_, ?_, ?_⟩ <;> simp [*, Ne.symm]
  · intro z hz
    have s1 : second b c d = d := if_neg (by simp [*, Ne.symm, neg_neg'])
    have s2 : ¬ (neg b = c) := by simp [*, Ne.symm, neg_neg']
    have s3 : ¬ (neg d = neg c) := by simp [*, Ne.symm, neg_neg']
    unfold Net.squash Net.squashRight Net.squashLeft at hz ⊢
    rw [s1, if_neg s2, if_neg s3] at hz ⊢
    rw [mem_dropT, mem_dropX] at hz
    obtain ⟨⟨z0, z1, z2, z3⟩, z4, z5, z6⟩ := hz
    clear s1 s2 s3
    unfold Net.dropT Net.dropX entry Data.pushFront Data.append Data.set
    dsimp only
    simp only [Function.update_apply, neg_neg'] at *
    by_cases k0 : z = b
    · subst k0; simp_all [Ne.symm]
    by_cases k1 : z = c
    · subst k1; simp_all [Ne.symm]
    by_cases k2 : z = d
    · subst k2; simp_all [Ne.symm]
    by_cases k3 : z = neg b
    · first | exact absurd k3 (by assumption) | simp [*, Ne.symm]
    by_cases k4 : z = neg c
    · first | exact absurd k4 (by assumption) | simp [*, Ne.symm]
    by_cases k5 : z = neg d
    · first | exact absurd k5 (by assumption) | simp [*, Ne.symm]
    simp [*, Ne.symm]
  · intro z hz
    have s1 : second d (neg c) b = b := if_neg (by simp [*, Ne.symm, neg_neg'])
    have s2 : ¬ (neg d = neg c) := by simp [*, Ne.symm, neg_neg']
    have s3 : ¬ (neg b = c) := by simp [*, Ne.symm, neg_neg']
    unfold Net.squash Net.squashRight Net.squashLeft at hz ⊢
    rw [s1, if_neg s2, if_neg s3] at hz ⊢
    rw [mem_dropT, mem_dropX] at hz
    obtain ⟨⟨z0, z1, z2, z3⟩, z4, z5, z6⟩ := hz
    clear s1 s2 s3
    unfold Net.dropT Net.dropX entry Data.pushFront Data.append Data.set
    dsimp only
    simp only [Function.update_apply, neg_neg'] at *
    by_cases k0 : z = b
    · subst k0; simp_all [Ne.symm]
    by_cases k1 : z = c
    · subst k1; simp_all [Ne.symm]
    by_cases k2 : z = d
    · subst k2; simp_all [Ne.symm]
    by_cases k3 : z = neg b
    · first | exact absurd k3 (by assumption) | simp [*, Ne.symm]
    by_cases k4 : z = neg c
    · first | exact absurd k4 (by assumption) | simp [*, Ne.symm]
    by_cases k5 : z = neg d
    · first | exact absurd k5 (by assumption) | simp [*, Ne.symm]
    simp [*, Ne.symm]

theorem squeeze_inner_bd (nd : [a, b, c, neg a, neg b, neg c].Nodup) (hn : N.vec (neg e) = -N.vec e) (dbg : Bool)
    (he : a ≠ e ∧ a ≠ neg e ∧ b ≠ e ∧ b ≠ neg e ∧ c ≠ e ∧ c ≠ neg e) :
    ∃ m, squeeze dbg (entry N e b (neg b)) a b c (neg b) = .ok m ∧ Filled m a b c (neg b) ∧
      Agrees m (N.squash e b c (neg b) a) ∧
      Agrees m (N.squash (neg e) (neg b) a b c) := by
  have nd' := nd
  simp only [List.nodup_cons, List.mem_cons, not_or, List.not_mem_nil, not_false_eq_true, List.nodup_nil, and_true, ← ne_eq] at nd
  obtain ⟨⟨a_b, a_c, a_na, a_nb, a_nc⟩, ⟨b_c, b_na, b_nb, b_nc⟩, ⟨c_na, c_nb, c_nc⟩, ⟨na_nb, na_nc⟩, nb_nc⟩ := nd
  obtain ⟨e0, e1, e2, e3, e4, e5⟩ := he
  have f0 : neg a ≠ neg e := fun k => e0 (neg_inj'.1 k)
  have f1 : neg a ≠ e := fun k => e1 (by rw [← k, neg_neg'])
  have f2 : neg b ≠ neg e := fun k => e2 (neg_inj'.1 k)
  have f3 : neg b ≠ e := fun k => e3 (by rw [← k, neg_neg'])
  have f4 : neg c ≠ neg e := fun k => e4 (neg_inj'.1 k)
  have f5 : neg c ≠ e := fun k => e5 (by rw [← k, neg_neg'])
  refine ⟨_, by
    unfold squeeze
    simp only [neg_neg', and_self, if_true, if_false, true_or, or_true, or_false, false_or, and_true, true_and, and_false, false_and, not_true, a_nc]; rfl, ?_, ?_, ?_⟩
  · unfold Filled entry Data.pushFront Data.append Data.set
    dsimp only
    simp only [Function.update_apply, neg_neg']
    refine ⟨?_, ?_, ?_, ?_⟩ <;> simp [*, Ne.symm]
  · intro z hz
    have s1 : second b c (neg b) = c := if_pos rfl
    have s2 : ¬ (neg b = c) := by simp [*, Ne.symm, neg_neg']
    have s3 : ¬ (neg c = a) := by simp [*, Ne.symm, neg_neg']
    unfold Net.squash Net.squashRight Net.squashLeft at hz ⊢
    rw [s1, if_neg s2, if_neg s3] at hz ⊢
    rw [mem_dropT, mem_dropX] at hz
    obtain ⟨⟨z0, z1, z2, z3⟩, z4, z5, z6⟩ := hz
    clear s1 s2 s3
    unfold Net.dropT Net.dropX entry Data.pushFront Data.append Data.set
    dsimp only
    simp only [Function.update_apply, neg_neg'] at *
    by_cases k0 : z = a
    · subst k0; simp_all [Ne.symm]
    by_cases k1 : z = b
    · subst k1; simp_all [Ne.symm]
    by_cases k2 : z = c
    · subst k2; simp_all [Ne.symm]
    by_cases k3 : z = neg a
    · first | exact absurd k3 (by assumption) | simp [*, Ne.symm]
    by_cases k4 : z = neg b
    · first | exact absurd k4 (by assumption) | simp [*, Ne.symm]
    by_cases k5 : z = neg c
    · first | exact absurd k5 (by assumption) | simp [*, Ne.symm]
    simp [*, Ne.symm]
  · intro z hz
    have s1 : second (neg b) a b = a := if_pos (neg_neg' _).symm
    have s2 : ¬ (neg (neg b) = a) := by simp [*, Ne.symm, neg_neg']
    have s3 : ¬ (neg a = c) := by simp [*, Ne.symm, neg_neg']
    unfold Net.squash Net.squashRight Net.squashLeft at hz ⊢
    rw [s1, if_neg s2, if_neg s3] at hz ⊢
    rw [mem_dropT, mem_dropX] at hz
    obtain ⟨⟨z0, z1, z2, z3⟩, z4, z5, z6⟩ := hz
    clear s1 s2 s3
    unfold Net.dropT Net.dropX entry Data.pushFront Data.append Data.set
    dsimp only
    simp only [Function.update_apply, neg_neg'] at *
    by_cases k0 : z = a
    · subst k0; simp_all [Ne.symm]
    by_cases k1 : z = b
    · subst k1; simp_all [Ne.symm]
    by_cases k2 : z = c
    · subst k2; simp_all [Ne.symm]
    by_cases k3 : z = neg a
    · first | exact absurd k3 (by assumption) | simp [*, Ne.symm]
    by_cases k4 : z = neg b
    · first | exact absurd k4 (by assumption) | simp [*, Ne.symm]
    by_cases k5 : z = neg c
    · first | exact absurd k5 (by assumption) | simp [*, Ne.symm]
    simp [*, Ne.symm]

theorem squeeze_thin_both (nd : [a, b, neg a, neg b].Nodup) (hn : N.vec (neg e) = -N.vec e) (dbg : Bool)
    (he : a ≠ e ∧ a ≠ neg e ∧ b ≠ e ∧ b ≠ neg e) :
    ∃ m, squeeze dbg (entry N e b (neg a)) a b (neg b) (neg a) = .ok m ∧ Filled m a b (neg b) (neg a) ∧
      Agrees m (N.squash e b (neg b) (neg a) a) ∧
      Agrees m (N.squash (neg e) (neg a) a b (neg b)) := by
  have nd' := nd
  simp only [List.nodup_cons, List.mem_cons, not_or, List.not_mem_nil, not_false_eq_true, List.nodup_nil, and_true, ← ne_eq] at nd
  obtain ⟨⟨a_b, a_na, a_nb⟩, ⟨b_na, b_nb⟩, na_nb⟩ := nd
  obtain ⟨e0, e1, e2, e3⟩ := he
  have f0 : neg a ≠ neg e := fun k => e0 (neg_inj'.1 k)
  have f1 : neg a ≠ e := fun k => e1 (by rw [← k, neg_neg'])
  have f2 : neg b ≠ neg e := fun k => e2 (neg_inj'.1 k)
  have f3 : neg b ≠ e := fun k => e3 (by rw [← k, neg_neg'])
  refine ⟨_, by
    unfold squeeze
    simp only [neg_neg', and_self, if_true, if_false, true_or, or_true, or_false, false_or, and_true, true_and, and_false, false_and, not_true, a_b, a_b.symm]; rfl, ?_, ?_, ?_⟩
  · unfold Filled entry Data.pushFront Data.setNeg
    dsimp only
    simp only [Function.update_apply, neg_neg']
    refine ⟨?_, ?_, ?_, ?_⟩ <;> simp [*, Ne.symm]
  · intro z hz
    have s1 : second b (neg b) (neg a) = neg a := if_neg (by simp [*, Ne.symm, neg_neg'])
    have s2 : (neg b = neg b) := by simp [*, Ne.symm, neg_neg']
    have s3 : (neg (neg a) = a) := by simp [*, Ne.symm, neg_neg']
    unfold Net.squash Net.squashRight Net.squashLeft at hz ⊢
    rw [s1, if_pos s2, if_pos s3] at hz ⊢
    rw [mem_pinch, mem_pinch] at hz
    obtain ⟨⟨z0, z1⟩, z4⟩ := hz
    clear s1 s2 s3
    unfold Net.pinch entry Data.pushFront Data.setNeg
    dsimp only
    simp only [Function.update_apply, neg_neg'] at *
    by_cases k0 : z = a
    · subst k0; simp_all [Ne.symm]
    by_cases k1 : z = b
    · subst k1; simp_all [Ne.symm]
    by_cases k2 : z = neg a
    · first | exact absurd k2 (by assumption) | simp [*, Ne.symm]
    by_cases k3 : z = neg b
    · first | exact absurd k3 (by assumption) | simp [*, Ne.symm]
    simp [*, Ne.symm]
  · intro z hz
    have s1 : second (neg a) a b = b := if_neg (by simp [*, Ne.symm, neg_neg'])
    have s2 : (neg (neg a) = a) := by simp [*, Ne.symm, neg_neg']
    have s3 : (neg b = neg b) := by simp [*, Ne.symm, neg_neg']
    unfold Net.squash Net.squashRight Net.squashLeft at hz ⊢
    rw [s1, if_pos s2, if_pos s3] at hz ⊢
    rw [mem_pinch, mem_pinch] at hz
    obtain ⟨⟨z0, z1⟩, z4⟩ := hz
    clear s1 s2 s3
    unfold Net.pinch entry Data.pushFront Data.setNeg
    dsimp only
    simp only [Function.update_apply, neg_neg'] at *
    by_cases k0 : z = a
    · subst k0; simp_all [Ne.symm]
    by_cases k1 : z = b
    · subst k1; simp_all [Ne.symm]
    by_cases k2 : z = neg a
    · first | exact absurd k2 (by assumption) | simp [*, Ne.symm]
    by_cases k3 : z = neg b
    · first | exact absurd k3 (by assumption) | simp [*, Ne.symm]
    simp [*, Ne.symm]

theorem squeeze_thin_right (nd : [a, b, c, neg a, neg b, neg c].Nodup) (hn : N.vec (neg e) = -N.vec e) (dbg : Bool)
    (he : a ≠ e ∧ a ≠ neg e ∧ b ≠ e ∧ b ≠ neg e ∧ c ≠ e ∧ c ≠ neg e) :
    ∃ m, squeeze dbg (entry N e b (neg a)) a b c (neg a) = .ok m ∧ Filled m a b c (neg a) ∧
      Agrees m (N.squash e b c (neg a) a) ∧
      Agrees m (N.squash (neg e) (neg a) a b c) := by
  have nd' := nd
  simp only [List.nodup_cons, List.mem_cons, not_or, List.not_mem_nil, not_false_eq_true, List.nodup_nil, and_true, ← ne_eq] at nd
  obtain ⟨⟨a_b, a_c, a_na, a_nb, a_nc⟩, ⟨b_c, b_na, b_nb, b_nc⟩, ⟨c_na, c_nb, c_nc⟩, ⟨na_nb, na_nc⟩, nb_nc⟩ := nd
  obtain ⟨e0, e1, e2, e3, e4, e5⟩ := he
  have f0 : neg a ≠ neg e := fun k => e0 (neg_inj'.1 k)
  have f1 : neg a ≠ e := fun k => e1 (by rw [← k, neg_neg'])
  have f2 : neg b ≠ neg e := fun k => e2 (neg_inj'.1 k)
  have f3 : neg b ≠ e := fun k => e3 (by rw [← k, neg_neg'])
  have f4 : neg c ≠ neg e := fun k => e4 (neg_inj'.1 k)
  have f5 : neg c ≠ e := fun k => e5 (by rw [← k, neg_neg'])
  refine ⟨_, by
    unfold squeeze
    simp only [neg_neg', and_self, if_true, if_false, true_or, or_true, or_false, false_or, and_true, true_and, and_false, false_and, not_true, a_nc, a_b.symm, b_nc]; rfl, ?_, ?_, ?_⟩
  · unfold Filled entry Data.pushFront Data.append Data.set Data.setNeg
    dsimp only
    simp only [Function.update_apply, neg_neg']
    refine ⟨?_, ?_, ?_, ?_⟩ <;> simp [*, Ne.symm]
  · intro z hz
    have s1 : second b c (neg a) = neg a := if_neg (by simp [*, Ne.symm, neg_neg'])
    have s2 : ¬ (neg b = c) := by simp [*, Ne.symm, neg_neg']
    have s3 : (neg (neg a) = a) := by simp [*, Ne.symm, neg_neg']
    unfold Net.squash Net.squashRight Net.squashLeft at hz ⊢
    rw [s1, if_neg s2, if_pos s3] at hz ⊢
    rw [mem_pinch, mem_dropX] at hz
    obtain ⟨⟨z0, z1, z2, z3⟩, z4⟩ := hz
    clear s1 s2 s3
    unfold Net.pinch Net.dropX entry Data.pushFront Data.append Data.set Data.setNeg
    dsimp only
    simp only [Function.update_apply, neg_neg'] at *
    by_cases k0 : z = a
    · subst k0; simp_all [Ne.symm]
    by_cases k1 : z = b
    · subst k1; simp_all [Ne.symm]
    by_cases k2 : z = c
    · subst k2; simp_all [Ne.symm]
    by_cases k3 : z = neg a
    · first | exact absurd k3 (by assumption) | simp [*, Ne.symm]
    by_cases k4 : z = neg b
    · first | exact absurd k4 (by assumption) | simp [*, Ne.symm]
    by_cases k5 : z = neg c
    · first | exact absurd k5 (by assumption) | simp [*, Ne.symm]
    simp [*, Ne.symm]
  · intro z hz
    have s1 : second (neg a) a b = b := if_neg (by simp [*, Ne.symm, neg_neg'])
    have s2 : (neg (neg a) = a) := by simp [*, Ne.symm, neg_neg']
    have s3 : ¬ (neg b = c) := by simp [*, Ne.symm, neg_neg']
    unfold Net.squash Net.squashRight Net.squashLeft at hz ⊢
    rw [s1, if_pos s2, if_neg s3] at hz ⊢
    rw [mem_dropT, mem_pinch] at hz
    obtain ⟨⟨z0, z1⟩, z4, z5, z6⟩ := hz
    clear s1 s2 s3
    unfold Net.dropT Net.pinch entry Data.pushFront Data.append Data.set Data.setNeg
    dsimp only
    simp only [Function.update_apply, neg_neg'] at *
    by_cases k0 : z = a
    · subst k0; simp_all [Ne.symm]
    by_cases k1 : z = b
    · subst k1; simp_all [Ne.symm]
    by_cases k2 : z = c
    · subst k2; simp_all [Ne.symm]
    by_cases k3 : z = neg a
    · first | exact absurd k3 (by assumption) | simp [*, Ne.symm]
    by_cases k4 : z = neg b
    · first | exact absurd k4 (by assumption) | simp [*, Ne.symm]
    by_cases k5 : z = neg c
    · first | exact absurd k5 (by assumption) | simp [*, Ne.symm]
    simp [*, Ne.symm]

theorem squeeze_thin_left (nd : [a, b, d, neg a, neg b, neg d].Nodup) (hn : N.vec (neg e) = -N.vec e) (dbg : Bool)
    (he : a ≠ e ∧ a ≠ neg e ∧ b ≠ e ∧ b ≠ neg e ∧ d ≠ e ∧ d ≠ neg e) :
    ∃ m, squeeze dbg (entry N e b d) a b (neg b) d = .ok m ∧ Filled m a b (neg b) d ∧
      Agrees m (N.squash e b (neg b) d a) ∧
      Agrees m (N.squash (neg e) d a b (neg b)) := by
  have nd' := nd
  simp only [List.nodup_cons, List.mem_cons, not_or, List.not_mem_nil, not_false_eq_true, List.nodup_nil, and_true, ← ne_eq] at nd
  obtain ⟨⟨a_b, a_d, a_na, a_nb, a_nd⟩, ⟨b_d, b_na, b_nb, b_nd⟩, ⟨d_na, d_nb, d_nd⟩, ⟨na_nb, na_nd⟩, nb_nd⟩ := nd
  obtain ⟨e0, e1, e2, e3, e4, e5⟩ := he
  have f0 : neg a ≠ neg e := fun k => e0 (neg_inj'.1 k)
  have f1 : neg a ≠ e := fun k => e1 (by rw [← k, neg_neg'])
  have f2 : neg b ≠ neg e := fun k => e2 (neg_inj'.1 k)
  have f3 : neg b ≠ e := fun k => e3 (by rw [← k, neg_neg'])
  have f4 : neg d ≠ neg e := fun k => e4 (neg_inj'.1 k)
  have f5 : neg d ≠ e := fun k => e5 (by rw [← k, neg_neg'])
  refine ⟨_, by
    unfold squeeze
    simp only [neg_neg', and_self, if_true, if_false, true_or, or_true, or_false, false_or, and_true, true_and, and_false, false_and, not_true, a_b, b_nd, a_nd]; rfl, ?_, ?_, ?_⟩
  · unfold Filled entry Data.pushFront Data.append Data.set Data.setNeg
    dsimp only
    simp only [Function.update_apply, neg_neg']
    refine ⟨?_, ?_, ?_, ?_⟩ <;> simp [*, Ne.symm]
  · intro z hz
    have s1 : second b (neg b) d = d := if_neg (by simp [*, Ne.symm, neg_neg'])
    have s2 : (neg b = neg b) := by simp [*, Ne.symm, neg_neg']
    have s3 : ¬ (neg d = a) := by simp [*, Ne.symm, neg_neg']
    unfold Net.squash Net.squashRight Net.squashLeft at hz ⊢
    rw [s1, if_pos s2, if_neg s3] at hz ⊢
    rw [mem_dropT, mem_pinch] at hz
    obtain ⟨⟨z0, z1⟩, z4, z5, z6⟩ := hz
    clear s1 s2 s3
    unfold Net.dropT Net.pinch entry Data.pushFront Data.append Data.set Data.setNeg
    dsimp only
    simp only [Function.update_apply, neg_neg'] at *
    by_cases k0 : z = a
    · subst k0; simp_all [Ne.symm]
    by_cases k1 : z = b
    · subst k1; simp_all [Ne.symm]
    by_cases k2 : z = d
    · subst k2; simp_all [Ne.symm]
    by_cases k3 : z = neg a
    · first | exact absurd k3 (by assumption) | simp [*, Ne.symm]
    by_cases k4 : z = neg b
    · first | exact absurd k4 (by assumption) | simp [*, Ne.symm]
    by_cases k5 : z = neg d
    · first | exact absurd k5 (by assumption) | simp [*, Ne.symm]
    simp [*, Ne.symm]
  · intro z hz
    have s1 : second d a b = b := if_neg (by simp [*, Ne.symm, neg_neg'])
    have s2 : ¬ (neg d = a) := by simp [*, Ne.symm, neg_neg']
    have s3 : (neg b = neg b) := by simp [*, Ne.symm, neg_neg']
    unfold Net.squash Net.squashRight Net.squashLeft at hz ⊢
    rw [s1, if_neg s2, if_pos s3] at hz ⊢
    rw [mem_pinch, mem_dropX] at hz
    obtain ⟨⟨z0, z1, z2, z3⟩, z4⟩ := hz
    clear s1 s2 s3
    unfold Net.pinch Net.dropX entry Data.pushFront Data.append Data.set Data.setNeg
    dsimp only
    simp only [Function.update_apply, neg_neg'] at *
    by_cases k0 : z = a
    · subst k0; simp_all [Ne.symm]
    by_cases k1 : z = b
    · subst k1; simp_all [Ne.symm]
    by_cases k2 : z = d
    · subst k2; simp_all [Ne.symm]
    by_cases k3 : z = neg a
    · first | exact absurd k3 (by assumption) | simp [*, Ne.symm]
    by_cases k4 : z = neg b
    · first | exact absurd k4 (by assumption) | simp [*, Ne.symm]
    by_cases k5 : z = neg d
    · first | exact absurd k5 (by assumption) | simp [*, Ne.symm]
    simp [*, Ne.symm]

theorem squeeze_generic (nd : [a, b, c, d, neg a, neg b, neg c, neg d].Nodup) (hn : N.vec (neg e) = -N.vec e) (dbg : Bool)
    (he : a ≠ e ∧ a ≠ neg e ∧ b ≠ e ∧ b ≠ neg e ∧ c ≠ e ∧ c ≠ neg e ∧ d ≠ e ∧ d ≠ neg e) :
    ∃ m, squeeze dbg (entry N e b d) a b c d = .ok m ∧ Filled m a b c d ∧
      Agrees m (N.squash e b c d a) ∧
      Agrees m (N.squash (neg e) d a b c) := by
  have nd' := nd
  simp only [List.nodup_cons, List.mem_cons, not_or, List.not_mem_nil, not_false_eq_true, List.nodup_nil, and_true, ← ne_eq] at nd
  obtain ⟨⟨a_b, a_c, a_d, a_na, a_nb, a_nc, a_nd⟩, ⟨b_c, b_d, b_na, b_nb, b_nc, b_nd⟩, ⟨c_d, c_na, c_nb, c_nc, c_nd⟩, ⟨d_na, d_nb, d_nc, d_nd⟩, ⟨na_nb, na_nc, na_nd⟩, ⟨nb_nc, nb_nd⟩, nc_nd⟩ := nd
  obtain ⟨e0, e1, e2, e3, e4, e5, e6, e7⟩ := he
  have f0 : neg a ≠ neg e := fun k => e0 (neg_inj'.1 k)
  have f1 : neg a ≠ e := fun k => e1 (by rw [← k, neg_neg'])
  have f2 : neg b ≠ neg e := fun k => e2 (neg_inj'.1 k)
  have f3 : neg b ≠ e := fun k => e3 (by rw [← k, neg_neg'])
  have f4 : neg c ≠ neg e := fun k => e4 (neg_inj'.1 k)
  have f5 : neg c ≠ e := fun k => e5 (by rw [← k, neg_neg'])
  have f6 : neg d ≠ neg e := fun k => e6 (neg_inj'.1 k)
  have f7 : neg d ≠ e := fun k => e7 (by rw [← k, neg_neg'])
  refine ⟨_, by
    unfold squeeze
    simp only [neg_neg', and_self, if_true, if_false, true_or, or_true, or_false, false_or, and_true, true_and, and_false, false_and, not_true, a_nc, b_nd, a_nd, b_nc, nd']; rfl, ?_, ?_, ?_⟩
  · unfold Filled entry Data.pushFront Data.append Data.set
    dsimp only
    simp only [Function.update_apply, neg_neg']
    refine ⟨?_, ?_, ?_, ?_⟩ <;> simp [*, Ne.symm]
  · intro z hz
    have s1 : second b c d = d := if_neg (by simp [*, Ne.symm, neg_neg'])
    have s2 : ¬ (neg b = c) := by simp [*, Ne.symm, neg_neg']
    have s3 : ¬ (neg d = a) := by simp [*, Ne.symm, neg_neg']
    unfold Net.squash Net.squashRight Net.squashLeft at hz ⊢
    rw [s1, if_neg s2, if_neg s3] at hz ⊢
    rw [mem_dropT, mem_dropX] at hz
    obtain ⟨⟨z0, z1, z2, z3⟩, z4, z5, z6⟩ := hz
    clear s1 s2 s3
    unfold Net.dropT Net.dropX entry Data.pushFront Data.append Data.set
    dsimp only
    simp only [Function.update_apply, neg_neg'] at *
    by_cases k0 : z = a
    · subst k0; simp_all [Ne.symm]
    by_cases k1 : z = b
    · subst k1; simp_all [Ne.symm]
    by_cases k2 : z = c
    · subst k2; simp_all [Ne.symm]
    by_cases k3 : z = d
    · subst k3; simp_all [Ne.symm]
    by_cases k4 : z = neg a
    · first | exact absurd k4 (by assumption) | simp [*, Ne.symm]
    by_cases k5 : z = neg b
    · first | exact absurd k5 (by assumption) | simp [*, Ne.symm]
    by_cases k6 : z = neg c
    · first | exact absurd k6 (by assumption) | simp [*, Ne.symm]
    by_cases k7 : z = neg d
    · first | exact absurd k7 (by assumption) | simp [*, Ne.symm]
    simp [*, Ne.symm]
  · intro z hz
    have s1 : second d a b = b := if_neg (by simp [*, Ne.symm, neg_neg'])
    have s2 : ¬ (neg d = a) := by simp [*, Ne.symm, neg_neg']
    have s3 : ¬ (neg b = c) := by simp [*, Ne.symm, neg_neg']
    unfold Net.squash Net.squashRight Net.squashLeft at hz ⊢
    rw [s1, if_neg s2, if_neg s3] at hz ⊢
    rw [mem_dropT, mem_dropX] at hz
    obtain ⟨⟨z0, z1, z2, z3⟩, z4, z5, z6⟩ := hz
    clear s1 s2 s3
    unfold Net.dropT Net.dropX entry Data.pushFront Data.append Data.set
    dsimp only
    simp only [Function.update_apply, neg_neg'] at *
    by_cases k0 : z = a
    · subst k0; simp_all [Ne.symm]
    by_cases k1 : z = b
    · subst k1; simp_all [Ne.symm]
    by_cases k2 : z = c
    · subst k2; simp_all [Ne.symm]
    by_cases k3 : z = d
    · subst k3; simp_all [Ne.symm]
    by_cases k4 : z = neg a
    · first | exact absurd k4 (by assumption) | simp [*, Ne.symm]
    by_cases k5 : z = neg b
    · first | exact absurd k5 (by assumption) | simp [*, Ne.symm]
    by_cases k6 : z = neg c
    · first | exact absurd k6 (by assumption) | simp [*, Ne.symm]
    by_cases k7 : z = neg d
    · first | exact absurd k7 (by assumption) | simp [*, Ne.symm]
    simp [*, Ne.symm]


/-- The half edges of the triangles at a vertical edge. -/
structure Apart (e a b c d : HE) : Prop where
  ne : a ≠ b ∧ a ≠ c ∧ a ≠ d ∧ b ≠ c ∧ b ≠ d ∧ c ≠ d
  ab : a ≠ neg b
  cd : c ≠ neg d
  ea : a ≠ e ∧ a ≠ neg e
  eb : b ≠ e ∧ b ≠ neg e
  ec : c ≠ e ∧ c ≠ neg e
  ed : d ≠ e ∧ d ≠ neg e

theorem apart (g : Gadget v N e b c d a) : Apart e a b c d :=
  ⟨⟨g.ne_u.2.1, g.ne_u.2.2, g.right.xt.symm, g.left.xt, g.ne_c.2.1.symm, g.ne_c.2.2.symm⟩, g.ne_xu.symm,
    fun k => g.ne_tc (by rw [k, neg_neg']), ⟨g.ne_u.1, g.right.et.symm⟩, ⟨g.left.ex.symm, g.left.neg_e.1.symm⟩,
    ⟨g.left.et.symm, g.left.neg_e.2.symm⟩, ⟨g.ne_c.1, g.right.ex.symm⟩⟩

theorem ne_neg_comm {x y : HE} (h : x ≠ neg y) : y ≠ neg x := fun k => h (by rw [k, neg_neg'])

/-- Proves that half edges are different. -/
local macro "apart_tac" : tactic => `(tactic| (
  simp only [ne_eq, neg_neg', neg_inj'] at *
  simp only [List.nodup_cons, List.mem_cons, List.not_mem_nil, or_false, not_or, not_false_eq_true, List.nodup_nil, and_true, neg_inj']
  repeat' apply And.intro
  all_goals first
    | assumption
    | exact Ne.symm (by assumption)
    | exact ne_neg_comm (by assumption)
    | exact ne_neg_comm (Ne.symm (by assumption))))

/-- The data is the one of `Net.squash` whatever sides are identified. -/
theorem squeeze_spec (h : Apart e a b c d) (hn : N.vec (neg e) = -N.vec e) (dbg : Bool) :
    ∃ m, squeeze dbg (entry N e b d) a b c d = .ok m ∧ Filled m a b c d ∧ Agrees m (N.squash e b c d a) ∧
      (Agrees m (N.squash (neg e) d a b c) ∨ a = neg c ∧ b = neg d) := by
  obtain ⟨⟨n1, n2, n3, n4, n5, n6⟩, ab, cd, ea, eb, ec, ed⟩ := h
  have ba := ne_neg_comm ab
  have dc := ne_neg_comm cd
  have na := (neg_ne a).symm
  have nb := (neg_ne b).symm
  have nc := (neg_ne c).symm
  have nd := (neg_ne d).symm
  by_cases k1 : a = neg c
  · by_cases k2 : b = neg d
    · obtain rfl : d = neg b := by rw [k2, neg_neg']
      subst k1
      obtain ⟨m, m1, m2, m3⟩ := squeeze_torus (N := N) (e := e) (b := b) (c := c)
        (by apart_tac) hn dbg ⟨eb.1, eb.2, ec.1, ec.2⟩
      exact ⟨m, m1, m2, m3, .inr ⟨rfl, k2⟩⟩
    · subst k1
      have k3 := ne_neg_comm k2
      obtain ⟨m, m1, m2, m3, m4⟩ := squeeze_inner_ac (N := N) (e := e) (b := b) (c := c) (d := d)
        (by apart_tac) hn dbg ⟨eb.1, eb.2, ec.1, ec.2, ed.1, ed.2⟩
      exact ⟨m, m1, m2, m3, .inl m4⟩
  · have k1' := ne_neg_comm k1
    by_cases k2 : b = neg d
    · obtain rfl : d = neg b := by rw [k2, neg_neg']
      obtain ⟨m, m1, m2, m3, m4⟩ := squeeze_inner_bd (N := N) (e := e) (a := a) (b := b) (c := c)
        (by apart_tac) hn dbg ⟨ea.1, ea.2, eb.1, eb.2, ec.1, ec.2⟩
      exact ⟨m, m1, m2, m3, .inl m4⟩
    · have k2' := ne_neg_comm k2
      by_cases k3 : a = neg d
      · obtain rfl : d = neg a := by rw [k3, neg_neg']
        by_cases k4 : b = neg c
        · obtain rfl : c = neg b := by rw [k4, neg_neg']
          obtain ⟨m, m1, m2, m3, m4⟩ := squeeze_thin_both (N := N) (e := e) (a := a) (b := b)
            (by apart_tac) hn dbg ⟨ea.1, ea.2, eb.1, eb.2⟩
          exact ⟨m, m1, m2, m3, .inl m4⟩
        · have k4' := ne_neg_comm k4
          obtain ⟨m, m1, m2, m3, m4⟩ := squeeze_thin_right (N := N) (e := e) (a := a) (b := b) (c := c)
            (by apart_tac) hn dbg ⟨ea.1, ea.2, eb.1, eb.2, ec.1, ec.2⟩
          exact ⟨m, m1, m2, m3, .inl m4⟩
      · have k3' := ne_neg_comm k3
        by_cases k4 : b = neg c
        · obtain rfl : c = neg b := by rw [k4, neg_neg']
          obtain ⟨m, m1, m2, m3, m4⟩ := squeeze_thin_left (N := N) (e := e) (a := a) (b := b) (d := d)
            (by apart_tac) hn dbg ⟨ea.1, ea.2, eb.1, eb.2, ed.1, ed.2⟩
          exact ⟨m, m1, m2, m3, .inl m4⟩
        · have k4' := ne_neg_comm k4
          obtain ⟨m, m1, m2, m3, m4⟩ := squeeze_generic (N := N) (e := e) (a := a) (b := b) (c := c) (d := d)
            (by apart_tac) hn dbg ⟨ea.1, ea.2, eb.1, eb.2, ec.1, ec.2, ed.1, ed.2⟩
          exact ⟨m, m1, m2, m3, .inl m4⟩

/-- In a torus, it does not matter from which side we collapse. -/
theorem torus_swap (g : Gadget v N e b c (neg b) (neg c)) :
    (∀ z, z ∈ (N.squash e b c (neg b) (neg c)).L ↔ z ∈ (N.squash (neg e) (neg b) (neg c) b c).L) ∧
    ∀ z ∈ (N.squash e b c (neg b) (neg c)).L, (N.squash e b c (neg b) (neg c)).f z = (N.squash (neg e) (neg b) (neg c) b c).f z := by
  obtain ⟨⟨n1, n2, n3, n4, n5, n6⟩, ab, cd, ea, eb, ec, ed⟩ := apart g
  have s1 : second b c (neg b) = c := if_pos rfl
  have s2 : second (neg b) (neg c) b = neg c := if_pos (neg_neg' _).symm
  have s3 : neg b ≠ c := fun k => n6 k.symm
  constructor
  · intro z
    rw [mem_squash, mem_squash, s1, s2]
    simp only [neg_neg', ne_eq, not_true_eq_false, false_implies, and_true, s3, not_false_eq_true, true_implies, Ne.symm ab, ne_neg_comm (Ne.symm n1)]
    have : ¬ b = neg c := fun k => n1 k.symm
    simp only [this, not_false_eq_true, true_implies]
    tauto
  · intro z hz
    rw [mem_squash, s1] at hz
    obtain ⟨z1, z2, z3, z4, -⟩ := hz
    obtain ⟨z4, z5⟩ := z4 s3
    have n1' : ¬ b = neg c := fun k => n1 k.symm
    unfold squash squashRight squashLeft
    rw [s1, s2, if_neg s3, if_pos rfl, if_neg (show ¬ neg (neg b) = neg c by rw [neg_neg']; exact n1'),
      if_pos (show neg (neg c) = c from neg_neg' _)]
    unfold pinch dropX
    dsimp only
    by_cases k1 : z = c
    · rw [if_pos k1, k1, if_neg n2.symm, if_pos rfl]
    · rw [if_neg k1]
      by_cases k2 : z = neg c
      · rw [if_pos k2, if_pos k2]
      · rw [if_neg k2, if_neg k2, if_neg k1, if_neg k1, neg_neg', if_neg k2]
        have f1 : N.f z ≠ neg b := fun k => z3 (g.inv.inj _ z1 _ g.mem' (by rw [k, g.fe']))
        have f2 : N.f z ≠ b := fun k => z2 (g.inv.inj _ z1 _ g.mem (by rw [k, g.fe]))
        rw [if_neg f1, if_neg f2]

/-- The vectors and connections after a collapse. -/
structure Squashed (v : Vec T) (N N' : Net T) (e x t c u : HE) : Prop where
  mem : ∀ z, z ∈ (N.squash e x t c u).L ↔ z ∈ N'.L
  f : ∀ z ∈ (N.squash e x t c u).L, (N.squash e x t c u).f z = N'.f z
  inv : N'.Inv v
  all : N'.all = N.vec (neg e) ::ₘ N.vec e ::ₘ N.all
  total : N'.total = N.total
  old : ∀ y ∈ N'.L, ∃ z ∈ N.L, z ≠ e ∧ z ≠ neg e ∧ Vec.cross (N'.vec y) v = Vec.cross (N.vec z) v
  verticals : N.verticals v = N.vec e ::ₘ N.vec (neg e) ::ₘ N'.verticals v
  kept : ∀ z ∈ N.L, ¬ Close e x t c u z → Kept N N' z (Close e x t c u)

theorem Squashed.self {x t u : HE} (g : Gadget v N e x t c u) : Squashed v N (N.squash e x t c u) e x t c u :=
  ⟨fun _ => Iff.rfl, fun _ _ => rfl, g.squash_inv, g.squash_all, g.squash_total, g.squash_old, g.squash_verticals, fun _ hz hc => g.kept hz hc⟩

theorem Squashed.torus (g : Gadget v N e b c (neg b) (neg c)) :
    Squashed v N (N.squash (neg e) (neg b) (neg c) b c) e b c (neg b) (neg c) := by
  have s := Squashed.self g.swap
  refine ⟨(torus_swap g).1, (torus_swap g).2, s.inv, ?_, s.total, ?_, ?_, ?_⟩
  · rw [s.all, neg_neg', Multiset.cons_swap]
  · intro y hy
    obtain ⟨z, z1, z2, z3, z4⟩ := s.old y hy
    rw [neg_neg'] at z3
    exact ⟨z, z1, z3, z2, z4⟩
  · rw [s.verticals, neg_neg', Multiset.cons_swap]
  · have hc : ∀ z, Close (neg e) (neg b) (neg c) b c z ↔ Close e b c (neg b) (neg c) z := by
      intro z
      unfold Close
      simp only [List.mem_cons, List.not_mem_nil, or_false, exists_eq_or_imp, exists_eq_left, neg_neg']
      tauto
    intro z hz k
    have := s.kept z hz (by rwa [hc])
    exact ⟨this.mem, this.vec, this.next, fun j => this.f (by rwa [hc])⟩

/-- The update before a collapse succeeds. -/
theorem beforeCollapse_spec {K : Type*} [Field K] [LinearOrder K] [IsStrictOrderedRing K] (A : Option (Approx T K)) (dbg : Bool)
    {S : Tri} (hS : S.faces.WF) (hf : ∀ z, N.f z = S.faces.fwd z) {x t u : HE} (g : Gadget v N e x t c u) :
    ∃ m N', beforeCollapse A dbg v S e ⟨N.vec, N.conn⟩ = .ok m ∧ Agrees m N' ∧ Squashed v N N' e x t c u := by
  have key : ∀ {y x t c u : HE}, Gadget v N y x t c u → S.previousInFace (neg y) = u ∧ S.nextInFace y = x ∧ S.previousInFace y = t ∧
      S.nextInFace (neg y) = c := by
    intro y x t c u g
    have prev : ∀ {w z}, N.f w = z → S.previousInFace z = w := by
      intro w z h
      rw [hf] at h
      rw [← h]
      exact hS.left w
    exact ⟨prev g.right.ft, (hf _).symm.trans g.fe, prev g.left.ft, (hf _).symm.trans g.fe'⟩
  have hmake : ∃ V, Vertical.make v = .ok V := by
    unfold Vertical.make
    rw [if_neg (by simpa [nonzero_iff] using g.v0)]
    exact ⟨_, rfl⟩
  obtain ⟨V, hV⟩ := hmake
  have fin : ∀ {y}, y = e ∨ y = neg e → ∃ m N',
      (do
        let a := S.previousInFace (neg y)
        let b := S.nextInFace y
        let c := S.previousInFace y
        let d := S.nextInFace (neg y)
        let connection := N.vec y
        if dbg ∧ -connection ≠ N.vec (neg y) then throw .logicError
        let m ← squeeze dbg ((Data.pushFront ⟨N.vec, N.conn⟩ b connection).pushFront d (-connection)) a b c d
        if dbg ∧ (m.conn (neg a) = [] ∨ m.conn b = [] ∨ m.conn (neg c) = [] ∨ m.conn d = []) then throw .undefined
        return m : Except Err (Data T)) = .ok m ∧ Agrees m N' ∧ Squashed v N N' e x t c u := by
    rintro y (rfl | rfl)
    · obtain ⟨p1, p2, p3, p4⟩ := key g
      obtain ⟨m, m1, m2, m3, -⟩ := squeeze_spec (N := N) (apart g) g.vec_neg dbg
      refine ⟨m, _, ?_, m3, .self g⟩
      dsimp only
      rw [p1, p2, p3, p4, if_neg (by simp [g.vec_neg])]
      unfold entry at m1
      simp only [bind, Except.bind, pure, Except.pure, m1]
      rw [if_neg (by unfold Filled at m2; tauto)]
    · obtain ⟨p1, p2, p3, p4⟩ := key g.swap
      obtain ⟨m, m1, m2, m3, m4⟩ := squeeze_spec (N := N) (apart g.swap) g.swap.vec_neg dbg
      refine ⟨m, ?_⟩
      have hrun : ∀ P : Prop, P → ((do
          let a := S.previousInFace (neg (neg e))
          let b := S.nextInFace (neg e)
          let c := S.previousInFace (neg e)
          let d := S.nextInFace (neg (neg e))
          let connection := N.vec (neg e)
          if dbg ∧ -connection ≠ N.vec (neg (neg e)) then throw .logicError
          let m ← squeeze dbg ((Data.pushFront ⟨N.vec, N.conn⟩ b connection).pushFront d (-connection)) a b c d
          if dbg ∧ (m.conn (neg a) = [] ∨ m.conn b = [] ∨ m.conn (neg c) = [] ∨ m.conn d = []) then throw .undefined
          return m : Except Err (Data T)) = .ok m ∧ P) := by
        intro P hP
        refine ⟨?_, hP⟩
        dsimp only
        rw [p1, p2, p3, p4, if_neg (fun k => k.2 g.swap.vec_neg.symm)]
        unfold entry at m1
        simp only [bind, Except.bind, pure, Except.pure, m1]
        rw [if_neg (by unfold Filled at m2; tauto)]
      rcases m4 with m4 | ⟨k1, k2⟩
      · rw [neg_neg'] at m4
        exact ⟨_, hrun _ ⟨m4, .self g⟩⟩
      · obtain rfl : u = neg t := by rw [k1, neg_neg']
        subst k2
        exact ⟨_, hrun _ ⟨m3, .torus g⟩⟩
  have hcol : 2 * (e / 2) = e ∨ 2 * (e / 2) = neg e := by
    rw [neg_def]
    split_ifs <;> omega
  have hz : Vec.cross (N.vec (2 * (e / 2))) v = 0 := by
    rcases hcol with h | h <;> rw [h]
    · exact g.vertical
    · exact g.swap.vertical
  unfold beforeCollapse
  simp only [bind, Except.bind, hV]
  rw [if_neg (by
    rintro ⟨-, k⟩
    exact k ((Vertical.collinear_iff A _ _).2 hz))]
  refine fin ?_
  split_ifs
  · rcases hcol with h | h <;> rw [h]
    · exact .inr rfl
    · exact .inl (neg_neg' e)
  · exact hcol

end Verif.Collapsed
