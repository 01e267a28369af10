import Verif.Lemmas.CollapsedNet

/-!
# Collapsing both triangles at a vertical edge
-/

set_option linter.unusedSectionVars false

namespace Verif

open Vec

variable {T : Type} [CommRing T] [LinearOrder T] [IsStrictOrderedRing T]

namespace Net

variable {v : Vec T} {N N' : Net T} {e x t c u z : HE}

/-- The triangle at `e` has been collapsed. -/
def squashLeft (N : Net T) (e x t : HE) : Net T := if neg x = t then N.pinch e x t else N.dropX e x t

/-- The second half edge of the other triangle afterwards. -/
def second (x t c : HE) : HE := if c = neg x then t else c

/-- The triangle at `e` has been collapsed when its opposite has been collapsed before. -/
def squashRight (N : Net T) (e c u : HE) : Net T := if neg c = u then N.pinch e c u else N.dropT e c u

/-- Both triangles have been collapsed. -/
def squash (N : Net T) (e x t c u : HE) : Net T := (N.squashLeft e x t).squashRight (neg e) (second x t c) u

/-- The faces `(e, x, t)` and `(-e, c, u)` at a vertical half edge. -/
structure Gadget (v : Vec T) (N : Net T) (e x t c u : HE) : Prop where
  inv : N.Inv v
  v0 : v ≠ 0
  closed : ∀ z ∈ N.L, neg z ∈ N.L
  mem : e ∈ N.L
  vertical : cross (N.vec e) v = 0
  fe : N.f e = x
  fx : N.f x = t
  fe' : N.f (neg e) = c
  fc : N.f c = u

namespace Gadget

variable (g : Gadget v N e x t c u)

include g

theorem left : Thin v N e x t := by
  have hx : x ∈ N.L := g.fe ▸ g.inv.maps _ g.mem
  exact ⟨g.inv, g.v0, g.mem, g.vertical, g.fe, g.fx, g.closed _ hx, g.closed _ (g.fx ▸ g.inv.maps _ hx)⟩

theorem mem' : neg e ∈ N.L := g.closed _ g.mem

theorem right : Thin v N (neg e) c u := by
  have hx : c ∈ N.L := g.fe' ▸ g.inv.maps _ g.mem'
  refine ⟨g.inv, g.v0, g.mem', ?_, g.fe', g.fc, g.closed _ hx, g.closed _ (g.fc ▸ g.inv.maps _ hx)⟩
  rw [g.inv.cross_neg g.mem g.mem', g.vertical, neg_zero]

theorem swap : Gadget v N (neg e) c u x t :=
  ⟨g.inv, g.v0, g.closed, g.mem', g.right.vertical, g.fe', g.fc, by rw [neg_neg', g.fe], g.fx⟩

theorem vec_neg : N.vec (neg e) = -N.vec e := by
  have := g.inv.opp e g.mem g.mem'
  rw [g.left.conn_e, g.right.conn_e] at this
  simp only [List.sum_nil, add_zero] at this
  exact (neg_eq_of_add_eq_zero_right this).symm

/-- The sides of the triangles go into different directions. -/
theorem opposite : 0 < cross (N.vec x) v ∧ cross (N.vec t) v < 0 ∧ cross (N.vec c) v < 0 ∧ 0 < cross (N.vec u) v ∨
    cross (N.vec x) v < 0 ∧ 0 < cross (N.vec t) v ∧ 0 < cross (N.vec c) v ∧ cross (N.vec u) v < 0 := by
  have h1 := g.left.up
  have h2 := g.right.up
  rw [g.left.cross_t, g.right.cross_t]
  have h3 : dot (N.vec (neg e)) v = -dot (N.vec e) v := by
    rw [g.vec_neg]
    unfold dot
    simp only [Vec.neg_x, Vec.neg_y]
    ring
  rw [h3] at h2
  rcases lt_trichotomy (cross (N.vec x) v) 0 with h | h | h
  · right
    have h4 : 0 < dot (N.vec e) v := by
      by_contra hc
      push Not at hc
      nlinarith
    have h5 : 0 < cross (N.vec c) v := by
      by_contra hc
      push Not at hc
      nlinarith
    exact ⟨h, by linarith, h5, by linarith⟩
  · rw [h, mul_zero] at h1
    exact absurd h1 (lt_irrefl _)
  · left
    have h4 : dot (N.vec e) v < 0 := by
      by_contra hc
      push Not at hc
      nlinarith
    have h5 : cross (N.vec c) v < 0 := by
      by_contra hc
      push Not at hc
      nlinarith
    exact ⟨h, by linarith, h5, by linarith⟩

theorem ne_xu : neg x ≠ u := by
  intro k
  have h1 := g.left.cross_neg_x
  rw [k] at h1
  rcases g.opposite with h | h <;> linarith [h.1, h.2.2.2]

theorem ne_tc : neg t ≠ c := by
  intro k
  have h1 := g.left.cross_neg_t
  rw [k] at h1
  rcases g.opposite with h | h <;> linarith [h.1, h.2.2.1]

theorem ne_e' : neg e ≠ e ∧ neg e ≠ x ∧ neg e ≠ t := ⟨neg_ne e, g.left.neg_e.1, g.left.neg_e.2⟩

theorem ne_c : c ≠ e ∧ c ≠ x ∧ c ≠ t := by
  have h1 := g.left.away_f (z := neg e) ⟨g.mem', g.ne_e'⟩
  rw [g.fe'] at h1
  exact h1.2

theorem ne_u : u ≠ e ∧ u ≠ x ∧ u ≠ t := by
  have h1 := g.left.away_f (z := c) ⟨g.right.mem_x, g.ne_c⟩
  rw [g.fc] at h1
  exact h1.2

end Gadget

/-- What is known once the first triangle has been collapsed. -/
structure Half (v : Vec T) (N N' : Net T) (e c u : HE) : Prop where
  thin : Thin v N' (neg e) c u
  vec : N'.vec (neg e) = N.vec (neg e)
  all : N'.all = N.vec e ::ₘ N.all
  total : N'.total = N.total
  old : ∀ y ∈ N'.L, y ≠ neg e → ∃ z ∈ N.L, z ≠ e ∧ z ≠ neg e ∧ cross (N'.vec y) v = cross (N.vec z) v
  sub : N'.L ⊆ N.L
  gone : e ∉ N'.L

theorem Gadget.half (g : Gadget v N e x t c u) : Half v N (N.squashLeft e x t) e (second x t c) u := by
  have h := g.left
  obtain ⟨p1, p2, p3⟩ := g.ne_e'
  obtain ⟨q1, q2, q3⟩ := g.ne_c
  obtain ⟨r1, r2, r3⟩ := g.ne_u
  have cu := g.right.xt
  have nue : neg u ≠ e := fun k => g.right.et (by rw [← k, neg_neg'])
  have nce : neg c ≠ e := fun k => g.right.ex (by rw [← k, neg_neg'])
  unfold squashLeft
  split_ifs with hxt
  · have s := h.pinch
    have hc : c ≠ neg x := by rw [hxt]; exact q3
    have h1 : second x t c = c := if_neg hc
    have hv : (N.pinch e x t).vec (neg e) = N.vec (neg e) := s.vec _ g.mem' p1 p2
    rw [h1]
    refine ⟨⟨s.inv h hxt, g.v0, s.mem.2 ⟨g.mem', p1⟩, by rw [hv]; exact g.right.vertical, ?_, ?_, s.mem.2 ⟨g.right.neg_x, nce⟩,
      s.mem.2 ⟨g.right.neg_t, nue⟩⟩, hv, s.all_eq h, s.total_eq h, ?_, fun y hy => (s.mem.1 hy).1, fun k => (s.mem.1 k).2 rfl⟩
    · rw [s.f _ ⟨g.mem', p1, p2, p3⟩, g.fe']
    · rw [s.f _ ⟨g.right.mem_x, q1, q2, q3⟩, g.fc]
    · intro y hy hy'
      obtain ⟨y1, y2⟩ := s.mem.1 hy
      exact ⟨y, y1, y2, hy', s.cross_vec h y1 y2⟩
  · have s := h.dropX hxt
    have a0 : N.Away e x t (neg e) := ⟨g.mem', p1, p2, p3⟩
    have ne : neg e ≠ neg x := fun k => h.ex (neg_inj'.1 k)
    have hmem : ∀ z, z ∈ (N.dropX e x t).L ↔ z ≠ neg x ∧ z ≠ x ∧ z ≠ e ∧ z ∈ N.L := by
      intro z
      unfold Net.dropX
      simp only [Finset.mem_erase]
    have hv : (N.dropX e x t).vec (neg e) = N.vec (neg e) := by
      have := s.vec _ a0
      rwa [if_neg ne] at this
    have hac : N.Away e x t c := ⟨g.right.mem_x, q1, q2, q3⟩
    have f1 := s.face _ a0
    rw [if_neg ne, g.fe'] at f1
    have f2 := s.face _ hac
    rw [g.fc, if_neg g.ne_xu.symm] at f2
    refine ⟨⟨s.inv h hxt, g.v0, ?_, by rw [hv]; exact g.right.vertical, f1, f2, ?_, ?_⟩, hv, s.all_eq h hxt, s.total_eq h hxt, ?_, ?_, ?_⟩
    · rw [hmem]
      exact ⟨ne, p2, p1, g.mem'⟩
    · rw [hmem]
      unfold second
      split_ifs with k
      · exact ⟨fun k => h.xt (neg_inj'.1 k).symm, fun k => hxt (by rw [← k, neg_neg']), h.neg_t_ne.1, h.neg_t⟩
      · exact ⟨fun j => q2 (neg_inj'.1 j), fun j => k (by rw [← j, neg_neg']), nce, g.right.neg_x⟩
    · rw [hmem]
      exact ⟨fun j => r2 (neg_inj'.1 j), fun j => g.ne_xu (by rw [← j, neg_neg']), nue, g.right.neg_t⟩
    · intro y hy hy'
      obtain ⟨z, hz, rfl⟩ := s.surj y hy
      refine ⟨z, hz.1, hz.2.1, ?_, by rw [s.vec z hz]⟩
      rintro rfl
      rw [if_neg ne] at hy'
      exact hy' rfl
    · intro y hy
      exact ((hmem y).1 hy).2.2.2
    · exact fun k => ((hmem e).1 k).2.2.1 rfl

theorem Half.squash_inv (g : Half v N N' e c u) : (N'.squashRight (neg e) c u).Inv v := by
  unfold squashRight
  split_ifs with h
  · exact g.thin.pinch.inv g.thin h
  · exact (g.thin.dropT h).inv g.thin h

theorem Half.squash_all (g : Half v N N' e c u) : (N'.squashRight (neg e) c u).all = N.vec (neg e) ::ₘ N.vec e ::ₘ N.all := by
  unfold squashRight
  rw [← g.all, ← g.vec]
  split_ifs with h
  · exact g.thin.pinch.all_eq g.thin
  · exact (g.thin.dropT h).all_eq g.thin h

theorem Half.squash_total (g : Half v N N' e c u) : (N'.squashRight (neg e) c u).total = N.total := by
  unfold squashRight
  rw [← g.total]
  split_ifs with h
  · exact g.thin.pinch.total_eq g.thin
  · exact (g.thin.dropT h).total_eq g.thin h

theorem Half.squash_old (g : Half v N N' e c u) :
    ∀ y ∈ (N'.squashRight (neg e) c u).L, ∃ z ∈ N.L, z ≠ e ∧ z ≠ neg e ∧ cross ((N'.squashRight (neg e) c u).vec y) v = cross (N.vec z) v := by
  unfold squashRight
  split_ifs with h
  · intro y hy
    have s := g.thin.pinch
    obtain ⟨y1, y2⟩ := s.mem.1 hy
    obtain ⟨z, z1, z2, z3, z4⟩ := g.old y y1 y2
    exact ⟨z, z1, z2, z3, by rw [s.cross_vec g.thin y1 y2, z4]⟩
  · intro y hy
    have s := g.thin.dropT h
    obtain ⟨w, hw, rfl⟩ := s.surj y hy
    obtain ⟨z, z1, z2, z3, z4⟩ := g.old w hw.1 hw.2.1
    exact ⟨z, z1, z2, z3, by rw [s.vec w hw, z4]⟩

theorem Gadget.squash_inv (g : Gadget v N e x t c u) : (N.squash e x t c u).Inv v := g.half.squash_inv

theorem Gadget.squash_all (g : Gadget v N e x t c u) : (N.squash e x t c u).all = N.vec (neg e) ::ₘ N.vec e ::ₘ N.all := g.half.squash_all

theorem Gadget.squash_total (g : Gadget v N e x t c u) : (N.squash e x t c u).total = N.total := g.half.squash_total

theorem Gadget.squash_old (g : Gadget v N e x t c u) :
    ∀ y ∈ (N.squash e x t c u).L, ∃ z ∈ N.L, z ≠ e ∧ z ≠ neg e ∧ cross ((N.squash e x t c u).vec y) v = cross (N.vec z) v := g.half.squash_old

/-! ### The half edges that are left -/

theorem mem_dropX : z ∈ (N.dropX e x t).L ↔ z ∈ N.L ∧ z ≠ e ∧ z ≠ x ∧ z ≠ neg x := by
  unfold dropX
  simp only [Finset.mem_erase]
  tauto

theorem mem_dropT : z ∈ (N.dropT e x t).L ↔ z ∈ N.L ∧ z ≠ e ∧ z ≠ t ∧ z ≠ neg t := by
  unfold dropT
  simp only [Finset.mem_erase]
  tauto

theorem mem_pinch : z ∈ (N.pinch e x t).L ↔ z ∈ N.L ∧ z ≠ e := by
  unfold pinch
  simp only [Finset.mem_erase]
  tauto

theorem mem_squash : z ∈ (N.squash e x t c u).L ↔ z ∈ N.L ∧ z ≠ e ∧ z ≠ neg e ∧ (neg x ≠ t → z ≠ x ∧ z ≠ neg x) ∧
    (neg (second x t c) ≠ u → z ≠ u ∧ z ≠ neg u) := by
  unfold squash squashRight squashLeft
  split_ifs with h1 h2 h2
  · simp only [mem_pinch]; tauto
  · simp only [mem_pinch, mem_dropX]; tauto
  · simp only [mem_pinch, mem_dropT]; tauto
  · simp only [mem_dropX, mem_dropT]; tauto

/-! ### Half edges that are not close -/

/-- A half edge that is not close to a collapsed triangle: it has not changed, and neither has the length of what comes next. -/
structure Kept (N N' : Net T) (z : HE) (P : HE → Prop) : Prop where
  mem : z ∈ N'.L
  vec : N'.vec z = N.vec z
  next : N'.vec (N'.f z) = N.vec (N.f z)
  f : ¬ P (N.f z) → N'.f z = N.f z

theorem Kept.trans {N1 N2 : Net T} {P Q : HE → Prop} (h : Kept N N1 z P) (h' : Kept N1 N2 z Q) : Kept N N2 z fun w => P w ∨ Q w := by
  refine ⟨h'.mem, h'.vec.trans h.vec, h'.next.trans h.next, fun k => ?_⟩
  push Not at k
  have h1 := h.f k.1
  rw [← h1]
  exact h'.f (by rw [h1]; exact k.2)

theorem Thin.kept_dropX (h : Thin v N e x t) (hz : N.Away e x t z) (hx : z ≠ neg x) : Kept N (N.dropX e x t) z (· = neg x) := by
  obtain ⟨z1, z2, z3, z4⟩ := hz
  have hf := (h.away_f ⟨z1, z2, z3, z4⟩).2
  refine ⟨mem_dropX.2 ⟨z1, z2, z3, hx⟩, ?_, ?_, ?_⟩
  · unfold Net.dropX
    dsimp only
    rw [if_neg z4]
  · unfold Net.dropX
    dsimp only
    rw [if_neg z4]
    split_ifs with k1 k2 k2
    · rw [k1]
    · exact absurd rfl k2
    · exact absurd k2 hf.2.2
    · rfl
  · intro k
    unfold Net.dropX
    dsimp only
    rw [if_neg z4, if_neg k]

theorem Thin.kept_dropT (h : Thin v N e x t) (hz : N.Away e x t z) (hx : z ≠ neg t) : Kept N (N.dropT e x t) z (· = neg t) := by
  obtain ⟨z1, z2, z3, z4⟩ := hz
  have hf := (h.away_f ⟨z1, z2, z3, z4⟩).2
  refine ⟨mem_dropT.2 ⟨z1, z2, z4, hx⟩, ?_, ?_, ?_⟩
  · unfold Net.dropT
    dsimp only
    rw [if_neg z3]
  · unfold Net.dropT
    dsimp only
    rw [if_neg z3]
    split_ifs with k1 k2 k2
    · rw [k1]
    · exact absurd rfl k2
    · exact absurd k2 hf.2.1
    · rfl
  · intro k
    unfold Net.dropT
    dsimp only
    rw [if_neg z3, if_neg k]

theorem Thin.kept_pinch (h : Thin v N e x t) (hz : N.Away e x t z) (P : HE → Prop) : Kept N (N.pinch e x t) z P := by
  obtain ⟨z1, z2, z3, z4⟩ := hz
  have hf := (h.away_f ⟨z1, z2, z3, z4⟩).2
  have hz' : (N.pinch e x t).f z = N.f z := by
    unfold Net.pinch
    dsimp only
    rw [if_neg z3, if_neg z4]
  refine ⟨mem_pinch.2 ⟨z1, z2⟩, ?_, ?_, fun _ => hz'⟩
  · unfold Net.pinch
    dsimp only
    rw [if_neg z3]
  · rw [hz']
    unfold Net.pinch
    dsimp only
    rw [if_neg hf.2.1]

/-- One of the sides of the triangles, up to orientation. -/
def Close (e x t c u z : HE) : Prop := ∃ w ∈ [e, x, t, neg e, c, u], z = w ∨ z = neg w

theorem Gadget.kept (g : Gadget v N e x t c u) (hz : z ∈ N.L) (hc : ¬ Close e x t c u z) : Kept N (N.squash e x t c u) z (Close e x t c u) := by
  have out : ∀ w ∈ [e, x, t, neg e, c, u], z ≠ w ∧ z ≠ neg w := fun w hw =>
    ⟨fun k => hc ⟨w, hw, .inl k⟩, fun k => hc ⟨w, hw, .inr k⟩⟩
  have oe := out e (by simp)
  have ox := out x (by simp)
  have ot := out t (by simp)
  have oc := out c (by simp)
  have ou := out u (by simp)
  have h1 : ∃ P : HE → Prop, Kept N (N.squashLeft e x t) z P ∧ ∀ w, P w → w = neg x := by
    unfold squashLeft
    split_ifs with k
    · exact ⟨fun _ => False, g.left.kept_pinch ⟨hz, oe.1, ox.1, ot.1⟩ _, fun _ => False.elim⟩
    · exact ⟨_, g.left.kept_dropX ⟨hz, oe.1, ox.1, ot.1⟩ ox.2, fun _ => id⟩
  obtain ⟨P, k1, k2⟩ := h1
  have os : z ≠ second x t c := by
    unfold second
    split_ifs
    · exact ot.1
    · exact oc.1
  have h2 : ∃ Q : HE → Prop, Kept (N.squashLeft e x t) (N.squash e x t c u) z Q ∧ ∀ w, Q w → w = neg u := by
    unfold squash squashRight
    split_ifs with k
    · exact ⟨fun _ => False, g.half.thin.kept_pinch ⟨k1.mem, oe.2, os, ou.1⟩ _, fun _ => False.elim⟩
    · exact ⟨_, g.half.thin.kept_dropT ⟨k1.mem, oe.2, os, ou.1⟩ ou.2, fun _ => id⟩
  obtain ⟨Q, k3, k4⟩ := h2
  have k5 := k1.trans k3
  refine ⟨k5.mem, k5.vec, k5.next, fun k => k5.f ?_⟩
  rintro (j | j)
  · exact k ⟨x, by simp, .inr (k2 _ j)⟩
  · exact k ⟨u, by simp, .inr (k4 _ j)⟩

/-! ### Renaming -/

/-- The half edges have been renamed. -/
structure Ren (σ : Equiv.Perm ℕ) (N N' : Net T) : Prop where
  odd : ∀ z, σ (neg z) = neg (σ z)
  mem : ∀ z, σ z ∈ N'.L ↔ z ∈ N.L
  f : ∀ z, N'.f (σ z) = σ (N.f z)
  vec : ∀ z, N'.vec (σ z) = N.vec z
  conn : ∀ z, N'.conn (σ z) = N.conn z

variable {σ : Equiv.Perm ℕ}

theorem Ren.dropX (r : Ren σ N N') (e x t : HE) : Ren σ (N.dropX e x t) (N'.dropX (σ e) (σ x) (σ t)) := by
  refine ⟨r.odd, ?_, ?_, ?_, ?_⟩
  · intro z
    simp only [mem_dropX, r.mem, ← r.odd, ne_eq, σ.injective.eq_iff]
  · intro z
    unfold Net.dropX
    simp only [← r.odd, σ.injective.eq_iff]
    rw [← apply_ite σ, r.f, ← apply_ite σ]
    simp only [σ.injective.eq_iff]
  · intro z
    unfold Net.dropX
    simp only [← r.odd, σ.injective.eq_iff, r.vec]
  · intro z
    unfold Net.dropX
    simp only [← r.odd, σ.injective.eq_iff, r.vec, r.conn]

theorem Ren.dropT (r : Ren σ N N') (e x t : HE) : Ren σ (N.dropT e x t) (N'.dropT (σ e) (σ x) (σ t)) := by
  refine ⟨r.odd, ?_, ?_, ?_, ?_⟩
  · intro z
    simp only [mem_dropT, r.mem, ← r.odd, ne_eq, σ.injective.eq_iff]
  · intro z
    unfold Net.dropT
    simp only [← r.odd, σ.injective.eq_iff]
    rw [← apply_ite σ, r.f, ← apply_ite σ]
    simp only [σ.injective.eq_iff]
  · intro z
    unfold Net.dropT
    simp only [← r.odd, σ.injective.eq_iff, r.vec]
  · intro z
    unfold Net.dropT
    simp only [← r.odd, σ.injective.eq_iff, r.vec, r.conn]

theorem Ren.pinch (r : Ren σ N N') (e x t : HE) : Ren σ (N.pinch e x t) (N'.pinch (σ e) (σ x) (σ t)) := by
  refine ⟨r.odd, ?_, ?_, ?_, ?_⟩
  · intro z
    simp only [mem_pinch, r.mem, ne_eq, σ.injective.eq_iff]
  · intro z
    unfold Net.pinch
    simp only [σ.injective.eq_iff, r.f]
    rw [← apply_ite σ, ← apply_ite σ]
  · intro z
    unfold Net.pinch
    simp only [σ.injective.eq_iff, r.vec]
  · intro z
    unfold Net.pinch
    simp only [σ.injective.eq_iff, r.vec, r.conn]

theorem Ren.second (hσ : ∀ z, σ (neg z) = neg (σ z)) (x t c : HE) : Net.second (σ x) (σ t) (σ c) = σ (Net.second x t c) := by
  unfold Net.second
  rw [← hσ, apply_ite σ]
  simp only [σ.injective.eq_iff]

theorem Ren.squash (r : Ren σ N N') (e x t c u : HE) : Ren σ (N.squash e x t c u) (N'.squash (σ e) (σ x) (σ t) (σ c) (σ u)) := by
  unfold Net.squash Net.squashRight Net.squashLeft
  rw [Ren.second r.odd, ← r.odd, ← r.odd, ← r.odd]
  simp only [σ.injective.eq_iff]
  split_ifs with h1 h2 h2
  · exact (r.pinch _ _ _).pinch _ _ _
  · exact (r.dropX _ _ _).pinch _ _ _
  · exact (r.pinch _ _ _).dropT _ _ _
  · exact (r.dropX _ _ _).dropT _ _ _

theorem Ren.gadget (r : Ren σ N N') (g : Gadget v N e x t c u) : Gadget v N' (σ e) (σ x) (σ t) (σ c) (σ u) := by
  have hr : Renamed N N' σ := ⟨r.odd, r.mem, fun z _ => r.f z, fun z _ => r.vec z, fun z _ => r.conn z⟩
  refine ⟨hr.inv g.inv, g.v0, ?_, (r.mem _).2 g.mem, by rw [r.vec]; exact g.vertical, by rw [r.f, g.fe], by rw [r.f, g.fx],
    by rw [← r.odd, r.f, g.fe'], by rw [r.f, g.fc]⟩
  intro z hz
  obtain ⟨z, rfl⟩ := σ.surjective z
  rw [← r.odd, r.mem]
  exact g.closed z ((r.mem z).1 hz)

end Net

end Verif
