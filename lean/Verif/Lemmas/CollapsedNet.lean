import Verif.Lemmas.Vector
import Verif.Lemmas.HalfEdge
import Mathlib.Algebra.BigOperators.Group.Finset.Basic
import Mathlib.Algebra.BigOperators.Ring.Finset

/-!
# Faces that are only connected through vertical saddle connections

The combinatorics of collapsing half of an edge: one of the triangles at a vertical half edge disappears.
-/

set_option linter.unusedSectionVars false

namespace Verif

open Vec

variable {T : Type} [CommRing T] [LinearOrder T] [IsStrictOrderedRing T]

/-- Half edges with their faces, vectors and the vertical connections between them and their opposites. -/
structure Net (T : Type) where
  L : Finset HE
  f : HE → HE
  vec : HE → Vec T
  conn : HE → List (Vec T)

namespace Net

/-- A triangle. -/
def IsTri (N : Net T) (z : HE) : Prop :=
  N.f (N.f (N.f z)) = z ∧ N.vec z + N.vec (N.f z) + N.vec (N.f (N.f z)) = 0 ∧ 0 < cross (N.vec z) (N.vec (N.f z))

/-- A triangle that has been collapsed to an edge. -/
def IsThin (v : Vec T) (N : Net T) (z : HE) : Prop :=
  N.f z = neg z ∧ N.f (neg z) = z ∧ neg z ∈ N.L ∧ N.vec z + N.vec (neg z) = 0 ∧ cross (N.vec z) v ≠ 0

structure Inv (v : Vec T) (N : Net T) : Prop where
  maps : ∀ z ∈ N.L, N.f z ∈ N.L
  inj : ∀ z ∈ N.L, ∀ w ∈ N.L, N.f z = N.f w → z = w
  face : ∀ z ∈ N.L, N.IsTri z ∨ N.IsThin v z
  opp : ∀ z ∈ N.L, neg z ∈ N.L → N.vec z + N.vec (neg z) = (N.conn z).sum + (N.conn (neg z)).sum
  vert : ∀ z ∈ N.L, ∀ k ∈ N.conn z, cross k v = 0 ∧ dot k v * cross (N.vec z) v < 0

/-- All the vertical connections. -/
def all (N : Net T) : Multiset (Vec T) := ∑ z ∈ N.L, (N.conn z : Multiset (Vec T))

/-- The area of the half edge's connections. -/
def wedge (N : Net T) (z : HE) : T := cross (N.conn z).sum (N.vec z)

/-- The area of the triangle. -/
def corner (N : Net T) (z : HE) : T := if N.f (N.f z) = z then 0 else cross (N.vec z) (N.vec (N.f z))

/-- Three times the doubled area. -/
def total (N : Net T) : T := ∑ z ∈ N.L, (3 * N.wedge z + N.corner z)

/-! ### Vertical vectors -/

theorem cross_sum_left (l : List (Vec T)) (v : Vec T) (h : ∀ k ∈ l, cross k v = 0) : cross l.sum v = 0 := by
  induction l with
  | nil => simp
  | cons k l ih =>
    rw [List.sum_cons, cross_add_left, h k (by simp), ih fun k hk => h k (by simp [hk]), add_zero]

theorem dot_self_pos {v : Vec T} (hv : v ≠ 0) : 0 < dot v v := by
  unfold dot
  by_contra hc
  push Not at hc
  have h1 := mul_self_nonneg v.x
  have h2 := mul_self_nonneg v.y
  exact hv (Vec.ext (mul_self_eq_zero.1 (by linarith)) (mul_self_eq_zero.1 (by linarith)))

theorem parallel_mul {v k w : Vec T} (hk : cross k v = 0) : dot v v * cross k w = -(dot k v * cross w v) := by
  have : k.x * v.y - k.y * v.x = 0 := hk
  unfold dot cross
  linear_combination (v.x * w.x + v.y * w.y) * this

theorem parallel {v k w : Vec T} (hv : v ≠ 0) (hk : cross k v = 0) (hw : cross w v = 0) : cross k w = 0 := by
  have h1 := parallel_mul (w := w) hk
  rw [hw, mul_zero, neg_zero] at h1
  exact (mul_eq_zero.1 h1).resolve_left (dot_self_pos hv).ne'

variable {v : Vec T} {N N' : Net T} {e x t z : HE}

theorem Inv.cross_conn (h : N.Inv v) {z : HE} (hz : z ∈ N.L) : cross (N.conn z).sum v = 0 :=
  cross_sum_left _ _ fun k hk => (h.vert z hz k hk).1

/-- Opposite half edges are horizontally opposite. -/
theorem Inv.cross_neg (h : N.Inv v) {z : HE} (hz : z ∈ N.L) (hz' : neg z ∈ N.L) :
    cross (N.vec (neg z)) v = -cross (N.vec z) v := by
  have h1 := congrArg (cross · v) (h.opp z hz hz')
  simp only [cross_add_left, h.cross_conn hz, h.cross_conn hz', add_zero] at h1
  linear_combination h1

theorem Inv.conn_nil (h : N.Inv v) {z : HE} (hz : z ∈ N.L) (hx : cross (N.vec z) v = 0) : N.conn z = [] := by
  by_contra hc
  obtain ⟨k, hk⟩ := List.exists_mem_of_ne_nil _ hc
  have := (h.vert z hz k hk).2
  rw [hx, mul_zero] at this
  exact lt_irrefl _ this

theorem IsTri.next (h : N.IsTri z) : N.IsTri (N.f z) := by
  obtain ⟨h1, h2, h3⟩ := h
  refine ⟨by rw [h1], by rw [h1, ← h2]; abel, ?_⟩
  have h4 : N.vec (N.f (N.f z)) = -N.vec z - N.vec (N.f z) := by
    rw [← sub_eq_zero, ← h2]; abel
  rw [h4, cross_sub_right, cross_neg_right, cross_self, sub_zero, ← cross_comm]
  exact h3

theorem IsTri.ne (h : N.IsTri z) : N.f z ≠ z ∧ N.f (N.f z) ≠ z := by
  have key : ∀ w, N.IsTri w → N.f w ≠ w := by
    rintro w ⟨-, -, h3⟩ hc
    rw [hc, cross_self] at h3
    exact lt_irrefl _ h3
  refine ⟨key z h, fun hc => ?_⟩
  have h1 := h.1
  rw [hc] at h1
  exact key z h h1

/-- A face with a vertical side is a triangle. -/
theorem Inv.tri_of_vertical (h : N.Inv v) {z : HE} (hz : z ∈ N.L) (hx : cross (N.vec z) v = 0) : N.IsTri z :=
  (h.face z hz).resolve_right fun k => k.2.2.2.2 hx

/-- The other sides of a face with a vertical side. -/
theorem IsTri.horizontal (hv : v ≠ 0) (h : N.IsTri e) (he : cross (N.vec e) v = 0) :
    cross (N.vec (N.f (N.f e))) v = -cross (N.vec (N.f e)) v ∧ dot (N.vec e) v * cross (N.vec (N.f e)) v < 0 := by
  obtain ⟨h1, h2, h3⟩ := h
  constructor
  · have := congrArg (cross · v) h2
    simp only [cross_add_left, cross_zero_left, he, zero_add] at this
    linear_combination this
  · have h4 := parallel_mul (w := N.vec (N.f e)) he
    have h5 := mul_pos (dot_self_pos hv) h3
    rw [h4] at h5
    linarith

/-! ### Squeezing a triangle -/

/-- The half edges that are not in the face `(e, x, t)`. -/
def Away (N : Net T) (e x t z : HE) : Prop := z ∈ N.L ∧ z ≠ e ∧ z ≠ x ∧ z ≠ t

/-- The face `(e, x, t)` has disappeared, its sides `x` and `t` have been glued to each other. A half edge `z` that is not in the face
is called `ρ z` afterwards. -/
structure Squeezed (N N' : Net T) (e x t : HE) (ρ : HE → HE) : Prop where
  mem : ∀ z, N.Away e x t z → ρ z ∈ N'.L
  inj : ∀ z w, N.Away e x t z → N.Away e x t w → ρ z = ρ w → z = w
  surj : ∀ y ∈ N'.L, ∃ z, N.Away e x t z ∧ ρ z = y
  face : ∀ z, N.Away e x t z → N'.f (ρ z) = ρ (N.f z)
  odd : ∀ z, N.Away e x t z → neg z ∈ N.L → z ≠ neg e → z ≠ neg x → z ≠ neg t → neg (ρ z) = ρ (neg z)
  glue : neg (ρ (neg x)) = ρ (neg t)
  out : ∀ z, N.Away e x t z → z = neg e ∨ neg z ∉ N.L → neg (ρ z) ∉ N'.L
  vec : ∀ z, N.Away e x t z → N'.vec (ρ z) = N.vec z
  conn : ∀ z, N.Away e x t z → z ≠ neg x → z ≠ neg t → N'.conn (ρ z) = N.conn z
  conn_x : N'.conn (ρ (neg x)) = N.conn (neg x) ++ N.conn t
  conn_t : N'.conn (ρ (neg t)) = N.conn (neg t) ++ N.vec e :: N.conn x

/-- What is needed of a triangle to be squeezed. -/
structure Thin (v : Vec T) (N : Net T) (e x t : HE) : Prop where
  inv : N.Inv v
  v0 : v ≠ 0
  mem : e ∈ N.L
  vertical : cross (N.vec e) v = 0
  fe : N.f e = x
  fx : N.f x = t
  neg_x : neg x ∈ N.L
  neg_t : neg t ∈ N.L

namespace Thin

theorem tri (h : Thin v N e x t) : N.IsTri e := h.inv.tri_of_vertical h.mem h.vertical

theorem ft (h : Thin v N e x t) : N.f t = e := by rw [← h.fx, ← h.fe]; exact h.tri.1

theorem mem_x (h : Thin v N e x t) : x ∈ N.L := h.fe ▸ h.inv.maps _ h.mem

theorem mem_t (h : Thin v N e x t) : t ∈ N.L := h.fx ▸ h.inv.maps _ h.mem_x

theorem sum (h : Thin v N e x t) : N.vec e + N.vec x + N.vec t = 0 := by
  have := h.tri.2.1
  rwa [h.fe, h.fx] at this

theorem pos (h : Thin v N e x t) : 0 < cross (N.vec e) (N.vec x) := by
  have := h.tri.2.2
  rwa [h.fe] at this

theorem cross_t (h : Thin v N e x t) : cross (N.vec t) v = -cross (N.vec x) v := by
  have := (h.tri.horizontal h.v0 h.vertical).1
  rwa [h.fe, h.fx] at this

theorem up (h : Thin v N e x t) : dot (N.vec e) v * cross (N.vec x) v < 0 := by
  have := (h.tri.horizontal h.v0 h.vertical).2
  rwa [h.fe] at this

theorem cross_x (h : Thin v N e x t) : cross (N.vec x) v ≠ 0 := by
  intro hc
  have := h.up
  rw [hc, mul_zero] at this
  exact lt_irrefl _ this

theorem cross_neg_x (h : Thin v N e x t) : cross (N.vec (neg x)) v = -cross (N.vec x) v := h.inv.cross_neg h.mem_x h.neg_x

theorem cross_neg_t (h : Thin v N e x t) : cross (N.vec (neg t)) v = cross (N.vec x) v := by
  rw [h.inv.cross_neg h.mem_t h.neg_t, h.cross_t, neg_neg]

theorem ex (h : Thin v N e x t) : e ≠ x := by rw [← h.fe]; exact h.tri.ne.1.symm

theorem et (h : Thin v N e x t) : e ≠ t := by rw [← h.fx, ← h.fe]; exact h.tri.ne.2.symm

theorem xt (h : Thin v N e x t) : x ≠ t := by
  have := h.tri.next.ne.1
  rw [h.fe, h.fx] at this
  exact this.symm

theorem neg_x_ne (h : Thin v N e x t) : neg x ≠ e ∧ neg x ≠ x := by
  refine ⟨fun k => ?_, neg_ne x⟩
  have := h.cross_neg_x
  rw [k, h.vertical] at this
  exact h.cross_x (by linarith)

theorem neg_t_ne (h : Thin v N e x t) : neg t ≠ e ∧ neg t ≠ t := by
  refine ⟨fun k => ?_, neg_ne t⟩
  have := h.cross_neg_t
  rw [k, h.vertical] at this
  exact h.cross_x this.symm

theorem neg_e (h : Thin v N e x t) : neg e ≠ x ∧ neg e ≠ t := by
  constructor
  · intro k
    exact h.neg_x_ne.1 (by rw [← k, neg_neg'])
  · intro k
    exact h.neg_t_ne.1 (by rw [← k, neg_neg'])

theorem away_x (h : Thin v N e x t) (hxt : neg x ≠ t) : N.Away e x t (neg x) := ⟨h.neg_x, h.neg_x_ne.1, h.neg_x_ne.2, hxt⟩

theorem away_t (h : Thin v N e x t) (hxt : neg x ≠ t) : N.Away e x t (neg t) :=
  ⟨h.neg_t, h.neg_t_ne.1, fun k => hxt (by rw [← k, neg_neg']), h.neg_t_ne.2⟩

theorem away_f (h : Thin v N e x t) {z : HE} (hz : N.Away e x t z) : N.Away e x t (N.f z) := by
  obtain ⟨z0, z1, z2, z3⟩ := hz
  refine ⟨h.inv.maps _ z0, fun k => z3 ?_, fun k => z1 ?_, fun k => z2 ?_⟩
  · exact h.inv.inj _ z0 _ h.mem_t (by rw [k, h.ft])
  · exact h.inv.inj _ z0 _ h.mem (by rw [k, h.fe])
  · exact h.inv.inj _ z0 _ h.mem_x (by rw [k, h.fx])

theorem opp_x (h : Thin v N e x t) : N.vec x + N.vec (neg x) = (N.conn x).sum + (N.conn (neg x)).sum := h.inv.opp _ h.mem_x h.neg_x

theorem opp_t (h : Thin v N e x t) : N.vec t + N.vec (neg t) = (N.conn t).sum + (N.conn (neg t)).sum := h.inv.opp _ h.mem_t h.neg_t

theorem conn_e (h : Thin v N e x t) : N.conn e = [] := h.inv.conn_nil h.mem h.vertical

end Thin

theorem Squeezed.inv (h : Thin v N e x t) (hxt : neg x ≠ t) {ρ : HE → HE} (s : Squeezed N N' e x t ρ) : N'.Inv v := by
  have hxt' : neg x ≠ neg t := fun k => h.xt (neg_inj'.1 k)
  have ax := h.away_x hxt
  have at' := h.away_t hxt
  refine ⟨?_, ?_, ?_, ?_, ?_⟩
  · intro y hy
    obtain ⟨z, hz, rfl⟩ := s.surj y hy
    rw [s.face z hz]
    exact s.mem _ (h.away_f hz)
  · intro y hy y' hy' k
    obtain ⟨z, hz, rfl⟩ := s.surj y hy
    obtain ⟨w, hw, rfl⟩ := s.surj y' hy'
    rw [s.face z hz, s.face w hw] at k
    rw [h.inv.inj _ hz.1 _ hw.1 (s.inj _ _ (h.away_f hz) (h.away_f hw) k)]
  · intro y hy
    obtain ⟨z, hz, rfl⟩ := s.surj y hy
    have hz1 := h.away_f hz
    have hz2 := h.away_f hz1
    rcases h.inv.face z hz.1 with ⟨t1, t2, t3⟩ | ⟨t1, t2, t3, t4, t5⟩
    · left
      refine ⟨by rw [s.face z hz, s.face _ hz1, s.face _ hz2, t1], ?_, ?_⟩
      · rw [s.face z hz, s.face _ hz1, s.vec z hz, s.vec _ hz1, s.vec _ hz2, t2]
      · rw [s.face z hz, s.vec z hz, s.vec _ hz1]; exact t3
    · right
      have n : neg (ρ z) = ρ (neg z) := by
        refine s.odd z hz t3 ?_ ?_ ?_
        · intro k
          have := h.inv.cross_neg hz.1 t3
          rw [k, neg_neg', h.vertical] at this
          rw [k] at t5
          exact t5 (by linarith)
        · intro k
          rw [k, neg_neg'] at t2
          exact hxt (by rw [← t2, h.fx])
        · intro k
          rw [k, neg_neg'] at t2
          rw [h.ft] at t2
          exact h.neg_t_ne.1 t2.symm
      have hz' : N.Away e x t (neg z) := by rw [← t1]; exact hz1
      refine ⟨by rw [s.face z hz, t1, n], by rw [n, s.face _ hz', t2], by rw [n]; exact s.mem _ hz', ?_, by rw [s.vec z hz]; exact t5⟩
      rw [n, s.vec z hz, s.vec _ hz', t4]
  · have key : N'.vec (ρ (neg x)) + N'.vec (ρ (neg t)) = (N'.conn (ρ (neg x))).sum + (N'.conn (ρ (neg t))).sum := by
      rw [s.vec _ ax, s.vec _ at', s.conn_x, s.conn_t, List.sum_append, List.sum_append, List.sum_cons]
      have h1 := h.opp_x
      have h2 := h.opp_t
      have h3 := h.sum
      have h4 : N.vec (neg x) = (N.conn x).sum + (N.conn (neg x)).sum - N.vec x := by rw [← h1]; abel
      have h5 : N.vec (neg t) = (N.conn t).sum + (N.conn (neg t)).sum - N.vec t := by rw [← h2]; abel
      have h6 : N.vec e = -N.vec x - N.vec t := by rw [← sub_eq_zero, ← h3]; abel
      rw [h4, h5, h6]
      abel
    intro y hy hy'
    obtain ⟨z, hz, rfl⟩ := s.surj y hy
    by_cases k1 : z = neg x
    · rw [k1, s.glue]; exact key
    by_cases k2 : z = neg t
    · have : neg (ρ (neg t)) = ρ (neg x) := by rw [← s.glue, neg_neg']
      rw [k2, this, add_comm, key, add_comm]
    have k3 : z ≠ neg e := fun k => s.out z hz (.inl k) hy'
    have k4 : neg z ∈ N.L := by
      by_contra k
      exact s.out z hz (.inr k) hy'
    have hz' : N.Away e x t (neg z) := ⟨k4, fun k => k3 (by rw [← k, neg_neg']), fun k => k1 (by rw [← k, neg_neg']), fun k => k2 (by rw [← k, neg_neg'])⟩
    have j1 : neg z ≠ neg x := fun k => hz.2.2.1 (neg_inj'.1 k)
    have j2 : neg z ≠ neg t := fun k => hz.2.2.2 (neg_inj'.1 k)
    rw [s.odd z hz k4 k3 k1 k2, s.vec z hz, s.vec _ hz', s.conn z hz k1 k2, s.conn _ hz' j1 j2]
    exact h.inv.opp z hz.1 k4
  · intro y hy k hk
    obtain ⟨z, hz, rfl⟩ := s.surj y hy
    rw [s.vec z hz]
    by_cases k1 : z = neg x
    · subst k1
      rw [s.conn_x, List.mem_append] at hk
      rcases hk with hk | hk
      · exact h.inv.vert _ hz.1 k hk
      · have := h.inv.vert _ h.mem_t k hk
        rwa [h.cross_t, ← h.cross_neg_x] at this
    by_cases k2 : z = neg t
    · subst k2
      rw [s.conn_t, List.mem_append, List.mem_cons] at hk
      rcases hk with hk | rfl | hk
      · exact h.inv.vert _ hz.1 k hk
      · exact ⟨h.vertical, by rw [h.cross_neg_t]; exact h.up⟩
      · have := h.inv.vert _ h.mem_x k hk
        rwa [← h.cross_neg_t] at this
    rw [s.conn z hz k1 k2] at hk
    exact h.inv.vert _ hz.1 k hk

/-- The half edges that are not in the face. -/
def rest (N : Net T) (e x t : HE) : Finset HE := ((N.L.erase e).erase x).erase t

theorem mem_rest {N : Net T} {e x t z : HE} : z ∈ N.rest e x t ↔ N.Away e x t z := by
  unfold rest Away
  simp only [Finset.mem_erase]
  tauto

theorem Thin.sum_rest (h : Thin v N e x t) {M : Type*} [AddCommMonoid M] (F : HE → M) :
    ∑ z ∈ N.L, F z = F e + (F x + (F t + ∑ z ∈ N.rest e x t, F z)) := by
  unfold rest
  rw [Finset.add_sum_erase _ F (by simp [h.mem_t, h.xt.symm, h.et.symm]), Finset.add_sum_erase _ F (by simp [h.mem_x, h.ex.symm]),
    Finset.add_sum_erase _ F h.mem]

theorem Squeezed.sum_eq {ρ : HE → HE} (s : Squeezed N N' e x t ρ) {M : Type*} [AddCommMonoid M] (F : HE → M) :
    ∑ y ∈ N'.L, F y = ∑ z ∈ N.rest e x t, F (ρ z) := by
  symm
  refine Finset.sum_nbij ρ (fun z hz => s.mem z (mem_rest.1 hz)) (fun z hz w hw k => ?_) (fun y hy => ?_) fun _ _ => rfl
  · exact s.inj z w (mem_rest.1 hz) (mem_rest.1 hw) k
  · obtain ⟨z, hz, rfl⟩ := s.surj y hy
    exact ⟨z, mem_rest.2 hz, rfl⟩

theorem sum_two {M : Type*} [AddCommMonoid M] {s : Finset HE} {a b : HE} (ha : a ∈ s) (hb : b ∈ s) (hab : a ≠ b) (F : HE → M) :
    ∑ z ∈ s, F z = F a + (F b + ∑ z ∈ (s.erase a).erase b, F z) := by
  rw [Finset.add_sum_erase _ F (by simp [hb, hab.symm]), Finset.add_sum_erase _ F ha]

theorem Squeezed.all_eq (h : Thin v N e x t) (hxt : neg x ≠ t) {ρ : HE → HE} (s : Squeezed N N' e x t ρ) : N'.all = N.vec e ::ₘ N.all := by
  have ax := mem_rest.2 (h.away_x hxt)
  have at' := mem_rest.2 (h.away_t hxt)
  have hne : neg x ≠ neg t := fun k => h.xt (neg_inj'.1 k)
  unfold all
  rw [s.sum_eq, h.sum_rest, sum_two ax at' hne, sum_two ax at' hne, s.conn_x, s.conn_t, h.conn_e]
  have : ∑ z ∈ ((N.rest e x t).erase (neg x)).erase (neg t), (N'.conn (ρ z) : Multiset (Vec T)) =
      ∑ z ∈ ((N.rest e x t).erase (neg x)).erase (neg t), (N.conn z : Multiset (Vec T)) := by
    refine Finset.sum_congr rfl fun z hz => ?_
    simp only [Finset.mem_erase] at hz
    rw [s.conn z (mem_rest.1 hz.2.2) hz.2.1 hz.1]
  rw [this]
  simp only [← Multiset.coe_add, ← Multiset.cons_coe, ← Multiset.singleton_add]
  rw [Multiset.coe_nil]
  abel

theorem Squeezed.total_eq (h : Thin v N e x t) (hxt : neg x ≠ t) {ρ : HE → HE} (s : Squeezed N N' e x t ρ) : N'.total = N.total := by
  have ax := h.away_x hxt
  have at' := h.away_t hxt
  have hne : neg x ≠ neg t := fun k => h.xt (neg_inj'.1 k)
  have hcorner : ∀ z, N.Away e x t z → N'.corner (ρ z) = N.corner z := by
    intro z hz
    have hz1 := h.away_f hz
    have hz2 := h.away_f hz1
    unfold corner
    rw [s.face z hz, s.face _ hz1, s.vec z hz, s.vec _ hz1]
    have : ρ (N.f (N.f z)) = ρ z ↔ N.f (N.f z) = z := ⟨fun k => s.inj _ _ hz2 hz k, fun k => by rw [k]⟩
    simp only [this]
  have hrest : ∑ z ∈ ((N.rest e x t).erase (neg x)).erase (neg t), (3 * N'.wedge (ρ z) + N'.corner (ρ z)) =
      ∑ z ∈ ((N.rest e x t).erase (neg x)).erase (neg t), (3 * N.wedge z + N.corner z) := by
    refine Finset.sum_congr rfl fun z hz => ?_
    simp only [Finset.mem_erase] at hz
    have hz' := mem_rest.1 hz.2.2
    unfold wedge
    rw [hcorner z hz', s.conn z hz' hz.2.1 hz.1, s.vec z hz']
  unfold total
  rw [s.sum_eq, h.sum_rest, sum_two (mem_rest.2 ax) (mem_rest.2 at') hne, sum_two (mem_rest.2 ax) (mem_rest.2 at') hne, hrest,
    hcorner _ ax, hcorner _ at']
  have w1 : N'.wedge (ρ (neg x)) = N.wedge (neg x) + cross (N.conn t).sum (N.vec (neg x)) := by
    unfold wedge
    rw [s.conn_x, s.vec _ ax, List.sum_append, cross_add_left]
  have w2 : N'.wedge (ρ (neg t)) = N.wedge (neg t) + (cross (N.vec e) (N.vec (neg t)) + cross (N.conn x).sum (N.vec (neg t))) := by
    unfold wedge
    rw [s.conn_t, s.vec _ at', List.sum_append, List.sum_cons, cross_add_left, cross_add_left]
  have v1 : cross (N.vec t - N.vec (neg x)) v = 0 := by rw [cross_sub_left, h.cross_t, h.cross_neg_x]; ring
  have v2 : cross (N.vec x - N.vec (neg t)) v = 0 := by rw [cross_sub_left, h.cross_neg_t]; ring
  have p1 := parallel h.v0 (h.inv.cross_conn h.mem_t) v1
  have p2 := parallel h.v0 (h.inv.cross_conn h.mem_x) v2
  have p3 := parallel h.v0 h.vertical v2
  rw [cross_sub_right] at p1 p2 p3
  have c1 : N.corner e = cross (N.vec e) (N.vec x) := by
    unfold corner
    rw [h.fe, h.fx, if_neg h.et.symm]
  have ht : N.vec t = -N.vec e - N.vec x := by rw [← sub_eq_zero, ← h.sum]; abel
  have c2 : N.corner x = cross (N.vec e) (N.vec x) := by
    unfold corner
    rw [h.fx, h.ft, if_neg h.ex, ht, cross_sub_right, cross_neg_right, cross_self, ← cross_comm, sub_zero]
  have c3 : N.corner t = cross (N.vec e) (N.vec x) := by
    unfold corner
    rw [h.ft, h.fe, if_neg h.xt, ht, cross_sub_left, cross_neg_left, cross_self, cross_comm (N.vec e) (N.vec x)]
    ring
  have w3 : N.wedge e = 0 := by
    unfold wedge
    rw [h.conn_e]
    simp
  rw [w1, w2, w3, c1, c2, c3]
  unfold wedge
  linear_combination (-3) * p1 + (-3) * p2 + (-3) * p3

/-! ### Collapsing a triangle whose sides are glued to each other -/

/-- The face `(e, x, -x)` has been collapsed to `(x, -x)`. -/
structure Pinched (N N' : Net T) (e x t : HE) : Prop where
  L : N'.L = N.L.erase e
  fx : N'.f x = t
  ft : N'.f t = x
  f : ∀ z, N.Away e x t z → N'.f z = N.f z
  vec_x : N'.vec x = -N.vec t
  vec : ∀ z ∈ N.L, z ≠ e → z ≠ x → N'.vec z = N.vec z
  conn_x : N'.conn x = N.vec e :: N.conn x
  conn : ∀ z ∈ N.L, z ≠ e → z ≠ x → N'.conn z = N.conn z

theorem Pinched.mem (s : Pinched N N' e x t) {z : HE} : z ∈ N'.L ↔ z ∈ N.L ∧ z ≠ e := by
  rw [s.L, Finset.mem_erase]
  tauto

theorem Pinched.cases (h : Thin v N e x t) {z : HE} (hz : z ∈ N.L) (hze : z ≠ e) : z = x ∨ z = t ∨ N.Away e x t z := by
  unfold Away
  tauto

theorem Pinched.cross_vec (h : Thin v N e x t) (s : Pinched N N' e x t) {z : HE} (hz : z ∈ N.L) (hze : z ≠ e) :
    cross (N'.vec z) v = cross (N.vec z) v := by
  by_cases k : z = x
  · rw [k, s.vec_x, cross_neg_left, h.cross_t, neg_neg]
  · rw [s.vec z hz hze k]

theorem Pinched.inv (h : Thin v N e x t) (hxt : neg x = t) (s : Pinched N N' e x t) : N'.Inv v := by
  have htx : neg t = x := by rw [← hxt, neg_neg']
  have vt : N'.vec t = N.vec t := s.vec t h.mem_t h.et.symm h.xt.symm
  have mx : x ∈ N'.L := s.mem.2 ⟨h.mem_x, h.ex.symm⟩
  have mt : t ∈ N'.L := s.mem.2 ⟨h.mem_t, h.et.symm⟩
  refine ⟨?_, ?_, ?_, ?_, ?_⟩
  · intro z hz
    obtain ⟨z1, z2⟩ := s.mem.1 hz
    rcases Pinched.cases h z1 z2 with rfl | rfl | k
    · rw [s.fx]; exact mt
    · rw [s.ft]; exact mx
    · rw [s.f z k]
      exact s.mem.2 ⟨h.inv.maps _ z1, (h.away_f k).2.1⟩
  · intro z hz w hw k
    obtain ⟨z1, z2⟩ := s.mem.1 hz
    obtain ⟨w1, w2⟩ := s.mem.1 hw
    rcases Pinched.cases h z1 z2 with rfl | rfl | kz
    · rcases Pinched.cases h w1 w2 with rfl | rfl | kw
      · rfl
      · rw [s.fx, s.ft] at k; exact absurd k.symm h.xt
      · rw [s.fx, s.f w kw] at k; exact absurd k.symm (h.away_f kw).2.2.2
    · rcases Pinched.cases h w1 w2 with rfl | rfl | kw
      · rw [s.fx, s.ft] at k; exact absurd k h.xt
      · rfl
      · rw [s.ft, s.f w kw] at k; exact absurd k.symm (h.away_f kw).2.2.1
    · rcases Pinched.cases h w1 w2 with rfl | rfl | kw
      · rw [s.fx, s.f z kz] at k; exact absurd k (h.away_f kz).2.2.2
      · rw [s.ft, s.f z kz] at k; exact absurd k (h.away_f kz).2.2.1
      · rw [s.f z kz, s.f w kw] at k
        exact h.inv.inj _ z1 _ w1 k
  · intro z hz
    obtain ⟨z1, z2⟩ := s.mem.1 hz
    rcases Pinched.cases h z1 z2 with rfl | rfl | kz
    · right
      refine ⟨by rw [s.fx, hxt], by rw [hxt, s.ft], by rw [hxt]; exact mt, by rw [hxt, vt, s.vec_x]; abel, ?_⟩
      rw [s.cross_vec h z1 z2]
      exact h.cross_x
    · right
      refine ⟨by rw [s.ft, htx], by rw [htx, s.fx], by rw [htx]; exact mx, by rw [htx, vt, s.vec_x]; abel, ?_⟩
      rw [s.cross_vec h z1 z2, h.cross_t]
      exact neg_ne_zero.2 h.cross_x
    · have k1 := h.away_f kz
      have k2 := h.away_f k1
      rcases h.inv.face z z1 with ⟨t1, t2, t3⟩ | ⟨t1, t2, t3, t4, t5⟩
      · left
        unfold IsTri
        rw [s.f z kz, s.f _ k1, s.f _ k2, s.vec _ kz.1 kz.2.1 kz.2.2.1, s.vec _ k1.1 k1.2.1 k1.2.2.1, s.vec _ k2.1 k2.2.1 k2.2.2.1]
        exact ⟨t1, t2, t3⟩
      · right
        have k1' : N.Away e x t (neg z) := by rwa [t1] at k1
        unfold IsThin
        rw [s.f z kz, s.f _ k1', s.vec _ kz.1 kz.2.1 kz.2.2.1, s.vec _ k1'.1 k1'.2.1 k1'.2.2.1]
        exact ⟨t1, t2, s.mem.2 ⟨t3, k1'.2.1⟩, t4, t5⟩
  · have key : N'.vec x + N'.vec t = (N'.conn x).sum + (N'.conn t).sum := by
      have h1 := h.opp_x
      have h3 := h.sum
      rw [hxt] at h1
      rw [vt, s.vec_x, s.conn_x, s.conn t h.mem_t h.et.symm h.xt.symm, List.sum_cons, add_assoc, ← h1, ← add_assoc, h3]
      abel
    intro z hz hz'
    obtain ⟨z1, z2⟩ := s.mem.1 hz
    obtain ⟨w1, w2⟩ := s.mem.1 hz'
    by_cases k1 : z = x
    · rw [k1, hxt]; exact key
    by_cases k2 : z = t
    · rw [k2, htx, add_comm, key, add_comm]
    have j1 : neg z ≠ x := fun k => k2 (by rw [← hxt, ← k, neg_neg'])
    rw [s.vec z z1 z2 k1, s.vec _ w1 w2 j1, s.conn z z1 z2 k1, s.conn _ w1 w2 j1]
    exact h.inv.opp z z1 w1
  · intro z hz k hk
    obtain ⟨z1, z2⟩ := s.mem.1 hz
    rw [s.cross_vec h z1 z2]
    by_cases k1 : z = x
    · subst k1
      rw [s.conn_x, List.mem_cons] at hk
      rcases hk with rfl | hk
      · exact ⟨h.vertical, h.up⟩
      · exact h.inv.vert _ z1 k hk
    · rw [s.conn z z1 z2 k1] at hk
      exact h.inv.vert _ z1 k hk

theorem Pinched.all_eq (h : Thin v N e x t) (s : Pinched N N' e x t) : N'.all = N.vec e ::ₘ N.all := by
  unfold all
  have hx : x ∈ N.L.erase e := by simp [h.mem_x, h.ex.symm]
  rw [s.L, ← Finset.add_sum_erase _ _ hx, ← Finset.add_sum_erase _ _ h.mem, ← Finset.add_sum_erase _ _ hx, s.conn_x, h.conn_e]
  have : ∑ z ∈ (N.L.erase e).erase x, (N'.conn z : Multiset (Vec T)) = ∑ z ∈ (N.L.erase e).erase x, (N.conn z : Multiset (Vec T)) := by
    refine Finset.sum_congr rfl fun z hz => ?_
    simp only [Finset.mem_erase] at hz
    rw [s.conn z hz.2.2 hz.2.1 hz.1]
  rw [this]
  simp only [← Multiset.cons_coe, ← Multiset.singleton_add]
  rw [Multiset.coe_nil]
  abel

theorem Pinched.total_eq (h : Thin v N e x t) (s : Pinched N N' e x t) : N'.total = N.total := by
  have hrest : ∑ z ∈ N.rest e x t, (3 * N'.wedge z + N'.corner z) = ∑ z ∈ N.rest e x t, (3 * N.wedge z + N.corner z) := by
    refine Finset.sum_congr rfl fun z hz => ?_
    have hz := mem_rest.1 hz
    have k1 := h.away_f hz
    unfold wedge corner
    rw [s.f z hz, s.f _ k1, s.vec _ hz.1 hz.2.1 hz.2.2.1, s.vec _ k1.1 k1.2.1 k1.2.2.1, s.conn z hz.1 hz.2.1 hz.2.2.1]
  have hsum : N'.total = (3 * N'.wedge x + N'.corner x) + ((3 * N'.wedge t + N'.corner t) + ∑ z ∈ N.rest e x t, (3 * N'.wedge z + N'.corner z)) := by
    unfold total rest
    rw [s.L, Finset.add_sum_erase _ (fun z => 3 * N'.wedge z + N'.corner z) (by simp [h.mem_t, h.xt.symm, h.et.symm]),
      Finset.add_sum_erase _ (fun z => 3 * N'.wedge z + N'.corner z) (by simp [h.mem_x, h.ex.symm])]
  rw [hsum, hrest]
  unfold total
  rw [h.sum_rest]
  have d1 : N'.corner x = 0 := by unfold corner; rw [s.fx, s.ft, if_pos rfl]
  have d2 : N'.corner t = 0 := by unfold corner; rw [s.ft, s.fx, if_pos rfl]
  have w1 : N'.wedge t = N.wedge t := by
    unfold wedge
    rw [s.vec t h.mem_t h.et.symm h.xt.symm, s.conn t h.mem_t h.et.symm h.xt.symm]
  have ht : N.vec t = -N.vec e - N.vec x := by rw [← sub_eq_zero, ← h.sum]; abel
  have w2 : N'.wedge x = cross (N.vec e) (N.vec x) + N.wedge x := by
    unfold wedge
    rw [s.conn_x, s.vec_x, List.sum_cons, ht]
    have p := parallel h.v0 (h.inv.cross_conn h.mem_x) h.vertical
    simp only [cross_add_left, cross_neg_right, cross_sub_right, cross_self]
    rw [p]
    ring
  have c1 : N.corner e = cross (N.vec e) (N.vec x) := by
    unfold corner
    rw [h.fe, h.fx, if_neg h.et.symm]
  have c2 : N.corner x = cross (N.vec e) (N.vec x) := by
    unfold corner
    rw [h.fx, h.ft, if_neg h.ex, ht, cross_sub_right, cross_neg_right, cross_self, ← cross_comm, sub_zero]
  have c3 : N.corner t = cross (N.vec e) (N.vec x) := by
    unfold corner
    rw [h.ft, h.fe, if_neg h.xt, ht, cross_sub_left, cross_neg_left, cross_self, cross_comm (N.vec e) (N.vec x)]
    ring
  have w3 : N.wedge e = 0 := by
    unfold wedge
    rw [h.conn_e]
    simp
  rw [d1, d2, w1, w2, w3, c1, c2, c3]
  ring

/-! ### Renaming half edges -/

/-- The half edges have been renamed. -/
structure Renamed (N N' : Net T) (σ : Equiv.Perm ℕ) : Prop where
  odd : ∀ z, σ (neg z) = neg (σ z)
  mem : ∀ z, σ z ∈ N'.L ↔ z ∈ N.L
  f : ∀ z ∈ N.L, N'.f (σ z) = σ (N.f z)
  vec : ∀ z ∈ N.L, N'.vec (σ z) = N.vec z
  conn : ∀ z ∈ N.L, N'.conn (σ z) = N.conn z

theorem Renamed.inv {σ : Equiv.Perm ℕ} (r : Renamed N N' σ) (h : N.Inv v) : N'.Inv v := by
  have surj : ∀ y ∈ N'.L, ∃ z ∈ N.L, σ z = y := by
    intro y hy
    obtain ⟨z, rfl⟩ := σ.surjective y
    exact ⟨z, (r.mem z).1 hy, rfl⟩
  refine ⟨?_, ?_, ?_, ?_, ?_⟩
  · intro y hy
    obtain ⟨z, hz, rfl⟩ := surj y hy
    rw [r.f z hz, r.mem]
    exact h.maps z hz
  · intro y hy y' hy' k
    obtain ⟨z, hz, rfl⟩ := surj y hy
    obtain ⟨w, hw, rfl⟩ := surj y' hy'
    rw [r.f z hz, r.f w hw] at k
    rw [h.inj z hz w hw (σ.injective k)]
  · intro y hy
    obtain ⟨z, hz, rfl⟩ := surj y hy
    have z1 := h.maps z hz
    have z2 := h.maps _ z1
    rcases h.face z hz with ⟨t1, t2, t3⟩ | ⟨t1, t2, t3, t4, t5⟩
    · left
      unfold IsTri
      rw [r.f z hz, r.f _ z1, r.f _ z2, r.vec z hz, r.vec _ z1, r.vec _ z2, t1]
      exact ⟨rfl, t2, t3⟩
    · right
      unfold IsThin
      rw [← r.odd, r.f z hz, r.f _ t3, r.vec z hz, r.vec _ t3, r.mem, t1, t2]
      exact ⟨rfl, rfl, t3, t4, t5⟩
  · intro y hy hy'
    obtain ⟨z, hz, rfl⟩ := surj y hy
    rw [← r.odd, r.mem] at hy'
    rw [← r.odd, r.vec z hz, r.vec _ hy', r.conn z hz, r.conn _ hy']
    exact h.opp z hz hy'
  · intro y hy k hk
    obtain ⟨z, hz, rfl⟩ := surj y hy
    rw [r.conn z hz] at hk
    rw [r.vec z hz]
    exact h.vert z hz k hk

theorem Renamed.sum_eq {σ : Equiv.Perm ℕ} (r : Renamed N N' σ) {M : Type*} [AddCommMonoid M] (F : HE → M) :
    ∑ y ∈ N'.L, F y = ∑ z ∈ N.L, F (σ z) := by
  symm
  refine Finset.sum_nbij σ (fun z hz => (r.mem z).2 hz) (fun z _ w _ k => σ.injective k) (fun y hy => ?_) fun _ _ => rfl
  obtain ⟨z, rfl⟩ := σ.surjective y
  exact ⟨z, (r.mem z).1 hy, rfl⟩

theorem Renamed.all_eq {σ : Equiv.Perm ℕ} (r : Renamed N N' σ) : N'.all = N.all := by
  unfold all
  rw [r.sum_eq]
  exact Finset.sum_congr rfl fun z hz => by rw [r.conn z hz]

theorem Renamed.total_eq {σ : Equiv.Perm ℕ} (r : Renamed N N' σ) (h : N.Inv v) : N'.total = N.total := by
  unfold total
  rw [r.sum_eq]
  refine Finset.sum_congr rfl fun z hz => ?_
  have z1 := h.maps z hz
  unfold wedge corner
  rw [r.conn z hz, r.vec z hz, r.f z hz, r.f _ z1, r.vec _ z1]
  simp only [σ.injective.eq_iff]

/-! ### Constructions -/

/-- The triangle `(e, x, t)` is squeezed and `x` is dropped. -/
def dropX (N : Net T) (e x t : HE) : Net T where
  L := ((N.L.erase e).erase x).erase (neg x)
  f z := if N.f (if z = t then neg x else z) = neg x then t else N.f (if z = t then neg x else z)
  vec z := if z = t then N.vec (neg x) else N.vec z
  conn z := if z = t then N.conn (neg x) ++ N.conn t else if z = neg t then N.conn (neg t) ++ N.vec e :: N.conn x else N.conn z

/-- The triangle `(e, x, t)` is squeezed and `t` is dropped. -/
def dropT (N : Net T) (e x t : HE) : Net T where
  L := ((N.L.erase e).erase t).erase (neg t)
  f z := if N.f (if z = x then neg t else z) = neg t then x else N.f (if z = x then neg t else z)
  vec z := if z = x then N.vec (neg t) else N.vec z
  conn z := if z = x then N.conn (neg t) ++ N.vec e :: N.conn x else if z = neg x then N.conn (neg x) ++ N.conn t else N.conn z

/-- The triangle `(e, x, -x)` is pinched. -/
def pinch (N : Net T) (e x t : HE) : Net T where
  L := N.L.erase e
  f z := if z = x then t else if z = t then x else N.f z
  vec z := if z = x then -N.vec t else N.vec z
  conn z := if z = x then N.vec e :: N.conn x else N.conn z

theorem Thin.dropX (h : Thin v N e x t) (hxt : neg x ≠ t) : Squeezed N (N.dropX e x t) e x t (fun z => if z = neg x then t else z) := by
  have htx : neg t ≠ neg x := fun k => h.xt (neg_inj'.1 k).symm
  have hmem : ∀ z, z ∈ (N.dropX e x t).L ↔ z ≠ neg x ∧ z ≠ x ∧ z ≠ e ∧ z ∈ N.L := by
    intro z
    unfold Net.dropX
    simp only [Finset.mem_erase]
  refine ⟨?_, ?_, ?_, ?_, ?_, ?_, ?_, ?_, ?_, ?_, ?_⟩
  · rintro z ⟨z0, z1, z2, z3⟩
    rw [hmem]
    split_ifs with k
    · exact ⟨hxt.symm, h.xt.symm, h.et.symm, h.mem_t⟩
    · exact ⟨k, z2, z1, z0⟩
  · rintro z w ⟨-, -, -, z3⟩ ⟨-, -, -, w3⟩ k
    split_ifs at k with k1 k2 k2
    · rw [k1, k2]
    · exact absurd k.symm w3
    · exact absurd k z3
    · exact k
  · intro y hy
    rw [hmem] at hy
    obtain ⟨y1, y2, y3, y4⟩ := hy
    by_cases k : y = t
    · exact ⟨neg x, h.away_x hxt, by rw [if_pos rfl, k]⟩
    · exact ⟨y, ⟨y4, y3, y2, k⟩, by rw [if_neg y1]⟩
  · rintro z ⟨z0, z1, z2, z3⟩
    unfold Net.dropX
    dsimp only
    have : (if (if z = neg x then t else z) = t then neg x else (if z = neg x then t else z)) = z := by
      by_cases k : z = neg x
      · rw [if_pos k, if_pos rfl, k]
      · rw [if_neg k, if_neg z3]
    rw [this]
  · rintro z ⟨z0, z1, z2, z3⟩ k0 k1 k2 k3
    rw [if_neg k2, if_neg fun k => z2 (neg_inj'.1 k)]
  · rw [if_pos rfl, if_neg htx]
  · rintro z ⟨z0, z1, z2, z3⟩ k
    rw [hmem]
    rintro ⟨k1, k2, k3, k4⟩
    rcases k with k | k
    · have : neg e ≠ neg x := fun k => h.ex (neg_inj'.1 k)
      rw [k, if_neg this, neg_neg'] at k3
      exact k3 rfl
    · rw [if_neg (fun j => k (by rw [j, neg_neg']; exact h.mem_x))] at k4
      exact k k4
  · rintro z ⟨z0, z1, z2, z3⟩
    unfold Net.dropX
    dsimp only
    by_cases k : z = neg x
    · rw [if_pos k, if_pos rfl, k]
    · rw [if_neg k, if_neg z3]
  · rintro z ⟨z0, z1, z2, z3⟩ k1 k2
    unfold Net.dropX
    dsimp only
    rw [if_neg k1, if_neg z3, if_neg k2]
  · unfold Net.dropX
    dsimp only
    rw [if_pos rfl, if_pos rfl]
  · unfold Net.dropX
    dsimp only
    rw [if_neg htx, if_neg (neg_ne t), if_pos rfl]

theorem Thin.dropT (h : Thin v N e x t) (hxt : neg x ≠ t) : Squeezed N (N.dropT e x t) e x t (fun z => if z = neg t then x else z) := by
  have htx : neg x ≠ neg t := fun k => h.xt (neg_inj'.1 k)
  have hxt' : x ≠ neg t := fun k => hxt (by rw [k, neg_neg'])
  have hmem : ∀ z, z ∈ (N.dropT e x t).L ↔ z ≠ neg t ∧ z ≠ t ∧ z ≠ e ∧ z ∈ N.L := by
    intro z
    unfold Net.dropT
    simp only [Finset.mem_erase]
  refine ⟨?_, ?_, ?_, ?_, ?_, ?_, ?_, ?_, ?_, ?_, ?_⟩
  · rintro z ⟨z0, z1, z2, z3⟩
    rw [hmem]
    split_ifs with k
    · exact ⟨hxt', h.xt, h.ex.symm, h.mem_x⟩
    · exact ⟨k, z3, z1, z0⟩
  · rintro z w ⟨-, -, z2, -⟩ ⟨-, -, w2, -⟩ k
    split_ifs at k with k1 k2 k2
    · rw [k1, k2]
    · exact absurd k.symm w2
    · exact absurd k z2
    · exact k
  · intro y hy
    rw [hmem] at hy
    obtain ⟨y1, y2, y3, y4⟩ := hy
    by_cases k : y = x
    · exact ⟨neg t, h.away_t hxt, by rw [if_pos rfl, k]⟩
    · exact ⟨y, ⟨y4, y3, k, y2⟩, by rw [if_neg y1]⟩
  · rintro z ⟨z0, z1, z2, z3⟩
    unfold Net.dropT
    dsimp only
    have : (if (if z = neg t then x else z) = x then neg t else (if z = neg t then x else z)) = z := by
      by_cases k : z = neg t
      · rw [if_pos k, if_pos rfl, k]
      · rw [if_neg k, if_neg z2]
    rw [this]
  · rintro z ⟨z0, z1, z2, z3⟩ k0 k1 k2 k3
    rw [if_neg k3, if_neg fun k => z3 (neg_inj'.1 k)]
  · rw [if_pos rfl, if_neg htx, neg_neg']
  · rintro z ⟨z0, z1, z2, z3⟩ k
    rw [hmem]
    rintro ⟨k1, k2, k3, k4⟩
    rcases k with k | k
    · have : neg e ≠ neg t := fun k => h.et (neg_inj'.1 k)
      rw [k, if_neg this, neg_neg'] at k3
      exact k3 rfl
    · rw [if_neg (fun j => k (by rw [j, neg_neg']; exact h.mem_t))] at k4
      exact k k4
  · rintro z ⟨z0, z1, z2, z3⟩
    unfold Net.dropT
    dsimp only
    by_cases k : z = neg t
    · rw [if_pos k, if_pos rfl, k]
    · rw [if_neg k, if_neg z2]
  · rintro z ⟨z0, z1, z2, z3⟩ k1 k2
    unfold Net.dropT
    dsimp only
    rw [if_neg k2, if_neg z2, if_neg k1]
  · unfold Net.dropT
    dsimp only
    rw [if_neg htx, if_neg (neg_ne x), if_pos rfl]
  · unfold Net.dropT
    dsimp only
    rw [if_pos rfl, if_pos rfl]

theorem Thin.pinch (h : Thin v N e x t) : Pinched N (N.pinch e x t) e x t := by
  refine ⟨rfl, ?_, ?_, ?_, ?_, ?_, ?_, ?_⟩ <;> unfold Net.pinch <;> dsimp only
  · rw [if_pos rfl]
  · rw [if_neg h.xt.symm, if_pos rfl]
  · rintro z ⟨-, -, k2, k3⟩
    rw [if_neg k2, if_neg k3]
  · rw [if_pos rfl]
  · intro z _ _ k
    rw [if_neg k]
  · rw [if_pos rfl]
  · intro z _ _ k
    rw [if_neg k]

end Net

end Verif
