import Verif.Model.UniqueLarge
import Verif.Lemmas.CollapsedReady
import Verif.Lemmas.CollapsedMake
import Verif.Lemmas.ContourCollapsed
import Verif.Lemmas.ContourIet
import Verif.Lemmas.ContourMono
import Verif.Lemmas.Tracked

/-!
# Making large edges unique
-/

set_option linter.unusedSectionVars false

namespace Verif.Collapsed

open Verif Spec Vertical

variable {T : Type} [CommRing T] [LinearOrder T] [IsStrictOrderedRing T]
variable {K : Type*} [Field K] [LinearOrder K] [IsStrictOrderedRing K]
variable {A : Option (Approx T K)} {dbg : Bool} {C C' : Collapsed T} {e u y z : HE} {σ : Equiv.Perm ℕ}

/-! ### Attached data -/

theorem swapHalfEdge_eq {a b : HE} (hab : a ≠ b) (hab' : a ≠ neg b) (z : HE) : Tracked.swapHalfEdge a b z = Tri.exchange a b z := by
  rw [Tri.exchange_apply hab hab']
  unfold Tracked.swapHalfEdge
  have h3 : neg a ≠ b := fun h => hab' (by rw [← h, neg_neg'])
  by_cases z1 : z = a
  · rw [if_pos z1, if_pos z1]
  rw [if_neg z1, if_neg z1]
  by_cases z2 : z = b
  · rw [if_neg (by rw [z2]; exact h3.symm), if_pos z2, if_pos z2]
  rw [if_neg z2, if_neg z2]

theorem rename_eq {a b : HE} (hab : a ≠ b) (hab' : a ≠ neg b) (z : HE) : rename a b z = Tri.exchange a b z := by
  rw [Tri.exchange_apply hab hab']
  unfold rename
  have h1 := neg_ne a
  have h2 := neg_ne b
  have h3 : neg a ≠ b := fun h => hab' (by rw [← h, neg_neg'])
  split_ifs <;> simp_all

/-- The attached data after renaming. -/
def Carried (x : Attached) (τ : Equiv.Perm ℕ) (x' : Attached) : Prop :=
  (∃ D, x'.sources.Rep D) ∧ (∀ z, x'.sources.contains (τ z / 2) = x.sources.contains (z / 2)) ∧ x'.unique = x.unique.map τ

theorem carries (x : Attached) : Tri.Carries Attached.swap (Carried x) := by
  rintro a b hab hab' τ x' ⟨⟨D, h1⟩, h2, h3⟩
  refine ⟨Tracked.swapEdgeSet_rep h1 a b, fun z => ?_, ?_⟩
  · have := Tracked.swapEdgeSet_contains h1 a b (τ z)
    rw [rename_eq hab hab', h2] at this
    exact this
  · unfold Attached.swap
    simp only [h3, Option.map_map]
    congr 1
    funext z
    exact swapHalfEdge_eq hab hab' (τ z)

theorem near_self (S : Tri) (e z : HE) (h : z / 2 = e / 2) : Near S e z := by
  refine ⟨e, by simp, ?_⟩
  exact div_two_eq h

theorem check_ok {s : IndexedSet} {unique : Option HE} (h1 : ∀ z, s.contains (z / 2) = true → z < C.tri.size ∧ ¬ Near C.tri e z)
    (h2 : ∀ u ∈ unique, u < C.tri.size ∧ ¬ Near C.tri e u) (hy : y = e ∨ y = neg e) : Attached.check dbg ⟨s, unique⟩ y = .ok () := by
  have hy : y / 2 = e / 2 := by rcases hy with rfl | rfl <;> [rfl; exact neg_div e]
  unfold Attached.check
  rw [hy, if_neg]
  · cases unique with
    | none => rfl
    | some u =>
      dsimp only
      rw [if_neg]
      exact fun k => (h2 u rfl).2 (near_self _ _ _ k)
  · exact fun k => (h1 e k.2).2 (near_self _ _ _ rfl)

/-- Attached data that is not close to the half edge is renamed. -/
theorem flipTracked_ok (f : Followed A dbg C C' e σ) {s : IndexedSet} {D : Finset ℕ} (hs : s.Rep D) (unique : Option HE)
    (h1 : ∀ z, s.contains (z / 2) = true → z < C.tri.size ∧ ¬ Near C.tri e z) (h2 : ∀ u ∈ unique, u < C.tri.size ∧ ¬ Near C.tri e u) :
    ∃ s' D', flipTracked A dbg C e ⟨s, unique⟩ = .ok (C', ⟨s', unique.map σ⟩) ∧ s'.Rep D' ∧
      ∀ z, s'.contains (σ z / 2) = s.contains (z / 2) := by
  unfold flipTracked
  rw [f.flip]
  simp only [bind, Except.bind, check_ok h1 h2 (.inl rfl)]
  rcases f.track with ⟨t1, rfl⟩ | ⟨S, y, t1, t2, t3, r, t4, t5⟩
  · rw [t1]
    refine ⟨s, D, ?_, hs, fun z => rfl⟩
    cases unique <;> rfl
  · rw [t2]
    simp only [check_ok h1 h2 t1]
    obtain ⟨x', t6, ⟨D1, t7⟩, t8, t9⟩ := t5 Attached.swap (Carried ⟨s, unique⟩) (carries _) ⟨s, unique⟩
      ⟨⟨D, hs⟩, fun z => rfl, by cases unique <;> rfl⟩
    rw [t6]
    dsimp only at t8 t9 ⊢
    obtain ⟨s1, u1⟩ := x'
    dsimp only at t7 t8 t9
    subst t9
    obtain ⟨D2, e1, e2⟩ := Tracked.eraseEdgeSet_rep t7 (Tri.sorted (S.size / 2) r.drop)
    have key : ∀ z, s.contains (z / 2) = true → σ z / 2 ∉ Tri.sorted (S.size / 2) r.drop := by
      intro z hz hm
      obtain ⟨k1, k2⟩ := h1 z hz
      exact t4 z (t3 ▸ k1) k2 (Tri.mem_sorted.1 hm).2
    refine ⟨_, D2, ?_, e1, fun z => ?_⟩
    · unfold Attached.erase
      rw [if_neg]
      · cases unique with
        | none => rfl
        | some u =>
          dsimp only [Option.map]
          unfold Tracked.eraseHalfEdge
          rw [if_neg]
          · rfl
          · intro hm
            obtain ⟨k1, k2⟩ := h2 u rfl
            exact t4 u (t3 ▸ k1) k2 (Tri.mem_sorted.1 hm).2
      · rintro ⟨-, k⟩
        obtain ⟨i, i1, i2⟩ := List.any_eq_true.1 k
        obtain ⟨z, hz⟩ := σ.surjective (2 * i)
        have hz' : σ z / 2 = i := by rw [hz]; omega
        rw [← hz', t8] at i2
        exact key z i2 (hz' ▸ i1)
    · rw [← t8, e1.contains, t7.contains]
      congr 1
      rw [e2, eq_iff_iff, and_iff_left_iff_imp]
      intro hm
      refine key z ?_
      rw [← t8, t7.contains]
      exact decide_eq_true hm

/-! ### Reaching half edges -/

/-- The half edges that can be reached. -/
abbrev Reach (C : Collapsed T) : HE → HE → Prop := Relation.ReflTransGen (Step C.seen C.vertical)

theorem Reach.lt (h : C.Good) (hr : Reach C y z) (hy : y < C.tri.size) : z < C.tri.size := by
  induction hr with
  | refl => exact hy
  | tail _ hs ih =>
    rcases hs.2 with rfl | rfl | rfl
    · exact h.neg_lt ih
    · exact h.next_lt ih
    · exact h.previous_lt ih

theorem Reach.symm (h : C.Good) (hu : C.Upright) (hr : Reach C y z) (hy : y < C.tri.size) : Reach C z y :=
  reach_symm h.tame hr (hu z (hr.lt h hy))

theorem reach_neg (hu : C.Upright) (hy : y < C.tri.size) : Reach C y (neg y) := .single ⟨hu y hy, .inl rfl⟩

theorem reach_next (hu : C.Upright) (hy : y < C.tri.size) : Reach C y (C.tri.nextInFace y) := .single ⟨hu y hy, .inr (.inl rfl)⟩

theorem reach_near (h : C.Good) (hu : C.Upright) (he : e < C.tri.size) (hn : Near C.tri e z) : Reach C e z := by
  obtain ⟨w, hw, hz⟩ := hn
  have h1 := h.next_lt he
  have h2 := h.neg_lt he
  have h3 := h.next_lt h2
  have r1 := reach_next hu he
  have r2 := reach_neg hu he
  have r3 := r2.trans (reach_next hu h2)
  have key : Reach C e w := by
    simp only [List.mem_cons, List.not_mem_nil, or_false] at hw
    rcases hw with rfl | rfl | rfl | rfl | rfl | rfl
    · exact .refl
    · exact r1
    · exact r1.trans (reach_next hu h1)
    · exact r2
    · exact r3
    · exact r3.trans (reach_next hu h3)
  rcases hz with rfl | rfl
  · exact key
  · exact key.trans (reach_neg hu (key.lt h he))

/-! ### Large edges -/

theorem Good.isLarge_cross (h : C.Good) (he : e < C.tri.size) : IsLarge C.seen C.vertical e ↔ ∀ y, (y = e ∨ y = neg e) →
    |Vec.cross (C.vec (C.tri.nextInFace y)) C.vertical| ≤ |Vec.cross (C.vec y) C.vertical| ∧
    |Vec.cross (C.vec y) C.vertical + Vec.cross (C.vec (C.tri.nextInFace y)) C.vertical| ≤ |Vec.cross (C.vec y) C.vertical| := by
  have hn := h.horizontalLength_neg he
  have key : ∀ y < C.tri.size, horizontalLength C.seen C.vertical (C.tri.previousInFace y) ≤ horizontalLength C.seen C.vertical y ↔
      |Vec.cross (C.vec y) C.vertical + Vec.cross (C.vec (C.tri.nextInFace y)) C.vertical| ≤ |Vec.cross (C.vec y) C.vertical| := by
    intro y hy
    rcases h.inv.face y (mem_net.2 hy) with ht | ht
    · rw [h.previous ht]
      have k := ht.2.1
      change C.vec y + C.vec (C.tri.nextInFace y) + C.vec (C.tri.faces.fwd (C.tri.faces.fwd y)) = 0 at k
      have k' : Vec.cross (C.vec y) C.vertical + Vec.cross (C.vec (C.tri.nextInFace y)) C.vertical =
          -Vec.cross (C.vec (C.tri.faces.fwd (C.tri.faces.fwd y))) C.vertical := by
        rw [eq_neg_iff_add_eq_zero, ← Vec.cross_add_left, ← Vec.cross_add_left, k, Vec.cross_zero_left]
      rw [k', abs_neg]
      exact Iff.rfl
    · have h1 : C.tri.nextInFace y = neg y := ht.1
      have h2 : C.tri.previousInFace y = neg y := by
        have := h.linked.hf.left (neg y)
        rw [show C.tri.faces.fwd (neg y) = y from ht.2.1] at this
        exact this
      rw [h1, h2, h.horizontalLength_neg hy, h.cross_neg hy, add_neg_cancel, abs_zero]
      exact iff_of_true le_rfl (abs_nonneg _)
  rw [h.isLarge_iff he]
  have k1 := key e he
  have k2 := key (neg e) (h.neg_lt he)
  rw [hn] at k2
  rw [k1, k2]
  have hn' : |Vec.cross (C.vec (neg e)) C.vertical| = |Vec.cross (C.vec e) C.vertical| := hn
  constructor
  · rintro ⟨h1, h2, h3, h4⟩ y (rfl | rfl)
    · exact ⟨h1, h2⟩
    · exact ⟨by rw [hn']; exact h3, h4⟩
  · intro hy
    obtain ⟨h1, h2⟩ := hy e (.inl rfl)
    obtain ⟨h3, h4⟩ := hy (neg e) (.inr rfl)
    rw [hn'] at h3
    exact ⟨h1, h2, h3, h4⟩

theorem near_neg {S : Tri} (h : Near S e (neg z)) : Near S e z := by
  obtain ⟨w, hw, k | k⟩ := h
  · exact ⟨w, hw, .inr (by rw [← k, neg_neg'])⟩
  · exact ⟨w, hw, .inl (neg_inj'.1 k)⟩

/-- Large edges are still large when something else has been flipped. -/
theorem Moved.isLarge (m : Moved C C' (Near C.tri e) σ) (hv : C'.vertical = C.vertical) (h : C.Good) (h' : C'.Good) (hz : z < C.tri.size)
    (hn : ¬ Near C.tri e z) : IsLarge C'.seen C'.vertical (σ z) ↔ IsLarge C.seen C.vertical z := by
  rw [h.isLarge_cross hz, h'.isLarge_cross (m.lt z hz hn), hv]
  have hz' := h.neg_lt hz
  have hn' : ¬ Near C.tri e (neg z) := fun k => hn (near_neg k)
  constructor
  · rintro k y (rfl | rfl)
    · have := k (σ y) (.inl rfl)
      rwa [m.vec y hz hn, m.next y hz hn] at this
    · have := k (σ (neg z)) (.inr (m.odd z))
      rwa [m.vec _ hz' hn', m.next _ hz' hn'] at this
  · rintro k y (rfl | rfl)
    · rw [m.vec z hz hn, m.next z hz hn]
      exact k z (.inl rfl)
    · rw [← m.odd, m.vec _ hz' hn', m.next _ hz' hn']
      exact k _ (.inr rfl)

/-- Two large edges are not in the same face. -/
theorem Good.large_near (h : C.Good) (hu : C.Upright) (he : e < C.tri.size) (hb : C.Between e) (hl : IsLarge C.seen C.vertical e)
    (hz : z < C.tri.size) (hl' : IsLarge C.seen C.vertical z) (hn : Near C.tri e z) : z = e ∨ z = neg e := by
  obtain ⟨w, hw, hzw⟩ := hn
  have hlw : IsLarge C.seen C.vertical w ∧ w < C.tri.size := by
    rcases hzw with rfl | rfl
    · exact ⟨hl', hz⟩
    · have hw' : w < C.tri.size := by
        have := h.neg_lt hz
        rwa [neg_neg'] at this
      exact ⟨(h.isLarge_neg hw').1 hl', hw'⟩
  -- another side is shorter
  have key : ∀ y < C.tri.size, IsLarge C.seen C.vertical y → C.tri.nextInFace (C.tri.nextInFace (C.tri.nextInFace y)) = y →
      ¬ IsLarge C.seen C.vertical (C.tri.nextInFace y) ∧ ¬ IsLarge C.seen C.vertical (C.tri.nextInFace (C.tri.nextInFace y)) := by
    intro y hy ly h3
    have ht := h.isTri hy h3
    have k := ht.2.1
    change C.vec y + C.vec (C.tri.nextInFace y) + C.vec (C.tri.nextInFace (C.tri.nextInFace y)) = 0 at k
    have k' := congrArg (fun x => Vec.cross x C.vertical) k
    rw [Vec.cross_add_left, Vec.cross_add_left, Vec.cross_zero_left] at k'
    have n1 := hu y hy
    have n2 := hu _ (h.next_lt hy)
    have n3 := hu _ (h.next_lt (h.next_lt hy))
    have l1 := (h.isLarge_cross hy).1 ly y (.inl rfl)
    rw [show Vec.cross (C.vec y) C.vertical + Vec.cross (C.vec (C.tri.nextInFace y)) C.vertical =
      -Vec.cross (C.vec (C.tri.nextInFace (C.tri.nextInFace y))) C.vertical by linear_combination k', abs_neg] at l1
    have no : ∀ p q r : T, p + q + r = 0 → r ≠ 0 → q ≠ 0 → |q| ≤ |p| → |r| ≤ |p| → |p| ≤ |q| → False := by
      intro p q r s1 s2 s3 s4 s5 s6
      rcases (abs_eq_abs.1 (le_antisymm s6 s4)) with j | j
      · subst j
        have : r = -(2 * p) := by linear_combination s1
        rw [this, abs_neg, abs_mul, abs_two] at s5
        have := abs_pos.2 s3
        linarith
      · exact s2 (by linear_combination s1 - j)
    constructor
    · intro l2
      have l3 := (h.isLarge_cross (h.next_lt hy)).1 l2 _ (.inl rfl)
      rw [show Vec.cross (C.vec (C.tri.nextInFace y)) C.vertical + Vec.cross (C.vec (C.tri.nextInFace (C.tri.nextInFace y))) C.vertical =
        -Vec.cross (C.vec y) C.vertical by linear_combination k', abs_neg] at l3
      exact no _ _ _ k' n3 n2 l1.1 l1.2 l3.2
    · intro l2
      have l3 := (h.isLarge_cross (h.next_lt (h.next_lt hy))).1 l2 _ (.inl rfl)
      rw [h3] at l3
      exact no _ _ _ (by rw [← k']; ring) n2 n3 l1.2 l1.1 l3.1
  have k1 := key e he hl hb.1
  have k2 := key (neg e) (h.neg_lt he) ((h.isLarge_neg he).2 hl) hb.2
  simp only [List.mem_cons, List.not_mem_nil, or_false] at hw
  rcases hw with rfl | rfl | rfl | rfl | rfl | rfl
  · exact hzw
  · exact absurd hlw.1 k1.1
  · exact absurd hlw.1 k1.2
  · rw [neg_neg'] at hzw
    exact hzw.symm
  · exact absurd hlw.1 k2.1
  · exact absurd hlw.1 k2.2

theorem Good.between_or (h : C.Good) (he : e < C.tri.size) :
    C.Between e ∨ C.tri.nextInFace e = neg e ∧ C.tri.previousInFace e = neg e ∧ C.tri.nextInFace (neg e) = e := by
  have next_prev : ∀ z, C.tri.nextInFace (C.tri.previousInFace z) = z := fun z => h.linked.hf.right z
  rcases h.previous_cases he with k | k
  · rcases h.previous_cases (h.neg_lt he) with j | ⟨j1, j2, j3⟩
    · refine .inl ⟨?_, ?_⟩
      · rw [← k]; exact next_prev e
      · rw [← j]; exact next_prev _
    · rw [neg_neg'] at j1 j3
      refine .inr ⟨j3, ?_, j1⟩
      have := h.linked.hf.left (neg e)
      rw [show C.tri.faces.fwd (neg e) = e from j1] at this
      exact this
  · exact .inr k

/-- Faces that consist of two half edges are a component. -/
theorem Good.between (h : C.Good) (he : e < C.tri.size) (hn : ∃ y, Reach C e y ∧ y ≠ e ∧ y ≠ neg e) : C.Between e := by
  rcases h.between_or he with k | ⟨k1, k2, k3⟩
  · exact k
  exfalso
  have k4 : C.tri.previousInFace (neg e) = e := by
    have := h.linked.hf.left e
    rw [show C.tri.faces.fwd e = neg e from k1] at this
    exact this
  obtain ⟨y, hy, n1, n2⟩ := hn
  have : y = e ∨ y = neg e := by
    clear n1 n2
    induction hy with
    | refl => exact .inl rfl
    | tail _ hs ih =>
      have hs' := hs.2
      change _ ∨ _ = C.tri.nextInFace _ ∨ _ = C.tri.previousInFace _ at hs'
      rcases ih with rfl | rfl
      · rw [k1, k2] at hs'
        tauto
      · rw [k3, k4, neg_neg'] at hs'
        tauto
  tauto

/-! ### Unique large edges -/

/-- The only large edge that can be reached is the edge itself. -/
structure Alone (C : Collapsed T) (z : HE) : Prop where
  large : IsLarge C.seen C.vertical z
  only : ∀ y, Reach C z y → IsLarge C.seen C.vertical y → y = z ∨ y = neg z

/-- What is known about the surface and the sources that have been found. -/
structure Holds (A : Option (Approx T K)) (dbg : Bool) (S : FlatTri T) (v : Vec T) (C : Collapsed T) (s : IndexedSet) : Prop where
  built : BuiltCollapsed A dbg S v C
  rep : ∃ D, s.Rep D
  alone : ∀ z, s.contains (z / 2) = true → z < C.tri.size ∧ Alone C z

/-- What can be reached after a flip if everything that could be reached is far away. -/
theorem Moved.reach (m : Moved C C' (Near C.tri e) σ) (h : C.Good) (h' : C'.Good) (hz : z < C.tri.size)
    (hn : ∀ y, Reach C z y → ¬ Near C.tri e y) (hu : C.Upright) (hr : Reach C' (σ z) y) : ∃ x, y = σ x ∧ Reach C z x := by
  induction hr with
  | refl => exact ⟨z, rfl, .refl⟩
  | @tail a b _ hs ih =>
    obtain ⟨x, rfl, hx⟩ := ih
    have lx := hx.lt h hz
    have prev : C'.tri.previousInFace (σ x) = σ (C.tri.previousInFace x) := by
      have r1 : Reach C z (C.tri.previousInFace x) := hx.tail ⟨hu x lx, .inr (.inr rfl)⟩
      have k : C.tri.nextInFace (C.tri.previousInFace x) = x := h.linked.hf.right x
      have := m.face _ (h.previous_lt lx) (hn _ r1) (by rw [k]; exact hn _ hx)
      rw [k] at this
      rw [← this]
      exact h'.linked.hf.left _
    rcases hs.2 with rfl | rfl | rfl
    · exact ⟨neg x, (m.odd x).symm, hx.tail ⟨hu x lx, .inl rfl⟩⟩
    · have r1 : Reach C z (C.tri.nextInFace x) := hx.tail ⟨hu x lx, .inr (.inl rfl)⟩
      exact ⟨C.tri.nextInFace x, m.face x lx (hn _ hx) (hn _ r1), r1⟩
    · exact ⟨C.tri.previousInFace x, prev, hx.tail ⟨hu x lx, .inr (.inr rfl)⟩⟩

variable {S : FlatTri T} {v : Vec T} {s : IndexedSet}

/-- A flip of a large edge that is in the component of a large edge which is not a source. -/
theorem Holds.flip (hS : S.Shut) (hv : v ≠ 0) (h : Holds A dbg S v C s) (he : e < C.tri.size) (hb : C.Between e)
    (hl : IsLarge C.seen C.vertical e) (hw : ∃ w < C.tri.size, Reach C w e ∧ IsLarge C.seen C.vertical w ∧ s.contains (w / 2) = false)
    (unique : Option HE) (hq : ∀ u ∈ unique, u < C.tri.size ∧ IsLarge C.seen C.vertical u ∧ u ≠ e ∧ u ≠ neg e) :
    ∃ C' s' σ, flipTracked A dbg C e ⟨s, unique⟩ = .ok (C', ⟨s', unique.map σ⟩) ∧ Holds A dbg S v C' s' ∧
      ∀ u ∈ unique, σ u < C'.tri.size ∧ IsLarge C'.seen C'.vertical (σ u) ∧
        Vec.cross (C'.vec (σ u)) C'.vertical = Vec.cross (C.vec u) C.vertical ∧ s'.contains (σ u / 2) = s.contains (u / 2) := by
  have sane := h.built.sane hS hv
  have good := sane.good
  have up := sane.upright
  obtain ⟨C', σ, f⟩ := flip_follows A dbg good up he hb hl
  have good' := f.flips.good
  obtain ⟨D, hD⟩ := h.rep
  obtain ⟨w, w1, w2, w3, w4⟩ := hw
  have far : ∀ z, s.contains (z / 2) = true → ∀ y, Reach C z y → ¬ Near C.tri e y := by
    intro z hz y hy hn
    obtain ⟨z1, z2⟩ := h.alone z hz
    have r1 := (reach_near good up he hn).symm good up he
    have r2 := w2.symm good up w1
    have : s.contains (w / 2) = s.contains (z / 2) := by
      rcases z2.only w ((hy.trans r1).trans r2) w3 with rfl | rfl
      · rfl
      · rw [neg_div]
    rw [w4, hz] at this
    cases this
  have hu' : ∀ u ∈ unique, u < C.tri.size ∧ ¬ Near C.tri e u := by
    intro u hu
    obtain ⟨u1, u2, u3, u4⟩ := hq u hu
    exact ⟨u1, fun k => by rcases good.large_near up he hb hl u1 u2 k with j | j <;> contradiction⟩
  obtain ⟨s', D', t1, t2, t3⟩ := flipTracked_ok f hD unique (fun z hz => ⟨(h.alone z hz).1, far z hz z .refl⟩) hu'
  refine ⟨C', s', σ, t1, ⟨?_, ⟨D', t2⟩, ?_⟩, ?_⟩
  · have := h.built.flip (e := e) (by simpa [Tri.halfEdges] using he)
    rwa [f.flip] at this
  · intro z' hz'
    obtain ⟨z, rfl⟩ := σ.surjective z'
    rw [t3] at hz'
    obtain ⟨z1, z2⟩ := h.alone z hz'
    have fz := far z hz'
    refine ⟨f.moved.lt z z1 (fz z .refl), (f.moved.isLarge f.flips.vertical good good' z1 (fz z .refl)).2 z2.large, ?_⟩
    intro y hy ly
    obtain ⟨x, rfl, hx⟩ := f.moved.reach good good' z1 fz up hy
    have lx := (f.moved.isLarge f.flips.vertical good good' (hx.lt good z1) (fz x hx)).1 ly
    rcases z2.only x hx lx with rfl | rfl
    · exact .inl rfl
    · exact .inr (f.moved.odd z)
  · intro u hu
    obtain ⟨u1, u2, u3, u4⟩ := hq u hu
    have n := (hu' u hu).2
    exact ⟨f.moved.lt u u1 n, (f.moved.isLarge f.flips.vertical good good' u1 n).2 u2, by rw [f.flips.vertical]; exact f.moved.vec u u1 n, t3 u⟩

/-! ### Visits -/

theorem visitUntil_left {w : Vec T} {p : HE → Bool} {n : ℕ} {c : List HE} (h : visitUntil A C w p n z c = some (.inl e)) :
    p e = false ∧ Relation.ReflTransGen (Step C.seen w) z e := by
  induction n generalizing z c with
  | zero => cases h
  | succ n ih =>
    unfold visitUntil at h
    split_ifs at h with h1 h2 h3
    · injection h with h; cases h
    · injection h with h
      injection h with h
      subst h
      exact ⟨h2, .refl⟩
    · injection h with h; cases h
    · have hc := fun k => h3 ((Vertical.collinear_iff A w (C.vec z)).2 k)
      cases r1 : visitUntil A C w p n (neg z) (z :: c) with
      | none => rw [r1] at h; cases h
      | some x =>
        rw [r1] at h
        cases x with
        | inl x =>
          injection h with h
          injection h with h
          subst h
          obtain ⟨k1, k2⟩ := ih r1
          exact ⟨k1, .head ⟨hc, .inl rfl⟩ k2⟩
        | inr x =>
          dsimp only at h
          cases r2 : visitUntil A C w p n (C.tri.nextInFace z) x with
          | none => rw [r2] at h; cases h
          | some y =>
            rw [r2] at h
            cases y with
            | inl y =>
              injection h with h
              injection h with h
              subst h
              obtain ⟨k1, k2⟩ := ih r2
              exact ⟨k1, .head ⟨hc, .inr (.inl rfl)⟩ k2⟩
            | inr y =>
              obtain ⟨k1, k2⟩ := ih h
              exact ⟨k1, .head ⟨hc, .inr (.inr rfl)⟩ k2⟩

theorem visitUntil_right {w : Vec T} {p : HE → Bool} {n : ℕ} {c c' : List HE} (h : visitUntil A C w p n z c = some (.inr c')) :
    visit C.seen A w n z c = some c' ∧ ∀ x ∈ c', x ∈ c ∨ p x = true := by
  induction n generalizing z c c' with
  | zero => cases h
  | succ n ih =>
    unfold visitUntil at h
    unfold visit
    by_cases h1 : z ∈ c
    · rw [if_pos h1] at h ⊢
      injection h with h
      injection h with h
      subst h
      exact ⟨rfl, fun x hx => .inl hx⟩
    rw [if_neg h1] at h ⊢
    dsimp only
    by_cases h2 : p z = false
    · rw [if_pos h2] at h
      injection h with h
      cases h
    rw [if_neg h2] at h
    rw [Bool.not_eq_false] at h2
    change (if Vec.ccw A w (C.vec z) = .collinear then _ else _) = _ ∧ _
    by_cases h3 : Vec.ccw A w (C.vec z) = .collinear
    · rw [if_pos h3] at h ⊢
      injection h with h
      injection h with h
      subst h
      refine ⟨rfl, fun x hx => ?_⟩
      rcases List.mem_cons.1 hx with rfl | hx
      · exact .inr h2
      · exact .inl hx
    rw [if_neg h3] at h ⊢
    cases r1 : visitUntil A C w p n (neg z) (z :: c) with
    | none => rw [r1] at h; cases h
    | some x =>
      rw [r1] at h
      cases x with
      | inl x => injection h with h; cases h
      | inr x =>
        dsimp only at h
        obtain ⟨a1, a2⟩ := ih r1
        cases r2 : visitUntil A C w p n (C.tri.nextInFace z) x with
        | none => rw [r2] at h; cases h
        | some y =>
          rw [r2] at h
          cases y with
          | inl y => injection h with h; cases h
          | inr y =>
            dsimp only at h
            obtain ⟨b1, b2⟩ := ih r2
            obtain ⟨c1, c2⟩ := ih h
            simp only [Option.bind_eq_bind, Option.bind_eq_some_iff]
            refine ⟨⟨x, a1, y, b1, c1⟩, fun q hq => ?_⟩
            rcases c2 q hq with hq | hq
            · rcases b2 q hq with hq | hq
              · rcases a2 q hq with hq | hq
                · rcases List.mem_cons.1 hq with rfl | hq
                  · exact .inr h2
                  · exact .inl hq
                · exact .inr hq
              · exact .inr hq
            · exact .inr hq

/-- What has been visited. -/
theorem visitUntil_mem (h : C.Good) {p : HE → Bool} {n : ℕ} {c : List HE} (hz : z < C.tri.size)
    (hc : visitUntil A C C.vertical p n z [] = some (.inr c)) : c.Nodup ∧ (∀ y, y ∈ c ↔ Reach C z y) ∧ ∀ y ∈ c, p y = true := by
  obtain ⟨h1, h2⟩ := visitUntil_right hc
  obtain ⟨c', k1, k2, -, k4⟩ := visit_nil h.tame A C.vertical (n := max n (C.tri.size + 1)) (show C.seen.tri.size < _ by
    change C.tri.size < _; omega) (show z < C.seen.tri.size from hz)
  have := visit_mono (le_max_left n (C.tri.size + 1)) h1
  rw [k1] at this
  cases this
  refine ⟨k2, fun y => ?_, fun y hy => ?_⟩
  · rw [k4, joined_iff h.tame]
  · rcases h2 y hy with k | k
    · cases k
    · exact k

/-! ### The loops -/

theorem large_iff (h : C.Good) (hu : C.Upright) (he : e < C.tri.size) :
    Contour.large ⟨C.tri, C.vec⟩ C.vertical e = true ↔ IsLarge C.seen C.vertical e := (h.ready hu).large_iff he

/-- What `makeUniqueLargeEdge` achieves. -/
structure Made (A : Option (Approx T K)) (dbg : Bool) (S : FlatTri T) (v : Vec T) (C : Collapsed T) (s : IndexedSet) (u : HE) (c : List HE) : Prop where
  holds : Holds A dbg S v C s
  lt : u < C.tri.size
  pos : 0 < Vec.cross (C.vec u) C.vertical
  alone : Alone C u
  fresh : s.contains (u / 2) = false
  component : c.Nodup ∧ ∀ y, y ∈ c ↔ Reach C u y

theorem uniqueLoop_ok (hS : S.Shut) (hv : v ≠ 0) (n : ℕ) {m : ℕ} (h : Holds A dbg S v C s) (hu : u < C.tri.size)
    (hl : IsLarge C.seen C.vertical u) (hp : 0 < Vec.cross (C.vec u) C.vertical) (hs : s.contains (u / 2) = false)
    {r : Except Err (Collapsed T × IndexedSet × HE × List HE)} (hr : uniqueLoop A dbg v n m C s u = some r) :
    ∃ C' s' u' c, r = .ok (C', s', u', c) ∧ Made A dbg S v C' s' u' c ∧
      Vec.cross (C'.vec u') C'.vertical = Vec.cross (C.vec u) C.vertical := by
  induction m generalizing C s u with
  | zero => cases hr
  | succ m ih =>
    have sane := h.built.sane hS hv
    have good := sane.good
    have up := sane.upright
    unfold uniqueLoop at hr
    cases hc : visitUntil A C v (visitor C v u) n u [] with
    | none => rw [hc] at hr; cases hr
    | some x =>
      rw [hc] at hr
      rw [← sane.vertical] at hc
      cases x with
      | inr c =>
        dsimp only at hr
        obtain ⟨c1, c2, c3⟩ := visitUntil_mem good hu hc
        have len : ¬ (dbg = true ∧ c.length < 2) := by
          rintro ⟨-, k⟩
          have m1 : u ∈ c := (c2 u).2 .refl
          have m2 : neg u ∈ c := (c2 _).2 (reach_neg up hu)
          have : c.length ≤ 1 := by omega
          match c, this with
          | [], _ => cases m1
          | [x], _ =>
            rw [List.mem_singleton] at m1 m2
            exact neg_ne u (m2.trans m1.symm)
        rw [if_neg len] at hr
        injection hr with hr
        refine ⟨C, s, u, c, hr.symm, ⟨h, hu, hp, ⟨hl, fun y hy ly => ?_⟩, hs, c1, c2⟩, rfl⟩
        have := c3 y ((c2 y).2 hy)
        unfold visitor at this
        split_ifs at this with k
        · exact k
        · have ly' := (large_iff good up (hy.lt good hu)).2 ly
          rw [ly'] at this
          cases this
      | inl e =>
        dsimp only at hr
        obtain ⟨e1, e2⟩ := visitUntil_left hc
        have he := Reach.lt good e2 hu
        unfold visitor at e1
        split_ifs at e1 with k
        push Not at k
        rw [Bool.not_eq_false'] at e1
        have le := (large_iff good up he).1 e1
        have hb := good.between he ⟨u, Reach.symm good up e2 hu, k.1.symm, fun j => k.2 (by rw [j, neg_neg'])⟩
        obtain ⟨C', s', σ, f1, f2, f3⟩ := h.flip hS hv he hb le ⟨u, hu, e2, hl, hs⟩ (some u) (fun w hw => by
          injection hw with hw
          subst hw
          exact ⟨hu, hl, k.1.symm, fun j => k.2 (by rw [j, neg_neg'])⟩)
        rw [f1] at hr
        dsimp only [Option.map] at hr
        obtain ⟨u1, u2, u3, u4⟩ := f3 u rfl
        obtain ⟨C2, s2, w, c, k1, k2, k3⟩ := ih f2 u1 u2 (by rw [u3]; exact hp) (u4.trans hs) hr
        exact ⟨C2, s2, w, c, k1, k2, k3.trans u3⟩

theorem makeUniqueLargeEdge_ok (hS : S.Shut) (hv : v ≠ 0) (n : ℕ) (h : Holds A dbg S v C s) (hu : u < C.tri.size)
    (hl : IsLarge C.seen C.vertical u) (hs : s.contains (u / 2) = false)
    {r : Except Err (Collapsed T × IndexedSet × HE × List HE)} (hr : makeUniqueLargeEdge A dbg v n C s u = some r) :
    ∃ C' s' u' c, r = .ok (C', s', u', c) ∧ Made A dbg S v C' s' u' c ∧
      Vec.cross (C'.vec u') C'.vertical = |Vec.cross (C.vec u) C.vertical| := by
  have sane := h.built.sane hS hv
  have good := sane.good
  have up := sane.upright
  have hmake : ∃ V, Vertical.make v = .ok V := by
    unfold Vertical.make
    rw [if_neg (by simpa [Vec.nonzero_iff] using hv)]
    exact ⟨_, rfl⟩
  obtain ⟨V, hV⟩ := hmake
  unfold makeUniqueLargeEdge at hr
  rw [hV] at hr
  dsimp only at hr
  rw [← sane.vertical, (large_iff good up hu).2 hl, if_neg (by simp)] at hr
  obtain ⟨y, y1, y2, y3⟩ := right_cases A good up hu
  rw [y3, sane.vertical] at hr
  have ha : |Vec.cross (C.vec u) C.vertical| = Vec.cross (C.vec y) C.vertical := by
    rcases y1 with rfl | rfl
    · exact abs_of_pos y2
    · rw [good.cross_neg hu] at y2 ⊢
      exact abs_of_neg (by linarith)
  rw [ha]
  refine uniqueLoop_ok hS hv n h ?_ ?_ y2 ?_ hr
  · rcases y1 with rfl | rfl <;> [exact hu; exact good.neg_lt hu]
  · rcases y1 with rfl | rfl <;> [exact hl; exact (good.isLarge_neg hu).2 hl]
  · rcases y1 with rfl | rfl <;> [exact hs; (rw [neg_div]; exact hs)]

/-! ### Interval exchange transformations -/

section

open Contour Flow

theorem follows_of_append {l1 l2 b t : List HE} {x y : HE} (h : b ++ t = l1 ++ x :: y :: l2) : Follows (b ++ t) x y := by
  rw [h]
  refine ⟨l1.length, by simp, by simp, ?_⟩
  have : (l1.length + 1) % (l1 ++ x :: y :: l2).length = l1.length + 1 := Nat.mod_eq_of_lt (by simp)
  rw [this]
  simp

theorem iet_collapsed (h : C.Good) (hu : C.Upright) (hV : C.tri.VertexesOk) (A : Option (Approx T K)) (dbg : Bool) {d : Component}
    {mu lu md ld : List HE} (b : Built C.seen C.vertical d mu lu md ld) (hL : UniqueLarge C.seen C.vertical d.halfEdges) :
    (lu.length ≠ 1 → C.Between d.large) ∧ ∃ N, ∀ n ≥ N, iet C.seen A dbg C.vertical n d.large = some (.ok (lu, d.bottomEdges)) := by
  have hr := h.ready hu
  have ht := hr.ok
  obtain ⟨a, b', g, a', b'', g', F⟩ := h.frame hu b
  have n1 := (ht.nodup_tree b.up b.lt).2
  have n2 := (OK.nodup_tree ht.reverse b.down (h.neg_lt b.lt)).2
  have inj : Function.Injective Verif.neg := fun x y hxy => neg_inj'.1 hxy
  have nb : d.bottomEdges.Nodup := by rw [b.bottom]; exact List.nodup_reverse.2 (n2.map inj)
  have hperm : lu.Perm d.bottomEdges := by
    rw [List.perm_ext_iff_of_nodup n1 nb]
    intro x
    rw [b.bottom, List.mem_reverse, List.mem_map, ← b.mem_iff hr hL x]
    exact ⟨fun hx => ⟨_, hx, neg_neg' x⟩, fun ⟨y, hy, hx⟩ => by rw [← hx, neg_neg']; exact hy⟩
  have len : d.topEdges.length = lu.length := by rw [b.top]; simp
  refine ⟨fun hlen => ?_, ?_⟩
  · rcases h.between_or b.lt with k | ⟨k, -, -⟩
    · exact k
    rcases F.size_cases h hu with ⟨-, -, -, -, -, -, k7, -⟩ | ⟨k1, -⟩
    · rw [k7] at len
      exact absurd len.symm hlen
    · exact absurd ((ht.flat_neg b.lt).2 k) (OK.up_nf ht.reverse (h.neg_lt b.lt) (by
        rw [perp_neg]
        exact k1))
  have r2 : d.bottomEdges.IsChain fun x y => C.tri.source (neg x) = C.tri.source y := by
    rw [List.isChain_iff_forall_rel_of_append_cons_cons]
    intro x y l1 l2 hl
    refine F.source h hu hV (follows_of_append (l1 := l1) (l2 := l2 ++ d.topEdges) ?_)
    rw [hl]
    simp
  have r1 : lu.IsChain fun x y => C.tri.source (neg x) = C.tri.source y := by
    rw [List.isChain_iff_forall_rel_of_append_cons_cons]
    intro x y l1 l2 hl
    have := F.source h hu hV (x := neg y) (y := neg x) (follows_of_append (l1 := d.bottomEdges ++ (l2.map neg).reverse)
      (l2 := (l1.map neg).reverse) (by rw [b.top, hl]; simp))
    rw [neg_neg'] at this
    exact this.symm
  obtain ⟨N, hN⟩ := makeContour_tree ht A dbg b.up b.lt b.pos
  obtain ⟨N', hN'⟩ := makeContour_tree ht.reverse A dbg b.down (h.neg_lt b.lt) (b.pos' hr)
  refine ⟨max N N', fun n hn => ?_⟩
  have eb : ld.reverse.map neg = d.bottomEdges := by rw [b.bottom, List.map_reverse]
  have ne : lu ≠ [] := by
    intro hx
    have := (F.both h hu).1.gaps.ne_nil
    rw [b.top, hx] at this
    exact this rfl
  unfold iet
  rw [(hr.large_iff b.lt).2 b.large, hN n (by omega)]
  simp only [Bool.not_true, Bool.false_eq_true, if_false]
  rw [hN' n (by omega)]
  simp only
  rw [eb, if_neg (by rw [not_and_or]; exact .inr (not_not.2 (List.toFinset_eq_of_perm _ _ hperm.symm))), if_neg (not_not.2 hperm),
    if_neg ne, chained_ok hV (fun x hx => b.part.lt x (b.mem_up hr hx).1) r1,
    chained_ok hV (fun x hx => b.part.lt x (b.perimeter_sub hr (List.mem_append_left _ hx))) r2]

theorem Made.iet_ok (hS : S.Shut) (hv : v ≠ 0) {c : List HE} (m : Made A dbg S v C s u c) {n : ℕ} {r : Except Err (List HE × List HE)}
    (hr : iet ⟨C.tri, C.vec⟩ A dbg v n u = some r) : ∃ top bottom, r = .ok (top, bottom) ∧ (top.length ≠ 1 → C.Between u) := by
  have sane := m.holds.built.sane hS hv
  have good := sane.good
  have up := sane.upright
  have hx := good.ready up
  have closed : ∀ x ∈ c, ∀ y, Step C.seen C.vertical x y → y ∈ c := fun x hx y hy =>
    (m.component.2 y).2 (((m.component.2 x).1 hx).tail hy)
  have lt : ∀ x ∈ c, x < C.tri.size := fun x hx => Reach.lt good ((m.component.2 x).1 hx) m.lt
  have hu : u ∈ c := (m.component.2 u).2 .refl
  have part : Part C.seen c := ⟨lt, fun x hx => closed x hx _ ⟨up x (lt x hx), .inl rfl⟩,
    fun x hx => closed x hx _ ⟨up x (lt x hx), .inr (.inl rfl)⟩, fun x hx => closed x hx _ ⟨up x (lt x hx), .inr (.inr rfl)⟩,
    List.ne_nil_of_mem hu, m.component.1⟩
  have k6 : 0 < perp C.seen (-C.vertical) (neg u) := by
    rw [perp_neg]
    simp only
    rw [hx.ok.odd u m.lt]
    have : 0 < perp C.seen C.vertical u := m.pos
    linarith
  obtain ⟨mu, lu, t1⟩ := hx.ok.exists_tree u m.lt m.pos
  obtain ⟨md, ld, t2⟩ := OK.exists_tree hx.ok.reverse (neg u) (good.neg_lt m.lt) k6
  have b : Built C.seen C.vertical ⟨c, u, (lu.map neg).reverse, (ld.map neg).reverse⟩ mu lu md ld :=
    ⟨part, hu, m.alone.large, m.pos, t1, t2, rfl, rfl⟩
  have hL : UniqueLarge C.seen C.vertical c := by
    intro x hx y hy lx ly
    rcases m.alone.only x ((m.component.2 x).1 hx) lx with rfl | rfl
    · exact m.alone.only y ((m.component.2 y).1 hy) ly
    · rw [neg_neg']
      exact (m.alone.only y ((m.component.2 y).1 hy) ly).symm
  obtain ⟨i1, N, i2⟩ := iet_collapsed good up (m.holds.built.vertexes hS hv) A dbg b hL
  have := iet_mono (le_max_left n N) hr
  rw [← sane.vertical] at this
  have i3 := i2 (max n N) (le_max_right _ _)
  exact ⟨lu, _, Option.some.inj (this.symm.trans i3), i1⟩

end

theorem Alone.neg (h : C.Good) (hu : C.Upright) (hz : z < C.tri.size) (a : Alone C z) : Alone C (neg z) := by
  refine ⟨(h.isLarge_neg hz).2 a.large, fun y hy ly => ?_⟩
  rw [neg_neg']
  exact (a.only y ((reach_neg hu hz).trans hy) ly).symm

theorem Holds.unique (hS : S.Shut) (hv : v ≠ 0) (h : Holds A dbg S v C s) (hl : larges A C v s = []) : UniqueLargeEdges C.seen v := by
  have sane := h.built.sane hS hv
  have good := sane.good
  have up := sane.upright
  unfold larges at hl
  rw [List.filter_eq_nil_iff] at hl
  have key : ∀ z < C.tri.size, 0 < Vec.cross (C.vec z) C.vertical → IsLarge C.seen C.vertical z → Alone C z := by
    intro z hz hp lz
    have := hl z (by simpa [Tri.halfEdges] using hz)
    have hc : Vec.ccw A C.vertical (C.vec z) ≠ .counterclockwise := by
      rw [Ne, ccw_iff]
      linarith
    rw [← sane.vertical, (large_iff good up hz).2 lz, decide_eq_true hc] at this
    simp only [Bool.and_true, Bool.not_eq_true', Bool.not_eq_false] at this
    exact (h.alone z this).2
  have key' : ∀ z < C.tri.size, IsLarge C.seen C.vertical z → Alone C z := by
    intro z hz lz
    rcases lt_or_gt_of_ne (up z hz) with k | k
    · have := (key (neg z) (good.neg_lt hz) (by rw [good.cross_neg hz]; linarith) ((good.isLarge_neg hz).2 lz)).neg good up (good.neg_lt hz)
      rwa [neg_neg'] at this
    · exact key z hz k lz
  intro x hx y _ hj lx ly
  rw [← sane.vertical] at hj lx ly
  exact (key' x (by simpa [Tri.halfEdges] using show x ∈ C.tri.halfEdges from hx) lx).only y ((joined_iff good.tame).1 hj) ly

theorem uniquesLoop_ok (hS : S.Shut) (hv : v ≠ 0) (n : ℕ) {m : ℕ} {sort : (HE → T) → List HE → List HE}
    (hsort : ∀ f l, (sort f l).Perm l) (h : Holds A dbg S v C s) {r : Except Err (Collapsed T)}
    (hr : uniquesLoop A dbg sort v n m C s = some r) :
    ∃ C', r = .ok C' ∧ BuiltCollapsed A dbg S v C' ∧ UniqueLargeEdges C'.seen v := by
  induction m generalizing C s with
  | zero => cases hr
  | succ m ih =>
    have sane := h.built.sane hS hv
    have good := sane.good
    have up := sane.upright
    unfold uniquesLoop at hr
    have hp := hsort (Contour.length ⟨C.tri, C.vec⟩ v) (larges A C v s)
    cases hl : (sort (Contour.length ⟨C.tri, C.vec⟩ v) (larges A C v s)).getLast? with
    | none =>
      rw [hl] at hr
      rw [List.getLast?_eq_none_iff] at hl
      rw [hl] at hp
      injection hr with hr
      exact ⟨C, hr.symm, h.built, h.unique hS hv hp.nil_eq.symm⟩
    | some u =>
      rw [hl] at hr
      have hu : u ∈ larges A C v s := hp.mem_iff.1 (List.mem_of_getLast? hl)
      unfold larges at hu
      simp only [List.mem_filter, Bool.and_eq_true, Bool.not_eq_true'] at hu
      obtain ⟨u1, ⟨u2, u3⟩, -⟩ := hu
      have hlt : u < C.tri.size := by simpa [Tri.halfEdges] using u1
      rw [← sane.vertical] at u3
      dsimp only at hr
      cases h1 : makeUniqueLargeEdge A dbg v n C s u with
      | none => rw [h1] at hr; cases hr
      | some x =>
        obtain ⟨C1, s1, w, c, rfl, k, -⟩ := makeUniqueLargeEdge_ok hS hv n h hlt ((large_iff good up hlt).1 u3) u2 h1
        rw [h1] at hr
        dsimp only at hr
        cases h2 : Contour.iet ⟨C1.tri, C1.vec⟩ A dbg v n w with
        | none => rw [h2] at hr; cases hr
        | some y =>
          obtain ⟨top, bottom, rfl, kb⟩ := k.iet_ok hS hv h2
          rw [h2] at hr
          dsimp only at hr
          split_ifs at hr with hc
          · have hlen : top.length ≠ 1 := by
              rw [Bool.and_eq_true, Bool.not_eq_true', decide_eq_false_iff_not] at hc
              exact hc.1
            obtain ⟨C2, s2, σ, f1, f2, -⟩ := k.holds.flip hS hv k.lt (kb hlen) k.alone.large ⟨w, k.lt, .refl, k.alone.large, k.fresh⟩ none
              (by simp)
            rw [f1] at hr
            exact ih f2 hr
          · refine ih ⟨k.holds.built, ?_, ?_⟩ hr
            · obtain ⟨D, hD⟩ := k.holds.rep
              exact ⟨_, hD.insert _⟩
            · intro z hz
              obtain ⟨D, hD⟩ := k.holds.rep
              rw [(hD.insert _).contains, decide_eq_true_eq, Finset.mem_insert] at hz
              rcases hz with hz | hz
              · have sane1 := k.holds.built.sane hS hv
                rcases div_two_eq hz with rfl | rfl
                · exact ⟨k.lt, k.alone⟩
                · exact ⟨sane1.good.neg_lt k.lt, k.alone.neg sane1.good sane1.upright k.lt⟩
              · refine k.holds.alone z ?_
                rw [hD.contains]
                exact decide_eq_true hz

theorem makeUniqueLargeEdges_ok (hS : S.Shut) (hv : v ≠ 0) (n : ℕ) {sort : (HE → T) → List HE → List HE}
    (hsort : ∀ f l, (sort f l).Perm l) (h : BuiltCollapsed A dbg S v C) {r : Except Err (Collapsed T)}
    (hr : makeUniqueLargeEdges A dbg sort v n C = some r) :
    ∃ C', r = .ok C' ∧ BuiltCollapsed A dbg S v C' ∧ UniqueLargeEdges C'.seen v := by
  have hmake : ∃ V, Vertical.make v = .ok V := by
    unfold Vertical.make
    rw [if_neg (by simpa [Vec.nonzero_iff] using hv)]
    exact ⟨_, rfl⟩
  obtain ⟨V, hV⟩ := hmake
  unfold makeUniqueLargeEdges at hr
  rw [hV] at hr
  refine uniquesLoop_ok hS hv n hsort ⟨h, ⟨_, IndexedSet.rep_empty⟩, fun z hz => ?_⟩ hr
  rw [IndexedSet.rep_empty.contains] at hz
  simp at hz

end Verif.Collapsed
