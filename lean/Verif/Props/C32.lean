import Verif.Props.C30
import Verif.Props.C24

/-!
# C32: equal points have equal hashes

For chains, see `C24.hash_correct`.
-/

namespace Verif.C32

open Verif Spec Tri FlatTri Examples

variable {T : Type} [CommRing T] [LinearOrder T] [IsStrictOrderedRing T]

/-- The hash of a quotient between zero and one depends only on the quotient. -/
def RatioHash (quot : T → T → ℕ) : Prop :=
  ∀ x y x' y', 0 ≤ x → x ≤ y → 0 < y → 0 ≤ x' → x' ≤ y' → 0 < y' → x * y' = x' * y → quot x y = quot x' y'

/-- The hash of a point in the interior of a face. -/
def innerHash (h : HashArgs → ℕ) (quot : T → T → ℕ) (S : FlatTri T) (e : HE) (a b c : T) : Except Err ℕ :=
  let m := max (max a b) c
  let e1 := S.tri.nextInFace e
  let e2 := S.tri.previousInFace e
  if a = m ∧ b = m ∧ c = m then
    let m := min (min e e1) e2
    .ok (h (.center m (S.tri.nextInFace m)))
  else if a = m ∧ b = m then .ok (h (.equal e (quot c m)))
  else if a = m ∧ c = m then .ok (h (.equal e2 (quot b m)))
  else if b = m ∧ c = m then .ok (h (.equal e1 (quot a m)))
  else if a = m then .ok (h (.inner e (quot b m) (quot c m)))
  else if b = m then .ok (h (.inner e1 (quot c m) (quot a m)))
  else if c = m then .ok (h (.inner e2 (quot a m) (quot b m)))
  else .error .undefined

theorem innerHash_rotate (hash : HashArgs → ℕ) (quot : T → T → ℕ) {S : FlatTri T} (h : S.Shut) (e : HE) (a b c : T) :
    innerHash hash quot S e a b c = innerHash hash quot S (S.tri.faces.fwd e) b c a := by
  unfold innerHash Tri.nextInFace Tri.previousInFace
  simp only [h.prev, h.next3]
  rw [show max (max b c) a = max (max a b) c by rw [max_comm, ← max_assoc]]
  rw [show min (min (S.tri.faces.fwd e) (S.tri.faces.fwd (S.tri.faces.fwd e))) e =
    min (min e (S.tri.faces.fwd e)) (S.tri.faces.fwd (S.tri.faces.fwd e)) by rw [min_comm, ← min_assoc]]
  generalize hm : max (max a b) c = m
  by_cases ha : a = m <;> by_cases hb : b = m <;> by_cases hc : c = m <;> simp only [ha, hb, hc, and_true, and_false, and_self,
    if_true, if_false]

theorem innerHash_ok (hash : HashArgs → ℕ) (quot : T → T → ℕ) (S : FlatTri T) (e : HE) (a b c : T) :
    ∃ n, innerHash hash quot S e a b c = .ok n := by
  have hm : a = max (max a b) c ∨ b = max (max a b) c ∨ c = max (max a b) c := by
    rcases le_total a b with h1 | h1 <;> rcases le_total (max a b) c with h2 | h2 <;> simp_all
  unfold innerHash
  simp only
  split_ifs with h1 h2 h3 h4 h5 h6 h7
  all_goals first | exact ⟨_, rfl⟩ | tauto

theorem innerHash_scale (hash : HashArgs → ℕ) {quot : T → T → ℕ} (hq : RatioHash quot) (S : FlatTri T) (e : HE)
    {a b c a' b' c' l m : T} (hl : 0 < l) (hm : 0 < m) (h0 : 0 < a ∧ 0 < b ∧ 0 < c) (h0' : 0 < a' ∧ 0 < b' ∧ 0 < c')
    (ha : l * a = m * a') (hb : l * b = m * b') (hc : l * c = m * c') :
    innerHash hash quot S e a b c = innerHash hash quot S e a' b' c' := by
  have hmax : l * max (max a b) c = m * max (max a' b') c' := by
    rw [mul_max_of_nonneg _ _ hl.le, mul_max_of_nonneg _ _ hl.le, mul_max_of_nonneg _ _ hm.le, mul_max_of_nonneg _ _ hm.le,
      ha, hb, hc]
  have hM : 0 < max (max a b) c := lt_of_lt_of_le h0.2.2 (le_max_right _ _)
  have hM' : 0 < max (max a' b') c' := lt_of_lt_of_le h0'.2.2 (le_max_right _ _)
  have la : a ≤ max (max a b) c := le_trans (le_max_left _ _) (le_max_left _ _)
  have lb : b ≤ max (max a b) c := le_trans (le_max_right _ _) (le_max_left _ _)
  have lc : c ≤ max (max a b) c := le_max_right _ _
  have la' : a' ≤ max (max a' b') c' := le_trans (le_max_left _ _) (le_max_left _ _)
  have lb' : b' ≤ max (max a' b') c' := le_trans (le_max_right _ _) (le_max_left _ _)
  have lc' : c' ≤ max (max a' b') c' := le_max_right _ _
  unfold innerHash
  simp only
  generalize max (max a b) c = M at *
  generalize max (max a' b') c' = M' at *
  have key : ∀ x x', l * x = m * x' → (x = M ↔ x' = M') := fun x x' hx => by
    rw [← mul_right_inj' hl.ne', hx, hmax, mul_right_inj' hm.ne']
  have key2 : ∀ x x', l * x = m * x' → 0 < x → 0 < x' → x ≤ M → x' ≤ M' → quot x M = quot x' M' := fun x x' hx p p' q q' => by
    refine hq _ _ _ _ p.le q hM p'.le q' hM' (mul_left_cancel₀ (mul_pos hl hm).ne' ?_)
    linear_combination m * M' * hx - m * x' * hmax
  simp only [key a a' ha, key b b' hb, key c c' hc, key2 a a' ha h0.1 h0'.1 la la', key2 b b' hb h0.2.1 h0'.2.1 lb lb',
    key2 c c' hc h0.2.2 h0'.2.2 lc lc']

theorem hashPoint_inner (hash : HashArgs → ℕ) (quot : T → T → ℕ) {S : FlatTri T} (h : S.Shut) {p : Point T}
    (hp : Normal S p) (hc : p.c ≠ 0) : S.hashPoint hash quot p = innerHash hash quot S p.face p.a p.b p.c := by
  have hco : S.coordinates p p.face = .ok (p.a, p.b, p.c) := by
    unfold FlatTri.coordinates
    rw [h.in_of_same hp (.refl p)]
    simp [sides, rotated_self]
  unfold hashPoint
  rw [vertexOf_none (hp.inner hc).2.1.ne']
  simp only
  rw [hco]
  unfold edgeOf
  rw [if_pos hc]
  rfl

theorem hashPoint_edge (hash : HashArgs → ℕ) (quot : T → T → ℕ) {S : FlatTri T} (h : S.Shut) {p : Point T}
    (hp : Normal S p) (hb : p.b ≠ 0) (hc : p.c = 0) : S.hashPoint hash quot p =
      .ok (hash (.edge (Edge.ofHalfEdge p.face) (if p.b ≤ p.a then quot p.b p.a else quot p.a p.b))) := by
  have hco : S.coordinates p p.face = .ok (p.a, p.b, p.c) := by
    unfold FlatTri.coordinates
    rw [h.in_of_same hp (.refl p)]
    simp [sides, rotated_self]
  have ha : 0 < p.a := (hp.normal.resolve_left fun hx => hx.2.2.ne' hc).2
  have hmax : p.a = max (max p.a p.b) p.c ↔ p.b ≤ p.a := by
    rw [hc, max_eq_left (le_trans ha.le (le_max_left _ _)), eq_comm, max_eq_left_iff]
  unfold hashPoint
  rw [vertexOf_none hb]
  simp only
  rw [hco]
  unfold edgeOf
  rw [if_neg (not_not.2 hc)]
  show Except.ok _ = _
  simp only [hmax]

/-- Equal points have equal hashes. -/
theorem hash_point {dbg : Bool} {S : FlatTri T} (h : Closed dbg S) (hash : HashArgs → ℕ) {quot : T → T → ℕ}
    (hq : RatioHash quot) {d d' p p' : Point T} (hp : C30.Created dbg S d p) (hp' : C30.Created dbg S d' p')
    (heq : S.pointEq p p' = .ok true) : ∃ n, S.hashPoint hash quot p = .ok n ∧ S.hashPoint hash quot p' = .ok n := by
  obtain ⟨n, -⟩ := hp.normal h
  obtain ⟨n', -⟩ := hp'.normal h
  obtain ⟨r, h1, h2⟩ := h.shut.pointEq n n'
  rw [heq] at h1
  injection h1 with h1
  have hs := h2.1 h1.symm
  have hk := hs.key h.shut n.toDescribes
  by_cases hc : p.c = 0
  · by_cases hb : p.b = 0
    · -- a vertex
      rw [(n.vertex h.shut hb).2] at hk
      have hb' : p'.b = 0 := by
        by_contra hb'
        by_cases hc' : p'.c = 0
        · rw [n'.edge hb' hc'] at hk; cases hk
        · rw [(n'.inner hc').2.2.2] at hk; cases hk
      rw [(n'.vertex h.shut hb').2] at hk
      injection hk with hk
      obtain ⟨v, hv, hvo⟩ := h.shut.vertexOf_some n hb
      obtain ⟨v', hv', hvo'⟩ := h.shut.vertexOf_some n' hb'
      have hvv : v = v' := by
        ext z
        rw [hvo, hvo']
        exact Set.ext_iff.1 hk z
      subst hvv
      obtain ⟨m, hm⟩ := Finset.min_of_mem ((hvo p.face).2 (Perm.Orb.refl _ _))
      refine ⟨hash (.vertex m), ?_, ?_⟩
      · unfold hashPoint
        rw [hv]
        simp only
        rw [hm]
      · unfold hashPoint
        rw [hv']
        simp only
        rw [hm]
    · -- a point on an edge
      rw [n.edge hb hc] at hk
      have hc' : p'.c = 0 := by
        by_contra hc'
        rw [(n'.inner hc').2.2.2] at hk; cases hk
      have hb' : p'.b ≠ 0 := by
        intro hb'
        rw [(n'.vertex h.shut hb').2] at hk; cases hk
      rw [n'.edge hb' hc'] at hk
      injection hk with hk
      have ha : 0 < p.a := (n.normal.resolve_left fun hx => hx.2.2.ne' hc).2
      have ha' : 0 < p'.a := (n'.normal.resolve_left fun hx => hx.2.2.ne' hc').2
      have hb0 : 0 < p.b := lt_of_le_of_ne n.nonneg.2.1 (Ne.symm hb)
      have hb0' : 0 < p'.b := lt_of_le_of_ne n'.nonneg.2.1 (Ne.symm hb')
      have hx : p.face = p'.face ∨ p.face = neg p'.face := by
        refine weights2_support (a := p'.a) (b := p'.b) (s := p'.a + p'.b + p'.c) ?_
        rw [← hk, weights2_self]
        exact frac_ne ha.ne' n.pos.ne'
      rw [hashPoint_edge hash quot h.shut n hb hc, hashPoint_edge hash quot h.shut n' hb' hc', ofHalfEdge_eq.2 hx]
      refine ⟨_, rfl, ?_⟩
      congr 3
      have s0 : p.a + p.b + p.c ≠ 0 := n.pos.ne'
      have s1 : p'.a + p'.b + p'.c ≠ 0 := n'.pos.ne'
      rcases hx with hx | hx
      · have k1 := congrFun hk p.face
        have k2 := congrFun hk (neg p.face)
        rw [weights2_self, hx, weights2_self, frac_eq s0 s1] at k1
        rw [weights2_other, hx, weights2_other, frac_eq s0 s1] at k2
        have hprop : p.a * p'.b = p'.a * p.b := by
          apply mul_left_cancel₀ s0
          linear_combination -p.a * k2 + p.b * k1
        have hle : p'.b ≤ p'.a ↔ p.b ≤ p.a := by
          rw [← mul_le_mul_iff_right₀ ha, ← mul_le_mul_iff_right₀ ha', hprop, mul_comm p.a p'.a, mul_le_mul_iff_right₀ ha',
            mul_le_mul_iff_right₀ ha']
        by_cases hle' : p.b ≤ p.a
        · rw [if_pos (hle.2 hle'), if_pos hle']
          exact hq _ _ _ _ hb0'.le (hle.2 hle') ha' hb0.le hle' ha (by linear_combination hprop)
        · rw [if_neg (mt hle.1 hle'), if_neg hle']
          exact hq _ _ _ _ ha'.le (not_le.1 (mt hle.1 hle')).le hb0' ha.le (not_le.1 hle').le hb0 (by linear_combination -hprop)
      · have k1 := congrFun hk p.face
        have k2 := congrFun hk (neg p.face)
        rw [weights2_self, hx, weights2_other, frac_eq s0 s1] at k1
        rw [weights2_other, hx, neg_neg', weights2_self, frac_eq s0 s1] at k2
        have hprop : p.a * p'.a = p'.b * p.b := by
          apply mul_left_cancel₀ s0
          linear_combination -p.a * k2 + p.b * k1
        have hle : p'.b ≤ p'.a ↔ p.a ≤ p.b := by
          rw [← mul_le_mul_iff_right₀ ha, hprop, mul_comm p.a p'.b, mul_le_mul_iff_right₀ hb0']
        by_cases hle' : p.b ≤ p.a
        · rw [if_pos hle']
          by_cases hle'' : p.a ≤ p.b
          · rw [if_pos (hle.2 hle'')]
            have hab := le_antisymm hle' hle''
            rw [hab] at hprop
            have hab' := mul_left_cancel₀ ha.ne' (hprop.trans (mul_comm _ _))
            exact hq _ _ _ _ hb0'.le (hle.2 hle'') ha' hb0.le hle' ha (by rw [hab, hab', mul_comm])
          · rw [if_neg (mt hle.1 hle'')]
            exact hq _ _ _ _ ha'.le (not_le.1 (mt hle.1 hle'')).le hb0' hb0.le hle' ha (by linear_combination hprop)
        · rw [if_neg hle', if_pos (hle.2 (not_le.1 hle').le)]
          exact hq _ _ _ _ hb0'.le (hle.2 (not_le.1 hle').le) ha' ha.le (not_le.1 hle').le hb0 (by linear_combination -hprop)
  · -- a point in the interior of a face
    obtain ⟨a0, b0, c0, hk1⟩ := n.inner hc
    have hc' : p'.c ≠ 0 := by
      intro hc'
      rw [hk1] at hk
      by_cases hb' : p'.b = 0
      · rw [(n'.vertex h.shut hb').2] at hk; cases hk
      · rw [n'.edge hb' hc'] at hk; cases hk
    obtain ⟨a1, b1, c1, -⟩ := n'.inner hc'
    have hside := C30.inner_face h n.lt ⟨a0, b0, c0⟩ hs
    rw [hashPoint_inner hash quot h.shut n hc, hashPoint_inner hash quot h.shut n' hc']
    have key : ∀ {a b c : T}, 0 < a ∧ 0 < b ∧ 0 < c → SamePosition S p ⟨p.face, a, b, c⟩ →
        innerHash hash quot S p.face p.a p.b p.c = innerHash hash quot S p.face a b c := by
      intro a b c h0 hs
      obtain ⟨k1, k2⟩ := (C30.inner_same h n.lt ⟨a0, b0, c0⟩ h0).1 hs
      exact innerHash_scale hash hq S p.face h0.2.1 b0 ⟨a0, b0, c0⟩ h0 (by linear_combination k1) (by ring)
        (by linear_combination -k2)
    obtain ⟨e', a', b', c'⟩ := p'
    obtain ⟨m, hm⟩ := innerHash_ok hash quot S p.face p.a p.b p.c
    refine ⟨m, hm, ?_⟩
    rw [← hm]
    simp only at hside a1 b1 c1 ⊢
    unfold Tri.nextInFace at hside
    rcases hside with rfl | rfl | rfl
    · exact (key ⟨a1, b1, c1⟩ hs).symm
    · have hs' : SamePosition S p ⟨p.face, c', a', b'⟩ := hs.trans (SamePosition.rotate (e := p.face) (a := c') (b := a') (c := b')).symm
      rw [key ⟨c1, a1, b1⟩ hs', innerHash_rotate hash quot h.shut p.face]
    · have hs' : SamePosition S p ⟨p.face, b', c', a'⟩ :=
        hs.trans (SamePosition.rotate2 h.shut (e := p.face) (a := b') (b := c') (c := a')).symm
      rw [key ⟨b1, c1, a1⟩ hs', innerHash_rotate hash quot h.shut p.face, innerHash_rotate hash quot h.shut (S.tri.faces.fwd p.face)]

/-! ### The hashes of quotients -/

/-- The first digits of the binary expansion only depend on the quotient. -/
theorem quot_ratio : RatioHash (quot : T → T → ℕ) := by
  have key : ∀ (n : ℕ) (x y x' y' : T) (k : ℕ), 0 < y → 0 < y' → x * y' = x' * y →
      binaryDigits n x y k = binaryDigits n x' y' k := by
    intro n
    induction n with
    | zero => intros; rfl
    | succ n ih =>
      intro x y x' y' k hy hy' hxy
      unfold binaryDigits
      have hle : y ≤ x ↔ y' ≤ x' := by
        rw [← mul_le_mul_iff_left₀ hy', hxy, mul_comm y y', mul_le_mul_iff_left₀ hy]
      by_cases hx : y ≤ x
      · rw [if_pos hx, if_pos (hle.1 hx)]
        exact ih _ _ _ _ _ hy hy' (by linear_combination 2 * hxy)
      · rw [if_neg hx, if_neg (mt hle.2 hx)]
        exact ih _ _ _ _ _ hy hy' (by linear_combination 2 * hxy)
  intro x y x' y' _ _ hy _ _ hy' hxy
  exact key 8 x y x' y' 0 hy hy' hxy

/-- For integers, the quotient is computed as a rational number, point.cc:519-521. -/
theorem int_ratio (hash : ℚ → ℕ) : RatioHash fun x y : ℤ => hash (x / y) := by
  intro x y x' y' _ _ hy _ _ hy' hxy
  show hash _ = hash _
  congr 1
  rw [div_eq_div_iff (by exact_mod_cast hy.ne') (by exact_mod_cast hy'.ne')]
  exact_mod_cast hxy

/-- For rational numbers, point.cc:516-518. -/
theorem rat_ratio (hash : ℚ → ℕ) : RatioHash fun x y : ℚ => hash (x / y) := by
  intro x y x' y' _ _ hy _ _ hy' hxy
  show hash _ = hash _
  congr 1
  rw [div_eq_div_iff hy.ne' hy'.ne']
  exact hxy

/-- The hypotheses are met: two descriptions of a point on the diagonal of the torus, in the faces on both sides, and two
descriptions of a point in a face. -/
example : ∃ p p', C30.Created true flatTorus ⟨4, 1, 2, 0⟩ p ∧ C30.Created true flatTorus ⟨5, 4, 2, 0⟩ p' ∧
    flatTorus.pointEq p p' = .ok true ∧ p ≠ p' :=
  ⟨_, _, ⟨⟨by decide, by decide, by decide⟩, rfl⟩, ⟨⟨by decide, by decide, by decide⟩, rfl⟩, rfl, by decide⟩

example : ∃ p p', C30.Created true flatTorus ⟨4, 1, 2, 2⟩ p ∧ C30.Created true flatTorus ⟨flatTorus.tri.nextInFace 4, 4, 4, 2⟩ p' ∧
    flatTorus.pointEq p p' = .ok true ∧ p ≠ p' :=
  ⟨_, _, ⟨⟨by decide, by decide, by decide⟩, rfl⟩, ⟨⟨by decide, by decide, by decide⟩, rfl⟩, rfl, by decide⟩

end Verif.C32
