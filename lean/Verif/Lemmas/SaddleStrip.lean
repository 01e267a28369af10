import Verif.Lemmas.SaddleDepth
import Verif.Lemmas.SaddleLog

set_option linter.unusedSectionVars false

/-!
# The triangles of a surface as a strip of triangles
-/

namespace Verif

open Vec Spec FlatTri Function

variable {T : Type} [CommRing T] [LinearOrder T] [IsStrictOrderedRing T]

namespace SaddleSearch

theorem exists_lower (g : ℕ → ℝ) (n : ℕ) (h : ∀ x < n, 0 < g x) : ∃ δ, 0 < δ ∧ ∀ x < n, δ ≤ g x := by
  induction n with
  | zero => exact ⟨1, one_pos, fun x hx => absurd hx (by omega)⟩
  | succ n ih =>
    obtain ⟨δ, h1, h2⟩ := ih fun x hx => h x (by omega)
    refine ⟨min δ (g n), lt_min h1 (h n (by omega)), fun x hx => ?_⟩
    rcases Nat.lt_succ_iff_lt_or_eq.1 hx with k | k
    · exact (min_le_left _ _).trans (h2 x k)
    · rw [k]; exact min_le_right _ _

theorem exists_upper (g : ℕ → ℝ) (n : ℕ) : ∃ D, 0 < D ∧ ∀ x < n, g x ≤ D ^ 2 := by
  induction n with
  | zero => exact ⟨1, one_pos, fun x hx => absurd hx (by omega)⟩
  | succ n ih =>
    obtain ⟨D, h1, h2⟩ := ih
    refine ⟨D + |g n| + 1, by positivity, fun x hx => ?_⟩
    have h0 := abs_nonneg (g n)
    rcases Nat.lt_succ_iff_lt_or_eq.1 hx with k | k
    · nlinarith [h2 x k]
    · rw [k]; nlinarith [le_abs_self (g n)]

variable {S : FlatTri T} {f : T →+* ℝ}

theorem corners (h : S.Shut) (hf : StrictMono f) : ∃ θ, AllCorners f S θ := by
  have : ∀ e : HE, ∃ t : ℝ, e < S.tri.size → 0 ≤ t ∧ t < 2 * Real.pi ∧
      Turns ((S.vec e).map f) t ((S.vec (S.tri.nextAtVertex e)).map f) := by
    intro e
    by_cases he : e < S.tri.size
    · obtain ⟨v, -, hv⟩ := h.source he
      obtain ⟨θ, hθ⟩ := h.flat.exists_corners hf hv fun x hx => h.nb x (h.lt_of_orb he ((hv x).1 hx))
      exact ⟨θ e, fun _ => hθ e ((hv e).2 (Perm.Orb.refl _ _))⟩
    · exact ⟨0, fun k => absurd k he⟩
  choose θ hθ using this
  exact ⟨θ, fun e he => hθ e (Finset.mem_range.1 he)⟩

/-- The half edges at a vertex are not all on the same side of a line. -/
theorem not_one_side (h : S.Shut) (hf : StrictMono f) {x : HE} (hx : x < S.tri.size) {W : Vec ℝ} (hW : dot W W = 1)
    (hall : ∀ y, S.tri.vertices.Orb x y → 0 ≤ cross W ((S.vec y).map f)) : False := by
  obtain ⟨θ, hθ⟩ := corners h hf
  obtain ⟨V, -, hV⟩ := h.source hx
  have har := h.aroundVertex hf hθ hx hV
  have hpos : ∀ y, S.tri.vertices.Orb x y → 0 < cross ((S.vec y).map f) ((S.vec (S.tri.vertices.fwd y)).map f) := by
    intro y hy
    rw [cross_map, ← map_zero f]
    exact hf (h.flat.corner (h.nb y (h.lt_of_orb hx hy))).2
  obtain ⟨y, hy, hy'⟩ : ∃ y, S.tri.vertices.Orb x y ∧ 0 < cross W ((S.vec y).map f) := by
    by_contra hc
    push Not at hc
    have o0 := Perm.Orb.refl S.tri.vertices x
    have o1 := Perm.Orb.step S.tri.vertices x
    have e0 := le_antisymm (hc x o0) (hall x o0)
    have e1 := le_antisymm (hc _ o1) (hall _ o1)
    have := hpos x o0
    generalize (S.vec x).map f = u at *
    generalize (S.vec (S.tri.vertices.fwd x)).map f = u' at *
    have e : cross u u' * dot W W = cross W u' * dot W u - cross W u * dot W u' := by simp only [cross, dot]; ring
    rw [e0, e1, hW] at e
    linarith
  have hyl := h.lt_of_orb hx hy
  have hne : -S.vec y ≠ 0 := neg_ne_zero.2 (h.flat.vec_ne (h.nb y hyl))
  obtain ⟨e, he, hs⟩ := har.exists_sector (A := (none : Option (Approx T ℚ))) ⟨x, (hV x).2 (Perm.Orb.refl _ x)⟩ hne
  have ho := (hV e).1 he
  rw [inSector_iff] at hs
  have a1 := hall e ho
  have a2 := hall _ (ho.trans (Perm.Orb.step _ e))
  have a3 := hpos e ho
  have a4 : 0 ≤ cross ((S.vec e).map f) ((-S.vec y).map f) := by
    rw [cross_map, ← map_zero f]; exact hf.monotone (not_lt.1 hs.1)
  have a5 : cross ((S.vec (S.tri.vertices.fwd e)).map f) ((-S.vec y).map f) < 0 := by
    rw [cross_map, ← map_zero f]; exact hf hs.2
  have a6 : (-S.vec y).map f = -(S.vec y).map f := by ext <;> simp [Vec.map]
  rw [a6] at a4 a5
  generalize (S.vec e).map f = u at *
  generalize (S.vec (S.tri.vertices.fwd e)).map f = u' at *
  generalize (S.vec y).map f = d at *
  have key : cross u u' * cross W d = cross u' (-d) * cross W u - cross u (-d) * cross W u' := by
    simp only [cross, Vec.neg_x, Vec.neg_y]; ring
  nlinarith [mul_pos a3 hy', mul_nonneg a4 a2, mul_nonneg (neg_nonneg.2 a5.le) a1]

/-- A bound for the number of steps it takes to get around a vertex. -/
theorem exists_steps (g : HE → HE) (n : ℕ) : ∃ N, ∀ x < n, ∀ y < n, (∃ k, g^[k] x = y) → ∃ k ≤ N, g^[k] x = y := by
  classical
  refine ⟨∑ x ∈ Finset.range n, ∑ y ∈ Finset.range n, if hk : ∃ k, g^[k] x = y then hk.choose else 0, fun x hx y hy hk => ⟨hk.choose, ?_, hk.choose_spec⟩⟩
  have h1 := Finset.single_le_sum (f := fun x => ∑ y ∈ Finset.range n, if hk : ∃ k, g^[k] x = y then hk.choose else 0)
    (fun i _ => Nat.zero_le _) (Finset.mem_range.2 hx)
  have h2 := Finset.single_le_sum (f := fun y => if hk : ∃ k, g^[k] x = y then hk.choose else 0)
    (fun i _ => Nat.zero_le _) (Finset.mem_range.2 hy)
  refine le_trans ?_ h1
  refine le_trans ?_ h2
  simp only [dif_pos hk]
  exact le_rfl

/-- The half edges beyond a half edge. -/
abbrev beyond1 (S : FlatTri T) (x : HE) : HE := S.tri.nextInFace (neg x)

abbrev beyond2 (S : FlatTri T) (x : HE) : HE := S.tri.nextInFace (S.tri.nextInFace (neg x))

theorem exists_strip (h : S.Shut) (hf : StrictMono f) : ∃ r1 r2 δ D N,
    Strip S.tri.size (fun x => (S.vec x).map f) (beyond1 S) (beyond2 S) r1 r2 δ D N := by
  have harea : ∀ x < S.tri.size, 0 < cross ((S.vec (beyond1 S x)).map f) ((S.vec x).map f) := by
    intro x hx
    rw [cross_map, ← map_zero f]
    apply hf
    have hn := neg_lt_of_even h.even hx
    have h1 := h.flat.oriented (neg x) (h.nb _ hn)
    rw [h.flat.odd x hx, cross_neg_left, ← cross_comm] at h1
    exact h1
  obtain ⟨δ, hδ, hδ'⟩ := exists_lower _ _ harea
  obtain ⟨D, hD, hD'⟩ := exists_upper (fun x => dot ((S.vec x).map f) ((S.vec x).map f)) S.tri.size
  obtain ⟨N1, hN1⟩ := exists_steps S.tri.nextAtVertex S.tri.size
  obtain ⟨N2, hN2⟩ := exists_steps S.tri.previousAtVertex S.tri.size
  have hr2 : ∀ i x, (fun x => neg (S.tri.previousAtVertex (neg x)))^[i] x = neg (S.tri.previousAtVertex^[i] (neg x)) := by
    intro i
    induction i with
    | zero => intro x; simp [neg_neg']
    | succ i ih => intro x; rw [iterate_succ_apply, ih, iterate_succ_apply, neg_neg']
  refine ⟨S.tri.nextAtVertex, fun x => neg (S.tri.previousAtVertex (neg x)), δ, D, max N1 N2, ?_⟩
  refine ⟨?_, ?_, ?_, hδ', hD', hδ, hD, ?_, ?_, ?_, ?_⟩
  · exact fun x hx => (apex_spec (q := 0) h hx).1
  · exact fun x hx => (apex_spec (q := 0) h hx).2.1
  · intro x hx
    have h1 := (apex_spec (q := 0) h hx).2.2.2.1
    unfold apex at h1
    have h2 : S.vec (beyond1 S x) + S.vec (beyond2 S x) = S.vec x := by
      rw [show S.vec (beyond2 S x) = -(0 - S.vec (beyond2 S x)) by simp, h1]
      abel
    rw [← h2]
    ext <;> simp [Vec.map]
  · intro x hx
    have h1 := h.previousAtVertex hx
    unfold beyond1 Tri.nextInFace
    rw [← h1, next_prev h.flat]
  · intro x hx
    have h1 := h.nextAtVertex (neg_lt_of_even h.even hx)
    unfold beyond2 Tri.nextInFace
    rw [← h1, prev_next h.flat, neg_neg']
  · intro x hx W hW hall
    refine not_one_side h hf hx hW fun y hy => ?_
    obtain ⟨k, hk, rfl⟩ := hN1 x hx y (h.lt_of_orb hx hy) hy
    exact hall k (hk.trans (le_max_left _ _))
  · intro x hx W hW hall
    have hn := neg_lt_of_even h.even hx
    refine not_one_side h hf (W := -W) hn (by rw [← hW]; simp only [dot, Vec.neg_x, Vec.neg_y]; ring) fun y hy => ?_
    obtain ⟨θ, hθ⟩ := corners h hf
    obtain ⟨V, -, hV⟩ := h.source hn
    have har := h.aroundVertex hf hθ hn hV
    obtain ⟨k, hk, rfl⟩ := hN2 _ hn y (h.lt_of_orb hn hy) (har.reach_prev ((hV _).2 (Perm.Orb.refl _ _)) ((hV y).2 hy))
    have := hall k (hk.trans (le_max_right _ _))
    rw [hr2] at this
    rw [h.flat.odd _ (h.lt_of_orb hn hy)] at this
    generalize S.vec (S.tri.previousAtVertex^[k] (neg x)) = u at *
    simp only [cross, Vec.map, Vec.neg_x, Vec.neg_y, map_neg] at this ⊢
    linarith

end SaddleSearch

end Verif
