import Verif.Lemmas.Isomorphisms
import Verif.Props.C31
import Verif.Props.C81

/-!
C131: the isomorphisms between two surfaces, for the equivalences that take vectors into account.

C132: the isomorphisms for combinatorial equivalence. Here, the property does not hold.
-/

set_option linter.unusedSectionVars false

namespace Verif.C131

open Verif Spec Tri FlatTri Examples LinearEquivalence

variable {T : Type} [CommRing T] [LinearOrder T] [IsStrictOrderedRing T]
variable {K : Type*} [Field K] [LinearOrder K] [IsStrictOrderedRing K]
variable {Q : Type} [DecidableEq Q]

/-- The half edges of `S` are mapped by `σ`. -/
def Sends (A : Option (Approx T K)) (dbg : Bool) (S S' : FlatTri T) (d : Isomorphism T) (σ : HE → HE) : Prop :=
  ∀ e ∈ S.tri.halfEdges, ∃ n, ∀ fuel ≥ n, d.halfEdge A dbg fuel S S' e = some (.ok (some (σ e)))

/-- Each way to relabel the half edges of the domain such that its vectors change by an element of the group and it turns into the
codomain is reported exactly once, and nothing else is reported. -/
theorem isomorphisms_correct {ring : T → Q} (hring : ∀ x y, ring x = ring y) {div : T → T → Option T}
    (hdiv : TrueDivision div) (A : Option (Approx T K)) {dbg : Bool} {S S' : FlatTri T} (h : Closed dbg S)
    (hc : ConnectedSurface S.tri) (h' : Closed dbg S') (hc' : ConnectedSurface S'.tri) {quot : T → T → T} (hq : ExactQuot quot)
    {group : LinearGroup} (hu : group ≠ .trivial → UnitAreas S) (hu' : group ≠ .trivial → UnitAreas S') {oriented : Bool}
    (ht : group = .trivial → oriented = true) :
    ∃ ds N, (∀ fuel ≥ N, isomorphisms ring div A dbg quot group oriented fuel S S' = some (.ok ds)) ∧
      (∀ d ∈ ds, ∃ σ, LinearRelabelling group oriented S S' σ ∧ Sends A dbg S S' d σ) ∧
      ∀ σ, LinearRelabelling group oriented S S' σ →
        ∃! i : Fin ds.length, Sends A dbg S S' ds[i] σ := by
  have hs := h.shut
  have hs' := h'.shut
  obtain ⟨code, l, p, N, m1, m2, m3, m4, m5⟩ := code_ok A h hc hq hu ht
  obtain ⟨code', l', p', N', m1', m2', m3', m4', m5'⟩ := code_ok A h' hc' hq hu' ht
  have hpm := (m1 p).1 (by simp)
  have hpm' := (m1' p').1 (by simp)
  have hiff := lcode_eq_iff hs hc hs' hc' hq hu hu' ht ⟨p, hpm⟩ m3 ⟨p', hpm'⟩ m3'
  have hrun : ∀ fuel ≥ max (S.tri.size + 3) (S'.tri.size + 3), isomorphisms ring div A dbg quot group oriented fuel S S' =
      some (isomorphismsOf ring (back div dbg) S' (code, N, (p :: l).map (normalMap A dbg quot group S N))
        (code', N', (p' :: l').map (normalMap A dbg quot group S' N'))) := by
    intro fuel hf
    unfold isomorphisms
    rw [m5 fuel (le_trans (le_max_left _ _) hf), m5' fuel (le_trans (le_max_right _ _) hf)]
    rfl
  by_cases hcode : code = code'
  swap
  · refine ⟨[], max (S.tri.size + 3) (S'.tri.size + 3), fun fuel hf => ?_, by simp, fun σ hσ => absurd (hiff.2 ⟨σ, hσ⟩) hcode⟩
    rw [hrun fuel hf]
    unfold isomorphismsOf
    rw [if_pos hcode]
  subst hcode
  have hp1 := mem_starts.1 hpm.1
  have hp1' := mem_starts.1 hpm'.1
  have hbeq : N.beq ring N' = true := (m4 p (by simp)).beq ring hring hs hc hp1.1
    ((m4' p' (by simp)).transfer hs hc hs' hc' hp1.1 hp1'.1 (hpm.2.trans hpm'.2.symm))
  -- It suffices to understand how half edges are mapped.
  have main : ∀ (s : Option (Combinatorial T × Option (Mat T))) (q : Bool × HE), q ∈ starts oriented S'.tri → lwordAt quot group S' q = code →
      (∀ r ∈ p :: l, ∀ x < S.tri.size, ∀ y < S'.tri.size, normalName S' q y = normalName S r x →
        ∀ fuel ≥ 3, (⟨normalMap A dbg quot group S N r, s⟩ : Isomorphism T).halfEdge A dbg fuel S S' x = some (.ok (some y))) →
      (∀ d ∈ (p :: l).map (fun r => (⟨normalMap A dbg quot group S N r, s⟩ : Isomorphism T)), ∃ σ,
        LinearRelabelling group oriented S S' σ ∧ Sends A dbg S S' d σ) ∧
      ∀ σ, LinearRelabelling group oriented S S' σ →
        ∃! i : Fin ((p :: l).map (fun r => (⟨normalMap A dbg quot group S N r, s⟩ : Isomorphism T))).length,
          Sends A dbg S S' ((p :: l).map (fun r => (⟨normalMap A dbg quot group S N r, s⟩ : Isomorphism T)))[i] σ := by
    intro s q hq1 hq2 hmap
    have hq1' := mem_starts.1 hq1
    have each : ∀ r ∈ p :: l, ∃ σ, Relabels S.tri S'.tri (r.1 == q.1) σ ∧ σ r.2 = q.2 ∧ LinearRelabelling group oriented S S' σ ∧
        (∀ x < S.tri.size, normalName S' q (σ x) = normalName S r x) ∧
          Sends A dbg S S' (⟨normalMap A dbg quot group S N r, s⟩ : Isomorphism T) σ := by
      intro r hr
      have hr1 := (m1 r).1 hr
      have hr2 := mem_starts.1 hr1.1
      obtain ⟨σ, hσ, hs1, hv⟩ := (lword_iff hs hc hs' hc' hr2.1 hq1'.1).1 (hr1.2.trans hq2.symm)
      obtain ⟨g, hg, hd, hg'⟩ := exists_element hs hs' hq hu hu' hr2.1 hq1'.1 (fun e => ⟨hr2.2 (ht e), hq1'.2 (ht e)⟩)
      have hn : ∀ x < S.tri.size, normalName S' q (σ x) = normalName S r x := fun x hx =>
        normalName_iso hs hc hs' hc' hr2.1 hq1'.1 hσ hs1 hx
      refine ⟨σ, hσ, hs1, ⟨g, hg, ?_, by rw [hd]; exact hσ, fun x hx => hg' _ _ (hv x hx)⟩, hn, fun e he => ?_⟩
      · intro ho
        rw [hr2.2 ho, hq1'.2 ho] at hd
        simpa using hd
      · have he' := mem_halfEdges.1 he
        exact ⟨3, hmap r hr e he' _ (hσ.lt e he') (hn e he')⟩
    constructor
    · intro d hd
      obtain ⟨r, hr, rfl⟩ := List.mem_map.1 hd
      obtain ⟨σ, -, -, e1, -, e2⟩ := each r hr
      exact ⟨σ, e1, e2⟩
    · rintro σ ⟨g, hg, ho, hσ, hv⟩
      have hb : oriented = true → decide (0 < g.det) = true := fun e => by simpa using ho e
      obtain ⟨x, hx, hxs⟩ := hσ.surj _ hq1'.1
      have hm : ((if decide (0 < g.det) then q.1 else !q.1), x) ∈ p :: l := by
        rw [m1, mem_starts]
        refine ⟨⟨hx, fun e => ?_⟩, ?_⟩
        · simp only [hb e, if_true]
          exact hq1'.2 e
        have e := lword_image hs hc hs' hc' hq hu hu' hg hσ hv (p := ((if decide (0 < g.det) then q.1 else !q.1), x)) hx
        have e' : ((if decide (0 < g.det) then (if decide (0 < g.det) then q.1 else !q.1)
            else !(if decide (0 < g.det) then q.1 else !q.1)), σ x) = q := by
          rw [hxs]
          obtain ⟨o, s⟩ := q
          cases decide (0 < g.det) <;> cases o <;> rfl
        rw [e'] at e
        rw [← e, hq2]
      have hbb : ((if decide (0 < g.det) then q.1 else !q.1) == q.1) = decide (0 < g.det) := by
        cases decide (0 < g.det) <;> cases q.1 <;> rfl
      have hnσ : ∀ y < S.tri.size, normalName S' q (σ y) = normalName S ((if decide (0 < g.det) then q.1 else !q.1), x) y :=
        fun y hy => normalName_iso hs hc hs' hc' (p := ((if decide (0 < g.det) then q.1 else !q.1), x)) hx hq1'.1
          (by simp only [hbb]; exact hσ) hxs hy
      obtain ⟨i, hi, hir⟩ := List.getElem_of_mem hm
      refine ⟨⟨i, by simpa using hi⟩, ?_, ?_⟩
      · intro e he
        have he' := mem_halfEdges.1 he
        simp only [Fin.getElem_fin, List.getElem_map]
        rw [hir]
        exact ⟨3, hmap _ hm e he' _ (hσ.lt e he') (hnσ e he')⟩
      · rintro ⟨j, hj⟩ hj'
        have hj2 : j < (p :: l).length := by simpa using hj
        simp only [Fin.getElem_fin, List.getElem_map] at hj'
        have hjm : (p :: l)[j] ∈ p :: l := List.getElem_mem hj2
        obtain ⟨τ, -, -, -, t1, t2⟩ := each _ hjm
        have hjl := (m1 _).1 hjm
        have heq : (p :: l)[j] = ((if decide (0 < g.det) then q.1 else !q.1), x) := by
          refine start_unique (quot := quot) (group := group) hs hc (mem_starts.1 hjl.1).1 hx (hjl.2.trans ((m1 _).1 hm).2.symm) fun y hy => ?_
          obtain ⟨n1, f1⟩ := t2 y (mem_halfEdges.2 hy)
          obtain ⟨n2, f2⟩ := hj' y (mem_halfEdges.2 hy)
          have e1 := (f1 _ (le_max_left n1 n2)).symm.trans (f2 _ (le_max_right n1 n2))
          rw [← t1 y hy, ← hnσ y hy, Option.some.inj (Except.ok.inj (Option.some.inj e1))]
        rw [Fin.mk.injEq]
        exact (List.Nodup.getElem_inj_iff m2).1 (heq.trans hir.symm)
  -- A half edge on the normal form.
  have hfirst : ∀ r ∈ p :: l, ∀ x < S.tri.size, ∃ q q', (∀ fuel ≥ 3, linearPart A dbg fuel S (normalMap A dbg quot group S N r).rename.domain
      (normalMap A dbg quot group S N r).matrix [Saddle.ofHalfEdge x] = some (.ok q)) ∧
      (normalMap A dbg quot group S N r).rename.path dbg q = .ok q' ∧ Along N (normalName S r x) q' := by
    intro r hr x hx
    have hr2 := mem_starts.1 ((m1 r).1 hr).1
    have hd := det_mat hs hq hu hr2.1 fun e => hr2.2 (ht e)
    have hne : (mat quot group S r).det ≠ 0 := by
      rcases hr3 : r.1 with _ | _
      · exact (hd.2 hr3).ne
      · exact (hd.1.2 hr3).ne'
    exact normalMap_path A h hc hr2.1 hne hd.1 (m4 r hr) hx
  by_cases hfix : N'.beq ring S' = true
  · obtain ⟨q, q1, q2, q3⟩ := exists_fixed hq hs' hu' hc' ht hpm'.1 (m4' p' (by simp)) hfix
    refine ⟨_, max (S.tri.size + 3) (S'.tri.size + 3), fun fuel hf => ?_, main none q q1 (q2.trans hpm'.2) ?_⟩
    · rw [hrun fuel hf]
      unfold isomorphismsOf
      rw [if_neg (by simp), if_neg (by rw [hbeq]; simp), if_pos hfix, List.map_map]
      rfl
    · intro r hr x hx y hy hxy
      rw [q3 y hy] at hxy
      intro fuel hf
      obtain ⟨u, u', u1, u2, u3⟩ := hfirst r hr x hx
      unfold Isomorphism.halfEdge Isomorphism.path Isomorphism.codomain
      simp only [u1 fuel hf, u2, Option.map_some, Except.bind, Option.isNone_none, if_true]
      rw [hxy]
      exact congrArg some (u3.image (m4 p (by simp)).closed.shut)
  · have hdet := det_mat hs' hq hu' hp1'.1 fun e => hp1'.2 (ht e)
    have hin := C38.in_group hq (normalize_ok hs' hq hu' false hp1'.1)
    have hunit : IsUnit (mat quot group S' p').det := by
      cases group with
      | trivial => rw [show mat quot .trivial S' p' = ⟨1, 0, 0, 1⟩ from hin]; simp [Mat.det]
      | sl => rcases hin with e | e <;> rw [e] <;> simp
      | gl => exact hin
    obtain ⟨R, M, b1, b2⟩ := back_ok A h' hc' hdiv hp1'.1 hunit hdet.1 (m4' p' (by simp))
    refine ⟨_, max (S.tri.size + 3) (S'.tri.size + 3), fun fuel hf => ?_, main (some (R, M)) p' hpm'.1 hpm'.2 ?_⟩
    · rw [hrun fuel hf]
      unfold isomorphismsOf
      rw [if_neg (by simp), if_neg (by rw [hbeq]; simp), if_neg hfix]
      simp only [List.map_cons, b1, Except.map, List.map_map]
      rfl
    · intro r hr x hx y hy hxy
      intro fuel hf
      obtain ⟨u, u', u1, u2, u3⟩ := hfirst r hr x hx
      have hr1 := (m1 r).1 hr
      have u4 := u3.same hs hc (mem_starts.1 hr1.1).1 (m4 r hr)
        ((m4' p' (by simp)).transfer hs hc hs' hc' (mem_starts.1 hr1.1).1 hp1'.1 (hr1.2.trans hpm'.2.symm))
      rw [← hxy] at u4
      obtain ⟨v, v', v1, v2, v3⟩ := b2 y hy u' u4
      unfold Isomorphism.halfEdge Isomorphism.path Isomorphism.codomain
      simp only [u1 fuel hf, u2, v1, v2 fuel hf, Option.map_some, Except.bind, Option.isNone_some, Bool.false_eq_true, if_false]
      exact congrArg some (v3.image hs')

/-! ### Examples -/

/-- The torus with other vectors. -/
def sheared : FlatTri ℤ := ⟨flatTorus.tri, fun e => (flatTorus.vec e).applyMatrix 2 1 1 1⟩

theorem sheared_ok : flatTorus.applyMatrix (none : Option (Approx ℤ ℚ)) true 2 1 1 1 = .ok sheared := by
  unfold FlatTri.applyMatrix
  rfl

theorem sheared_closed : Closed true sheared := (LinearImage.of_ok none C30.flatTorus_closed sheared_ok).closed'

theorem sheared_unitAreas : UnitAreas sheared := by
  have : ∀ x < sheared.tri.size, Vec.cross (sheared.vec x) (sheared.vec (sheared.tri.nextAtVertex x)) = 1 := by
    decide
  intro x hx
  rw [this x hx]
  exact isUnit_one

/-- Two surfaces that satisfy the hypotheses. -/
example : Closed true flatTorus ∧ ConnectedSurface flatTorus.tri ∧ UnitAreas flatTorus ∧ Closed true sheared ∧ ConnectedSurface sheared.tri ∧
    UnitAreas sheared ∧ (ExactQuot fun n d : ℤ => n / d) ∧ TrueDivision C31.intDiv :=
  ⟨C30.flatTorus_closed, C37.torus_connected, C81.flatTorus_unitAreas, sheared_closed, C37.torus_connected, sheared_unitAreas,
    fun _ _ _ hd h => Int.ediv_eq_of_eq_mul_left hd h.symm, C31.intDiv_true⟩

instance : DecidableEq (List (List (Option (Except Err (Option HE))))) := inferInstance

/-- The images of all the half edges. -/
def images (dbg : Bool) (S S' : FlatTri ℤ) (r : Option (Except Err (List (Isomorphism ℤ)))) :
    Option (Except Err (List (List (Option (Except Err (Option HE)))))) :=
  r.map fun r => r.map fun l => l.map fun i => S.tri.halfEdges.map (i.halfEdge (none : Option (Approx ℤ ℚ)) dbg 10 S S')

/-- There are six isomorphisms that preserve the area and the orientation. -/
example : images true flatTorus sheared (isomorphisms (fun _ => ()) C31.intDiv (none : Option (Approx ℤ ℚ)) true (fun n d : ℤ => n / d) .sl true 20 flatTorus sheared) =
    some (.ok ([[0, 1, 2, 3, 4, 5], [1, 0, 3, 2, 5, 4], [5, 4, 0, 1, 3, 2], [4, 5, 1, 0, 2, 3], [3, 2, 4, 5, 0, 1],
      [2, 3, 5, 4, 1, 0]].map fun l => l.map fun e => some (.ok (some e)))) := by
  decide +kernel

/-- Vectors do not agree. -/
example : images true flatTorus sheared (isomorphisms (fun _ => ()) C31.intDiv (none : Option (Approx ℤ ℚ)) true (fun n d : ℤ => n / d) .trivial true 20 flatTorus
    sheared) = some (.ok []) := by
  decide +kernel

end Verif.C131

namespace Verif.C132

open Verif Spec Tri FlatTri Examples

variable {T : Type} [CommRing T] [LinearOrder T] [IsStrictOrderedRing T]
variable {K : Type*} [Field K] [LinearOrder K] [IsStrictOrderedRing K]
variable {Q : Type} [DecidableEq Q]

/-- No isomorphisms are reported exactly if there are none. However, there can be an error instead of the isomorphisms. (Missing: that the
isomorphisms are reported, see `throws`, and that they can be applied, see `not_usable`.) -/
theorem isomorphisms_partial (ring : T → Q) (A : Option (Approx T K)) {dbg : Bool} {S S' : FlatTri T} (h : Closed dbg S)
    (hc : ConnectedSurface S.tri) (h' : Closed dbg S') (hc' : ConnectedSurface S'.tri) (oriented : Bool) :
    ∃ r N, (∀ fuel ≥ N, combinatorialIsomorphisms ring A dbg oriented fuel S S' = some r) ∧
      (r = .ok [] ↔ ¬ ∃ σ, Relabelling oriented S.tri S'.tri σ) ∧
      (r = .error .logicError ∨ ∃ ds, r = .ok ds ∧ (ds ≠ [] → ds.length = (automorphisms oriented S.tri).ncard)) := by
  obtain ⟨code, N, d, ds, m1, m2, m3, m4, m5⟩ := combinatorialCode_ok A h hc oriented
  obtain ⟨code', N', d', ds', m1', m2', m3', m4', m5'⟩ := combinatorialCode_ok A h' hc' oriented
  have hiff := code_eq_iff h.shut hc h'.shut hc' m1 m2 m1' m2'
  obtain ⟨R, hR⟩ := m4'
  refine ⟨isomorphismsOf ring (fun d => (d.rename.inverse dbg).map fun R => (R, none)) S' (code, N, d :: ds) (code', N', d' :: ds'),
    max (S.tri.size + 3) (S'.tri.size + 3), fun fuel hf => ?_, ?_⟩
  · unfold combinatorialIsomorphisms
    rw [m5 fuel (le_trans (le_max_left _ _) hf), m5' fuel (le_trans (le_max_right _ _) hf)]
    rfl
  · rw [← hiff]
    unfold isomorphismsOf
    by_cases hcode : code = code'
    swap
    · simp [hcode]
    subst hcode
    simp only [ne_eq, not_true_eq_false, if_false, iff_false]
    split_ifs
    · simp
    · refine ⟨by simp, .inr ⟨_, rfl, fun _ => ?_⟩⟩
      rw [List.length_map]
      exact m3
    · simp only [hR, Except.map]
      refine ⟨by simp, .inr ⟨_, rfl, fun _ => ?_⟩⟩
      rw [List.length_map]
      exact m3

/-- For the isomorphisms from a surface to itself, there is no error and their number is correct. -/
theorem automorphisms_partial (ring : T → Q) (A : Option (Approx T K)) {dbg : Bool} {S : FlatTri T} (h : Closed dbg S)
    (hc : ConnectedSurface S.tri) (oriented : Bool) :
    ∃ ds N, (∀ fuel ≥ N, combinatorialIsomorphisms ring A dbg oriented fuel S S = some (.ok ds)) ∧
      ds.length = (automorphisms oriented S.tri).ncard := by
  obtain ⟨code, N, d, ds, m1, m2, m3, ⟨R, hR⟩, m5⟩ := combinatorialCode_ok A h hc oriented
  have hb : N.beq ring N = true := (C36.beq_iff ring).2 ⟨rfl, fun e _ => ⟨⟨rfl, rfl⟩, rfl⟩⟩
  have hrun : ∀ fuel ≥ S.tri.size + 3, combinatorialIsomorphisms ring A dbg oriented fuel S S =
      some (isomorphismsOf ring (fun d => (d.rename.inverse dbg).map fun R => (R, none)) S (code, N, d :: ds) (code, N, d :: ds)) := by
    intro fuel hf
    unfold combinatorialIsomorphisms
    rw [m5 fuel hf]
    rfl
  unfold isomorphismsOf at hrun
  simp only [ne_eq, not_true_eq_false, if_false, hb, Bool.not_true, Bool.false_eq_true, hR, Except.map] at hrun
  split_ifs at hrun
  · exact ⟨_, _, hrun, by rw [List.length_map]; exact m3⟩
  · exact ⟨_, _, hrun, by rw [List.length_map]; exact m3⟩

/-- Two surfaces with the same combinatorics and with different vectors: there is an error. -/
theorem throws : Closed true flatTorus ∧ Closed true C131.sheared ∧ ConnectedSurface flatTorus.tri ∧ ConnectedSurface C131.sheared.tri ∧
    Relabelling true flatTorus.tri C131.sheared.tri id ∧ ∀ dbg, C131.images dbg flatTorus C131.sheared (combinatorialIsomorphisms (fun _ => ())
      (none : Option (Approx ℤ ℚ)) dbg true 20 flatTorus C131.sheared) = some (.error .logicError) := by
  refine ⟨C30.flatTorus_closed, C131.sheared_closed, C37.torus_connected, C37.torus_connected, .inl ?_, by decide +kernel⟩
  exact ⟨fun _ h => h, fun _ _ _ _ h => h, fun y h => ⟨y, h, rfl⟩, fun _ _ => rfl, fun _ _ => rfl⟩

/-- A rotation of the torus. -/
def turn (e : HE) : HE := [5, 4, 0, 1, 3, 2].getD e 0

/-- Of the isomorphisms of the torus to itself, only the identity can be applied to half edges. -/
theorem not_usable : Closed true flatTorus ∧ ConnectedSurface flatTorus.tri ∧ Relabelling true flatTorus.tri flatTorus.tri turn ∧
    ∀ dbg, C131.images dbg flatTorus flatTorus (combinatorialIsomorphisms (fun _ => ()) (none : Option (Approx ℤ ℚ)) dbg true 20 flatTorus
      flatTorus) =
      some (.ok ((List.range 6).map (fun e => some (.ok (some e))) :: List.replicate 5 (List.replicate 6 (some (.error .logicError))))) := by
  refine ⟨C30.flatTorus_closed, C37.torus_connected, .inl ?_, by decide +kernel⟩
  exact ⟨by decide, by decide, by decide, by decide, by decide⟩

end Verif.C132
