import Verif.Model.Eliminate
import Verif.Spec.Retriangulation
import Verif.Spec.ShiftPath
import Verif.Lemmas.PointCode
import Verif.Lemmas.FlatExamples
import Verif.Props.C139
import Verif.Props.C52

/-!
# C150: eliminating marked points
-/

namespace Verif.C150

open Verif Spec Tri FlatTri Examples Vec Real

variable {T : Type} [CommRing T] [LinearOrder T] [IsStrictOrderedRing T]

/-- A vertex of a surface without boundary consists of the half edges that start there. -/
theorem same_target {dbg : Bool} {S : FlatTri T} (h : Closed dbg S) {V : Finset HE} (hV : V ∈ S.tri.vertexes) {e : HE}
    (he : e < S.tri.size) {w : Finset HE} (hw : S.tri.source e = some w) : sameVertex w V = true ↔ e ∈ V := by
  obtain ⟨x, hx, hx'⟩ := h.shut.flat.ver.orbit V hV
  obtain ⟨w', h1, h2⟩ := h.shut.source he
  rw [hw] at h1
  cases h1
  rw [h.shut.sameVertex h2 hx', hx']
  exact ⟨fun k => k.symm h.shut.flat.coh.hv, fun k => k.symm h.shut.flat.coh.hv⟩

theorem isSource_iff {dbg : Bool} {S : FlatTri T} (h : Closed dbg S) {V : Finset HE} (hV : V ∈ S.tri.vertexes) {e : HE}
    (he : e < S.tri.size) : S.isSource V e = true ↔ e ∈ V := by
  obtain ⟨w, h1, h2⟩ := h.shut.source he
  unfold FlatTri.isSource
  rw [h1]
  rw [← same_target h hV he h1]
  unfold FlatTri.sameVertex
  simp only [decide_eq_true_eq]
  exact eq_comm

theorem vertex_lt {dbg : Bool} {S : FlatTri T} (h : Closed dbg S) {V : Finset HE} (hV : V ∈ S.tri.vertexes) {e : HE}
    (he : e ∈ V) : e < S.tri.size := (C140.nonboundary h hV e he).1

theorem at_spec {dbg : Bool} {S : FlatTri T} (h : Closed dbg S) {V : Finset HE} (hV : V ∈ S.tri.vertexes) :
    ∀ {l : List HE} {c r : Option HE}, (∀ e ∈ l, e ∈ V) → S.eliminateAt V c l = .ok r →
      (r = c ∨ ∃ e ∈ V, r = some e ∧ neg e ∉ V) ∧ (r = none → c = none ∧ ∀ e ∈ l, neg e ∈ V)
  | [], c, r, _, hr => by
    cases hr
    exact ⟨.inl rfl, fun hc => ⟨hc, by simp⟩⟩
  | x :: l, c, r, hl, hr => by
    have hx := hl x List.mem_cons_self
    have hl' : ∀ e ∈ l, e ∈ V := fun e he => hl e (List.mem_cons_of_mem _ he)
    unfold eliminateAt at hr
    split at hr
    · cases hr
    rename_i w hw
    have key := same_target h hV (h.shut.neg_lt (vertex_lt h hV hx)) hw
    split at hr
    · rename_i hs
      obtain ⟨k1, k2⟩ := at_spec h hV hl' hr
      refine ⟨k1, fun hn => ⟨(k2 hn).1, ?_⟩⟩
      intro e he
      rcases List.mem_cons.1 he with rfl | he
      · exact key.1 hs
      · exact (k2 hn).2 e he
    · rename_i hs
      have go : S.eliminateAt V (some x) l = .ok r → _ := fun hr => at_spec h hV hl' hr
      have goal : S.eliminateAt V (some x) l = .ok r →
          (r = c ∨ ∃ e ∈ V, r = some e ∧ neg e ∉ V) ∧ (r = none → c = none ∧ ∀ e ∈ x :: l, neg e ∈ V) := by
        intro hr
        obtain ⟨k1, k2⟩ := go hr
        refine ⟨.inr ?_, fun hn => ?_⟩
        · rcases k1 with k1 | k1
          · exact ⟨x, hx, k1, fun hc => hs (key.2 hc)⟩
          · exact k1
        · cases (k2 hn).1
      cases c with
      | none => exact goal (by simpa using hr)
      | some c =>
        dsimp only at hr
        split at hr
        · obtain ⟨k1, k2⟩ := at_spec h hV hl' hr
          refine ⟨k1, fun hn => ?_⟩
          cases (k2 hn).1
        · exact goal hr

theorem atVertex_spec {dbg : Bool} {S : FlatTri T} (h : Closed dbg S) {V : Finset HE} (hV : V ∈ S.tri.vertexes) {l : List HE}
    (hl : S.atVertex V = .ok l) : ∀ e, e ∈ l ↔ e ∈ V := by
  obtain ⟨x, hx, hx'⟩ := h.shut.flat.ver.orbit V hV
  unfold FlatTri.atVertex at hl
  split at hl
  · cases hl
  rename_i e he
  split at hl
  · cases hl
  rename_i l' hc
  cases hl
  have hm : e ∈ V := Finset.mem_of_min he
  have he' := vertex_lt h hV hm
  obtain ⟨c, c1, -, -, c2⟩ := Perm.cycle_spec h.shut.flat.coh.hv (p := S.tri.vertices) (s := e) he'
  rw [hc] at c1
  cases c1
  intro y
  rw [c2, hx']
  exact ⟨fun k => ((hx' e).1 hm).trans k, fun k => ((((hx' e).1 hm).symm h.shut.flat.coh.hv)).trans k⟩

theorem choice_spec {dbg : Bool} {S : FlatTri T} (h : Closed dbg S) {fuel : ℕ} :
    ∀ {l : List (Finset HE)} {c r : Option HE}, (∀ V ∈ l, V ∈ S.tri.vertexes) → S.eliminateChoice fuel c l = some (.ok r) →
      (r = c ∨ ∃ V ∈ l, S.angle fuel V = some 1 ∧ ∃ e ∈ V, r = some e ∧ neg e ∉ V) ∧
      (r = none → c = none ∧ ∀ V ∈ l, (∃ k, S.angle fuel V = some k) ∧ (S.angle fuel V = some 1 → ∀ e ∈ V, neg e ∈ V))
  | [], c, r, _, hr => by
    cases hr
    exact ⟨.inl rfl, fun hc => ⟨hc, by simp⟩⟩
  | W :: l, c, r, hl, hr => by
    have hW := hl W List.mem_cons_self
    have hl' : ∀ V ∈ l, V ∈ S.tri.vertexes := fun V hV => hl V (List.mem_cons_of_mem _ hV)
    unfold eliminateChoice at hr
    split at hr
    · cases hr
    rename_i k hk
    have lift : ∀ {c'}, S.eliminateChoice fuel c' l = some (.ok r) →
        (r = c' ∨ ∃ V ∈ W :: l, S.angle fuel V = some 1 ∧ ∃ e ∈ V, r = some e ∧ neg e ∉ V) ∧
        (r = none → c' = none ∧ ∀ V ∈ l, (∃ k, S.angle fuel V = some k) ∧ (S.angle fuel V = some 1 → ∀ e ∈ V, neg e ∈ V)) := by
      intro c' hr
      obtain ⟨k1, k2⟩ := choice_spec h hl' hr
      refine ⟨k1.imp_right ?_, k2⟩
      rintro ⟨V, hV, k3⟩
      exact ⟨V, List.mem_cons_of_mem _ hV, k3⟩
    split at hr
    · rename_i h1
      obtain ⟨k1, k2⟩ := lift hr
      refine ⟨k1, fun hn => ⟨(k2 hn).1, ?_⟩⟩
      intro V hV
      rcases List.mem_cons.1 hV with rfl | hV
      · refine ⟨⟨k, hk⟩, fun hc => ?_⟩
        rw [hk, Option.some.injEq] at hc
        exact absurd hc h1
      · exact (k2 hn).2 V hV
    rename_i h1
    rw [ne_eq, not_not] at h1
    rw [h1] at hk
    split at hr
    · cases hr
    · rename_i hs
      obtain ⟨k1, k2⟩ := lift hr
      refine ⟨k1, fun hn => ?_⟩
      rw [(k2 hn).1] at hs
      cases hs
    · split at hr
      · cases hr
      rename_i m hm
      split at hr
      · cases hr
      rename_i c' hc'
      obtain ⟨k1, k2⟩ := lift hr
      have ha := atVertex_spec h hW hm
      obtain ⟨a1, a2⟩ := at_spec h hW (fun e he => (ha e).1 he) hc'
      refine ⟨?_, fun hn => ?_⟩
      · rcases k1 with k1 | k1
        · rcases a1 with a1 | ⟨e, a1, a3, a4⟩
          · exact .inl (k1.trans a1)
          · exact .inr ⟨W, List.mem_cons_self, hk, e, a1, k1.trans a3, a4⟩
        · exact .inr k1
      · obtain ⟨b1, b2⟩ := k2 hn
        obtain ⟨b3, b4⟩ := a2 b1
        refine ⟨b3, fun V hV => ?_⟩
        rcases List.mem_cons.1 hV with rfl | hV
        · exact ⟨⟨1, hk⟩, fun _ e he => b4 e ((ha e).2 he)⟩
        · exact b2 V hV

/-- A half edge is connected to another one by moving to the other side of an edge, and to the next half edge of a face. -/
def Reaches (S : FlatTri T) : HE → HE → Prop :=
  Relation.ReflTransGen fun a b => b = neg a ∨ b = S.tri.nextInFace a

theorem marked_angle {f : T →+* ℝ} (hf : StrictMono f) {dbg : Bool} {S : FlatTri T} (h : Closed dbg S) {V : Finset HE}
    (hV : V ∈ S.tri.vertexes) {fuel k : ℕ} (hk : S.angle fuel V = some k) {e : HE} (he : e ∈ V) :
    MarkedPoint f S e ↔ k = 1 := by
  have hF := IsFlat.flat h.reachable h.flat
  have hb := C140.nonboundary h hV
  obtain ⟨k', N, hN, -, hsum⟩ := C20.angle_correct f hf h.reachable h.flat hV fun e he => (hb e he).2
  have hkk : k = k' := by
    unfold angle at hk hN
    split at hk
    · have h1 := C52.angleLoop_mono hk (max fuel N) (le_max_left _ _)
      have h2 := hN (max fuel N) (le_max_right _ _)
      rw [dif_pos ‹_›, h1] at h2
      exact Option.some_inj.1 h2
    · cases hk
  subst hkk
  constructor
  · rintro ⟨W, hW, heW, hW'⟩
    obtain ⟨x, hx, hx'⟩ := hF.ver.orbit W hW
    obtain ⟨y, hy, hy'⟩ := hF.ver.orbit V hV
    have : W = V := by
      ext z
      have hxe := (hx' e).1 heW
      have hye := (hy' e).1 he
      rw [hx', hy']
      exact ⟨fun hz => hye.trans ((Perm.Orb.symm hF.coh.hv hxe).trans hz),
        fun hz => hxe.trans ((Perm.Orb.symm hF.coh.hv hye).trans hz)⟩
    subst this
    obtain ⟨θ, hθ⟩ := C39.corners_exist hf h
    have hc : Corners f S W θ := fun e he => hθ e (Finset.mem_range.2 (hb e he).1)
    have := (hsum θ hc).symm.trans (hW' θ hc)
    have h2 : (k : ℝ) * (2 * π) = 1 * (2 * π) := by rw [this, one_mul]
    exact_mod_cast mul_right_cancel₀ (by positivity) h2
  · rintro rfl
    refine ⟨V, hV, he, fun θ hθ => ?_⟩
    rw [hsum θ hθ]; simp

/-- If a surface is returned, then the vertices of total angle 2π that have not been eliminated are alone in their component of
the surface. -/
theorem eliminated_partial {f : T →+* ℝ} (hf : StrictMono f) {dbg : Bool}
    {shift : FlatTri T → (HE → Vec T) → Option (Except Err (FlatTri T × (HE → Option (List Saddle))))}
    (hshift : ∀ S δ S' m, Closed dbg S → shift S δ = some (.ok (S', m)) → Closed dbg S') {fuel : ℕ} {S S' : FlatTri T}
    (h : Closed dbg S) {steps : List (HE × Saddle)}
    (hr : S.eliminateMarkedPoints dbg shift fuel = some (.ok (S', steps))) :
    Closed dbg S' ∧ ∀ e ∈ S'.tri.halfEdges, MarkedPoint f S' e → ∀ x, Reaches S' e x → SameVertex S' e x := by
  induction fuel generalizing S steps with
  | zero => cases hr
  | succ fuel ih =>
    unfold eliminateMarkedPoints at hr
    split at hr
    · cases hr
    · cases hr
    · rename_i hc
      cases hr
      refine ⟨h, fun e he hm x hx => ?_⟩
      obtain ⟨V, hV, heV⟩ := h.shut.flat.ver.cover e (mem_halfEdges.1 he)
      obtain ⟨-, k2⟩ := choice_spec h (fun V hV => hV) hc
      obtain ⟨⟨k, hk⟩, k3⟩ := (k2 rfl).2 V hV
      have k1 := (marked_angle hf h hV hk heV).1 hm
      subst k1
      obtain ⟨y, hy, hy'⟩ := h.shut.flat.ver.orbit V hV
      have hxV : x ∈ V := by
        induction hx with
        | refl => exact heV
        | tail _ hstep ih =>
          rename_i a b _
          rcases hstep with rfl | rfl
          · exact k3 hk _ ih
          · have hn := k3 hk _ ih
            have ha := vertex_lt h hV ih
            have := h.shut.orb_across (h.shut.neg_lt ha)
            rw [neg_neg'] at this
            exact (hy' _).2 (((hy' _).1 hn).trans (this.symm h.shut.flat.coh.hv))
      exact (((hy' e).1 heV).symm h.shut.flat.coh.hv).trans ((hy' x).1 hxV)
    · rename_i collapse hc
      split at hr
      · cases hr
      split at hr
      · cases hr
      · cases hr
      · rename_i codomain image hsh
        split at hr
        · cases hr
        split at hr
        · cases hr
        split at hr
        · cases hr
        · cases hr
        · rename_i S'' steps' hrec
          cases hr
          exact ih (hshift _ _ _ _ h hsh) hrec

/-- The half edge that is chosen goes from a vertex of total angle 2π to another vertex. -/
theorem chosen {f : T →+* ℝ} (hf : StrictMono f) {dbg : Bool} {S : FlatTri T} (h : Closed dbg S) {fuel : ℕ} {c : HE}
    (hc : S.eliminateChoice fuel none S.tri.vertexes = some (.ok (some c))) :
    c ∈ S.tri.halfEdges ∧ MarkedPoint f S c ∧ ¬ SameVertex S c (neg c) := by
  obtain ⟨k1, -⟩ := choice_spec h (fun V hV => hV) hc
  obtain ⟨V, hV, k1, e, he, k2, k3⟩ := k1.resolve_left (by simp)
  cases k2
  refine ⟨mem_halfEdges.2 (vertex_lt h hV he), (marked_angle hf h hV k1 he).2 rfl, fun hs => k3 ?_⟩
  obtain ⟨y, hy, hy'⟩ := h.shut.flat.ver.orbit V hV
  exact (hy' _).2 (((hy' _).1 he).trans hs)

/-- The shift moves a vertex to the other end of the half edge that is chosen: the half edge becomes zero, faces are still
closed, and half edges that are not at the vertex do not change. -/
theorem delta_correct {dbg : Bool} {S : FlatTri T} (h : Closed dbg S) {c : HE} (hc : c ∈ S.tri.halfEdges)
    (hne : ¬ SameVertex S c (neg c)) {V : Finset HE} (hV : S.tri.source c = some V) :
    S.vec c + S.eliminateDelta V c c = 0 ∧
    (∀ e ∈ S.tri.halfEdges, S.eliminateDelta V c (neg e) = -S.eliminateDelta V c e) ∧
    (∀ e ∈ S.tri.halfEdges, S.eliminateDelta V c e + S.eliminateDelta V c (S.tri.nextInFace e) +
      S.eliminateDelta V c (S.tri.nextInFace (S.tri.nextInFace e)) = 0) ∧
    ∀ e ∈ S.tri.halfEdges, ¬ SameVertex S c e → ¬ SameVertex S c (neg e) → S.eliminateDelta V c e = 0 := by
  have hs := h.shut
  rw [mem_halfEdges] at hc
  obtain ⟨V', h1, ho⟩ := hs.source hc
  rw [hV] at h1
  cases h1
  have hVm : V ∈ S.tri.vertexes := List.mem_of_find?_eq_some hV
  have src : ∀ e < S.tri.size, S.isSource V e = decide (e ∈ V) := by
    intro e he
    rw [Bool.eq_iff_iff, isSource_iff h hVm he, decide_eq_true_eq]
  have hcV : c ∈ V := (ho c).2 (Perm.Orb.refl _ _)
  have val : ∀ e < S.tri.size, S.eliminateDelta V c e =
      (if e ∈ V then -S.vec c else 0) + if neg e ∈ V then S.vec c else 0 := by
    intro e he
    unfold eliminateDelta
    rw [src e he, src _ (hs.neg_lt he)]
    by_cases a : e ∈ V <;> by_cases b : neg e ∈ V <;> simp [a, b]
  have hneg : neg c ∉ V := fun hn => hne ((ho _).1 hn)
  have across : ∀ e < S.tri.size, (neg e ∈ V ↔ S.tri.nextInFace e ∈ V) := by
    intro e he
    have := hs.orb_across (hs.neg_lt he)
    rw [neg_neg'] at this
    rw [ho, ho]
    exact ⟨fun k => k.trans (this.symm hs.flat.coh.hv), fun k => k.trans this⟩
  refine ⟨?_, fun e he => ?_, fun e he => ?_, fun e he k1 k2 => ?_⟩
  · rw [val c hc, if_pos hcV, if_neg hneg]
    simp
  · rw [mem_halfEdges] at he
    rw [val e he, val _ (hs.neg_lt he), neg_neg']
    by_cases a : e ∈ V <;> by_cases b : neg e ∈ V <;> simp [a, b]
  · rw [mem_halfEdges] at he
    obtain ⟨-, l1, l2, -⟩ := (hs.quad he).lt
    have n3 : S.tri.nextInFace (S.tri.nextInFace (S.tri.nextInFace e)) = e := hs.flat.coh.tri e
    have a1 := across _ he
    have a2 := across (S.tri.nextInFace e) l1
    have a3 := across (S.tri.nextInFace (S.tri.nextInFace e)) l2
    rw [n3] at a3
    rw [val _ he, val (S.tri.nextInFace e) l1, val (S.tri.nextInFace (S.tri.nextInFace e)) l2]
    simp only [a1, a2, a3]
    abel_nf
    by_cases a : e ∈ V <;> by_cases b : S.tri.nextInFace e ∈ V <;> by_cases c' : S.tri.nextInFace (S.tri.nextInFace e) ∈ V <;>
      simp [a, b, c']
  · rw [mem_halfEdges] at he
    rw [val e he, if_neg (fun hn => k1 ((ho _).1 hn)), if_neg (fun hn => k2 ((ho _).1 hn)), add_zero]

/-! ### A marked point that is not eliminated -/

/-- Eight triangles with a common vertex of total angle 6π; their other sides are glued in pairs. -/
def star : Tri := tri [[0, 2, 4, 6, 8, 10, 12, 14], [1, 22, 7, 21, 13, 18, 3, 17, 9, 23, 15, 20, 5, 19, 11, 16]] []

theorem star_make (dbg : Bool) :
    make dbg (perm [[0, 2, 4, 6, 8, 10, 12, 14], [1, 22, 7, 21, 13, 18, 3, 17, 9, 23, 15, 20, 5, 19, 11, 16]]) [] = .ok star := by
  cases dbg <;> rfl

theorem star_reachable (dbg : Bool) : star.Reachable dbg :=
  .make (.ofCycles (cs := [[0, 2, 4, 6, 8, 10, 12, 14], [1, 22, 7, 21, 13, 18, 3, 17, 9, 23, 15, 20, 5, 19, 11, 16]]) rfl)
    (star_make dbg)

/-- The half edges `0`, `2`, …, `14` go from the common vertex to the corners of an octagram, the others are its sides. -/
def flatStar : FlatTri ℤ :=
  ⟨star, listed [⟨-7, -3⟩, ⟨7, -3⟩, ⟨-3, 7⟩, ⟨-3, -7⟩, ⟨7, 3⟩, ⟨-7, 3⟩, ⟨3, -7⟩, ⟨3, 7⟩, ⟨14, 0⟩, ⟨-10, 10⟩, ⟨0, -14⟩, ⟨10, 10⟩]⟩

theorem flatStar_isFlat : IsFlat flatStar :=
  (isFlat_of_check (none : Option (Approx ℤ ℚ)) (star_reachable true) fun e _ => listed_neg _ e).1 (by decide +kernel)

theorem flatStar_closed (dbg : Bool) : Closed dbg flatStar := ⟨star_reachable dbg, flatStar_isFlat, by decide⟩

theorem search_fails (image : HE → Option (List Saddle)) (dbg : Bool) :
    eliminateSearch dbg flatStar {1, 3, 5, 7, 9, 11, 13, 15, 16, 17, 18, 19, 20, 21, 22, 23} image flatStar.tri.halfEdges =
      .error (if dbg then .logicError else .undefined) := by
  have key : ∀ l : List HE, (∀ e ∈ l, (flatStar.isSource {1, 3, 5, 7, 9, 11, 13, 15, 16, 17, 18, 19, 20, 21, 22, 23} e ||
      flatStar.isSource {1, 3, 5, 7, 9, 11, 13, 15, 16, 17, 18, 19, 20, 21, 22, 23} (neg e)) = true) →
      eliminateSearch dbg flatStar {1, 3, 5, 7, 9, 11, 13, 15, 16, 17, 18, 19, 20, 21, 22, 23} image l =
        .error (if dbg then .logicError else .undefined) := by
    intro l hl
    induction l with
    | nil => rfl
    | cons e l ih =>
      unfold eliminateSearch
      rw [if_pos (hl e (by simp))]
      exact ih fun e he => hl e (by simp [he])
  exact key _ (by decide +kernel)

theorem angle_mono {S : FlatTri T} {V : Finset HE} {m n k : ℕ} (h : S.angle m V = some k) (hmn : m ≤ n) : S.angle n V = some k := by
  unfold angle at h ⊢
  split at h
  · rw [dif_pos ‹_›]
    exact C52.angleLoop_mono h n hmn
  · cases h

theorem star_choice {fuel : ℕ} (h : 16 ≤ fuel) :
    flatStar.eliminateChoice fuel none flatStar.tri.vertexes = some (.ok (some 11)) := by
  have hv : flatStar.tri.vertexes =
      [{0, 2, 4, 6, 8, 10, 12, 14}, {1, 3, 5, 7, 9, 11, 13, 15, 16, 17, 18, 19, 20, 21, 22, 23}] := by decide +kernel
  have a1 : flatStar.angle fuel {0, 2, 4, 6, 8, 10, 12, 14} = some 3 := angle_mono (m := 16) (by decide +kernel) h
  have a2 : flatStar.angle fuel {1, 3, 5, 7, 9, 11, 13, 15, 16, 17, 18, 19, 20, 21, 22, 23} = some 1 :=
    angle_mono (m := 16) (by decide +kernel) h
  have a3 : flatStar.atVertex {1, 3, 5, 7, 9, 11, 13, 15, 16, 17, 18, 19, 20, 21, 22, 23} =
      .ok [1, 22, 7, 21, 13, 18, 3, 17, 9, 23, 15, 20, 5, 19, 11, 16] := by rfl
  have a4 : flatStar.eliminateAt {1, 3, 5, 7, 9, 11, 13, 15, 16, 17, 18, 19, 20, 21, 22, 23} none
      [1, 22, 7, 21, 13, 18, 3, 17, 9, 23, 15, 20, 5, 19, 11, 16] = .ok (some 11) := by rfl
  rw [hv]
  simp [eliminateChoice, a1, a2, a3, a4, eliminateSkips]

/-- A surface with a singularity and a single marked point: whatever the shift does, no surface is returned. If the shift
succeeds then this is a logic error in a debug build and undefined otherwise. -/
theorem fails (dbg : Bool) (shift : FlatTri ℤ → (HE → Vec ℤ) → Option (Except Err (FlatTri ℤ × (HE → Option (List Saddle))))) :
    Closed dbg flatStar ∧ MarkedPoint (Int.castRingHom ℝ) flatStar 1 ∧ Reaches flatStar 1 0 ∧ ¬ SameVertex flatStar 1 0 ∧
    (∀ fuel r, flatStar.eliminateMarkedPoints dbg shift fuel ≠ some (.ok r)) ∧
    ∀ r, (∀ δ, shift flatStar δ = some (.ok r)) → ∀ fuel ≥ 16,
      flatStar.eliminateMarkedPoints dbg shift fuel = some (.error (if dbg then .logicError else .undefined)) := by
  have h := flatStar_closed dbg
  have hs : flatStar.tri.source 11 = some {1, 3, 5, 7, 9, 11, 13, 15, 16, 17, 18, 19, 20, 21, 22, 23} := by decide +kernel
  have hm : flatStar.angle 16 {1, 3, 5, 7, 9, 11, 13, 15, 16, 17, 18, 19, 20, 21, 22, 23} = some 1 := by decide +kernel
  have hV : ({1, 3, 5, 7, 9, 11, 13, 15, 16, 17, 18, 19, 20, 21, 22, 23} : Finset HE) ∈ flatStar.tri.vertexes := by
    decide +kernel
  refine ⟨h, (marked_angle Int.cast_strictMono h hV hm (by decide)).2 rfl, .single (.inl (by decide)), ?_, ?_, ?_⟩
  · intro hc
    obtain ⟨y, -, hy⟩ := h.shut.flat.ver.orbit _ hV
    exact absurd ((hy 0).2 (((hy 1).1 (by decide)).trans hc)) (by decide)
  · intro fuel r hr
    obtain ⟨fuel, rfl⟩ : ∃ m, fuel = m + 1 := ⟨fuel - 1, by cases fuel with | zero => cases hr | succ n => omega⟩
    have hch : flatStar.eliminateChoice (fuel + 1) none flatStar.tri.vertexes = none ∨
        flatStar.eliminateChoice (fuel + 1) none flatStar.tri.vertexes = some (.ok (some 11)) := by
      by_cases hf : 16 ≤ fuel + 1
      · exact .inr (star_choice hf)
      · have : ∀ n < 16, (match flatStar.eliminateChoice n none flatStar.tri.vertexes with | none => true | _ => false) = true := by
          decide +kernel
        have := this (fuel + 1) (by omega)
        split at this
        · exact .inl ‹_›
        · cases this
    unfold eliminateMarkedPoints at hr
    rcases hch with hch | hch
    · rw [hch] at hr; cases hr
    · rw [hch] at hr
      simp only [hs, search_fails] at hr
      split at hr
      · cases hr
      · cases hr
      · split at hr <;> cases hr
  · intro r hsh fuel hfuel
    obtain ⟨fuel, rfl⟩ : ∃ m, fuel = m + 1 := ⟨fuel - 1, by omega⟩
    unfold eliminateMarkedPoints
    rw [star_choice hfuel]
    obtain ⟨c, image⟩ := r
    simp only [hs, hsh, search_fails]
    split
    · rename_i hd
      cases dbg with
      | true => rfl
      | false => cases hd
    · rfl

/-! ### A marked point that is eliminated -/

/-- A torus with a marked point in the interior of a triangle. -/
def pointed : Tri := tri [[0, 6, 4, 2, 8, 1, 5, 10, 3], [7, 9, 11]] []

theorem pointed_reachable (dbg : Bool) : pointed.Reachable dbg :=
  .make (.ofCycles (cs := [[0, 6, 4, 2, 8, 1, 5, 10, 3], [7, 9, 11]]) rfl)
    (by cases dbg <;> rfl : make dbg (perm [[0, 6, 4, 2, 8, 1, 5, 10, 3], [7, 9, 11]]) [] = .ok pointed)

def flatPointed : FlatTri ℤ := ⟨pointed, listed [⟨3, 0⟩, ⟨0, 3⟩, ⟨3, 3⟩, ⟨2, 1⟩, ⟨-1, 1⟩, ⟨-1, -2⟩]⟩

theorem flatPointed_closed (dbg : Bool) : Closed dbg flatPointed :=
  ⟨pointed_reachable dbg,
    (isFlat_of_check (none : Option (Approx ℤ ℚ)) (pointed_reachable true) fun e _ => listed_neg _ e).1 (by decide +kernel),
    by decide⟩

/-- The shift that collapses the half edge to the marked point. -/
def forget (_ : FlatTri ℤ) (_ : HE → Vec ℤ) : Option (Except Err (FlatTri ℤ × (HE → Option (List Saddle)))) :=
  some (.ok (bigTorus, fun e => some [Saddle.ofHalfEdge e]))

example : (∀ S δ S' m, Closed true S → forget S δ = some (.ok (S', m)) → Closed true S') ∧ Closed true flatPointed ∧
    flatPointed.eliminateMarkedPoints true forget 12 = some (.ok (bigTorus, [(0, Saddle.ofHalfEdge 0)])) := by
  refine ⟨?_, flatPointed_closed true, by rfl⟩
  intro S δ S' m _ h
  cases h
  exact ⟨torus_reachable true, bigTorus_isFlat, by decide⟩

example : flatPointed.eliminateChoice 12 none flatPointed.tri.vertexes = some (.ok (some 9)) ∧
    flatPointed.tri.source 9 = some {7, 9, 11} ∧
    (List.range 12).map (flatPointed.eliminateDelta {7, 9, 11} 9) =
      [0, 0, 0, 0, 0, 0, ⟨1, -1⟩, ⟨-1, 1⟩, ⟨1, -1⟩, ⟨-1, 1⟩, ⟨1, -1⟩, ⟨-1, 1⟩] :=
  ⟨by rfl, by decide +kernel, by decide +kernel⟩

end Verif.C150
