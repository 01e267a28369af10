import Verif.Lemmas.Shift
import Verif.Lemmas.FlatExamples

/-!
# C123: shifting the half edges of a surface
-/

namespace Verif.C123

set_option linter.unusedSectionVars false

open Verif Spec Tri FlatTri Examples Vec Shift

variable {T : Type} [CommRing T] [LinearOrder T] [IsStrictOrderedRing T]
variable {K : Type*} [Field K] [LinearOrder K] [IsStrictOrderedRing K]
variable {K' : Type*} [Field K'] [LinearOrder K'] [IsStrictOrderedRing K']
variable {dbg : Bool} {S : FlatTri T} {shift : HE → Vec T} {f : T →+* ℝ}

/-- All triangles have positive area until the half edges have been shifted. -/
def StaysPositive (f : T →+* ℝ) (S : FlatTri T) (shift : HE → Vec T) : Prop :=
  ∀ e ∈ S.tri.halfEdges, ∀ t, 0 ≤ t → t ≤ 1 → 0 < areaAt f S shift t e

/-- A half edge is shifted to zero too early. -/
def VanishesEarly (f : T →+* ℝ) (S : FlatTri T) (shift : HE → Vec T) : Prop :=
  ∃ e ∈ S.tri.halfEdges, ∃ t, 0 < t ∧ t < 1 ∧ shiftedAt f S shift t e = 0

/-- When the area of the triangle at a half edge vanishes first, the opposite vertex of the triangle is in the interior of the half edge. -/
def HitByVertex (f : T →+* ℝ) (S : FlatTri T) (shift : HE → Vec T) (e : HE) : Prop :=
  ∃ τ, VanishesFirst f S shift e τ ∧ ∃ r : ℝ, 0 < r ∧ r < 1 ∧
    shiftedAt f S shift τ (S.tri.previousInFace e) + r • shiftedAt f S shift τ e = 0

theorem nonzero (h : Closed dbg S) {e : HE} (he : e ∈ S.tri.halfEdges) : S.vec e ≠ 0 := by
  intro hz
  have := h.shut.flat.oriented e (h.shut.nb e (mem_halfEdges.1 he))
  rw [hz, cross_zero_left] at this
  exact lt_irrefl _ this

theorem shifted_flat (A : Option (Approx T K)) (h : Closed dbg S) (hs : IsShift S shift)
    (ho : ∀ e ∈ S.tri.halfEdges, 0 < cross (S.vec e + shift e) (S.vec (S.tri.nextInFace e) + shift (S.tri.nextInFace e))) :
    ∃ S', (do let C ← S.tri.clone dbg; return ShiftPlan.shifted (← ofFunction A dbg C fun e => S.vec e + shift e)) = .ok (.shifted S') ∧
      Closed dbg S' ∧ Same S.tri S'.tri ∧ ∀ e, S'.vec e = S.vec e + shift e := by
  have hF := h.shut.flat
  obtain ⟨C, h1, h2, h3⟩ := hF.coh.clone dbg
  have hC : C.Reachable dbg := ofMake hF.coh.hv h1
  have g1 : Flat ⟨S.tri, fun e => S.vec e + shift e⟩ := by
    refine ⟨hF.coh, hF.ver, fun e he => ?_, fun e he => ?_, fun e he => ho e (mem_halfEdges.2 (hF.coh.lt_of_not_boundary he))⟩
    · show S.vec (neg e) + shift (neg e) = _
      rw [hF.odd e he, hs.odd e (mem_halfEdges.2 he), neg_add]
    · have k1 := hF.closed e he
      have k2 := hs.closed e (mem_halfEdges.2 (hF.coh.lt_of_not_boundary he))
      unfold Tri.nextInFace at k2
      dsimp only
      linear_combination (norm := abel) k1 + k2
  have g3 := flat_of_faces g1 hC h2 h3
  obtain ⟨T', e1, e2, e3, e4, -⟩ := ofFunction_flat A hC g3
  have hsm := same_of_eq h.reachable hC h2 h3
  have hsame : Same S.tri T' := by
    refine ⟨?_, ?_, ?_, ?_, ?_, ?_, ?_⟩
    · rw [e3.halfEdges, hsm.halfEdges]
    · intro e; rw [e3.nextAtVertex, hsm.nextAtVertex]
    · intro e; rw [e3.previousAtVertex, hsm.previousAtVertex]
    · intro e; rw [e3.nextInFace, hsm.nextInFace]
    · intro e; rw [e3.previousInFace, hsm.previousInFace]
    · intro e; rw [e3.boundary, hsm.boundary]
    · exact e3.vertices.trans hsm.vertices
  refine ⟨⟨T', _⟩, ?_, ⟨e2, e4.isFlat, ?_⟩, hsame, fun e => rfl⟩
  · rw [h1]
    show (do return ShiftPlan.shifted (← ofFunction A dbg C fun e => S.vec e + shift e)) = _
    rw [e1]
    rfl
  · rw [hasBoundary_false]
    intro x hx
    have hx' : x < S.tri.size := by
      rw [← mem_halfEdges, ← hsame.halfEdges]
      exact mem_halfEdges.2 hx
    have := hsame.nextInFace x
    unfold Tri.nextInFace at this
    rw [this]
    exact h.shut.nb x hx'

theorem flips_nothing (h : Closed dbg S) (hs : IsShift S shift) (hf : StrictMono f) (hp : StaysPositive f S shift) (F : Approx T K) (A : ℕ → Approx T K)
    (root : Quadratic T → ℕ → Ball K) (fuel : ℕ) (c : List HE) :
    ∀ l : List HE, (∀ e ∈ l, e < S.tri.size) → shiftFlipsLoop F A root dbg fuel S shift c l = some (.ok [])
  | [], _ => rfl
  | e :: l, hl => by
    have he := hl e (by simp)
    have h1 : shiftFlips F A root dbg fuel S shift c e = some (.ok false) := by
      unfold shiftFlips
      dsimp only
      rw [if_neg, if_pos]
      · rw [C26.positive_correct f hf]
        simp only [det_area h.shut hs he]
        exact hp e (mem_halfEdges.2 he)
      · rintro ⟨-, hd⟩
        apply hd
        have := (h.shut.flat.corner (h.shut.nb e he)).2
        unfold Quadratic.eval shiftDet Tri.nextAtVertex
        simpa [cross, mul_comm] using this
    rw [shiftFlipsLoop, h1]
    simp only [Option.bind_some]
    rw [flips_nothing h hs hf hp F A root fuel c l fun x hx => hl x (by simp [hx])]
    rfl

/-- When the areas of all triangles stay positive, then the half edges are just shifted: The result is the surface with the same
triangulation and the shifted vectors. -/
theorem shifts (h : Closed dbg S) (hs : IsShift S shift) (hf : StrictMono f) (hp : StaysPositive f S shift) {A₀ : Option (Approx T K')}
    (hA₀ : ZeroIsExact A₀) (F : Approx T K) (A : ℕ → Approx T K) (root : Quadratic T → ℕ → Ball K) (fuel : ℕ) :
    ∃ S', shiftPlan A₀ F A root dbg fuel S shift = some (.ok (.shifted S')) ∧ Closed dbg S' ∧ Same S.tri S'.tri ∧
      ∀ e, S'.vec e = S.vec e + shift e := by
  have hnz : ∀ e ∈ S.tri.halfEdges, ∀ t, 0 ≤ t → t ≤ 1 → shiftedAt f S shift t e ≠ 0 := by
    intro e he t h1 h2 hz
    have := hp e he t h1 h2
    unfold areaAt at this
    rw [hz, cross_zero_left] at this
    exact lt_irrefl _ this
  have ho : ∀ e ∈ S.tri.halfEdges, 0 < cross (S.vec e + shift e) (S.vec (S.tri.nextInFace e) + shift (S.tri.nextInFace e)) := by
    intro e he
    have := hp e he 1 zero_le_one le_rfl
    rw [← hf.lt_iff_lt, map_zero, ← cross_map]
    have hm : ∀ v w : Vec T, (v + w).map f = v.map f + w.map f := by intro v w; ext <;> simp [Vec.map]
    rw [hm, hm]
    simpa [areaAt, shiftedAt] using this
  obtain ⟨S', g1, g2⟩ := shifted_flat A₀ h hs ho
  refine ⟨S', ?_, g2⟩
  unfold shiftPlan
  rcases collapsesLoop_spec (f := f) (shift := shift) hA₀ hf S.tri.halfEdges (fun e he => nonzero h he) with
    ⟨-, e, he, t, k1, k2, k3⟩ | ⟨c, k1, k2, -⟩
  · exact absurd k3 (hnz e he t k1.le k2.le)
  · have hc : c = [] := List.eq_nil_iff_forall_not_mem.2 fun x hx => hnz x ((k2 x).1 hx).1 1 zero_le_one le_rfl ((k2 x).1 hx).2
    subst hc
    rw [k1]
    dsimp only
    rw [flips_nothing h hs hf hp F A root fuel [] S.tri.halfEdges fun e he => mem_halfEdges.1 he]
    simp only [Option.map_some, Except.bind, ne_eq, not_true_eq_false, if_false]
    exact congrArg some g1

/-- When a half edge is shifted to zero before the end, then the shift is rejected. -/
theorem rejects (h : Closed dbg S) (hf : StrictMono f) (hv : VanishesEarly f S shift) {A₀ : Option (Approx T K')} (hA₀ : ZeroIsExact A₀)
    (F : Approx T K) (A : ℕ → Approx T K) (root : Quadratic T → ℕ → Ball K) (fuel : ℕ) :
    shiftPlan A₀ F A root dbg fuel S shift = some (.error .invalidArgument) := by
  unfold shiftPlan
  rcases collapsesLoop_spec (f := f) (shift := shift) hA₀ hf S.tri.halfEdges (fun e he => nonzero h he) with ⟨k, -⟩ | ⟨c, k1, -, k2⟩
  · rw [k]
  · obtain ⟨e, he, t, g1, g2, g3⟩ := hv
    exact absurd g3 (k2 e he t g1.le g2)

theorem hit_of_dot (h : Closed dbg S) (hs : IsShift S shift) {e : HE} (he : e < S.tri.size) {τ : ℝ} (hτ : VanishesFirst f S shift e τ)
    (hd : dot (shiftedAt f S shift τ e) (shiftedAt f S shift τ (S.tri.nextAtVertex e)) < 0) :
    HitByVertex f S shift (S.tri.nextInFace e) := by
  have hS := h.shut
  refine ⟨τ, ⟨hτ.1, hτ.2.1, (area_next hS hs he τ).trans hτ.2.2.1, fun s k1 k2 => ?_⟩, ?_⟩
  · rw [area_next hS hs he]
    exact hτ.2.2.2 s k1 k2
  have hprev : S.tri.previousInFace (S.tri.nextInFace e) = e := hS.flat.coh.hf.left e
  rw [hprev]
  have hc := hτ.2.2.1
  rw [shiftedAt_corner hS hs he] at hd
  unfold areaAt at hc
  generalize shiftedAt f S shift τ e = a at *
  generalize shiftedAt f S shift τ (S.tri.nextInFace e) = b at *
  have ha : a ≠ 0 := by
    rintro rfl
    simp [dot] at hd
  have hp := dot_self_pos ha
  have e1 : dot a (a + b) = dot a a + dot a b := by unfold dot; simp; ring
  rw [e1] at hd
  have hn : 0 < -dot a b := by linarith
  refine ⟨dot a a / -dot a b, div_pos hp hn, (div_lt_one hn).2 (by linarith), zero_of_cross_dot ha ?_ ?_⟩
  · rw [cross_add_right, cross_self, cross_smul_right, hc, mul_zero, add_zero]
  · have hn' : dot a b ≠ 0 := by intro hx; rw [hx] at hn; simp at hn
    have e2 : dot a (a + (dot a a / -dot a b) • b) = dot a a + dot a a / -dot a b * dot a b := by unfold dot; simp; ring
    rw [e2]
    field_simp
    ring

/-- All outcomes, provided that the arithmetic and the enclosures of roots are correct: Half edges are just shifted exactly if all areas
stay positive; the shift is rejected exactly if a half edge is shifted to zero too early; when half edges are going to be flipped then
exactly the ones that are hit by the opposite vertex of a triangle (not looking at corners next to a half edge that collapses); when half
edges are going to be collapsed, then exactly the ones that are shifted to zero and then every triangle whose area does not stay positive
has a half edge that is shifted to zero. -/
theorem outcome (h : Closed dbg S) (hs : IsShift S shift) (hf : StrictMono f) {A₀ : Option (Approx T K')} (hA₀ : ZeroIsExact A₀)
    {F : Approx T ℝ} (hF : F.value = f) {A : ℕ → Approx T ℝ} (hA : ∀ n, (A n).value = f) {root : Quadratic T → ℕ → Ball ℝ} (hr : EnclosesRoot f root) {fuel : ℕ} {r}
    (hx : shiftPlan A₀ F A root dbg fuel S shift = some r) :
    (r = .error .invalidArgument ∧ VanishesEarly f S shift) ∨
    (∃ S', r = .ok (.shifted S') ∧ StaysPositive f S shift) ∨
    (∃ l, r = .ok (.flips l) ∧ l ≠ [] ∧ ¬ VanishesEarly f S shift ∧ ∀ e, e ∈ l ↔ e ∈ S.tri.halfEdges ∧ HitByVertex f S shift e ∧
      shiftedAt f S shift 1 (S.tri.nextInFace e) ≠ 0 ∧ shiftedAt f S shift 1 (S.tri.previousInFace e) ≠ 0) ∨
    (∃ l, r = .ok (.collapses l) ∧ l ≠ [] ∧ ¬ VanishesEarly f S shift ∧
      (∀ e, e ∈ l ↔ e ∈ S.tri.halfEdges ∧ S.vec e + shift e = 0) ∧
      ∀ e ∈ S.tri.halfEdges, (∀ t, 0 ≤ t → t ≤ 1 → 0 < areaAt f S shift t e) ∨ S.vec e + shift e = 0 ∨
        S.vec (S.tri.nextInFace e) + shift (S.tri.nextInFace e) = 0 ∨ S.vec (S.tri.previousInFace e) + shift (S.tri.previousInFace e) = 0) := by
  have hS := h.shut
  have hx0 := hx
  unfold shiftPlan at hx
  rcases collapsesLoop_spec (f := f) (shift := shift) hA₀ hf S.tri.halfEdges (fun e he => nonzero h he) with
    ⟨k, e, he, t, k1, k2, k3⟩ | ⟨c, k, k1, k2⟩
  · rw [k] at hx
    cases hx
    exact .inl ⟨rfl, e, he, t, k1, k2, k3⟩
  rw [k] at hx
  dsimp only at hx
  have hne : ¬ VanishesEarly f S shift := by
    rintro ⟨e, he, t, g1, g2, g3⟩
    exact k2 e he t g1.le g2 g3
  have hone : ∀ e, shiftedAt f S shift 1 e = 0 ↔ S.vec e + shift e = 0 := by
    intro e
    unfold shiftedAt
    rw [one_smul]
    constructor
    · intro hz
      have hx := congrArg Vec.x hz
      have hy := congrArg Vec.y hz
      simp only [Vec.map, add_x, add_y, zero_x, zero_y, ← map_add] at hx hy
      ext
      · exact hf.injective (hx.trans (map_zero f).symm)
      · exact hf.injective (hy.trans (map_zero f).symm)
    · intro hz
      have hx := congrArg f (congrArg Vec.x hz)
      have hy := congrArg f (congrArg Vec.y hz)
      ext
      · simpa [Vec.map] using hx
      · simpa [Vec.map] using hy
  cases hl : shiftFlipsLoop F A root dbg fuel S shift c S.tri.halfEdges with
  | none => rw [hl] at hx; cases hx
  | some r' =>
    have hspec := fun {e : HE} (he : e < S.tri.size) {r'} => flips_spec hS hs hf hF hA hr (dbg := dbg) (fuel := fuel) k1 k2 he (r := r')
    obtain ⟨m, rfl, m1, m2⟩ := flipsLoop_spec S.tri.halfEdges
      (fun e he r hr => by obtain ⟨b, hb, -⟩ := hspec (mem_halfEdges.1 he) hr; exact ⟨b, hb⟩) hl
    rw [hl] at hx
    simp only [Option.map_some, Except.bind] at hx
    have hat : ∀ e, e < S.tri.size → ∀ t, 0 ≤ t → t ≤ 1 → shiftedAt f S shift 1 e ≠ 0 → shiftedAt f S shift t e ≠ 0 := by
      intro e he t t0 t1 hz
      rcases lt_or_eq_of_le t1 with t1 | rfl
      · exact k2 e (mem_halfEdges.2 he) t t0 t1
      · exact hz
    have hcorner : ∀ e, e < S.tri.size → (shiftedAt f S shift 1 (S.tri.nextAtVertex e) = 0 ↔
        shiftedAt f S shift 1 (S.tri.nextInFace (S.tri.nextInFace e)) = 0) := by
      intro e he
      rw [next_vertex hS he, shiftedAt_odd (e := S.tri.nextInFace (S.tri.nextInFace e)) hS hs (hS.next_lt (hS.next_lt he)), neg_eq_zero]
    have hnext : ∀ e, S.tri.nextInFace e < S.tri.size ↔ e < S.tri.size := by
      intro e
      refine ⟨fun hx => ?_, hS.next_lt⟩
      have := hS.next_lt (hS.next_lt hx)
      rwa [show S.tri.faces.fwd (S.tri.faces.fwd (S.tri.nextInFace e)) = e from hS.flat.coh.tri e] at this
    -- The half edges that are going to be flipped.
    have hm : ∀ e, e ∈ m ↔ e ∈ S.tri.halfEdges ∧ HitByVertex f S shift e ∧
        shiftedAt f S shift 1 (S.tri.nextInFace e) ≠ 0 ∧ shiftedAt f S shift 1 (S.tri.previousInFace e) ≠ 0 := by
      intro x
      rw [m2]
      constructor
      · rintro ⟨e, he, g1, rfl⟩
        have he' := mem_halfEdges.1 he
        obtain ⟨b, g2, g3, g4, g5⟩ := hspec he' g1
        cases g2
        have hprev : S.tri.previousInFace (S.tri.nextInFace e) = e := hS.flat.coh.hf.left e
        obtain ⟨z1, z2⟩ := g5 rfl
        obtain ⟨τ, -, hτ⟩ := exists_first (f := f) (shift := shift) hS hf he' (fun hp => by have := g3 hp; cases this)
        have hd := g4 z1 z2 τ hτ
        refine ⟨mem_halfEdges.2 (hS.next_lt he'), hit_of_dot h hs he' hτ (of_decide_eq_true hd.symm), ?_, ?_⟩
        · exact fun hz => z2 ((hcorner e he').2 hz)
        · rw [hprev]
          exact z1
      · rintro ⟨hxm, ⟨τ, hτ, ρ, r0, r1, hr⟩, z1, z2⟩
        have hx' := mem_halfEdges.1 hxm
        have he' : S.tri.previousInFace x < S.tri.size := by
          have hp := hnext (S.tri.previousInFace x)
          rw [show S.tri.nextInFace (S.tri.previousInFace x) = x from hS.flat.coh.hf.right x] at hp
          exact hp.1 hx'
        have hnx : S.tri.nextInFace (S.tri.previousInFace x) = x := hS.flat.coh.hf.right x
        have hnxx : S.tri.nextInFace (S.tri.nextInFace (S.tri.previousInFace x)) = S.tri.nextInFace x := by rw [hnx]
        obtain ⟨b, hb⟩ := m1 _ (mem_halfEdges.2 he')
        obtain ⟨b', g2, g3, g4, g5⟩ := hspec he' hb
        cases g2
        have hτ' : VanishesFirst f S shift (S.tri.previousInFace x) τ := by
          refine ⟨hτ.1, hτ.2.1, ?_, fun s s1 s2 => ?_⟩
          · rw [← area_next hS hs he', hnx]
            exact hτ.2.2.1
          · rw [← area_next hS hs he', hnx]
            exact hτ.2.2.2 s s1 s2
        have hz2 : shiftedAt f S shift 1 (S.tri.nextAtVertex (S.tri.previousInFace x)) ≠ 0 := by
          rw [Ne, hcorner _ he', hnxx]
          exact z1
        have hd := g4 z2 hz2 τ hτ'
        have hneg : dot (shiftedAt f S shift τ (S.tri.previousInFace x)) (shiftedAt f S shift τ (S.tri.nextAtVertex (S.tri.previousInFace x))) < 0 := by
          rw [shiftedAt_corner hS hs he', hnx]
          have hnza := hat _ he' τ hτ.1 hτ.2.1 z2
          generalize shiftedAt f S shift τ (S.tri.previousInFace x) = a at *
          generalize shiftedAt f S shift τ x = w at *
          have hp := dot_self_pos hnza
          have e1 : dot a (a + w) = dot a a + dot a w := by unfold dot; simp; ring
          have e2 : dot a (a + ρ • w) = dot a a + ρ * dot a w := by unfold dot; simp; ring
          rw [hr] at e2
          have e3 : dot a (0 : Vec ℝ) = 0 := by simp [dot]
          rw [e3] at e2
          rw [e1]
          nlinarith
        rw [decide_eq_true hneg] at hd
        rw [hd] at hb
        exact ⟨_, mem_halfEdges.2 he', hb, hnx.symm⟩
    -- When nothing is flipped.
    have hpos : m = [] → ∀ e ∈ S.tri.halfEdges, (∀ t, 0 ≤ t → t ≤ 1 → 0 < areaAt f S shift t e) ∨ S.vec e + shift e = 0 ∨
        S.vec (S.tri.nextInFace e) + shift (S.tri.nextInFace e) = 0 ∨ S.vec (S.tri.previousInFace e) + shift (S.tri.previousInFace e) = 0 := by
      rintro rfl e he
      by_contra hcon
      push Not at hcon
      obtain ⟨n1, n2, n3, n4⟩ := hcon
      have he' := mem_halfEdges.1 he
      have hnn : S.tri.previousInFace e = S.tri.nextInFace (S.tri.nextInFace e) := by
        have : S.tri.faces.inv e = S.tri.faces.fwd (S.tri.faces.fwd e) := by
          rw [← hS.flat.coh.hf.left (S.tri.faces.fwd (S.tri.faces.fwd e)), hS.flat.coh.tri]
        exact this
      have tri : S.tri.nextInFace (S.tri.nextInFace (S.tri.nextInFace e)) = e := hS.flat.coh.tri e
      rw [hnn] at n4
      rw [Ne, ← hone] at n2 n3 n4
      have hl1 : S.tri.nextInFace e < S.tri.size := hS.next_lt he'
      have hl2 : S.tri.nextInFace (S.tri.nextInFace e) < S.tri.size := hS.next_lt hl1
      have n1' : ¬ ∀ t, 0 ≤ t → t ≤ 1 → 0 < areaAt f S shift t e := by
        push Not
        exact n1
      obtain ⟨τ, -, hτ⟩ := exists_first hS hf he' n1'
      obtain ⟨y, hy, hyd⟩ := some_corner hS hs he' hτ.2.2.1
      have hy' : y < S.tri.size ∧ VanishesFirst f S shift y τ ∧ shiftedAt f S shift 1 y ≠ 0 ∧
          shiftedAt f S shift 1 (S.tri.nextAtVertex y) ≠ 0 := by
        have v1 : VanishesFirst f S shift (S.tri.nextInFace e) τ :=
          ⟨hτ.1, hτ.2.1, (area_next hS hs he' τ).trans hτ.2.2.1, fun s s1 s2 => by rw [area_next hS hs he']; exact hτ.2.2.2 s s1 s2⟩
        have v2 : VanishesFirst f S shift (S.tri.nextInFace (S.tri.nextInFace e)) τ :=
          ⟨v1.1, v1.2.1, (area_next hS hs hl1 τ).trans v1.2.2.1, fun s s1 s2 => by rw [area_next hS hs hl1]; exact v1.2.2.2 s s1 s2⟩
        rcases hy with rfl | rfl | rfl
        · exact ⟨he', hτ, n2, fun hz => n4 ((hcorner _ he').1 hz)⟩
        · refine ⟨hl1, v1, n3, fun hz => n2 ?_⟩
          have := (hcorner _ hl1).1 hz
          rwa [tri] at this
        · refine ⟨hl2, v2, n4, fun hz => n3 ?_⟩
          have := (hcorner _ hl2).1 hz
          rwa [tri] at this
      obtain ⟨y1, y2, y3, y4⟩ := hy'
      obtain ⟨b, hb⟩ := m1 y (mem_halfEdges.2 y1)
      obtain ⟨b', g2, -, g4, -⟩ := hspec y1 hb
      cases g2
      have hd := g4 y3 y4 τ y2
      have hyn : S.tri.nextAtVertex y < S.tri.size := by
        rw [next_vertex hS y1]
        exact hS.neg_lt (hS.next_lt (hS.next_lt y1))
      have hd0 : dot (shiftedAt f S shift τ y) (shiftedAt f S shift τ (S.tri.nextAtVertex y)) ≠ 0 := by
        intro hz
        refine hat _ hyn τ y2.1 y2.2.1 y4 (zero_of_cross_dot (hat _ y1 τ y2.1 y2.2.1 y3) ?_ hz)
        rw [← det_value, det_area hS hs y1, y2.2.2.1]
      rw [decide_eq_true (lt_of_le_of_ne hyd hd0)] at hd
      rw [hd] at hb
      exact absurd ((m2 _).2 ⟨y, mem_halfEdges.2 y1, hb, rfl⟩) (by simp)
    by_cases hm0 : m = []
    · replace hpos := hpos hm0
      subst hm0
      by_cases hc0 : c = []
      · right; left
        subst hc0
        have hnc : ∀ e ∈ S.tri.halfEdges, S.vec e + shift e ≠ 0 := by
          intro e he hz
          have := (k1 e).2 ⟨he, (hone e).2 hz⟩
          simp at this
        have hstay : StaysPositive f S shift := by
          intro e he
          rcases hpos e he with g | g | g | g
          · exact g
          · exact absurd g (hnc e he)
          · exact absurd g (hnc _ (mem_halfEdges.2 (hS.next_lt (mem_halfEdges.1 he))))
          · exact absurd g (hnc _ (mem_halfEdges.2 ((hnext _).1 (by rw [show S.tri.nextInFace (S.tri.previousInFace e) = e from hS.flat.coh.hf.right e]; exact mem_halfEdges.1 he))))
        obtain ⟨S', s1, -⟩ := shifts h hs hf hstay hA₀ F A root fuel
        rw [hx0] at s1
        exact ⟨S', Option.some.inj s1, hstay⟩
      · right; right; right
        simp only [ne_eq, not_true_eq_false, if_false, hc0, not_false_eq_true, if_true] at hx
        cases hx
        exact ⟨c, rfl, hc0, hne, fun e => by rw [k1, hone], hpos⟩
    · right; right; left
      simp only [ne_eq, hm0, not_false_eq_true, if_true] at hx
      cases hx
      exact ⟨m, rfl, hm0, hne, hm⟩

/-- It is always possible to determine what has to be done if the precision can be increased arbitrarily. -/
theorem terminates (h : Closed dbg S) (hs : IsShift S shift) (hf : StrictMono f) {A₀ : Option (Approx T K')} (hA₀ : ZeroIsExact A₀)
    {F : Approx T ℝ} (hF : Decisive F) {A : ℕ → Approx T ℝ} (hA : Converging f A) {root : Quadratic T → ℕ → Ball ℝ}
    (hr : ConvergesToRoot f root) : ∃ N, ∀ fuel ≥ N, ∃ r, shiftPlan A₀ F A root dbg fuel S shift = some r := by
  unfold shiftPlan
  rcases collapsesLoop_spec (f := f) (shift := shift) hA₀ hf S.tri.halfEdges (fun e he => nonzero h he) with ⟨k, -⟩ | ⟨c, k, k1, k2⟩
  · rw [k]
    exact ⟨0, fun _ _ => ⟨_, rfl⟩⟩
  · rw [k]
    obtain ⟨N, hN⟩ := flipsLoop_stops (dbg := dbg) (c := c) S.tri.halfEdges
      fun e he => flips_stops h.shut hs hf hF hA hr k1 k2 (mem_halfEdges.1 he)
    refine ⟨N, fun fuel hfuel => ?_⟩
    obtain ⟨r, hr⟩ := Option.ne_none_iff_exists'.1 (hN fuel hfuel)
    dsimp only
    rw [hr]
    exact ⟨_, rfl⟩

/-! ### Examples -/

/-- Exact arithmetic. -/
noncomputable def exactReal : Approx ℤ ℝ where
  value := Int.castRingHom ℝ
  strictMono := Int.cast_strictMono
  arb t := Ball.exact (t : ℝ)
  arb_mem t := Ball.mem_exact.2 rfl
  add a b := ⟨a.mid + b.mid, a.rad + b.rad, add_nonneg a.rad_nonneg b.rad_nonneg⟩
  add_mem {x y a b} ha hb := by
    unfold Ball.Mem at *
    simp only
    rw [add_sub_add_comm]
    exact (abs_add_le _ _).trans (add_le_add ha hb)
  mul a b := ⟨a.mid * b.mid, a.rad * |b.mid| + |a.mid| * b.rad + a.rad * b.rad, by
    have := a.rad_nonneg
    have := b.rad_nonneg
    positivity⟩
  mul_mem {x y a b} ha hb := by
    unfold Ball.Mem at *
    simp only
    have h : x * y - a.mid * b.mid = (x - a.mid) * b.mid + a.mid * (y - b.mid) + (x - a.mid) * (y - b.mid) := by ring
    rw [h]
    have h1 := a.rad_nonneg
    refine (abs_add_le _ _).trans (add_le_add ((abs_add_le _ _).trans (add_le_add ?_ ?_)) ?_)
    · rw [abs_mul]; exact mul_le_mul_of_nonneg_right ha (abs_nonneg _)
    · rw [abs_mul]; exact mul_le_mul_of_nonneg_left hb (abs_nonneg _)
    · rw [abs_mul]; exact mul_le_mul ha hb (abs_nonneg _) h1

theorem encloses_iff {b : ℕ → Ball ℝ} {x : ℝ} : Converges b x ↔ (∀ n, (b n).Mem x) ∧ Filter.Tendsto (fun n => (b n).rad) Filter.atTop (nhds 0) := by
  unfold Converges
  rw [Metric.tendsto_atTop]
  simp only [Real.dist_eq, sub_zero, abs_of_nonneg (b _).rad_nonneg]

theorem tendsto_mid {b : ℕ → Ball ℝ} {x : ℝ} (h : Converges b x) : Filter.Tendsto (fun n => (b n).mid) Filter.atTop (nhds x) := by
  obtain ⟨h1, h2⟩ := encloses_iff.1 h
  rw [tendsto_iff_dist_tendsto_zero]
  refine squeeze_zero (fun _ => dist_nonneg) (fun n => ?_) h2
  rw [dist_comm, Real.dist_eq]
  exact h1 n

theorem exactReal_converging : Converging (Int.castRingHom ℝ) fun _ => exactReal where
  arb x := encloses_iff.2 ⟨fun n => exactReal.arb_mem x, tendsto_const_nhds⟩
  add {a b x y} ha hb := by
    refine encloses_iff.2 ⟨fun n => exactReal.add_mem (ha.1 n) (hb.1 n), ?_⟩
    have := (encloses_iff.1 ha).2.add (encloses_iff.1 hb).2
    rwa [add_zero] at this
  mul {a b x y} ha hb := by
    refine encloses_iff.2 ⟨fun n => exactReal.mul_mem (ha.1 n) (hb.1 n), ?_⟩
    have h1 := (encloses_iff.1 ha).2
    have h2 := (encloses_iff.1 hb).2
    have := ((h1.mul (tendsto_mid hb).abs).add ((tendsto_mid ha).abs.mul h2)).add (h1.mul h2)
    rw [zero_mul, mul_zero, zero_mul, add_zero, add_zero] at this
    exact this

theorem exactReal_decisive : Decisive exactReal := by
  intro a b c d x y z w ha hb hc hd _ hne
  have hE := exactReal_converging.add (exactReal_converging.mul ha hc) (exactReal_converging.mul hb hd)
  obtain ⟨N, hN⟩ := hE.2 (|x * z + y * w| / 2) (by positivity)
  refine ⟨N, ?_⟩
  have h1 := hE.1 N
  have h2 := hN N le_rfl
  dsimp only at h1 h2
  generalize exactReal.add (exactReal.mul (a N) (c N)) (exactReal.mul (b N) (d N)) = q at h1 h2
  generalize x * z + y * w = D at *
  unfold Ball.Mem at h1
  have h3 := abs_le.1 h1
  unfold Ball.gt Ball.exact
  dsimp only
  rcases lt_or_gt_of_ne hne with hD | hD
  · rw [abs_of_neg hD] at h2
    split_ifs with g1 g2
    · simp
    · simp
    · exact absurd (by linarith [h3.1, h3.2]) g2
  · rw [abs_of_pos hD] at h2
    rw [if_pos (by linarith [h3.1, h3.2])]
    simp

open Classical in
/-- The exact first root. -/
noncomputable def exactRoot (p : Quadratic ℤ) (_ : ℕ) : Ball ℝ :=
  if h : ∃ t : ℝ, 0 ≤ t ∧ (p.a : ℝ) * t ^ 2 + p.b * t + p.c = 0 ∧ ∀ s, 0 ≤ s → s < t → (p.a : ℝ) * s ^ 2 + p.b * s + p.c ≠ 0
  then Ball.exact h.choose else Ball.exact 0

theorem exactRoot_converges : ConvergesToRoot (Int.castRingHom ℝ) exactRoot := by
  intro p t h0 h1 h2 h3
  have h : ∃ t : ℝ, 0 ≤ t ∧ (p.a : ℝ) * t ^ 2 + p.b * t + p.c = 0 ∧ ∀ s, 0 ≤ s → s < t → (p.a : ℝ) * s ^ 2 + p.b * s + p.c ≠ 0 :=
    ⟨t, h0, h2, h3⟩
  have ht : h.choose = t := by
    obtain ⟨k1, k2, k3⟩ := h.choose_spec
    rcases lt_trichotomy h.choose t with hlt | heq | hgt
    · exact absurd k2 (h3 _ k1 hlt)
    · exact heq
    · exact absurd h2 (k3 t h0 hgt)
  refine encloses_iff.2 ⟨fun n => ?_, ?_⟩
  · unfold exactRoot
    rw [dif_pos h, ht]
    exact Ball.mem_exact.2 rfl
  · unfold exactRoot
    simp only [dif_pos h]
    exact tendsto_const_nhds

theorem exactRoot_encloses : EnclosesRoot (Int.castRingHom ℝ) exactRoot := fun p t h0 h1 h2 h3 => (exactRoot_converges p t h0 h1 h2 h3).1

theorem zero_exact : ZeroIsExact (none : Option (Approx ℤ ℚ)) := fun v => by
  show orientationExact v 0 = _
  rw [orientationExact_orthogonal]
  simp [dot]

/-- A shear. -/
def shear (e : HE) : Vec ℤ := ⟨(flatTorus.vec e).y, 0⟩

theorem shear_isShift : IsShift flatTorus shear := ⟨by decide +kernel, by decide +kernel⟩

theorem shear_positive : StaysPositive (Int.castRingHom ℝ) flatTorus shear := by
  intro e he t _ _
  have hc : ∀ e ∈ flatTorus.tri.halfEdges, cross (flatTorus.vec e) (flatTorus.vec (flatTorus.tri.nextInFace e)) = 1 := by decide +kernel
  have := congrArg (Int.castRingHom ℝ) (hc e he)
  have e1 : areaAt (Int.castRingHom ℝ) flatTorus shear t e =
      Int.castRingHom ℝ (cross (flatTorus.vec e) (flatTorus.vec (flatTorus.tri.nextInFace e))) := by
    unfold areaAt shiftedAt shear cross
    simp [Vec.map]
    ring
  rw [e1, this]
  simp

/-- A reflection. -/
def reflection (e : HE) : Vec ℤ := ⟨0, -2 * (flatTorus.vec e).y⟩

theorem reflection_early : VanishesEarly (Int.castRingHom ℝ) flatTorus reflection := by
  refine ⟨2, by decide +kernel, 1 / 2, by norm_num, by norm_num, ?_⟩
  have h1 : flatTorus.vec 2 = ⟨0, 1⟩ := by decide +kernel
  unfold shiftedAt reflection
  rw [h1]
  ext <;> simp [Vec.map]

/-- Half edges are moved such that a vertex ends up in the interior of the half edge opposite to it. -/
def squash (e : HE) : Vec ℤ := ⟨3 * (flatTorus.vec e).y, -2 * (flatTorus.vec e).y⟩

theorem squash_isShift : IsShift flatTorus squash := ⟨by decide +kernel, by decide +kernel⟩

theorem torus_closed : Closed true flatTorus := ⟨torus_reachable true, flatTorus_isFlat, by decide +kernel⟩

example (fuel : ℕ) : ∃ S', shiftPlan (none : Option (Approx ℤ ℚ)) exactReal (fun _ => exactReal) exactRoot true fuel flatTorus shear =
    some (.ok (.shifted S')) ∧ S'.vec 2 = ⟨1, 1⟩ := by
  obtain ⟨S', h1, -, -, h2⟩ := shifts torus_closed shear_isShift Int.cast_strictMono shear_positive zero_exact exactReal (fun _ => exactReal) exactRoot fuel
  refine ⟨S', h1, ?_⟩
  rw [h2]
  decide +kernel

example (fuel : ℕ) : shiftPlan (none : Option (Approx ℤ ℚ)) exactReal (fun _ => exactReal) exactRoot true fuel flatTorus reflection =
    some (.error .invalidArgument) := rejects torus_closed Int.cast_strictMono reflection_early zero_exact _ _ _ fuel

/-- The hypotheses of `terminates` and `outcome` are met and the outcome is that half edges need to be flipped. -/
example : ∃ fuel l, shiftPlan (none : Option (Approx ℤ ℚ)) exactReal (fun _ => exactReal) exactRoot true fuel flatTorus squash =
    some (.ok (.flips l)) ∧ 4 ∈ l := by
  obtain ⟨N, hN⟩ := terminates torus_closed squash_isShift Int.cast_strictMono zero_exact exactReal_decisive exactReal_converging
    exactRoot_converges
  obtain ⟨r, hr⟩ := hN N le_rfl
  have hvec : ∀ e ∈ flatTorus.tri.halfEdges, ∀ t, shiftedAt (Int.castRingHom ℝ) flatTorus squash t e ≠ 0 := by
    intro e he t hz
    have hx := congrArg Vec.x hz
    have hy := congrArg Vec.y hz
    have hv : ∀ e ∈ flatTorus.tri.halfEdges, flatTorus.vec e ∈ [(⟨1, 0⟩ : Vec ℤ), ⟨-1, 0⟩, ⟨0, 1⟩, ⟨0, -1⟩, ⟨1, 1⟩, ⟨-1, -1⟩] := by
      decide +kernel
    have := hv e he
    simp only [shiftedAt, squash, Vec.map, add_x, add_y, smul_x, smul_y, zero_x, zero_y] at hx hy
    simp only [List.mem_cons, List.not_mem_nil, or_false] at this
    rcases this with h | h | h | h | h | h <;> rw [h] at hx hy <;> simp at hx hy <;> linarith
  have harea : ∀ t, areaAt (Int.castRingHom ℝ) flatTorus squash t 4 = 1 - 2 * t := by
    intro t
    unfold areaAt shiftedAt squash
    rw [show flatTorus.tri.nextInFace 4 = 1 by decide +kernel, show flatTorus.vec 1 = ⟨-1, 0⟩ by decide +kernel,
      show flatTorus.vec 4 = ⟨1, 1⟩ by decide +kernel]
    simp [Vec.map, cross]
    ring
  rcases outcome (f := Int.castRingHom ℝ) torus_closed squash_isShift Int.cast_strictMono zero_exact (F := exactReal) rfl (A := fun _ => exactReal) (fun _ => rfl)
    exactRoot_encloses hr with ⟨-, e, he, t, -, -, h⟩ | ⟨S', -, h⟩ | ⟨l, rfl, -, -, h⟩ | ⟨l, -, hl, -, h, -⟩
  · exact absurd h (hvec e he t)
  · have := h 4 (by decide +kernel) 1 zero_le_one le_rfl
    rw [harea] at this
    norm_num at this
  · refine ⟨N, l, hr, (h 4).2 ⟨by decide +kernel, ⟨1 / 2, ⟨by norm_num, by norm_num, ?_, ?_⟩, 3 / 5, by norm_num, by norm_num, ?_⟩,
      hvec _ (by decide +kernel) _, hvec _ (by decide +kernel) _⟩⟩
    · rw [harea]
      norm_num
    · intro s _ hs
      rw [harea]
      intro hz
      linarith
    · rw [show flatTorus.tri.previousInFace 4 = 3 by decide +kernel]
      unfold shiftedAt squash
      rw [show flatTorus.vec 3 = ⟨0, -1⟩ by decide +kernel, show flatTorus.vec 4 = ⟨1, 1⟩ by decide +kernel]
      ext <;> simp [Vec.map] <;> norm_num
  · obtain ⟨e, he⟩ := List.exists_mem_of_ne_nil l hl
    have hz : ∀ e ∈ flatTorus.tri.halfEdges, flatTorus.vec e + squash e ≠ 0 := by decide +kernel
    exact absurd ((h e).1 he).2 (hz e ((h e).1 he).1)

end Verif.C123
