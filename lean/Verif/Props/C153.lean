import Verif.Model.EquivalenceEqual
import Verif.Props.C37
import Verif.Props.C81

/-!
# C153: equivalences and equivalence classes can be compared
-/

namespace Verif.C153

open Verif Spec Tri FlatTri EquivalenceImpl Examples

variable {T : Type} [CommRing T] [LinearOrder T] [IsStrictOrderedRing T]

/-- Whether the surfaces are equivalent. -/
def Related (S S' : FlatTri T) : EquivalenceImpl T → Prop
  | .combinatorial oriented => ∃ σ, Relabelling oriented S.tri S'.tri σ
  | .linear oriented (.group g) => ∃ σ, LinearRelabelling g oriented S S' σ
  | .linear _ (.custom _) => False

/-- The equivalences for which the class of a surface is modelled: the areas of triangles must be invertible if the equivalence
normalizes them. -/
def Usable (S : FlatTri T) : EquivalenceImpl T → Prop
  | .combinatorial _ => True
  | .linear oriented (.group g) => (g ≠ .trivial → UnitAreas S) ∧ (g = .trivial → oriented = true)
  | .linear _ (.custom _) => False

omit [IsStrictOrderedRing T] in
/-- Equivalences are equal if and only if they are the same object or they have been created from the same parameters that do
not include a custom normalization. -/
theorem equal_iff (impl : ℕ → EquivalenceImpl T) (a b : ℕ) :
    equal impl a b = true ↔ a = b ∨ impl a = impl b ∧ ∀ oriented normalize, impl a ≠ .linear oriented (.custom normalize) := by
  unfold equal
  by_cases hab : a = b
  · subst hab
    simp only [true_or, iff_true]
    cases h : impl a <;> simp
  · cases ha : impl a with
    | combinatorial o =>
      cases hb : impl b <;> simp [hab]
    | linear o n =>
      cases hb : impl b with
      | combinatorial o' => simp [hab]
      | linear o' n' =>
        cases n <;> cases n' <;> by_cases ho : o = o' <;> simp [hab, ho]

omit [IsStrictOrderedRing T] in
/-- Equality of equivalences is an equivalence relation. -/
theorem equal_equivalence (impl : ℕ → EquivalenceImpl T) : Equivalence fun a b => equal impl a b = true := by
  simp only [equal_iff]
  refine ⟨fun a => .inl rfl, ?_, ?_⟩
  · rintro a b (rfl | ⟨h1, h2⟩)
    · exact .inl rfl
    · exact .inr ⟨h1.symm, h1 ▸ h2⟩
  · rintro a b c (rfl | ⟨h1, h2⟩) (rfl | ⟨h3, h4⟩)
    · exact .inl rfl
    · exact .inr ⟨h3, h4⟩
    · exact .inr ⟨h1, h2⟩
    · exact .inr ⟨h1.trans h3, h2⟩

omit [IsStrictOrderedRing T] in
theorem code_equal_iff {c c' : Code T} : c.equal c' = true ↔ c = c' := by
  cases c <;> cases c' <;> simp [Code.equal]

/-- The code of a class can be computed. -/
theorem code_exists {dbg : Bool} {S : FlatTri T} (h : Closed dbg S) (hc : ConnectedSurface S.tri) {quot : T → T → T}
    (hq : ExactQuot quot) {e : EquivalenceImpl T} (hu : Usable S e) : ∃ c N, ∀ fuel ≥ N, code dbg quot fuel S e = some (.ok c) := by
  match e, hu with
  | .combinatorial o, _ =>
    obtain ⟨c, N, hN⟩ := C37.automorphisms_correct h hc o
    exact ⟨.combinatorial c, N, fun fuel hf => by simp only [code]; rw [hN fuel hf]; rfl⟩
  | .linear o (.group g), hu =>
    obtain ⟨c, N, hN⟩ := C81.automorphisms_correct h hc hq hu.1 hu.2
    exact ⟨.linear c, N, fun fuel hf => by simp only [code]; rw [hN fuel hf]; rfl⟩

/-- For the same equivalence, codes agree if and only if surfaces are equivalent. -/
theorem codes_agree {dbg : Bool} {S S' : FlatTri T} (h : Closed dbg S) (hc : ConnectedSurface S.tri) (h' : Closed dbg S')
    (hc' : ConnectedSurface S'.tri) {quot : T → T → T} (hq : ExactQuot quot) {e : EquivalenceImpl T} (hu : Usable S e)
    (hu' : Usable S' e) : ∃ c c' N, (∀ fuel ≥ N, code dbg quot fuel S e = some (.ok c) ∧ code dbg quot fuel S' e = some (.ok c')) ∧
      (c = c' ↔ Related S S' e) := by
  match e, hu, hu' with
  | .combinatorial o, _, _ =>
    obtain ⟨c, c', N, hN, hi⟩ := C37.codes_agree_iff h hc h' hc' o
    refine ⟨.combinatorial c, .combinatorial c', N, fun fuel hf => ?_, by rw [Code.combinatorial.injEq, hi]; rfl⟩
    obtain ⟨m, m', h1, h2⟩ := hN fuel hf
    simp only [code]
    rw [h1, h2]
    exact ⟨rfl, rfl⟩
  | .linear o (.group g), hu, hu' =>
    obtain ⟨c, c', N, hN, hi⟩ := C81.codes_agree_iff h hc h' hc' hq hu.1 hu'.1 hu.2
    refine ⟨.linear c, .linear c', N, fun fuel hf => ?_, by rw [Code.linear.injEq, hi]; rfl⟩
    obtain ⟨m, m', h1, h2⟩ := hN fuel hf
    simp only [code]
    rw [h1, h2]
    exact ⟨rfl, rfl⟩

/-- Equivalence classes are equal if and only if they are for the same kind of equivalence and the surfaces are equivalent. -/
theorem classes_equal_iff {dbg : Bool} {S S' : FlatTri T} (h : Closed dbg S) (hc : ConnectedSurface S.tri) (h' : Closed dbg S')
    (hc' : ConnectedSurface S'.tri) {quot : T → T → T} (hq : ExactQuot quot) {impl : ℕ → EquivalenceImpl T} {a b : ℕ}
    (hu : Usable S (impl a)) (hu' : Usable S' (impl b)) :
    ∃ r N, (∀ fuel ≥ N, classesEqual dbg quot fuel impl a S b S' = some (.ok r)) ∧
      (r = true ↔ impl a = impl b ∧ Related S S' (impl a)) := by
  have nc : ∀ oriented normalize, impl a ≠ .linear oriented (.custom normalize) := by
    intro o n k
    rw [k] at hu
    exact hu
  by_cases hab : impl a = impl b
  · obtain ⟨c, c', N, hN, hi⟩ := codes_agree h hc h' hc' hq hu (hab ▸ hu')
    refine ⟨c.equal c' && equal impl a b, N, fun fuel hf => ?_, ?_⟩
    · unfold classesEqual
      rw [← hab, (hN fuel hf).1, (hN fuel hf).2]
    · rw [Bool.and_eq_true, code_equal_iff, equal_iff, hi]
      exact ⟨fun k => ⟨hab, k.1⟩, fun k => ⟨k.2, .inr ⟨hab, nc⟩⟩⟩
  · obtain ⟨c, N, hN⟩ := code_exists h hc hq hu
    obtain ⟨c', N', hN'⟩ := code_exists h' hc' hq hu'
    refine ⟨c.equal c' && equal impl a b, max N N', fun fuel hf => ?_, ?_⟩
    · unfold classesEqual
      rw [hN fuel (le_trans (le_max_left _ _) hf), hN' fuel (le_trans (le_max_right _ _) hf)]
    · rw [Bool.and_eq_true, equal_iff]
      refine ⟨fun k => ?_, fun k => absurd k.1 hab⟩
      rcases k.2 with rfl | k
      · exact absurd rfl hab
      · exact absurd k.1 hab

/-- Whether surfaces are isomorphic can be decided. -/
theorem isomorphic_iff {dbg : Bool} {S S' : FlatTri T} (h : Closed dbg S) (hc : ConnectedSurface S.tri) (h' : Closed dbg S')
    (hc' : ConnectedSurface S'.tri) {quot : T → T → T} (hq : ExactQuot quot) {impl : ℕ → EquivalenceImpl T} {a : ℕ}
    (hu : Usable S (impl a)) (hu' : Usable S' (impl a)) :
    ∃ r N, (∀ fuel ≥ N, isomorphic dbg quot fuel impl a S S' = some (.ok r)) ∧ (r = true ↔ Related S S' (impl a)) := by
  obtain ⟨r, N, h1, h2⟩ := classes_equal_iff h hc h' hc' hq hu hu'
  exact ⟨r, N, h1, by rw [h2]; exact ⟨fun k => k.2, fun k => ⟨rfl, k⟩⟩⟩

/-- What it means for surfaces to be isomorphic for the equivalences that can be created. -/
theorem isomorphic_kinds (S S' : FlatTri T) :
    (Related S S' unlabeled ↔ ∃ σ, LinearRelabelling .trivial true S S' σ) ∧
      (∀ oriented, Related S S' (areaPreserving oriented) ↔ ∃ σ, LinearRelabelling .sl oriented S S' σ) ∧
      (∀ oriented, Related S S' (ofLinear oriented none) ↔ ∃ σ, LinearRelabelling .gl oriented S S' σ) ∧
      ∀ oriented, Related S S' (.combinatorial oriented) ↔ ∃ σ, Relabelling oriented S.tri S'.tri σ :=
  ⟨Iff.rfl, fun _ => Iff.rfl, fun _ => Iff.rfl, fun _ => Iff.rfl⟩

omit [IsStrictOrderedRing T] in
/-- Equivalences from the same custom normalization are not equal unless they are the same object. -/
theorem custom_not_equal (normalize : FlatTri T → HE → HE → Mat T) (oriented : Bool) {impl : ℕ → EquivalenceImpl T} {a b : ℕ}
    (hab : a ≠ b) (ha : impl a = ofLinear oriented (some normalize)) : equal impl a b = false := by
  rw [Bool.eq_false_iff, Ne, equal_iff]
  rintro (k | ⟨-, k⟩)
  · exact hab k
  · exact k oriented normalize ha

/-- Five equivalences. -/
def samples : ℕ → EquivalenceImpl ℤ
  | 0 => .combinatorial true
  | 1 => unlabeled
  | 2 => areaPreserving true
  | 3 => ofLinear false none
  | _ => ofLinear true (some fun _ _ _ => ⟨1, 0, 0, 1⟩)

example : Usable flatTorus (samples 0) ∧ Usable flatTorus (samples 1) ∧ Usable flatTorus (samples 2) ∧ Usable flatTorus (samples 3) ∧
    ConnectedSurface flatTorus.tri :=
  ⟨trivial, ⟨fun h => absurd rfl h, fun _ => rfl⟩, ⟨fun _ => C81.flatTorus_unitAreas, fun h => (by cases h)⟩,
    ⟨fun _ => C81.flatTorus_unitAreas, fun h => (by cases h)⟩, C37.torus_connected⟩

example : equal samples 2 2 = true ∧ equal samples 2 3 = false ∧ equal samples 0 1 = false ∧ equal samples 4 4 = true ∧
    equal samples 4 5 = false := ⟨rfl, rfl, rfl, rfl, rfl⟩

/-- The class of the torus is not the class for another equivalence. -/
example : ∃ N, ∀ fuel ≥ N, classesEqual true (fun n d : ℤ => n / d) fuel samples 2 flatTorus 3 flatTorus = some (.ok false) := by
  have h : Closed true flatTorus := C30.flatTorus_closed
  obtain ⟨r, N, h1, h2⟩ := classes_equal_iff (impl := samples) (a := 2) (b := 3) h C37.torus_connected h C37.torus_connected
    (quot := fun n d : ℤ => n / d) (fun n d q hd h => by rw [← h]; exact Int.mul_ediv_cancel q hd) ⟨fun _ => C81.flatTorus_unitAreas, fun h => (by cases h)⟩ ⟨fun _ => C81.flatTorus_unitAreas, fun h => (by cases h)⟩
  have : r = false := by
    rw [Bool.eq_false_iff]
    intro k
    have := (h2.1 k).1
    cases this
  exact ⟨N, this ▸ h1⟩

end Verif.C153
