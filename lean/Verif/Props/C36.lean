import Verif.Lemmas.Deformation
import Verif.Props.C89

/-!
# C36: deformations compose
-/

namespace Verif.C36

open Verif Spec

variable {S X B : Type} {R : Relations S X B (Rel S B)}

/-- Composing deformations with mismatched surfaces is an error. -/
theorem mismatch {g f : Deformation S B} (h : R.same (f.codomain R) (g.domain R) = false) :
    Deformation.mul R g f = Comp.throw .invalidArgument := by
  unfold Deformation.mul
  rw [h]
  rfl

/-- Deformations that compose have matching surfaces. -/
theorem match_of_ok {g f h g' f' : Deformation S B} (hm : Deformation.mul R g f = pure (h, g', f')) :
    R.same (f.codomain R) (g.domain R) = true := (Deformation.mul_eq hm).1

/-- The composition of `g` and `f` maps an object as first `f` and then `g` does, as they are after composing them. -/
theorem compose_correct (hR : Lawful R) {g f h g' f' : Deformation S B} (hg : Built R g) (hf : Built R f)
    (hm : Deformation.mul R g f = pure (h, g', f')) (x : X) :
    Deformation.apply R h x = andThen (Deformation.apply R f') (Deformation.apply R g') x := by
  have vg := Deformation.Built.valid hg
  have vf := Deformation.Built.valid hf
  obtain ⟨hs, ⟨-, rfl, rfl, rfl⟩ | ⟨ht, rfl, rfl, rfl⟩ | ⟨-, -, rfl, rfl, rfl⟩⟩ := Deformation.mul_eq hm
  · rw [← andThen_pure (Deformation.apply R h) x]
    refine andThen_congr rfl fun y h1 => ?_
    cases hx : R.surface x with
    | none =>
      rw [Deformation.apply_path h hx] at h1
      exact (Deformation.identity_path _ (Rel.path_image hR h hx h1)).symm
    | some s =>
      by_cases hs' : R.same s (h.domain R) = true
      · rw [Deformation.apply_here h hx hs'] at h1
        obtain ⟨t, t1, t2⟩ := Rel.point_image hR h vf hx hs' h1
        exact (Deformation.identity_here t1 (hR.trans _ _ _ t2 hs)).symm
      · rw [Deformation.apply_elsewhere h hx hs'] at h1
        exact absurd h1 Comp.throw_ne
  · have hd : R.same (f.domain R) (h.domain R) = true := hR.trans _ _ _ (Rel.trivial_same hR f vf ht) hs
    cases hx : R.surface x with
    | none => exact (andThen_some (Deformation.identity_path _ hx)).symm
    | some s =>
      by_cases h1 : R.same s (f.domain R) = true
      · exact (andThen_some (Deformation.identity_here hx h1)).symm
      · rw [andThen_throw (Deformation.identity_elsewhere hx h1), Deformation.apply_elsewhere h hx]
        exact fun h2 => h1 (hR.trans _ _ _ h2 (hR.symm _ _ hd))
  · cases hx : R.surface x with
    | none =>
      rw [Deformation.apply_path _ hx, Rel.apply_composite]
      exact andThen_congr (Deformation.apply_path _ hx).symm fun y h1 =>
        (Deformation.apply_path _ (Rel.path_image hR f' hx h1)).symm
    | some s =>
      by_cases hs' : R.same s (f'.domain R) = true
      · rw [Deformation.apply_here (.composite g' f') hx hs', Rel.apply_composite]
        refine andThen_congr (Deformation.apply_here _ hx hs').symm fun y h1 => ?_
        obtain ⟨t, t1, t2⟩ := Rel.point_image hR f' vf hx hs' h1
        exact (Deformation.apply_here _ t1 (hR.trans _ _ _ t2 hs)).symm
      · rw [andThen_throw (Deformation.apply_elsewhere _ hx hs')]
        exact Deformation.apply_elsewhere (.composite g' f') hx hs'

/-- The composition of `g` and `f` is from the domain of `f` to the codomain of `g`. -/
theorem surfaces (hR : Lawful R) {g f h g' f' : Deformation S B} (hg : Built R g) (hf : Built R f)
    (hm : Deformation.mul R g f = pure (h, g', f')) :
    R.same (h.domain R) (f.domain R) = true ∧ R.same (h.codomain R) (g.codomain R) = true := by
  have vg := Deformation.Built.valid hg
  have vf := Deformation.Built.valid hf
  obtain ⟨hs, ⟨ht, rfl, rfl, rfl⟩ | ⟨ht, rfl, rfl, rfl⟩ | ⟨-, -, rfl, rfl, rfl⟩⟩ := Deformation.mul_eq hm
  · exact ⟨hR.refl _, hR.trans _ _ _ hs (Rel.trivial_same hR g vg ht)⟩
  · exact ⟨hR.symm _ _ (hR.trans _ _ _ (Rel.trivial_same hR f vf ht) hs), hR.refl _⟩
  · exact ⟨hR.refl _, hR.refl _⟩

/-- The identity is neutral on the left. -/
theorem identity_left {f : Deformation S B} {s : S} (h : R.same (f.codomain R) s = true) :
    Deformation.mul R (.identity s) f = pure (f, .identity s, f) := by
  unfold Deformation.mul
  rw [show Rel.domain R (.identity s) = s from rfl, h]
  rfl

/-- The identity is neutral on the right. -/
theorem identity_right (hR : Lawful R) {f h f' i : Deformation S B} {s : S} (hf : Built R f)
    (hm : Deformation.mul R f (.identity s) = pure (h, f', i)) (x : X) :
    Deformation.apply R h x = Deformation.apply R f' x := by
  obtain ⟨hs, ⟨ht, rfl, rfl, rfl⟩ | ⟨ht, rfl, rfl, rfl⟩ | ⟨-, ht, rfl, rfl, rfl⟩⟩ := Deformation.mul_eq hm
  · have hs' : R.same s (f.domain R) = true := hs
    cases hx : R.surface x with
    | none => rw [Deformation.apply_path _ hx, Deformation.apply_path _ hx]; rfl
    | some t =>
      by_cases h1 : R.same t s = true
      · rw [Deformation.identity_here hx h1, Deformation.identity_here hx (hR.trans _ _ _ h1 hs')]
      · rw [Deformation.identity_elsewhere hx h1, Deformation.identity_elsewhere hx]
        exact fun h2 => h1 (hR.trans _ _ _ h2 (hR.symm _ _ hs'))
  · rfl
  · exact absurd (Comp.pure_inj ht) (by simp)

/-- The section of a composition is the composition of the sections in reverse order. -/
theorem section_correct {g f h g' f' sg sf : Deformation S B} (hm : Deformation.mul R g f = pure (h, g', f'))
    (hg : Deformation.inverse R g' = pure sg) (hf : Deformation.inverse R f' = pure sf) :
    ∃ s, Deformation.inverse R h = pure s ∧ ∀ x, Rel.apply R s x = andThen (Rel.apply R sg) (Rel.apply R sf) x := by
  have id_left : ∀ (s : S) (u : Rel S B) x, Rel.apply R u x = andThen (Rel.apply R (.identity s)) (Rel.apply R u) x :=
    fun _ _ _ => rfl
  have id_right : ∀ (s : S) (u : Rel S B) x, Rel.apply R u x = andThen (Rel.apply R u) (Rel.apply R (.identity s)) x :=
    fun _ u x => (andThen_pure (Rel.apply R u) x).symm
  obtain ⟨-, ⟨-, rfl, rfl, rfl⟩ | ⟨-, rfl, rfl, rfl⟩ | ⟨-, -, rfl, rfl, rfl⟩⟩ := Deformation.mul_eq hm
  · cases Comp.pure_inj hg
    exact ⟨sf, hf, id_left _ _⟩
  · cases Comp.pure_inj hf
    exact ⟨sg, hg, id_right _ _⟩
  · refine ⟨.composite sf sg, ?_, fun _ => rfl⟩
    unfold Deformation.inverse at hg hf ⊢
    unfold Rel.inverse
    rw [hf, hg]
    rfl

/-! ### Deformations as they are before composing them -/

section

variable {E : X → X → Prop} {On : S → X → Prop}

theorem same_refl (u : Comp (Option X)) : SameOutcome E u u := .inl rfl

theorem same_symm (hE : Equivalence E) {u v : Comp (Option X)} (h : SameOutcome E u v) : SameOutcome E v u := by
  rcases h with h | ⟨x, y, h1, h2, h3⟩
  · exact .inl h.symm
  · exact .inr ⟨y, x, h2, h1, hE.symm h3⟩

theorem same_trans (hE : Equivalence E) {u v w : Comp (Option X)} (h : SameOutcome E u v) (h' : SameOutcome E v w) :
    SameOutcome E u w := by
  rcases h with h | ⟨x, y, h1, h2, h3⟩
  · rwa [h]
  · rcases h' with h' | ⟨y', z, h4, h5, h6⟩
    · exact .inr ⟨x, y, h1, h' ▸ h2, h3⟩
    · cases Comp.pure_inj (h2.symm.trans h4)
      exact .inr ⟨x, z, h1, h5, hE.trans h3 h6⟩

theorem same_andThen {f f' g g' : X → Comp (Option X)} {x x' : X} (hf : SameOutcome E (f x) (f' x'))
    (hg : ∀ y y', f x = pure (some y) → f' x' = pure (some y') → (y = y' ∨ E y y') → SameOutcome E (g y) (g' y')) :
    SameOutcome E (andThen f g x) (andThen f' g' x') := by
  rcases hf with hf | ⟨y, y', h1, h2, h3⟩
  · rcases Comp.trichotomy (f x) with h1 | ⟨e, h1⟩ | ⟨y, h1⟩
    · exact .inl (by unfold andThen; rw [← hf, h1]; rfl)
    · exact .inl (by unfold andThen; rw [← hf, h1]; rfl)
    · cases y with
      | none => exact .inl (by unfold andThen; rw [← hf, h1]; rfl)
      | some y =>
        rw [andThen_some h1, andThen_some (hf ▸ h1)]
        exact hg y y h1 (hf ▸ h1) (.inl rfl)
  · rw [andThen_some h1, andThen_some h2]
    exact hg y y' h1 h2 (.inr h3)

theorem rel_respects (h : Respectful R E On) (r : Rel S B) {x y : X} (hxy : E x y) :
    SameOutcome E (Rel.apply R r x) (Rel.apply R r y) := by
  induction r generalizing x y with
  | identity s => exact .inr ⟨x, y, rfl, rfl, hxy⟩
  | basic b => exact h.apply b x y hxy
  | composite l r ihl ihr =>
    rw [Rel.apply_composite, Rel.apply_composite]
    refine same_andThen (ihr hxy) fun z z' _ _ hz => ?_
    rcases hz with rfl | hz
    · exact same_refl _
    · exact ihl hz

theorem respects (h : Respectful R E On) (d : Deformation S B) {x y : X} (hxy : E x y) :
    SameOutcome E (Deformation.apply R d x) (Deformation.apply R d y) := by
  have hs := h.surface x y hxy (d.domain R)
  cases hx : R.surface x with
  | none =>
    cases hy : R.surface y with
    | none =>
      rw [Deformation.apply_path d hx, Deformation.apply_path d hy]
      exact rel_respects h d hxy
    | some t => rw [hx, hy] at hs; cases hs
  | some s =>
    cases hy : R.surface y with
    | none => rw [hx, hy] at hs; cases hs
    | some t =>
      rw [hx, hy] at hs
      have hs' : R.same s (d.domain R) = R.same t (d.domain R) := by simpa using hs
      by_cases h1 : R.same s (d.domain R) = true
      · rw [Deformation.apply_here d hx h1, Deformation.apply_here d hy (hs' ▸ h1)]
        exact rel_respects h d hxy
      · rw [Deformation.apply_elsewhere d hx h1, Deformation.apply_elsewhere d hy (hs' ▸ h1)]
        exact same_refl _

theorem rel_image (h : Respectful R E On) (r : Rel S B) (hr : r.Valid R) {x y : X} (hx : On (r.domain R) x)
    (hy : Rel.apply R r x = pure (some y)) : On (r.codomain R) y := by
  induction r generalizing x y with
  | identity s =>
    cases Comp.pure_inj hy
    exact hx
  | basic b => exact h.image b x y hx hy
  | composite l r ihl ihr =>
    obtain ⟨vl, vr, hs⟩ := hr
    rw [Rel.apply_composite] at hy
    obtain ⟨z, h1, h2⟩ := Comp.bind_eq_pure hy
    cases z with
    | none => exact absurd (Comp.pure_inj h2) (by simp)
    | some z => exact ihl vl (h.on _ _ _ hs (ihr vr hx h1)) h2

theorem image (h : Respectful R E On) (d : Deformation S B) (hr : Rel.Valid R d) {x y : X} (hx : On (d.domain R) x)
    (hy : Deformation.apply R d x = pure (some y)) : On (d.codomain R) y := by
  unfold Deformation.apply at hy
  split at hy
  · exact rel_image h d hr hx hy
  · split at hy
    · exact rel_image h d hr hx hy
    · exact absurd hy Comp.throw_ne

/-- The composition of `g` and `f` maps an object as first `f` and then `g` does, when deformations that claim to be trivial
map everything to itself. -/
theorem compose_honest (hR : Lawful R) (hE : Respectful R E On) {g f h g' f' : Deformation S B} (hg : Built R g)
    (hf : Built R f) (tg : Honest R E On g) (tf : Honest R E On f) (hm : Deformation.mul R g f = pure (h, g', f')) {x : X}
    (hx : On (f.domain R) x) :
    SameOutcome E (Deformation.apply R h x) (andThen (Deformation.apply R f) (Deformation.apply R g) x) := by
  have vf := Deformation.Built.valid hf
  have key := compose_correct hR hg hf hm x
  obtain ⟨hs, ⟨ht, rfl, rfl, rfl⟩ | ⟨ht, rfl, rfl, rfl⟩ | ⟨-, -, rfl, rfl, rfl⟩⟩ := Deformation.mul_eq hm
  · have := same_andThen (E := E) (f := Deformation.apply R h) (g := fun y => pure (some y)) (f' := Deformation.apply R h)
      (g' := Deformation.apply R g) (x := x) (x' := x) (same_refl _) fun y y' h1 h2 _ => by
        cases Comp.pure_inj (h1.symm.trans h2)
        exact same_symm hE.equiv (tg ht y (hE.on _ _ _ hs (image hE h vf hx h1)))
    rwa [andThen_pure] at this
  · rcases tf ht x hx with h1 | ⟨y, z, h1, h2, h3⟩
    · rw [andThen_some h1]
      exact same_refl _
    · cases Comp.pure_inj h2
      rw [andThen_some h1]
      exact same_symm hE.equiv (respects hE h h3)
  · exact .inl key

/-- The composition is associative. -/
theorem compose_assoc (hR : Lawful R) (hE : Respectful R E On) {h g f hg gf a b h1 g1 g2 f2 h3 x3 x4 f4 : Deformation S B}
    (bh : Built R h) (bg : Built R g) (bf : Built R f) (th : Honest R E On h) (tg : Honest R E On g) (tf : Honest R E On f)
    (thg : Honest R E On hg) (tgf : Honest R E On gf) (mhg : Deformation.mul R h g = pure (hg, h1, g1))
    (mgf : Deformation.mul R g f = pure (gf, g2, f2)) (ma : Deformation.mul R h gf = pure (a, h3, x3))
    (mb : Deformation.mul R hg f = pure (b, x4, f4)) {x : X} (hx : On (f.domain R) x) :
    SameOutcome E (Deformation.apply R a x) (Deformation.apply R b x) := by
  have vf := Deformation.Built.valid bf
  have sgf := (surfaces hR bg bf mgf).1
  have ka := compose_honest hR hE bh (.mul bg bf mgf) th tgf ma (hE.on _ _ _ (hR.symm _ _ sgf) hx)
  have kb := compose_honest hR hE (.mul bh bg mhg) bf thg tf mb hx
  have kgf := compose_honest hR hE bg bf tg tf mgf hx
  have k1 : SameOutcome E (andThen (Deformation.apply R gf) (Deformation.apply R h) x)
      (andThen (andThen (Deformation.apply R f) (Deformation.apply R g)) (Deformation.apply R h) x) := by
    refine same_andThen kgf fun y y' _ _ hy => ?_
    rcases hy with rfl | hy
    · exact same_refl _
    · exact respects hE h hy
  have k2 : SameOutcome E (andThen (Deformation.apply R f) (Deformation.apply R hg) x)
      (andThen (Deformation.apply R f) (andThen (Deformation.apply R g) (Deformation.apply R h)) x) := by
    refine same_andThen (same_refl _) fun y y' h1 h2 _ => ?_
    cases Comp.pure_inj (h1.symm.trans h2)
    exact compose_honest hR hE bh bg th tg mhg (hE.on _ _ _ (match_of_ok mgf) (image hE f vf hx h1))
  rw [andThen_assoc] at k1
  exact same_trans hE.equiv (same_trans hE.equiv ka k1) (same_symm hE.equiv (same_trans hE.equiv kb k2))

end

/-! ### Flips and linear maps -/

section

open FlatTri Examples Tri Vec

variable {T : Type} [CommRing T] [LinearOrder T] [IsStrictOrderedRing T]
variable {K : Type} [Field K] [LinearOrder K] [IsStrictOrderedRing K]
variable {Q : Type} [DecidableEq Q]

theorem beq_iff (ring : T → Q) {S U : FlatTri T} : S.beq ring U = true ↔ S.tri.vertices.domain = U.tri.vertices.domain ∧
    ∀ e ∈ S.tri.edges, (ring (S.vec e).x = ring (U.vec e).x ∧ ring (S.vec e).y = ring (U.vec e).y) ∧ S.vec e = U.vec e := by
  unfold FlatTri.beq Tri.beq Perm.beq
  simp only [Bool.and_eq_true, List.all_eq_true, decide_eq_true_eq, beq_iff_eq]
  refine and_congr Iff.rfl (forall_congr' fun e => forall_congr' fun _ => and_congr Iff.rfl ?_)
  rw [Vec.ext_iff]

theorem edges_of_domain {S U : FlatTri T} (h : S.tri.vertices.domain = U.tri.vertices.domain) : S.tri.edges = U.tri.edges := by
  have h1 := congrArg List.length h
  unfold Perm.domain at h1
  rw [List.length_map, List.length_map, List.length_range, List.length_range] at h1
  unfold Tri.edges Tri.size
  rw [h1]

/-- Flips and linear maps satisfy what is assumed about classes of deformations. -/
theorem flat_lawful (ring : T → Q) (div : T → T → Option T) (A : Option (Approx T K)) (dbg : Bool) (fuel : ℕ) :
    Lawful (flatRelations ring div A dbg fuel) where
  refl S := (beq_iff ring).2 ⟨rfl, fun e _ => ⟨⟨rfl, rfl⟩, rfl⟩⟩
  symm S U h := by
    obtain ⟨h1, h2⟩ := (beq_iff ring).1 h
    refine (beq_iff ring).2 ⟨h1.symm, fun e he => ?_⟩
    obtain ⟨⟨h3, h4⟩, h5⟩ := h2 e (by rwa [edges_of_domain h1])
    exact ⟨⟨h3.symm, h4.symm⟩, h5.symm⟩
  trans S U V h h' := by
    obtain ⟨h1, h2⟩ := (beq_iff ring).1 h
    obtain ⟨g1, g2⟩ := (beq_iff ring).1 h'
    refine (beq_iff ring).2 ⟨h1.trans g1, fun e he => ?_⟩
    obtain ⟨⟨h3, h4⟩, h5⟩ := h2 e he
    obtain ⟨⟨g3, g4⟩, g5⟩ := g2 e (by rwa [← edges_of_domain h1])
    exact ⟨⟨h3.trans g3, h4.trans g4⟩, h5.trans g5⟩
  path b x y hx hy := by
    cases x with
    | inr x => cases hx
    | inl path =>
      cases b with
      | flip S S' e =>
        have hy' : (flipPath A dbg fuel S S' e path).map (fun p => p.map fun p => some (Sum.inl p)) =
          some (Except.ok (some y)) := hy
        cases hp : flipPath A dbg fuel S S' e path with
        | none => rw [hp] at hy'; cases hy'
        | some p =>
          rw [hp] at hy'
          cases p with
          | error e => cases hy'
          | ok p => cases hy'; rfl
      | linear S S' a b c d =>
        have hy' : (linearConns A dbg fuel S S' a b c d path).map (fun p => p.map fun p => some (Sum.inl p)) =
          some (Except.ok (some y)) := hy
        cases hp : linearConns A dbg fuel S S' a b c d path with
        | none => rw [hp] at hy'; cases hy'
        | some p =>
          rw [hp] at hy'
          cases p with
          | error e => cases hy'
          | ok p => cases hy'; rfl
  point b x s y hx hy := by
    cases x with
    | inl x => cases hx
    | inr x =>
      have hself : ∀ S : FlatTri T, S.beq ring S = true := fun S => (beq_iff ring).2 ⟨rfl, fun e _ => ⟨⟨rfl, rfl⟩, rfl⟩⟩
      cases b with
      | flip S S' e =>
        have hy' : some ((S.flipPoint dbg S' e x.2).map fun p => some (Sum.inr (S', p))) = some (Except.ok (some y)) := hy
        cases hp : S.flipPoint dbg S' e x.2 with
        | error e => rw [hp] at hy'; cases hy'
        | ok p => rw [hp] at hy'; cases hy'; exact ⟨S', rfl, hself S'⟩
      | linear S S' a b c d =>
        have hy' : some ((linearPoint dbg S S' x.2).map fun p => some (Sum.inr (S', p))) = some (Except.ok (some y)) := hy
        cases hp : linearPoint dbg S S' x.2 with
        | error e => rw [hp] at hy'; cases hy'
        | ok p => rw [hp] at hy'; cases hy'; exact ⟨S', rfl, hself S'⟩
  trivial b hb := by
    cases b with
    | flip S S' e => exact absurd (Comp.pure_inj hb) (by simp)
    | linear S S' a b c d =>
      have := Comp.pure_inj hb
      unfold linearTrivial at this
      split at this
      · exact this
      · cases this

theorem flat_respectful (ring : T → Q) (div : T → T → Option T) (A : Option (Approx T K)) (dbg : Bool) (fuel : ℕ) :
    Respectful (flatRelations ring div A dbg fuel) Eq (fun _ _ => True) where
  equiv := eq_equivalence
  apply b x y h := by rw [h]; exact same_refl _
  surface x y h d := by rw [h]
  image _ _ _ _ _ := True.intro
  on _ _ _ _ _ := True.intro

theorem flip_honest (ring : T → Q) (div : T → T → Option T) (A : Option (Approx T K)) (dbg : Bool) (fuel : ℕ) (S S' : FlatTri T)
    (e : HE) : Honest (flatRelations ring div A dbg fuel) Eq (fun _ _ => True) (.basic (.flip S S' e)) :=
  fun h => absurd (Comp.pure_inj h) (by simp)

theorem connsEq_refl (path : List (Conn T)) : connsEq path path = true := by
  induction path with
  | nil => rfl
  | cons s p ih => simp [connsEq, ih]

theorem edge_conn {S : FlatTri T} (h : S.Shut) {e : HE} (he : e ∈ S.tri.edges) : IsConn S (Conn.ofHalfEdge S e) := by
  unfold Tri.edges at he
  obtain ⟨i, hi, rfl⟩ := List.mem_map.1 he
  rw [List.mem_range] at hi
  have hl : 2 * i < S.tri.size := by omega
  have hv : (Conn.ofHalfEdge S (2 * i)).vector = S.vec (2 * i) := by
    show S.chainVector (Chain.bump (fun _ => 0) (2 * i)) = S.vec (2 * i)
    rw [chainVector_bump h.flat.coh.even h.flat.odd _ hl, chainVector_zero, zero_add]
  have key : ∀ x < S.tri.size, LeavesCorner S x (S.vec x) := by
    intro x hx
    refine ⟨hx, le_of_eq (by unfold cross; ring), ?_⟩
    have := (h.flat.corner (h.nb x hx)).2
    unfold Tri.nextAtVertex
    have h2 : cross (S.vec (S.tri.vertices.fwd x)) (S.vec x) = -cross (S.vec x) (S.vec (S.tri.vertices.fwd x)) := by
      unfold cross; ring
    rw [h2]
    linarith
  refine ⟨?_, ?_⟩
  · rw [hv]; exact key _ hl
  · rw [hv, ← h.flat.odd _ hl]
    exact key _ (h.neg_lt hl)

/-- A flip followed by its section is recognized to be trivial. -/
theorem flip_section (ring : T → Q) (div : T → T → Option T) (A : Option (Approx T K)) {dbg : Bool} {fuel : ℕ} (hf : 3 ≤ fuel)
    {S S' : FlatTri T} (h : Closed dbg S) {e : HE} (hflip : S.flip A dbg e = (S', .ok ())) :
    ∃ s h : Deformation (FlatTri T) (FlatRel T),
      Deformation.inverse (flatRelations ring div A dbg fuel) (.basic (.flip S S' e)) = pure s ∧
      Deformation.mul (flatRelations ring div A dbg fuel) s (.basic (.flip S S' e)) =
        pure (h, s, .basic (.flip S S' e)) ∧
      Deformation.trivial (flatRelations ring div A dbg fuel) h = pure (true, .identity S) := by
  have hR := flat_lawful ring div A dbg fuel
  refine ⟨.basic (.flip S' S e), .composite (.basic (.flip S' S e)) (.basic (.flip S S' e)), rfl, ?_, ?_⟩
  · unfold Deformation.mul
    have : (flatRelations ring div A dbg fuel).same (Rel.codomain (flatRelations ring div A dbg fuel) (.basic (.flip S S' e)))
      (Rel.domain (flatRelations ring div A dbg fuel) (.basic (.flip S' S e))) = true := hR.refl S'
    rw [this]
    rfl
  · have key : Rel.trivial (flatRelations ring div A dbg fuel)
        (.composite (.basic (.flip S' S e)) (.basic (.flip S S' e))) = pure true := by
      have hedges : ∀ l : List HE, (∀ x ∈ l, x ∈ S.tri.edges) → Rel.fixes (flatRelations ring div A dbg fuel)
          (.composite (.basic (.flip S' S e)) (.basic (.flip S S' e))) S S l = pure true := by
        intro l hl
        induction l with
        | nil => rfl
        | cons x l ih =>
          have hc := edge_conn h.shut (hl x (by simp))
          obtain ⟨p, p1, p2⟩ := C89.section_inverts A h hflip (path := [Conn.ofHalfEdge S x])
            (by intro s hs; rw [List.mem_singleton] at hs; rw [hs]; exact hc) (by simp [Spec.Connected])
          unfold Rel.fixes
          have happ : Rel.apply (flatRelations ring div A dbg fuel)
              (.composite (.basic (.flip S' S e)) (.basic (.flip S S' e)))
              ((flatRelations ring div A dbg fuel).edge S x) = pure (some ((flatRelations ring div A dbg fuel).edge S x)) := by
            rw [Rel.apply_composite, andThen_some (y := Sum.inl p)]
            · show ExceptT.mk ((flipPath A dbg fuel S' S e p).map fun p => p.map fun p => some (Sum.inl p)) = _
              rw [p2 fuel hf]
              rfl
            · show ExceptT.mk ((flipPath A dbg fuel S S' e [Conn.ofHalfEdge S x]).map fun p => p.map fun p => some (Sum.inl p)) = _
              rw [p1 fuel hf]
              rfl
          rw [happ, pure_bind]
          have hsame : (flatRelations ring div A dbg fuel).samePath ((flatRelations ring div A dbg fuel).edge S x)
              ((flatRelations ring div A dbg fuel).edge S x) = true := connsEq_refl [Conn.ofHalfEdge S x]
          simp only [hsame, if_true]
          exact ih fun y hy => hl y (by simp [hy])
      have := hedges S.tri.edges fun _ hx => hx
      unfold Rel.trivial
      show Rel.trivialByEdges (flatRelations ring div A dbg fuel) (.composite (.basic (.flip S' S e)) (.basic (.flip S S' e))) = _
      unfold Rel.trivialByEdges
      have hs : (flatRelations ring div A dbg fuel).same (Rel.domain (flatRelations ring div A dbg fuel)
        (.composite (.basic (.flip S' S e)) (.basic (.flip S S' e)))) (Rel.codomain (flatRelations ring div A dbg fuel)
        (.composite (.basic (.flip S' S e)) (.basic (.flip S S' e)))) = true := hR.refl S
      rw [hs]
      exact this
    unfold Deformation.trivial
    rw [key]
    rfl

/-- A flip and its section are deformations that can be composed. -/
example : ∃ h, Deformation.mul (flatRelations (fun _ : ℤ => ()) (fun _ _ => none) (none : Option (Approx ℤ ℚ)) true 3)
      (.basic (.flip C33.flippedTorus flatTorus 4)) (.basic (.flip flatTorus C33.flippedTorus 4)) =
    pure (h, .basic (.flip C33.flippedTorus flatTorus 4), .basic (.flip flatTorus C33.flippedTorus 4)) := by
  obtain ⟨s, h, h1, h2, -⟩ := flip_section (fun _ : ℤ => ()) (fun _ _ => none) (none : Option (Approx ℤ ℚ)) (le_refl 3)
    C30.flatTorus_closed C33.flippedTorus_flip
  cases Comp.pure_inj h1
  exact ⟨h, h2⟩

end

end Verif.C36
