import Verif.Spec.Deformation

/-!
# Lemmas about the composition of deformations
-/

namespace Verif

open Spec

namespace Comp

variable {α β : Type}

/-- The computation does not terminate. -/
def diverge : Comp α := ExceptT.mk none

theorem trichotomy (u : Comp α) : u = diverge ∨ (∃ e, u = throw e) ∨ ∃ a, u = pure a := by
  match u with
  | none => exact .inl rfl
  | some (.error e) => exact .inr (.inl ⟨e, rfl⟩)
  | some (.ok a) => exact .inr (.inr ⟨a, rfl⟩)

@[simp] theorem diverge_bind (k : α → Comp β) : (diverge : Comp α) >>= k = diverge := rfl

@[simp] theorem throw_bind (e : Err) (k : α → Comp β) : (throw e : Comp α) >>= k = throw e := rfl

theorem pure_inj {a b : α} (h : (pure a : Comp α) = pure b) : a = b := by
  have : (some (Except.ok a) : Option (Except Err α)) = some (.ok b) := h
  injection this with h1
  injection h1

theorem diverge_ne {a : α} : (diverge : Comp α) ≠ pure a := fun h => by
  have : (none : Option (Except Err α)) = some (.ok a) := h
  cases this

theorem throw_ne {e : Err} {a : α} : (throw e : Comp α) ≠ pure a := fun h => by
  have : (some (.error e) : Option (Except Err α)) = some (.ok a) := h
  cases this

theorem bind_eq_pure {u : Comp α} {k : α → Comp β} {b : β} (h : u >>= k = pure b) : ∃ a, u = pure a ∧ k a = pure b := by
  rcases trichotomy u with rfl | ⟨e, rfl⟩ | ⟨a, rfl⟩
  · exact absurd h diverge_ne
  · exact absurd h throw_ne
  · exact ⟨a, rfl, by rwa [pure_bind] at h⟩

end Comp

section

variable {X : Type}

theorem andThen_some {f g : X → Comp (Option X)} {x y : X} (h : f x = pure (some y)) : andThen f g x = g y := by
  unfold andThen
  rw [h]
  rfl

theorem andThen_throw {f g : X → Comp (Option X)} {x : X} {e : Err} (h : f x = Comp.throw e) :
    andThen f g x = Comp.throw e := by
  unfold andThen
  rw [h]
  rfl

theorem andThen_congr {f f' g g' : X → Comp (Option X)} {x : X} (hf : f x = f' x)
    (hg : ∀ y, f x = pure (some y) → g y = g' y) : andThen f g x = andThen f' g' x := by
  unfold andThen
  rw [← hf]
  rcases Comp.trichotomy (f x) with h1 | ⟨e, h1⟩ | ⟨y, h1⟩
  · rw [h1]; rfl
  · rw [h1]; rfl
  · rw [h1, pure_bind, pure_bind]
    cases y with
    | none => rfl
    | some y => exact hg y h1

theorem andThen_pure (f : X → Comp (Option X)) (x : X) : andThen f (fun y => pure (some y)) x = f x := by
  unfold andThen
  rcases Comp.trichotomy (f x) with h1 | ⟨e, h1⟩ | ⟨y, h1⟩
  · rw [h1]; rfl
  · rw [h1]; rfl
  · rw [h1, pure_bind]
    cases y <;> rfl

theorem andThen_assoc (f g h : X → Comp (Option X)) (x : X) : andThen (andThen f g) h x = andThen f (andThen g h) x := by
  rcases Comp.trichotomy (f x) with h1 | ⟨e, h1⟩ | ⟨y, h1⟩
  · unfold andThen; rw [h1]; rfl
  · unfold andThen; rw [h1]; rfl
  · unfold andThen
    rw [h1]
    cases y <;> rfl

end

namespace Rel

variable {S X B : Type} {R : Relations S X B (Rel S B)}

theorem apply_composite (l r : Rel S B) (x : X) : (composite l r).apply R x = andThen (r.apply R) (l.apply R) x := by
  rfl

/-- The surfaces of the parts of a composite match. -/
def Valid (R : Relations S X B (Rel S B)) : Rel S B → Prop
  | identity _ => True
  | basic _ => True
  | composite l r => l.Valid R ∧ r.Valid R ∧ R.same (r.codomain R) (l.domain R) = true

theorem trivial_same (h : Lawful R) (r : Rel S B) (hr : r.Valid R) (ht : r.trivial R = pure true) :
    R.same (r.domain R) (r.codomain R) = true := by
  induction r with
  | identity s => exact h.refl s
  | basic b => exact h.trivial b ht
  | composite l r ihl ihr =>
    obtain ⟨vl, vr, hs⟩ := hr
    have both : l.trivial R = pure true → r.trivial R = pure true →
        R.same ((composite l r).domain R) ((composite l r).codomain R) = true := fun h1 h2 =>
      h.trans _ _ _ (ihr vr h2) (h.trans _ _ _ hs (ihl vl h1))
    unfold trivial at ht
    obtain ⟨t, h1, h2⟩ := Comp.bind_eq_pure ht
    cases t with
    | true => exact both h1 h2
    | false =>
      obtain ⟨t, h3, h4⟩ := Comp.bind_eq_pure h2
      cases t with
      | true => exact both h4 h3
      | false =>
        simp only [Bool.false_eq_true, if_false] at h4
        unfold trivialByEdges at h4
        split at h4
        · exact absurd (Comp.pure_inj h4) (by simp)
        · next hx => simpa using hx

/-- The image of a point is a point on the codomain. -/
theorem point_image (h : Lawful R) (r : Rel S B) (hr : r.Valid R) {x y : X} {s : S} (hx : R.surface x = some s)
    (hs : R.same s (r.domain R) = true) (hy : r.apply R x = pure (some y)) :
    ∃ t, R.surface y = some t ∧ R.same t (r.codomain R) = true := by
  induction r generalizing x y s with
  | identity u =>
    have := Comp.pure_inj hy
    cases this
    exact ⟨s, hx, hs⟩
  | basic b => exact h.point b x s y hx hy
  | composite l r ihl ihr =>
    obtain ⟨vl, vr, hs'⟩ := hr
    rw [apply_composite] at hy
    obtain ⟨z, h1, h2⟩ := Comp.bind_eq_pure hy
    cases z with
    | none => exact absurd (Comp.pure_inj h2) (by simp)
    | some z =>
      obtain ⟨t, t1, t2⟩ := ihr vr hx hs h1
      exact ihl vl t1 (h.trans _ _ _ t2 hs') h2

/-- The image of a path is a path. -/
theorem path_image (h : Lawful R) (r : Rel S B) {x y : X} (hx : R.surface x = none) (hy : r.apply R x = pure (some y)) :
    R.surface y = none := by
  induction r generalizing x y with
  | identity u =>
    have := Comp.pure_inj hy
    cases this
    exact hx
  | basic b => exact h.path b x y hx hy
  | composite l r ihl ihr =>
    rw [apply_composite] at hy
    obtain ⟨z, h1, h2⟩ := Comp.bind_eq_pure hy
    cases z with
    | none => exact absurd (Comp.pure_inj h2) (by simp)
    | some z => exact ihl (ihr hx h1) h2

end Rel

namespace Deformation

variable {S X B : Type} {R : Relations S X B (Rel S B)}

theorem trivial_eq {d d' : Deformation S B} {t : Bool} (h : trivial R d = pure (t, d')) :
    (t = true ∧ Rel.trivial R d = pure true ∧ d' = .identity (d.domain R)) ∨
      (t = false ∧ Rel.trivial R d = pure false ∧ d' = d) := by
  unfold trivial at h
  obtain ⟨b, h1, h2⟩ := Comp.bind_eq_pure h
  cases b with
  | true =>
    refine .inl ?_
    cases d with
    | identity s => cases Comp.pure_inj h2; exact ⟨rfl, h1, rfl⟩
    | basic b => cases Comp.pure_inj h2; exact ⟨rfl, h1, rfl⟩
    | composite l r => cases Comp.pure_inj h2; exact ⟨rfl, h1, rfl⟩
  | false => cases Comp.pure_inj h2; exact .inr ⟨rfl, h1, rfl⟩

/-- The three ways to compose. -/
theorem mul_eq {g f h g' f' : Deformation S B} (hm : mul R g f = pure (h, g', f')) :
    R.same (f.codomain R) (g.domain R) = true ∧
    ((Rel.trivial R g = pure true ∧ g' = .identity (g.domain R) ∧ f' = f ∧ h = f) ∨
     (Rel.trivial R f = pure true ∧ f' = .identity (f.domain R) ∧ g' = g ∧ h = g) ∨
     (Rel.trivial R g = pure false ∧ Rel.trivial R f = pure false ∧ g' = g ∧ f' = f ∧ h = .composite g f)) := by
  unfold mul at hm
  split at hm
  · exact absurd hm Comp.throw_ne
  · next hs =>
    refine ⟨by simpa using hs, ?_⟩
    obtain ⟨⟨t, l⟩, h1, h2⟩ := Comp.bind_eq_pure hm
    rcases trivial_eq h1 with ⟨rfl, h3, rfl⟩ | ⟨rfl, h3, rfl⟩
    · cases Comp.pure_inj h2
      exact .inl ⟨h3, rfl, rfl, rfl⟩
    · obtain ⟨⟨t, r⟩, h4, h5⟩ := Comp.bind_eq_pure h2
      rcases trivial_eq h4 with ⟨rfl, h6, rfl⟩ | ⟨rfl, h6, rfl⟩
      · cases Comp.pure_inj h5
        exact .inr (.inl ⟨h6, rfl, rfl, rfl⟩)
      · cases Comp.pure_inj h5
        exact .inr (.inr ⟨h3, h6, rfl, rfl, rfl⟩)

theorem Built.valid {d : Deformation S B} (h : Built R d) : Rel.Valid R d := by
  induction h with
  | identity s => exact True.intro
  | basic b => exact True.intro
  | mul _ _ hm hg hf =>
    obtain ⟨hs, ⟨-, -, -, rfl⟩ | ⟨-, -, -, rfl⟩ | ⟨-, -, -, -, rfl⟩⟩ := mul_eq hm
    · exact hf
    · exact hg
    · exact ⟨hg, hf, hs⟩
  | lhs _ _ hm hg hf =>
    obtain ⟨hs, ⟨-, rfl, -, -⟩ | ⟨-, -, rfl, -⟩ | ⟨-, -, rfl, -, -⟩⟩ := mul_eq hm
    · exact True.intro
    · exact hg
    · exact hg
  | rhs _ _ hm hg hf =>
    obtain ⟨hs, ⟨-, -, rfl, -⟩ | ⟨-, rfl, -, -⟩ | ⟨-, -, -, rfl, -⟩⟩ := mul_eq hm
    · exact hf
    · exact True.intro
    · exact hf
  | trivial _ ht hd =>
    rcases trivial_eq ht with ⟨-, -, rfl⟩ | ⟨-, -, rfl⟩
    · exact True.intro
    · exact hd

theorem apply_path (d : Deformation S B) {x : X} (hx : R.surface x = none) : apply R d x = Rel.apply R d x := by
  unfold apply
  rw [hx]

theorem apply_here (d : Deformation S B) {x : X} {s : S} (hx : R.surface x = some s) (hs : R.same s (d.domain R) = true) :
    apply R d x = Rel.apply R d x := by
  unfold apply
  simp only [hx]
  rw [if_pos hs]

theorem apply_elsewhere (d : Deformation S B) {x : X} {s : S} (hx : R.surface x = some s)
    (hs : ¬ R.same s (d.domain R) = true) : apply R d x = Comp.throw .invalidArgument := by
  unfold apply
  simp only [hx]
  rw [if_neg hs]

theorem identity_path (s : S) {x : X} (hx : R.surface x = none) : apply R (.identity s : Rel S B) x = pure (some x) :=
  apply_path _ hx

theorem identity_here {s t : S} {x : X} (hx : R.surface x = some t) (hs : R.same t s = true) :
    apply R (.identity s : Rel S B) x = pure (some x) := apply_here (.identity s) hx hs

theorem identity_elsewhere {s t : S} {x : X} (hx : R.surface x = some t) (hs : ¬ R.same t s = true) :
    apply R (.identity s : Rel S B) x = Comp.throw .invalidArgument := apply_elsewhere (.identity s) hx hs

end Deformation

end Verif
