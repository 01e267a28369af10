import Verif.Lemmas.ContourCross

/-!
# Loops along contours that have ended
-/

namespace Verif.Collapsed

variable {T : Type} [CommRing T] [LinearOrder T]
variable {K : Type*} [Field K] [LinearOrder K] [IsStrictOrderedRing K]

/-- When the first program ends, then so does the second one, with the same result. -/
def Extends {α : Type} (x y : Run α) : Prop := ∀ r, x.run = some r → y.run = some r

theorem Extends.refl {α : Type} (x : Run α) : Extends x x := fun _ h => h

theorem Extends.bind {α β : Type} {x y : Run α} {f g : α → Run β} (h : Extends x y) (hf : ∀ a, Extends (f a) (g a)) :
    Extends (x >>= f) (y >>= g) := by
  intro r hr
  rw [ExceptT.run_bind] at hr ⊢
  cases hx : x.run with
  | none => rw [hx] at hr; cases hr
  | some a =>
    rw [hx] at hr
    rw [h a hx]
    cases a with
    | error e => exact hr
    | ok a => exact hf a r hr

theorem Extends.ok {α : Type} {x y : Run α} (h : Extends x y) {a : α} (hx : x = pure a) : y = pure a := by
  subst hx
  exact h (.ok a) rfl

variable {A : Option (Approx T K)} {dbg : Bool} {C : Collapsed T} {d : Contour.Component} {m n : ℕ}

theorem turnLoop_mono {t : HE} {l : List (Vec T)} (hmn : m ≤ n) : ∀ {e : HE}, turnLoop C t m e = some l → turnLoop C t n e = some l := by
  induction m generalizing n l with
  | zero => intro e h; cases h
  | succ m ih =>
    intro e h
    obtain ⟨n, rfl⟩ : ∃ k, n = k + 1 := ⟨n - 1, by omega⟩
    unfold turnLoop at h ⊢
    split_ifs at h ⊢
    · exact h
    · obtain ⟨l', h1, h2⟩ := Option.map_eq_some_iff.1 h
      rw [ih (by omega) h1]
      exact congrArg some h2

theorem turn_mono (hmn : m ≤ n) (e t : HE) : Extends (ExceptT.mk (C.turn m e t) : Run _) (ExceptT.mk (C.turn n e t)) := by
  intro r hr
  change C.turn m e t = some r at hr
  change C.turn n e t = some r
  unfold turn at hr ⊢
  split at hr
  · split_ifs at hr ⊢
    · obtain ⟨l', h1, h2⟩ := Option.map_eq_some_iff.1 hr
      rw [turnLoop_mono hmn h1]
      exact congrArg some h2
    · exact hr
  · exact hr

theorem turnTo_mono (hmn : m ≤ n) (x y : Connection) : Extends (turnTo A dbg C m d x y) (turnTo A dbg C n d x y) := by
  unfold turnTo
  refine .bind (.refl _) fun _ => ?_
  cases x.top <;> cases y.top
  · exact turn_mono hmn _ _
  · exact .bind (.refl _) fun _ => .bind (turn_mono hmn _ _) fun _ => .refl _
  · exact .bind (.refl _) fun _ => .bind (turn_mono hmn _ _) fun _ => .refl _
  · exact .bind (turn_mono hmn _ _) fun _ => .refl _

theorem crossTo_mono (hmn : m ≤ n) (x y : Connection) : Extends (crossTo A dbg C m d x y) (crossTo A dbg C n d x y) :=
  .bind (turnTo_mono hmn x y) fun _ => .refl _

theorem left_mono (hmn : m ≤ n) (x : Connection) : Extends (left A dbg C m d x) (left A dbg C n d x) := by
  unfold left
  cases x.top
  · exact .bind (.refl _) fun _ => .bind (crossTo_mono hmn _ _) fun _ => .refl _
  · exact .bind (.refl _) fun _ => .bind (crossTo_mono hmn _ _) fun _ => .refl _

theorem right_mono (hmn : m ≤ n) (x : Connection) : Extends (right A dbg C m d x) (right A dbg C n d x) := by
  unfold right
  cases x.top
  · exact .bind (.refl _) fun _ => .bind (crossTo_mono hmn _ _) fun _ => .refl _
  · exact .bind (.refl _) fun _ => .bind (crossTo_mono hmn _ _) fun _ => .refl _

theorem connectionPerimeter_mono (hmn : m ≤ n) (x : Connection) :
    Extends (connectionPerimeter A dbg C m d x) (connectionPerimeter A dbg C n d x) := by
  unfold connectionPerimeter
  cases x.top
  · exact .bind (left_mono hmn x) fun _ => .bind (.refl _) fun _ => .bind (right_mono hmn x) fun _ => .refl _
  · exact .bind (right_mono hmn x) fun _ => .bind (.refl _) fun _ => .bind (left_mono hmn x) fun _ => .refl _

theorem concat_mono (hmn : m ≤ n) (l : List Connection) : Extends (concat A dbg C m d l) (concat A dbg C n d l) := by
  induction l with
  | nil => exact .refl _
  | cons x l ih => exact .bind (connectionPerimeter_mono hmn x) fun _ => .bind ih fun _ => .refl _

theorem perimeter_mono (hmn : m ≤ n) : Extends (perimeter A dbg C m d) (perimeter A dbg C n d) :=
  .bind (.refl _) fun l => concat_mono hmn l

end Verif.Collapsed
