import Verif.Model.Contour
import Verif.Lemmas.VerticalComponents

/-!
# Contours do not depend on the number of steps that are allowed
-/

set_option linter.unusedSectionVars false

namespace Verif.Contour

open Vertical

variable {T : Type} [CommRing T] [LinearOrder T] [IsStrictOrderedRing T]
variable {K : Type*} [Field K] [LinearOrder K] [IsStrictOrderedRing K]
variable {S : FlatTri T} {A : Option (Approx T K)} {dbg : Bool} {v : Vec T} {m n : ℕ}

theorem classifyFace_mono (hmn : n ≤ m) {e : HE} {r : Except Err Triangle} (h : classifyFace S dbg v n e = some r) :
    classifyFace S dbg v m e = some r := by
  induction n generalizing m e with
  | zero => cases h
  | succ n ih =>
    obtain ⟨m, rfl⟩ : ∃ k, m = k + 1 := ⟨m - 1, by omega⟩
    unfold classifyFace at h ⊢
    dsimp only at h ⊢
    split_ifs at h ⊢ <;> first | exact h | exact ih (by omega) h

theorem makeContour_mono (hmn : n ≤ m) {e : HE} {r : Except Err (List HE)} (h : makeContour S A dbg v n e = some r) :
    makeContour S A dbg v m e = some r := by
  induction n generalizing m e r with
  | zero => cases h
  | succ n ih =>
    obtain ⟨m, rfl⟩ : ∃ k, m = k + 1 := ⟨m - 1, by omega⟩
    unfold makeContour at h ⊢
    split_ifs at h ⊢
    · exact h
    · exact h
    · cases hc : classifyFace S dbg v (n + 1) e with
      | none => rw [hc] at h; cases h
      | some x =>
        rw [hc] at h
        rw [classifyFace_mono hmn hc]
        match x, h with
        | .error _, h => exact h
        | .ok .forward, h => exact h
        | .ok .collapsedToTwoFaces, h => exact h
        | .ok .leftVertical, h => exact h
        | .ok .rightVertical, h => exact h
        | .ok .backward, h =>
          dsimp only at h ⊢
          cases h1 : makeContour S A dbg v n (neg (S.tri.previousInFace e)) with
          | none => rw [h1] at h; cases h
          | some x =>
            rw [h1] at h
            rw [ih (by omega) h1]
            cases x with
            | error _ => exact h
            | ok x =>
              dsimp only at h ⊢
              cases h2 : makeContour S A dbg v n (neg (S.tri.nextInFace e)) with
              | none => rw [h2] at h; cases h
              | some y =>
                rw [h2] at h
                rw [ih (by omega) h2]
                exact h

theorem iet_mono (hmn : n ≤ m) {e : HE} {r : Except Err (List HE × List HE)} (h : iet S A dbg v n e = some r) :
    iet S A dbg v m e = some r := by
  unfold iet at h ⊢
  split_ifs at h ⊢
  · exact h
  · cases h1 : makeContour S A dbg v n e with
    | none => rw [h1] at h; cases h
    | some x =>
      rw [h1] at h
      rw [makeContour_mono hmn h1]
      cases x with
      | error _ => exact h
      | ok x =>
        dsimp only at h ⊢
        cases h2 : makeContour S A dbg (-v) n (neg e) with
        | none => rw [h2] at h; cases h
        | some y =>
          rw [h2] at h
          rw [makeContour_mono hmn h2]
          exact h

theorem makeComponent_mono (hmn : n ≤ m) {c : List HE} {r : Except Err Component} (h : makeComponent S A dbg v n c = some r) :
    makeComponent S A dbg v m c = some r := by
  unfold makeComponent at h ⊢
  cases hf : c.find? (large S v) with
  | none => rw [hf] at h; exact h
  | some l =>
    rw [hf] at h
    dsimp only at h ⊢
    generalize (if Vec.ccw A v (S.vec l) = .counterclockwise then neg l else l) = l at h ⊢
    split_ifs at h ⊢
    · exact h
    · cases h1 : makeContour S A dbg v n l with
      | none => rw [h1] at h; cases h
      | some x =>
        rw [h1] at h
        rw [makeContour_mono hmn h1]
        cases x with
        | error _ => exact h
        | ok x =>
          dsimp only at h ⊢
          cases h2 : makeContour S A dbg (-v) n (neg l) with
          | none => rw [h2] at h; cases h
          | some y =>
            rw [h2] at h
            rw [makeContour_mono hmn h2]
            exact h

theorem makeComponents_mono (hmn : n ≤ m) {cs : List (List HE)} {r : Except Err (List Component)}
    (h : makeComponents S A dbg v n cs = some r) : makeComponents S A dbg v m cs = some r := by
  induction cs generalizing r with
  | nil => exact h
  | cons c cs ih =>
    unfold makeComponents at h ⊢
    cases h1 : makeComponent S A dbg v n c with
    | none => rw [h1] at h; cases h
    | some x =>
      rw [h1] at h
      rw [makeComponent_mono hmn h1]
      cases x with
      | error _ => exact h
      | ok x =>
        dsimp only at h ⊢
        cases h2 : makeComponents S A dbg v n cs with
        | none => rw [h2] at h; cases h
        | some y =>
          rw [h2] at h
          rw [ih h2]
          exact h

theorem decompose_mono (hmn : n ≤ m) {r : Except Err (List Component)} (h : decompose S A dbg v n = some r) :
    decompose S A dbg v m = some r := by
  unfold decompose at h ⊢
  cases h1 : components S A v n with
  | none => rw [h1] at h; cases h
  | some x =>
    rw [h1] at h
    rw [show components S A v m = some x from loop_mono hmn h1]
    exact makeComponents_mono hmn h

end Verif.Contour
