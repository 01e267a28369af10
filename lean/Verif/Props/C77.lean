import Verif.Props.C50

/-!
# C77: equal surfaces have equal hashes
-/

namespace Verif.C77

open Verif Spec Tri FlatTri Examples

/-- Combinatorial surfaces which compare equal have the same hash. -/
theorem hash_correct {dbg : Bool} {T U : Tri} (hT : T.Reachable dbg) (hU : U.Reachable dbg) (h : T.beq U = true) :
    T.hash = U.hash := by
  unfold Tri.hash
  rw [(C50.vertices_eq hT hU).1 h]

/-- Flat surfaces which compare equal have the same hash (when equal vectors have the same hash). -/
theorem hash_flat_correct {dbg : Bool} {V R : Type} [CommRing V] [LinearOrder V] [DecidableEq R] (ring : V → R)
    (hash : Vec V → ℕ) {S U : FlatTri V} (hS : S.tri.Reachable dbg) (hU : U.tri.Reachable dbg) (h : S.beq ring U = true) :
    S.hash hash = U.hash hash := by
  unfold FlatTri.beq at h
  simp only [Bool.and_eq_true, List.all_eq_true, decide_eq_true_eq] at h
  have hv := (C50.vertices_eq hS hU).1 h.1
  unfold FlatTri.hash
  have he : U.tri.edges = S.tri.edges := by
    unfold Tri.edges Tri.size
    rw [hv]
  rw [he, hv]
  have key : ∀ (g : ℕ → ℕ → ℕ) (l : List HE), (∀ e ∈ l, S.vec e = U.vec e) → ∀ r,
      l.foldl (fun r e => g r (hash (S.vec e))) r = l.foldl (fun r e => g r (hash (U.vec e))) r := by
    intro g l
    induction l with
    | nil => exact fun _ _ => rfl
    | cons e l ih =>
      intro hl r
      simp only [List.foldl_cons]
      rw [hl e (by simp)]
      exact ih (fun x hx => hl x (by simp [hx])) _
  exact key hashCombine _ (fun e he => Vec.ext (h.2 e he).2.1 (h.2 e he).2.2) _

/-! ### Concrete cases -/

/-- Two surfaces which have been created separately. -/
example : ∃ C T U, Tri.ofIds true C50.torus3Ids [] = .ok C ∧ C.clone true = .ok T ∧
    Tri.ofIds true C50.torus3Ids [1, 5, -7] = .ok U ∧ T.beq U = true ∧ T.hash = U.hash ∧ T.hash ≠ torus.hash :=
  ⟨_, _, _, rfl, rfl, rfl, by decide +kernel, by decide +kernel, by decide +kernel⟩

end Verif.C77
