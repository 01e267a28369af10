import Verif.Lemmas.FlowExamples
import Verif.Spec.FlowComponent
import Mathlib.Tactic.IntervalCases

/-!
# Concrete decompositions
-/

namespace Verif.Examples

open Verif Vec Spec FlowTriangulation

/-- The torus with a single component. -/
def oneComponent : List (List Connection × List Connection) := [(torusBottom, torusTop)]

theorem oneComponent_decomposition : Decomposition flatTorus.vec ⟨1, 3⟩ oneComponent :=
  ⟨by simpa [oneComponent] using torus_perimeter, by decide, by decide, by decide⟩

/-- The two cylinders. -/
def twoCylinders : List (List Connection × List Connection) :=
  [(cylinderBottom, cylinderTop), ([⟨4, .bottom⟩, ⟨6, .parallel⟩], [⟨5, .top⟩, ⟨3, .antiparallel⟩])]

theorem cylinder_perimeter' : Perimeter cylindersVec ⟨0, 1⟩ [⟨4, .bottom⟩, ⟨6, .parallel⟩] [⟨5, .top⟩, ⟨3, .antiparallel⟩] :=
  ⟨cylindersVec_odd, by decide, by decide, by decide, monotonePolygon (by decide +kernel)⟩

theorem twoCylinders_decomposition : Decomposition cylindersVec ⟨0, 1⟩ twoCylinders := by
  refine ⟨?_, by decide, by decide, by decide⟩
  intro x hx
  rcases List.mem_cons.1 hx with rfl | hx
  · exact cylinder_perimeter
  · rcases List.mem_cons.1 hx with rfl | hx
    · exact cylinder_perimeter'
    · cases hx

/-- The connections of squares. -/
def squaresVec (c : HE) : Vec ℤ :=
  if c % 4 = 0 then ⟨1, 0⟩ else if c % 4 = 1 then ⟨-1, 0⟩ else if c % 4 = 2 then ⟨0, 1⟩ else ⟨0, -1⟩

theorem squaresVec_odd (c : HE) : squaresVec (neg c) = -squaresVec c := by
  unfold squaresVec
  rw [neg_def]
  have : c % 4 < 4 := Nat.mod_lt _ (by decide)
  interval_cases h : c % 4
  · rw [if_pos (by omega : c % 2 = 0), if_neg (by omega), if_pos (by omega), if_pos (by omega)]; rfl
  · rw [if_neg (by omega : ¬ c % 2 = 0), if_pos (by omega), if_neg (by omega), if_pos (by omega)]; rfl
  · rw [if_pos (by omega : c % 2 = 0), if_neg (by omega), if_neg (by omega), if_neg (by omega), if_neg (by omega), if_neg (by omega),
      if_pos (by omega)]; rfl
  · rw [if_neg (by omega : ¬ c % 2 = 0), if_neg (by omega), if_neg (by omega), if_pos (by omega), if_neg (by omega), if_neg (by omega),
      if_neg (by omega)]; rfl

/-- A square in a ring of 135 squares. -/
def ringSquare (k : ℕ) : List Connection × List Connection :=
  ([⟨4 * k, .bottom⟩, ⟨4 * k + 2, .parallel⟩], [⟨4 * k + 1, .top⟩, ⟨(4 * k + 539) % 540, .antiparallel⟩])

/-- A torus of height one and width 135 with marked points such that the vertical flow decomposes into 135 cylinders. -/
def ring : List (List Connection × List Connection) := (List.range 135).map ringSquare

theorem ringSquare_perimeter (k : ℕ) : Perimeter squaresVec ⟨0, 1⟩ (ringSquare k).1 (ringSquare k).2 := by
  have hm : (4 * k + 539) % 540 % 4 = 3 := by omega
  refine ⟨squaresVec_odd, ?_, ?_, ?_, ?_⟩
  · simp only [ringSquare, List.cons_append, List.nil_append, List.map_cons, List.map_nil, List.nodup_cons, List.mem_cons,
      List.not_mem_nil, or_false, not_or, List.nodup_nil, and_true, not_false_eq_true]
    omega
  · simp [ringSquare]
  · simp [ringSquare]
  · have e1 : ((ringSquare k).1.map fun c => squaresVec c.key) = [⟨1, 0⟩, ⟨0, 1⟩] := by
      simp only [ringSquare, List.map_cons, List.map_nil, squaresVec]
      rw [if_pos (by omega), if_neg (by omega), if_neg (by omega), if_pos (by omega)]
    have e2 : ((ringSquare k).2.reverse.map fun c => -squaresVec c.key) = [⟨0, 1⟩, ⟨1, 0⟩] := by
      simp only [ringSquare, List.reverse_cons, List.reverse_nil, List.nil_append, List.cons_append, List.map_cons, List.map_nil, squaresVec]
      rw [if_neg (by omega), if_neg (by omega), if_neg (by omega), if_neg (by omega), if_pos (by omega)]
      rfl
    rw [e1, e2]
    exact monotonePolygon (by decide +kernel)

theorem ring_decomposition : Decomposition squaresVec ⟨0, 1⟩ ring := by
  refine ⟨?_, by decide +kernel, by decide +kernel, by decide +kernel⟩
  intro x hx
  obtain ⟨k, -, rfl⟩ := List.mem_map.1 hx
  exact ringSquare_perimeter k

end Verif.Examples
