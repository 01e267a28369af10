import Verif.Lemmas.Chain
import Mathlib.Tactic.IntervalCases
import Mathlib.Tactic.Positivity

/-!
# C23: The vector of a chain is the sum of its half edges

And C64: it is still the sum of its half edges after `*=`. This is not the case.
-/

namespace Verif.C23

open Chain Vec

variable {T : Type*} [CommRing T] [LinearOrder T] [IsStrictOrderedRing T]
variable {K : Type*} [Field K] [LinearOrder K] [IsStrictOrderedRing K]

/-- After any history of operations (other than `*=`) on any number of chains, with any cost estimates, the vector of each
chain is the sum of the vectors of its edges and the approximate vector encloses it. Here, `l` are the elements of the
free abelian group that result from the same history of operations. -/
theorem vector_correct (κ : Cost) {S : ChainSurface T K} (hS : Valid S) {ops : List Op} (hops : ∀ op ∈ ops, op.NotMul)
    {l : List (ℕ → ℤ)} (hl : specRun S.size ops [] = some l) :
    ∃ h, run κ S ops Heap.init = .ok h ∧ h.n = l.length ∧ ∀ i c, l[i]? = some c →
      (toVector S (h.get i)).vector.value = some (vectorOf S c) ∧
      ∃ w, (toApproximate S (h.get i)).approximateVector.value = some w ∧ Encloses S.A w (vectorOf S c) := by
  have hr : Rep (Heap.init : Heap T K) [] := ⟨rfl, fun i c h => by simp at h⟩
  have := run_rep κ S ops hr
  rw [hl] at this
  obtain ⟨h, h1, h2⟩ := this
  refine ⟨h, h1, h2.1, fun i c hc => ?_⟩
  have hi : i < h.n := by rw [h2.1]; exact (List.getElem?_eq_some_iff.1 hc).1
  have hsync := run_sync κ hS hops (h := Heap.init) (fun k hk => absurd hk (Nat.not_lt_zero k)) h1 i hi
  rw [← h2.2 i c hc]
  refine ⟨(toVector_spec S hsync).2.2.1, ?_⟩
  obtain ⟨_, _, w, h3, h4, _⟩ := toApproximate_spec S hsync
  exact ⟨w, h3, h4⟩

/-- The comparisons of a chain with a bound compare the length of the vector of the chain. -/
theorem bound_correct (κ : Cost) {S : ChainSurface T K} (hS : Valid S) (A : Option (Approx T K)) {ops : List Op}
    (hops : ∀ op ∈ ops, op.NotMul) {l : List (ℕ → ℤ)} (hl : specRun S.size ops [] = some l) :
    ∃ h, run κ S ops Heap.init = .ok h ∧ ∀ i c, l[i]? = some c → ∀ b : Bound,
      ltBound S A (h.get i) b = some (decide (dot (vectorOf S c) (vectorOf S c) < (b.square : T))) ∧
      gtBound S A (h.get i) b = some (decide ((b.square : T) < dot (vectorOf S c) (vectorOf S c))) := by
  have hr : Rep (Heap.init : Heap T K) [] := ⟨rfl, fun i c h => by simp at h⟩
  have := run_rep κ S ops hr
  rw [hl] at this
  obtain ⟨h, h1, h2⟩ := this
  refine ⟨h, h1, fun i c hc b => ?_⟩
  have hi : i < h.n := by rw [h2.1]; exact (List.getElem?_eq_some_iff.1 hc).1
  have hsync := run_sync κ hS hops (h := Heap.init) (fun k hk => absurd hk (Nat.not_lt_zero k)) h1 i hi
  rw [← h2.2 i c hc]
  obtain ⟨h3, h4, w, h5, h6, _⟩ := toApproximate_spec S hsync
  have h7 := (toVector_spec S h4).2.2.1
  rw [h3] at h7
  constructor
  · unfold Chain.ltBound
    simp only [h5, h7]
    cases hb : w.ltBoundArb S.A b with
    | none => simp only [ltBound_eq]
    | some r => simp only [ltBoundArb_sound S.A h6 hb]
  · unfold Chain.gtBound
    simp only [h5, h7]
    cases hb : w.gtBoundArb S.A b with
    | none => simp only [gtBound_eq]
    | some r => simp only [gtBoundArb_sound S.A h6 hb]

/-- Exact arithmetic as an example of interval arithmetic. -/
def exactly : Approx ℤ ℚ where
  value := Int.castRingHom ℚ
  strictMono := Int.cast_strictMono
  arb t := Ball.exact (t : ℚ)
  arb_mem t := Ball.mem_exact.2 rfl
  add a b := ⟨a.mid + b.mid, a.rad + b.rad, add_nonneg a.rad_nonneg b.rad_nonneg⟩
  add_mem {x y a b} ha hb := by
    unfold Ball.Mem at *
    simp only
    rw [add_sub_add_comm]
    exact (abs_add_le _ _).trans (add_le_add ha hb)
  mul a b := ⟨a.mid * b.mid, a.rad * |b.mid| + |a.mid| * b.rad + a.rad * b.rad, by
    have := a.rad_nonneg
    have := b.rad_nonneg
    positivity⟩
  mul_mem {x y a b} ha hb := by
    unfold Ball.Mem at *
    simp only
    have h : x * y - a.mid * b.mid = (x - a.mid) * b.mid + a.mid * (y - b.mid) + (x - a.mid) * (y - b.mid) := by ring
    rw [h]
    have h1 := a.rad_nonneg
    refine (abs_add_le _ _).trans (add_le_add ((abs_add_le _ _).trans (add_le_add ?_ ?_)) ?_)
    · rw [abs_mul]; exact mul_le_mul_of_nonneg_right ha (abs_nonneg _)
    · rw [abs_mul]; exact mul_le_mul_of_nonneg_left hb (abs_nonneg _)
    · rw [abs_mul]; exact mul_le_mul ha hb (abs_nonneg _) h1

/-- The torus with edges (1, 0), (0, 1), (-1, -1). -/
def torus : ChainSurface ℤ ℚ where
  A := exactly
  size := 3
  vec := fun e => ![⟨1, 0⟩, ⟨-1, 0⟩, ⟨0, 1⟩, ⟨0, -1⟩, ⟨-1, -1⟩, ⟨1, 1⟩] (Fin.ofNat 6 e)
  approx := fun e => ![⟨.exact 1, .exact 0⟩, ⟨.exact (-1), .exact 0⟩, ⟨.exact 0, .exact 1⟩, ⟨.exact 0, .exact (-1)⟩,
    ⟨.exact (-1), .exact (-1)⟩, ⟨.exact 1, .exact 1⟩] (Fin.ofNat 6 e)

theorem torus_valid : Valid torus where
  neg e he := by
    have : e < 6 := he
    interval_cases e <;> decide
  approx e he := by
    have : e < 6 := he
    interval_cases e <;> (constructor <;> simp [torus, exactly, Ball.mem_exact, Fin.ofNat])

/-- The costs for integers, chain_vector.cc:38-84. -/
def costs : Cost := ⟨16, 2, 2, 2, 2⟩

/-- A history which meets the hypotheses: (e₀ + e₂ + e₅) doubled, negated and copied. -/
example : ∃ h, run costs torus [.halfEdge 0, .toVector 0, .addHalfEdge 0 2, .toApproximate 0, .subHalfEdge 0 4,
      .add 0 0, .neg 0, .copy 1] Heap.init = .ok h ∧
    (toVector torus (h.get 2)).vector.value = some ⟨-4, -4⟩ := by
  obtain ⟨h, h1, _, h2⟩ := vector_correct costs torus_valid (ops := [.halfEdge 0, .toVector 0, .addHalfEdge 0 2,
    .toApproximate 0, .subHalfEdge 0 4, .add 0 0, .neg 0, .copy 1]) (by simp [Op.NotMul]) rfl
  refine ⟨h, h1, (h2 2 _ rfl).1.trans ?_⟩
  decide

end Verif.C23

namespace Verif.C64

open Chain Vec

variable {T : Type*} [CommRing T] [LinearOrder T] [IsStrictOrderedRing T]
variable {K : Type*} [Field K] [LinearOrder K] [IsStrictOrderedRing K]

/-- The full claim: after `*=` the vector of a chain is the multiple of the vector.

This is false, see `not_mul_correct`. -/
def MulCorrect (κ : Cost) (S : ChainSurface T K) : Prop :=
  ∀ (ops : List Op) (l : List (ℕ → ℤ)), specRun S.size ops [] = some l →
    ∃ h, run κ S ops Heap.init = .ok h ∧ ∀ i c, l[i]? = some c →
      (toVector S (h.get i)).vector.value = some (vectorOf S c)

/-- The vector of a half edge multiplied by two is the vector of the half edge. -/
theorem not_mul_correct : ¬ MulCorrect C23.costs C23.torus := by
  intro h
  obtain ⟨h, h1, h2⟩ := h [.halfEdge 0, .mul 0 2] _ rfl
  have := h2 0 _ rfl
  have hh : h = (((Heap.init : Heap ℤ ℚ).push ⟨bump (fun _ => 0) 0, .of (C23.torus.vec 0), .of (C23.torus.approx 0)⟩).set 0
      ⟨fun k => bump (fun _ => 0) 0 k * 2, .of (C23.torus.vec 0), .of (C23.torus.approx 0)⟩) := by
    have h1 := h1.symm
    simp only [run, step] at h1
    exact Except.ok.inj h1
  rw [hh] at this
  revert this
  decide

/-- Multiplication is correct if the chain has not been converted to a vector (or to an approximate vector) yet. Missing
is the case that one of the caches has a value. -/
theorem mul_correct_partial (κ : Cost) {S : ChainSurface T K} (hS : Valid S) {ops : List Op}
    (hops : ∀ op ∈ ops, op.NotMul) {h : Heap T K} (hh : run κ S ops Heap.init = .ok h) {i : ℕ} (hi : i < h.n)
    (h1 : (h.get i).vector.value = none) (h2 : (h.get i).approximateVector.value = none) (a : ℤ) :
    ∃ g, step κ S h (.mul i a) = .ok g ∧ (toVector S (g.get i)).vector.value =
      some ((a : T) • vectorOf S (h.get i).coefficients) := by
  have hs := run_sync κ hS hops (h := Heap.init) (fun k hk => absurd hk (Nat.not_lt_zero k)) hh i hi
  have p1 := hs.1.1 h1
  have p2 := hs.2.1 h2
  refine ⟨h.set i { h.get i with coefficients := fun k => (h.get i).coefficients k * a }, if_pos hi, ?_⟩
  have hget : (h.set i { h.get i with coefficients := fun k => (h.get i).coefficients k * a }).get i =
      { h.get i with coefficients := fun k => (h.get i).coefficients k * a } := by simp [Heap.set]
  rw [hget]
  unfold toVector
  simp only [h1, exact_eq, ← vectorOf_mul, mul_comm]

example : ∃ h : Heap ℤ ℚ, run C23.costs C23.torus [.zero, .addHalfEdge 0 2, .addHalfEdge 0 0] Heap.init = .ok h ∧
    (h.get 0).vector.value = none ∧ (h.get 0).approximateVector.value = none ∧ (h.get 0).coefficients 1 = 1 :=
  ⟨_, rfl, by decide, by decide, by decide⟩

end Verif.C64
