import Verif.Spec.Chain
import Verif.Lemmas.Bound
import Verif.Lemmas.HalfEdge
import Mathlib.Algebra.BigOperators.Ring.Finset
import Mathlib.Algebra.BigOperators.Intervals

/-!
# Chains: the caches are in sync with the coefficients
-/

set_option linter.unusedSectionVars false

namespace Verif

namespace Cache

variable {V : Type*} {add sub : V → V → V} {P Q : V → Prop}

/-- When a cache has a value then `P` holds for the value after applying the pending moves. -/
def Holds (add sub : V → V → V) (P : V → Prop) (c : Cache V) : Prop :=
  (c.value = none → c.pending = []) ∧ ∀ v, (c.flush add sub).value = some v → P v

theorem holds_empty : (empty : Cache V).Holds add sub P := ⟨fun _ => rfl, fun v h => by simp [empty, flush] at h⟩

theorem holds_of {v : V} (h : P v) : (of v).Holds add sub P :=
  ⟨fun h => by simp [of] at h, fun w h' => by simp [of, flush] at h'; rwa [← h']⟩

theorem flush_flush (c : Cache V) : (c.flush add sub).flush add sub = c.flush add sub := by
  rcases c with ⟨_ | v, p, k⟩ <;> simp [flush]

theorem Holds.flush {c : Cache V} (h : c.Holds add sub P) : (c.flush add sub).Holds add sub P := by
  refine ⟨fun h' => ?_, fun v hv => h.2 v (by rwa [flush_flush] at hv)⟩
  rcases c with ⟨_ | v, p, k⟩
  · exact h.1 rfl
  · simp [Cache.flush] at h'

theorem Holds.value {c : Cache V} (h : c.Holds add sub P) {v : V} (hv : c.value = some v) :
    ∃ w, (c.flush add sub).value = some w ∧ P w ∧ (c.flush add sub).pending = [] := by
  rcases c with ⟨_ | v, p, k⟩
  · simp at hv
  · exact ⟨_, rfl, h.2 _ rfl, rfl⟩

theorem Holds.push {c : Cache V} (h : c.Holds add sub P) {v : V} (hv : c.value = some v) (m : Move) (w : V) (k : ℕ)
    (hQ : ∀ v, P v → Q (match m with | .add => add v w | .sub => sub v w)) :
    ({ c with pending := c.pending ++ [(m, w)], cost := k } : Cache V).Holds add sub Q := by
  rcases c with ⟨_ | u, p, l⟩
  · simp at hv
  · refine ⟨fun h => by simp at h, fun x hx => ?_⟩
    have := h.2 _ rfl
    simp only [Cache.flush, List.foldl_append, List.foldl_cons, List.foldl_nil, Option.some.injEq] at hx this
    rw [← hx]
    exact hQ _ this

theorem Holds.reset {c : Cache V} (h : c.Holds add sub P) (hp : c.pending = []) {v : V} (hv : c.value = some v) :
    P v := by
  rcases c with ⟨_ | u, p, l⟩
  · simp at hv
  · cases hv
    simp only at hp
    subst hp
    exact h.2 _ rfl

end Cache

theorem Ball.neg_mem {K : Type*} [Field K] [LinearOrder K] [IsStrictOrderedRing K] {b : Ball K} {x : K} (h : b.Mem x) :
    b.neg.Mem (-x) := by
  unfold Ball.Mem at *
  simp only [Ball.neg]
  rwa [neg_sub_neg, abs_sub_comm]

namespace Chain

open Vec

variable {T : Type*} [CommRing T] [LinearOrder T] [IsStrictOrderedRing T]
variable {K : Type*} [Field K] [LinearOrder K] [IsStrictOrderedRing K]

theorem encloses_add (A : Approx T K) {a b : Vec (Ball K)} {v w : Vec T} (ha : Encloses A a v) (hb : Encloses A b w) :
    Encloses A (addArb A a b) (v + w) := by
  refine ⟨?_, ?_⟩
  · rw [add_x, map_add]; exact A.add_mem ha.1 hb.1
  · rw [add_y, map_add]; exact A.add_mem ha.2 hb.2

theorem encloses_sub (A : Approx T K) {a b : Vec (Ball K)} {v w : Vec T} (ha : Encloses A a v) (hb : Encloses A b w) :
    Encloses A (subArb A a b) (v - w) := by
  rw [sub_eq_add_neg]
  refine encloses_add A ha ⟨?_, ?_⟩
  · rw [neg_x, map_neg]; exact Ball.neg_mem hb.1
  · rw [neg_y, map_neg]; exact Ball.neg_mem hb.2

/-- The exact cache represents a vector. -/
def VecOk (c : ChainObj T K) (v : Vec T) : Prop := c.vector.Holds (· + ·) (· - ·) (· = v)

/-- The approximate cache represents a vector. -/
def ApproxOk (S : ChainSurface T K) (c : ChainObj T K) (v : Vec T) : Prop :=
  c.approximateVector.Holds (addArb S.A) (subArb S.A) (Encloses S.A · v)

/-- The caches are in sync with the coefficients. -/
def Sync (S : ChainSurface T K) (c : ChainObj T K) : Prop :=
  VecOk c (vectorOf S c.coefficients) ∧ ApproxOk S c (vectorOf S c.coefficients)

theorem exact_eq (S : ChainSurface T K) (c : ℕ → ℤ) : exact S c = vectorOf S c := by
  have : ∀ n, (List.range n).foldl (fun v i => if c i ≠ 0 then v + ((c i : ℤ) : T) • S.vec (2 * i) else v) 0 =
      (⟨∑ i ∈ Finset.range n, (c i : T) * (S.vec (2 * i)).x, ∑ i ∈ Finset.range n, (c i : T) * (S.vec (2 * i)).y⟩ : Vec T) := by
    intro n
    induction n with
    | zero => rfl
    | succ n ih =>
      rw [List.range_succ, List.foldl_append, ih, Finset.sum_range_succ, Finset.sum_range_succ]
      simp only [List.foldl_cons, List.foldl_nil]
      split_ifs with h
      · ext <;> simp
      · rw [not_not] at h
        simp [h]
  exact this _

theorem vectorOf_add (S : ChainSurface T K) (c d : ℕ → ℤ) :
    vectorOf S (fun k => c k + d k) = vectorOf S c + vectorOf S d := by
  ext <;> simp [vectorOf, add_mul, Finset.sum_add_distrib]

theorem vectorOf_neg (S : ChainSurface T K) (c : ℕ → ℤ) :
    vectorOf S (fun k => - c k) = - vectorOf S c := by
  ext <;> simp [vectorOf]

theorem vectorOf_sub (S : ChainSurface T K) (c d : ℕ → ℤ) :
    vectorOf S (fun k => c k - d k) = vectorOf S c - vectorOf S d := by
  simp only [sub_eq_add_neg]
  rw [vectorOf_add S c (fun k => - d k), vectorOf_neg]

theorem vectorOf_zero (S : ChainSurface T K) : vectorOf S (fun _ => 0) = 0 := by
  ext <;> simp [vectorOf]

theorem vectorOf_mul (S : ChainSurface T K) (a : ℤ) (c : ℕ → ℤ) :
    vectorOf S (fun k => a * c k) = (a : T) • vectorOf S c := by
  ext <;> simp [vectorOf, Finset.mul_sum, mul_assoc]

theorem vectorOf_single {S : ChainSurface T K} (hS : Valid S) {e : ℕ} (he : e < 2 * S.size) :
    vectorOf S (single e) = S.vec e := by
  have hm : e / 2 ∈ Finset.range S.size := by rw [Finset.mem_range]; omega
  have key : ∀ f : ℕ → T, ∑ i ∈ Finset.range S.size, ((single e i : ℤ) : T) * f i =
      (if e % 2 = 0 then 1 else -1) * f (e / 2) := by
    intro f
    rw [Finset.sum_eq_single_of_mem _ hm]
    · simp only [single, if_true]
      split_ifs <;> simp
    · intro b _ hb
      simp [single, hb]
  unfold vectorOf
  rw [key fun i => (S.vec (2 * i)).x, key fun i => (S.vec (2 * i)).y]
  split_ifs with h
  · have : 2 * (e / 2) = e := by omega
    rw [this]; simp
  · have : S.vec e = - S.vec (2 * (e / 2)) := by
      rw [← hS.neg _ (by omega)]
      congr 1
      rw [neg_def]
      split_ifs <;> omega
    rw [this]
    ext <;> simp

theorem toVector_spec (S : ChainSurface T K) {c : ChainObj T K} (h : Sync S c) :
    (toVector S c).coefficients = c.coefficients ∧ Sync S (toVector S c) ∧
      (toVector S c).vector.value = some (vectorOf S c.coefficients) ∧ (toVector S c).vector.pending = [] := by
  unfold toVector
  split
  · rename_i v hv
    obtain ⟨w, h1, rfl, h3⟩ := h.1.value hv
    exact ⟨rfl, ⟨h.1.flush, h.2⟩, h1, h3⟩
  · rename_i hv
    have hp := h.1.1 hv
    refine ⟨rfl, ⟨⟨fun h => by simp at h, fun w hw => ?_⟩, ?_⟩, ?_, hp⟩
    · simp only [Cache.flush, hp, List.foldl_nil, Option.some.injEq] at hw
      rw [← hw, exact_eq]
    · refine Cache.holds_of ?_
      rw [exact_eq]
      exact encloses_arb S.A _
    · rw [exact_eq]

theorem toApproximate_spec (S : ChainSurface T K) {c : ChainObj T K} (h : Sync S c) :
    (toApproximate S c).coefficients = c.coefficients ∧ Sync S (toApproximate S c) ∧
      ∃ w, (toApproximate S c).approximateVector.value = some w ∧ Encloses S.A w (vectorOf S c.coefficients) ∧
      (toApproximate S c).approximateVector.pending = [] := by
  unfold toApproximate
  split
  · rename_i v hv
    obtain ⟨w, h1, h2, h3⟩ := h.2.value hv
    exact ⟨rfl, ⟨h.1, h.2.flush⟩, w, h1, h2, h3⟩
  · rename_i hv
    obtain ⟨h1, h2, h3, h4⟩ := toVector_spec S h
    have : (toVector S c).approximateVector.pending = [] ∧
        ∀ w, (toVector S c).approximateVector.value = some w → Encloses S.A w (vectorOf S c.coefficients) := by
      have hp : (toVector S c).approximateVector.pending = [] := by
        unfold toVector
        split
        · exact h.2.1 hv
        · rfl
      refine ⟨hp, fun w hw => ?_⟩
      have := Cache.Holds.reset h2.2 hp hw
      rwa [h1] at this
    generalize toVector S c = d at *
    simp only
    split
    · rename_i v ha hv'
      rw [h3] at hv'
      cases hv'
      refine ⟨h1, ⟨h2.1, ⟨fun h => by simp at h, fun w hw => ?_⟩⟩, _, rfl, encloses_arb S.A _, this.1⟩
      simp only [Cache.flush, this.1, List.foldl_nil, Option.some.injEq] at hw
      rw [← hw, h1]
      exact encloses_arb S.A _
    · rename_i hcase
      cases ha : d.approximateVector.value with
      | none => exact absurd h3 (hcase _ ha)
      | some w => exact ⟨h1, h2, w, rfl, this.2 w ha, this.1⟩

/-- The vector of a move. -/
def moved (m : Move) (v w : Vec T) : Vec T := match m with | .add => v + w | .sub => v - w

theorem vectorRecord_spec (κ : Cost) (S : ChainSurface T K) (m : Move) (i j : ℕ) (h : Heap T K) {a b : Vec T}
    (hi : VecOk (h.get i) a) (hj : VecOk (h.get j) b) :
    (vectorRecord κ S m i j h).n = h.n ∧
    VecOk ((vectorRecord κ S m i j h).get i) (moved m a b) ∧
    (∀ k ≠ i, ∀ v, VecOk (h.get k) v → VecOk ((vectorRecord κ S m i j h).get k) v) ∧
    ∀ k, ((vectorRecord κ S m i j h).get k).coefficients = (h.get k).coefficients ∧
      ((vectorRecord κ S m i j h).get k).approximateVector = (h.get k).approximateVector := by
  have hinv : ∀ g : Heap T K, g = h.set i { h.get i with vector := .empty } → g.n = h.n ∧
      VecOk (g.get i) (moved m a b) ∧ (∀ k ≠ i, ∀ v, VecOk (h.get k) v → VecOk (g.get k) v) ∧
      ∀ k, (g.get k).coefficients = (h.get k).coefficients ∧
        (g.get k).approximateVector = (h.get k).approximateVector := by
    rintro _ rfl
    refine ⟨rfl, ?_, fun k hk v hv => ?_, fun k => ?_⟩
    · simp only [Heap.set, Function.update_self]
      exact Cache.holds_empty
    · simpa [Heap.set, Function.update_of_ne hk] using hv
    · by_cases hk : k = i
      · subst hk; simp [Heap.set]
      · simp [Heap.set, Function.update_of_ne hk]
  unfold vectorRecord
  split
  · rename_i hv
    refine ⟨rfl, ⟨hi.1, fun v hv' => ?_⟩, fun _ _ _ h => h, fun _ => ⟨rfl, rfl⟩⟩
    simp [Cache.flush, hv] at hv'
  · rename_i u hu
    split
    · exact hinv _ rfl
    · rename_i v hv
      split_ifs with hc
      · exact hinv _ rfl
      · have hjt : toVector S (h.get j) = { h.get j with vector := (h.get j).vector.flush (· + ·) (· - ·) } := by
          unfold toVector
          rw [hv]
        obtain ⟨w, h1, rfl, h3⟩ := hj.value hv
        have hget : ((h.set j (toVector S (h.get j))).get j).vector.value = some w := by
          simp only [Heap.set, Function.update_self, hjt]
          exact h1
        simp only [hget]
        have hi' : VecOk ((h.set j (toVector S (h.get j))).get i) a ∧
            ∃ u, ((h.set j (toVector S (h.get j))).get i).vector.value = some u := by
          by_cases hij : i = j
          · subst hij
            simp only [Heap.set, Function.update_self, hjt]
            exact ⟨hi.flush, _, h1⟩
          · simp only [Heap.set, Function.update_of_ne hij]
            exact ⟨hi, _, hu⟩
        have hother : ∀ k, (((h.set j (toVector S (h.get j))).get k).coefficients = (h.get k).coefficients ∧
            ((h.set j (toVector S (h.get j))).get k).approximateVector = (h.get k).approximateVector) ∧
            ∀ v, VecOk (h.get k) v → VecOk ((h.set j (toVector S (h.get j))).get k) v := by
          intro k
          by_cases hkj : k = j
          · subst hkj
            simp only [Heap.set, Function.update_self, hjt]
            exact ⟨by simp, fun v hv => hv.flush⟩
          · simp only [Heap.set, Function.update_of_ne hkj]
            exact ⟨by simp, fun v hv => hv⟩
        have hn : (h.set j (toVector S (h.get j))).n = h.n := rfl
        generalize h.set j (toVector S (h.get j)) = g at *
        obtain ⟨hi1, u', hu'⟩ := hi'
        refine ⟨hn, ?_, fun k hk v hv => ?_, fun k => ?_⟩
        · simp only [Heap.set, Function.update_self]
          refine Cache.Holds.push hi1 hu' m w _ ?_
          rintro v rfl
          cases m <;> rfl
        · simp only [Heap.set, Function.update_of_ne hk]
          exact (hother k).2 v hv
        · by_cases hk : k = i
          · subst hk
            simp only [Heap.set, Function.update_self]
            exact (hother k).1
          · simp only [Heap.set, Function.update_of_ne hk]
            exact (hother k).1

theorem approximateRecord_spec (κ : Cost) (S : ChainSurface T K) (m : Move) (i j : ℕ) (h : Heap T K) {a b : Vec T}
    (hi : ApproxOk S (h.get i) a) (hj : ApproxOk S (h.get j) b) :
    (approximateRecord κ S m i j h).n = h.n ∧
    ApproxOk S ((approximateRecord κ S m i j h).get i) (moved m a b) ∧
    (∀ k ≠ i, ∀ v, ApproxOk S (h.get k) v → ApproxOk S ((approximateRecord κ S m i j h).get k) v) ∧
    ∀ k, ((approximateRecord κ S m i j h).get k).coefficients = (h.get k).coefficients ∧
      ((approximateRecord κ S m i j h).get k).vector = (h.get k).vector := by
  have hinv : ∀ g : Heap T K, g = h.set i { h.get i with approximateVector := .empty } → g.n = h.n ∧
      ApproxOk S (g.get i) (moved m a b) ∧ (∀ k ≠ i, ∀ v, ApproxOk S (h.get k) v → ApproxOk S (g.get k) v) ∧
      ∀ k, (g.get k).coefficients = (h.get k).coefficients ∧ (g.get k).vector = (h.get k).vector := by
    rintro _ rfl
    refine ⟨rfl, ?_, fun k hk v hv => ?_, fun k => ?_⟩
    · simp only [Heap.set, Function.update_self]
      exact Cache.holds_empty
    · simpa [Heap.set, Function.update_of_ne hk] using hv
    · by_cases hk : k = i
      · subst hk; simp [Heap.set]
      · simp [Heap.set, Function.update_of_ne hk]
  unfold approximateRecord
  split
  · rename_i hv
    refine ⟨rfl, ⟨hi.1, fun v hv' => ?_⟩, fun _ _ _ h => h, fun _ => ⟨rfl, rfl⟩⟩
    simp [Cache.flush, hv] at hv'
  · rename_i u hu
    split
    · exact hinv _ rfl
    · rename_i v hv
      split_ifs with hc
      · exact hinv _ rfl
      · have hjt : toApproximate S (h.get j) =
            { h.get j with approximateVector := (h.get j).approximateVector.flush (addArb S.A) (subArb S.A) } := by
          unfold toApproximate
          rw [hv]
        obtain ⟨w, h1, h2, h3⟩ := hj.value hv
        have hget : ((h.set j (toApproximate S (h.get j))).get j).approximateVector.value = some w := by
          simp only [Heap.set, Function.update_self, hjt]
          exact h1
        simp only [hget]
        have hi' : ApproxOk S ((h.set j (toApproximate S (h.get j))).get i) a ∧
            ∃ u, ((h.set j (toApproximate S (h.get j))).get i).approximateVector.value = some u := by
          by_cases hij : i = j
          · subst hij
            simp only [Heap.set, Function.update_self, hjt]
            exact ⟨hi.flush, _, h1⟩
          · simp only [Heap.set, Function.update_of_ne hij]
            exact ⟨hi, _, hu⟩
        have hother : ∀ k, (((h.set j (toApproximate S (h.get j))).get k).coefficients = (h.get k).coefficients ∧
            ((h.set j (toApproximate S (h.get j))).get k).vector = (h.get k).vector) ∧
            ∀ v, ApproxOk S (h.get k) v → ApproxOk S ((h.set j (toApproximate S (h.get j))).get k) v := by
          intro k
          by_cases hkj : k = j
          · subst hkj
            simp only [Heap.set, Function.update_self, hjt]
            exact ⟨by simp, fun v hv => hv.flush⟩
          · simp only [Heap.set, Function.update_of_ne hkj]
            exact ⟨by simp, fun v hv => hv⟩
        have hn : (h.set j (toApproximate S (h.get j))).n = h.n := rfl
        generalize h.set j (toApproximate S (h.get j)) = g at *
        obtain ⟨hi1, u', hu'⟩ := hi'
        refine ⟨hn, ?_, fun k hk v hv => ?_, fun k => ?_⟩
        · simp only [Heap.set, Function.update_self]
          refine Cache.Holds.push hi1 hu' m w _ fun v hv => ?_
          cases m
          · exact encloses_add S.A hv h2
          · exact encloses_sub S.A hv h2
        · simp only [Heap.set, Function.update_of_ne hk]
          exact (hother k).2 v hv
        · by_cases hk : k = i
          · subst hk
            simp only [Heap.set, Function.update_self]
            exact (hother k).1
          · simp only [Heap.set, Function.update_of_ne hk]
            exact (hother k).1

theorem vectorAddHalfEdge_spec (κ : Cost) (S : ChainSurface T K) (e : ℕ) {c : ChainObj T K} {v : Vec T}
    (h : VecOk c v) : VecOk (vectorAddHalfEdge κ S e c) (v + S.vec e) ∧
      (vectorAddHalfEdge κ S e c).coefficients = c.coefficients ∧
      (vectorAddHalfEdge κ S e c).approximateVector = c.approximateVector := by
  unfold vectorAddHalfEdge
  split
  · rename_i hv
    exact ⟨⟨h.1, fun v hv' => by simp [Cache.flush, hv] at hv'⟩, rfl, rfl⟩
  · rename_i u hu
    split_ifs
    · exact ⟨Cache.holds_empty, rfl, rfl⟩
    · refine ⟨Cache.Holds.push h hu .add _ _ ?_, rfl, rfl⟩
      rintro _ rfl
      rfl

theorem approximateAddHalfEdge_spec (κ : Cost) (S : ChainSurface T K) (e : ℕ) {c : ChainObj T K} {v : Vec T}
    (he : Encloses S.A (S.approx e) (S.vec e))
    (h : ApproxOk S c v) : ApproxOk S (approximateAddHalfEdge κ S e c) (v + S.vec e) ∧
      (approximateAddHalfEdge κ S e c).coefficients = c.coefficients ∧
      (approximateAddHalfEdge κ S e c).vector = c.vector := by
  unfold approximateAddHalfEdge
  split
  · rename_i hv
    exact ⟨⟨h.1, fun v hv' => by simp [Cache.flush, hv] at hv'⟩, rfl, rfl⟩
  · rename_i u hu
    split_ifs
    · exact ⟨Cache.holds_empty, rfl, rfl⟩
    · exact ⟨Cache.Holds.push h hu .add _ _ fun w hw => encloses_add S.A hw he, rfl, rfl⟩

/-! ### The coefficients follow the abstract semantics -/

theorem toVector_coefficients (S : ChainSurface T K) (c : ChainObj T K) :
    (toVector S c).coefficients = c.coefficients := by
  unfold toVector
  split <;> rfl

theorem toApproximate_coefficients (S : ChainSurface T K) (c : ChainObj T K) :
    (toApproximate S c).coefficients = c.coefficients := by
  unfold toApproximate
  split
  · rfl
  · simp only
    split <;> exact toVector_coefficients S c

theorem set_coefficients (h : Heap T K) (i : ℕ) (c : ChainObj T K) (k : ℕ) :
    ((h.set i c).get k).coefficients = if k = i then c.coefficients else (h.get k).coefficients := by
  split_ifs with hk
  · simp only [Heap.set, hk, Function.update_self]
  · simp only [Heap.set, Function.update_of_ne hk]

theorem push_coefficients (h : Heap T K) (c : ChainObj T K) (k : ℕ) :
    ((h.push c).get k).coefficients = if k = h.n then c.coefficients else (h.get k).coefficients := by
  split_ifs with hk
  · simp only [Heap.push, hk, Function.update_self]
  · simp only [Heap.push, Function.update_of_ne hk]

theorem vectorRecord_coefficients (κ : Cost) (S : ChainSurface T K) (m : Move) (i j : ℕ) (h : Heap T K) :
    (vectorRecord κ S m i j h).n = h.n ∧
    ∀ k, ((vectorRecord κ S m i j h).get k).coefficients = (h.get k).coefficients := by
  have key : ∀ (g : Heap T K) (v), (∀ k, (g.get k).coefficients = (h.get k).coefficients) →
      ∀ k, ((g.set i { g.get i with vector := v }).get k).coefficients = (h.get k).coefficients := by
    intro g v hg k
    rw [set_coefficients]
    split_ifs with hk
    · rw [hk]; exact hg i
    · exact hg k
  have hj : ∀ k, ((h.set j (toVector S (h.get j))).get k).coefficients = (h.get k).coefficients := by
    intro k
    rw [set_coefficients, toVector_coefficients]
    split_ifs with hk
    · rw [hk]
    · rfl
  unfold vectorRecord
  split
  · exact ⟨rfl, fun _ => rfl⟩
  · split
    · exact ⟨rfl, key h _ fun _ => rfl⟩
    · split_ifs
      · exact ⟨rfl, key h _ fun _ => rfl⟩
      · simp only
        split
        · exact ⟨rfl, hj⟩
        · exact ⟨rfl, key _ _ hj⟩

theorem approximateRecord_coefficients (κ : Cost) (S : ChainSurface T K) (m : Move) (i j : ℕ) (h : Heap T K) :
    (approximateRecord κ S m i j h).n = h.n ∧
    ∀ k, ((approximateRecord κ S m i j h).get k).coefficients = (h.get k).coefficients := by
  have key : ∀ (g : Heap T K) (v), (∀ k, (g.get k).coefficients = (h.get k).coefficients) →
      ∀ k, ((g.set i { g.get i with approximateVector := v }).get k).coefficients = (h.get k).coefficients := by
    intro g v hg k
    rw [set_coefficients]
    split_ifs with hk
    · rw [hk]; exact hg i
    · exact hg k
  have hj : ∀ k, ((h.set j (toApproximate S (h.get j))).get k).coefficients = (h.get k).coefficients := by
    intro k
    rw [set_coefficients, toApproximate_coefficients]
    split_ifs with hk
    · rw [hk]
    · rfl
  unfold approximateRecord
  split
  · exact ⟨rfl, fun _ => rfl⟩
  · split
    · exact ⟨rfl, key h _ fun _ => rfl⟩
    · split_ifs
      · exact ⟨rfl, key h _ fun _ => rfl⟩
      · simp only
        split
        · exact ⟨rfl, hj⟩
        · exact ⟨rfl, key _ _ hj⟩

theorem vectorAddHalfEdge_coefficients (κ : Cost) (S : ChainSurface T K) (e : ℕ) (c : ChainObj T K) :
    (vectorAddHalfEdge κ S e c).coefficients = c.coefficients := by
  unfold vectorAddHalfEdge
  split
  · rfl
  · split_ifs <;> rfl

theorem approximateAddHalfEdge_coefficients (κ : Cost) (S : ChainSurface T K) (e : ℕ) (c : ChainObj T K) :
    (approximateAddHalfEdge κ S e c).coefficients = c.coefficients := by
  unfold approximateAddHalfEdge
  split
  · rfl
  · split_ifs <;> rfl

theorem bump_eq (c : ℕ → ℤ) (e : ℕ) : bump c e = fun k => c k + single e k := by
  funext k
  unfold bump single
  by_cases hk : k = e / 2
  · subst hk
    rw [Function.update_self, if_pos rfl]
    congr 1
    by_cases h : e % 2 = 0
    · rw [if_pos h, if_pos (by omega)]
    · rw [if_neg h, if_neg (by omega)]
  · rw [Function.update_of_ne hk, if_neg hk, add_zero]

theorem single_neg (e k : ℕ) : single (neg e) k = - single e k := by
  unfold single
  rw [neg_div, neg_mod]
  by_cases h : k = e / 2
  · rw [if_pos h, if_pos h]
    rcases Nat.mod_two_eq_zero_or_one e with h | h <;> simp [h]
  · rw [if_neg h, if_neg h]; rfl

/-- The heap stores the elements of a list. -/
def Rep (h : Heap T K) (l : List (ℕ → ℤ)) : Prop := h.n = l.length ∧ ∀ i c, l[i]? = some c → (h.get i).coefficients = c

theorem Rep.set {h g : Heap T K} {l : List (ℕ → ℤ)} (hr : Rep h l) (hn : g.n = h.n) {i : ℕ} {c : ℕ → ℤ}
    (hg : ∀ k, (g.get k).coefficients = if k = i then c else (h.get k).coefficients) : Rep g (l.set i c) := by
  refine ⟨by rw [hn, hr.1, List.length_set], fun k d hd => ?_⟩
  rw [hg, ]
  rw [List.getElem?_set] at hd
  split_ifs with hk
  · subst hk
    rw [if_pos rfl] at hd
    split_ifs at hd
    cases hd
    rfl
  · rw [if_neg (Ne.symm hk)] at hd
    exact hr.2 k d hd

theorem Rep.push {h g : Heap T K} {l : List (ℕ → ℤ)} (hr : Rep h l) (hn : g.n = h.n + 1) {c : ℕ → ℤ}
    (hg : ∀ k, (g.get k).coefficients = if k = h.n then c else (h.get k).coefficients) : Rep g (l ++ [c]) := by
  refine ⟨by rw [hn, hr.1, List.length_append]; rfl, fun k d hd => ?_⟩
  rw [hg]
  rw [List.getElem?_append] at hd
  split_ifs at hd with hk
  · rw [if_neg (by rw [hr.1]; omega)]
    exact hr.2 k d hd
  · rcases Nat.eq_or_lt_of_le (Nat.le_of_not_lt hk) with hk' | hk'
    · rw [if_pos (by rw [hr.1, hk'])]
      rw [← hk', Nat.sub_self] at hd
      simpa using hd
    · have : l.length + 1 ≤ k := hk'
      rw [List.getElem?_eq_none (by simp; omega)] at hd
      cases hd

theorem Rep.refl {h g : Heap T K} {l : List (ℕ → ℤ)} (hr : Rep h l) (hn : g.n = h.n)
    (hg : ∀ k, (g.get k).coefficients = (h.get k).coefficients) : Rep g l :=
  ⟨by rw [hn, hr.1], fun k d hd => by rw [hg]; exact hr.2 k d hd⟩

theorem Rep.get {h : Heap T K} {l : List (ℕ → ℤ)} (hr : Rep h l) {i : ℕ} (hi : i < h.n) :
    l[i]? = some (h.get i).coefficients := by
  obtain ⟨c, hc⟩ : ∃ c, l[i]? = some c := ⟨l[i]'(hr.1 ▸ hi), List.getElem?_eq_getElem _⟩
  rw [hr.2 i c hc, hc]

theorem Rep.get_none {h : Heap T K} {l : List (ℕ → ℤ)} (hr : Rep h l) {i : ℕ} (hi : ¬ i < h.n) :
    l[i]? = none := List.getElem?_eq_none (by rw [← hr.1]; omega)

/-- The operations act on the coefficients like the operations of the free abelian group. -/
theorem step_rep (κ : Cost) (S : ChainSurface T K) {h : Heap T K} {l : List (ℕ → ℤ)} (hr : Rep h l) (op : Op) :
    match specStep S.size l op with
    | none => step κ S h op = .error .undefined
    | some l' => ∃ h', step κ S h op = .ok h' ∧ Rep h' l' := by
  cases op with
  | zero => exact ⟨_, rfl, hr.push rfl (push_coefficients _ _)⟩
  | halfEdge e =>
    simp only [step, specStep]
    split_ifs
    · refine ⟨_, rfl, hr.push rfl fun k => ?_⟩
      rw [push_coefficients, bump_eq]
      simp
    · rfl
  | copy i =>
    simp only [step, specStep]
    by_cases hi : i < h.n
    · rw [hr.get hi, if_pos hi]
      refine ⟨_, rfl, hr.push rfl fun k => ?_⟩
      have : ∀ k, (((h.set i (toVector S (h.get i))).set i (toApproximate S ((h.set i (toVector S (h.get i))).get i))).get
          k).coefficients = (h.get k).coefficients := by
        intro k
        rw [set_coefficients, toApproximate_coefficients, set_coefficients, set_coefficients, toVector_coefficients]
        split_ifs with hk <;> simp [hk]
      rw [push_coefficients, this, this]
      rfl
    · rw [hr.get_none hi, if_neg hi]; rfl
  | addHalfEdge i e =>
    simp only [step, specStep]
    by_cases he : e < 2 * S.size
    · by_cases hi : i < h.n
      · rw [hr.get hi, if_pos he, if_pos ⟨hi, he⟩]
        refine ⟨_, rfl, hr.set (g := h.set i _) rfl fun k => ?_⟩
        rw [set_coefficients, approximateAddHalfEdge_coefficients, vectorAddHalfEdge_coefficients, bump_eq]
      · rw [hr.get_none hi, if_pos he, if_neg (fun h => hi h.1)]; rfl
    · rw [if_neg he, if_neg (fun h => he h.2)]
  | subHalfEdge i e =>
    simp only [step, specStep]
    by_cases he : e < 2 * S.size
    · by_cases hi : i < h.n
      · rw [hr.get hi, if_pos he, if_pos ⟨hi, he⟩]
        refine ⟨_, rfl, hr.set (g := h.set i _) rfl fun k => ?_⟩
        rw [set_coefficients, approximateAddHalfEdge_coefficients, vectorAddHalfEdge_coefficients, bump_eq]
        simp only [single_neg, sub_eq_add_neg]
      · rw [hr.get_none hi, if_pos he, if_neg (fun h => hi h.1)]; rfl
    · rw [if_neg he, if_neg (fun h => he h.2)]
  | add i j =>
    simp only [step, specStep]
    by_cases hi : i < h.n
    · by_cases hj : j < h.n
      · rw [hr.get hi, hr.get hj, if_pos ⟨hi, hj⟩]
        refine ⟨_, rfl, hr.set ?_ fun k => ?_⟩
        · exact ((approximateRecord_coefficients ..).1).trans (vectorRecord_coefficients ..).1
        · rw [(approximateRecord_coefficients ..).2, (vectorRecord_coefficients ..).2, set_coefficients]
      · rw [hr.get_none hj, if_neg (fun h => hj h.2), hr.get hi]; rfl
    · rw [hr.get_none hi, if_neg (fun h => hi h.1)]; rfl
  | sub i j =>
    simp only [step, specStep]
    by_cases hi : i < h.n
    · by_cases hj : j < h.n
      · rw [hr.get hi, hr.get hj, if_pos ⟨hi, hj⟩]
        refine ⟨_, rfl, hr.set ?_ fun k => ?_⟩
        · exact ((approximateRecord_coefficients ..).1).trans (vectorRecord_coefficients ..).1
        · rw [(approximateRecord_coefficients ..).2, (vectorRecord_coefficients ..).2, set_coefficients]
      · rw [hr.get_none hj, if_neg (fun h => hj h.2), hr.get hi]; rfl
    · rw [hr.get_none hi, if_neg (fun h => hi h.1)]; rfl
  | neg i =>
    simp only [step, specStep]
    by_cases hi : i < h.n
    · rw [hr.get hi, if_pos hi]
      refine ⟨_, rfl, hr.push ?_ fun k => ?_⟩
      · exact ((approximateRecord_coefficients ..).1).trans (vectorRecord_coefficients ..).1
      · rw [(approximateRecord_coefficients ..).2, (vectorRecord_coefficients ..).2, set_coefficients]
        simp only [push_coefficients, if_true, if_neg hi.ne, zero_sub]
        split_ifs <;> rfl
    · rw [hr.get_none hi, if_neg hi]; rfl
  | mul i a =>
    simp only [step, specStep]
    by_cases hi : i < h.n
    · rw [hr.get hi, if_pos hi]
      refine ⟨_, rfl, hr.set (g := h.set i _) rfl fun k => ?_⟩
      rw [set_coefficients]
      simp only [mul_comm]
    · rw [hr.get_none hi, if_neg hi]; rfl
  | toVector i =>
    simp only [step, specStep]
    by_cases hi : i < h.n
    · rw [hr.get hi, if_pos hi]
      refine ⟨_, rfl, hr.refl rfl fun k => ?_⟩
      rw [set_coefficients, toVector_coefficients]
      split_ifs with hk <;> simp [hk]
    · rw [hr.get_none hi, if_neg hi]; rfl
  | toApproximate i =>
    simp only [step, specStep]
    by_cases hi : i < h.n
    · rw [hr.get hi, if_pos hi]
      refine ⟨_, rfl, hr.refl rfl fun k => ?_⟩
      rw [set_coefficients, toApproximate_coefficients]
      split_ifs with hk <;> simp [hk]
    · rw [hr.get_none hi, if_neg hi]; rfl

theorem run_rep (κ : Cost) (S : ChainSurface T K) (ops : List Op) {h : Heap T K} {l : List (ℕ → ℤ)} (hr : Rep h l) :
    match specRun S.size ops l with
    | none => run κ S ops h = .error .undefined
    | some l' => ∃ h', run κ S ops h = .ok h' ∧ Rep h' l' := by
  induction ops generalizing h l with
  | nil => exact ⟨h, rfl, hr⟩
  | cons op ops ih =>
    have := step_rep κ S hr op
    unfold run specRun
    cases hs : specStep S.size l op with
    | none =>
      rw [hs] at this
      simp only at this
      rw [this]
      rfl
    | some l' =>
      rw [hs] at this
      obtain ⟨h', h1, h2⟩ := this
      rw [h1]
      exact ih h2

/-! ### The caches stay in sync -/

theorem Sync.set {S : ChainSurface T K} {h : Heap T K} (hh : ∀ k < h.n, Sync S (h.get k)) {i : ℕ} {c : ChainObj T K}
    (hc : Sync S c) : ∀ k < (h.set i c).n, Sync S ((h.set i c).get k) := by
  intro k hk
  by_cases hki : k = i
  · subst hki; simpa [Heap.set] using hc
  · simpa [Heap.set, Function.update_of_ne hki] using hh k hk

theorem Sync.push {S : ChainSurface T K} {h : Heap T K} (hh : ∀ k < h.n, Sync S (h.get k)) {c : ChainObj T K}
    (hc : Sync S c) : ∀ k < (h.push c).n, Sync S ((h.push c).get k) := by
  intro k hk
  by_cases hki : k = h.n
  · subst hki; simpa [Heap.push] using hc
  · have : k < h.n := by
      have : k < h.n + 1 := hk
      omega
    simpa [Heap.push, Function.update_of_ne hki] using hh k this

theorem record_sync (κ : Cost) (S : ChainSurface T K) (m : Move) (i j : ℕ) {h : Heap T K}
    (hh : ∀ k < h.n, Sync S (h.get k)) (hi : i < h.n) (hj : j < h.n) (c : ℕ → ℤ)
    (hc : vectorOf S c = moved m (vectorOf S (h.get i).coefficients) (vectorOf S (h.get j).coefficients)) :
    ∀ k < (approximateRecord κ S m i j (vectorRecord κ S m i j (h.set i { h.get i with coefficients := c }))).n,
      Sync S ((approximateRecord κ S m i j (vectorRecord κ S m i j (h.set i { h.get i with coefficients := c }))).get k) := by
  have hv : ∀ k, ((h.set i { h.get i with coefficients := c }).get k).vector = (h.get k).vector ∧
      ((h.set i { h.get i with coefficients := c }).get k).approximateVector = (h.get k).approximateVector := by
    intro k
    by_cases hk : k = i
    · subst hk; simp [Heap.set]
    · simp [Heap.set, Function.update_of_ne hk]
  have hcoeff := set_coefficients h i { h.get i with coefficients := c }
  have hn : (h.set i { h.get i with coefficients := c }).n = h.n := rfl
  generalize h.set i { h.get i with coefficients := c } = g at *
  have vok : ∀ {k}, k < h.n → VecOk (g.get k) (vectorOf S (h.get k).coefficients) := by
    intro k hk
    unfold VecOk
    rw [(hv k).1]
    exact (hh k hk).1
  obtain ⟨n1, i1, k1, c1⟩ := vectorRecord_spec κ S m i j g (vok hi) (vok hj)
  generalize vectorRecord κ S m i j g = g' at *
  have aok : ∀ {k}, k < h.n → ApproxOk S (g'.get k) (vectorOf S (h.get k).coefficients) := by
    intro k hk
    unfold ApproxOk
    rw [(c1 k).2, (hv k).2]
    exact (hh k hk).2
  obtain ⟨n2, i2, k2, c2⟩ := approximateRecord_spec κ S m i j g' (aok hi) (aok hj)
  generalize approximateRecord κ S m i j g' = g'' at *
  intro k hk
  rw [n2, n1, hn] at hk
  unfold Sync
  rw [(c2 k).1, (c1 k).1, hcoeff]
  unfold VecOk
  rw [(c2 k).2]
  split_ifs with hki
  · subst hki
    simp only [hc]
    exact ⟨i1, i2⟩
  · exact ⟨k1 k hki _ (vok hk), k2 k hki _ (aok hk)⟩

theorem addHalfEdge_sync (κ : Cost) {S : ChainSurface T K} (hS : Valid S) {e : ℕ} (he : e < 2 * S.size)
    {c : ChainObj T K} (hc : Sync S c) :
    Sync S (approximateAddHalfEdge κ S e (vectorAddHalfEdge κ S e { c with coefficients := bump c.coefficients e })) := by
  have h1 := vectorAddHalfEdge_spec κ S e (c := { c with coefficients := bump c.coefficients e }) hc.1
  generalize vectorAddHalfEdge κ S e { c with coefficients := bump c.coefficients e } = d at *
  have ha : ApproxOk S d (vectorOf S c.coefficients) := by
    unfold ApproxOk
    rw [h1.2.2]
    exact hc.2
  have h2 := approximateAddHalfEdge_spec κ S e (hS.approx e he) ha
  unfold Sync VecOk
  rw [h2.2.2, h2.2.1, h1.2.1]
  simp only [bump_eq, vectorOf_add, vectorOf_single hS he]
  exact ⟨h1.1, h2.1⟩

theorem step_sync (κ : Cost) {S : ChainSurface T K} (hS : Valid S) {h h' : Heap T K} {op : Op} (hop : op.NotMul)
    (hh : ∀ k < h.n, Sync S (h.get k)) (hs : step κ S h op = .ok h') : ∀ k < h'.n, Sync S (h'.get k) := by
  cases op with
  | zero =>
    simp only [step] at hs
    cases hs
    exact Sync.push hh ⟨Cache.holds_empty, Cache.holds_empty⟩
  | halfEdge e =>
    simp only [step] at hs
    split_ifs at hs with he
    cases hs
    have hb : bump (fun _ => 0) e = single e := by rw [bump_eq]; simp
    refine Sync.push hh ⟨Cache.holds_of ?_, Cache.holds_of ?_⟩
    · simp only [hb, vectorOf_single hS he]
    · simp only [hb, vectorOf_single hS he]
      exact hS.approx e he
  | copy i =>
    simp only [step] at hs
    split_ifs at hs with hi
    cases hs
    obtain ⟨a1, a2, a3, a4⟩ := toVector_spec S (hh i hi)
    have e1 : ∀ (g : Heap T K) c, (g.set i c).get i = c := by simp [Heap.set]
    have h1 := Sync.set (i := i) hh a2
    simp only [e1]
    generalize toVector S (h.get i) = c at *
    generalize h.set i c = g at *
    obtain ⟨b1, b2, w, b3, b4, b5⟩ := toApproximate_spec S a2
    have h2 := Sync.set (i := i) h1 b2
    generalize toApproximate S c = d at *
    generalize g.set i d = g' at *
    refine Sync.push h2 ⟨?_, ?_⟩
    · simp only [VecOk, a3, b1, a1]
      exact Cache.holds_of rfl
    · simp only [ApproxOk, b3, b1, a1]
      rw [a1] at b4
      exact Cache.holds_of b4
  | addHalfEdge i e =>
    simp only [step] at hs
    split_ifs at hs with hi
    cases hs
    exact Sync.set hh (addHalfEdge_sync κ hS hi.2 (hh i hi.1))
  | subHalfEdge i e =>
    simp only [step] at hs
    split_ifs at hs with hi
    cases hs
    exact Sync.set hh (addHalfEdge_sync κ hS ((neg_lt' (by omega) e).2 hi.2) (hh i hi.1))
  | add i j =>
    simp only [step] at hs
    split_ifs at hs with hi
    cases hs
    exact record_sync κ S .add i j hh hi.1 hi.2 _ (vectorOf_add S _ _)
  | sub i j =>
    simp only [step] at hs
    split_ifs at hs with hi
    cases hs
    exact record_sync κ S .sub i j hh hi.1 hi.2 _ (vectorOf_sub S _ _)
  | neg i =>
    simp only [step] at hs
    split_ifs at hs with hi
    cases hs
    refine record_sync κ S .sub h.n i (Sync.push (c := ⟨fun _ => 0, .empty, .empty⟩) hh ⟨Cache.holds_empty, Cache.holds_empty⟩) (Nat.lt_succ_self _)
      (Nat.lt_succ_of_lt hi) _ (vectorOf_sub S _ _)
  | mul i a => exact hop.elim
  | toVector i =>
    simp only [step] at hs
    split_ifs at hs with hi
    cases hs
    exact Sync.set hh (toVector_spec S (hh i hi)).2.1
  | toApproximate i =>
    simp only [step] at hs
    split_ifs at hs with hi
    cases hs
    exact Sync.set hh (toApproximate_spec S (hh i hi)).2.1

theorem run_sync (κ : Cost) {S : ChainSurface T K} (hS : Valid S) {ops : List Op} (hops : ∀ op ∈ ops, op.NotMul)
    {h h' : Heap T K} (hh : ∀ k < h.n, Sync S (h.get k)) (hs : run κ S ops h = .ok h') :
    ∀ k < h'.n, Sync S (h'.get k) := by
  induction ops generalizing h with
  | nil => cases hs; exact hh
  | cons op ops ih =>
    unfold run at hs
    cases h1 : step κ S h op with
    | error e => rw [h1] at hs; cases hs
    | ok g =>
      rw [h1] at hs
      exact ih (fun o ho => hops o (List.mem_cons_of_mem _ ho)) (step_sync κ hS (hops op List.mem_cons_self) hh h1) hs

end Chain

end Verif
