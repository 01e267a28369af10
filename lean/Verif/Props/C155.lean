import Verif.Model.ContourCheck
import Verif.Lemmas.Vector
import Verif.Lemmas.HalfEdge
import Mathlib.Algebra.BigOperators.Group.List.Basic
import Mathlib.Data.List.Count
import Mathlib.Tactic.LinearCombination
import Mathlib.Tactic.Linarith

/-!
# C155: the consistency checks of contour decompositions
-/

namespace Verif.C155

open Verif Vec ContourCheck

/-- The check of the signs passes if and only if each connection shows up exactly once, and so does its negative. -/
theorem signs_iff (D : List (List HE)) : signs D = true ↔ D.flatten.Nodup ∧ ∀ c ∈ D.flatten, neg c ∈ D.flatten := by
  unfold signs
  rw [List.all_eq_true]
  simp only [decide_eq_true_eq]
  constructor
  · intro h
    have hm : ∀ c ∈ D.flatten, neg c ∈ D.flatten := fun c hc => List.count_pos_iff.1 (by rw [h c hc]; exact Nat.one_pos)
    refine ⟨List.nodup_iff_count_eq_one.2 fun c hc => ?_, hm⟩
    have := h _ (hm c hc)
    rwa [neg_neg'] at this
  · rintro ⟨h, hm⟩ c hc
    exact List.count_eq_one_of_mem h (hm c hc)

section classify

variable {T : Type} [CommRing T] [LinearOrder T] [IsStrictOrderedRing T]

/-- The sides are the geometric ones: connections on the right are parallel to the vertical direction, connections on the left are
antiparallel, connections at the bottom go to the right of the vertical direction and the ones at the top to its left. -/
theorem classify_correct {vertical v : Vec T} (hz : vertical ≠ 0) (hv : v ≠ 0) : ∃ s, classify vertical v = .ok s ∧
    (s = .right ↔ cross vertical v = 0 ∧ 0 < dot vertical v) ∧ (s = .left ↔ cross vertical v = 0 ∧ dot vertical v < 0) ∧
    (s = .bottom ↔ cross vertical v < 0) ∧ (s = .top ↔ 0 < cross vertical v) := by
  have hx : cross vertical v = vertical.x * v.y - v.x * vertical.y := by unfold cross; ring
  unfold classify ccwExact
  by_cases h0 : vertical.x * v.y = v.x * vertical.y
  · have c0 : cross vertical v = 0 := by rw [hx, h0, sub_self]
    rw [if_pos h0]
    have hd : dot vertical v ≠ 0 := by
      intro d0
      have key : (vertical.x * vertical.x + vertical.y * vertical.y) * (v.x * v.x + v.y * v.y) = 0 := by
        have : (vertical.x * vertical.x + vertical.y * vertical.y) * (v.x * v.x + v.y * v.y) =
          dot vertical v * dot vertical v + cross vertical v * cross vertical v := by
          unfold dot cross; ring
        rw [this, d0, c0, zero_mul, add_zero]
      rcases mul_eq_zero.1 key with k | k
      · refine hz (Vec.ext ?_ ?_)
        · exact mul_self_eq_zero.1 (by nlinarith [mul_self_nonneg vertical.x, mul_self_nonneg vertical.y])
        · exact mul_self_eq_zero.1 (by nlinarith [mul_self_nonneg vertical.x, mul_self_nonneg vertical.y])
      · refine hv (Vec.ext ?_ ?_)
        · exact mul_self_eq_zero.1 (by nlinarith [mul_self_nonneg v.x, mul_self_nonneg v.y])
        · exact mul_self_eq_zero.1 (by nlinarith [mul_self_nonneg v.x, mul_self_nonneg v.y])
    unfold orientationExact
    dsimp only
    rw [if_neg hd]
    rcases lt_or_gt_of_ne hd with k | k
    · rw [if_neg (not_lt.2 k.le)]
      exact ⟨.left, rfl, by simp [c0, k.le], by simp [c0, k], by simp [c0], by simp [c0]⟩
    · rw [if_pos k]
      exact ⟨.right, rfl, by simp [c0, k], by simp [c0, k.le], by simp [c0], by simp [c0]⟩
  · rw [if_neg h0]
    have c0 : cross vertical v ≠ 0 := by rw [hx]; exact sub_ne_zero.2 h0
    by_cases k : vertical.x * v.y > v.x * vertical.y
    · rw [if_pos k]
      have c1 : 0 < cross vertical v := by rw [hx]; exact sub_pos.2 k
      exact ⟨.top, rfl, by simp [c0], by simp [c0], by simp [c1.le], by simp [c1]⟩
    · rw [if_neg k]
      have c1 : cross vertical v < 0 := lt_of_le_of_ne (by rw [hx]; exact sub_nonpos.2 (not_lt.1 k)) c0
      exact ⟨.bottom, rfl, by simp [c0], by simp [c0], by simp [c1], by simp [c1.le]⟩

end classify

/-- The sides in the order in which the perimeter turns, along the bottom. -/
def bottomTurn : Side → ℤ
  | .left => 1
  | .bottom => 2
  | .right => 3
  | .top => 4

/-- The sides in the order in which the perimeter turns, along the top. -/
def topTurn : Side → ℤ
  | .bottom => 2
  | .right => 3
  | .top => 4
  | .left => 5

/-- The connections at the bottom of a component: none is at the top, the perimeter does not go down and then up, and it neither
starts upwards nor ends downwards. -/
structure Bottom (p : List (ℕ × Side)) : Prop where
  noTop : ∀ c ∈ p, c.2 ≠ .top
  turns : p.IsChain fun a b => ¬(a.2 = .left ∧ b.2 = .right)
  first : ∀ c ∈ p.head?, c.2 ≠ .right
  last : ∀ c ∈ p.getLast?, c.2 ≠ .left

/-- The connections at the top of a component. -/
structure Top (p : List (ℕ × Side)) : Prop where
  noBottom : ∀ c ∈ p, c.2 ≠ .bottom
  turns : p.IsChain fun a b => ¬(a.2 = .right ∧ b.2 = .left)
  first : ∀ c ∈ p.head?, c.2 ≠ .left
  last : ∀ c ∈ p.getLast?, c.2 ≠ .right

/-- The sum of the angles, all of them. -/
def total (l : List (ℕ × ℕ)) : ℤ := (l.map fun a => (a.2 : ℤ)).sum

theorem total_cons (a : ℕ × ℕ) (l : List (ℕ × ℕ)) : total (a :: l) = a.2 + total l := by simp [total]

theorem angle_bottom {s t : Side} (hs : s ≠ .top) (ht : t ≠ .top) (h : ¬(s = .left ∧ t = .right)) :
    (angle s t : ℤ) = 2 - (bottomTurn t - bottomTurn s) := by
  cases s <;> cases t <;> simp_all [angle, bottomTurn]

theorem angle_top {s t : Side} (hs : s ≠ .bottom) (ht : t ≠ .bottom) (h : ¬(s = .right ∧ t = .left)) :
    (angle s t : ℤ) = 2 - (topTurn t - topTurn s) := by
  cases s <;> cases t <;> simp_all [angle, topTurn]

theorem angle_bottom_top {s t : Side} (hs : s = .bottom ∨ s = .right) (ht : t = .right ∨ t = .top) :
    (angle s t : ℤ) = 2 - (topTurn t - bottomTurn s) := by
  rcases hs with rfl | rfl <;> rcases ht with rfl | rfl <;> simp [angle, topTurn, bottomTurn]

theorem angle_top_bottom {s t : Side} (hs : s = .top ∨ s = .left) (ht : t = .left ∨ t = .bottom) :
    (angle s t : ℤ) = 2 - (bottomTurn t + 4 - topTurn s) := by
  rcases hs with rfl | rfl <;> rcases ht with rfl | rfl <;> simp [angle, topTurn, bottomTurn]

theorem total_top {f : ℕ × Side} (hf : f.2 = .left ∨ f.2 = .bottom) : ∀ {x : ℕ × Side} {p : List (ℕ × Side)},
    (∀ c ∈ x :: p, c.2 ≠ .bottom) → (x :: p).IsChain (fun a b => ¬(a.2 = .right ∧ b.2 = .left)) →
    (∀ c ∈ (x :: p).getLast?, c.2 ≠ .right) →
    total (anglesFrom f (x :: p)) = 2 * (x :: p).length - (bottomTurn f.2 + 4 - topTurn x.2)
  | x, [], hb, _, hl => by
    have h1 : x.2 ≠ .bottom := hb x (by simp)
    have h2 : x.2 ≠ .right := hl x (by simp)
    have := angle_top_bottom (s := x.2) (by cases h : x.2 <;> simp_all) hf
    simp only [anglesFrom, total_cons, this]
    simp [total]
  | x, y :: p, hb, hc, hl => by
    have ih := total_top hf (x := y) (p := p) (fun c hc => hb c (List.mem_cons_of_mem _ hc)) (List.isChain_cons_cons.1 hc).2
      (by simpa [List.getLast?_cons_cons] using hl)
    have := angle_top (hb x (by simp)) (hb y (by simp)) (List.isChain_cons_cons.1 hc).1
    simp only [anglesFrom, total_cons, this, ih]
    simp only [List.length_cons]
    push_cast
    ring

theorem total_bottom {f : ℕ × Side} (hf : f.2 = .left ∨ f.2 = .bottom) {y : ℕ × Side} {q : List (ℕ × Side)} (ht : Top (y :: q)) :
    ∀ {x : ℕ × Side} {p : List (ℕ × Side)},
    (∀ c ∈ x :: p, c.2 ≠ .top) → (x :: p).IsChain (fun a b => ¬(a.2 = .left ∧ b.2 = .right)) →
    (∀ c ∈ (x :: p).getLast?, c.2 ≠ .left) →
    total (anglesFrom f (x :: p ++ y :: q)) = 2 * (x :: p ++ y :: q).length - (bottomTurn f.2 + 4 - bottomTurn x.2)
  | x, [], hb, _, hl => by
    have h1 : x.2 ≠ .top := hb x (by simp)
    have h2 : x.2 ≠ .left := hl x (by simp)
    have h3 : y.2 ≠ .bottom := ht.noBottom y (by simp)
    have h4 : y.2 ≠ .left := ht.first y (by simp)
    have := angle_bottom_top (s := x.2) (t := y.2) (by cases h : x.2 <;> simp_all) (by cases h : y.2 <;> simp_all)
    have k := total_top hf ht.noBottom ht.turns ht.last
    simp only [List.cons_append, List.nil_append, anglesFrom, total_cons, this, k]
    simp only [List.length_cons]
    push_cast
    ring
  | x, z :: p, hb, hc, hl => by
    have ih := total_bottom hf ht (x := z) (p := p) (fun c hc => hb c (List.mem_cons_of_mem _ hc)) (List.isChain_cons_cons.1 hc).2
      (by simpa [List.getLast?_cons_cons] using hl)
    have := angle_bottom (hb x (by simp)) (hb z (by simp)) (List.isChain_cons_cons.1 hc).1
    simp only [List.cons_append] at ih ⊢
    simp only [anglesFrom, total_cons, this, ih]
    simp only [List.length_cons]
    push_cast
    ring

/-- The angles of a component with `k` connections add up to `(k - 2)π`, i.e., to the angles of a polygon with `k` sides. -/
theorem polygon {p q : List (ℕ × Side)} (hp : Bottom p) (hq : Top q) (hp0 : p ≠ []) (hq0 : q ≠ []) :
    total (angles (p ++ q)) = 2 * ((p ++ q).length - 2) := by
  obtain ⟨x, p, rfl⟩ := List.exists_cons_of_ne_nil hp0
  obtain ⟨y, q, rfl⟩ := List.exists_cons_of_ne_nil hq0
  have h1 : x.2 ≠ .top := hp.noTop x (by simp)
  have h2 : x.2 ≠ .right := hp.first x (by simp)
  have := total_bottom (f := x) (by cases h : x.2 <;> simp_all) hq hp.noTop hp.turns hp.last
  change total (anglesFrom x (x :: p ++ y :: q)) = _
  rw [this]
  ring

theorem total_append (l m : List (ℕ × ℕ)) : total (l ++ m) = total l + total m := by simp [total]

theorem total_filter {vertices : List ℕ} (hn : vertices.Nodup) : ∀ {l : List (ℕ × ℕ)}, (∀ a ∈ l, a.1 ∈ vertices) →
    (vertices.map fun v => ((((l.filter fun a => decide (a.1 = v)).map (·.2)).sum : ℕ) : ℤ)).sum = total l
  | [], _ => by simp [total]
  | a :: l, h => by
    have ih := total_filter hn (l := l) fun b hb => h b (List.mem_cons_of_mem _ hb)
    rw [total_cons, ← ih]
    have step : ∀ v, (((((a :: l).filter fun b => decide (b.1 = v)).map (·.2)).sum : ℕ) : ℤ) =
        (if a.1 = v then (a.2 : ℤ) else 0) + ((((l.filter fun b => decide (b.1 = v)).map (·.2)).sum : ℕ) : ℤ) := by
      intro v
      by_cases k : a.1 = v <;> simp [k]
    simp only [step]
    rw [List.sum_map_add]
    congr 1
    have ha := h a (by simp)
    clear ih step h
    induction vertices with
    | nil => simp at ha
    | cons v vs ih =>
      rw [List.nodup_cons] at hn
      rw [List.map_cons, List.sum_cons]
      by_cases k : a.1 = v
      · rw [if_pos k]
        have : (vs.map fun v => if a.1 = v then (a.2 : ℤ) else 0) = vs.map fun _ => 0 :=
          List.map_congr_left fun w hw => if_neg fun e => hn.1 (by rw [← k, e]; exact hw)
        rw [this]
        simp
      · rw [if_neg k, zero_add]
        exact ih hn.2 ((List.mem_cons.1 ha).resolve_left k)

/-- When the check of the angles passes for a decomposition into such components, then the sum of `(k - 2)π` over the components is the
total angle of the vertices of the surface. -/
theorem angles_total {vertices : List ℕ} (hn : vertices.Nodup) {surfaceAngle : ℕ → ℕ} {D : List (List (ℕ × Side))}
    (hD : ∀ c ∈ D, ∃ p q, c = p ++ q ∧ Bottom p ∧ Top q ∧ p ≠ [] ∧ q ≠ [])
    (hv : ∀ a ∈ (D.map angles).flatten, a.1 ∈ vertices) (h : anglesOk vertices surfaceAngle D = true) :
    (D.map fun c => 2 * ((c.length : ℤ) - 2)).sum = 4 * (vertices.map fun v => (surfaceAngle v : ℤ)).sum := by
  have h1 : total (D.map angles).flatten = (D.map fun c => 2 * ((c.length : ℤ) - 2)).sum := by
    clear hv h
    induction D with
    | nil => simp [total]
    | cons c D ih =>
      obtain ⟨p, q, rfl, g1, g2, g3, g4⟩ := hD c (by simp)
      rw [List.map_cons, List.flatten_cons, total_append, List.map_cons, List.sum_cons, ih fun c hc => hD c (List.mem_cons_of_mem _ hc),
        polygon g1 g2 g3 g4]
  rw [← h1, ← total_filter hn hv, ← List.sum_map_mul_left]
  congr 1
  refine List.map_congr_left fun v hv => ?_
  have := List.all_eq_true.1 h v hv
  simp only [Bool.and_eq_true, decide_eq_true_eq] at this
  have := this.2
  unfold totalAngle at this
  exact_mod_cast this

/-- The square torus, cut into one component along its sides: two connections at the bottom, and two at the top. -/
def torus : List (List (ℕ × Side)) := [[(0, .bottom), (0, .bottom), (0, .top), (0, .top)]]

example : anglesOk [0] (fun _ => 1) torus = true ∧ signs [[0, 2, 1, 3]] = true ∧ signs [[0, 2, 1]] = false := by decide

example : Bottom [((0 : ℕ), Side.left), (0, .bottom), (0, .right), (0, .left), (0, .bottom)] ∧ Top [((0 : ℕ), Side.right), (0, .top), (0, .left)] := by
  refine ⟨⟨?_, ?_, ?_, ?_⟩, ⟨?_, ?_, ?_, ?_⟩⟩ <;> simp

/-- The hypotheses are met by the torus. -/
example : (∀ c ∈ torus, ∃ p q, c = p ++ q ∧ Bottom p ∧ Top q ∧ p ≠ [] ∧ q ≠ []) ∧
    (∀ a ∈ (torus.map angles).flatten, a.1 ∈ [0]) := by
  refine ⟨?_, by decide⟩
  intro c hc
  rw [torus, List.mem_singleton] at hc
  refine ⟨[(0, .bottom), (0, .bottom)], [(0, .top), (0, .top)], hc, ⟨?_, ?_, ?_, ?_⟩, ⟨?_, ?_, ?_, ?_⟩, by simp, by simp⟩ <;> simp

/-- The sides of vectors with respect to a vertical direction. -/
example : classify (⟨0, 1⟩ : Vec ℤ) ⟨1, 1⟩ = .ok .bottom ∧ classify (⟨0, 1⟩ : Vec ℤ) ⟨0, -2⟩ = .ok .left := by
  refine ⟨?_, ?_⟩ <;> rfl

end Verif.C155
