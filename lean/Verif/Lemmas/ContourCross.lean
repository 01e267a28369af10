import Verif.Lemmas.ContourConnection

/-!
# The left and the right of connections of contours
-/

set_option linter.unusedSectionVars false

namespace Verif.Collapsed

open Spec Contour Vertical Flow

variable {T : Type} [CommRing T] [LinearOrder T] [IsStrictOrderedRing T]
variable {K : Type*} [Field K] [LinearOrder K] [IsStrictOrderedRing K]
variable {C : Collapsed T}

/-- The connections point up. -/
def AllUp (A : Option (Approx T K)) (C : Collapsed T) (l : List (Vec T)) : Prop :=
  ∀ k ∈ l, Vec.ccw A C.vertical k = .collinear ∧ Vec.orientation A C.vertical k = .same

/-- The connections point down. -/
def AllDown (A : Option (Approx T K)) (C : Collapsed T) (l : List (Vec T)) : Prop :=
  ∀ k ∈ l, Vec.ccw A C.vertical k = .collinear ∧ Vec.orientation A C.vertical k = .opposite ∧ Vec.dot C.vertical k < 0

theorem AllUp.ok {A : Option (Approx T K)} {l : List (Vec T)} (h : AllUp A C l) : allVertical A C .same l = true := by
  unfold allVertical
  rw [List.all_eq_true]
  exact fun k hk => decide_eq_true (h k hk)

theorem AllDown.ok {A : Option (Approx T K)} {l : List (Vec T)} (h : AllDown A C l) : allVertical A C .opposite l = true := by
  unfold allVertical
  rw [List.all_eq_true]
  exact fun k hk => decide_eq_true ⟨(h k hk).1, (h k hk).2.1⟩

variable (A : Option (Approx T K)) (dbg : Bool) {d : Component} {fuel : ℕ}

theorem Good.over_up (h : C.Good) {l : List HE} (hl : ∀ z ∈ l, z < C.tri.size) (hp : ∀ z ∈ l, across C z < 0) : AllUp A C (over C l) := by
  intro k hk
  obtain ⟨z, hz, hk⟩ := List.mem_flatMap.1 hk
  have h1 := h.inv.vert z (mem_net.2 (hl z hz)) k hk
  refine ⟨(Vertical.collinear_iff A _ _).2 h1.1, (Vec.orientation_same A).2 ?_⟩
  have h2 : Vec.dot k C.vertical * across C z < 0 := h1.2
  have hd : Vec.dot k C.vertical = Vec.dot C.vertical k := by unfold Vec.dot; ring
  rw [hd] at h2
  rcases mul_neg_iff.1 h2 with k | k
  · exact k.1
  · exact absurd (hp z hz) k.2.not_gt

theorem Good.over_down (h : C.Good) {l : List HE} (hl : ∀ z ∈ l, z < C.tri.size) (hp : ∀ z ∈ l, 0 < across C z) : AllDown A C (over C l) := by
  intro k hk
  obtain ⟨z, hz, hk⟩ := List.mem_flatMap.1 hk
  have h1 := h.inv.vert z (mem_net.2 (hl z hz)) k hk
  have h2 : Vec.dot k C.vertical * across C z < 0 := h1.2
  have hd : Vec.dot k C.vertical = Vec.dot C.vertical k := by unfold Vec.dot; ring
  rw [hd] at h2
  have h3 : Vec.dot C.vertical k < 0 := by
    rcases mul_neg_iff.1 h2 with k | k
    · exact absurd (hp z hz) k.2.not_gt
    · exact k.1
  exact ⟨(Vertical.collinear_iff A _ _).2 h1.1, (Vec.orientation_eq A h3.ne).trans (Vec.orientationExact_opposite.2 h3), h3⟩

theorem while_append {α : Type} {q : α → Bool} {a b : List α} (ha : ∀ x ∈ a, q x = true) (hb : ∀ x ∈ b, q x = false) :
    (a ++ b).takeWhile q = a ∧ (a ++ b).dropWhile q = b := by
  induction a with
  | nil =>
    cases b with
    | nil => exact ⟨rfl, rfl⟩
    | cons x b =>
      have := hb x (by simp)
      constructor
      · rw [List.nil_append, List.takeWhile_cons, this]; rfl
      · rw [List.nil_append, List.dropWhile_cons, this]; rfl
  | cons x a ih =>
    have h1 := ha x (by simp)
    obtain ⟨h2, h3⟩ := ih fun y hy => ha y (by simp [hy])
    constructor
    · rw [List.cons_append, List.takeWhile_cons, h1, if_pos rfl, h2]
    · rw [List.cons_append, List.dropWhile_cons, h1, if_pos rfl, h3]

theorem cross_top {x y : HE} {l m : List (Vec T)} (h : turnTo A dbg C fuel d ⟨x, true⟩ ⟨y, true⟩ = pure (l ++ m)) (hl : AllDown A C l)
    (hm : AllUp A C m) : crossTo A dbg C fuel d ⟨x, true⟩ ⟨y, true⟩ = pure (l, m) := by
  have hd : distribute A C ⟨x, true⟩ ⟨y, true⟩ (l ++ m) = (l, m) := by
    have := while_append (q := fun k => decide (Vec.orientation A C.vertical k ≠ .same)) (a := l) (b := m)
      (fun k hk => by simp [(hl k hk).2]) (fun k hk => by simp [(hm k hk).2])
    unfold distribute
    simp only
    rw [this.1, this.2]
  unfold crossTo
  rw [h]
  simp [hd, hl.ok, hm.ok]

theorem cross_bottom {x y : HE} {l m : List (Vec T)} (h : turnTo A dbg C fuel d ⟨x, false⟩ ⟨y, false⟩ = pure (l ++ m)) (hl : AllUp A C l)
    (hm : AllDown A C m) : crossTo A dbg C fuel d ⟨x, false⟩ ⟨y, false⟩ = pure (l, m) := by
  have hd : distribute A C ⟨x, false⟩ ⟨y, false⟩ (l ++ m) = (l, m) := by
    have := while_append (q := fun k => decide (Vec.orientation A C.vertical k ≠ .opposite)) (a := l) (b := m)
      (fun k hk => by simp [(hl k hk).2]) (fun k hk => by simp [(hm k hk).2])
    unfold distribute
    simp only
    rw [this.1, this.2]
  unfold crossTo
  rw [h]
  simp [hd, hl.ok, hm.ok]

theorem cross_right {x y : HE} {l : List (Vec T)} (h : turnTo A dbg C fuel d ⟨x, false⟩ ⟨y, true⟩ = pure l) (hl : AllUp A C l) :
    crossTo A dbg C fuel d ⟨x, false⟩ ⟨y, true⟩ = pure (l, []) := by
  unfold crossTo
  rw [h]
  simp [distribute, hl.ok, show ∀ o, allVertical A C o ([] : List (Vec T)) = true from fun _ => rfl]

theorem cross_left {x y : HE} {l : List (Vec T)} (h : turnTo A dbg C fuel d ⟨x, true⟩ ⟨y, false⟩ = pure l) (hl : AllDown A C l) :
    crossTo A dbg C fuel d ⟨x, true⟩ ⟨y, false⟩ = pure (l, []) := by
  unfold crossTo
  rw [h]
  simp [distribute, hl.ok, show ∀ o, allVertical A C o ([] : List (Vec T)) = true from fun _ => rfl]

/-- What is between a connection and the previous one, as far as it belongs to the connection. -/
structure Before (A : Option (Approx T K)) (dbg : Bool) (C : Collapsed T) (fuel : ℕ) (d : Component) (x : Connection) (l : List (Vec T)) :
    Prop where
  cross : ∃ y m, previousInPerimeter A dbg C d x.halfEdge = .ok y ∧ crossTo A dbg C fuel d y x = pure (m, l)
  dir : if x.top then AllUp A C l else AllDown A C l

/-- What is between a connection and the next one, as far as it belongs to the connection. -/
structure After (A : Option (Approx T K)) (dbg : Bool) (C : Collapsed T) (fuel : ℕ) (d : Component) (x : Connection) (l : List (Vec T)) :
    Prop where
  cross : ∃ y m, nextInPerimeter A dbg C d x.halfEdge = .ok y ∧ crossTo A dbg C fuel d x y = pure (l, m)
  dir : if x.top then AllDown A C l else AllUp A C l

variable {A dbg}

theorem Before.left {x : HE} {l : List (Vec T)} (h : Before A dbg C fuel d ⟨x, false⟩ l) : left A dbg C fuel d ⟨x, false⟩ = pure l := by
  obtain ⟨⟨y, m, h1, h2⟩, h3⟩ := h
  unfold Collapsed.left
  rw [h1]
  simp only [Bool.false_eq_true, if_false] at h3 ⊢
  simp [show (total (.ok y) : Run Connection) = pure y from rfl, h2, AllDown.ok h3]

theorem Before.right {x : HE} {l : List (Vec T)} (h : Before A dbg C fuel d ⟨x, true⟩ l) : right A dbg C fuel d ⟨x, true⟩ = pure l := by
  obtain ⟨⟨y, m, h1, h2⟩, h3⟩ := h
  unfold Collapsed.right
  rw [h1]
  simp only [if_true] at h3 ⊢
  simp [show (total (.ok y) : Run Connection) = pure y from rfl, h2, AllUp.ok h3]

theorem After.left {x : HE} {l : List (Vec T)} (h : After A dbg C fuel d ⟨x, true⟩ l) : left A dbg C fuel d ⟨x, true⟩ = pure l := by
  obtain ⟨⟨y, m, h1, h2⟩, h3⟩ := h
  unfold Collapsed.left
  rw [h1]
  simp only [if_true] at h3 ⊢
  simp [show (total (.ok y) : Run Connection) = pure y from rfl, h2, AllDown.ok h3]

theorem After.right {x : HE} {l : List (Vec T)} (h : After A dbg C fuel d ⟨x, false⟩ l) : right A dbg C fuel d ⟨x, false⟩ = pure l := by
  obtain ⟨⟨y, m, h1, h2⟩, h3⟩ := h
  unfold Collapsed.right
  rw [h1]
  simp only [Bool.false_eq_true, if_false] at h3 ⊢
  simp [show (total (.ok y) : Run Connection) = pure y from rfl, h2, AllUp.ok h3]

/-- The vector of a connection on the perimeter. -/
def stride (C : Collapsed T) (x : Connection) : Vec T := if x.top then -C.vec (neg x.halfEdge) else C.vec x.halfEdge

theorem perimeter_bottom {x : HE} {l m : List (Vec T)} (hb : Before A dbg C fuel d ⟨x, false⟩ l) (ha : After A dbg C fuel d ⟨x, false⟩ m)
    (hx : 0 < across C x) : connectionPerimeter A dbg C fuel d ⟨x, false⟩ = pure (l ++ [stride C ⟨x, false⟩] ++ m) ∧
      horizontal A dbg C ⟨x, false⟩ = .ok (C.vec x) := by
  have hh : horizontal A dbg C ⟨x, false⟩ = .ok (C.vec x) := by
    unfold horizontal fromHalfEdge
    simp only [Bool.false_eq_true, if_false]
    rw [ccw_clockwise A hx, if_neg (by simp)]
  refine ⟨?_, hh⟩
  have h1 : ∀ k ∈ l ++ [C.vec x] ++ m, Vec.ccw A C.vertical k ≠ .counterclockwise := by
    have k1 := hb.dir
    have k2 := ha.dir
    simp only [Bool.false_eq_true, if_false] at k1 k2
    intro k hk
    simp only [List.mem_append, List.mem_singleton] at hk
    rcases hk with (hk | rfl) | hk
    · rw [(k1 k hk).1]; simp
    · rw [ccw_clockwise A hx]; simp
    · rw [(k2 k hk).1]; simp
  have h2 : ((l ++ [C.vec x] ++ m).any fun k => decide (Vec.ccw A C.vertical k = .counterclockwise)) = false := by
    rw [List.any_eq_false]
    intro k hk
    simpa using h1 k hk
  unfold connectionPerimeter
  rw [hb.left, ha.right, hh]
  simp only [Bool.false_eq_true, if_false, pure_bind, show (total (.ok (C.vec x)) : Run (Vec T)) = pure (C.vec x) from rfl]
  rw [h2]
  simp [stride]

theorem perimeter_top {x : HE} {l m : List (Vec T)} (hb : Before A dbg C fuel d ⟨x, true⟩ l) (ha : After A dbg C fuel d ⟨x, true⟩ m)
    (hx : 0 < across C (neg x)) : connectionPerimeter A dbg C fuel d ⟨x, true⟩ = pure (l ++ [stride C ⟨x, true⟩] ++ m) ∧
      horizontal A dbg C ⟨x, true⟩ = .ok (C.vec (neg x)) := by
  have hh : horizontal A dbg C ⟨x, true⟩ = .ok (C.vec (neg x)) := by
    unfold horizontal fromHalfEdge
    simp only [if_true]
    rw [ccw_clockwise A hx, if_neg (by simp)]
  refine ⟨?_, hh⟩
  have hx' : Vec.cross (-C.vec (neg x)) C.vertical < 0 := by
    have : Vec.cross (-C.vec (neg x)) C.vertical = -Vec.cross (C.vec (neg x)) C.vertical := by
      unfold Vec.cross
      simp only [Vec.neg_x, Vec.neg_y]
      ring
    rw [this]
    exact neg_neg_of_pos hx
  have h1 : ∀ k ∈ l ++ [-C.vec (neg x)] ++ m, Vec.ccw A C.vertical k ≠ .clockwise := by
    have k1 := hb.dir
    have k2 := ha.dir
    simp only [if_true] at k1 k2
    intro k hk
    simp only [List.mem_append, List.mem_singleton] at hk
    rcases hk with (hk | rfl) | hk
    · rw [(k1 k hk).1]; simp
    · rw [ccw_counterclockwise A hx']; simp
    · rw [(k2 k hk).1]; simp
  have h2 : ((l ++ [-C.vec (neg x)] ++ m).any fun k => decide (Vec.ccw A C.vertical k = .clockwise)) = false := by
    rw [List.any_eq_false]
    intro k hk
    simpa using h1 k hk
  unfold connectionPerimeter
  rw [hb.right, ha.left, hh]
  simp only [if_true, pure_bind, show (total (.ok (C.vec (neg x))) : Run (Vec T)) = pure (C.vec (neg x)) from rfl]
  rw [h2]
  simp [stride]

end Verif.Collapsed
