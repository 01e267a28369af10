import Verif.Model.FlowTriangulation
import Verif.Lemmas.Vector
import Verif.Lemmas.HalfEdge

/-!
# Clipping ears of polygons
-/

namespace Verif.FlowTriangulation

open Verif Vec

variable {T : Type} [CommRing T] [LinearOrder T] [IsStrictOrderedRing T]
variable {K : Type*} [Field K] [LinearOrder K] [IsStrictOrderedRing K]

/-- The entries are for the half edges `0, …, size - 1`, and odd. -/
structure Vectors.OK (V : Vectors T) : Prop where
  known : ∀ e, (V.entry e).isSome ↔ e < V.size
  even : V.size % 2 = 0
  odd : ∀ e, V.get (neg e) = -V.get e

theorem Vectors.touch_eq {V : Vectors T} {e : HE} (h : (V.entry e).isSome) : V.touch e = V := if_pos h

theorem Vectors.OK.fresh {V : Vectors T} (h : V.OK) : V.fresh = V.size := by
  have := h.even
  unfold Vectors.fresh
  omega

theorem Vectors.OK.get_of_le {V : Vectors T} (h : V.OK) {e : HE} (he : V.size ≤ e) : V.get e = 0 := by
  have : ¬ (V.entry e).isSome := fun hs => absurd ((h.known e).1 hs) (by omega)
  unfold Vectors.get
  rw [Option.not_isSome_iff_eq_none.1 this]
  rfl

/-- The state after adding a new edge. -/
def Vectors.push (V : Vectors T) (w : Vec T) : Vectors T :=
  (V.set (neg V.size) w).set V.size (-(V.set (neg V.size) w).get (neg V.size))

theorem neg_size {n : ℕ} (h : n % 2 = 0) : neg n = n + 1 := by rw [neg_def, if_pos h]

theorem Vectors.OK.push {V : Vectors T} (h : V.OK) (w : Vec T) :
    (V.push w).OK ∧ (V.push w).size = V.size + 2 ∧ (V.push w).get V.size = -w ∧ (V.push w).get (neg V.size) = w ∧
      ∀ e < V.size, (V.push w).get e = V.get e := by
  have hn := neg_size h.even
  have n1 : (V.entry (V.size + 1)).isSome = false := by
    rw [← Bool.not_eq_true, h.known]; omega
  have n2 : (V.entry V.size).isSome = false := by
    rw [← Bool.not_eq_true, h.known]; omega
  have hsize : (V.push w).size = V.size + 2 := by
    simp [Vectors.push, Vectors.set, hn, n1, n2]
  have hentry : ∀ e, (V.push w).entry e = if e = V.size then some (-w) else if e = V.size + 1 then some w else V.entry e := by
    intro e
    unfold Vectors.push Vectors.set Vectors.get
    simp only [hn, Function.update_self, Option.getD_some, Function.update_apply]
  have hget : ∀ e, (V.push w).get e = if e = V.size then -w else if e = V.size + 1 then w else V.get e := by
    intro e
    unfold Vectors.get
    rw [hentry]
    split_ifs <;> rfl
  refine ⟨⟨fun e => ?_, by rw [hsize]; have := h.even; omega, fun e => ?_⟩, hsize, ?_, ?_, fun e he => ?_⟩
  · rw [hentry, hsize]
    split_ifs with h1 h2
    · simp [h1]
    · simp [h2]
    · rw [h.known]; omega
  · rw [hget, hget]
    have k1 : neg e = V.size ↔ e = V.size + 1 := by rw [neg_eq_comm', hn]
    have k2 : neg e = V.size + 1 ↔ e = V.size := by
      rw [← hn]; exact neg_inj'
    simp only [k1, k2]
    split_ifs with h1 h2 h2
    · omega
    · rfl
    · simp
    · exact h.odd e
  · rw [hget, if_pos rfl]
  · rw [hn, hget, if_neg (by omega), if_pos rfl]
  · rw [hget, if_neg (by omega), if_neg (by omega)]

/-- A half edge that goes from one point to another. -/
structure Arc (T : Type) where
  he : HE
  p : Vec T
  q : Vec T

/-- The vectors are consistent with the points. -/
structure Valid (V : Vectors T) (arcs : List (Arc T)) : Prop where
  ok : V.OK
  lt : ∀ a ∈ arcs, a.he < V.size
  get : ∀ a ∈ arcs, V.get a.he = a.q - a.p

theorem Valid.sub {V : Vectors T} {arcs arcs' : List (Arc T)} (h : Valid V arcs) (hs : ∀ a ∈ arcs', a ∈ arcs) : Valid V arcs' :=
  ⟨h.ok, fun a ha => h.lt a (hs a ha), fun a ha => h.get a (hs a ha)⟩

theorem edge_ne {V : Vectors T} (h : V.OK) {f g : HE} (hc : 0 < cross (V.get f) (V.get g)) : f / 2 ≠ g / 2 := by
  intro he
  have : f = g ∨ f = neg g := by
    rw [neg_def]
    split_ifs <;> omega
  rcases this with rfl | rfl
  · rw [cross_self] at hc; exact lt_irrefl _ hc
  · rw [h.odd, cross_neg_left, cross_self, neg_zero] at hc; exact lt_irrefl _ hc

theorem face_eq (A : Option (Approx T K)) (dbg : Bool) {st : State T} (h : st.vectors.OK) {f g : HE} (hf : f < st.vectors.size)
    (hg : g < st.vectors.size) (hc : 0 < cross (st.vectors.get f) (st.vectors.get g)) :
    face A dbg st f g = .ok (st.vectors.size, ⟨st.vectors.push (st.vectors.get f + st.vectors.get g),
      st.faces ++ [(st.vectors.size, f, g)]⟩) := by
  have h1 := (h.known f).2 hf
  have h2 := (h.known g).2 hg
  have hm := h.even
  have h3 := edge_ne h hc
  have hne : st.vectors.size / 2 ≠ f / 2 ∧ st.vectors.size / 2 ≠ g / 2 ∧ f / 2 ≠ g / 2 := ⟨by omega, by omega, h3⟩
  unfold face
  simp only [h.fresh]
  rw [if_neg (by simp [hne]), if_neg (by simp [h1, h2])]
  simp only [Vectors.touch_eq h1, Vectors.touch_eq h2]
  rw [if_neg (by rw [ccw_eq, ccwExact_ccw.2 hc]; simp)]
  rfl

/-- A sequence of steps, each clips an ear of a polygon. The polygon is given by the half edges on its boundary. -/
inductive Clips : State T → List (Arc T) → State T → List (Arc T) → Prop
  | refl (st arcs) : Clips st arcs st arcs
  | perm {st arcs st' arcs' arcs''} : Clips st arcs st' arcs' → arcs'.Perm arcs'' → Clips st arcs st' arcs''
  | clip {st arcs st' f g p q r rest} : Clips st arcs st' (⟨f, p, q⟩ :: ⟨g, q, r⟩ :: rest) → 0 < cross (q - p) (r - q) →
      Clips st arcs ⟨st'.vectors.push (st'.vectors.get f + st'.vectors.get g), st'.faces ++ [(st'.vectors.size, f, g)]⟩
        (⟨neg st'.vectors.size, p, r⟩ :: rest)

theorem Clips.trans {st : State T} {arcs st' arcs' st'' arcs''} (h : Clips st arcs st' arcs') (h' : Clips st' arcs' st'' arcs'') :
    Clips st arcs st'' arcs'' := by
  induction h' with
  | refl => exact h
  | perm _ hp ih => exact .perm ih hp
  | clip _ hc ih => exact .clip ih hc

theorem Valid.perm {V : Vectors T} {arcs arcs' : List (Arc T)} (h : Valid V arcs) (hp : arcs.Perm arcs') : Valid V arcs' :=
  h.sub fun _ ha => hp.mem_iff.2 ha

theorem Valid.clip {V : Vectors T} {f g : HE} {p q r : Vec T} {rest : List (Arc T)}
    (h : Valid V (⟨f, p, q⟩ :: ⟨g, q, r⟩ :: rest)) :
    Valid (V.push (V.get f + V.get g)) (⟨neg V.size, p, r⟩ :: rest) := by
  obtain ⟨h1, h2, h3, h4, h5⟩ := h.ok.push (V.get f + V.get g)
  refine ⟨h1, ?_, ?_⟩
  · intro a ha
    rw [h2]
    rcases List.mem_cons.1 ha with rfl | ha
    · change neg V.size < _
      rw [neg_size h.ok.even]; omega
    · have := h.lt a (List.mem_cons_of_mem _ (List.mem_cons_of_mem _ ha))
      omega
  · intro a ha
    rcases List.mem_cons.1 ha with rfl | ha
    · change (V.push _).get (neg V.size) = r - p
      have e1 := h.get ⟨f, p, q⟩ (by simp)
      have e2 := h.get ⟨g, q, r⟩ (by simp)
      rw [h4, e1, e2]
      simp only
      abel
    · have hm : a ∈ ⟨f, p, q⟩ :: ⟨g, q, r⟩ :: rest := List.mem_cons_of_mem _ (List.mem_cons_of_mem _ ha)
      rw [h5 _ (h.lt a hm), h.get a hm]

theorem Clips.valid {st : State T} {arcs st' arcs'} (h : Clips st arcs st' arcs') (hv : Valid st.vectors arcs) :
    Valid st'.vectors arcs' := by
  induction h with
  | refl => exact hv
  | perm _ hp ih => exact ih.perm hp
  | clip _ hc ih => exact ih.clip

end Verif.FlowTriangulation
