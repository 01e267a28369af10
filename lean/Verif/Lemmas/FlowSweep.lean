import Verif.Lemmas.FlowGeometry
import Mathlib.Data.List.Infix

/-!
# Triangulating monotone polygons
-/

namespace Verif.FlowTriangulation

open Verif Vec

variable {T : Type} [CommRing T] [LinearOrder T] [IsStrictOrderedRing T]
variable {K : Type*} [Field K] [LinearOrder K] [IsStrictOrderedRing K]

/-- A vertex and its position. -/
structure Placed (T : Type) where
  v : Vertex T
  p : Vec T

/-- The half edge attached to a vertex `b` that comes after a vertex at `a`. -/
def arc (a : Vec T) (b : Placed T) : Arc T :=
  if b.v.bottom then ⟨b.v.halfEdge, a, b.p⟩ else ⟨b.v.halfEdge, b.p, a⟩

/-- The half edges of the funnel. -/
def arcsS : List (Placed T) → List (Arc T)
  | a :: b :: l => arc a.p b :: arcsS (b :: l)
  | _ => []

/-- The half edges of the funnel when listed from the back. -/
def arcsB : List (Placed T) → List (Arc T)
  | b :: a :: l => arc a.p b :: arcsB (a :: l)
  | _ => []

/-- The half edges of vertices that have not been processed yet. -/
def arcsR (side : Bool) (v0 vk : Vec T) : List (Placed T) → List (Arc T)
  | [] => []
  | u :: R => if u.v.bottom = side then arc vk u :: arcsR side v0 u.p R else arc v0 u :: arcsR (!side) vk u.p R

omit [LinearOrder T] [IsStrictOrderedRing T] in
theorem arcsS_concat (l : List (Placed T)) (a b : Placed T) : arcsS (l ++ [a, b]) = arcsS (l ++ [a]) ++ [arc a.p b] := by
  induction l with
  | nil => rfl
  | cons x l ih =>
    cases l with
    | nil => rfl
    | cons y l =>
      change arc x.p y :: arcsS (y :: l ++ [a, b]) = _
      rw [ih]; rfl

omit [LinearOrder T] [IsStrictOrderedRing T] in
theorem arcsS_reverse : ∀ l : List (Placed T), (arcsS l.reverse).Perm (arcsB l)
  | [] => .refl _
  | [_] => .refl _
  | b :: a :: l => by
    have : (b :: a :: l).reverse = l.reverse ++ [a, b] := by simp
    rw [this, arcsS_concat]
    have ih := arcsS_reverse (a :: l)
    rw [List.reverse_cons] at ih
    exact (List.perm_append_comm).trans (List.Perm.cons _ ih)

/-- The polygon has been triangulated. -/
def Done (st : State T) (arcs : List (Arc T)) (st' : State T) : Prop :=
  ∃ st1 f g h p q r, Clips st arcs st1 [⟨f, p, q⟩, ⟨g, q, r⟩, ⟨h, r, p⟩] ∧ 0 < cross (q - p) (r - q) ∧
    st' = ⟨st1.vectors, st1.faces ++ [(f, g, h)]⟩

theorem Done.trans {st : State T} {arcs st' arcs' st''} (h : Clips st arcs st' arcs') (h' : Done st' arcs' st'') :
    Done st arcs st'' := by
  obtain ⟨st1, f, g, k, p, q, r, h1, h2⟩ := h'
  exact ⟨st1, f, g, k, p, q, r, h.trans h1, h2⟩

theorem clip_face (A : Option (Approx T K)) (dbg : Bool) {st : State T} {f g : HE} {p q r : Vec T} {rest : List (Arc T)}
    (h : Valid st.vectors (⟨f, p, q⟩ :: ⟨g, q, r⟩ :: rest)) (hc : 0 < cross (q - p) (r - q)) :
    ∃ st', face A dbg st f g = .ok (st.vectors.size, st') ∧
      Clips st (⟨f, p, q⟩ :: ⟨g, q, r⟩ :: rest) st' (⟨neg st.vectors.size, p, r⟩ :: rest) := by
  have g1 := h.get ⟨f, p, q⟩ (by simp)
  have g2 := h.get ⟨g, q, r⟩ (by simp)
  refine ⟨_, face_eq A dbg h.ok (h.lt ⟨f, p, q⟩ (by simp)) (h.lt ⟨g, q, r⟩ (by simp)) ?_, .clip (.refl _ _) hc⟩
  rw [g1, g2]; exact hc

theorem clip_opposite (A : Option (Approx T K)) (dbg : Bool) {st : State T} {side : Bool} {a : Vec T} {u v : Placed T}
    {rest : List (Arc T)} (hu : u.v.bottom = !side) (hv : v.v.bottom = side) (hs : Sees side a v.p u.p)
    (h : Valid st.vectors (arc a v :: arc a u :: rest)) :
    ∃ st' u', clip A dbg st u.v v.v = .ok (st', u'.v) ∧ u'.p = u.p ∧ u'.v.bottom = u.v.bottom ∧
      Clips st (arc a v :: arc a u :: rest) st' (arc v.p u' :: rest) := by
  unfold Sees at hs
  cases side
  · simp only [Bool.not_false] at hu
    simp only [Bool.false_eq_true, if_false] at hs
    have e1 : arc a v = ⟨v.v.halfEdge, v.p, a⟩ := by simp [arc, hv]
    have e2 : arc a u = ⟨u.v.halfEdge, a, u.p⟩ := by simp [arc, hu]
    rw [e1, e2] at h ⊢
    obtain ⟨st', h1, h2⟩ := clip_face A dbg h (by
      have : a - v.p = -(v.p - a) := by abel
      rw [this, cross_neg_left]; linarith)
    refine ⟨st', ⟨{ u.v with halfEdge := neg st.vectors.size }, u.p⟩, ?_, rfl, rfl, ?_⟩
    · unfold clip
      rw [if_pos hu, h1]; rfl
    · simpa [arc, hu] using h2
  · simp only [Bool.not_true] at hu
    simp only [if_true] at hs
    have e1 : arc a v = ⟨v.v.halfEdge, a, v.p⟩ := by simp [arc, hv]
    have e2 : arc a u = ⟨u.v.halfEdge, u.p, a⟩ := by simp [arc, hu]
    rw [e1, e2] at h ⊢
    obtain ⟨st', h1, h2⟩ := clip_face A dbg (h.perm (.swap _ _ _)) (by
      have : a - u.p = -(u.p - a) := by abel
      rw [this, cross_neg_left, cross_comm]; linarith)
    refine ⟨st', ⟨{ u.v with halfEdge := neg st.vectors.size }, u.p⟩, ?_, rfl, rfl, ?_⟩
    · unfold clip
      rw [if_neg (by simp [hu]), h1]; rfl
    · refine (Clips.perm (.refl _ _) (.swap _ _ _)).trans ?_
      simpa [arc, hu] using h2

theorem clip_same (A : Option (Approx T K)) (dbg : Bool) {st : State T} {side : Bool} {a : Vec T} {u v : Placed T}
    {rest : List (Arc T)} (hu : u.v.bottom = side) (hv : v.v.bottom = side) (hs : ¬ Bend side a v.p u.p)
    (h : Valid st.vectors (arc a v :: arc v.p u :: rest)) :
    ∃ st' u', clip A dbg st u.v v.v = .ok (st', u'.v) ∧ u'.p = u.p ∧ u'.v.bottom = u.v.bottom ∧
      Clips st (arc a v :: arc v.p u :: rest) st' (arc a u' :: rest) := by
  unfold Bend at hs
  cases side
  · simp only [Bool.false_eq_true, if_false, not_le] at hs
    have e1 : arc a v = ⟨v.v.halfEdge, v.p, a⟩ := by simp [arc, hv]
    have e2 : arc v.p u = ⟨u.v.halfEdge, u.p, v.p⟩ := by simp [arc, hu]
    rw [e1, e2] at h ⊢
    obtain ⟨st', h1, h2⟩ := clip_face A dbg (h.perm (.swap _ _ _)) (by
      have e3 : v.p - u.p = -(u.p - v.p) := by abel
      have e4 : a - v.p = -(v.p - a) := by abel
      rw [e3, e4, cross_neg_left, cross_neg_right, cross_comm]; linarith)
    refine ⟨st', ⟨{ u.v with halfEdge := neg st.vectors.size }, u.p⟩, ?_, rfl, rfl, ?_⟩
    · unfold clip
      rw [if_neg (by simp [hu]), h1]; rfl
    · refine (Clips.perm (.refl _ _) (.swap _ _ _)).trans ?_
      simpa [arc, hu] using h2
  · simp only [if_true, not_le] at hs
    have e1 : arc a v = ⟨v.v.halfEdge, a, v.p⟩ := by simp [arc, hv]
    have e2 : arc v.p u = ⟨u.v.halfEdge, v.p, u.p⟩ := by simp [arc, hu]
    rw [e1, e2] at h ⊢
    obtain ⟨st', h1, h2⟩ := clip_face A dbg h hs
    refine ⟨st', ⟨{ u.v with halfEdge := neg st.vectors.size }, u.p⟩, ?_, rfl, rfl, ?_⟩
    · unfold clip
      rw [if_pos hu, h1]; rfl
    · simpa [arc, hu] using h2

/-- The vertex `u` is on the other side of all segments of the funnel. -/
def AllSee (side : Bool) (u : Vec T) (S : List (Placed T)) : Prop := S.IsChain fun a b => Sees side a.p b.p u

theorem opposite_spec (A : Option (Approx T K)) (dbg : Bool) {side : Bool} {S : List (Placed T)} :
    ∀ {a u : Placed T} {st : State T} {rest : List (Arc T)}, (∀ b ∈ S, b.v.bottom = side) → u.v.bottom = !side →
    AllSee side u.p (a :: S) → Valid st.vectors (arcsS (a :: S) ++ arc a.p u :: rest) →
    ∃ st' u', opposite A dbg none st u.v ((a :: S).map Placed.v) = .ok (st', u'.v, [((a :: S).getLast (by simp)).v]) ∧
      u'.p = u.p ∧ u'.v.bottom = u.v.bottom ∧
      Clips st (arcsS (a :: S) ++ arc a.p u :: rest) st' (arc ((a :: S).getLast (by simp)).p u' :: rest) := by
  induction S with
  | nil =>
    intro a u st rest _ _ _ _
    exact ⟨st, u, rfl, rfl, rfl, .refl _ _⟩
  | cons b S ih =>
    intro a u st rest hS hu hs hv
    have hp : (arcsS (a :: b :: S) ++ arc a.p u :: rest).Perm (arc a.p b :: arc a.p u :: (arcsS (b :: S) ++ rest)) :=
      List.Perm.cons _ List.perm_middle
    obtain ⟨hs1, hs2⟩ := List.isChain_cons_cons.1 hs
    obtain ⟨st1, u1, h1, h2, h3, h4⟩ := clip_opposite A dbg hu (hS b (by simp)) hs1 (hv.perm hp)
    have c1 : Clips st (arcsS (a :: b :: S) ++ arc a.p u :: rest) st1 (arcsS (b :: S) ++ arc b.p u1 :: rest) :=
      ((Clips.perm (.refl _ _) hp).trans h4).perm List.perm_middle.symm
    obtain ⟨st', u', g1, g2, g3, g4⟩ := ih (fun x hx => hS x (by simp [hx])) (h3.trans hu) (by rw [h2]; exact hs2) (c1.valid hv)
    refine ⟨st', u', ?_, g2.trans h2, g3.trans h3, ?_⟩
    · rw [List.map_cons, List.map_cons, opposite]
      · rw [h1]
        simp only [bind, Except.bind]
        rw [← List.map_cons, g1, List.getLast_cons_cons]
      · intro l hl
        cases hl
    · rw [List.getLast_cons_cons]
      exact c1.trans g4

theorem finish_eq (dbg : Bool) (st : State T) {u v l : Vertex T} (hu : u.bottom = true) (hl : l.bottom = false) :
    finish dbg st u v l = .ok ⟨st.vectors, st.faces ++ [(v.halfEdge, u.halfEdge, l.halfEdge)]⟩ := by
  unfold finish
  rw [if_neg (by simp [hu, hl])]

theorem opposite_final (A : Option (Approx T K)) (dbg : Bool) {l : Vertex T} (hl : l.bottom = false) {S : List (Placed T)} :
    ∀ {a b u : Placed T} {st : State T}, (∀ x ∈ b :: S, x.v.bottom = false) → u.v.bottom = true →
    AllSee false u.p (a :: b :: S) →
    Valid st.vectors (arcsS (a :: b :: S) ++ [arc a.p u, ⟨l.halfEdge, u.p, ((b :: S).getLast (by simp)).p⟩]) →
    ∃ st' r, opposite A dbg (some l) st u.v ((a :: b :: S).map Placed.v) = .ok (st', r) ∧ r.2 ≠ [] ∧
      Done st (arcsS (a :: b :: S) ++ [arc a.p u, ⟨l.halfEdge, u.p, ((b :: S).getLast (by simp)).p⟩]) st' := by
  induction S with
  | nil =>
    intro a b u st hS hu hs hv
    obtain ⟨hs1, hs2⟩ := List.isChain_cons_cons.1 hs
    refine ⟨_, (u.v, [b.v]), ?_, by simp, st, b.v.halfEdge, u.v.halfEdge, l.halfEdge, b.p, a.p, u.p, ?_, ?_, rfl⟩
    · rw [List.map_cons, List.map_cons, List.map_nil, opposite, finish_eq dbg st hu hl]
      rfl
    · have : arcsS [a, b] = [⟨b.v.halfEdge, b.p, a.p⟩] := by simp [arcsS, arc, hS b (by simp)]
      rw [this]
      simpa [arc, hu] using Clips.refl _ _
    · unfold Sees at hs1
      simp only [Bool.false_eq_true, if_false] at hs1
      have : a.p - b.p = -(b.p - a.p) := by abel
      rw [this, cross_neg_left]; linarith
  | cons c S ih =>
    intro a b u st hS hu hs hv
    have hp : (arcsS (a :: b :: c :: S) ++ [arc a.p u, ⟨l.halfEdge, u.p, ((b :: c :: S).getLast (by simp)).p⟩]).Perm
        (arc a.p b :: arc a.p u :: (arcsS (b :: c :: S) ++ [⟨l.halfEdge, u.p, ((b :: c :: S).getLast (by simp)).p⟩])) :=
      List.Perm.cons _ List.perm_middle
    obtain ⟨hs1, hs2⟩ := List.isChain_cons_cons.1 hs
    obtain ⟨st1, u1, h1, h2, h3, h4⟩ := clip_opposite A dbg (side := false) hu (hS b (by simp)) hs1 (hv.perm hp)
    have c1 : Clips st (arcsS (a :: b :: c :: S) ++ [arc a.p u, ⟨l.halfEdge, u.p, ((b :: c :: S).getLast (by simp)).p⟩]) st1
        (arcsS (b :: c :: S) ++ [arc b.p u1, ⟨l.halfEdge, u1.p, ((c :: S).getLast (by simp)).p⟩]) := by
      have := ((Clips.perm (.refl _ _) hp).trans h4).perm List.perm_middle.symm
      rw [h2]
      exact this
    obtain ⟨st', r, g1, g2, g3⟩ := ih (fun x hx => hS x (by simp at hx ⊢; tauto)) (h3.trans hu) (by rw [h2]; exact hs2) (c1.valid hv)
    refine ⟨st', r, ?_, g2, Done.trans c1 g3⟩
    rw [List.map_cons, List.map_cons, List.map_cons, opposite]
    · rw [h1]
      simp only [bind, Except.bind]
      rw [← List.map_cons, ← List.map_cons, g1]
    · intro l _ hl
      cases hl

theorem ccw_bend (A : Option (Approx T K)) {V : Vectors T} {side : Bool} {a : Vec T} {u v : Placed T} {rest : List (Arc T)}
    (hu : u.v.bottom = side) (hv : v.v.bottom = side) (h : Valid V (arc a v :: arc v.p u :: rest)) :
    Vec.ccw A (V.get v.v.halfEdge) (V.get u.v.halfEdge) ≠ (if u.v.bottom then .counterclockwise else .clockwise) ↔
      Bend side a v.p u.p := by
  have g1 := h.get _ List.mem_cons_self
  have g2 := h.get _ (List.mem_cons_of_mem _ List.mem_cons_self)
  unfold Bend
  rw [hu, ccw_eq]
  cases side
  · simp only [arc, hu, hv, Bool.false_eq_true, if_false] at *
    rw [g1, g2, not_iff_comm, not_le, ccwExact_clockwise]
    have e1 : a - v.p = -(v.p - a) := by abel
    have e2 : v.p - u.p = -(u.p - v.p) := by abel
    rw [e1, e2, cross_neg_left, cross_neg_right, neg_neg]
  · simp only [arc, hu, hv, if_true] at *
    rw [g1, g2, not_iff_comm, not_le, ccwExact_ccw]

theorem same_spec (A : Option (Approx T K)) (dbg : Bool) {side : Bool} {S : List (Placed T)} :
    ∀ {v w u : Placed T} {st : State T} {rest : List (Arc T)}, (∀ b ∈ (v :: w :: S).dropLast, b.v.bottom = side) →
    u.v.bottom = side → Valid st.vectors (arcsB (v :: w :: S) ++ arc v.p u :: rest) →
    ∃ st' u' q S', same A dbg none st u.v ((v :: w :: S).map Placed.v) = .ok (st', u'.v, (q :: S').map Placed.v) ∧
      (q :: S').IsSuffix (v :: w :: S) ∧ u'.p = u.p ∧ u'.v.bottom = u.v.bottom ∧
      Clips st (arcsB (v :: w :: S) ++ arc v.p u :: rest) st' (arcsB (q :: S') ++ arc q.p u' :: rest) ∧
      ∀ a ∈ S'.head?, Bend side a.p q.p u.p := by
  induction S with
  | nil =>
    intro v w u st rest hS hu hv
    have hvb : v.v.bottom = side := hS v (by simp)
    have hp : (arcsB [v, w] ++ arc v.p u :: rest) = arc w.p v :: arc v.p u :: rest := rfl
    rw [hp] at hv ⊢
    have k1 := (hv.ok.known v.v.halfEdge).2 (by have := hv.lt _ List.mem_cons_self; unfold arc at this; split_ifs at this <;> exact this)
    have k2 := (hv.ok.known u.v.halfEdge).2 (by
      have := hv.lt _ (List.mem_cons_of_mem _ List.mem_cons_self); unfold arc at this; split_ifs at this <;> exact this)
    by_cases hb : Bend side w.p v.p u.p
    · refine ⟨st, u, v, [w], ?_, List.suffix_refl _, rfl, rfl, .refl _ _, fun a ha => by cases ha; exact hb⟩
      simp only [List.map_cons, List.map_nil]
      rw [same.eq_def]
      dsimp only
      rw [if_neg (by simp [hu, hvb])]
      simp only [Vectors.touch_eq k1, Vectors.touch_eq k2]
      rw [if_pos ((ccw_bend A hu hvb hv).2 hb), if_neg (by simp)]
    · obtain ⟨st1, u1, h1, h2, h3, h4⟩ := clip_same A dbg hu hvb hb hv
      refine ⟨st1, u1, w, [], ?_, List.suffix_cons _ _, h2, h3, h4, fun a ha => by cases ha⟩
      simp only [List.map_cons, List.map_nil]
      rw [same.eq_def]
      dsimp only
      rw [if_neg (by simp [hu, hvb])]
      simp only [Vectors.touch_eq k1, Vectors.touch_eq k2]
      rw [if_neg (fun hx => hb ((ccw_bend A hu hvb hv).1 hx)), h1]
      rfl
  | cons x S ih =>
    intro v w u st rest hS hu hv
    have hvb : v.v.bottom = side := hS v (by simp)
    have hp : (arcsB (v :: w :: x :: S) ++ arc v.p u :: rest).Perm (arc w.p v :: arc v.p u :: (arcsB (w :: x :: S) ++ rest)) :=
      List.Perm.cons _ List.perm_middle
    have hv' := hv.perm hp
    have k1 := (hv.ok.known v.v.halfEdge).2 (by have := hv'.lt _ List.mem_cons_self; unfold arc at this; split_ifs at this <;> exact this)
    have k2 := (hv.ok.known u.v.halfEdge).2 (by
      have := hv'.lt _ (List.mem_cons_of_mem _ List.mem_cons_self); unfold arc at this; split_ifs at this <;> exact this)
    by_cases hb : Bend side w.p v.p u.p
    · refine ⟨st, u, v, w :: x :: S, ?_, List.suffix_refl _, rfl, rfl, .refl _ _, fun a ha => by cases ha; exact hb⟩
      simp only [List.map_cons]
      rw [same.eq_def]
      dsimp only
      rw [if_neg (by simp [hu, hvb])]
      simp only [Vectors.touch_eq k1, Vectors.touch_eq k2]
      rw [if_pos ((ccw_bend A hu hvb hv').2 hb), if_neg (by simp)]
    · obtain ⟨st1, u1, h1, h2, h3, h4⟩ := clip_same A dbg hu hvb hb hv'
      have c1 : Clips st (arcsB (v :: w :: x :: S) ++ arc v.p u :: rest) st1 (arcsB (w :: x :: S) ++ arc w.p u1 :: rest) :=
        ((Clips.perm (.refl _ _) hp).trans h4).perm List.perm_middle.symm
      obtain ⟨st', u', q, S', g1, g2, g3, g4, g5, g6⟩ := ih (fun b hb => hS b (by simp at hb ⊢; tauto)) (h3.trans hu) (c1.valid hv)
      refine ⟨st', u', q, S', ?_, g2.trans (List.suffix_cons _ _), g3.trans h2, g4.trans h3, c1.trans g5, by rw [← h2]; exact g6⟩
      simp only [List.map_cons]
      rw [same.eq_def]
      dsimp only
      rw [if_neg (by simp [hu, hvb])]
      simp only [Vectors.touch_eq k1, Vectors.touch_eq k2]
      rw [if_neg (fun hx => hb ((ccw_bend A hu hvb hv').1 hx)), h1]
      simp only [bind, Except.bind]
      rw [if_pos (by simp)]
      simp only [List.map_cons] at g1
      exact g1

theorem Sees.convex {side : Bool} {a q u : Vec T} (h : Sees side a q u) : ¬ Bend side a q u := by
  have e : u - q = (u - a) - (q - a) := by abel
  unfold Sees at h
  unfold Bend
  rw [e, cross_sub_right, cross_self, sub_zero]
  cases side
  · simp only [Bool.false_eq_true, if_false] at *; linarith
  · simp only [if_true] at *; linarith

theorem same_final (A : Option (Approx T K)) (dbg : Bool) {l : Vertex T} (hl : l.bottom = false) {S : List (Placed T)} :
    ∀ {v w u : Placed T} {st : State T}, (∀ b ∈ (v :: w :: S).dropLast, b.v.bottom = true) →
    u.v.bottom = true → (v :: w :: S).IsChain (fun b a => Sees true a.p b.p u.p) →
    Valid st.vectors (arcsB (v :: w :: S) ++ [arc v.p u, ⟨l.halfEdge, u.p, ((w :: S).getLast (by simp)).p⟩]) →
    ∃ st' r, same A dbg (some l) st u.v ((v :: w :: S).map Placed.v) = .ok (st', r) ∧
      Done st (arcsB (v :: w :: S) ++ [arc v.p u, ⟨l.halfEdge, u.p, ((w :: S).getLast (by simp)).p⟩]) st' := by
  induction S with
  | nil =>
    intro v w u st hS hu hs hv
    have hvb : v.v.bottom = true := hS v (by simp)
    obtain ⟨hs1, -⟩ := List.isChain_cons_cons.1 hs
    refine ⟨_, (u.v, [w.v]), ?_, st, v.v.halfEdge, u.v.halfEdge, l.halfEdge, w.p, v.p, u.p, ?_, ?_, rfl⟩
    · simp only [List.map_cons, List.map_nil]
      rw [same.eq_def]
      dsimp only
      rw [if_neg (by simp [hu, hvb])]
      have hd : decide ([w.v].length ≤ 1) = true := rfl
      rw [hd]
      dsimp only
      rw [finish_eq dbg st hu hl]
      rfl
    · simpa [arcsB, arc, hu, hvb] using Clips.refl _ _
    · have := hs1.convex
      unfold Bend at this
      simpa using this
  | cons x S ih =>
    intro v w u st hS hu hs hv
    have hvb : v.v.bottom = true := hS v (by simp)
    obtain ⟨hs1, hs2⟩ := List.isChain_cons_cons.1 hs
    have hp : (arcsB (v :: w :: x :: S) ++ [arc v.p u, ⟨l.halfEdge, u.p, ((w :: x :: S).getLast (by simp)).p⟩]).Perm
        (arc w.p v :: arc v.p u :: (arcsB (w :: x :: S) ++ [⟨l.halfEdge, u.p, ((w :: x :: S).getLast (by simp)).p⟩])) :=
      List.Perm.cons _ List.perm_middle
    have hv' := hv.perm hp
    have k1 := (hv.ok.known v.v.halfEdge).2 (by have := hv'.lt _ List.mem_cons_self; unfold arc at this; split_ifs at this <;> exact this)
    have k2 := (hv.ok.known u.v.halfEdge).2 (by
      have := hv'.lt _ (List.mem_cons_of_mem _ List.mem_cons_self); unfold arc at this; split_ifs at this <;> exact this)
    have hb := hs1.convex
    obtain ⟨st1, u1, h1, h2, h3, h4⟩ := clip_same A dbg hu hvb hb hv'
    have c1 : Clips st (arcsB (v :: w :: x :: S) ++ [arc v.p u, ⟨l.halfEdge, u.p, ((w :: x :: S).getLast (by simp)).p⟩]) st1
        (arcsB (w :: x :: S) ++ [arc w.p u1, ⟨l.halfEdge, u1.p, ((x :: S).getLast (by simp)).p⟩]) := by
      have := ((Clips.perm (.refl _ _) hp).trans h4).perm List.perm_middle.symm
      rw [h2]
      exact this
    obtain ⟨st', r, g1, g2⟩ := ih (fun b hb => hS b (by simp at hb ⊢; tauto)) (h3.trans hu) (by rw [h2]; exact hs2) (c1.valid hv)
    refine ⟨st', r, ?_, Done.trans c1 g2⟩
    simp only [List.map_cons]
    rw [same.eq_def]
    dsimp only
    rw [if_neg (by simp [hu, hvb])]
    have hd : decide ((w.v :: x.v :: List.map Placed.v S).length ≤ 1) = false := by simp
    rw [hd]
    dsimp only
    simp only [Vectors.touch_eq k1, Vectors.touch_eq k2]
    rw [if_neg (fun hx => hb ((ccw_bend A hu hvb hv').1 hx)), h1]
    simp only [bind, Except.bind]
    rw [if_pos (by simp)]
    simp only [List.map_cons] at g1
    exact g1

end Verif.FlowTriangulation
