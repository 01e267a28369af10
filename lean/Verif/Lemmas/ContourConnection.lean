import Verif.Lemmas.ContourTurn
import Verif.Lemmas.ContourPerimeter
import Verif.Model.ContourConnection

/-!
# Connections of the contours of collapsed surfaces
-/

set_option linter.unusedSectionVars false

namespace Verif.Collapsed

open Spec Contour Vertical Flow

variable {T : Type} [CommRing T] [LinearOrder T] [IsStrictOrderedRing T]
variable {K : Type*} [Field K] [LinearOrder K] [IsStrictOrderedRing K]
variable {C : Collapsed T}

/-- The tops of the component go from right to left, the bottoms go from left to right. -/
structure Signs (C : Collapsed T) (d : Component) : Prop where
  top : ∀ x ∈ d.topEdges, Vec.cross (C.vec x) C.vertical < 0
  bottom : ∀ x ∈ d.bottomEdges, 0 < Vec.cross (C.vec x) C.vertical

theorem makeTop_ok (A : Option (Approx T K)) (dbg : Bool) {e : HE} (he : Vec.cross (C.vec e) C.vertical < 0) :
    makeTop A dbg C e = .ok ⟨e, true⟩ := by
  unfold makeTop fromHalfEdge
  rw [ccw_counterclockwise A he, if_neg (by simp)]

theorem makeBottom_ok (A : Option (Approx T K)) (dbg : Bool) {e : HE} (he : 0 < Vec.cross (C.vec e) C.vertical) :
    makeBottom A dbg C e = .ok ⟨e, false⟩ := by
  unfold makeBottom fromHalfEdge
  rw [ccw_clockwise A he, if_neg (by simp)]

namespace Signs

variable {d : Component} (h : Signs C d) (A : Option (Approx T K)) (dbg : Bool)

include h

theorem conn_top {x : HE} (hx : x ∈ d.topEdges) : makeTop A dbg C x = .ok ⟨x, decide (x ∈ d.topEdges)⟩ := by
  rw [makeTop_ok A dbg (h.top x hx), decide_eq_true hx]

theorem conn_bottom {x : HE} (hx : x ∈ d.bottomEdges) : makeBottom A dbg C x = .ok ⟨x, decide (x ∈ d.topEdges)⟩ := by
  rw [makeBottom_ok A dbg (h.bottom x hx), decide_eq_false fun k => absurd (h.top x k) (h.bottom x hx).not_gt]

omit h in
theorem mem_last {l : List HE} {y : HE} (hy : last l = .ok y) : y ∈ l := by
  unfold last at hy
  split at hy
  · cases hy
    exact List.mem_of_getLast? (by assumption)
  · cases hy

omit h in
theorem mem_first {l : List HE} {y : HE} (hy : Contour.first l = .ok y) : y ∈ l := by
  unfold Contour.first at hy
  split at hy
  · cases hy
    exact List.mem_of_mem_head? (by assumption)
  · cases hy

omit h in
theorem mem_after {l : List HE} {x y : HE} (hy : after l x = .ok y) : y ∈ l := by
  unfold after at hy
  split at hy
  · cases hy
    exact List.mem_of_getElem? (by assumption)
  · cases hy

omit h in
theorem mem_before {l : List HE} {x y : HE} (hy : before l x = .ok y) : y ∈ l := by
  unfold before at hy
  split at hy
  · cases hy
  split at hy
  · cases hy
    exact List.mem_of_getElem? (by assumption)
  · cases hy

theorem next_ok {e y : HE} (hy : d.nextInPerimeter e = .ok y) :
    nextInPerimeter A dbg C d e = .ok ⟨y, decide (y ∈ d.topEdges)⟩ := by
  unfold Component.nextInPerimeter at hy
  unfold nextInPerimeter
  simp only [bind, Except.bind] at hy ⊢
  cases h1 : last d.bottomEdges with
  | error err => rw [h1] at hy; cases hy
  | ok x1 =>
  rw [h1] at hy
  simp only at hy ⊢
  by_cases k1 : e = x1
  · rw [if_pos k1] at hy ⊢
    cases h2 : Contour.first d.topEdges with
    | error err => rw [h2] at hy; cases hy
    | ok x2 =>
      rw [h2] at hy
      cases hy
      simp only
      rw [h.conn_top A dbg (mem_first h2)]
  rw [if_neg k1] at hy ⊢
  try simp only [pure, Except.pure] at hy ⊢
  cases h3 : last d.topEdges with
  | error err => rw [h3] at hy; cases hy
  | ok x3 =>
  rw [h3] at hy
  simp only at hy ⊢
  by_cases k2 : e = x3
  · rw [if_pos k2] at hy ⊢
    cases h2 : Contour.first d.bottomEdges with
    | error err => rw [h2] at hy; cases hy
    | ok x2 =>
      rw [h2] at hy
      cases hy
      simp only
      rw [h.conn_bottom A dbg (mem_first h2)]
  rw [if_neg k2] at hy ⊢
  by_cases k3 : e ∈ d.bottomEdges
  · rw [if_pos k3] at hy ⊢
    cases h2 : after d.bottomEdges e with
    | error err => rw [h2] at hy; cases hy
    | ok x2 =>
      rw [h2] at hy
      cases hy
      simp only
      rw [h.conn_bottom A dbg (mem_after h2)]
  rw [if_neg k3] at hy ⊢
  by_cases k4 : e ∈ d.topEdges
  · rw [if_pos k4] at hy ⊢
    cases h2 : after d.topEdges e with
    | error err => rw [h2] at hy; cases hy
    | ok x2 =>
      rw [h2] at hy
      cases hy
      simp only
      rw [h.conn_top A dbg (mem_after h2)]
  rw [if_neg k4] at hy
  cases hy

theorem previous_ok {e y : HE} (hy : d.previousInPerimeter e = .ok y) :
    previousInPerimeter A dbg C d e = .ok ⟨y, decide (y ∈ d.topEdges)⟩ := by
  unfold Component.previousInPerimeter at hy
  unfold previousInPerimeter
  simp only [bind, Except.bind] at hy ⊢
  cases h1 : Contour.first d.bottomEdges with
  | error err => rw [h1] at hy; cases hy
  | ok x1 =>
  rw [h1] at hy
  simp only at hy ⊢
  by_cases k1 : e = x1
  · rw [if_pos k1] at hy ⊢
    cases h2 : last d.topEdges with
    | error err => rw [h2] at hy; cases hy
    | ok x2 =>
      rw [h2] at hy
      cases hy
      simp only
      rw [h.conn_top A dbg (mem_last h2)]
  rw [if_neg k1] at hy ⊢
  try simp only [pure, Except.pure] at hy ⊢
  cases h3 : Contour.first d.topEdges with
  | error err => rw [h3] at hy; cases hy
  | ok x3 =>
  rw [h3] at hy
  simp only at hy ⊢
  by_cases k2 : e = x3
  · rw [if_pos k2] at hy ⊢
    cases h2 : last d.bottomEdges with
    | error err => rw [h2] at hy; cases hy
    | ok x2 =>
      rw [h2] at hy
      cases hy
      simp only
      rw [h.conn_bottom A dbg (mem_last h2)]
  rw [if_neg k2] at hy ⊢
  by_cases k3 : e ∈ d.bottomEdges
  · rw [if_pos k3] at hy ⊢
    cases h2 : before d.bottomEdges e with
    | error err => rw [h2] at hy; cases hy
    | ok x2 =>
      rw [h2] at hy
      cases hy
      simp only
      rw [h.conn_bottom A dbg (mem_before h2)]
  rw [if_neg k3] at hy ⊢
  by_cases k4 : e ∈ d.topEdges
  · rw [if_pos k4] at hy ⊢
    cases h2 : before d.topEdges e with
    | error err => rw [h2] at hy; cases hy
    | ok x2 =>
      rw [h2] at hy
      cases hy
      simp only
      rw [h.conn_top A dbg (mem_before h2)]
  rw [if_neg k4] at hy
  cases hy

end Signs

/-! ### Turning -/

theorem assertNext_ok (A : Option (Approx T K)) (dbg : Bool) {d : Component} {x y : Connection}
    (h : nextInPerimeter A dbg C d x.halfEdge = .ok y) : assertNext A dbg C d x y = .ok () := by
  unfold assertNext
  cases dbg with
  | false => rfl
  | true =>
    simp only [if_true]
    rw [h]
    simp [Connection.eq]

/-- What is crossed on a chain of half edges. -/
abbrev over (C : Collapsed T) (l : List HE) : List (Vec T) := l.flatMap C.cross

variable (h : C.Good) (hV : C.tri.VertexesOk)

/-- The horizontal component of half edges. -/
abbrev across (C : Collapsed T) (e : HE) : T := Vec.cross (C.vec e) C.vertical

abbrev Turns (C : Collapsed T) (l : List HE) : Prop := l.IsChain fun x y => C.tri.nextInFace (neg x) = y

include h hV in
theorem meets {l : List HE} {x y : HE} (hc : Turns C l) (hx : l.head? = some (neg x)) (hy : l.getLast? = some y)
    (hl : ∀ z ∈ l, z < C.tri.size) (dbg : Bool) : assertMeets dbg C x y = .ok () := by
  have hx' := hl _ (List.mem_of_mem_head? hx)
  have hy' := hl _ (List.mem_of_getLast? hy)
  obtain ⟨s, t, k1, k2, k3⟩ := same_iff h.linked.hv hV hx' hy'
  have hc' : l.IsChain fun x y => C.tri.previousAtVertex x = y := by
    have hc := List.isChain_iff_getElem.1 hc
    rw [List.isChain_iff_getElem]
    intro i hi
    rw [h.previousAtVertex_eq (hl _ (List.getElem_mem _))]
    exact hc i hi
  have hM := chain_iterate hc' hx
  have hn : l ≠ [] := by rintro rfl; cases hx
  have : ∃ m, C.tri.previousAtVertex^[m] (neg x) = y := by
    rw [hM] at hy
    rw [List.getLast?_map, List.getLast?_range] at hy
    have h0 : l.length ≠ 0 := fun k => hn (List.length_eq_zero_iff.1 k)
    rw [if_neg h0] at hy
    exact ⟨_, by simpa using hy⟩
  unfold assertMeets
  cases dbg with
  | false => rfl
  | true =>
    simp only [if_true, chained]
    rw [k1, k2]
    simp only
    rw [if_pos (k3.2 this)]

variable (A : Option (Approx T K)) (dbg : Bool) {d : Component} {fuel : ℕ} (hf : C.tri.size ≤ fuel)

include h hV hf in
theorem turn_top {x y : HE} {s : List HE × List HE} (hg : Gap C.tri.size C.tri.nextInFace (across C) x y s)
    (hn : nextInPerimeter A dbg C d x = .ok ⟨y, true⟩) : turnTo A dbg C fuel d ⟨x, true⟩ ⟨y, true⟩ = pure (over C (s.1 ++ s.2)) := by
  obtain ⟨l, hl⟩ := List.head?_eq_some_iff.1 hg.start
  obtain ⟨m, hm⟩ := List.getLast?_eq_some_iff.1 hg.stop
  have e1 : s.1 ++ s.2 = neg x :: (l ++ m) ++ [y] := by rw [hl, hm]; simp
  have hc := hg.chain
  have hnd := hg.nodup
  have hlt : ∀ z ∈ s.1 ++ s.2, z < C.tri.size := by
    intro z hz
    rcases List.mem_append.1 hz with k | k
    · exact hg.first.lt z k
    · exact hg.second.lt z k
  rw [e1] at hc hnd hlt ⊢
  unfold turnTo
  rw [assertNext_ok A dbg (x := ⟨x, true⟩) hn]
  simp only
  rw [h.turn_beyond hV hc hlt hnd hf]
  rfl

include h hV hf in
theorem turn_bottom {x y : HE} {s : List HE × List HE} (hg : Gap C.tri.size C.tri.nextInFace (fun z => -across C z) x y s)
    (hn : nextInPerimeter A dbg C d x = .ok ⟨y, false⟩) :
    turnTo A dbg C fuel d ⟨x, false⟩ ⟨y, false⟩ = pure (over C (s.1.tail ++ s.2.dropLast)) := by
  obtain ⟨l, hl⟩ := List.head?_eq_some_iff.1 hg.start
  obtain ⟨m, hm⟩ := List.getLast?_eq_some_iff.1 hg.stop
  have e1 : s.1 ++ s.2 = neg x :: ((l ++ m) ++ [y]) := by rw [hl, hm]; simp
  have e2 : s.1.tail ++ s.2.dropLast = l ++ m := by rw [hl, hm]; simp
  have hc := hg.chain
  have hnd := hg.nodup
  have hlt : ∀ z ∈ s.1 ++ s.2, z < C.tri.size := by
    intro z hz
    rcases List.mem_append.1 hz with k | k
    · exact hg.first.lt z k
    · exact hg.second.lt z k
  rw [e1] at hc hnd hlt
  rw [e2]
  unfold turnTo
  rw [assertNext_ok A dbg (x := ⟨x, false⟩) hn]
  simp only
  have hh : (l ++ m ++ [y]).head? = some (C.tri.nextInFace x) := by
    cases hk : l ++ m ++ [y] with
    | nil => simp at hk
    | cons z w =>
      rw [hk] at hc
      have := (List.isChain_cons_cons.1 hc).1
      rw [neg_neg'] at this
      rw [this]
      rfl
  have hnd' := (List.nodup_cons.1 hnd).2
  rw [h.turn_chain hV hc.tail hh (fun z hz => hlt z (by simp at hz ⊢; tauto)) (fun k => ?_) (hlt y (by simp)) hf]
  · rfl
  · exact (List.nodup_append.1 hnd').2.2 y k y (by simp) rfl

include h hV hf in
theorem turn_right {x y : HE} {M : List HE} (hc : Turns C M) (hx : M.head? = some (neg x)) (hy : M.getLast? = some y)
    (hl : ∀ z ∈ M, z < C.tri.size) (h3 : 3 ≤ M.length) (hnd : M.tail.Nodup) (hn : nextInPerimeter A dbg C d x = .ok ⟨y, true⟩) :
    turnTo A dbg C fuel d ⟨x, false⟩ ⟨y, true⟩ = pure (over C M.tail) := by
  unfold turnTo
  rw [assertNext_ok A dbg (x := ⟨x, false⟩) hn, meets h hV hc hx hy hl]
  obtain ⟨l, rfl⟩ := List.head?_eq_some_iff.1 hx
  obtain ⟨z, l, rfl⟩ : ∃ z l', l = z :: l' := by
    cases l with
    | nil => simp at h3
    | cons z l => exact ⟨z, l, rfl⟩
  obtain ⟨m, rfl⟩ : ∃ m, l = m ++ [y] := by
    refine List.getLast?_eq_some_iff.1 ?_
    rw [List.getLast?_cons_cons] at hy
    cases l with
    | nil => simp at h3
    | cons w l => rwa [List.getLast?_cons_cons] at hy
  have hz := (List.isChain_cons_cons.1 hc).1
  rw [neg_neg'] at hz
  simp only
  rw [hz, h.turn_beyond hV hc.tail (fun w hw => hl w (by simp at hw ⊢; tauto)) hnd hf]
  rfl

include h hV hf in
theorem turn_left {x y : HE} {M : List HE} (hc : Turns C M) (hx : M.head? = some (neg x)) (hy : M.getLast? = some y)
    (hl : ∀ z ∈ M, z < C.tri.size) (h3 : 2 ≤ M.length) (hnd : M.tail.Nodup) (hn : nextInPerimeter A dbg C d x = .ok ⟨y, false⟩) :
    turnTo A dbg C fuel d ⟨x, true⟩ ⟨y, false⟩ = pure (over C M.dropLast) := by
  unfold turnTo
  rw [assertNext_ok A dbg (x := ⟨x, true⟩) hn, meets h hV hc hx hy hl]
  obtain ⟨l, rfl⟩ := List.head?_eq_some_iff.1 hx
  obtain ⟨m, rfl⟩ : ∃ m, l = m ++ [y] := by
    refine List.getLast?_eq_some_iff.1 ?_
    cases l with
    | nil => simp at h3
    | cons w l => rwa [List.getLast?_cons_cons] at hy
  have hx' : neg x < C.tri.size := hl _ (by simp)
  have hh : (m ++ [y]).head? = some (C.tri.nextInFace x) := by
    cases hk : m ++ [y] with
    | nil => simp at hk
    | cons z w =>
      rw [hk] at hc
      have := (List.isChain_cons_cons.1 hc).1
      rw [neg_neg'] at this
      rw [this]
      rfl
  simp only
  rw [h.previousAtVertex_eq hx', neg_neg', h.turn_chain hV hc.tail hh (fun w hw => hl w (by simp at hw ⊢; tauto)) (fun k => ?_)
    (hl y (by simp)) hf]
  · have : (neg x :: (m ++ [y])).dropLast = neg x :: m := by
      rw [← List.cons_append, List.dropLast_concat]
    rw [this]
    rfl
  · exact (List.nodup_append.1 hnd).2.2 y k y (by simp) rfl

include h hV hf in
theorem turn_right_flat {e : HE} (he : e < C.tri.size) (hx : C.tri.nextInFace e = neg e)
    (hn : nextInPerimeter A dbg C d e = .ok ⟨neg e, true⟩) :
    turnTo A dbg C fuel d ⟨e, false⟩ ⟨neg e, true⟩ = pure (over C [neg e]) := by
  have hl : neg e < C.tri.size := h.neg_lt he
  unfold turnTo
  rw [assertNext_ok A dbg (x := ⟨e, false⟩) hn,
    meets h hV (l := [neg e]) (x := e) (y := neg e) (.singleton _) rfl rfl (by simpa using hl)]
  simp only
  rw [hx, h.previousAtVertex_eq hl, neg_neg', hx, h.turn_chain hV (l := []) (x := neg e) (.singleton _) rfl (by simp) (by simp) hl hf]
  simp [total, over]
  rfl

include h hV hf in
theorem turn_left_flat {e : HE} (he : e < C.tri.size) (hx : C.tri.nextInFace (neg e) = e)
    (hn : nextInPerimeter A dbg C d (neg e) = .ok ⟨e, false⟩) :
    turnTo A dbg C fuel d ⟨neg e, true⟩ ⟨e, false⟩ = pure (over C [e]) := by
  unfold turnTo
  rw [assertNext_ok A dbg (x := ⟨neg e, true⟩) hn,
    meets h hV (l := [e]) (x := neg e) (y := e) (.singleton _) (by rw [neg_neg']; rfl) rfl (by simpa using he)]
  simp only
  rw [neg_neg', h.previousAtVertex_eq he, hx, h.turn_chain hV (l := []) (x := e) (.singleton _) rfl (by simp) (by simp) he hf]
  simp [total, over]
  rfl

end Verif.Collapsed
