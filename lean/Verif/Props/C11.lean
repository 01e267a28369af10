import Verif.Lemmas.TriSlit
import Verif.Lemmas.Examples

/-!
# C11: slit opens exactly one edge

# C59: Slitting a loop
-/

namespace Verif.C11

open Verif Spec Tri Examples

/-- Two half edges have the same source. -/
def SameSource (T : Tri) (x y : HE) : Prop := ∃ k, T.nextAtVertex^[k] x = y

/-- The surface is not connected only in a point anywhere: there is at most one boundary half edge at each vertex. -/
def SimpleBoundary (T : Tri) : Prop :=
  ∀ x ∈ T.halfEdges, ∀ y ∈ T.halfEdges, T.boundary x = true → T.boundary y = true → SameSource T x y → x = y

/-- What is expected after slitting `e`: there is one new edge `ee` which takes the place of `e` in its face. -/
structure IsSlit (T T' : Tri) (e ee : HE) : Prop where
  newEdge : heId ee = T.edges.length + 1
  halfEdges : T'.halfEdges = T.halfEdges ++ [ee, neg ee]
  /-- The slit is between `e` and `-ee`. -/
  boundary : ∀ x ∈ T'.halfEdges, (T'.boundary x = true ↔ x = e ∨ x = neg ee ∨ (x ≠ ee ∧ T.boundary x = true))
  /-- The face of `e` is now the face of `ee`. -/
  face : ∀ y z, IsFace T e y z → IsFace T' ee y z
  /-- The other faces are unchanged. -/
  others : ∀ x y z, IsFace T x y z → e ∉ [x, y, z] → IsFace T' x y z

/-- Slitting an edge that is not on the boundary works as expected. When the edge is a loop at a vertex on the boundary,
the call fails instead, see `slit_loop_fails`. -/
theorem slit_correct {dbg : Bool} {T : Tri} (h : T.Reachable dbg) {e : HE}
    (nb : T.boundary e = false) (nb' : T.boundary (neg e) = false) (hd : dbg = true → T.hasBoundary = false)
    (hl : SameSource T e (neg e) → ∀ x ∈ T.halfEdges, T.boundary x = true → ¬ SameSource T e x) :
    ∃ T' ee, T.slit dbg e = .ok T' ∧ T'.Reachable dbg ∧ IsTriangulation T' ∧ VerticesCorrect T' ∧ IsSlit T T' e ee ∧
      (SimpleBoundary T → ¬ SameSource T e (neg e) → SimpleBoundary T') := by
  have hc := h.inv.1
  have hev := hc.even
  rw [boundary_false] at nb nb'
  have hes := hc.lt_of_not_boundary nb
  obtain ⟨n0, n1, -⟩ := neg_new hev
  have n0' : neg T.size = T.size + 1 := n0
  obtain ⟨T', k, b, c, h1, h2, s, hk, hke, hks, hb, hcc⟩ := hc.slit dbg nb nb' hd (by
    intro ho x hx hox
    exact hl ho x (mem_halfEdges.2 (hox.lt hc.hv hes)) (boundary_true.2 hx) hox)
  have hc' := h2.inv.1
  have hfx : ∀ x, x ≠ e → x ≠ T.size → Equiv.swap e T.size x = x := fun x h1 h2 => Equiv.swap_apply_of_ne_of_ne h1 h2
  have hlt : ∀ x, T.faces.fwd x ≠ x → x ≠ T.size := fun x hx => (hc.lt_of_not_boundary hx).ne
  refine ⟨T', T.size, h1, h2, h2.isTriangulation, h2.inv.2.verticesCorrect hc', ?_, ?_⟩
  · refine ⟨?_, ?_, ?_, ?_, ?_⟩
    · have hlen : T.edges.length = T.size / 2 := by simp [edges]
      rw [hlen]
      unfold heId size
      rw [if_neg (by omega)]
      omega
    · unfold Tri.halfEdges
      rw [s.vsize, n0', List.range_add]
      rfl
    · intro x hx
      rw [mem_halfEdges, s.vsize] at hx
      rw [boundary_true, boundary_true, s.f, n0']
      have hiff : Equiv.swap e T.size (T.faces.fwd (Equiv.swap e T.size x)) = x ↔
          T.faces.fwd (Equiv.swap e T.size x) = Equiv.swap e T.size x := by
        constructor
        · intro hx
          have := congrArg (Equiv.swap e T.size) hx
          rwa [Equiv.swap_apply_self] at this
        · intro hx
          rw [hx, Equiv.swap_apply_self]
      rw [hiff]
      have hout : ∀ x, T.size ≤ x → T.faces.fwd x = x := fun x hx => hc.hf.out x (by rw [hc.hs]; exact hx)
      by_cases c1 : x = e
      · rw [c1, Equiv.swap_apply_left]; simp [hout]
      by_cases c2 : x = T.size
      · rw [c2, Equiv.swap_apply_right]
        constructor
        · intro hx; exact absurd hx nb
        · rintro (hx | hx | ⟨hx, -⟩)
          · exact absurd (c2.trans hx) c1
          · omega
          · exact absurd rfl hx
      rw [hfx x c1 c2]
      constructor
      · intro hx; exact .inr (.inr ⟨c2, hx⟩)
      · rintro (hx | rfl | ⟨-, hx⟩)
        · exact absurd hx c1
        · exact hout _ (by omega)
        · exact hx
    · rintro y z ⟨-, -, f1, f2, f3⟩
      unfold nextInFace at f1 f2 f3
      have hye : y ≠ e := by rw [← f1]; exact nb
      have hyb : T.faces.fwd y ≠ y := by rw [← f1]; exact fun h => nb (hc.hf.inj h)
      have hzy : z ≠ y := by rw [← f2]; exact hyb
      have hzb : T.faces.fwd z ≠ z := by rw [← f2]; exact fun h => hyb (hc.hf.inj h)
      have hze : z ≠ e := by rw [f3] at hzb; exact hzb.symm
      have e1 : T'.nextInFace T.size = y := by
        unfold nextInFace; rw [s.f, Equiv.swap_apply_right, f1, hfx y hye (hlt y hyb)]
      have e2 : T'.nextInFace y = z := by
        unfold nextInFace; rw [s.f, hfx y hye (hlt y hyb), f2, hfx z hze (hlt z hzb)]
      have e3 : T'.nextInFace z = T.size := by
        unfold nextInFace; rw [s.f, hfx z hze (hlt z hzb), f3, Equiv.swap_apply_left]
      exact ⟨mem_halfEdges.2 (by rw [s.vsize]; omega), by
        rw [boundary_false]; unfold nextInFace at e1; rw [e1]; exact hlt y hyb, e1, e2, e3⟩
    · rintro x y z ⟨hx, hxb, f1, f2, f3⟩ he
      simp only [List.mem_cons, List.not_mem_nil, or_false, not_or, ← ne_eq] at he
      obtain ⟨ex, ey, ez⟩ := he
      unfold nextInFace at f1 f2 f3
      rw [boundary_false] at hxb
      have hyb : T.faces.fwd y ≠ y := by rw [← f1]; exact fun h => hxb (hc.hf.inj h)
      have hzb : T.faces.fwd z ≠ z := by rw [← f2]; exact fun h => hyb (hc.hf.inj h)
      have e1 : T'.nextInFace x = y := by
        unfold nextInFace; rw [s.f, hfx x ex.symm (hlt x hxb), f1, hfx y ey.symm (hlt y hyb)]
      have e2 : T'.nextInFace y = z := by
        unfold nextInFace; rw [s.f, hfx y ey.symm (hlt y hyb), f2, hfx z ez.symm (hlt z hzb)]
      have e3 : T'.nextInFace z = x := by
        unfold nextInFace; rw [s.f, hfx z ez.symm (hlt z hzb), f3, hfx x ex.symm (hlt x hxb)]
      rw [mem_halfEdges] at hx
      refine ⟨mem_halfEdges.2 (by rw [s.vsize]; omega), ?_, e1, e2, e3⟩
      rw [boundary_false]
      unfold nextInFace at e1
      rw [e1, ← f1]
      exact hxb
  · intro hs hl' x hx y hy hxb hyb ho
    rw [mem_halfEdges, s.vsize] at hx hy
    rw [boundary_true] at hxb hyb
    exact s.simple hc nb nb' hk hke hks hb hcc hl'
      (fun x hx y hy hxb hyb ho => hs x (mem_halfEdges.2 hx) y (mem_halfEdges.2 hy) (boundary_true.2 hxb)
        (boundary_true.2 hyb) ho) hx hy hxb hyb ho hc'.hv

/-- An edge on the boundary cannot be slit. -/
theorem slit_rejects {dbg : Bool} {T : Tri} (h : T.Reachable dbg) {e : HE} (he : e ∈ T.halfEdges)
    (hb : T.boundary e = true ∨ T.boundary (neg e) = true) : T.slit dbg e = .error .invalidArgument := by
  have hc := h.inv.1
  rw [mem_halfEdges] at he
  have he' := (hc.neg_lt e).2 he
  unfold slit
  rw [if_neg (by omega), if_pos hb]
  rfl

example : torus.Reachable true ∧ torus.boundary 0 = false ∧ torus.boundary (neg 0) = false ∧
    torus.hasBoundary = false :=
  ⟨torus_reachable _, by decide, by decide, by decide⟩

/-- A surface with several vertices: the torus with a marked point. -/
def marked : Tri := match torus.insertAt true 0 with | .ok T => T | .error _ => torus

theorem marked_reachable (dbg : Bool) : marked.Reachable dbg := by
  cases dbg
  · obtain ⟨T', h1, h2, -⟩ := (torus_reachable false).inv.1.insertAt (e := 0) (by decide) false
    have : marked = T' := by
      have h3 : torus.insertAt false 0 = .ok marked := rfl
      rw [h3] at h1
      cases h1
      rfl
    exact this ▸ h2
  · obtain ⟨T', h1, h2, -⟩ := (torus_reachable true).inv.1.insertAt (e := 0) (by decide) true
    have : marked = T' := by
      have h3 : torus.insertAt true 0 = .ok marked := rfl
      rw [h3] at h1
      cases h1
      rfl
    exact this ▸ h2

/-- Half edges in different vertices do not have the same source. -/
theorem not_sameSource {dbg : Bool} {T : Tri} (h : T.Reachable dbg) {x y : HE} {S : Finset HE} (hS : S ∈ T.vertexes)
    (hx : x ∈ S) (hy : y ∉ S) : ¬ SameSource T x y := by
  rintro ⟨k, hk⟩
  obtain ⟨z, -, hz⟩ := h.inv.2.orbit S hS
  have h1 := (hz x).1 hx
  exact hy ((hz y).2 (h1.trans ⟨k, hk⟩))

-- an edge between two vertices, on a surface without boundary
example : marked.Reachable true ∧ marked.hasBoundary = false ∧ marked.boundary 6 = false ∧
    marked.boundary (neg 6) = false ∧ ¬ SameSource marked 6 (neg 6) ∧ SimpleBoundary marked := by
  refine ⟨marked_reachable _, by decide, by decide, by decide,
    not_sameSource (S := {6, 8, 10}) (marked_reachable true) (by decide) (by decide) (by decide), ?_⟩
  intro x hx y hy hxb
  have : ∀ x ∈ marked.halfEdges, marked.boundary x = false := by decide
  rw [this x hx] at hxb
  cases hxb

/-- The torus with a marked point and a slit to that point. -/
def slitted : Tri := match marked.slit false 6 with | .ok T => T | .error _ => marked

theorem slitted_eq : marked.slit false 6 = .ok slitted := rfl

theorem slitted_reachable : slitted.Reachable false := by
  obtain ⟨T', ee, h1, h2, -⟩ := slit_correct (e := 6) (marked_reachable false) (by decide) (by decide) (by simp)
    (by
      intro h
      exact absurd h (not_sameSource (S := {6, 8, 10}) (marked_reachable false) (by decide) (by decide) (by decide)))
  rw [slitted_eq] at h1
  cases h1
  exact h2

-- an edge between two vertices which are both on the boundary
example : slitted.Reachable false ∧ slitted.boundary 8 = false ∧ slitted.boundary (neg 8) = false ∧
    ¬ SameSource slitted 8 (neg 8) :=
  ⟨slitted_reachable, by decide, by decide,
    not_sameSource (S := {6, 8, 10, 12}) slitted_reachable (by decide) (by decide) (by decide)⟩

/-- The full property for loops: slitting leaves no vertex with two boundary half edges and does not fail. -/
def LoopsAreSplit : Prop := ∀ (dbg : Bool) (T : Tri) (e : HE), T.Reachable dbg → SimpleBoundary T →
  T.boundary e = false → T.boundary (neg e) = false → ∃ T', T.slit dbg e = .ok T' ∧ SimpleBoundary T'

/-- Slitting a loop leaves both sides of the slit at the same vertex so that the surface is then only connected in a
point. -/
theorem slit_loop_not_split : torus.Reachable true ∧ SimpleBoundary torus ∧ torus.boundary 0 = false ∧
    torus.boundary (neg 0) = false ∧ ∃ T', torus.slit true 0 = .ok T' ∧ ¬ SimpleBoundary T' := by
  refine ⟨torus_reachable _, ?_, by decide, by decide, _, rfl, ?_⟩
  · intro x hx y hy hxb
    have : ∀ x ∈ torus.halfEdges, torus.boundary x = false := by decide
    rw [this x hx] at hxb
    cases hxb
  · intro h
    exact absurd (h 0 (by decide) 7 (by decide) (by decide) (by decide) ⟨4, by decide⟩) (by decide)

/-- Slitting a loop at a vertex on the boundary fails. -/
theorem slit_loop_fails : slitted.Reachable false ∧ slitted.boundary 2 = false ∧ slitted.boundary (neg 2) = false ∧
    2 ∈ slitted.halfEdges ∧ slitted.slit false 2 = .error .invalidArgument :=
  ⟨slitted_reachable, by decide, by decide, by decide, rfl⟩

theorem loops_not_split : ¬ LoopsAreSplit := by
  intro h
  obtain ⟨h1, h2, h3, h4, T', h5, h6⟩ := slit_loop_not_split
  obtain ⟨T'', h7, h8⟩ := h true torus 0 h1 h2 h3 h4
  rw [h5] at h7
  cases h7
  exact h6 h8

/-- With assertions enabled nothing can be slit on a surface with boundary. -/
theorem slit_debug_boundary {T : Tri} (h : T.hasBoundary = true) (e : HE) : ∀ T', T.slit true e ≠ .ok T' := by
  intro T' hT
  unfold slit at hT
  simp only [h, bind, Except.bind, pure, Except.pure, throw, throwThe, MonadExceptOf.throw] at hT
  split_ifs at hT with h1 h2 h3
  exact h3 ⟨trivial, trivial⟩

/-- Slitting a loop on a surface without boundary works as expected apart from the vertices. -/
theorem slit_loop_partial {dbg : Bool} {T : Tri} (h : T.Reachable dbg) {e : HE} (he : e ∈ T.halfEdges)
    (hb : T.hasBoundary = false) : ∃ T' ee, T.slit dbg e = .ok T' ∧ T'.Reachable dbg ∧ IsSlit T T' e ee := by
  have hc := h.inv.1
  have hb' := hasBoundary_false.1 hb
  have hes := mem_halfEdges.1 he
  obtain ⟨T', ee, h1, h2, -, -, h3, -⟩ := slit_correct h (boundary_false.2 (hb' e hes))
    (boundary_false.2 (hb' _ ((hc.neg_lt e).2 hes))) (fun _ => hb) (by
      intro _ x hx hxb
      exact absurd (boundary_true.1 hxb) (hb' x (mem_halfEdges.1 hx)))
  exact ⟨T', ee, h1, h2, h3⟩

end Verif.C11
