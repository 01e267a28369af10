import Verif.Lemmas.Examples

/-!
# C07: flip does what the documentation says
-/

namespace Verif.C07

open Verif Spec Tri Examples

/-- Flipping `e` in the faces `(e a b)` and `(-e c d)` produces the faces `(a -e d)` and `(c e b)`. -/
theorem flip_faces {dbg : Bool} {T T' : Tri} (h : T.Reachable dbg) {e a b c d : HE}
    (h1 : IsFace T e a b) (h2 : IsFace T (neg e) c d) (hf : T.flip dbg e = (T', .ok ())) :
    IsFace T' a (neg e) d ∧ IsFace T' c e b := by
  obtain ⟨-, -, rfl, rfl, -⟩ := h1
  obtain ⟨-, -, rfl, rfl, -⟩ := h2
  have hq := h.inv.1.quad (flippable_of_ok h.inv.1 hf)
  obtain ⟨T'', h1, h2⟩ := flip_flipped h.inv.1 hq dbg
  rw [hf] at h1
  cases h1
  have hs : T'.size = T.size := h2.vsize
  obtain ⟨⟨ea, eb, ee', ec, ed⟩, ⟨ab, ae', ac, ad⟩, ⟨be', bc, bd⟩, ⟨e'c, e'd⟩, cd⟩ := hq.ne
  refine ⟨⟨?_, ?_, h2.fa, h2.fe', h2.fd⟩, ⟨?_, ?_, h2.fc, h2.fe, h2.fb⟩⟩
  · rw [mem_halfEdges, hs]; exact hq.lt.2.1
  · rw [boundary_false]; exact h2.fa.trans_ne ae'.symm
  · rw [mem_halfEdges, hs]; exact hq.lt.2.2.2.1
  · rw [boundary_false]; exact h2.fc.trans_ne ec

/-- All other faces are left alone. -/
theorem flip_other_faces {dbg : Bool} {T T' : Tri} (h : T.Reachable dbg) {e a b c d : HE}
    (h1 : IsFace T e a b) (h2 : IsFace T (neg e) c d) (hf : T.flip dbg e = (T', .ok ())) {x : HE}
    (hx : x ∉ [e, a, b, neg e, c, d]) : T'.nextInFace x = T.nextInFace x ∧ T'.previousInFace x = T.previousInFace x ∧
      T'.boundary x = T.boundary x := by
  obtain ⟨-, -, rfl, rfl, -⟩ := h1
  obtain ⟨-, -, rfl, rfl, -⟩ := h2
  have hq := h.inv.1.quad (flippable_of_ok h.inv.1 hf)
  obtain ⟨T'', h1, h2⟩ := flip_flipped h.inv.1 hq dbg
  rw [hf] at h1
  cases h1
  have hn : T'.nextInFace x = T.nextInFace x := h2.fx x hx
  refine ⟨hn, ?_, ?_⟩
  · unfold previousInFace
    have h3 : T.faces.inv x ∉ _ := (hq.fwd_not_mem h.inv.1 (x := T.faces.inv x)).1
      (by rw [h.inv.1.hf.right]; exact hx)
    have h4 := h2.fx _ h3
    rw [h.inv.1.hf.right] at h4
    exact (congrArg _ h4).symm.trans (h2.hf.left _)
  · rw [Bool.eq_iff_iff, boundary_true, boundary_true]
    exact h2.boundary_iff hq x

/-- Flipping twice exchanges `e` and `-e`; flipping four times is the identity. All flips after the first succeed. -/
theorem flip_twice_and_four_times {dbg : Bool} {T T1 : Tri} (h : T.Reachable dbg) {e : HE}
    (hf : T.flip dbg e = (T1, .ok ())) :
    ∃ T2, T1.flip dbg e = (T2, .ok ()) ∧ T2.halfEdges = T.halfEdges ∧
      (∀ x, T2.nextInFace (Equiv.swap e (neg e) x) = Equiv.swap e (neg e) (T.nextInFace x)) ∧
      (∀ x, T2.nextAtVertex (Equiv.swap e (neg e) x) = Equiv.swap e (neg e) (T.nextAtVertex x)) ∧
      ∃ T3, T2.flip dbg e = (T3, .ok ()) ∧ T3.flip dbg e = (T, .ok ()) := by
  obtain ⟨T1', T2, T3, h1, h2, h3, h4, h5, h6, h7⟩ :=
    flip_four h.inv.1 h.inv.2 (h.inv.1.quad (flippable_of_ok h.inv.1 hf)) dbg
  rw [hf] at h1
  cases h1
  refine ⟨T2, h2, ?_, fun x => ?_, fun x => ?_, T3, h3, h4⟩
  · unfold Tri.halfEdges; rw [h5]
  · simp [nextInFace, h6]
  · simp [nextAtVertex, h7]

example : ∃ T', torus.Reachable true ∧ IsFace torus 0 2 5 ∧ IsFace torus 1 3 4 ∧
    torus.flip true 0 = (T', .ok ()) :=
  ⟨_, torus_reachable _, by unfold IsFace; decide, by unfold IsFace; decide, rfl⟩

example : ∃ T', square.Reachable false ∧ IsFace square 0 2 4 ∧ IsFace square 1 6 8 ∧ 3 ∉ [0, 2, 4, neg 0, 6, 8] ∧
    square.flip false 0 = (T', .ok ()) :=
  ⟨_, square_reachable _, by unfold IsFace; decide, by unfold IsFace; decide, by decide, rfl⟩

end Verif.C07
