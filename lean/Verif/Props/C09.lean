import Verif.Lemmas.TriOps
import Verif.Lemmas.Examples

/-!
# C09: Relabelling, mirroring and cloning obey the group laws
-/

namespace Verif.C09

open Verif Spec Tri Examples

/-- `r` is a renaming of the half edges of `T`. -/
structure IsRelabeling (T : Tri) (r : Perm) : Prop where
  reachable : r.Reachable
  size : r.size = T.size
  neg : ∀ e ∈ T.halfEdges, r.fwd (neg e) = neg (r.fwd e)

/-- Relabelling succeeds and conjugates `nextAtVertex` and `nextInFace`. -/
theorem relabel_conjugates {dbg : Bool} {T : Tri} (h : T.Reachable dbg) (hb : T.hasBoundary = false) {r : Perm}
    (hr : IsRelabeling T r) :
    ∃ T', T.relabel dbg r = .ok T' ∧ T'.Reachable dbg ∧ T'.halfEdges = T.halfEdges ∧ T'.hasBoundary = false ∧
      (∀ e, T'.nextAtVertex (r.fwd e) = r.fwd (T.nextAtVertex e)) ∧
      (∀ e, T'.nextInFace (r.fwd e) = r.fwd (T.nextInFace e)) := by
  obtain ⟨T', h1, h2, h3, h4, h5, h6, -⟩ := h.inv.1.relabel hb hr.reachable.wf hr.size
    (fun e he => hr.neg e (mem_halfEdges.2 he)) dbg
  refine ⟨T', h1, h2, by unfold halfEdges; rw [h3], h4, fun e => ?_, fun e => ?_⟩
  · unfold nextAtVertex; rw [h5, hr.reachable.wf.left]
  · unfold nextInFace; rw [h6, hr.reachable.wf.left]

/-- A permutation which does not commute with negation is rejected. -/
theorem relabel_rejects {dbg : Bool} {T : Tri} (h : T.Reachable dbg) (hb : T.hasBoundary = false) {r : Perm}
    (hr : r.size ≠ T.size ∨ ∃ e ∈ T.halfEdges, r.fwd (neg e) ≠ neg (r.fwd e)) :
    T.relabel dbg r = .error .invalidArgument := by
  unfold relabel
  simp only [bind, Except.bind, throw, throwThe, MonadExceptOf.throw, h.inv.1.edges_length, hb, Bool.false_eq_true,
    if_false]
  by_cases hs : T.size = r.size
  · rw [if_neg (by simpa using hs), if_pos]
    by_contra hc
    rw [h.inv.1.edges_neg] at hc
    rcases hr with hr | ⟨e, he, hr⟩
    · exact hr hs.symm
    · exact hr (hc e (mem_halfEdges.1 he))
  · rw [if_pos hs]

/-- Relabelling surfaces with boundary is not implemented. -/
theorem relabel_boundary {dbg : Bool} {T : Tri} (hb : T.hasBoundary = true) (r : Perm) :
    T.relabel dbg r = .error .logicError := by
  unfold relabel
  simp only [bind, Except.bind, throw, throwThe, MonadExceptOf.throw, hb, if_true]

/-- Relabelling by the identity is the identity. -/
theorem relabel_identity {dbg : Bool} {T : Tri} (h : T.Reachable dbg) (hb : T.hasBoundary = false) {r : Perm}
    (hr : IsRelabeling T r) (hid : ∀ e ∈ T.halfEdges, r.fwd e = e) :
    ∃ T', T.relabel dbg r = .ok T' ∧ Same T T' ∧ T.beq T' = true := by
  have hid' : ∀ e, r.fwd e = e := by
    intro e
    by_cases he : e < T.size
    · exact hid e (mem_halfEdges.2 he)
    · exact hr.reachable.wf.out e (by rw [hr.size]; omega)
  obtain ⟨T', h1, h2, h3, -, h5, h6⟩ := relabel_conjugates h hb hr
  have hs : T'.size = T.size := by simpa [halfEdges] using congrArg List.length h3
  obtain ⟨e1, e2⟩ := eq_of_fwd h.inv.1 h2.inv.1 hs
    (fun x => by have := h5 x; rwa [hid', hid'] at this) (fun x => by have := h6 x; rwa [hid', hid'] at this)
  exact ⟨T', h1, same_of_eq h h2 e1 e2, (Perm.beq_iff h.inv.1.hv h2.inv.1.hv).2 e1.symm⟩

/-- Relabelling by `p` and then by `q` is relabelling by `q * p`. -/
theorem relabel_mul {dbg : Bool} {T : Tri} (h : T.Reachable dbg) (hb : T.hasBoundary = false) {p q : Perm}
    (hp : IsRelabeling T p) (hq : IsRelabeling T q) :
    ∃ qp T' T'', q.mul p = .ok qp ∧ T.relabel dbg p = .ok T' ∧ T'.relabel dbg q = .ok T'' ∧
      T.relabel dbg qp = .ok T'' := by
  have hpw := hp.reachable.wf
  have hqw := hq.reachable.wf
  obtain ⟨qp, hm, hmw, hms, hme⟩ := Perm.mul_spec hqw hpw (by rw [hp.size, hq.size])
  have hmf : ∀ x, qp.fwd x = q.fwd (p.fwd x) := fun x => DFunLike.congr_fun hme x
  have hpn := fun e he => hp.neg e (mem_halfEdges.2 he)
  have hqn := fun e he => hq.neg e (mem_halfEdges.2 he)
  have hps := hp.size
  have hqs := hq.size
  obtain ⟨T', h1, h2, h3, h4, h5, h6, -⟩ := h.inv.1.relabel hb hpw hps hpn dbg
  obtain ⟨T2, g1, g2, g3, -, g5, g6, g7⟩ := h2.inv.1.relabel h4 hqw (by omega) (by rw [h3]; exact hqn) dbg
  obtain ⟨T3, k1, k2, k3, -, k5, k6, k7⟩ := h.inv.1.relabel hb hmw (by omega) (fun e he => by
    rw [hmf, hmf, hpn e he, hqn]
    have := hpw.fwd_lt (i := e)
    omega) dbg
  have hmi : ∀ x, qp.inv x = p.inv (q.inv x) := by
    intro x
    have e1 := hmf (p.inv (q.inv x))
    rw [hpw.right, hqw.right] at e1
    rw [← e1, hmw.left, e1]
  obtain ⟨e1, e2⟩ := eq_of_fwd g2.inv.1 k2.inv.1 (by omega)
    (fun x => by rw [k5, g5, h5, hmf, hmi]) (fun x => by rw [k6, g6, h6, hmf, hmi])
  refine ⟨qp, T', T2, hm, h1, g1, ?_⟩
  rw [k1]
  congr 1
  have e3 : T3.vertexes = T2.vertexes := by
    rw [e1, g7] at k7
    exact (Option.some_inj.1 k7).symm
  exact Tri.ext e1 e2 e3

/-- Mirroring reverses the order at vertices, exchanges faces and mirrors the boundary. -/
theorem mirror_reverses {dbg : Bool} {T : Tri} (h : T.Reachable dbg) :
    ∃ T', T.mirror dbg = .ok T' ∧ T'.Reachable dbg ∧ T'.halfEdges = T.halfEdges ∧
      (∀ e, T'.nextAtVertex e = T.previousAtVertex e) ∧
      (∀ e, T'.nextInFace (neg e) = neg (T.previousInFace e)) ∧
      (∀ e, T'.boundary (neg e) = T.boundary e) := by
  obtain ⟨T', h1, h2, h3, h4, h5⟩ := h.inv.1.mirror dbg
  refine ⟨T', h1, h2, by unfold halfEdges; rw [h3], h4, fun e => ?_, fun e => ?_⟩
  · unfold nextInFace previousInFace; rw [h5, neg_neg']
  · rw [Bool.eq_iff_iff, boundary_true, boundary_true, h5, neg_neg', neg_inj']
    have hw := h.inv.1.hf
    constructor
    · intro hy; conv_lhs => rw [← hy, hw.right]
    · intro hy; conv_lhs => rw [← hy, hw.left]

/-- Mirroring twice is the identity. -/
theorem mirror_mirror {dbg : Bool} {T : Tri} (h : T.Reachable dbg) :
    ∃ T' T'', T.mirror dbg = .ok T' ∧ T'.mirror dbg = .ok T'' ∧ Same T T'' ∧ T.beq T'' = true := by
  obtain ⟨T', h1, h2, h3, h4, h5⟩ := h.inv.1.mirror dbg
  obtain ⟨T'', g1, g2, g3, g4, g5⟩ := h2.inv.1.mirror dbg
  have hc := h.inv.1
  have hc' := h2.inv.1
  obtain ⟨e1, e2⟩ := eq_of_fwd hc g2.inv.1 (by omega)
    (fun x => by
      rw [g4]
      have := hc'.hv.left (T.vertices.fwd x)
      rwa [h4, hc.hv.left] at this)
    (fun x => by
      rw [g5]
      have := hc'.hf.left (neg (T.faces.fwd x))
      rw [h5, neg_neg', hc.hf.left] at this
      rw [this, neg_neg'])
  exact ⟨T', T'', h1, g1, same_of_eq h g2 e1 e2, (Perm.beq_iff hc.hv g2.inv.1.hv).2 e1.symm⟩

/-- Cloning yields an equal surface. -/
theorem clone_equal {dbg : Bool} {T : Tri} (h : T.Reachable dbg) :
    ∃ T', T.clone dbg = .ok T' ∧ T'.Reachable dbg ∧ Same T T' ∧ T.beq T' = true := by
  obtain ⟨T', h1, h2, h3⟩ := h.inv.1.clone dbg
  have hR := ofMake h.inv.1.hv h1
  exact ⟨T', h1, hR, same_of_eq h hR h2 h3, (Perm.beq_iff h.inv.1.hv hR.inv.1.hv).2 h2.symm⟩

/-- The rotation of the torus by `π` and a rotation of order three. -/
theorem torus_rotation : IsRelabeling torus (perm [[0, 1], [2, 3], [4, 5]]) :=
  ⟨.ofCycles (cs := [[0, 1], [2, 3], [4, 5]]) rfl, rfl, by decide⟩

theorem torus_rotation3 : IsRelabeling torus (perm [[0, 2, 5], [1, 3, 4]]) :=
  ⟨.ofCycles (cs := [[0, 2, 5], [1, 3, 4]]) rfl, rfl, by decide⟩

example : ∃ qp T' T'', (perm [[0, 2, 5], [1, 3, 4]]).mul (perm [[0, 1], [2, 3], [4, 5]]) = .ok qp ∧
    torus.relabel true (perm [[0, 1], [2, 3], [4, 5]]) = .ok T' ∧
    T'.relabel true (perm [[0, 2, 5], [1, 3, 4]]) = .ok T'' ∧ torus.relabel true qp = .ok T'' :=
  relabel_mul (torus_reachable _) rfl torus_rotation torus_rotation3

example : torus.relabel true (perm [[0, 2], [1], [3], [4], [5]]) = .error .invalidArgument :=
  relabel_rejects (torus_reachable _) rfl (.inr ⟨0, by decide, by decide⟩)

example : IsRelabeling torus (perm [[0], [1], [2], [3], [4], [5]]) ∧
    ∀ e ∈ torus.halfEdges, (perm [[0], [1], [2], [3], [4], [5]]).fwd e = e :=
  ⟨⟨.ofCycles (cs := [[0], [1], [2], [3], [4], [5]]) rfl, rfl, by decide⟩, by decide⟩

example : ∃ T', triangle.mirror false = .ok T' ∧ T'.Reachable false ∧ T'.boundary 0 = true ∧ T'.boundary 1 = false :=
  ⟨_, rfl, ofMake (v := (perm [[0, 5], [2, 1], [4, 3]])) (B := [0, 2, 4])
    (Perm.Reachable.ofCycles (cs := [[0, 5], [2, 1], [4, 3]]) rfl).wf rfl, by decide, by decide⟩

end Verif.C09
