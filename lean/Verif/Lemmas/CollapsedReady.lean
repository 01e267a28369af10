import Verif.Lemmas.CollapsedTurn
import Verif.Lemmas.ContourComponent

/-!
# Contours of collapsed surfaces
-/

set_option linter.unusedSectionVars false

namespace Verif.Collapsed

open Spec Contour Vertical Flow

variable {T : Type} [CommRing T] [LinearOrder T] [IsStrictOrderedRing T]
variable {C : Collapsed T}

theorem Good.tame (h : C.Good) : Tame C.seen := by
  have hl : ∀ e, C.tri.previousInFace (C.tri.nextInFace e) = e := h.linked.hf.left
  have hr : ∀ e, C.tri.nextInFace (C.tri.previousInFace e) = e := h.linked.hf.right
  have out : ∀ e, ¬ e < C.tri.size → C.tri.nextInFace e = e := by
    intro e he
    refine h.linked.hf.out e ?_
    have hs : C.tri.faces.size ≤ C.tri.size := h.linked.hs.le
    omega
  refine ⟨fun e he => h.neg_lt he, fun e he => h.next_lt he, fun e he => h.previous_lt he, hl, hr, fun e => ?_, fun e => ?_⟩
  · change C.tri.previousInFace e = C.tri.nextInFace e ∨ C.tri.previousInFace e = C.tri.nextInFace (C.tri.nextInFace e)
    by_cases he : e < C.tri.size
    · rcases h.previous_cases he with k | ⟨k1, k2, -⟩
      · exact .inr k
      · exact .inl (k2.trans k1.symm)
    · left
      rw [out e he]
      have := hl e
      rwa [out e he] at this
  · change C.tri.nextInFace (C.tri.nextInFace e) = e ∨ C.tri.nextInFace (C.tri.nextInFace e) = C.tri.previousInFace e
    by_cases he : e < C.tri.size
    · rcases h.previous_cases he with k | ⟨k1, -, k3⟩
      · exact .inr k.symm
      · left
        rw [k1, k3]
    · left
      rw [out e he, out e he]

theorem Good.ready (h : C.Good) (hu : C.Upright) : Ready C.seen C.vertical := by
  refine ⟨h.tame, fun e he => h.neg_lt he, fun e he => h.next_lt he, fun e he => h.previous_lt he, fun e _ => h.linked.hf.right e,
    fun e _ => h.linked.hf.left e, fun e he => h.cross_neg he, fun e he => hu e he, fun e he => ?_⟩
  rcases h.inv.face e (mem_net.2 he) with ht | ht
  · right
    refine ⟨(h.previous ht).symm, ?_⟩
    have hc := congrArg (Vec.cross · C.vertical) ht.2.1
    simp only [Vec.cross_add_left] at hc
    have h0 : Vec.cross (0 : Vec T) C.vertical = 0 := by unfold Vec.cross; simp
    rw [h0] at hc
    rw [show C.seen.tri.previousInFace e = C.tri.nextInFace (C.tri.nextInFace e) from h.previous ht]
    exact hc
  · exact .inl ⟨ht.1, ht.2.1⟩

theorem Good.same_source (h : C.Good) (hV : C.tri.VertexesOk) {x y : HE} (hxy : C.tri.vertices.Orb x y) :
    C.tri.source x = C.tri.source y := by
  unfold Tri.source
  refine List.find?_congr fun w hw => ?_
  obtain ⟨z, -, hz⟩ := hV.orbit w hw
  rw [decide_eq_decide, hz, hz]
  exact ⟨fun hx => hx.trans hxy, fun hy => hy.trans (hxy.symm h.linked.hv)⟩

end Verif.Collapsed
