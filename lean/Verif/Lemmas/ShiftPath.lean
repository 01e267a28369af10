import Verif.Model.ShiftPath
import Verif.Spec.ShiftPath
import Verif.Props.C93
import Verif.Lemmas.Shift
import Verif.Lemmas.LinearPath

/-!
# Lemmas about paths mapped through a shift
-/

namespace Verif

open Spec Tri FlatTri Vec

set_option linter.unusedSectionVars false

variable {T : Type} [CommRing T] [LinearOrder T] [IsStrictOrderedRing T]
variable {K : Type} [Field K] [LinearOrder K] [IsStrictOrderedRing K]
variable {dbg : Bool} {S S' : FlatTri T}

namespace ShiftRelation

theorem push_append (p a b : List Saddle) : push dbg S p (a ++ b) = (push dbg S p a).bind fun p => push dbg S p b := by
  induction a generalizing p with
  | nil => rfl
  | cons c a ih =>
    rw [List.cons_append, push, push]
    split_ifs
    · rfl
    · exact ih _

theorem push_ok (p l : List Saddle) (h : (p ++ l).IsChain fun c d => S.connected c d = true) : push dbg S p l = .ok (p ++ l) := by
  induction l generalizing p with
  | nil => rw [List.append_nil]; rfl
  | cons c l ih =>
    rw [push, if_neg]
    · rw [ih _ (by simpa using h)]
      simp
    · rw [Bool.and_eq_true, not_and]
      intro _
      cases hp : p.getLast? with
      | none => simp
      | some d =>
        have := (List.isChain_append.1 h).2.2 d hp c (by simp)
        simp [this]

theorem SameVertex.refl (a : HE) : SameVertex S a a := ⟨0, rfl⟩

theorem sameVertex_iff {a b : HE} : SameVertex S a b ↔ S.tri.vertices.Orb a b := Iff.rfl

theorem Leads.of_same {a b c : HE} {l : List HE} (h : SameVertex S a b) (hl : Leads S b l c) : Leads S a l c := by
  cases hl with
  | done k => exact .done (Perm.Orb.trans (p := S.tri.vertices) h k)
  | step k1 k2 => exact .step (Perm.Orb.trans (p := S.tri.vertices) h k1) k2

theorem Leads.append {a b c : HE} {l m : List HE} (h1 : Leads S a l b) (h2 : Leads S b m c) : Leads S a (l ++ m) c := by
  induction h1 with
  | done k => exact Leads.of_same k h2
  | step k _ ih => exact .step k (ih h2)

theorem FollowsEdge.mono {e : HE} {k k' : List (HE × Vec T)} (hk : k ⊆ k') {p q : Vec T} {l : List HE} (h : FollowsEdge S e k p l q) :
    FollowsEdge S e k' p l q := by
  have ht : ∀ {h p}, TriangleSide S e k h p → TriangleSide S e k' h p := by
    rintro h p ⟨g, q, h1, h2⟩
    refine ⟨g, q, ?_, h2⟩
    rcases h1 with h1 | ⟨x, hx, h1⟩
    · exact .inl h1
    · exact .inr ⟨x, hk hx, h1⟩
  induction h with
  | done => exact .done
  | step h1 _ ih => exact .step (h1.imp ht ht) ih

/-- What happens after the half edge `x` has been crossed. -/
theorem walk_crosses (hS : S.Shut) {e : HE} {v : Vec T} {x : HE} {q : Vec T} {t : HE} {k : List (HE × Vec T)} (h : Crosses S v x q t k)
    (hx : x < S.tri.size) : ∃ k' l, k = (x, q - S.vec x) :: k' ∧ Leads S (neg x) l t ∧ FollowsEdge S e k q l v ∧
      (∀ h ∈ l, h < S.tri.size) ∧ t < S.tri.size ∧
      ∀ image, (walk dbg (ofShift S S') (k'.map Prod.fst) (neg x) image).bind (fun p => push dbg S' p [Saddle.ofHalfEdge (neg t)]) =
        push dbg S' image (l.map Saddle.ofHalfEdge) := by
  have prev : ∀ y, S.tri.previousInFace y = S.tri.nextInFace (S.tri.nextInFace y) := by
    intro y
    have : S.tri.faces.inv y = S.tri.faces.fwd (S.tri.faces.fwd y) := by
      rw [← hS.flat.coh.hf.left (S.tri.faces.fwd (S.tri.faces.fwd y)), hS.flat.coh.tri]
    exact this
  have tri : ∀ y, S.tri.nextInFace (S.tri.nextInFace (S.tri.nextInFace y)) = y := hS.flat.coh.tri
  have nl : ∀ {y}, y < S.tri.size → S.tri.nextInFace y < S.tri.size := fun hy => hS.next_lt hy
  have here : ∀ x (q : Vec T) k, Triangle S e ((x, q - S.vec x) :: k) (neg x) q :=
    fun x q k => .inr ⟨(x, q - S.vec x), by simp, rfl, by simp⟩
  induction h with
  | @here x q hv =>
    have hnx := hS.neg_lt hx
    refine ⟨[], [neg (S.tri.nextInFace (S.tri.nextInFace (neg x)))], rfl, ?_, ?_, ?_, nl (nl hnx), fun image => rfl⟩
    · refine .step ⟨1, Shift.next_vertex hS hnx⟩ ?_
      rw [neg_neg']
      exact .done (SameVertex.refl _)
    · have hodd := hS.flat.odd _ (nl (nl hnx))
      have hodd' := hS.flat.odd x hx
      have hcl := hS.flat.closed _ (hS.nb _ hnx)
      have hend : q + S.vec (neg (S.tri.nextInFace (S.tri.nextInFace (neg x)))) = v := by
        rw [hodd, hv]
        unfold apex
        unfold Tri.nextInFace at *
        rw [hodd'] at hcl
        linear_combination (norm := abel) -hcl
      refine .step (.inr ⟨neg x, q, here x q _, .inr (.inr ⟨neg_neg' _, ?_⟩)⟩) ?_
      · rw [hend, hv, hodd']
        unfold apex
        abel
      · rw [hend]
        exact .done
    · intro h hh
      rw [List.mem_singleton] at hh
      subst hh
      exact hS.neg_lt (nl (nl hnx))
  | @right x q t k hc hk ih =>
    have hnx := hS.neg_lt hx
    obtain ⟨k', l, e1, e2, e3, e4, e5, e6⟩ := ih (nl hnx)
    refine ⟨k, neg x :: S.tri.nextInFace (neg x) :: l, rfl, ?_, ?_, ?_, e5, fun image => ?_⟩
    · refine .step (SameVertex.refl _) (.step ?_ e2)
      rw [neg_neg']
      refine Perm.Orb.symm hS.flat.coh.hv ⟨1, ?_⟩
      show S.tri.nextAtVertex _ = _
      rw [Shift.next_vertex hS (nl hnx), tri, neg_neg']
    · refine .step (.inl ⟨neg x, q, here x q _, .inl ⟨rfl, rfl⟩⟩) (.step (.inl ⟨neg x, q, here x q _, .inr (.inl ⟨rfl, rfl⟩)⟩) ?_)
      have : q + S.vec (neg x) + S.vec (S.tri.nextInFace (neg x)) = apex S x q := by
        rw [hS.flat.odd x hx]
        unfold apex
        abel
      rw [this]
      exact FollowsEdge.mono (by simp) e3
    · intro h hh
      rcases List.mem_cons.1 hh with rfl | hh
      · exact hnx
      rcases List.mem_cons.1 hh with rfl | hh
      · exact nl hnx
      exact e4 h hh
    · rw [e1, List.map_cons, walk]
      dsimp only
      rw [if_neg, if_neg, if_pos]
      rotate_left
      · rfl
      · show ¬ S.tri.nextInFace (neg x) = S.tri.previousInFace (neg x)
        rw [prev]
        exact fun hz => hS.nb _ (nl hnx) hz.symm
      · rintro ⟨-, hz⟩
        exact hS.nb _ hnx hz.symm
      rw [List.map_cons, List.map_cons, show (Saddle.ofHalfEdge (neg x) :: Saddle.ofHalfEdge (S.tri.nextInFace (neg x)) :: l.map Saddle.ofHalfEdge) =
        [Saddle.ofHalfEdge (neg x)] ++ ([Saddle.ofHalfEdge (S.tri.nextInFace (neg x))] ++ l.map Saddle.ofHalfEdge) from rfl, push_append]
      show Except.bind (Except.bind (push dbg S' image [Saddle.ofHalfEdge (neg x)]) _) _ = _
      cases push dbg S' image [Saddle.ofHalfEdge (neg x)] with
      | error err => rfl
      | ok image1 =>
        show Except.bind (Except.bind (push dbg S' image1 [Saddle.ofHalfEdge (S.tri.nextInFace (neg x))]) _) _ = push dbg S' image1 _
        rw [push_append]
        cases push dbg S' image1 [Saddle.ofHalfEdge (S.tri.nextInFace (neg x))] with
        | error err => rfl
        | ok image2 => exact e6 image2
  | @left x q t k hc hk ih =>
    have hnx := hS.neg_lt hx
    obtain ⟨k', l, e1, e2, e3, e4, e5, e6⟩ := ih (nl (nl hnx))
    refine ⟨k, l, rfl, ?_, FollowsEdge.mono (by simp) e3, e4, e5, fun image => ?_⟩
    · exact Leads.of_same ⟨1, Shift.next_vertex hS hnx⟩ e2
    · rw [e1, List.map_cons, walk]
      dsimp only
      rw [if_neg, if_pos]
      · exact e6 image
      · exact (prev _).symm
      · rintro ⟨-, hz⟩
        have := congrArg S.tri.nextInFace hz
        rw [tri] at this
        exact hS.nb _ hnx this

theorem target_unique {v : Vec T} {x : HE} {q : Vec T} {t t' : HE} {k : List (HE × Vec T)} (h : Crosses S v x q t k)
    (h' : Hits S v x q t') : t = t' := by
  induction h with
  | here hv =>
    cases h' with
    | here => rfl
    | right hc => rw [← hv, cross_self] at hc; exact absurd hc (lt_irrefl _)
    | left hc => rw [← hv, cross_self] at hc; exact absurd hc (lt_irrefl _)
  | right hc hk ih =>
    cases h' with
    | here hv => rw [← hv, cross_self] at hc; exact absurd hc (lt_irrefl _)
    | right _ hk' => exact ih hk'
    | left hc' => exact absurd hc hc'.asymm
  | left hc hk ih =>
    cases h' with
    | here hv => rw [← hv, cross_self] at hc; exact absurd hc (lt_irrefl _)
    | right hc' => exact absurd hc hc'.asymm
    | left _ hk' => exact ih hk'

/-- The half edges along which one runs instead of a saddle connection. -/
theorem walk_crossings (hS : S.Shut) {c : Saddle} (he : c.source < S.tri.size) (hc : IsSaddleConnection S c.source (S.saddleVector c) c.target)
    {k : List (HE × Vec T)} (hk : Crossings S c.source (S.saddleVector c) k) : ∃ l, Homotopic S c l ∧ l ≠ [] ∧ (∀ h ∈ l, h < S.tri.size) ∧
      ∀ image, (walk dbg (ofShift S S') (k.map Prod.fst) c.source image).bind
        (fun p => push dbg S' p [Saddle.ofHalfEdge (neg c.target)]) = push dbg S' image (l.map Saddle.ofHalfEdge) := by
  have nl : ∀ {y}, y < S.tri.size → S.tri.nextInFace y < S.tri.size := fun hy => hS.next_lt hy
  have start : ∀ k, Triangle S c.source k c.source 0 := fun k => .inl ⟨rfl, rfl⟩
  have hk0 := hk
  cases hk with
  | halfEdge hv =>
    have ht : c.target = neg c.source := by
      cases hc with
      | halfEdge _ ht => exact ht
      | crossing hcr => rw [hv, cross_self] at hcr; exact absurd hcr (lt_irrefl _)
    refine ⟨[c.source], ⟨?_, [], hk0, ?_⟩, by simp, by simpa using he, fun image => ?_⟩
    · rw [ht]
      exact .step (SameVertex.refl _) (.done (SameVertex.refl _))
    · refine .step (.inl ⟨_, _, start _, .inl ⟨rfl, rfl⟩⟩) ?_
      rw [zero_add, ← hv]
      exact .done
    · rw [ht, neg_neg']
      rfl
  | @crossing t _ h1 h2 h3 =>
    have ht : t = c.target := by
      cases hc with
      | halfEdge hv _ => rw [hv, cross_self] at h1; exact absurd h1 (lt_irrefl _)
      | crossing _ _ hh => exact target_unique h3 hh
    subst ht
    obtain ⟨k', l, e1, e2, e3, e4, -, e6⟩ := walk_crosses (dbg := dbg) (S' := S') (e := c.source) hS h3 (nl he)
    refine ⟨c.source :: S.tri.nextInFace c.source :: l, ⟨?_, k, hk0, ?_⟩, by simp, ?_, fun image => ?_⟩
    · refine .step (SameVertex.refl _) (.step ?_ e2)
      refine Perm.Orb.symm hS.flat.coh.hv ⟨1, ?_⟩
      show S.tri.nextAtVertex _ = _
      rw [Shift.next_vertex hS (nl he), show S.tri.nextInFace (S.tri.nextInFace (S.tri.nextInFace c.source)) = c.source from hS.flat.coh.tri _]
    · refine .step (.inl ⟨_, _, start _, .inl ⟨rfl, rfl⟩⟩) (.step (.inl ⟨_, _, start _, .inr (.inl ⟨rfl, rfl⟩)⟩) ?_)
      rw [zero_add]
      exact e3
    · intro h hh
      rcases List.mem_cons.1 hh with rfl | hh
      · exact he
      rcases List.mem_cons.1 hh with rfl | hh
      · exact nl he
      exact e4 h hh
    · rw [e1, List.map_cons, walk]
      dsimp only
      rw [if_neg, if_neg, if_pos]
      rotate_left
      · rfl
      · show ¬ S.tri.nextInFace c.source = S.tri.previousInFace c.source
        have : S.tri.faces.inv c.source = S.tri.faces.fwd (S.tri.faces.fwd c.source) := by
          rw [← hS.flat.coh.hf.left (S.tri.faces.fwd (S.tri.faces.fwd c.source)), hS.flat.coh.tri]
        rw [show S.tri.previousInFace c.source = S.tri.nextInFace (S.tri.nextInFace c.source) from this]
        exact fun hz => hS.nb _ (nl he) hz.symm
      · rintro ⟨-, hz⟩
        exact hS.nb _ he hz.symm
      rw [List.map_cons, List.map_cons, show (Saddle.ofHalfEdge c.source :: Saddle.ofHalfEdge (S.tri.nextInFace c.source) :: l.map Saddle.ofHalfEdge) =
        [Saddle.ofHalfEdge c.source] ++ ([Saddle.ofHalfEdge (S.tri.nextInFace c.source)] ++ l.map Saddle.ofHalfEdge) from rfl, push_append]
      show Except.bind (Except.bind (push dbg S' image [Saddle.ofHalfEdge c.source]) _) _ = _
      cases push dbg S' image [Saddle.ofHalfEdge c.source] with
      | error err => rfl
      | ok image1 =>
        show Except.bind (Except.bind (push dbg S' image1 [Saddle.ofHalfEdge (S.tri.nextInFace c.source)]) _) _ = push dbg S' image1 _
        rw [push_append]
        cases push dbg S' image1 [Saddle.ofHalfEdge (S.tri.nextInFace c.source)] with
        | error err => rfl
        | ok image2 => exact e6 image2

theorem same_orb (hs : Same S.tri S'.tri) {a b : HE} (h : S.tri.vertices.Orb a b) : S'.tri.vertices.Orb a b := by
  refine h.map (π := id) fun x => ⟨1, ?_⟩
  exact hs.nextAtVertex x

theorem Leads.chain (hS' : S'.Shut) (hs : Same S.tri S'.tri) {a b : HE} {l : List HE} (h : Leads S a l b) (hl : ∀ h ∈ l, h < S'.tri.size) :
    (l.map Saddle.ofHalfEdge).IsChain fun c d => S'.connected c d = true := by
  induction h with
  | done => simp
  | @step a b h l h1 h2 ih =>
    have ih := ih fun x hx => hl x (by simp [hx])
    cases h2 with
    | done => simp
    | @step _ _ g l g1 g2 =>
      rw [List.map_cons, List.map_cons, List.isChain_cons_cons]
      refine ⟨?_, ih⟩
      rw [hS'.connected_iff (hS'.neg_lt (hl h (by simp))) (hl g (by simp))]
      exact same_orb hs g1

end ShiftRelation

end Verif
