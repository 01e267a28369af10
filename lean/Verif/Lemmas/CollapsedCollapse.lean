import Verif.Lemmas.CollapsedData
import Verif.Lemmas.CollapsedTri

/-!
# Collapsing vertical edges of collapsed surfaces
-/

set_option linter.unusedSectionVars false

namespace Verif.Collapsed

open Verif

variable {T : Type} [CommRing T] [LinearOrder T] [IsStrictOrderedRing T]
variable {K : Type*} [Field K] [LinearOrder K] [IsStrictOrderedRing K]
variable {C C' : Collapsed T} {e z : HE}

/-- The half edges with everything that is known about them. -/
def net (C : Collapsed T) : Net T := ⟨Finset.range C.tri.size, C.tri.faces.fwd, C.vec, C.conn⟩

/-- What holds in between the operations. -/
structure Good (C : Collapsed T) : Prop where
  linked : C.tri.Linked
  inv : C.net.Inv C.vertical
  v0 : C.vertical ≠ 0

theorem mem_net : z ∈ C.net.L ↔ z < C.tri.size := Finset.mem_range

namespace Good

variable (h : C.Good)

include h

theorem closed : ∀ z ∈ C.net.L, neg z ∈ C.net.L := fun z hz => mem_net.2 ((neg_lt' h.linked.even z).2 (mem_net.1 hz))

theorem gadget (he : e < C.tri.size) (hx : Vec.cross (C.vec e) C.vertical = 0) :
    Net.Gadget C.vertical C.net e (C.tri.faces.fwd e) (C.tri.faces.fwd (C.tri.faces.fwd e)) (C.tri.faces.fwd (neg e))
      (C.tri.faces.fwd (C.tri.faces.fwd (neg e))) :=
  ⟨h.inv, h.v0, h.closed, mem_net.2 he, hx, rfl, rfl, rfl, rfl⟩

theorem previous (ht : C.net.IsTri z) : C.tri.previousInFace z = C.tri.faces.fwd (C.tri.faces.fwd z) := by
  have h1 := h.linked.hf.left (C.tri.faces.fwd (C.tri.faces.fwd z))
  rw [show C.tri.faces.fwd (C.tri.faces.fwd (C.tri.faces.fwd z)) = z from ht.1] at h1
  exact h1

theorem face_closed (hz : z < C.tri.size) : C.faceClosed z = true := by
  unfold faceClosed
  split_ifs with h1 h2
  · rfl
  · rfl
  · rcases h.inv.face z (mem_net.2 hz) with ht | ht
    · rw [h.previous ht, decide_eq_true_iff, Vertical.projectPerpendicular_eq, Vertical.projectPerpendicular_eq,
        Vertical.projectPerpendicular_eq, ← Vec.cross_add_left, ← Vec.cross_add_left]
      have := ht.2.1
      change C.vec z + C.vec (C.tri.nextInFace z) + C.vec _ = 0 at this
      rw [show C.tri.faces.fwd (C.tri.faces.fwd z) = C.net.f (C.net.f z) from rfl, this, Vec.cross_zero_left]
    · exact absurd ht.1 h2

end Good

/-- What happens to the vectors and connections when a vertical edge is collapsed. -/
structure Collapses (C C' : Collapsed T) (e : HE) : Prop where
  good : C'.Good
  original : C'.original = C.original
  vertical : C'.vertical = C.vertical
  size : C'.tri.size < C.tri.size
  all : C'.net.all = C.vec (neg e) ::ₘ C.vec e ::ₘ C.net.all
  vec_neg : C.vec (neg e) = -C.vec e
  total : C'.net.total = C.net.total
  old : ∀ y < C'.tri.size, ∃ z < C.tri.size, z ≠ e ∧ z ≠ neg e ∧ Vec.cross (C'.vec y) C.vertical = Vec.cross (C.vec z) C.vertical
  verticals : C.net.verticals C.vertical = C.vec e ::ₘ C.vec (neg e) ::ₘ C'.net.verticals C.vertical

/-- A half edge `z` that is not in `Q` is called `σ z` afterwards. It is as long as before, and so is what comes next. -/
structure Moved (C C' : Collapsed T) (Q : HE → Prop) (σ : Equiv.Perm ℕ) : Prop where
  odd : ∀ z, σ (neg z) = neg (σ z)
  lt : ∀ z < C.tri.size, ¬ Q z → σ z < C'.tri.size
  vec : ∀ z < C.tri.size, ¬ Q z → Vec.cross (C'.vec (σ z)) C.vertical = Vec.cross (C.vec z) C.vertical
  next : ∀ z < C.tri.size, ¬ Q z →
    Vec.cross (C'.vec (C'.tri.nextInFace (σ z))) C.vertical = Vec.cross (C.vec (C.tri.nextInFace z)) C.vertical
  face : ∀ z < C.tri.size, ¬ Q z → ¬ Q (C.tri.nextInFace z) → C'.tri.nextInFace (σ z) = σ (C.tri.nextInFace z)

/-- Tracked data follows the half edges when `e` is collapsed, and half edges that are not in `Q` are not erased. -/
def Tracks (S : Tri) (e : HE) (Q : HE → Prop) (σ : Equiv.Perm ℕ) : Prop :=
  ∃ r : Tri.Renaming, (∀ z < S.size, ¬ Q z → σ z / 2 ∉ r.drop) ∧
    ∀ {X : Type} (swap : HE → HE → X → X) (P : Equiv.Perm ℕ → X → Prop), Tri.Carries swap P → ∀ x, P 1 x → ∃ x',
      S.renameTracked swap e x = .ok (r, x') ∧ P σ x'

/-- The sides of the faces at `e`, up to orientation. -/
def Near (S : Tri) (e : HE) : HE → Prop :=
  Net.Close e (S.nextInFace e) (S.nextInFace (S.nextInFace e)) (S.nextInFace (neg e)) (S.nextInFace (S.nextInFace (neg e)))

theorem collapse_spec (A : Option (Approx T K)) (dbg : Bool) (h : C.Good) (he : e < C.tri.size)
    (hx : Vec.cross (C.vec e) C.vertical = 0) : ∃ C' p, C.collapse A dbg e = .ok (C', p) ∧ Collapses C C' e ∧
      ∃ σ, Moved C C' (Near C.tri e) σ ∧ Tracks C.tri e (Near C.tri e) σ := by
  have g := h.gadget he hx
  obtain ⟨S, p, σ, s1, s2, s3, s4, s5, s6, s7, s8, s9⟩ := Tri.collapse_linked dbg h.linked (fun z => mem_net) (fun z => rfl) g
  obtain ⟨m, N', m1, m2, m3⟩ := beforeCollapse_spec A dbg h.linked.hf (fun z => rfl) g
  obtain ⟨vec, v1, v2⟩ := s6 m.vec
  obtain ⟨conn, c1, c2⟩ := s6 m.conn
  have r : Net.Renamed N' (net ⟨C.original, C.vertical, S, vec, conn⟩) σ := by
    refine ⟨s3, ?_, ?_, ?_, ?_⟩
    · intro z
      rw [← m3.mem, ← s4]
      exact mem_net
    · intro z hz
      rw [← m3.f z ((m3.mem z).2 hz)]
      exact s5 z ((m3.mem z).2 hz)
    · intro z hz
      exact (v2 z).trans (m2 z hz).1
    · intro z hz
      exact (c2 z).trans (m2 z hz).2
  have good : (⟨C.original, C.vertical, S, vec, conn⟩ : Collapsed T).Good := ⟨s2, r.inv m3.inv, h.v0⟩
  have kept : ∀ z < C.tri.size, ¬ Near C.tri e z → Net.Kept C.net N' z (Near C.tri e) := fun z hz hc => m3.kept z (mem_net.2 hz) hc
  refine ⟨_, p, ?_, ⟨good, rfl, rfl, ?_, ?_, g.vec_neg, ?_, ?_, ?_⟩, σ, ⟨s3, ?_, ?_, ?_, ?_⟩, s7, ?_, s9⟩
  · unfold collapse
    simp only [bind, Except.bind, s1, show beforeCollapse A dbg C.vertical C.tri e ⟨C.vec, C.conn⟩ = .ok m from m1, v1, c1]
    rw [if_neg]
    · rfl
    · rintro ⟨-, k⟩
      refine k (List.all_eq_true.2 fun z hz => good.face_closed ?_)
      simpa [Tri.halfEdges] using hz
  · have h1 : (net ⟨C.original, C.vertical, S, vec, conn⟩).L.card = N'.L.card := by
      have := r.sum_eq (fun _ => 1)
      simpa using this
    have h2 : N'.L ⊆ C.net.L.erase e := by
      intro z hz
      have := Net.mem_squash.1 ((m3.mem z).2 hz)
      exact Finset.mem_erase.2 ⟨this.2.1, this.1⟩
    have h3 := Finset.card_le_card h2
    rw [Finset.card_erase_of_mem g.mem, ← h1] at h3
    have h4 : (net ⟨C.original, C.vertical, S, vec, conn⟩).L.card = S.size := Finset.card_range _
    have h5 : C.net.L.card = C.tri.size := Finset.card_range _
    rw [h4, h5] at h3
    show S.size < _
    omega
  · rw [r.all_eq, m3.all]
    rfl
  · rw [r.total_eq m3.inv, m3.total]
  · intro y hy
    obtain ⟨w, rfl⟩ := σ.surjective y
    have hw : w ∈ N'.L := (r.mem w).1 (mem_net.2 hy)
    obtain ⟨z, z1, z2, z3, z4⟩ := m3.old w hw
    refine ⟨z, mem_net.1 z1, z2, z3, ?_⟩
    have := r.vec w hw
    change vec (σ w) = N'.vec w at this
    dsimp only
    rw [this]
    exact z4
  · rw [r.verticals_eq, m3.verticals]
    rfl
  · intro z hz hc
    exact mem_net.1 ((r.mem z).2 (kept z hz hc).mem)
  · intro z hz hc
    have k := kept z hz hc
    have := r.vec z k.mem
    change vec (σ z) = _ at this
    dsimp only
    rw [this, k.vec]
    rfl
  · intro z hz hc
    have k := kept z hz hc
    have h1 := r.f z k.mem
    have h2 := r.vec _ (m3.inv.maps z k.mem)
    change S.nextInFace (σ z) = _ at h1
    change vec (σ (N'.f z)) = _ at h2
    dsimp only
    rw [h1, h2, k.next]
    rfl
  · intro z hz hc hc'
    have k := kept z hz hc
    have h1 := r.f z k.mem
    change S.nextInFace (σ z) = _ at h1
    dsimp only
    rw [h1, k.f hc']
    rfl
  · intro z hz hc
    exact s8 z ((m3.mem z).2 (kept z hz hc).mem)

end Verif.Collapsed
