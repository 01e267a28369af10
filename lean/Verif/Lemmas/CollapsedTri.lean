import Verif.Lemmas.Collapse
import Verif.Lemmas.CollapsedSquash

/-!
# Collapsing vertical edges of surfaces that contain collapsed faces
-/

set_option linter.unusedSectionVars false

namespace Verif.Tri

open Verif Vec

/-! ### Faces that collapse to an edge -/

theorem closeFirst_pinch {f : Perm} (hf : f.WF) {e x t : HE} (he : f.fwd e = x) (hx : f.fwd x = t) (ht : f.fwd t = e)
    (hex : e ≠ x) (hxt : x ≠ t) (hlt : e < f.size) (hn : neg x = t) :
    ∃ g, closeFirst f e = .ok g ∧ g.WF ∧ g.size = f.size ∧ g.fwd e = e ∧ g.fwd x = t ∧ g.fwd t = x ∧
      ∀ z, z ≠ e → z ≠ t → g.fwd z = f.fwd z := by
  have hie : f.inv e = t := by rw [← ht, hf.left]
  have hit : f.inv t = x := by rw [← hx, hf.left]
  have hxlt : x < f.size := he ▸ hf.fwd_lt.2 hlt
  have htlt : t < f.size := hx ▸ hf.fwd_lt.2 hxlt
  obtain ⟨f1, a1, a2, a3, a4⟩ := mulPair hf htlt htlt
  have e1 : ∀ z, f1.fwd z = f.fwd z := fun z => by rw [a4, Equiv.swap_self]; rfl
  obtain ⟨f2, b1, b2, b3, b4⟩ := mulPair a2 (u := x) (v := x) (a3 ▸ hxlt) (a3 ▸ hxlt)
  have e2 : ∀ z, f2.fwd z = f.fwd z := fun z => by rw [b4, Equiv.swap_self]; exact e1 z
  have hie2 : f2.inv e = t := by rw [← ht, ← e2, b2.left]
  obtain ⟨f3, c1, c2, c3, c4⟩ := mulPair b2 (u := t) (v := e) (by rw [b3, a3]; exact htlt) (by rw [b3, a3]; exact hlt)
  refine ⟨f3, ?_, c2, by rw [c3, b3, a3], ?_, ?_, ?_, ?_⟩
  · unfold closeFirst
    simp only [bind, Except.bind, he, hie, hn, a1, hit, b1, hie2, c1]
  · rw [c4, Equiv.swap_apply_right, e2, ht]
  · rw [c4, Equiv.swap_apply_of_ne_of_ne hxt hex.symm, e2, hx]
  · rw [c4, Equiv.swap_apply_left, e2, he]
  · intro z z1 z2
    rw [c4, Equiv.swap_apply_of_ne_of_ne z2 z1, e2]

theorem closeSecond_pinch {f : Perm} (hf : f.WF) {e c t : HE} (he : f.fwd e = c) (hc : f.fwd c = t) (ht : f.fwd t = e)
    (hec : e ≠ c) (hct : c ≠ t) (hlt : e < f.size) (hn : neg c = t) :
    ∃ g, closeSecond f e = .ok g ∧ g.WF ∧ g.size = f.size ∧ g.fwd e = e ∧ g.fwd c = t ∧ g.fwd t = c ∧
      ∀ z, z ≠ e → z ≠ t → g.fwd z = f.fwd z := by
  have hn' : neg t = c := by rw [← hn, neg_neg']
  have hie : f.inv e = t := by rw [← ht, hf.left]
  have hic : f.inv c = e := by rw [← he, hf.left]
  have hclt : c < f.size := he ▸ hf.fwd_lt.2 hlt
  have htlt : t < f.size := hc ▸ hf.fwd_lt.2 hclt
  obtain ⟨f1, a1, a2, a3, a4⟩ := mulPair hf hclt hclt
  have e1 : ∀ z, f1.fwd z = f.fwd z := fun z => by rw [a4, Equiv.swap_self]; rfl
  obtain ⟨f2, b1, b2, b3, b4⟩ := mulPair a2 (u := e) (v := e) (a3 ▸ hlt) (a3 ▸ hlt)
  have e2 : ∀ z, f2.fwd z = f.fwd z := fun z => by rw [b4, Equiv.swap_self]; exact e1 z
  have hie2 : f2.inv e = t := by rw [← ht, ← e2, b2.left]
  obtain ⟨f3, c1, c2, c3, c4⟩ := mulPair b2 (u := t) (v := e) (by rw [b3, a3]; exact htlt) (by rw [b3, a3]; exact hlt)
  refine ⟨f3, ?_, c2, by rw [c3, b3, a3], ?_, ?_, ?_, ?_⟩
  · unfold closeSecond
    simp only [bind, Except.bind, he, hie, hn', a1, hic, b1, hie2, c1]
  · rw [c4, Equiv.swap_apply_right, e2, ht]
  · rw [c4, Equiv.swap_apply_of_ne_of_ne hct hec.symm, e2, hc]
  · rw [c4, Equiv.swap_apply_left, e2, he]
  · intro z z1 z2
    rw [c4, Equiv.swap_apply_of_ne_of_ne z2 z1, e2]

/-! ### Closing the faces -/

variable {T : Type} [CommRing T] [LinearOrder T] [IsStrictOrderedRing T]
variable {v : Vec T} {N : Net T} {e x t c u : HE}

/-- The permutation describes the faces. -/
structure Shows (f : Perm) (N : Net T) : Prop where
  wf : f.WF
  lt : ∀ z ∈ N.L, z < f.size
  eq : ∀ z ∈ N.L, f.fwd z = N.f z
  junk : ∀ z, z ∉ N.L → f.fwd z ∉ N.L

theorem Inv.ne_fix (h : N.Inv v) {z : HE} (hz : z ∈ N.L) : N.f z ≠ z := by
  rcases h.face z hz with h | h
  · exact h.ne.1
  · rw [h.1]; exact neg_ne z

theorem Shows.first {f : Perm} (s : Shows f N) (h : N.Thin v e x t) :
    ∃ g, closeFirst f e = .ok g ∧ g.size = f.size ∧ Shows g (N.squashLeft e x t) := by
  have fe : f.fwd e = x := by rw [s.eq e h.mem, h.fe]
  have fx : f.fwd x = t := by rw [s.eq x h.mem_x, h.fx]
  have ft : f.fwd t = e := by rw [s.eq t h.mem_t, h.ft]
  unfold Net.squashLeft
  split_ifs with hxt
  · obtain ⟨g, g1, g2, g3, g4, g5, g6, g7⟩ := closeFirst_pinch s.wf fe fx ft h.ex h.xt (s.lt _ h.mem) hxt
    refine ⟨g, g1, g3, g2, ?_, ?_, ?_⟩
    · intro z hz
      rw [Net.mem_pinch] at hz
      rw [g3]
      exact s.lt z hz.1
    · intro z hz
      rw [Net.mem_pinch] at hz
      unfold Net.pinch
      dsimp only
      split_ifs with k1 k2
      · rw [k1, g5]
      · rw [k2, g6]
      · rw [g7 z hz.2 k2, s.eq z hz.1]
    · intro z hz
      by_cases k : z = e
      · rw [k, g4]
        exact fun j => (Net.mem_pinch.1 j).2 rfl
      · have hz' : z ∉ N.L := fun j => hz (Net.mem_pinch.2 ⟨j, k⟩)
        rw [g7 z k (fun j => hz' (j ▸ h.mem_t))]
        exact fun j => s.junk z hz' (Net.mem_pinch.1 j).1
  · have q := h.dropX hxt
    obtain ⟨g, g1, g2, g3, g4, g5, g6, g7⟩ := closeFirst_spec s.wf fe fx ft h.ex h.xt h.et.symm (s.lt _ h.mem) (s.lt _ h.neg_x) h.neg_x_ne.1 hxt
      (by rw [s.eq _ h.neg_x]; exact Inv.ne_fix h.inv h.neg_x)
    refine ⟨g, g1, g3, g2, ?_, ?_, ?_⟩
    · intro z hz
      rw [Net.mem_dropX] at hz
      rw [g3]
      exact s.lt z hz.1
    · intro y hy
      obtain ⟨z, hz, rfl⟩ := q.surj y hy
      rw [q.face z hz, g7 z hz.2.1 hz.2.2.1 hz.2.2.2, s.eq z hz.1]
    · intro z hz
      rw [Net.mem_dropX] at hz
      by_cases k1 : z = e
      · rw [k1, g4]
        exact fun j => (Net.mem_dropX.1 j).2.1 rfl
      by_cases k2 : z = x
      · rw [k2, g5]
        exact fun j => (Net.mem_dropX.1 j).2.2.2 rfl
      by_cases k3 : z = neg x
      · rw [k3, g6]
        exact fun j => (Net.mem_dropX.1 j).2.2.1 rfl
      have hz' : z ∉ N.L := fun j => hz ⟨j, k1, k2, k3⟩
      have := g7 z k1 k2 (fun j => hz' (j ▸ h.mem_t))
      have k4 : f.fwd z ≠ neg x := fun j => s.junk z hz' (by rw [j]; exact h.neg_x)
      rw [if_neg k3, if_neg k4] at this
      rw [this]
      exact fun j => s.junk z hz' (Net.mem_dropX.1 j).1

theorem Shows.second {f : Perm} (s : Shows f N) (h : N.Thin v e x t) :
    ∃ g, closeSecond f e = .ok g ∧ g.size = f.size ∧ Shows g (N.squashRight e x t) := by
  have fe : f.fwd e = x := by rw [s.eq e h.mem, h.fe]
  have fx : f.fwd x = t := by rw [s.eq x h.mem_x, h.fx]
  have ft : f.fwd t = e := by rw [s.eq t h.mem_t, h.ft]
  unfold Net.squashRight
  split_ifs with hxt
  · obtain ⟨g, g1, g2, g3, g4, g5, g6, g7⟩ := closeSecond_pinch s.wf fe fx ft h.ex h.xt (s.lt _ h.mem) hxt
    refine ⟨g, g1, g3, g2, ?_, ?_, ?_⟩
    · intro z hz
      rw [Net.mem_pinch] at hz
      rw [g3]
      exact s.lt z hz.1
    · intro z hz
      rw [Net.mem_pinch] at hz
      unfold Net.pinch
      dsimp only
      split_ifs with k1 k2
      · rw [k1, g5]
      · rw [k2, g6]
      · rw [g7 z hz.2 k2, s.eq z hz.1]
    · intro z hz
      by_cases k : z = e
      · rw [k, g4]
        exact fun j => (Net.mem_pinch.1 j).2 rfl
      · have hz' : z ∉ N.L := fun j => hz (Net.mem_pinch.2 ⟨j, k⟩)
        rw [g7 z k (fun j => hz' (j ▸ h.mem_t))]
        exact fun j => s.junk z hz' (Net.mem_pinch.1 j).1
  · have q := h.dropT hxt
    have hxt' : neg t ≠ x := fun k => hxt (by rw [← k, neg_neg'])
    obtain ⟨g, g1, g2, g3, g4, g5, g6, g7⟩ := closeSecond_spec s.wf fe fx ft h.ex h.xt h.et.symm (s.lt _ h.mem) (s.lt _ h.neg_t) h.neg_t_ne.1 hxt'
      (by rw [s.eq _ h.neg_t]; exact Inv.ne_fix h.inv h.neg_t)
    refine ⟨g, g1, g3, g2, ?_, ?_, ?_⟩
    · intro z hz
      rw [Net.mem_dropT] at hz
      rw [g3]
      exact s.lt z hz.1
    · intro y hy
      obtain ⟨z, hz, rfl⟩ := q.surj y hy
      rw [q.face z hz, g7 z hz.2.1 hz.2.2.1 hz.2.2.2, s.eq z hz.1]
    · intro z hz
      rw [Net.mem_dropT] at hz
      by_cases k1 : z = e
      · rw [k1, g4]
        exact fun j => (Net.mem_dropT.1 j).2.1 rfl
      by_cases k2 : z = t
      · rw [k2, g5]
        exact fun j => (Net.mem_dropT.1 j).2.2.2 rfl
      by_cases k3 : z = neg t
      · rw [k3, g6]
        exact fun j => (Net.mem_dropT.1 j).2.2.1 rfl
      have hz' : z ∉ N.L := fun j => hz ⟨j, k1, k2, k3⟩
      have := g7 z k1 (fun j => hz' (j ▸ h.mem_x)) k2
      have k4 : f.fwd z ≠ neg t := fun j => s.junk z hz' (by rw [j]; exact h.neg_t)
      rw [if_neg k3, if_neg k4] at this
      rw [this]
      exact fun j => s.junk z hz' (Net.mem_dropT.1 j).1

theorem Shows.squash {f : Perm} (s : Shows f N) (h : N.Gadget v e x t c u) :
    ∃ g k, closeFirst f e = .ok g ∧ closeSecond g (neg e) = .ok k ∧ k.size = f.size ∧ Shows k (N.squash e x t c u) := by
  obtain ⟨g, g1, g2, g3⟩ := s.first h.left
  obtain ⟨k, k1, k2, k3⟩ := g3.second h.half.thin
  exact ⟨g, k, g1, k1, k2.trans g2, k3⟩

/-! ### Collapsing an edge -/

theorem mem_dropEdges {S : Tri} (hS : S.Linked) (hf : ∀ z, N.f z = S.faces.fwd z) (g : N.Gadget v e x t c u) (z : HE) :
    z / 2 ∈ S.dropEdges e ↔ (z = e ∨ z = neg e) ∨ (neg x ≠ t ∧ (z = x ∨ z = neg x)) ∨
      (neg (Net.second x t c) ≠ u ∧ (z = u ∨ z = neg u)) := by
  have e1 : S.nextInFace e = x := by rw [← g.fe, hf]; rfl
  have e2 : S.previousInFace e = t := hS.hf.inj (by rw [← hf t, g.left.ft]; exact hS.hf.right e)
  have e3 : S.nextInFace (neg e) = c := by rw [← g.fe', hf]; rfl
  have e4 : S.previousInFace (neg e) = u := hS.hf.inj (by rw [← hf u, g.right.ft]; exact hS.hf.right (neg e))
  have n1 : x = neg t ↔ neg x = t := ⟨fun k => by rw [k, neg_neg'], fun k => by rw [← k, neg_neg']⟩
  have n2 : x = neg c ↔ c = neg x := ⟨fun k => by rw [k, neg_neg'], fun k => by rw [k, neg_neg']⟩
  have n3 : neg u = t ↔ neg t = u := ⟨fun k => by rw [← k, neg_neg'], fun k => by rw [← k, neg_neg']⟩
  have n4 : neg u = c ↔ neg c = u := ⟨fun k => by rw [← k, neg_neg'], fun k => by rw [← k, neg_neg']⟩
  have hux := g.ne_u.2.1
  have key : (x = neg c ∧ neg u = t) ∨ neg u = c ↔ neg (Net.second x t c) = u := by
    unfold Net.second
    rw [n2, n3, n4]
    split_ifs with k
    · constructor
      · rintro (j | j)
        · exact j.2
        · exact absurd (by rw [← j, k, neg_neg']) hux
      · exact fun j => .inl ⟨k, j⟩
    · tauto
  unfold dropEdges
  dsimp only
  rw [e1, e2, e3, e4]
  by_cases k1 : neg x = t
  · have k1' := n1.2 k1
    rw [if_pos k1']
    by_cases k2 : neg (Net.second x t c) = u
    · rcases key.2 k2 with k3 | k3
      · rw [if_pos k3, Finset.mem_singleton, half_eq]
        simp only [ne_eq, k1, k2, not_true_eq_false, not_false_eq_true, false_and, true_and, or_false, false_or] <;> (clear * -; tauto)
      · rw [if_pos k3, ite_self, Finset.mem_singleton, half_eq]
        simp only [ne_eq, k1, k2, not_true_eq_false, not_false_eq_true, false_and, true_and, or_false, false_or] <;> (clear * -; tauto)
    · have k3 := fun j => k2 (key.1 j)
      rw [if_neg fun j => k3 (.inl j), if_neg fun j => k3 (.inr j), Finset.mem_insert, Finset.mem_singleton, neg_half, half_eq, half_eq]
      simp only [ne_eq, k1, k2, not_true_eq_false, not_false_eq_true, false_and, true_and, or_false, false_or] <;> (clear * -; tauto)
  · have k1' := fun j => k1 (n1.1 j)
    rw [if_neg k1']
    by_cases k2 : neg (Net.second x t c) = u
    · rcases key.2 k2 with k3 | k3
      · rw [if_pos k3, Finset.mem_insert, Finset.mem_singleton, half_eq, half_eq]
        simp only [ne_eq, k1, k2, not_true_eq_false, not_false_eq_true, false_and, true_and, or_false, false_or] <;> (clear * -; tauto)
      · rw [if_pos k3, ite_self, Finset.mem_insert, Finset.mem_singleton, half_eq, half_eq]
        simp only [ne_eq, k1, k2, not_true_eq_false, not_false_eq_true, false_and, true_and, or_false, false_or] <;> (clear * -; tauto)
    · have k3 := fun j => k2 (key.1 j)
      rw [if_neg fun j => k3 (.inl j), if_neg fun j => k3 (.inr j), Finset.mem_insert, Finset.mem_insert, Finset.mem_singleton, neg_half,
        half_eq, half_eq, half_eq]
      simp only [ne_eq, k1, k2, not_true_eq_false, not_false_eq_true, false_and, true_and, or_false, false_or] <;> (clear * -; tauto)

/-- The renamed half edges. -/
def renamedNet (N : Net T) (σ : Equiv.Perm ℕ) : Net T :=
  ⟨N.L.map σ.toEmbedding, fun z => σ (N.f (σ.symm z)), fun z => N.vec (σ.symm z), fun z => N.conn (σ.symm z)⟩

theorem renamedNet_ren {σ : Equiv.Perm ℕ} (hσ : ∀ z, σ (neg z) = neg (σ z)) : Net.Ren σ N (renamedNet N σ) := by
  refine ⟨hσ, ?_, ?_, ?_, ?_⟩
  · intro z
    unfold renamedNet
    simp
  all_goals
    intro z
    unfold renamedNet
    simp

theorem collapse_linked (dbg : Bool) {S : Tri} (hS : S.Linked) (hL : ∀ z, z ∈ N.L ↔ z < S.size) (hf : ∀ z, N.f z = S.faces.fwd z)
    (g : N.Gadget v e x t c u) :
    ∃ S' p σ, collapse dbg S e = .ok (S', p) ∧ S'.Linked ∧ (∀ z : HE, σ (neg z) = neg (σ z)) ∧
      (∀ z, σ z < S'.size ↔ z ∈ (N.squash e x t c u).L) ∧
      (∀ z ∈ (N.squash e x t c u).L, S'.faces.fwd (σ z) = σ ((N.squash e x t c u).f z)) ∧
      (∀ {V : Type} (m : HE → V), ∃ m', S.renameAll e m = .ok m' ∧ ∀ z, m' ((σ : Equiv.Perm ℕ) z) = m z) ∧
      ∃ r : Renaming, (∀ z ∈ (N.squash e x t c u).L, σ z / 2 ∉ r.drop) ∧
        ∀ {X : Type} (swap : HE → HE → X → X) (P : Equiv.Perm ℕ → X → Prop), Tri.Carries swap P → ∀ x, P 1 x → ∃ x',
          S.renameTracked swap e x = .ok (r, x') ∧ P σ x' := by
  have heven : 2 * (S.size / 2) = S.size := by have := hS.even; unfold size; omega
  have hs : S.faces.size = S.size := hS.hs
  have hD := mem_dropEdges hS hf g
  have hDlt : ∀ m ∈ S.dropEdges e, m < S.size / 2 := by
    intro m hm
    have h1 := (hD (2 * m)).1 (by rwa [show 2 * m / 2 = m by omega])
    have h2 : 2 * m < S.size := by
      rw [← hL]
      rcases h1 with (h | h) | ⟨-, h | h⟩ | ⟨-, h | h⟩ <;> rw [h]
      · exact g.mem
      · exact g.mem'
      · exact g.left.mem_x
      · exact g.left.neg_x
      · exact g.right.mem_t
      · exact g.right.neg_t
    omega
  obtain ⟨r, σ, r1, r2, r3, r4, r5, r6, r7, r8⟩ := renameDropped_spec hS (e := e) ((hD e).2 (.inl (.inl rfl))) hDlt
  set n := (S.dropEdges e).card
  have hs1 : r.tri.faces.size = S.size := by rw [r2.coh.hs]; exact r2.size
  have ren := renamedNet_ren (N := N) r2.odd
  set M := renamedNet N σ with hM
  have gm := ren.gadget g
  have rs := ren.squash e x t c u
  have shows : Shows r.tri.faces M := by
    refine ⟨r2.coh.hf, ?_, ?_, ?_⟩
    · intro z hz
      obtain ⟨z, rfl⟩ := σ.surjective z
      rw [hs1, r2.lt, ← hL, ← ren.mem]
      exact hz
    · intro z _
      obtain ⟨z, rfl⟩ := σ.surjective z
      rw [r2.face, ren.f, hf]
    · intro z hz
      obtain ⟨z, rfl⟩ := σ.surjective z
      rw [r2.face, ren.mem, hL, ← hs, hS.hf.fwd_lt, hs, ← hL, ← ren.mem]
      exact hz
  obtain ⟨G, H, c1, c2, c4, sh⟩ := shows.squash gm
  rw [hs1] at c4
  have hkeep : ∀ z, z ∈ (N.squash e x t c u).L ↔ z < S.size ∧ z / 2 ∉ S.dropEdges e := by
    intro z
    rw [Net.mem_squash, hL, hD]
    tauto
  have hkeep' : ∀ w, w ∈ (M.squash (σ e) (σ x) (σ t) (σ c) (σ u)).L ↔ w < S.size - 2 * n := by
    intro w
    obtain ⟨w, rfl⟩ := σ.surjective w
    rw [rs.mem, hkeep, ← r2.lt, ← r4, r5, Finset.mem_Ico]
    clear * - heven r6
    omega
  have hitems : ∀ z, z ∈ ((sorted (S.size / 2) r.drop).flatMap fun d => [2 * d, 2 * d + 1]) ↔ S.size - 2 * n ≤ z ∧ z < S.size := by
    intro z
    simp only [List.mem_flatMap, mem_sorted, List.mem_cons, List.not_mem_nil, or_false]
    rw [r5]
    constructor
    · rintro ⟨m, ⟨-, hm⟩, k⟩
      rw [Finset.mem_Ico] at hm
      clear * - hm k heven
      omega
    · rintro ⟨k1, k2⟩
      refine ⟨z / 2, ?_, ?_⟩
      · rw [Finset.mem_Ico]
        clear * - k1 k2 heven
        omega
      · clear * - k1
        omega
  have hlen : ((sorted (S.size / 2) r.drop).flatMap fun d => [2 * d, 2 * d + 1]).length = 2 * n := by
    rw [List.length_flatMap]
    have : r.drop.card = n := by rw [r5, Nat.card_Ico]; clear * - r6; omega
    simp [sorted_length (fun m hm => by rw [r5, Finset.mem_Ico] at hm; exact hm.2 : ∀ m ∈ r.drop, m < S.size / 2), this, mul_comm]
  have hnodup : ((sorted (S.size / 2) r.drop).flatMap fun d => [2 * d, 2 * d + 1]).Nodup := by
    rw [List.nodup_flatMap]
    refine ⟨fun m _ => by simp, ?_⟩
    refine (sorted_nodup (S.size / 2) r.drop).imp ?_
    intro a b hab
    simp only [Function.onFun, List.disjoint_cons_left, List.mem_cons, List.not_mem_nil, or_false, List.disjoint_nil_left, and_true]
    omega
  have hdrop : ∃ f', H.drop ((sorted (S.size / 2) r.drop).flatMap fun d => [2 * d, 2 * d + 1]) = .ok f' := by
    unfold Perm.drop
    rw [if_neg, if_neg, if_neg]
    · exact ⟨_, rfl⟩
    · rintro ⟨i, k1, k2⟩
      have := (hitems i).1 k1
      rw [hlen, c4] at k2
      clear * - this k2
      omega
    · rintro ⟨i, k1, k2⟩
      obtain ⟨k3, k4⟩ := (hitems i).1 k1
      refine k2 ((hitems _).2 ⟨?_, ?_⟩)
      · have := sh.junk i fun k => absurd ((hkeep' i).1 k) (by clear * - k3; omega)
        rw [hkeep'] at this
        clear * - this
        omega
      · rw [← c4, sh.wf.fwd_lt, c4]; exact k4
    · rintro ⟨i, k1, k2⟩
      have := (hitems i).1 k1
      rw [c4] at k2
      clear * - this k2
      omega
  obtain ⟨f', hf'⟩ := hdrop
  obtain ⟨f1, f2, -, f4⟩ := Perm.drop_spec sh.wf hnodup hf'
  rw [hlen, c4] at f2
  have hsize : f'.size = S.size - 2 * n := by clear * - f2; omega
  have hface : ∀ w < f'.size, f'.fwd w = (M.squash (σ e) (σ x) (σ t) (σ c) (σ u)).f w := by
    intro w hw
    rw [f4 w hw, sh.eq w ((hkeep' w).2 (hsize ▸ hw))]
  have hfix : ∀ w < f'.size, f'.fwd w ≠ w := by
    intro w hw
    rw [hface w hw]
    exact Inv.ne_fix gm.squash_inv ((hkeep' w).2 (hsize ▸ hw))
  have heven' : f'.size % 2 = 0 := by clear * - f2 heven; omega
  obtain ⟨vv, v1, v2, v3, v4⟩ := verticesOfFaces_spec f1 heven' hfix
  obtain ⟨vs, w1⟩ := mkVertexes_some v2
  have hc1 : r.tri.nextInFace (neg r.e) = σ c := by rw [r3]; show r.tri.faces.fwd _ = _; rw [← r2.odd, r2.face, ← hf, g.fe']
  have hp1 : r.tri.previousInFace r.e = σ t := by
    rw [r3]
    refine r2.coh.hf.inj ?_
    rw [r2.face, ← hf, g.left.ft]
    exact r2.coh.hf.right _
  have hdropmem : ∀ z, σ z / 2 ∈ r.drop ↔ _ := fun z => (r4 z).trans (hD z)
  have hp : ¬ (neg (σ t) / 2 ∈ r.drop ∧ σ c / 2 ∈ r.drop) := by
    rw [neg_half, hdropmem, hdropmem]
    rintro ⟨k1, k2⟩
    have ht : t = neg u ∧ neg (Net.second x t c) ≠ u := by
      rcases k1 with (k | k) | ⟨j, k | k⟩ | ⟨j, k | k⟩
      · exact absurd k.symm g.left.et
      · exact absurd k.symm g.left.neg_e.2
      · exact absurd k.symm g.left.xt
      · exact absurd k.symm j
      · exact absurd k.symm g.ne_u.2.2
      · exact ⟨k, j⟩
    have hc : c ≠ neg x := by
      intro k
      refine ht.2 ?_
      unfold Net.second
      rw [if_pos k, ht.1, neg_neg']
    have hc' : neg c ≠ u := by
      have := ht.2
      unfold Net.second at this
      rwa [if_neg hc] at this
    rcases k2 with (k | k) | ⟨j, k | k⟩ | ⟨j, k | k⟩
    · exact g.ne_c.1 k
    · exact g.right.ex k.symm
    · exact g.ne_c.2.1 k
    · exact hc k
    · exact g.right.xt k
    · exact hc' (by rw [k, neg_neg'])
  have b1 : ¬ (S.size ≤ e ∨ S.size ≤ neg e) := by
    have l1 := (hL _).1 g.mem
    have l2 := (hL _).1 g.mem'
    clear * - l1 l2
    omega
  have b2 : ¬ (S.boundary e = true ∨ S.boundary (neg e) = true) := by
    unfold boundary
    simp only [beq_iff_eq, ← hf]
    rintro (k | k)
    · exact Inv.ne_fix g.inv g.mem k
    · exact Inv.ne_fix g.inv g.mem' k
  have b3 : ¬ (S.nextInFace (S.nextInFace (S.nextInFace e)) ≠ e ∨ S.nextInFace (S.nextInFace (S.nextInFace (neg e))) ≠ neg e) := by
    unfold nextInFace
    simp only [← hf]
    rintro (k | k)
    · exact k g.left.tri.1
    · exact k g.right.tri.1
  have hok : ∃ p, collapse dbg S e = .ok (⟨vv, f', vs⟩, p) := by
    unfold collapse
    rw [if_neg b1, if_neg b2, if_neg b3]
    simp only [bind, Except.bind, r1, hc1, hp1]
    rw [r3]
    simp only [c1, c2, hf', v1, w1]
    by_cases k1 : neg (σ t) / 2 ∈ r.drop
    · rw [if_pos k1, if_neg fun k => hp ⟨k1, k.2⟩]
      exact ⟨_, rfl⟩
    · rw [if_neg k1]
      split_ifs <;> exact ⟨_, rfl⟩
  obtain ⟨p, hp'⟩ := hok
  refine ⟨_, p, σ, hp', ⟨v2, f1, v3.symm, by rw [v3]; exact heven', ?_⟩, r2.odd, ?_, ?_, r7, r, ?_, r8⟩
  · intro w hw
    dsimp only at hw ⊢
    have hlt : w < f'.size := by
      by_contra k
      exact hw (f1.out w (by omega))
    rw [v4 w hlt, neg_neg', f1.right]
  · intro z
    show σ z < vv.size ↔ _
    rw [v3, hsize, ← hkeep', rs.mem]
  · intro z hz
    show f'.fwd (σ z) = _
    rw [hface _ (by rw [hsize, ← hkeep', rs.mem]; exact hz), rs.f]
  · intro z hz k
    exact ((hkeep z).1 hz).2 ((r4 z).1 k)

/-! ### Flips -/

theorem Linked.quad {S : Tri} (hS : S.Linked) {e a b c d : HE} (hfix : ∀ z < S.size, S.faces.fwd z ≠ z) (he : e < S.size)
    (fe : S.faces.fwd e = a) (fa : S.faces.fwd a = b) (fb : S.faces.fwd b = e) (fe' : S.faces.fwd (neg e) = c) (fc : S.faces.fwd c = d)
    (fd : S.faces.fwd d = neg e) (nodup : [e, a, b, neg e, c, d].Nodup) : S.Quad e a b c d := by
  have hs : S.faces.size = S.size := hS.hs
  have lt : ∀ z, z < S.size → S.faces.fwd z < S.size := fun z hz => by rw [← hs, hS.hf.fwd_lt, hs]; exact hz
  have he' : neg e < S.size := (neg_lt' hS.even e).2 he
  have la := fe ▸ lt e he
  have lb := fa ▸ lt a la
  have lc := fe' ▸ lt _ he'
  have ld := fc ▸ lt c lc
  have key : ∀ {z w : HE}, w < S.size → S.faces.fwd z = w → S.vertices.fwd w = neg z := by
    intro z w hw h
    have h1 := hS.link w (hfix w hw)
    rw [← h] at h1
    rw [← h, ← hS.hf.inj h1, neg_neg']
    rw [hS.hf.inj h1]
  refine ⟨fe, fa, fb, fe', fc, fd, key he fb, key la fe, key lb fa, key he' fd, ?_, key ld fc, ⟨he, la, lb, lc, ld, he'⟩, nodup⟩
  rw [key lc fe', neg_neg']

theorem Flipped.linked {S S' : Tri} (h : S.Linked) {e a b c d : HE} (q : S.Quad e a b c d) (f : S.Flipped S' e a b c d) : S'.Linked := by
  refine ⟨f.hv, f.hf, by rw [f.fsize, f.vsize, h.hs], by rw [f.vsize]; exact h.even, ?_⟩
  intro x hx
  have hx' : S.faces.fwd x ≠ x := fun hc => hx ((f.boundary_iff q x).2 hc)
  by_cases hm : x ∈ [e, a, b, neg e, c, d]
  · rcases mem_six_cases hm with rfl | rfl | rfl | rfl | rfl | rfl
    · rw [f.ve, neg_neg', f.fc]
    · rw [f.va, neg_neg', f.fd]
    · rw [f.vb, neg_neg', f.fe]
    · rw [f.ve', neg_neg', f.fa]
    · rw [f.vc, neg_neg', f.fb]
    · rw [f.vd, f.fe']
  · have h1 := h.link x hx'
    have hm' : neg (S.vertices.fwd x) ∉ [e, a, b, neg e, c, d] := by
      intro k
      apply hm
      rw [← h1]
      rcases mem_six_cases k with k | k | k | k | k | k <;> rw [k]
      · simp [q.fe]
      · simp [q.fa]
      · simp [q.fb]
      · simp [q.fe']
      · simp [q.fc]
      · simp [q.fd]
    rw [f.vx x hm, f.fx _ hm', h1]

end Verif.Tri
