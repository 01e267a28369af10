import Verif.Lemmas.CollapsedArea
import Verif.Lemmas.Point
import Verif.Lemmas.TriOps
import Verif.Spec.Collapsed

/-!
# Constructing collapsed surfaces
-/

set_option linter.unusedSectionVars false

namespace Verif.Collapsed

open Verif Spec

variable {T : Type} [CommRing T] [LinearOrder T] [IsStrictOrderedRing T]
variable {K : Type*} [Field K] [LinearOrder K] [IsStrictOrderedRing K]
variable {C C' : Collapsed T} {e z : HE} {S : FlatTri T} {v : Vec T}

theorem sum_coe_list {n : ℕ} {α : Type} (F : ℕ → List α) :
    ∑ z ∈ Finset.range n, (F z : Multiset α) = (((List.range n).flatMap F : List α) : Multiset α) := by
  induction n with
  | zero => rfl
  | succ n ih => rw [Finset.sum_range_succ, ih, List.range_succ, List.flatMap_append, ← Multiset.coe_add]; simp

theorem all_eq (C : Collapsed T) : C.net.all = collapsedConnections C := sum_coe_list _

theorem verticals_eq (S : FlatTri T) (v : Vec T) :
    ∑ z ∈ Finset.range S.tri.size, Net.ifVertical v (S.vec z) = verticalHalfEdges S v := by
  unfold verticalHalfEdges Tri.halfEdges
  induction S.tri.size with
  | zero => rfl
  | succ n ih =>
    rw [Finset.sum_range_succ, ih, List.range_succ, List.filter_append, List.map_append, ← Multiset.coe_add]
    congr 1
    unfold Net.ifVertical
    split_ifs with h <;> simp [h]

/-- The surface before anything has been collapsed. -/
structure Started (S : FlatTri T) (v : Vec T) (C : Collapsed T) : Prop where
  good : C.Good
  original : C.original = S
  vertical : C.vertical = v
  size : C.tri.size = S.tri.size
  all : C.net.all = 0
  total : C.net.total = 3 * S.area2
  verticals : C.net.verticals v = verticalHalfEdges S v

theorem init_spec (hS : S.Shut) (hv : v ≠ 0) (dbg : Bool) : ∃ C, init dbg S v = .ok C ∧ Started S v C := by
  obtain ⟨tri, t1, t2, t3⟩ := hS.flat.coh.clone dbg
  have hsize : tri.size = S.tri.size := by unfold Tri.size; rw [t2]
  have hnb := hS.nb
  have htri : ∀ z < S.tri.size, (⟨S, v, tri, S.vec, fun _ => []⟩ : Collapsed T).net.IsTri z := by
    intro z hz
    unfold Net.IsTri net
    dsimp only
    rw [t3]
    exact ⟨hS.flat.coh.tri z, hS.flat.closed z (hnb z hz), hS.flat.oriented z (hnb z hz)⟩
  have good : (⟨S, v, tri, S.vec, fun _ => []⟩ : Collapsed T).Good := by
    have hl := hS.flat.coh.linked
    refine ⟨⟨by rw [t2]; exact hl.hv, by rw [t3]; exact hl.hf, by rw [t2, t3]; exact hl.hs, ?_, ?_⟩, ⟨?_, ?_, ?_, ?_, ?_⟩, hv⟩
    · show tri.vertices.size % 2 = 0
      rw [t2]
      exact hl.even
    · intro x hx
      dsimp only at hx ⊢
      rw [t3] at hx ⊢
      rw [t2]
      exact hl.link x hx
    · intro z hz
      rw [mem_net] at hz ⊢
      show tri.faces.fwd z < tri.size
      change z < tri.size at hz
      rw [hsize] at hz ⊢
      rw [t3]
      unfold Tri.size at hz ⊢
      rw [← hl.hs, hl.hf.fwd_lt, hl.hs]
      exact hz
    · intro z _ w _ k
      change tri.faces.fwd z = tri.faces.fwd w at k
      rw [t3] at k
      exact hl.hf.inj k
    · intro z hz
      rw [mem_net] at hz
      change z < tri.size at hz
      rw [hsize] at hz
      exact .inl (htri z hz)
    · intro z hz _
      rw [mem_net] at hz
      change z < tri.size at hz
      rw [hsize] at hz
      show S.vec z + S.vec (neg z) = ([] : List (Vec T)).sum + ([] : List (Vec T)).sum
      rw [hS.flat.odd z hz]
      simp
    · intro z _ k hk
      cases hk
  refine ⟨_, ?_, good, rfl, rfl, hsize, ?_, ?_, ?_⟩
  · unfold init
    simp only [bind, Except.bind, t1]
    rfl
  · unfold Net.all
    exact Finset.sum_eq_zero fun z _ => rfl
  · rw [hS.flat.area2_sum]
    unfold Net.total
    change ∑ z ∈ Finset.range tri.size, _ = _
    rw [hsize]
    refine Finset.sum_congr rfl fun z hz => ?_
    have hz' := Finset.mem_range.1 hz
    have e1 : (⟨S, v, tri, S.vec, fun _ => []⟩ : Collapsed T).net.wedge z = 0 := by
      show Vec.cross ([] : List (Vec T)).sum (S.vec z) = 0
      simp
    have e2 : (⟨S, v, tri, S.vec, fun _ => []⟩ : Collapsed T).net.corner z = Vec.cross (S.vec z) (S.vec (tri.faces.fwd z)) :=
      if_neg (htri z hz').ne.2
    rw [e1, e2, t3]
    unfold FlatTri.faceArea
    rw [if_neg (hnb z hz'), mul_zero, zero_add]
  · unfold Net.verticals
    change ∑ z ∈ Finset.range tri.size, _ = _
    rw [hsize]
    exact verticals_eq S v

/-- What collapsing all vertical edges does. -/
structure Done (C C' : Collapsed T) : Prop where
  good : C'.Good
  upright : C'.Upright
  original : C'.original = C.original
  vertical : C'.vertical = C.vertical
  total : C'.net.total = C.net.total
  all : C'.net.all = C.net.verticals C.vertical + C.net.all
  sym : C.net.all.map (- ·) = C.net.all → C'.net.all.map (- ·) = C'.net.all

theorem sym_cons {w : Vec T} {m : Multiset (Vec T)} (h : m.map (- ·) = m) : (-w ::ₘ w ::ₘ m).map (- ·) = -w ::ₘ w ::ₘ m := by
  rw [Multiset.map_cons, Multiset.map_cons, h, neg_neg, Multiset.cons_swap]

theorem collapseAll_spec (A : Option (Approx T K)) (dbg : Bool) (n : ℕ) (h : C.Good) (hn : C.tri.size < n) :
    ∃ C', collapseAll A dbg n C = some (.ok C') ∧ Done C C' := by
  induction n generalizing C with
  | zero => omega
  | succ n ih =>
    unfold collapseAll
    cases hc : C.firstVertical A with
    | none =>
      dsimp only
      unfold firstVertical at hc
      rw [List.find?_eq_none] at hc
      have hu : C.Upright := by
        intro z hz k
        exact hc z (by simpa [Tri.halfEdges] using hz) (decide_eq_true ((Vertical.collinear_iff A _ _).2 k))
      refine ⟨C, rfl, h, hu, rfl, rfl, rfl, ?_, id⟩
      have : C.net.verticals C.vertical = 0 :=
        Finset.sum_eq_zero fun z hz => Net.ifVertical_zero (hu z (mem_net.1 hz))
      rw [this, zero_add]
    | some e =>
      dsimp only
      unfold firstVertical at hc
      have he : e < C.tri.size := by simpa [Tri.halfEdges] using List.mem_of_find?_eq_some hc
      have hx := List.find?_some hc
      rw [decide_eq_true_iff, Vertical.collinear_iff] at hx
      obtain ⟨C1, p, c1, c2, -⟩ := collapse_spec A dbg h he hx
      rw [c1]
      dsimp only
      obtain ⟨C2, d1, d2⟩ := ih c2.good (by have := c2.size; omega)
      refine ⟨C2, d1, d2.good, d2.upright, d2.original.trans c2.original, d2.vertical.trans c2.vertical, d2.total.trans c2.total, ?_, ?_⟩
      · rw [d2.all, c2.all, c2.verticals, c2.vertical]
        simp only [← Multiset.singleton_add]
        abel
      · intro hs
        refine d2.sym ?_
        rw [c2.all, c2.vec_neg]
        exact sym_cons hs

theorem collapseAll_mono (A : Option (Approx T K)) (dbg : Bool) {n m : ℕ} (hnm : n ≤ m) {r : Except Err (Collapsed T)}
    (h : collapseAll A dbg n C = some r) : collapseAll A dbg m C = some r := by
  induction n generalizing C m with
  | zero => cases h
  | succ n ih =>
    obtain ⟨m, rfl⟩ : ∃ k, m = k + 1 := ⟨m - 1, by omega⟩
    unfold collapseAll at h ⊢
    cases hc : C.firstVertical A with
    | none => rw [hc] at h; exact h
    | some e =>
      rw [hc] at h
      dsimp only at h ⊢
      cases hd : C.collapse A dbg e with
      | error err => rw [hd] at h; exact h
      | ok p =>
        rw [hd] at h
        dsimp only at h ⊢
        exact ih (by omega) h

/-- What holds for all collapsed surfaces. -/
structure Sane (S : FlatTri T) (v : Vec T) (C : Collapsed T) : Prop where
  good : C.Good
  upright : C.Upright
  original : C.original = S
  vertical : C.vertical = v
  total : C.net.total = 3 * S.area2
  all : verticalHalfEdges S v ≤ collapsedConnections C
  sym : (collapsedConnections C).map (- ·) = collapsedConnections C

theorem make_spec (hS : S.Shut) (hv : v ≠ 0) (A : Option (Approx T K)) (dbg : Bool) :
    ∃ C, (∀ fuel > S.tri.size, make A dbg fuel S v = some (.ok C)) ∧ Sane S v C ∧ collapsedConnections C = verticalHalfEdges S v := by
  obtain ⟨C, c1, c2⟩ := init_spec hS hv dbg
  have hmake : ∃ V, Vertical.make v = .ok V := by
    unfold Vertical.make
    rw [if_neg (by simpa [Vec.nonzero_iff] using hv)]
    exact ⟨_, rfl⟩
  obtain ⟨V, hV⟩ := hmake
  obtain ⟨C', d1, d2⟩ := collapseAll_spec A dbg (S.tri.size + 1) c2.good (by rw [c2.size]; omega)
  have hall : collapsedConnections C' = verticalHalfEdges S v := by
    rw [← all_eq, d2.all, c2.all, add_zero, c2.vertical, c2.verticals]
  have hsane : Sane S v C' := ⟨d2.good, d2.upright, d2.original.trans c2.original, d2.vertical.trans c2.vertical,
    d2.total.trans c2.total, hall.ge, by
      rw [← all_eq]
      refine d2.sym ?_
      rw [c2.all]
      rfl⟩
  by_cases h0 : C.tri.size = 0
  · refine ⟨C, ?_, ?_, ?_⟩
    · intro fuel _
      unfold make
      rw [c1]
      dsimp only
      rw [if_pos h0]
    · have hall' : collapsedConnections C = verticalHalfEdges S v := by
        rw [← all_eq, c2.all, ← c2.verticals]
        symm
        refine Finset.sum_eq_zero fun z hz => ?_
        rw [mem_net, h0] at hz
        omega
      refine ⟨c2.good, fun z hz => by omega, c2.original, c2.vertical, c2.total, hall'.ge, ?_⟩
      rw [← all_eq, c2.all]
      rfl
    · rw [← all_eq, c2.all, ← c2.verticals]
      symm
      refine Finset.sum_eq_zero fun z hz => ?_
      rw [mem_net, h0] at hz
      omega
  · refine ⟨C', ?_, hsane, hall⟩
    intro fuel hfuel
    unfold make
    rw [c1]
    dsimp only
    rw [if_neg h0, hV]
    exact collapseAll_mono A dbg hfuel d1

theorem make_unique (hS : S.Shut) (hv : v ≠ 0) {A : Option (Approx T K)} {dbg : Bool} {fuel : ℕ} {r : Except Err (Collapsed T)}
    (h : make A dbg fuel S v = some r) : ∃ C, r = .ok C ∧ Sane S v C ∧ collapsedConnections C = verticalHalfEdges S v := by
  obtain ⟨C, c1, c2, c3⟩ := make_spec hS hv A dbg
  refine ⟨C, ?_, c2, c3⟩
  have h1 := c1 (max fuel (S.tri.size + 1)) (lt_of_lt_of_le (Nat.lt_succ_self _) (le_max_right _ _))
  have h2 : make A dbg (max fuel (S.tri.size + 1)) S v = some r := by
    unfold make at h ⊢
    cases hi : init dbg S v with
    | error err => rw [hi] at h; exact h
    | ok C =>
      rw [hi] at h
      dsimp only at h ⊢
      by_cases h0 : C.tri.size = 0
      · rw [if_pos h0] at h ⊢
        exact h
      · rw [if_neg h0] at h ⊢
        cases hV : Vertical.make v with
        | error err => rw [hV] at h; exact h
        | ok V =>
          rw [hV] at h
          exact collapseAll_mono A dbg (le_max_left _ _) h
  rw [h1] at h2
  exact (Option.some.inj h2).symm

theorem Sane.flip {A : Option (Approx T K)} {dbg : Bool} (h : Sane S v C) (he : e < C.tri.size) : Sane S v (C.flip A dbg e).1 := by
  by_cases k : C.Between e ∧ IsLarge C.seen C.vertical e
  · obtain ⟨C', c1, c2⟩ := (flip_spec A dbg h.good h.upright he).1 k
    rw [c1]
    refine ⟨c2.good, c2.upright, c2.original.trans h.original, c2.vertical.trans h.vertical, c2.total.trans h.total, ?_, ?_⟩
    · rw [← all_eq]
      have := h.all
      rw [← all_eq] at this
      rcases c2.all with j | ⟨w, j⟩ <;> rw [j]
      · exact this
      · exact this.trans ((Multiset.le_cons_self _ _).trans (Multiset.le_cons_self _ _))
    · rw [← all_eq]
      have := h.sym
      rw [← all_eq] at this
      rcases c2.all with j | ⟨w, j⟩ <;> rw [j]
      · exact this
      · exact sym_cons this
  · rw [(flip_spec A dbg h.good h.upright he).2 k]
    exact h

theorem _root_.Verif.Spec.BuiltCollapsed.sane {A : Option (Approx T K)} {dbg : Bool} (hS : S.Shut) (hv : v ≠ 0) (h : BuiltCollapsed A dbg S v C) :
    Sane S v C := by
  induction h with
  | make h =>
    obtain ⟨C', c1, c2, -⟩ := make_unique hS hv h
    cases c1
    exact c2
  | flip _ he ih => exact ih.flip (by simpa [Tri.halfEdges] using he)

end Verif.Collapsed
