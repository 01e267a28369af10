import Verif.Lemmas.CollapsedMake
import Verif.Model.CollapsedTurn

/-!
# Vertices of collapsed surfaces
-/

set_option linter.unusedSectionVars false

namespace Verif

open Verif Spec

theorem Tri.collapse_vertexes {dbg : Bool} {S S' : Tri} {e : HE} {p : HE × HE} (h : S.collapse dbg e = .ok (S', p)) (hv : S'.vertices.WF) :
    S'.VertexesOk := by
  have key : ∃ v f vertexes, S' = ⟨v, f, vertexes⟩ ∧ Tri.mkVertexes v = some vertexes := by
    unfold Tri.collapse at h
    split_ifs at h
    simp only [bind, Except.bind] at h
    split at h
    · cases h
    split at h
    · cases h
    split at h
    · cases h
    split at h
    · cases h
    split at h
    · cases h
    split at h
    · cases h
    split_ifs at h <;> cases h <;> exact ⟨_, _, _, rfl, by assumption⟩
  obtain ⟨v, f, vs, rfl, hk⟩ := key
  obtain ⟨ws, h1, h2⟩ := Tri.mkVertexes_spec hv f
  rw [hk] at h1
  cases h1
  exact h2

namespace Collapsed

variable {T : Type} [CommRing T] [LinearOrder T] [IsStrictOrderedRing T]
variable {K : Type*} [Field K] [LinearOrder K] [IsStrictOrderedRing K]
variable {C C' : Collapsed T} {e z : HE} {S : FlatTri T} {v : Vec T} {A : Option (Approx T K)} {dbg : Bool}

theorem collapse_tri {p : HE × HE} (h : C.collapse A dbg e = .ok (C', p)) : ∃ q, C.tri.collapse dbg e = .ok (C'.tri, q) := by
  unfold collapse at h
  simp only [bind, Except.bind] at h
  split at h
  · cases h
  rename_i r hr
  split at h
  · cases h
  split at h
  · cases h
  split at h
  · cases h
  split_ifs at h
  all_goals first | (cases h; exact ⟨_, hr⟩) | cases h

theorem collapseAll_vertexes {n : ℕ} (h : C.Good) (hV : C.tri.VertexesOk) (hc : collapseAll A dbg n C = some (.ok C')) :
    C'.tri.VertexesOk := by
  induction n generalizing C with
  | zero => cases hc
  | succ n ih =>
    unfold collapseAll at hc
    cases hf : C.firstVertical A with
    | none =>
      rw [hf] at hc
      cases hc
      exact hV
    | some e =>
      rw [hf] at hc
      dsimp only at hc
      unfold firstVertical at hf
      have he : e < C.tri.size := by simpa [Tri.halfEdges] using List.mem_of_find?_eq_some hf
      have hx := List.find?_some hf
      rw [decide_eq_true_iff, Vertical.collinear_iff] at hx
      obtain ⟨C1, p, c1, c2, -⟩ := collapse_spec A dbg h he hx
      rw [c1] at hc
      dsimp only at hc
      obtain ⟨q, hq⟩ := collapse_tri c1
      exact ih c2.good (Tri.collapse_vertexes hq c2.good.linked.hv) hc

theorem make_vertexes (hS : S.Shut) (hv : v ≠ 0) {fuel : ℕ} (h : make A dbg fuel S v = some (.ok C)) : C.tri.VertexesOk := by
  obtain ⟨C1, c1, c2⟩ := init_spec hS hv dbg
  have hV : C1.tri.VertexesOk := by
    unfold init at c1
    simp only [bind, Except.bind] at c1
    split at c1
    · cases c1
    rename_i tri ht
    cases c1
    exact (Tri.make_spec hS.flat.coh.hv ht).2.1
  unfold make at h
  rw [c1] at h
  dsimp only at h
  split_ifs at h
  · cases h
    exact hV
  · cases hm : Vertical.make v with
    | error err => rw [hm] at h; cases h
    | ok V =>
      rw [hm] at h
      exact collapseAll_vertexes c2.good hV h

theorem flip_vertexes (h : C.Good) (hu : C.Upright) (hV : C.tri.VertexesOk) (he : e < C.tri.size) : (C.flip A dbg e).1.tri.VertexesOk := by
  by_cases hc : C.Between e ∧ IsLarge C.seen C.vertical e
  swap
  · rw [(flip_spec A dbg h hu he).2 hc]
    exact hV
  obtain ⟨C', c1, c2⟩ := (flip_spec A dbg h hu he).1 hc
  have hcase : ∃ y, y < C.tri.size ∧ C.Between y ∧ IsLarge C.seen C.vertical y ∧ 0 < Vec.cross (C.vec y) C.vertical ∧
      (if Vec.ccw A C.vertical (C.vec e) = .counterclockwise then neg e else e) = y := by
    have hccw : Vec.ccw A C.vertical (C.vec e) = .counterclockwise ↔ 0 < -Vec.cross (C.vec e) C.vertical := by
      rw [Vec.ccw_eq, Vec.ccwExact_ccw, Vec.cross_comm]
    simp only [hccw]
    by_cases hr : 0 < -Vec.cross (C.vec e) C.vertical
    · exact ⟨neg e, h.neg_lt he, hc.1.neg, (h.isLarge_neg he).2 hc.2, by rw [h.cross_neg he]; exact hr, if_pos hr⟩
    · refine ⟨e, he, hc.1, hc.2, ?_, if_neg hr⟩
      have := hu e he
      exact lt_of_le_of_ne (by linarith) this.symm
  obtain ⟨y, hy, hb, hl, hr, hye⟩ := hcase
  obtain ⟨q, hq⟩ : ∃ q : HE × HE × HE × HE, C.tri.Quad y q.1 q.2.1 q.2.2.1 q.2.2.2 := by
    have k := h.kite hu hy hb hl hr
    generalize ha : C.tri.nextInFace y = a at k
    generalize hb' : C.tri.nextInFace a = b at k
    generalize hc' : C.tri.nextInFace (neg y) = c at k
    generalize hd : C.tri.nextInFace c = d at k
    have nodup : [y, a, b, neg y, c, d].Nodup := by
      simp [k.ea, k.eb, (neg_ne y).symm, k.ce.symm, k.de.symm, k.ab, k.ae', k.ac, k.ad, k.be', k.bc, k.bd, k.e'c, k.e'd, k.cd]
    exact ⟨(a, b, c, d), h.linked.quad (fun z hz => Tri.Inv.ne_fix h.inv (mem_net.2 hz)) hy k.fe k.fa k.fb k.fe' k.fc k.fd nodup⟩
  obtain ⟨S, s1, s2⟩ := h.linked.flipped hq dbg
  have hSV := s2.vertexesOk h.linked.hv hV hq
  have hwf := c2.good.linked.hv
  rw [← show (C.flip A dbg e).1 = C' by rw [c1]] at hwf
  have hok : (C.flip A dbg e).2 = .ok () := by rw [c1]
  clear c1 c2
  revert hwf hok
  unfold flip
  cases Vertical.make C.vertical with
  | error err =>
    intro _ hok
    exact absurd hok (by simp)
  | ok V =>
    dsimp only
    split
    · intro _ hok
      exact absurd hok (by simp)
    split
    · intro _ hok
      exact absurd hok (by simp)
    rw [hye, s1]
    dsimp only
    split
    · intro _ hok
      exact absurd hok (by simp)
    rename_i m _
    split
    · intro _ hok
      exact absurd hok (by simp)
    split
    · split
      · intro _ hok
        exact absurd hok (by simp)
      · rename_i hcol
        intro hwf _
        obtain ⟨q', hq'⟩ := collapse_tri hcol
        exact Tri.collapse_vertexes hq' hwf
    · intro _ _
      exact hSV

theorem _root_.Verif.Spec.BuiltCollapsed.vertexes (hS : S.Shut) (hv : v ≠ 0) (h : BuiltCollapsed A dbg S v C) : C.tri.VertexesOk := by
  induction h with
  | make h => exact make_vertexes hS hv h
  | flip h he ih =>
    have hs := h.sane hS hv
    exact flip_vertexes hs.good hs.upright ih (by simpa [Tri.halfEdges] using he)

theorem source_spec {R : Tri} (hV : R.VertexesOk) (he : e < R.size) : ∃ s, R.source e = some s ∧ s ∈ R.vertexes ∧ e ∈ s := by
  unfold Tri.source
  obtain ⟨s, h1, h2⟩ := hV.cover e he
  cases hf : R.vertexes.find? fun v => e ∈ v with
  | none =>
    rw [List.find?_eq_none] at hf
    exact absurd h2 (by simpa using hf s h1)
  | some w => exact ⟨w, rfl, List.mem_of_find?_eq_some hf, by simpa using List.find?_some hf⟩

theorem orb_iff {p : Perm} (hp : p.WF) {x y : HE} : p.Orb x y ↔ ∃ n, p.inv^[n] x = y := by
  constructor
  · intro h
    obtain ⟨n, hn⟩ := h.symm hp
    exact ⟨n, by rw [← hn]; exact (Function.LeftInverse.iterate hp.left n) y⟩
  · rintro ⟨n, rfl⟩
    exact Perm.Orb.symm hp (x := p.inv^[n] x) ⟨n, (Function.LeftInverse.iterate hp.right n) x⟩

theorem same_iff {R : Tri} (hR : R.vertices.WF) (hV : R.VertexesOk) (he : e < R.size) (hz : z < R.size) :
    ∃ s t, R.source e = some s ∧ R.source z = some t ∧ (FlatTri.sameVertex s t = true ↔ ∃ n, R.previousAtVertex^[n] e = z) := by
  obtain ⟨s, s1, s2, s3⟩ := source_spec hV he
  obtain ⟨t, t1, t2, t3⟩ := source_spec hV hz
  refine ⟨s, t, s1, t1, ?_⟩
  unfold FlatTri.sameVertex
  rw [decide_eq_true_iff]
  have : (∃ n, R.previousAtVertex^[n] e = z) ↔ s = t := by
    refine (orb_iff hR).symm.trans ⟨fun ho => ?_, fun hst => ?_⟩
    · refine Tri.VertexesOk.eq_of_mem hR (hV.orbit s s2) (hV.orbit t t2) (x := z) ?_ t3
      obtain ⟨x, -, hx⟩ := hV.orbit s s2
      exact (hx z).2 (((hx e).1 s3).trans ho)
    · obtain ⟨x, -, hx⟩ := hV.orbit s s2
      subst hst
      exact (((hx e).1 s3).symm hR).trans ((hx z).1 t3)
  rw [this]
  constructor
  · intro hm
    obtain ⟨m, hm1⟩ := Finset.min_of_mem s3
    have h1 := Finset.mem_of_min hm1
    have h2 := Finset.mem_of_min (hm ▸ hm1)
    exact Tri.VertexesOk.eq_of_mem hR (hV.orbit s s2) (hV.orbit t t2) h1 h2
  · rintro rfl
    rfl

theorem turnLoop_spec (n : ℕ) (hn : C.tri.previousAtVertex^[n] e = z) (hmin : ∀ i < n, C.tri.previousAtVertex^[i] e ≠ z) {fuel : ℕ}
    (hf : n < fuel) : turnLoop C z fuel e = some ((List.range n).flatMap fun i => C.cross (C.tri.previousAtVertex^[i] e)) := by
  induction n generalizing e fuel with
  | zero =>
    obtain ⟨f, rfl⟩ : ∃ f, fuel = f + 1 := ⟨fuel - 1, by omega⟩
    unfold turnLoop
    rw [if_pos (show e = z from hn)]
    rfl
  | succ n ih =>
    obtain ⟨f, rfl⟩ : ∃ f, fuel = f + 1 := ⟨fuel - 1, by omega⟩
    unfold turnLoop
    rw [if_neg (show ¬ e = z from hmin 0 (by omega)), ih hn (fun i hi => hmin (i + 1) (by omega)) (by omega), List.range_succ_eq_map]
    simp [List.flatMap_map]

/-- The first time that the half edge is reached. -/
theorem first_time {g : ℕ → ℕ} {N : ℕ} (hg : ∀ x < N, g x < N) (he : e < N) (h : ∃ n, g^[n] e = z) :
    ∃ n < N, g^[n] e = z ∧ ∀ i < n, g^[i] e ≠ z := by
  refine ⟨Nat.find h, ?_, Nat.find_spec h, fun i hi => Nat.find_min h hi⟩
  have hlt : ∀ i, g^[i] e < N := by
    intro i
    induction i with
    | zero => exact he
    | succ i ih => rw [Function.iterate_succ_apply']; exact hg _ ih
  have hinj : Set.InjOn (fun i => g^[i] e) (Finset.range (Nat.find h + 1) : Finset ℕ) := by
    have key : ∀ i j, i < j → j ≤ Nat.find h → g^[i] e ≠ g^[j] e := by
      intro i j hij hj heq
      have h1 : g^[Nat.find h - j + i] e = z := by
        rw [Function.iterate_add_apply, heq, ← Function.iterate_add_apply, Nat.sub_add_cancel hj]
        exact Nat.find_spec h
      exact Nat.find_min h (by omega) h1
    intro i hi j hj heq
    rw [Finset.coe_range, Set.mem_Iio] at hi hj
    rcases lt_trichotomy i j with k | k | k
    · exact absurd heq (key i j k (by omega))
    · exact k
    · exact absurd heq.symm (key j i k (by omega))
  have := Finset.card_le_card_of_injOn (t := Finset.range N) (fun i => g^[i] e) (fun i _ => by simpa using hlt i) hinj
  simp only [Finset.card_range] at this
  omega

end Collapsed

end Verif
