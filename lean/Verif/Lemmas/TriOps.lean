import Verif.Lemmas.TriSpec

/-!
# Operations which create new triangulations
-/

namespace Verif.Tri

open Verif Spec Function

theorem make_eq {dbg : Bool} {v : Perm} {B : List HE} {T : Tri} (h : make dbg v B = .ok T) :
    T.vertices = v ∧ Perm.ofPairs (facePairs v B) = .ok T.faces ∧ mkVertexes v = some T.vertexes := by
  unfold make at h
  cases hf : Perm.ofPairs (facePairs v B) with
  | error e => rw [hf] at h; cases h
  | ok f =>
    rw [hf] at h
    cases hm : mkVertexes v with
    | none =>
      simp only [hm, bind, Except.bind, throw, throwThe, MonadExceptOf.throw] at h
      split_ifs at h
    | some vs =>
      simp only [hm, bind, Except.bind, pure, Except.pure, throw, throwThe, MonadExceptOf.throw] at h
      split_ifs at h
      cases h
      exact ⟨rfl, rfl, rfl⟩

/-- The constructor in terms of the expected face permutation. -/
theorem make_of_faces (dbg : Bool) {v : Perm} (hv : v.WF) (he : v.size % 2 = 0) {B : List HE} (f : HE → HE)
    (hB : ∀ x < v.size, (neg (v.fwd x) ∈ B ↔ x ∈ B)) (hin : ∀ x < v.size, x ∈ B → f x = x)
    (hout : ∀ x < v.size, x ∉ B → f (neg (v.fwd x)) = x ∧ f (f (f x)) = x ∧ f x ≠ x) :
    ∃ T, make dbg v B = .ok T ∧ T.vertices = v ∧ ∀ x < v.size, T.faces.fwd x = f x := by
  have hneg : ∀ x, x < v.size → neg x < v.size := fun x hx => (neg_lt' he x).2 hx
  obtain ⟨T, hT⟩ := make_ok (dbg := dbg) hv he hB (by
    intro x hx hxB
    have hys : neg (v.fwd x) < v.size := hneg _ (hv.fwd_lt.2 hx)
    have hyB : neg (v.fwd x) ∉ B := fun hc => hxB ((hB x hx).1 hc)
    have hzs : neg (v.fwd (neg (v.fwd x))) < v.size := hneg _ (hv.fwd_lt.2 hys)
    have hzB : neg (v.fwd (neg (v.fwd x))) ∉ B := fun hc => hyB ((hB _ hys).1 hc)
    have hws : neg (v.fwd (neg (v.fwd (neg (v.fwd x))))) < v.size := hneg _ (hv.fwd_lt.2 hzs)
    have hwB : neg (v.fwd (neg (v.fwd (neg (v.fwd x))))) ∉ B := fun hc => hzB ((hB _ hzs).1 hc)
    have e1 := (hout _ hx hxB).1
    have e2 := (hout _ hys hyB).1
    have e3 := (hout _ hzs hzB).1
    have e4 := (hout _ hws hwB).2.1
    refine ⟨?_, fun _ hc => (hout _ hx hxB).2.2 ?_⟩
    · rw [e3, e2, e1] at e4
      exact e4.symm
    · rwa [hc] at e1)
  obtain ⟨hc, hV, hTv, h1, h2, -⟩ := make_spec hv hT
  refine ⟨T, hT, hTv, fun x hx => ?_⟩
  by_cases hxB : x ∈ B
  · rw [h1 x hx hxB, hin x hx hxB]
  · have hy : neg (v.fwd (v.inv (neg x))) = x := by rw [hv.right, neg_neg']
    have hys : v.inv (neg x) < v.size := hv.inv_lt.2 (hneg x hx)
    have hyB : v.inv (neg x) ∉ B := fun hc => hxB (by have := (hB _ hys).2 hc; rwa [hy] at this)
    have e1 := h2 _ hys hyB
    have e2 := (hout _ hys hyB).1
    rw [hy] at e1 e2
    rw [e1, e2]

theorem ofMake {dbg : Bool} {v : Perm} (hv : v.WF) {B : List HE} {T : Tri} (h : make dbg v B = .ok T) :
    T.Reachable dbg := .make (Perm.reachable_of_wf hv) h

/-! ### Boundary lists -/

theorem Coherent.mem_boundaries {T : Tri} (h : T.Coherent) (x : HE) :
    x ∈ T.boundaries ↔ x < T.size ∧ T.faces.fwd x = x := by
  unfold boundaries
  rw [List.mem_filter, Perm.mem_domain h.hf, boundary_true, h.hs]

theorem hasBoundary_false {T : Tri} : T.hasBoundary = false ↔ ∀ x < T.size, T.faces.fwd x ≠ x := by
  unfold hasBoundary
  rw [List.any_eq_false]
  simp [halfEdges, boundary]

/-! ### clone -/

theorem Coherent.clone {T : Tri} (h : T.Coherent) (dbg : Bool) :
    ∃ T', T.clone dbg = .ok T' ∧ T'.vertices = T.vertices ∧ T'.faces = T.faces := by
  obtain ⟨T', h1, h2, h3⟩ := make_of_faces dbg h.hv h.even (B := T.boundaries) T.faces.fwd
    (fun x hx => by
      rw [h.mem_boundaries, h.mem_boundaries, h.boundary_iff]
      have := h.neg_lt (T.vertices.fwd x)
      simp only [this, h.hv.fwd_lt, hx, true_and])
    (fun x hx hxB => ((h.mem_boundaries x).1 hxB).2)
    (fun x hx hxB => by
      rw [h.mem_boundaries] at hxB
      have hb : T.faces.fwd x ≠ x := fun hc => hxB ⟨hx, hc⟩
      exact ⟨h.link x hb, h.tri x, hb⟩)
  have hc' := (ofMake h.hv h1).inv.1
  refine ⟨T', h1, h2, hc'.hf.ext h.hf ?_ ?_⟩
  · rw [hc'.hs, h.hs, h2]
  · intro x hx
    rw [hc'.hs, h2] at hx
    exact h3 x hx

/-! ### Mirroring -/

theorem Coherent.mem_mirror {T : Tri} (h : T.Coherent) (x : HE) :
    x ∈ (T.halfEdges.filter T.boundary).map neg ↔ x < T.size ∧ T.faces.fwd (neg x) = neg x := by
  simp only [List.mem_map, List.mem_filter, mem_halfEdges, boundary_true]
  constructor
  · rintro ⟨y, ⟨hy, hyb⟩, rfl⟩
    rw [neg_neg', h.neg_lt]
    exact ⟨hy, hyb⟩
  · rintro ⟨hx, hb⟩
    exact ⟨neg x, ⟨(h.neg_lt x).2 hx, hb⟩, neg_neg' x⟩

theorem Coherent.mirror {T : Tri} (h : T.Coherent) (dbg : Bool) :
    ∃ T', T.mirror dbg = .ok T' ∧ T'.Reachable dbg ∧ T'.size = T.size ∧
      (∀ x, T'.vertices.fwd x = T.vertices.inv x) ∧ (∀ x, T'.faces.fwd x = neg (T.faces.inv (neg x))) := by
  obtain ⟨v, hv, hvw, hvs, hve⟩ := Perm.inverse_spec h.hv
  have hvf : ∀ x, v.fwd x = T.vertices.inv x := fun x => DFunLike.congr_fun hve x
  have hinv : ∀ y, T.faces.inv y = y ↔ T.faces.fwd y = y := by
    intro y
    constructor
    · intro hy; conv_lhs => rw [← hy, h.hf.right]
    · intro hy; conv_lhs => rw [← hy, h.hf.left]
  obtain ⟨T', h1, h2, h3⟩ := make_of_faces dbg hvw (by rw [hvs]; exact h.even)
    (B := (T.halfEdges.filter T.boundary).map neg) (fun x => neg (T.faces.inv (neg x)))
    (fun x hx => by
      rw [hvs] at hx
      rw [h.mem_mirror, h.mem_mirror, hvf, neg_neg', h.neg_lt, h.hv.inv_lt]
      have := h.boundary_iff (T.vertices.inv x)
      rw [h.hv.right] at this
      rw [this])
    (fun x hx hxB => by
      rw [h.mem_mirror] at hxB
      rw [(hinv _).2 hxB.2, neg_neg'])
    (fun x hx hxB => by
      rw [hvs] at hx
      rw [h.mem_mirror] at hxB
      have hb : T.faces.fwd (neg x) ≠ neg x := fun hc => hxB ⟨hx, hc⟩
      refine ⟨?_, ?_, ?_⟩
      · -- `v⁻¹(x)` follows `-x` in its face
        have hb2 : T.faces.fwd (T.vertices.inv x) ≠ T.vertices.inv x := by
          intro hc
          have := (h.boundary_iff (T.vertices.inv x)).2 hc
          rw [h.hv.right] at this
          exact hb this
        have := h.link _ hb2
        rw [h.hv.right] at this
        rw [hvf, neg_neg', ← this, h.hf.left, neg_neg']
      · simp only [neg_neg']
        have : ∀ y, T.faces.inv (T.faces.inv (T.faces.inv y)) = y := by
          intro y
          have := h.tri (T.faces.inv (T.faces.inv (T.faces.inv y)))
          rw [h.hf.right, h.hf.right, h.hf.right] at this
          exact this.symm
        rw [this, neg_neg']
      · intro hc
        apply hb
        rw [← hinv]
        conv_rhs => rw [← hc]
        rw [neg_neg'])
  have hR := ofMake hvw h1
  refine ⟨T', ?_, hR, by unfold size; rw [h2, hvs], fun x => by rw [h2, hvf], fun x => ?_⟩
  · unfold Tri.mirror
    rw [hv]
    exact h1
  · by_cases hx : x < v.size
    · exact h3 x hx
    · have hc := hR.inv.1
      rw [hc.hf.out x (by rw [hc.hs, h2]; omega), h.hf.inv_out, neg_neg']
      have := h.neg_lt x
      rw [h.hs]
      unfold size at this
      omega

/-! ### Relabelling -/

theorem Coherent.edges_length {T : Tri} (h : T.Coherent) : 2 * T.edges.length = T.size := by
  have := h.even
  simp only [edges, List.length_map, List.length_range, size]
  omega

theorem mem_edges {T : Tri} (x : HE) : x ∈ T.edges ↔ x % 2 = 0 ∧ x / 2 < T.size / 2 := by
  unfold edges
  rw [List.mem_map]
  constructor
  · rintro ⟨y, hy, rfl⟩
    rw [List.mem_range] at hy
    omega
  · rintro ⟨h1, h2⟩
    exact ⟨x / 2, List.mem_range.2 h2, by omega⟩

theorem Coherent.edges_neg {T : Tri} (h : T.Coherent) (r : Perm) :
    (¬ ∃ e ∈ T.edges, r.fwd (neg e) ≠ neg (r.fwd e)) ↔ ∀ e < T.size, r.fwd (neg e) = neg (r.fwd e) := by
  push Not
  have := h.even
  constructor
  · intro h1 e he
    unfold size at *
    by_cases hp : e % 2 = 0
    · exact h1 e ((mem_edges e).2 (by unfold size; omega))
    · have h2 := neg_def e
      rw [if_neg hp] at h2
      have h3 := h1 (neg e) ((mem_edges _).2 (by unfold size; omega))
      rw [neg_neg'] at h3
      rw [h3, neg_neg']
  · intro h1 e he
    rw [mem_edges] at he
    unfold size at *
    exact h1 e (by omega)

theorem Coherent.relabel {T : Tri} (h : T.Coherent) (hb : T.hasBoundary = false) {r : Perm} (hr : r.WF)
    (hs : r.size = T.size) (hn : ∀ e < T.size, r.fwd (neg e) = neg (r.fwd e)) (dbg : Bool) :
    ∃ T', T.relabel dbg r = .ok T' ∧ T'.Reachable dbg ∧ T'.size = T.size ∧ T'.hasBoundary = false ∧
      (∀ x, T'.vertices.fwd x = r.fwd (T.vertices.fwd (r.inv x))) ∧
      (∀ x, T'.faces.fwd x = r.fwd (T.faces.fwd (r.inv x))) ∧ mkVertexes T'.vertices = some T'.vertexes := by
  rw [hasBoundary_false] at hb
  have hn' : ∀ e, r.fwd (neg e) = neg (r.fwd e) := by
    intro e
    by_cases he : e < T.size
    · exact hn e he
    · have := h.neg_lt e
      rw [hr.out e (by omega), hr.out (neg e) (by omega)]
  obtain ⟨p, hp, hpw, hps, hpe⟩ := Perm.mul_spec hr h.hv hs
  obtain ⟨r', hr', hrw', hrs', hre'⟩ := Perm.inverse_spec hr
  obtain ⟨q, hq, hqw, hqs, hqe⟩ := Perm.mul_spec hpw hrw' (by omega)
  have hqf : ∀ x, q.fwd x = r.fwd (T.vertices.fwd (r.inv x)) := by
    intro x
    have := DFunLike.congr_fun hqe x
    rw [hpe, hre'] at this
    exact this
  have hqs' : q.size = T.size := by omega
  have hrl : ∀ x, x < T.size → r.inv x < T.size := fun x hx => by have := hr.inv_lt (i := x); omega
  have hsz : T.faces.size = T.size := h.hs
  obtain ⟨T', h1, h2, h3⟩ := make_of_faces dbg hqw (by rw [hqs']; exact h.even)
    (B := []) (fun x => r.fwd (T.faces.fwd (r.inv x))) (by simp) (by simp)
    (fun x hx _ => by
      rw [hqs'] at hx
      have hbx := hb _ (hrl x hx)
      refine ⟨?_, ?_, ?_⟩
      · rw [hqf, ← hn', hr.left, h.link _ hbx, hr.right]
      · simp only [hr.left, h.tri, hr.right]
      · intro hc
        apply hbx
        have := congrArg r.inv hc
        rwa [hr.left] at this)
  have hR := ofMake hqw h1
  have hTs : T'.size = T.size := by unfold size; rw [h2]; exact hqs'
  have hff : ∀ x, T'.faces.fwd x = r.fwd (T.faces.fwd (r.inv x)) := by
    intro x
    by_cases hx : x < q.size
    · exact h3 x hx
    · have hc := hR.inv.1
      rw [hc.hf.out x (by rw [hc.hs, h2]; omega), hr.inv_out (by omega), h.hf.out x (by omega), hr.out x (by omega)]
  refine ⟨T', ?_, hR, hTs, ?_, fun x => by rw [h2, hqf], hff, by rw [h2]; exact (make_eq h1).2.2⟩
  · unfold Tri.relabel
    rw [hasBoundary_false.2 hb]
    simp only [bind, Except.bind, throw, throwThe, MonadExceptOf.throw, h.edges_length, hs.symm,
      ne_eq, not_true_eq_false, if_false, hp, hr', hq, Bool.false_eq_true]
    rw [if_neg ((h.edges_neg r).2 hn)]
    exact h1
  · rw [hasBoundary_false]
    intro x hx hc
    rw [hTs] at hx
    rw [hff] at hc
    refine hb _ (hrl x hx) ?_
    have := congrArg r.inv hc
    rwa [hr.left] at this

/-! ### Indistinguishable surfaces -/

theorem same_of_eq {dbg dbg' : Bool} {T T' : Tri} (h : T.Reachable dbg) (h' : T'.Reachable dbg')
    (hv : T'.vertices = T.vertices) (hf : T'.faces = T.faces) : Same T T' := by
  have e1 : T'.halfEdges = T.halfEdges := by unfold halfEdges size; rw [hv]
  have e2 : T'.nextAtVertex = T.nextAtVertex := by funext e; unfold nextAtVertex; rw [hv]
  refine ⟨e1, fun e => by rw [e2], fun e => by unfold previousAtVertex; rw [hv],
    fun e => by unfold nextInFace; rw [hf], fun e => by unfold previousInFace; rw [hf],
    fun e => by unfold boundary; rw [hf], ?_⟩
  have c := h.inv.2.verticesCorrect h.inv.1
  have c' := h'.inv.2.verticesCorrect h'.inv.1
  rw [List.perm_ext_iff_of_nodup c'.1 c.1]
  intro S
  rw [c.2, c'.2, e1]
  unfold IsOrbit
  rw [e2]

theorem eq_of_fwd {T T' : Tri} (h : T.Coherent) (h' : T'.Coherent) (hs : T'.size = T.size)
    (hv : ∀ x, T'.vertices.fwd x = T.vertices.fwd x) (hf : ∀ x, T'.faces.fwd x = T.faces.fwd x) :
    T'.vertices = T.vertices ∧ T'.faces = T.faces :=
  ⟨h'.hv.ext h.hv hs fun x _ => hv x, h'.hf.ext h.hf (by rw [h'.hs, h.hs]; exact hs) fun x _ => hf x⟩

end Verif.Tri
