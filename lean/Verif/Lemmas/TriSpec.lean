import Verif.Lemmas.Triangulation
import Verif.Lemmas.PermReachable
import Verif.Spec.Triangulation
import Verif.Props.C01

/-!
# Invariants of triangulations and the specification
-/

namespace Verif.Tri

open Verif Spec Function

theorem Reachable.inv {dbg : Bool} {T : Tri} (h : T.Reachable dbg) : T.Coherent ∧ T.VertexesOk := by
  induction h with
  | make hv h => exact ⟨(make_spec hv.wf h).1, (make_spec hv.wf h).2.1⟩
  | flip hT h ih =>
    have hq := ih.1.quad (flippable_of_ok ih.1 h)
    obtain ⟨T', h1, h2⟩ := flip_flipped ih.1 hq _
    rw [h] at h1
    cases h1
    exact ⟨h2.coherent ih.1 hq, h2.vertexesOk ih.1.hv ih.2 hq⟩

theorem mem_halfEdges {T : Tri} {e : HE} : e ∈ T.halfEdges ↔ e < T.size := List.mem_range

theorem boundary_true {T : Tri} {e : HE} : T.boundary e = true ↔ T.faces.fwd e = e := by simp [boundary]

theorem boundary_false {T : Tri} {e : HE} : T.boundary e = false ↔ T.faces.fwd e ≠ e := by simp [boundary]

theorem Coherent.isTriangulation {T : Tri} (h : T.Coherent) : IsTriangulation T where
  paired e he := by rw [mem_halfEdges] at *; exact (h.neg_lt e).2 he
  closed e he := by
    rw [mem_halfEdges] at he
    exact ⟨mem_halfEdges.2 ((h.hf.fwd_lt.2 (by rw [h.hs]; exact he)).trans_eq h.hs), mem_halfEdges.2 (h.hv.fwd_lt.2 he)⟩
  face_inv e _ := ⟨h.hf.left e, h.hf.right e⟩
  vertex_inv e _ := ⟨h.hv.left e, h.hv.right e⟩
  triangle e _ hb := by
    rw [boundary_false] at hb
    refine ⟨h.tri e, ?_⟩
    have h1 : T.faces.fwd (T.faces.fwd e) ≠ T.faces.fwd e := fun hc => hb (h.fwd_fixed.1 hc)
    have h2 : T.faces.fwd (T.faces.fwd e) ≠ e := by
      intro hc
      have := h.tri e
      rw [hc] at this
      exact hb this
    simp only [nextInFace, List.nodup_cons, List.mem_cons, List.not_mem_nil, or_false, not_or, List.nodup_nil,
      and_true, not_false_eq_true]
    exact ⟨⟨hb.symm, h2.symm⟩, h1.symm⟩
  face_boundary e _ := by
    rw [Bool.eq_iff_iff, boundary_true, boundary_true]
    exact h.fwd_fixed
  corner e _ hb := h.link' (boundary_false.1 hb)
  corner_boundary e _ hb := boundary_true.2 (h.bdry (boundary_true.1 hb))

theorem VertexesOk.verticesCorrect {T : Tri} (h : T.Coherent) (hV : T.VertexesOk) : VerticesCorrect T := by
  refine ⟨hV.nodup, fun S => ⟨fun hS => ?_, ?_⟩⟩
  · obtain ⟨x, hx, hxS⟩ := hV.orbit S hS
    exact ⟨x, mem_halfEdges.2 hx, hxS⟩
  · rintro ⟨e, he, heS⟩
    rw [mem_halfEdges] at he
    obtain ⟨S', hS', heS'⟩ := hV.cover e he
    have : S = S' := VertexesOk.eq_of_mem h.hv ⟨e, he, heS⟩ (hV.orbit S' hS') ((heS e).2 ⟨0, rfl⟩) heS'
    rw [this]
    exact hS'

theorem Reachable.isTriangulation {dbg : Bool} {T : Tri} (h : T.Reachable dbg) : IsTriangulation T :=
  h.inv.1.isTriangulation

/-- The faces which the constructor builds. -/
theorem facePairs_spec {v : Perm} (hv : v.WF) (he : v.size % 2 = 0) {B : List HE}
    (hB : ∀ x < v.size, (neg (v.fwd x) ∈ B ↔ x ∈ B)) :
    ∃ f, Perm.ofPairs (facePairs v B) = .ok f ∧ f.WF ∧ f.size = v.size ∧ (∀ x < v.size, x ∈ B → f.fwd x = x) ∧
      (∀ x < v.size, x ∉ B → f.fwd (neg (v.fwd x)) = x) := by
  have hneg : ∀ x, x < v.size → neg x < v.size := fun x hx => (neg_lt' he x).2 hx
  have hlen : (facePairs v B).length = v.size := by simp [facePairs, Perm.domain]
  have hdom : v.domain.Perm (List.range v.size) := by
    refine List.perm_of_nodup_nodup_toFinset_eq ?_ List.nodup_range ?_
    · exact List.Nodup.map_on (fun x _ y _ hxy => hv.inj hxy) List.nodup_range
    · ext x
      simp [Perm.mem_domain hv x]
  have hsnd : (facePairs v B).map Prod.snd = v.domain := by
    unfold facePairs
    rw [List.map_map]
    refine (List.map_congr_left fun x _ => ?_).trans (List.map_id _)
    by_cases hx : x ∈ B <;> simp [hx]
  have hfst : (facePairs v B).map Prod.fst = v.domain.map fun e => if e ∉ B then neg (v.fwd e) else e := by
    unfold facePairs
    rw [List.map_map]
    refine List.map_congr_left fun x _ => ?_
    by_cases hx : x ∈ B <;> simp [hx]
  have hnd : ((facePairs v B).map Prod.fst).Nodup := by
    rw [hfst]
    refine List.Nodup.map_on ?_ (hdom.nodup_iff.2 List.nodup_range)
    intro x hx y hy hxy
    rw [Perm.mem_domain hv] at hx hy
    by_cases h1 : x ∈ B <;> by_cases h2 : y ∈ B
    · simpa [h1, h2] using hxy
    · simp only [h1, h2, not_true_eq_false, not_false_eq_true, if_false, if_true] at hxy
      exact absurd ((hB y hy).1 (hxy ▸ h1)) h2
    · simp only [h1, h2, not_true_eq_false, not_false_eq_true, if_false, if_true] at hxy
      exact absurd ((hB x hx).1 (hxy ▸ h2)) h1
    · simp only [h1, h2, not_false_eq_true, if_true] at hxy
      exact hv.inj (neg_inj'.1 hxy)
  have hp1 : ((facePairs v B).map Prod.fst).Perm (List.range (facePairs v B).length) := by
    refine (hnd.subperm ?_).perm_of_length_le (by simp)
    rw [hfst, hlen]
    intro y hy
    obtain ⟨x, hx, rfl⟩ := List.mem_map.1 hy
    rw [Perm.mem_domain hv] at hx
    rw [List.mem_range]
    split_ifs
    · exact hx
    · exact hneg _ (hv.fwd_lt.2 hx)
  have hp2 : ((facePairs v B).map Prod.snd).Perm (List.range (facePairs v B).length) := by
    rw [hsnd, hlen]; exact hdom
  obtain ⟨f, hf, hfw, hfs, hfp⟩ := Perm.ofPairs_ok_of_perm hp1 hp2
  have hin : ∀ x < v.size, x ∈ B → f.fwd x = x := by
    intro x hx hxB
    refine hfp (x, x) ?_
    unfold facePairs
    exact List.mem_map.2 ⟨x, (Perm.mem_domain hv x).2 hx, by simp [hxB]⟩
  have hnot : ∀ x < v.size, x ∉ B → f.fwd (neg (v.fwd x)) = x := by
    intro x hx hxB
    refine hfp (neg (v.fwd x), x) ?_
    unfold facePairs
    exact List.mem_map.2 ⟨x, (Perm.mem_domain hv x).2 hx, by simp [hxB]⟩
  exact ⟨f, hf, hfw, hfs.trans hlen, hin, hnot⟩

/-- The constructor succeeds if all faces are triangles. -/
theorem make_ok {dbg : Bool} {v : Perm} (hv : v.WF) (he : v.size % 2 = 0) {B : List HE}
    (hB : ∀ x < v.size, (neg (v.fwd x) ∈ B ↔ x ∈ B))
    (ht : ∀ x < v.size, x ∉ B → neg (v.fwd (neg (v.fwd (neg (v.fwd x))))) = x ∧ (dbg = true → neg (v.fwd x) ≠ x)) :
    ∃ T, make dbg v B = .ok T := by
  have hneg : ∀ x, x < v.size → neg x < v.size := fun x hx => (neg_lt' he x).2 hx
  obtain ⟨f, hf, hfw, hfs, hin, hnot⟩ := facePairs_spec hv he hB
  obtain ⟨vs, hvs, -⟩ := mkVertexes_spec hv f
  have htri : ¬ ∃ e ∈ f.domain, f.fwd e ≠ e ∧ f.fwd (f.fwd (f.fwd e)) ≠ e := by
    rintro ⟨x, hx, h1, h2⟩
    rw [Perm.mem_domain hfw, hfs] at hx
    have hxB : x ∉ B := fun hc => h1 (hin x hx hc)
    obtain ⟨h3, -⟩ := ht x hx hxB
    set y := neg (v.fwd x) with hy
    set z := neg (v.fwd y) with hz
    have hyB : y ∉ B := fun hc => hxB ((hB x hx).1 hc)
    have hys : y < v.size := hneg _ (hv.fwd_lt.2 hx)
    have hzB : z ∉ B := fun hc => hyB ((hB y hys).1 hc)
    have hzs : z < v.size := hneg _ (hv.fwd_lt.2 hys)
    have e1 : f.fwd y = x := hnot x hx hxB
    have e2 : f.fwd z = y := hnot y hys hyB
    have e3 : f.fwd x = z := by have := hnot z hzs hzB; rwa [h3] at this
    exact h2 (by rw [e3, e2, e1])
  have hdbg : ¬ (dbg ∧ ∃ e ∈ f.domain, f.fwd e = e ∧ e ∉ B) := by
    rintro ⟨hd, x, hx, h1, hxB⟩
    rw [Perm.mem_domain hfw, hfs] at hx
    have := hnot x hx hxB
    exact (ht x hx hxB).2 hd (hfw.inj (this.trans h1.symm))
  refine ⟨⟨v, f, vs⟩, ?_⟩
  unfold make
  simp only [hf, hvs, bind, Except.bind, pure, Except.pure, throw, throwThe, MonadExceptOf.throw, he, ne_eq,
    not_true_eq_false, if_false]
  rw [if_neg htri, if_neg hdbg]

/-- A proper pairing of sides which has a face that is not a triangle is reported. -/
theorem make_rejects {dbg : Bool} {v : Perm} (hv : v.WF) (he : v.size % 2 = 0) {B : List HE}
    (hB : ∀ x < v.size, (neg (v.fwd x) ∈ B ↔ x ∈ B))
    (ht : ∃ x < v.size, x ∉ B ∧ (neg (v.fwd (neg (v.fwd (neg (v.fwd x))))) ≠ x ∨ (dbg = true ∧ neg (v.fwd x) = x))) :
    make dbg v B = .error .invalidArgument := by
  have hneg : ∀ x, x < v.size → neg x < v.size := fun x hx => (neg_lt' he x).2 hx
  obtain ⟨f, hf, hfw, hfs, hin, hnot⟩ := facePairs_spec hv he hB
  obtain ⟨vs, hvs, -⟩ := mkVertexes_spec hv f
  have key : (∃ e ∈ f.domain, f.fwd e ≠ e ∧ f.fwd (f.fwd (f.fwd e)) ≠ e) ∨
      (dbg = true ∧ ∃ e ∈ f.domain, f.fwd e = e ∧ e ∉ B) := by
    obtain ⟨x, hx, hxB, h⟩ := ht
    have hys : neg (v.fwd x) < v.size := hneg _ (hv.fwd_lt.2 hx)
    have hyB : neg (v.fwd x) ∉ B := fun hc => hxB ((hB x hx).1 hc)
    have e1 := hnot x hx hxB
    rcases h with h | ⟨hd, h⟩
    · left
      have hzs : neg (v.fwd (neg (v.fwd x))) < v.size := hneg _ (hv.fwd_lt.2 hys)
      have hzB : neg (v.fwd (neg (v.fwd x))) ∉ B := fun hc => hyB ((hB _ hys).1 hc)
      have e2 := hnot _ hys hyB
      have e3 := hnot _ hzs hzB
      have hws : neg (v.fwd (neg (v.fwd (neg (v.fwd x))))) < v.size := hneg _ (hv.fwd_lt.2 hzs)
      generalize neg (v.fwd (neg (v.fwd (neg (v.fwd x))))) = w at *
      generalize neg (v.fwd (neg (v.fwd x))) = z at *
      generalize neg (v.fwd x) = y at *
      refine ⟨w, (Perm.mem_domain hfw w).2 (by rw [hfs]; exact hws), ?_, ?_⟩
      · intro hc
        have h4 : w = z := by rw [← hc, e3]
        subst h4
        rw [hc] at e2
        subst e2
        rw [hc] at e1
        exact h e1
      · rw [e3, e2, e1]
        exact h.symm
    · right
      rw [h] at e1
      exact ⟨hd, x, (Perm.mem_domain hfw x).2 (by rw [hfs]; exact hx), e1, hxB⟩
  unfold make
  simp only [hf, hvs, bind, Except.bind, pure, Except.pure, throw, throwThe, MonadExceptOf.throw, he, ne_eq,
    not_true_eq_false, if_false]
  by_cases h1 : ∃ e ∈ f.domain, f.fwd e ≠ e ∧ f.fwd (f.fwd (f.fwd e)) ≠ e
  · rw [if_pos h1]
  · rw [if_neg h1, if_pos]
    exact key.resolve_left h1

/-- When the constructor succeeds. -/
theorem make_ok_iff {dbg : Bool} {v : Perm} (hv : v.WF) (he : v.size % 2 = 0) {B : List HE} :
    (∃ T, make dbg v B = .ok T) ↔ (∀ x < v.size, (neg (v.fwd x) ∈ B ↔ x ∈ B)) ∧
      (∀ x < v.size, x ∉ B →
        neg (v.fwd (neg (v.fwd (neg (v.fwd x))))) = x ∧ (dbg = true → neg (v.fwd x) ≠ x)) := by
  constructor
  · rintro ⟨T, hT⟩
    obtain ⟨hc, -, hTv, hin, hnot, hdbg⟩ := make_spec hv hT
    have hneg : ∀ x, x < v.size → neg x < v.size := fun x hx => (neg_lt' he x).2 hx
    have hB : ∀ x < v.size, (neg (v.fwd x) ∈ B ↔ x ∈ B) := by
      intro x hx
      have hys : neg (v.fwd x) < v.size := hneg _ (hv.fwd_lt.2 hx)
      constructor
      · intro h
        by_contra hx'
        have h1 := hnot x hx hx'
        rw [hin _ hys h] at h1
        rw [h1] at h
        exact hx' h
      · intro h
        by_contra hy
        have h1 := hc.bdry (hin x hx h)
        rw [hTv] at h1
        have h2 := hc.hf.inj ((hnot _ hys hy).trans h1.symm)
        have h3 := hv.inj (neg_inj'.1 h2)
        rw [h3] at hy
        exact hy h
    refine ⟨hB, fun x hx hxB => ?_⟩
    have hys : neg (v.fwd x) < v.size := hneg _ (hv.fwd_lt.2 hx)
    have hyB : neg (v.fwd x) ∉ B := fun hc => hxB ((hB x hx).1 hc)
    have hzs : neg (v.fwd (neg (v.fwd x))) < v.size := hneg _ (hv.fwd_lt.2 hys)
    have hzB : neg (v.fwd (neg (v.fwd x))) ∉ B := fun hc => hyB ((hB _ hys).1 hc)
    have e1 := hnot x hx hxB
    have e2 := hnot _ hys hyB
    have e3 := hnot _ hzs hzB
    refine ⟨?_, fun hd hc' => ?_⟩
    · have := hc.tri (neg (v.fwd (neg (v.fwd (neg (v.fwd x))))))
      rw [e3, e2, e1] at this
      exact this.symm
    · rw [hc'] at e1
      exact hxB (hdbg hd x hx e1)
  · rintro ⟨h1, h2⟩
    exact make_ok hv he h1 h2

/-! The public constructor. -/

theorem mapM_ok {α β : Type} {f : α → Except Err β} {l : List α} {l' : List β} (h : l.mapM f = .ok l') :
    List.Forall₂ (fun a b => f a = .ok b) l l' := by
  induction l generalizing l' with
  | nil => simp only [List.mapM_nil, pure, Except.pure] at h; cases h; exact .nil
  | cons a l ih =>
    simp only [List.mapM_cons, bind, Except.bind] at h
    cases ha : f a with
    | error e => rw [ha] at h; cases h
    | ok b =>
      rw [ha] at h
      simp only at h
      cases hl : l.mapM f with
      | error e => rw [hl] at h; cases h
      | ok l'' =>
        rw [hl] at h
        cases h
        exact .cons ha (ih hl)

theorem mapM_heOfId {l : List ℤ} {l' : List HE} (h : l.mapM heOfId = .ok l') : l = l'.map heId := by
  have := mapM_ok h
  clear h
  induction this with
  | nil => rfl
  | cons ha _ ih => rw [List.map_cons, ← ih, C01.id_ofId ha]

theorem ofIds_eq {dbg : Bool} {cycles : List (List ℤ)} {B : List ℤ} {T : Tri} (h : ofIds dbg cycles B = .ok T) :
    ∃ cs v bs, cycles = cs.map (List.map heId) ∧ Perm.ofCycles cs = .ok v ∧ B = bs.map heId ∧ make dbg v bs = .ok T ∧
      boundariesLast cycles B = true := by
  unfold ofIds at h
  simp only [bind, Except.bind] at h
  cases hcs : cycles.mapM fun c => c.mapM heOfId with
  | error e => rw [hcs] at h; cases h
  | ok cs =>
    rw [hcs] at h
    simp only at h
    cases hv : Perm.ofCycles cs with
    | error e => rw [hv] at h; cases h
    | ok v =>
      rw [hv] at h
      simp only at h
      cases hbs : B.mapM heOfId with
      | error e => rw [hbs] at h; cases h
      | ok bs =>
        rw [hbs] at h
        simp only at h
        cases hT : make dbg v bs with
        | error e => rw [hT] at h; cases h
        | ok T' =>
          rw [hT] at h
          simp only at h
          split_ifs at h with hlast
          cases h
          refine ⟨cs, v, bs, ?_, hv, mapM_heOfId hbs, hT, hlast⟩
          have := mapM_ok hcs
          clear hcs hT hlast hv
          induction this with
          | nil => rfl
          | cons ha _ ih => rw [List.map_cons, ← ih, mapM_heOfId ha]

end Verif.Tri
