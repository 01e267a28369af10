import Verif.Lemmas.FlowAssemble
import Verif.Lemmas.FlowDecompositionExamples

/-!
# Triangulations of decompositions with many half edges
-/

namespace Verif.FlowTriangulation

open Verif Vec Spec C13 FlatTri

variable {T : Type} [CommRing T] [LinearOrder T] [IsStrictOrderedRing T]
variable {K : Type*} [Field K] [LinearOrder K] [IsStrictOrderedRing K]

omit [LinearOrder T] [IsStrictOrderedRing T] in
theorem writes_append (keys : List HE) (base : ℕ) (L M : List (List Connection × Result T)) :
    writes keys base (L ++ M) = writes keys base L ++ writes keys (base + (L.map fun x => 2 * (x.1.length - 3)).sum) M := by
  induction L generalizing base with
  | nil => rfl
  | cons x L ih =>
    rw [List.cons_append, writes, ih, writes, List.map_cons, List.sum_cons, List.append_assoc, add_assoc]

omit [LinearOrder T] [IsStrictOrderedRing T] in
theorem allCorners_append (keys : List HE) (base : ℕ) (L M : List (List Connection × Result T)) :
    allCorners keys base (L ++ M) = allCorners keys base L ++ allCorners keys (base + (L.map fun x => 2 * (x.1.length - 3)).sum) M := by
  induction L generalizing base with
  | nil => rfl
  | cons x L ih =>
    rw [List.cons_append, allCorners, ih, allCorners, List.map_cons, List.sum_cons, List.append_assoc, add_assoc]

omit [CommRing T] [LinearOrder T] [IsStrictOrderedRing T] in
/-- The last write wins. -/
theorem foldl_update_last {W : List (HE × Vec T)} {m : HE → Option (Vec T)} {x : HE} {Q : Vec T → Prop}
    (hx : (∃ w, m x = some w ∧ Q w) ∨ ∃ p ∈ W, p.1 = x) (hw : ∀ p ∈ W, p.1 = x → Q p.2) :
    ∃ w, (W.foldl (fun (m : HE → Option (Vec T)) p => Function.update m p.1 (some p.2)) m) x = some w ∧ Q w := by
  induction W generalizing m with
  | nil =>
    rcases hx with hx | ⟨p, hp, -⟩
    · exact hx
    · cases hp
  | cons p W ih =>
    rw [List.foldl_cons]
    refine ih ?_ fun q hq => hw q (by simp [hq])
    by_cases hp : p.1 = x
    · left
      exact ⟨p.2, by rw [hp, Function.update_self], hw p (by simp) hp⟩
    · rcases hx with ⟨w, hx, hq⟩ | ⟨q, hq, hqx⟩
      · left; exact ⟨w, by rw [Function.update_of_ne (Ne.symm hp)]; exact hx, hq⟩
      · rcases List.mem_cons.1 hq with rfl | hq
        · exact absurd hqx hp
        · exact .inr ⟨q, hq, hqx⟩

/-- The triangulation cannot be constructed when the vector of a half edge has been overwritten. -/
theorem overwritten (A : Option (Approx T K)) (dbg : Bool) {vec : HE → Vec T} {v : Vec T}
    {components : List (List Connection × List Connection)} (h : Decomposition vec v components)
    (hbad : ∀ L : List (List Connection × Result T), L.map Prod.fst = components.map (fun x => x.1 ++ x.2) →
      (∀ y ∈ L, make A dbg vec v y.1 = .ok y.2 ∧ ∃ N, Piece dbg vec (y.1.map Connection.key) N y.2) →
      ∃ w w', (sentinel, w) ∈ allCorners ((components.map fun x => x.1 ++ x.2).flatten.map Connection.key)
          ((components.map fun x => x.1 ++ x.2).flatten.map Connection.key).length L ∧
        (writes ((components.map fun x => x.1 ++ x.2).flatten.map Connection.key)
          ((components.map fun x => x.1 ++ x.2).flatten.map Connection.key).length L).foldl
          (fun (m : HE → Option (Vec T)) p => Function.update m p.1 (some p.2)) (fun _ => none) sentinel = some w' ∧ w' ≠ w) :
    triangulation A dbg vec v (components.map fun x => x.1 ++ x.2) = .error .invalidArgument := by
  obtain ⟨L, l1, l3, hp, heven, hrun⟩ := triangulation_run A dbg h
  obtain ⟨w, w', hw, hw', hne⟩ := hbad L l1 l3
  clear hbad
  have hL : ∀ y ∈ L, ∃ N, Piece dbg vec (y.1.map Connection.key) N y.2 := fun y hy => (l3 y hy).2
  generalize hk : (components.map fun x => x.1 ++ x.2).flatten.map Connection.key = keys at hp hrun hw hw'
  have hfst := allCorners_fst keys keys.length L
  have hnd' : (halfEdgesOf (allFaces keys keys.length L)).Nodup := by rw [hp.nodup_iff]; exact List.nodup_range
  have hnd : ((allCorners keys keys.length L).map Prod.fst).Nodup := by rw [hfst]; exact hnd'
  have hval : ∀ p ∈ allCorners keys keys.length L, p.1 ≠ sentinel → (writes keys keys.length L).foldl
      (fun (m : HE → Option (Vec T)) p => Function.update m p.1 (some p.2)) (fun _ => none) p.1 = some p.2 := by
    intro p hpm hps
    refine foldl_update (.inr ⟨p, (mem_writes keys keys.length hL p).2 (.inl hpm), rfl⟩) fun q hq hqp => ?_
    rcases (mem_writes keys keys.length hL q).1 hq with hq | ⟨hq1, -⟩
    · exact congrArg Prod.snd (List.inj_on_of_nodup_map hnd hq hpm hqp)
    · exact absurd (hqp.symm.trans hq1) hps
  generalize (writes keys keys.length L).foldl (fun (m : HE → Option (Vec T)) p => Function.update m p.1 (some p.2))
    (fun _ => none) = m at hval hrun hw'
  obtain ⟨t1, -⟩ := allFaces_triangle keys keys.length hL (V := fun e => if e = sentinel then w else (m e).getD 0) (by
    intro p hpm
    split_ifs with hps
    · exact congrArg Prod.snd (List.inj_on_of_nodup_map hnd hw hpm hps.symm)
    · rw [hval p hpm hps]; rfl)
  have h2 : 2 * (halfEdgeCount components / 2) = halfEdgeCount components := by omega
  have hP : Proper (allFaces keys keys.length L) (halfEdgeCount components / 2) := by
    refine ⟨hnd', fun x => ?_⟩
    rw [hp.mem_iff, hp.mem_iff, List.mem_range, List.mem_range, h2, neg_lt' heven, or_self]
  obtain ⟨C, c1, c2, c3, c4, c5, c6, c7, c8⟩ := ofFaces_correct dbg hP
  have hmem : sentinel ∈ halfEdgesOf (allFaces keys keys.length L) := by
    rw [← hfst]; exact List.mem_map_of_mem hw
  obtain ⟨f, hf, hsf⟩ := mem_halfEdgesOf.1 hmem
  obtain ⟨T', d1, d2, d3, d4, -⟩ := construct c2.inv.1 A dbg
  rw [hrun]
  simp only [bind, Except.bind, c1]
  rw [if_neg]
  · have hcheck : check A ⟨T', fun e => (m e).getD 0⟩ = .error .invalidArgument := by
      refine (check_cases A _).resolve_left fun hok => ?_
      rw [check_transfer A c2.inv.1 d3.inv.1 d2, check_ok A c2.inv.1] at hok
      obtain ⟨i1, i2, i3, i4, i5⟩ := c6 f hf
      have hcl := (hok.1 f.1 (Tri.boundary_false.1 i2)).2
      have e1 : C.faces.fwd f.1 = f.2.1 := i3
      have e2 : C.faces.fwd f.2.1 = f.2.2 := i4
      dsimp only at hcl
      rw [e1, e2] at hcl
      have ht := (t1 f hf).1
      have hd : [f.1, f.2.1, f.2.2].Nodup := by
        unfold halfEdgesOf at hnd'
        exact (List.nodup_flatMap.1 hnd').1 f hf
      simp only [List.nodup_cons, List.mem_cons, List.not_mem_nil, or_false, not_or, List.nodup_nil, and_true, not_false_eq_true] at hd
      obtain ⟨⟨k1, k2⟩, k3⟩ := hd
      rcases hsf with hs | hs | hs
      · rw [← hs] at k1 k2 ht hcl
        rw [if_pos rfl, if_neg (Ne.symm k1), if_neg (Ne.symm k2)] at ht
        rw [hw'] at hcl
        refine hne ?_
        have := hcl.trans ht.symm
        rw [add_assoc, add_assoc] at this
        exact add_right_cancel this
      · rw [← hs] at k1 k3 ht hcl
        rw [if_neg k1, if_pos rfl, if_neg (Ne.symm k3)] at ht
        rw [hw'] at hcl
        refine hne ?_
        have := add_right_cancel (hcl.trans ht.symm)
        exact add_left_cancel this
      · rw [← hs] at k2 k3 ht hcl
        rw [if_neg k2, if_neg k3, if_pos rfl] at ht
        rw [hw'] at hcl
        exact hne (add_left_cancel (hcl.trans ht.symm))
    rw [d4, hcheck]
    rfl
  · rintro ⟨e, he, hn⟩
    rw [c5, h2, ← hp.mem_iff, ← hfst] at he
    obtain ⟨p, hpm, rfl⟩ := List.mem_map.1 he
    by_cases hps : p.1 = sentinel
    · rw [hps, hw'] at hn
      cases hn
    · rw [hval p hpm hps] at hn
      cases hn

end Verif.FlowTriangulation
