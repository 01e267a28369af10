import Verif.Lemmas.FlowConnections

/-!
# Embedding the triangulation of a flow component
-/

namespace Verif.FlowTriangulation

open Verif Vec Spec C13 FlatTri

variable {T : Type} [CommRing T] [LinearOrder T] [IsStrictOrderedRing T]
variable {K : Type*} [Field K] [LinearOrder K] [IsStrictOrderedRing K]

/-- The area of a surface is the area of its faces. -/
theorem area2_faces {S : FlatTri T} (hFl : S.Flat) {F : List (HE × HE × HE)} (hnd : (halfEdgesOf F).Nodup)
    (hall : ∀ x, x ∈ halfEdgesOf F ↔ x < S.tri.size ∧ S.tri.boundary x = false)
    (hf : ∀ f ∈ F, S.tri.faces.fwd f.1 = f.2.1 ∧ S.tri.faces.fwd f.2.1 = f.2.2) :
    S.area2 = (F.map fun f => cross (S.vec f.1) (S.vec f.2.1)).sum := by
  have hsum := hFl.area2_sum
  have e1 : ∑ e ∈ Finset.range S.tri.size, S.faceArea e = ((halfEdgesOf F).map S.faceArea).sum := by
    rw [← List.sum_toFinset _ hnd]
    refine (Finset.sum_subset (fun x hx => ?_) fun x hx hn => ?_).symm
    · rw [List.mem_toFinset] at hx
      rw [Finset.mem_range]
      exact ((hall x).1 hx).1
    · rw [List.mem_toFinset, hall] at hn
      rw [Finset.mem_range] at hx
      have hb : S.tri.boundary x = true := by
        by_contra hb
        exact hn ⟨hx, by simpa using hb⟩
      unfold faceArea
      rw [if_pos (Tri.boundary_true.1 hb)]
  have e2 : ∀ f ∈ F, S.faceArea f.1 = cross (S.vec f.1) (S.vec f.2.1) ∧
      S.faceArea f.2.1 = cross (S.vec f.1) (S.vec f.2.1) ∧ S.faceArea f.2.2 = cross (S.vec f.1) (S.vec f.2.1) := by
    intro f hF
    obtain ⟨f3, f4⟩ := hf f hF
    have hb := Tri.boundary_false.1 ((hall f.1).1 (mem_halfEdgesOf.2 ⟨f, hF, .inl rfl⟩)).2
    have g1 : S.faceArea f.1 = cross (S.vec f.1) (S.vec f.2.1) := by
      unfold faceArea
      rw [if_neg hb, f3]
    have g2 := hFl.faceArea_fwd f.1
    have g3 := hFl.faceArea_fwd f.2.1
    rw [f3] at g2
    rw [f4] at g3
    exact ⟨g1, g2.trans g1, (g3.trans g2).trans g1⟩
  have e3 : ((halfEdgesOf F).map S.faceArea).sum = 3 * (F.map fun f => cross (S.vec f.1) (S.vec f.2.1)).sum := by
    unfold halfEdgesOf
    clear * - e2
    induction F with
    | nil => simp
    | cons f F ih =>
      obtain ⟨g1, g2, g3⟩ := e2 f (by simp)
      rw [List.flatMap_cons, List.map_append, List.sum_append, ih fun f' hf' => e2 f' (by simp [hf']), List.map_cons, List.sum_cons]
      simp only [List.map_cons, List.map_nil, List.sum_cons, List.sum_nil, g1, g2, g3]
      ring
  have h3 : (3 : T) ≠ 0 := by norm_num
  refine mul_left_cancel₀ h3 ?_
  rw [hsum, e1, e3]

/-- What is known about the triangulation of a component. -/
structure Piece (dbg : Bool) (vec : HE → Vec T) (P : List HE) (N : Numbering T) (R : Result T) : Prop where
  numbered : Numbered vec P N
  layout : Layout P N R
  triangulates : Triangulates vec P R
  reachable : R.triangulation.tri.Reachable dbg
  nodup : P.Nodup
  four : 4 ≤ P.length

namespace Piece

variable {dbg : Bool} {vec : HE → Vec T} {P : List HE} {N : Numbering T} {R : Result T}

omit [IsStrictOrderedRing T] in
theorem size (h : Piece dbg vec P N R) : R.triangulation.tri.size = N.vectors.size + 2 * (P.length - 3) := by
  have := congrArg List.length h.layout.halfEdges
  unfold Tri.halfEdges at this
  simpa using this

omit [IsStrictOrderedRing T] in
theorem some (h : Piece dbg vec P N R) {c : HE} (hc : c ∈ P) : N.toHalfEdge c = some ((N.toHalfEdge c).getD 0) := by
  obtain ⟨x, hx⟩ := Option.isSome_iff_exists.1 ((h.numbered.known c).2 hc)
  rw [hx]; rfl

omit [IsStrictOrderedRing T] in
theorem not_boundary (h : Piece dbg vec P N R) {e : HE} (he : e < R.triangulation.tri.size) :
    R.triangulation.tri.boundary e = false ↔ (∃ c ∈ P, N.toHalfEdge c = Option.some e) ∨ N.vectors.size ≤ e := by
  have hb := h.triangulates.boundary e (Tri.mem_halfEdges.2 he)
  rw [h.layout.toHalfEdge] at hb
  constructor
  · intro hf
    by_contra hn
    push Not at hn
    obtain ⟨c, hc | hc⟩ := h.numbered.cover e hn.2
    · exact hn.1 c ((h.numbered.known c).1 (by rw [hc]; rfl)) hc
    · have hcm : c ∈ P := (h.numbered.known c).1 (by rw [hc]; rfl)
      by_cases hm : neg c ∈ P
      · have h1 := h.some hm
        have h2 := h.numbered.back c _ _ hc h1
        rw [neg_neg'] at h2
        rw [h2] at h1
        exact hn.1 _ hm h1
      · rw [hb.2 ⟨c, hcm, hm, hc⟩] at hf
        cases hf
  · intro hor
    by_contra hne
    rw [Bool.not_eq_false, hb] at hne
    obtain ⟨c, hc, hn, hcx⟩ := hne
    rcases hor with ⟨d, hd, hdx⟩ | hge
    · have := h.numbered.neg c d _ hcx (by rw [neg_neg']; exact hdx)
      rw [this] at hd
      exact hn hd
    · have h1 := h.numbered.lt c _ hcx
      have h2 := (neg_lt' h.numbered.ok.even e).1 h1
      omega

omit [IsStrictOrderedRing T] in
theorem toConnection (h : Piece dbg vec P N R) {c e : HE} (hc : N.toHalfEdge c = Option.some e) :
    R.toConnection e = Option.some c := by
  rw [h.layout.toConnection, h.numbered.inverse]; exact hc

omit [IsStrictOrderedRing T] in
theorem toConnection_none (h : Piece dbg vec P N R) {e : HE} (he : N.vectors.size ≤ e) : R.toConnection e = none := by
  rcases hq : R.toConnection e with _ | c
  · rfl
  · rw [h.layout.toConnection, h.numbered.inverse] at hq
    have := h.numbered.lt c e hq
    omega

omit [IsStrictOrderedRing T] in
theorem inner (h : Piece dbg vec P N R) : ∃ l, (R.triangulation.tri.edges.filter fun e =>
    (R.toConnection e).isNone && (R.toConnection (neg e)).isNone) = N.vectors.size :: l := by
  have he := h.numbered.ok.even
  have h4 := h.four
  unfold Tri.edges
  rw [h.size, show (N.vectors.size + 2 * (P.length - 3)) / 2 = N.vectors.size / 2 + (1 + (P.length - 4)) by omega, List.range_add,
    List.map_append, List.filter_append]
  have h1 : ((List.range (N.vectors.size / 2)).map (2 * ·)).filter (fun e =>
      (R.toConnection e).isNone && (R.toConnection (neg e)).isNone) = [] := by
    rw [List.filter_eq_nil_iff]
    intro e hm
    obtain ⟨k, hk, rfl⟩ := List.mem_map.1 hm
    rw [List.mem_range] at hk
    obtain ⟨c, hc | hc⟩ := h.numbered.cover (2 * k) (by omega)
    · rw [h.toConnection hc]; simp
    · rw [h.toConnection hc]; simp
  rw [h1, List.nil_append, List.range_add, List.map_append, List.map_append, List.filter_append]
  generalize (((List.range (P.length - 4)).map (1 + ·)).map (N.vectors.size / 2 + ·)).map (2 * ·) = L
  have h2 : ((((List.range 1).map (N.vectors.size / 2 + ·)).map (2 * ·)).filter fun e =>
      (R.toConnection e).isNone && (R.toConnection (neg e)).isNone) = [N.vectors.size] := by
    have h3 : ((List.range 1).map (N.vectors.size / 2 + ·)).map (2 * ·) = [N.vectors.size] := by
      rw [show List.range 1 = [0] from rfl]
      simp only [List.map_cons, List.map_nil, add_zero, List.cons.injEq, and_true]
      omega
    rw [h3, List.filter_cons_of_pos, List.filter_nil]
    rw [h.toConnection_none le_rfl, h.toConnection_none]
    · rfl
    · rw [neg_def, if_pos he]; omega
  rw [h2]
  exact ⟨_, rfl⟩

/-- Where a half edge is in the triangulation of the decomposition. -/
def _root_.Verif.FlowTriangulation.place' (keys : List HE) (base : ℕ) (P : List HE) (R : Result T) (e : HE) : HE :=
  match R.toConnection e with
  | Option.some c => globalHE keys c
  | none => e + base - (R.triangulation.tri.size - 2 * (P.length - 3))

omit [IsStrictOrderedRing T] in
theorem place_connection (h : Piece dbg vec P N R) (keys : List HE) (base : ℕ) {c e : HE} (hc : N.toHalfEdge c = Option.some e) :
    place' keys base P R e = globalHE keys c := by
  unfold place'
  rw [h.toConnection hc]

omit [IsStrictOrderedRing T] in
theorem place_inner (h : Piece dbg vec P N R) (keys : List HE) (base : ℕ) {e : HE} (he : N.vectors.size ≤ e) :
    place' keys base P R e = e + base - N.vectors.size := by
  unfold place'
  rw [h.toConnection_none he, h.size]
  dsimp only
  congr 1; omega

omit [IsStrictOrderedRing T] in
theorem size_le (h : Piece dbg vec P N R) {keys : List HE} (hP : ∀ c ∈ P, c ∈ keys) (hneg : ∀ c ∈ keys, neg c ∈ keys) :
    N.vectors.size ≤ keys.length := by
  classical
  have : (Finset.range N.vectors.size).card ≤ keys.toFinset.card := by
    have hex : ∀ x, ∃ d, x < N.vectors.size → (d ∈ keys ∧ (N.toHalfEdge d = Option.some x ∨
        N.toHalfEdge (neg d) = Option.some (neg x))) := by
      intro x
      by_cases hx : x < N.vectors.size
      · obtain ⟨c, hc | hc⟩ := h.numbered.cover x hx
        · exact ⟨c, fun _ => ⟨hP c ((h.numbered.known c).1 (by rw [hc]; rfl)), .inl hc⟩⟩
        · refine ⟨neg c, fun _ => ⟨hneg c (hP c ((h.numbered.known c).1 (by rw [hc]; rfl))), .inr ?_⟩⟩
          rw [neg_neg']; exact hc
      · exact ⟨0, fun hh => absurd hh hx⟩
    choose f hf using hex
    refine Finset.card_le_card_of_injOn f (fun x hx => ?_) (fun x hx y hy hxy => ?_)
    · simp only [Finset.coe_range, Set.mem_Iio] at hx
      simp only [List.coe_toFinset, Set.mem_setOf_eq]
      exact (hf x hx).1
    · simp only [Finset.coe_range, Set.mem_Iio] at hx hy
      obtain ⟨-, h1⟩ := hf x hx
      obtain ⟨-, h2⟩ := hf y hy
      rw [hxy] at h1
      rcases h1 with h1 | h1 <;> rcases h2 with h2 | h2
      · rw [h1] at h2; injection h2
      · have := h.numbered.back _ _ _ h1 h2
        exact (neg_inj'.1 this).symm
      · have := h.numbered.back _ _ _ h2 h1
        exact neg_inj'.1 this
      · rw [h1] at h2; injection h2 with h2; exact neg_inj'.1 h2
  rw [Finset.card_range] at this
  exact this.trans (List.toFinset_card_le _)

theorem _root_.Verif.FlowTriangulation.firstInnerEdge_eq (dbg : Bool) {components : List (List Connection)}
    (hnd : (components.flatten.map Connection.key).Nodup)
    (hneg : ∀ c ∈ components.flatten.map Connection.key, neg c ∈ components.flatten.map Connection.key)
    (hfour : ∀ C ∈ components, 4 ≤ C.length) (i : ℕ) :
    firstInnerEdge dbg components i = .ok ((components.flatten.map Connection.key).length +
      ((components.take i).map fun C => 2 * (C.length - 3)).sum) := by
  have hlen : (components.flatten.map Connection.key).length = (components.map List.length).sum := by
    rw [List.length_map, List.length_flatten]
  have heven := (globalHE_perm hnd hneg).2
  rw [hlen] at heven ⊢
  have hs : ((components.take i).map fun C => 2 * (C.length - 3)).sum % 2 = 0 := by
    generalize components.take i = l
    induction l with
    | nil => rfl
    | cons C l ih => rw [List.map_cons, List.sum_cons]; omega
  unfold firstInnerEdge
  dsimp only
  rw [if_neg (fun hh => hh.2 heven), if_neg]
  · congr 1; omega
  · rintro ⟨-, C, hC, hx⟩
    exact hx (hfour C (List.mem_of_mem_take hC))

theorem embedding_eq {components : List (List Connection)} {i : ℕ} (h : Piece dbg vec P N R)
    (hnd : (components.flatten.map Connection.key).Nodup)
    (hneg : ∀ c ∈ components.flatten.map Connection.key, neg c ∈ components.flatten.map Connection.key)
    (hfour : ∀ C ∈ components, 4 ≤ C.length) (hP : ∀ c ∈ P, c ∈ components.flatten.map Connection.key) (e : HE) :
    embedding dbg components i R e = .ok (if R.triangulation.tri.boundary e then sentinel
      else place' (components.flatten.map Connection.key) ((components.flatten.map Connection.key).length +
        ((components.take i).map fun C => 2 * (C.length - 3)).sum) P R e) := by
  obtain ⟨l, hl⟩ := h.inner
  have hsz := h.size_le hP hneg
  unfold embedding
  dsimp only
  rw [hl, firstInnerEdge_eq dbg hnd hneg hfour i]
  dsimp only
  rw [if_neg (fun hh => hh.2 (by omega))]
  by_cases hb : R.triangulation.tri.boundary e = true
  · rw [if_pos hb, if_pos hb]
  · rw [if_neg hb, if_neg hb]
    unfold place'
    cases hq : R.toConnection e with
    | none =>
      dsimp only
      congr 2
      rw [h.size]; omega
    | some c =>
      dsimp only
      rw [halfEdge_eq]
      rw [h.layout.toConnection, h.numbered.inverse] at hq
      exact hP c ((h.numbered.known c).1 (by rw [hq]; rfl))

/-- The faces of a component use each connection and each new half edge once. -/
theorem faces (h : Piece dbg vec P N R) (keys : List HE) (base : ℕ) : ∃ l, R.triangulation.tri.facesList = Option.some l ∧
    (∀ f ∈ l, R.triangulation.tri.faces.fwd f.1 = f.2.1 ∧ R.triangulation.tri.faces.fwd f.2.1 = f.2.2 ∧
      R.triangulation.tri.faces.fwd f.1 ≠ f.1) ∧
    (halfEdgesOf l).Nodup ∧ (∀ x, x ∈ halfEdgesOf l ↔ x < R.triangulation.tri.size ∧ R.triangulation.tri.boundary x = false) ∧
    ((halfEdgesOf l).map (place' keys base P R)).Perm (P.map (globalHE keys) ++ List.range' base (2 * (P.length - 3))) := by
  obtain ⟨l, h1, h2, h3⟩ := Tri.facesList_spec h.reachable.inv.1
  have hall : ∀ x, x ∈ halfEdgesOf l ↔ x < R.triangulation.tri.size ∧ R.triangulation.tri.boundary x = false := by
    intro x
    unfold halfEdgesOf
    rw [h3.mem_iff, List.mem_filter, List.mem_range]
    simp
  have hnd : (halfEdgesOf l).Nodup := by
    unfold halfEdgesOf
    rw [h3.nodup_iff]
    exact List.nodup_range.filter _
  refine ⟨l, h1, fun f hf => ⟨(h2 f hf).1, (h2 f hf).2.1, (h2 f hf).2.2.2⟩, hnd, hall, ?_⟩
  have hp : (halfEdgesOf l).Perm (P.map (fun c => (N.toHalfEdge c).getD 0) ++ List.range' N.vectors.size (2 * (P.length - 3))) := by
    refine (List.perm_ext_iff_of_nodup hnd ?_).2 fun x => ?_
    · rw [List.nodup_append]
      refine ⟨h.nodup.map_on fun c hc d hd hcd => ?_, List.nodup_range' .., ?_⟩
      · refine h.numbered.inj c d _ (h.some hc) ?_
        rw [hcd]; exact h.some hd
      · intro x hx y hy hxy
        obtain ⟨c, hc, rfl⟩ := List.mem_map.1 hx
        have := h.numbered.lt c _ (h.some hc)
        rw [List.mem_range'_1] at hy
        omega
    · rw [hall, List.mem_append, List.mem_range'_1]
      constructor
      · rintro ⟨g1, g2⟩
        rcases (h.not_boundary g1).1 g2 with ⟨c, hc, hx⟩ | g3
        · exact .inl (List.mem_map.2 ⟨c, hc, by rw [hx]; rfl⟩)
        · rw [h.size] at g1
          exact .inr ⟨g3, g1⟩
      · rintro (g | g)
        · obtain ⟨c, hc, rfl⟩ := List.mem_map.1 g
          have hlt := h.numbered.lt c _ (h.some hc)
          have hlt' : (N.toHalfEdge c).getD 0 < R.triangulation.tri.size := by rw [h.size]; omega
          exact ⟨hlt', (h.not_boundary hlt').2 (.inl ⟨c, hc, h.some hc⟩)⟩
        · have hlt' : x < R.triangulation.tri.size := by rw [h.size]; exact g.2
          exact ⟨hlt', (h.not_boundary hlt').2 (.inr g.1)⟩
  refine (hp.map _).trans ?_
  rw [List.map_append, List.map_map]
  have e1 : P.map (place' keys base P R ∘ fun c => (N.toHalfEdge c).getD 0) = P.map (globalHE keys) :=
    List.map_congr_left fun c hc => h.place_connection keys base (h.some hc)
  have e2 : (List.range' N.vectors.size (2 * (P.length - 3))).map (place' keys base P R) = List.range' base (2 * (P.length - 3)) := by
    rw [List.range'_eq_map_range, List.range'_eq_map_range, List.map_map]
    refine List.map_congr_left fun k hk => ?_
    rw [Function.comp_apply, h.place_inner keys base (by omega)]
    omega
  rw [e1, e2]

end Piece

end Verif.FlowTriangulation
