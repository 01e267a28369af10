import Verif.Lemmas.FlowAssemble

/-!
# The embedding of components into the triangulation of a decomposition
-/

namespace Verif.FlowTriangulation

open Verif Vec Spec C13 FlatTri

variable {T : Type} [CommRing T] [LinearOrder T] [IsStrictOrderedRing T]
variable {K : Type*} [Field K] [LinearOrder K] [IsStrictOrderedRing K]
variable {vec : HE → Vec T} {v : Vec T} {components : List (List Connection × List Connection)}

theorem take_sum {α : Type*} {l : List α} (f : α → ℕ) {i : ℕ} {a : α} (hi : l[i]? = some a) :
    ((l.take i).map f).sum + f a ≤ (l.map f).sum ∧ ∀ j, i < j → ((l.take i).map f).sum + f a ≤ ((l.take j).map f).sum := by
  obtain ⟨h, rfl⟩ := List.getElem?_eq_some_iff.1 hi
  have h1 : ∀ j, i < j → ((l.take i).map f).sum + f l[i] ≤ ((l.take j).map f).sum := by
    intro j hj
    have e : l.take j = l.take (i + 1) ++ (l.take j).drop (i + 1) := by
      conv_lhs => rw [← List.take_append_drop (i + 1) (l.take j)]
      rw [List.take_take, min_eq_left (by omega)]
    rw [e, List.map_append, List.sum_append, ← List.take_concat_get' l i h, List.map_append, List.sum_append]
    simp
  refine ⟨?_, h1⟩
  have := h1 l.length h
  rwa [List.take_length] at this

/-- The half edges of a component in the triangulation of the decomposition. -/
structure Embedded (dbg : Bool) (vec : HE → Vec T) (components : List (List Connection × List Connection)) (i : ℕ) (R : Result T) where
  C : List Connection × List Connection
  get : components[i]? = some C
  N : Numbering T
  piece : Piece dbg vec ((C.1 ++ C.2).map Connection.key) N R

theorem embedded (A : Option (Approx T K)) (dbg : Bool) (h : Decomposition vec v components) {i : ℕ} {C : List Connection × List Connection}
    {R : Result T} (hC : components[i]? = some C) (hR : make A dbg vec v (C.1 ++ C.2) = .ok R) :
    ∃ E : Embedded dbg vec components i R, E.C = C := by
  have hm := List.mem_of_getElem? hC
  obtain ⟨R', N, h1, h2⟩ := piece_of_perimeter A dbg (h.perimeter C hm) (h.four C hm)
  rw [hR] at h1
  cases h1
  exact ⟨⟨C, hC, N, h2⟩, rfl⟩

namespace Embedded

variable {dbg : Bool} {i j : ℕ} {R Q : Result T}

theorem sub (E : Embedded dbg vec components i R) {c : HE} (hc : c ∈ (E.C.1 ++ E.C.2).map Connection.key) :
    c ∈ (components.map fun x => x.1 ++ x.2).flatten.map Connection.key := by
  obtain ⟨d, hd, rfl⟩ := List.mem_map.1 hc
  exact List.mem_map_of_mem (List.mem_flatten.2 ⟨_, List.mem_map_of_mem (List.mem_of_getElem? E.get), hd⟩)

/-- The number of the first half edge in the interior of a component. -/
def base (_ : Embedded dbg vec components i R) : ℕ :=
  ((components.map fun x => x.1 ++ x.2).flatten.map Connection.key).length +
    (((components.map fun x => x.1 ++ x.2).take i).map fun C => 2 * (C.length - 3)).sum

theorem base_le (E : Embedded dbg vec components i R) :
    E.base + 2 * ((E.C.1 ++ E.C.2).length - 3) ≤ halfEdgeCount components := by
  have h1 := (take_sum (l := components.map fun x => x.1 ++ x.2) (fun C => 2 * (C.length - 3)) (i := i) (a := E.C.1 ++ E.C.2) (by
    rw [List.getElem?_map, E.get]; rfl)).1
  rw [count_eq]
  unfold base
  omega

theorem base_lt (E : Embedded dbg vec components i R) (F : Embedded dbg vec components j Q) (hij : i < j) :
    E.base + 2 * ((E.C.1 ++ E.C.2).length - 3) ≤ F.base := by
  have h1 := (take_sum (l := components.map fun x => x.1 ++ x.2) (fun C => 2 * (C.length - 3)) (i := i) (a := E.C.1 ++ E.C.2) (by
    rw [List.getElem?_map, E.get]; rfl)).2 j hij
  unfold base
  omega

omit [IsStrictOrderedRing T] in
theorem disjoint (h : Decomposition vec v components) (E : Embedded dbg vec components i R) (F : Embedded dbg vec components j Q)
    (hij : i < j) {c : HE} (h1 : c ∈ (E.C.1 ++ E.C.2).map Connection.key) (h2 : c ∈ (F.C.1 ++ F.C.2).map Connection.key) : False := by
  have hnd := h.nodup
  rw [List.map_flatten, List.nodup_flatten, List.map_map] at hnd
  obtain ⟨hi, ei⟩ := List.getElem?_eq_some_iff.1 E.get
  obtain ⟨hj, ej⟩ := List.getElem?_eq_some_iff.1 F.get
  have := List.pairwise_iff_getElem.1 hnd.2 i j (by simpa using hi) (by simpa using hj) hij
  rw [List.getElem_map, List.getElem_map, ei, ej] at this
  exact this h1 h2

theorem index_eq (h : Decomposition vec v components) (E : Embedded dbg vec components i R) (F : Embedded dbg vec components j Q)
    {c : HE} (h1 : c ∈ (E.C.1 ++ E.C.2).map Connection.key) (h2 : c ∈ (F.C.1 ++ F.C.2).map Connection.key) : i = j := by
  rcases lt_trichotomy i j with hij | hij | hij
  · exact (disjoint h E F hij h1 h2).elim
  · exact hij
  · exact (disjoint h F E hij h2 h1).elim

theorem eq (h : Decomposition vec v components) (E : Embedded dbg vec components i R) {e : HE}
    (hb : R.triangulation.tri.boundary e = false) :
    embedding dbg (components.map fun x => x.1 ++ x.2) i R e =
      .ok (place' ((components.map fun x => x.1 ++ x.2).flatten.map Connection.key) E.base ((E.C.1 ++ E.C.2).map Connection.key) R e) := by
  have hp := pieces dbg h
  rw [E.piece.embedding_eq hp.nodup hp.neg hp.four (fun c hc => E.sub hc), hb]
  rfl

theorem eq_sentinel (h : Decomposition vec v components) (E : Embedded dbg vec components i R) {e : HE}
    (hb : R.triangulation.tri.boundary e = true) :
    embedding dbg (components.map fun x => x.1 ++ x.2) i R e = .ok sentinel := by
  have hp := pieces dbg h
  rw [E.piece.embedding_eq hp.nodup hp.neg hp.four (fun c hc => E.sub hc), hb]
  rfl

/-- Half edges are either on the perimeter or in the interior. -/
theorem cases (h : Decomposition vec v components) (E : Embedded dbg vec components i R) {e : HE}
    (he : e ∈ R.triangulation.tri.halfEdges) (hb : R.triangulation.tri.boundary e = false) :
    (∃ c ∈ (E.C.1 ++ E.C.2).map Connection.key, R.toHalfEdge c = some e ∧
      embedding dbg (components.map fun x => x.1 ++ x.2) i R e =
        .ok (globalHE ((components.map fun x => x.1 ++ x.2).flatten.map Connection.key) c)) ∨
    ∃ k < 2 * ((E.C.1 ++ E.C.2).length - 3), e = E.N.vectors.size + k ∧
      embedding dbg (components.map fun x => x.1 ++ x.2) i R e = .ok (E.base + k) := by
  rw [E.eq h hb]
  rcases (E.piece.not_boundary (Tri.mem_halfEdges.1 he)).1 hb with ⟨c, hc, hce⟩ | hl
  · exact .inl ⟨c, hc, by rw [E.piece.layout.toHalfEdge]; exact hce, by rw [E.piece.place_connection _ _ hce]⟩
  · refine .inr ⟨e - E.N.vectors.size, ?_, by omega, ?_⟩
    · have := E.piece.size
      have := Tri.mem_halfEdges.1 he
      rw [List.length_map] at *
      omega
    · rw [E.piece.place_inner _ _ hl]
      congr 1; omega

end Embedded

theorem globalHE_inj {keys : List HE} {c d : HE} (hc : c ∈ keys) (hd : d ∈ keys) (h : globalHE keys c = globalHE keys d) : c = d :=
  (counted keys).inj c d _ (globalHE_some hc) (by rw [h]; exact globalHE_some hd)

theorem globalHE_lt {keys : List HE} (hnd : keys.Nodup) (hneg : ∀ c ∈ keys, neg c ∈ keys) {c : HE} (hc : c ∈ keys) :
    globalHE keys c < keys.length := by
  rw [← List.mem_range, ← (globalHE_perm hnd hneg).1.mem_iff]
  exact List.mem_map_of_mem hc

namespace Embedded

variable {dbg : Bool} {i j : ℕ} {R Q : Result T}

theorem lt (h : Decomposition vec v components) (E : Embedded dbg vec components i R) {e : HE}
    (he : e ∈ R.triangulation.tri.halfEdges) (hb : R.triangulation.tri.boundary e = false) :
    ∃ x < halfEdgeCount components, embedding dbg (components.map fun x => x.1 ++ x.2) i R e = .ok x := by
  have hB := E.base_le
  rcases E.cases h he hb with ⟨c, hc, -, h1⟩ | ⟨k, hk, -, h1⟩
  · refine ⟨_, ?_, h1⟩
    have := globalHE_lt h.nodup h.closed (E.sub hc)
    rw [count_eq]
    omega
  · exact ⟨_, by omega, h1⟩

theorem inj (h : Decomposition vec v components) (E : Embedded dbg vec components i R) (F : Embedded dbg vec components j Q) {e f : HE}
    (he : e ∈ R.triangulation.tri.halfEdges) (hb : R.triangulation.tri.boundary e = false)
    (hf : f ∈ Q.triangulation.tri.halfEdges) (hb' : Q.triangulation.tri.boundary f = false)
    (hRQ : i = j → R = Q)
    (hef : embedding dbg (components.map fun x => x.1 ++ x.2) i R e = embedding dbg (components.map fun x => x.1 ++ x.2) j Q f) :
    i = j ∧ e = f := by
  have hbase : ∀ {i : ℕ} {R : Result T} (E : Embedded dbg vec components i R) (c : HE), c ∈ (E.C.1 ++ E.C.2).map Connection.key →
      ∀ {j : ℕ} {R : Result T} (F : Embedded dbg vec components j R) (k : ℕ),
      globalHE ((components.map fun x => x.1 ++ x.2).flatten.map Connection.key) c ≠ F.base + k := by
    intro i R E c hc j R' F k
    have := globalHE_lt h.nodup h.closed (E.sub hc)
    unfold base
    omega
  rcases E.cases h he hb with ⟨c, hc, h0, h1⟩ | ⟨k, hk, h0, h1⟩ <;> rcases F.cases h hf hb' with ⟨d, hd, h0', h2⟩ | ⟨l, hl, h0', h2⟩ <;>
    rw [h1, h2] at hef <;> injection hef with hef
  · have hcd := globalHE_inj (E.sub hc) (F.sub hd) hef
    subst hcd
    have hij := index_eq h E F hc hd
    refine ⟨hij, ?_⟩
    have := hRQ hij
    subst this
    rw [h0] at h0'
    exact Option.some.inj h0'
  · exact (hbase E c hc F l hef).elim
  · exact (hbase F d hd E k hef.symm).elim
  · have hij : i = j := by
      rcases lt_trichotomy i j with hij | hij | hij
      · have := E.base_lt F hij
        omega
      · exact hij
      · have := F.base_lt E hij
        omega
    refine ⟨hij, ?_⟩
    subst hij
    have := hRQ rfl
    subst this
    have hC : E.C = F.C := Option.some.inj (E.get.symm.trans F.get)
    have h3 := E.piece.size
    have h4 := F.piece.size
    rw [hC] at h3
    have : E.base = F.base := rfl
    omega

end Embedded

theorem sum_split {α : Type*} (l : List α) (f : α → ℕ) {x : ℕ} (hx : x < (l.map f).sum) :
    ∃ i a k, l[i]? = some a ∧ k < f a ∧ x = ((l.take i).map f).sum + k := by
  induction l generalizing x with
  | nil => simp at hx
  | cons a l ih =>
    rw [List.map_cons, List.sum_cons] at hx
    by_cases h : x < f a
    · exact ⟨0, a, x, rfl, h, by simp⟩
    · obtain ⟨i, b, k, h1, h2, h3⟩ := ih (x := x - f a) (by omega)
      refine ⟨i + 1, b, k, by simpa using h1, h2, ?_⟩
      rw [List.take_succ_cons, List.map_cons, List.sum_cons]
      omega

theorem embedding_surj (A : Option (Approx T K)) (dbg : Bool) (h : Decomposition vec v components) {x : HE}
    (hx : x < halfEdgeCount components) :
    ∃ (i : ℕ) (C : List Connection × List Connection) (R : Result T) (e : HE), components[i]? = some C ∧
      make A dbg vec v (C.1 ++ C.2) = .ok R ∧ e ∈ R.triangulation.tri.halfEdges ∧ R.triangulation.tri.boundary e = false ∧
      embedding dbg (components.map fun x => x.1 ++ x.2) i R e = .ok x := by
  have hmake : ∀ i C, components[i]? = some C → ∃ R, make A dbg vec v (C.1 ++ C.2) = .ok R ∧
      ∃ E : Embedded dbg vec components i R, E.C = C := by
    intro i C hC
    obtain ⟨R, N, h1, -⟩ := piece_of_perimeter A dbg (h.perimeter C (List.mem_of_getElem? hC)) (h.four C (List.mem_of_getElem? hC))
    exact ⟨R, h1, embedded A dbg h hC h1⟩
  rw [count_eq] at hx
  by_cases hk : x < ((components.map fun x => x.1 ++ x.2).flatten.map Connection.key).length
  · rw [← List.mem_range, ← (globalHE_perm h.nodup h.closed).1.mem_iff] at hk
    obtain ⟨c, hc, rfl⟩ := List.mem_map.1 hk
    obtain ⟨d, hd, rfl⟩ := List.mem_map.1 hc
    obtain ⟨D, hD, hdD⟩ := List.mem_flatten.1 hd
    obtain ⟨C, hC, rfl⟩ := List.mem_map.1 hD
    obtain ⟨i, hi⟩ := List.mem_iff_getElem?.1 hC
    obtain ⟨R, hR, E, rfl⟩ := hmake i C hi
    obtain ⟨e, e1, e2, e3, -⟩ := E.piece.triangulates.side d.key (List.mem_map_of_mem hdD)
    refine ⟨i, _, R, e, hi, hR, e1, e3, ?_⟩
    rw [E.eq h e3, E.piece.place_connection _ _ (by rw [← E.piece.layout.toHalfEdge]; exact e2)]
  · obtain ⟨i, D, k, h1, h2, h3⟩ := sum_split (components.map fun x => x.1 ++ x.2) (fun C => 2 * (C.length - 3))
      (x := x - ((components.map fun x => x.1 ++ x.2).flatten.map Connection.key).length) (by omega)
    rw [List.getElem?_map, Option.map_eq_some_iff] at h1
    obtain ⟨C, hC, rfl⟩ := h1
    obtain ⟨R, hR, E, rfl⟩ := hmake i C hC
    have hs := E.piece.size
    rw [List.length_map] at hs
    have he : E.N.vectors.size + k < R.triangulation.tri.size := by omega
    have hb := (E.piece.not_boundary he).2 (.inr (by omega))
    refine ⟨i, _, R, E.N.vectors.size + k, hC, hR, Tri.mem_halfEdges.2 he, hb, ?_⟩
    rw [E.eq h hb, E.piece.place_inner _ _ (by omega)]
    unfold Embedded.base
    congr 1; omega

end Verif.FlowTriangulation
