import Verif.Lemmas.FlowPieces

/-!
# Assembling the triangulations of all flow components
-/

namespace Verif.FlowTriangulation

open Verif Vec Spec C13 FlatTri

variable {T : Type} [CommRing T] [LinearOrder T] [IsStrictOrderedRing T]
variable {K : Type*} [Field K] [LinearOrder K] [IsStrictOrderedRing K]

/-- A closed surface from its faces. -/
theorem surface_of_faces (A : Option (Approx T K)) (dbg : Bool) {F : List (HE × HE × HE)} {n : ℕ} (hn : n % 2 = 0)
    (hp : (halfEdgesOf F).Perm (List.range n)) {V : HE → Vec T} (hodd : ∀ x < n, V (neg x) = -V x)
    (hcl : ∀ f ∈ F, V f.1 + V f.2.1 + V f.2.2 = 0) (hor : ∀ f ∈ F, 0 < cross (V f.1) (V f.2.1)) :
    ∃ C S, Tri.ofFaces dbg F = .ok C ∧ ofFunction A dbg C V = .ok S ∧ C.halfEdges = List.range n ∧ S.tri.Reachable dbg ∧ IsFlat S ∧
      S.vec = V ∧ S.tri.halfEdges = List.range n ∧ (∀ x ∈ S.tri.halfEdges, S.tri.boundary x = false) ∧
      (∀ f ∈ F, IsFace S.tri f.1 f.2.1 f.2.2) ∧ S.area2 = (F.map fun f => cross (V f.1) (V f.2.1)).sum := by
  have h2 : 2 * (n / 2) = n := by omega
  have hP : Proper F (n / 2) := by
    refine ⟨hp.nodup_iff.2 List.nodup_range, fun x => ?_⟩
    rw [hp.mem_iff, hp.mem_iff, List.mem_range, List.mem_range, h2, neg_lt' hn, or_self]
  obtain ⟨C, c1, c2, c3, c4, c5, c6, c7, c8⟩ := ofFaces_correct dbg hP
  rw [h2] at c5
  have hnb : ∀ x ∈ C.halfEdges, C.boundary x = false := by
    intro x hx
    by_contra hb
    rw [Bool.not_eq_false, c7 x hx, hp.mem_iff, ← c5] at hb
    exact hb hx
  have hcorner : ∀ x ∈ C.halfEdges, ∃ y z, IsFace C x y z ∧ V x + V y + V z = 0 ∧ 0 < cross (V x) (V y) := by
    intro x hx
    have hb := hnb x hx
    have hm : x ∈ halfEdgesOf F := by rw [hp.mem_iff, ← c5]; exact hx
    obtain ⟨f, hf, hxf⟩ := mem_halfEdgesOf.1 hm
    obtain ⟨-, -, i3, i4, i5⟩ := c6 f hf
    have h3 := hcl f hf
    have h4 := hor f hf
    have hw : V f.2.2 = -(V f.1 + V f.2.1) := by rw [eq_neg_iff_add_eq_zero, ← h3]; abel
    rcases hxf with rfl | rfl | rfl
    · exact ⟨f.2.1, f.2.2, ⟨hx, hb, i3, i4, i5⟩, h3, h4⟩
    · refine ⟨f.2.2, f.1, ⟨hx, hb, i4, i5, i3⟩, by rw [← h3]; abel, ?_⟩
      rw [hw, cross_neg_right, cross_add_right, cross_self, add_zero, ← cross_comm]; exact h4
    · refine ⟨f.1, f.2.1, ⟨hx, hb, i5, i3, i4⟩, by rw [← h3]; abel, ?_⟩
      rw [hw, cross_neg_left, cross_add_left, cross_self, zero_add, ← cross_comm]; exact h4
  have hflat : IsFlat (⟨C, V⟩ : FlatTri T) := by
    refine ⟨c3, fun e he => hodd e (by rw [c5, List.mem_range] at he; exact he), fun e he hb => ?_, fun e he hb => ?_⟩
    · obtain ⟨y, z, ⟨-, -, e1, e2, -⟩, ht, -⟩ := hcorner e he
      dsimp only
      rw [e1, e2]; exact ht
    · obtain ⟨y, z, ⟨-, -, e1, e2, -⟩, -, ht⟩ := hcorner e he
      dsimp only
      rw [e1]; exact ht
  obtain ⟨S, s1, s2, s3, s4, s5⟩ := (C18.ofFunction_partial A c2 (f := V) hflat.odd).1 hflat
  have hhe : S.tri.halfEdges = List.range n := by rw [s3.halfEdges, c5]
  have hb : ∀ x ∈ S.tri.halfEdges, S.tri.boundary x = false := by
    intro x hx
    rw [s3.boundary]
    exact hnb x (by rw [← s3.halfEdges]; exact hx)
  refine ⟨C, S, c1, s1, c5, s2, s4, s5, hhe, hb, fun f hf => ?_, ?_⟩
  · obtain ⟨i1, i2, i3, i4, i5⟩ := c6 f hf
    exact ⟨by rw [s3.halfEdges]; exact i1, by rw [s3.boundary]; exact i2, (s3.nextInFace _).trans i3, (s3.nextInFace _).trans i4,
      (s3.nextInFace _).trans i5⟩
  · rw [area2_faces (IsFlat.flat s2 s4) hP.1, s5]
    · intro x
      rw [hp.mem_iff, ← hhe]
      constructor
      · intro hx
        exact ⟨Tri.mem_halfEdges.1 hx, hb x hx⟩
      · rintro ⟨hx, -⟩
        exact Tri.mem_halfEdges.2 hx
    · intro f hf
      obtain ⟨i1, i2, i3, i4, i5⟩ := c6 f hf
      exact ⟨(s3.nextInFace f.1).trans i3, (s3.nextInFace f.2.1).trans i4⟩

/-- The entries that are written to the map of vectors. -/
def writes (keys : List HE) : ℕ → List (List Connection × Result T) → List (HE × Vec T)
  | _, [] => []
  | base, x :: L => x.2.triangulation.tri.halfEdges.map (fun e => (if x.2.triangulation.tri.boundary e then sentinel
      else place' keys base (x.1.map Connection.key) x.2 e, x.2.triangulation.vec e)) ++
      writes keys (base + 2 * (x.1.length - 3)) L

/-- The faces of all components. -/
def allFaces (keys : List HE) : ℕ → List (List Connection × Result T) → List (HE × HE × HE)
  | _, [] => []
  | base, x :: L => (x.2.triangulation.tri.facesList.getD []).map (fun f => (place' keys base (x.1.map Connection.key) x.2 f.1,
      place' keys base (x.1.map Connection.key) x.2 f.2.1, place' keys base (x.1.map Connection.key) x.2 f.2.2)) ++
      allFaces keys (base + 2 * (x.1.length - 3)) L

/-- The half edges in the faces of all components and their vectors. -/
def allCorners (keys : List HE) : ℕ → List (List Connection × Result T) → List (HE × Vec T)
  | _, [] => []
  | base, x :: L => (halfEdgesOf (x.2.triangulation.tri.facesList.getD [])).map (fun e =>
      (place' keys base (x.1.map Connection.key) x.2 e, x.2.triangulation.vec e)) ++
      allCorners keys (base + 2 * (x.1.length - 3)) L

omit [LinearOrder T] [IsStrictOrderedRing T] in
theorem embedVectors_eq {dbg : Bool} {components : List (List Connection)} {i : ℕ} {R : Result T} {g : HE → HE}
    (hg : ∀ e, embedding dbg components i R e = .ok (g e)) (es : List HE) (m : HE → Option (Vec T)) :
    embedVectors dbg components i R m es =
      .ok ((es.map fun e => (g e, R.triangulation.vec e)).foldl (fun m p => Function.update m p.1 (some p.2)) m) := by
  induction es generalizing m with
  | nil => rfl
  | cons e es ih => rw [embedVectors, hg]; dsimp only; rw [ih]; rfl

omit [LinearOrder T] [IsStrictOrderedRing T] in
theorem embedFaces_eq {dbg : Bool} {components : List (List Connection)} {i : ℕ} {R : Result T} {g : HE → HE}
    {l : List (HE × HE × HE)} (hg : ∀ f ∈ l, embedding dbg components i R f.1 = .ok (g f.1) ∧
      embedding dbg components i R f.2.1 = .ok (g f.2.1) ∧ embedding dbg components i R f.2.2 = .ok (g f.2.2)) :
    embedFaces dbg components i R l = .ok (l.map fun f => (g f.1, g f.2.1, g f.2.2)) := by
  induction l with
  | nil => rfl
  | cons f l ih =>
    obtain ⟨a, b, c⟩ := f
    obtain ⟨h1, h2, h3⟩ := hg (a, b, c) (by simp)
    dsimp only at h1 h2 h3
    rw [embedFaces, h1, h2, h3, ih fun f hf => hg f (by simp [hf])]
    rfl

/-- The setting: the components of a decomposition and their triangulations. -/
structure Pieces (dbg : Bool) (vec : HE → Vec T) (components : List (List Connection)) : Prop where
  nodup : (components.flatten.map Connection.key).Nodup
  neg : ∀ c ∈ components.flatten.map Connection.key, neg c ∈ components.flatten.map Connection.key
  four : ∀ C ∈ components, 4 ≤ C.length

theorem assemble_eq {dbg : Bool} {vec : HE → Vec T} {components : List (List Connection)} (h : Pieces dbg vec components)
    {pre : List (List Connection)} {L : List (List Connection × Result T)} (hc : components = pre ++ L.map Prod.fst)
    (hL : ∀ x ∈ L, ∃ N, Piece dbg vec (x.1.map Connection.key) N x.2) (m : HE → Option (Vec T)) :
    assemble dbg components pre.length (L.map Prod.snd) m =
      .ok ((writes (components.flatten.map Connection.key) ((components.flatten.map Connection.key).length +
          (pre.map fun C => 2 * (C.length - 3)).sum) L).foldl (fun m p => Function.update m p.1 (some p.2)) m,
        allFaces (components.flatten.map Connection.key) ((components.flatten.map Connection.key).length +
          (pre.map fun C => 2 * (C.length - 3)).sum) L) := by
  induction L generalizing pre m with
  | nil => rfl
  | cons x L ih =>
    obtain ⟨N, hP⟩ := hL x (by simp)
    have hmem : ∀ c ∈ x.1.map Connection.key, c ∈ components.flatten.map Connection.key := by
      intro c hcm
      obtain ⟨d, hd, rfl⟩ := List.mem_map.1 hcm
      refine List.mem_map_of_mem (List.mem_flatten.2 ⟨x.1, ?_, hd⟩)
      rw [hc]; simp
    have htake : components.take pre.length = pre := by rw [hc, List.take_left]
    have hg := hP.embedding_eq h.nodup h.neg h.four hmem (i := pre.length)
    rw [htake] at hg
    obtain ⟨l, l1, l2, l3, l4, l5⟩ := hP.faces (components.flatten.map Connection.key)
      ((components.flatten.map Connection.key).length + (pre.map fun C => 2 * (C.length - 3)).sum)
    have hfaces := embedFaces_eq (dbg := dbg) (components := components) (i := pre.length) (R := x.2) (l := l)
      (g := place' (components.flatten.map Connection.key) ((components.flatten.map Connection.key).length +
        (pre.map fun C => 2 * (C.length - 3)).sum) (x.1.map Connection.key) x.2) (by
      intro f hf
      have hb : ∀ y, y = f.1 ∨ y = f.2.1 ∨ y = f.2.2 → ¬ x.2.triangulation.tri.boundary y = true := by
        intro y hy
        rw [((l4 y).1 (mem_halfEdgesOf.2 ⟨f, hf, hy⟩)).2]; simp
      exact ⟨by rw [hg, if_neg (hb _ (.inl rfl))], by rw [hg, if_neg (hb _ (.inr (.inl rfl)))],
        by rw [hg, if_neg (hb _ (.inr (.inr rfl)))]⟩)
    have hvec := embedVectors_eq hg x.2.triangulation.tri.halfEdges m
    have hlen : (pre ++ [x.1]).length = pre.length + 1 := by simp
    have hsum : (components.flatten.map Connection.key).length + ((pre ++ [x.1]).map fun C => 2 * (C.length - 3)).sum =
        (components.flatten.map Connection.key).length + (pre.map fun C => 2 * (C.length - 3)).sum + 2 * (x.1.length - 3) := by
      rw [List.map_append, List.sum_append]; simp [add_assoc]
    rw [List.map_cons, assemble, hvec, l1]
    dsimp only
    rw [hfaces]
    dsimp only
    have := ih (pre := pre ++ [x.1]) (by rw [hc]; simp) (fun y hy => hL y (by simp [hy]))
      ((x.2.triangulation.tri.halfEdges.map fun e => (if x.2.triangulation.tri.boundary e = true then sentinel
        else place' (components.flatten.map Connection.key) ((components.flatten.map Connection.key).length +
          (pre.map fun C => 2 * (C.length - 3)).sum) (x.1.map Connection.key) x.2 e, x.2.triangulation.vec e)).foldl
        (fun m p => Function.update m p.1 (some p.2)) m)
    rw [hlen, hsum] at this
    rw [this]
    dsimp only
    rw [writes, allFaces, List.foldl_append, l1]
    rfl

theorem halfEdgesOf_map (g : HE → HE) (l : List (HE × HE × HE)) :
    halfEdgesOf (l.map fun f => (g f.1, g f.2.1, g f.2.2)) = (halfEdgesOf l).map g := by
  unfold halfEdgesOf
  induction l with
  | nil => rfl
  | cons f l ih => rw [List.map_cons, List.flatMap_cons, ih, List.flatMap_cons, List.map_append]; rfl

omit [LinearOrder T] [IsStrictOrderedRing T] in
theorem allCorners_fst (keys : List HE) (base : ℕ) (L : List (List Connection × Result T)) :
    (allCorners keys base L).map Prod.fst = halfEdgesOf (allFaces keys base L) := by
  induction L generalizing base with
  | nil => rfl
  | cons x L ih =>
    rw [allCorners, allFaces, List.map_append, ih, halfEdgesOf_append, halfEdgesOf_map, List.map_map]
    rfl

theorem allFaces_perm {dbg : Bool} {vec : HE → Vec T} (keys : List HE) (base : ℕ) {L : List (List Connection × Result T)}
    (hL : ∀ x ∈ L, ∃ N, Piece dbg vec (x.1.map Connection.key) N x.2) :
    (halfEdgesOf (allFaces keys base L)).Perm ((((L.map Prod.fst).flatten.map Connection.key).map (globalHE keys)) ++
      List.range' base (L.map fun x => 2 * (x.1.length - 3)).sum) := by
  induction L generalizing base with
  | nil => simp [allFaces, halfEdgesOf]
  | cons x L ih =>
    obtain ⟨N, hP⟩ := hL x (by simp)
    obtain ⟨l, l1, l2, l3, l4, l5⟩ := hP.faces keys base
    rw [allFaces, halfEdgesOf_append, halfEdgesOf_map, l1]
    have h1 := l5.append (ih (base + 2 * (x.1.length - 3)) fun y hy => hL y (by simp [hy]))
    refine h1.trans ?_
    rw [List.length_map, List.map_cons, List.flatten_cons, List.map_append, List.map_append, List.map_cons, List.sum_cons,
      ← List.range'_append_1]
    have := List.perm_append_comm (l₁ := List.range' base (2 * (x.1.length - 3)))
      (l₂ := ((L.map Prod.fst).flatten.map Connection.key).map (globalHE keys))
    rw [List.append_assoc, List.append_assoc]
    refine List.Perm.append_left _ ?_
    rw [← List.append_assoc, ← List.append_assoc]
    exact this.append_right _

omit [CommRing T] [LinearOrder T] [IsStrictOrderedRing T] in
theorem foldl_update {W : List (HE × Vec T)} {m : HE → Option (Vec T)} {x : HE} {w : Vec T} (hx : m x = some w ∨ ∃ p ∈ W, p.1 = x)
    (hw : ∀ p ∈ W, p.1 = x → p.2 = w) : (W.foldl (fun (m : HE → Option (Vec T)) p => Function.update m p.1 (some p.2)) m) x = some w := by
  induction W generalizing m with
  | nil => rcases hx with hx | ⟨p, hp, -⟩
           · exact hx
           · cases hp
  | cons p W ih =>
    rw [List.foldl_cons]
    refine ih ?_ fun q hq => hw q (by simp [hq])
    by_cases hp : p.1 = x
    · left
      rw [hp, Function.update_self, hw p (by simp) hp]
    · rcases hx with hx | ⟨q, hq, hqx⟩
      · left; rw [Function.update_of_ne (Ne.symm hp)]; exact hx
      · rcases List.mem_cons.1 hq with rfl | hq
        · exact absurd hqx hp
        · exact .inr ⟨q, hq, hqx⟩

theorem mem_writes {dbg : Bool} {vec : HE → Vec T} (keys : List HE) (base : ℕ) {L : List (List Connection × Result T)}
    (hL : ∀ x ∈ L, ∃ N, Piece dbg vec (x.1.map Connection.key) N x.2) (p : HE × Vec T) :
    p ∈ writes keys base L ↔ p ∈ allCorners keys base L ∨ (p.1 = sentinel ∧ ∃ x ∈ L, ∃ e ∈ x.2.triangulation.tri.halfEdges,
      x.2.triangulation.tri.boundary e = true ∧ p.2 = x.2.triangulation.vec e) := by
  induction L generalizing base with
  | nil => simp [writes, allCorners]
  | cons x L ih =>
    obtain ⟨N, hP⟩ := hL x (by simp)
    obtain ⟨l, l1, l2, l3, l4, l5⟩ := hP.faces keys base
    rw [writes, allCorners, List.mem_append, List.mem_append, ih _ fun y hy => hL y (by simp [hy]), l1, List.mem_map, List.mem_map]
    simp only [Option.getD_some, l4, List.mem_cons, exists_eq_or_imp]
    constructor
    · rintro (⟨e, he, rfl⟩ | h1 | h1)
      · by_cases hb : x.2.triangulation.tri.boundary e = true
        · exact .inr ⟨by simp [hb], .inl ⟨e, he, hb, rfl⟩⟩
        · refine .inl (.inl ⟨e, ⟨Tri.mem_halfEdges.1 he, by simpa using hb⟩, by simp [hb]⟩)
      · exact .inl (.inr h1)
      · exact .inr ⟨h1.1, .inr h1.2⟩
    · rintro ((⟨e, ⟨he, hb⟩, rfl⟩ | h1) | ⟨h1, ⟨e, he, hb, h2⟩ | h2⟩)
      · exact .inl ⟨e, Tri.mem_halfEdges.2 he, by simp [hb]⟩
      · exact .inr (.inl h1)
      · refine .inl ⟨e, he, ?_⟩
        rw [if_pos hb]
        exact Prod.ext h1.symm h2.symm
      · exact .inr (.inr ⟨h1, h2⟩)

/-- The faces of all components are triangles. -/
theorem allFaces_triangle {dbg : Bool} {vec : HE → Vec T} (keys : List HE) (base : ℕ) {L : List (List Connection × Result T)}
    (hL : ∀ x ∈ L, ∃ N, Piece dbg vec (x.1.map Connection.key) N x.2) {V : HE → Vec T}
    (hV : ∀ p ∈ allCorners keys base L, V p.1 = p.2) :
    (∀ f ∈ allFaces keys base L, V f.1 + V f.2.1 + V f.2.2 = 0 ∧ 0 < cross (V f.1) (V f.2.1)) ∧
    ((allFaces keys base L).map fun f => cross (V f.1) (V f.2.1)).sum = (L.map fun x => x.2.triangulation.area2).sum := by
  induction L generalizing base with
  | nil => simp [allFaces]
  | cons x L ih =>
    obtain ⟨N, hP⟩ := hL x (by simp)
    obtain ⟨l, l1, l2, l3, l4, l5⟩ := hP.faces keys base
    have hF := IsFlat.flat hP.reachable hP.triangulates.flat
    rw [allCorners, l1] at hV
    obtain ⟨i1, i2⟩ := ih (base + 2 * (x.1.length - 3)) (fun y hy => hL y (by simp [hy]))
      fun p hp => hV p (List.mem_append_right _ hp)
    have hv : ∀ f ∈ l, ∀ y, y = f.1 ∨ y = f.2.1 ∨ y = f.2.2 → V (place' keys base (x.1.map Connection.key) x.2 y) =
        x.2.triangulation.vec y := by
      intro f hf y hy
      exact hV (_, _) (List.mem_append_left _ (List.mem_map.2 ⟨y, mem_halfEdgesOf.2 ⟨f, hf, hy⟩, rfl⟩))
    rw [allFaces, l1]
    refine ⟨fun f hf => ?_, ?_⟩
    · rcases List.mem_append.1 hf with hf | hf
      · obtain ⟨f, hf', rfl⟩ := List.mem_map.1 hf
        replace hf : f ∈ l := hf'
        dsimp only
        rw [hv f hf _ (.inl rfl), hv f hf _ (.inr (.inl rfl)), hv f hf _ (.inr (.inr rfl))]
        obtain ⟨g1, g2, g3⟩ := l2 f hf
        have c1 := hF.closed f.1 g3
        have c2 := hF.oriented f.1 g3
        rw [g1, g2] at c1
        rw [g1] at c2
        exact ⟨c1, c2⟩
      · exact i1 f hf
    · rw [List.map_append, List.sum_append, i2, List.map_cons, List.sum_cons,
        area2_faces hF l3 l4 fun f hf => ⟨(l2 f hf).1, (l2 f hf).2.1⟩, List.map_map]
      congr 2
      refine List.map_congr_left fun f hf => ?_
      dsimp only [Function.comp_apply, Option.getD_some]
      rw [hv f hf _ (.inl rfl), hv f hf _ (.inr (.inl rfl))]

/-- Opposite half edges have opposite vectors. -/
theorem allCorners_cases {dbg : Bool} {vec : HE → Vec T} {keys : List HE} (base : ℕ) (hb : base % 2 = 0)
    {L : List (List Connection × Result T)} (hL : ∀ x ∈ L, ∃ N, Piece dbg vec (x.1.map Connection.key) N x.2) {p : HE × Vec T} :
    p ∈ allCorners keys base L →
      (∃ c ∈ (L.map Prod.fst).flatten.map Connection.key, p = (globalHE keys c, vec c)) ∨
      (neg p.1, -p.2) ∈ allCorners keys base L := by
  induction L generalizing base with
  | nil => intro hp; cases hp
  | cons x L ih =>
    obtain ⟨N, hP⟩ := hL x (by simp)
    obtain ⟨l, l1, l2, l3, l4, l5⟩ := hP.faces keys base
    have hF := IsFlat.flat hP.reachable hP.triangulates.flat
    rw [allCorners, l1]
    intro hp
    rcases List.mem_append.1 hp with hp | hp
    · obtain ⟨e, he, rfl⟩ := List.mem_map.1 hp
      obtain ⟨g1, g2⟩ := (l4 e).1 he
      rcases (hP.not_boundary g1).1 g2 with ⟨c, hc, hx⟩ | g3
      · refine .inl ⟨c, ?_, ?_⟩
        · rw [List.map_cons, List.flatten_cons, List.map_append]
          exact List.mem_append_left _ hc
        · rw [hP.place_connection keys base hx]
          obtain ⟨e', h1, h2, h3, h4⟩ := hP.triangulates.side c hc
          rw [hP.layout.toHalfEdge, hx] at h2
          cases h2
          rw [h4]
      · right
        have he2 := hP.numbered.ok.even
        have hn1 : neg e < x.2.triangulation.tri.size := (neg_lt' hF.coh.even e).2 g1
        have hn2 : N.vectors.size ≤ neg e := by
          by_contra hlt
          have := (neg_lt' he2 e).1 (not_le.1 hlt)
          omega
        refine List.mem_append_left _ (List.mem_map.2 ⟨neg e, (l4 _).2 ⟨hn1, (hP.not_boundary hn1).2 (.inr hn2)⟩, ?_⟩)
        rw [hP.place_inner keys base hn2, hP.place_inner keys base g3, hF.odd e g1]
        congr 1
        rw [neg_def, neg_def]
        split_ifs <;> omega
    · rcases ih _ (by omega) (fun y hy => hL y (by simp [hy])) hp with ⟨c, hc, h1⟩ | h1
      · refine .inl ⟨c, ?_, h1⟩
        rw [List.map_cons, List.flatten_cons, List.map_append]
        exact List.mem_append_right _ hc
      · exact .inr (List.mem_append_right _ h1)

/-- Each connection is a half edge. -/
theorem allCorners_connection {dbg : Bool} {vec : HE → Vec T} {keys : List HE} (base : ℕ)
    {L : List (List Connection × Result T)} (hL : ∀ x ∈ L, ∃ N, Piece dbg vec (x.1.map Connection.key) N x.2) {c : HE}
    (hc : c ∈ (L.map Prod.fst).flatten.map Connection.key) : (globalHE keys c, vec c) ∈ allCorners keys base L := by
  induction L generalizing base with
  | nil => simp at hc
  | cons x L ih =>
    obtain ⟨N, hP⟩ := hL x (by simp)
    obtain ⟨l, l1, l2, l3, l4, l5⟩ := hP.faces keys base
    rw [List.map_cons, List.flatten_cons, List.map_append, List.mem_append] at hc
    rw [allCorners, l1]
    rcases hc with hc | hc
    · obtain ⟨e, h1, h2, h3, h4⟩ := hP.triangulates.side c hc
      rw [hP.layout.toHalfEdge] at h2
      refine List.mem_append_left _ (List.mem_map.2 ⟨e, (l4 e).2 ⟨Tri.mem_halfEdges.1 h1, h3⟩, ?_⟩)
      rw [hP.place_connection keys base h2, h4]
    · exact List.mem_append_right _ (ih _ (fun y hy => hL y (by simp [hy])) hc)

end Verif.FlowTriangulation
