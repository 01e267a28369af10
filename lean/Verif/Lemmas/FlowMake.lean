import Verif.Spec.FlowTriangulation
import Verif.Lemmas.FlowCount
import Verif.Lemmas.FlowMerge
import Verif.Lemmas.FlowNumbering
import Verif.Lemmas.Vertical

/-!
# Triangulations of flow components
-/

namespace Verif.FlowTriangulation

open Verif Vec Spec C13

variable {T : Type} [CommRing T] [LinearOrder T] [IsStrictOrderedRing T]
variable {K : Type*} [Field K] [LinearOrder K] [IsStrictOrderedRing K]

/-- The leftmost vertex. -/
def origin : Placed T := ⟨⟨0, true, sentinel⟩, 0⟩

theorem triangulate_spec (A : Option (Approx T K)) (dbg : Bool) {v : Vec T} (hv0 : v ≠ 0) {QB QT : Vec T → Prop}
    {B U : List (Placed T)} {e l : Placed T} {st : State T} (h : Rest (fun p => cross p v) QB QT 0 0 B U e l)
    (hne : ¬ (B = [] ∧ U = []))
    (ho : Ordered v (0 :: (merge (fun a : Placed T => cross a.p v) (B ++ [e]) U).map Placed.p))
    (hv : Valid st.vectors (arcsC 0 (B ++ [e]) ++ arcsC 0 (U ++ [l]))) :
    ∃ st', triangulate A dbg st (origin.v :: (merge (fun a : Placed T => cross a.p v) (B ++ [e]) (U ++ [l])).map Placed.v) = .ok st' ∧
      Done st (arcsC 0 (B ++ [e]) ++ arcsC 0 (U ++ [l])) st' := by
  have hdrop : (merge (fun a : Placed T => cross a.p v) (B ++ [e]) (U ++ [l])).dropLast =
      merge (fun a : Placed T => cross a.p v) (B ++ [e]) U := by
    rw [merge_concat, List.dropLast_concat]
    intro b hb
    rcases List.mem_append.1 hb with hb | hb
    · rw [← h.eq]
      exact (List.pairwise_append.1 h.sortedB).2.2 b hb e (by simp)
    · rw [List.mem_singleton] at hb
      rw [hb, h.eq]
  rw [← hdrop] at ho
  rcases merge_step (fun p => cross p v) B U (e := e) (l := l) (by rw [h.eq]) h.last h.sortedB h.sortedT with
    ⟨hB, hU, -⟩ | ⟨b, B', hB, hle, hm⟩ | ⟨t, U', hU, hlt, hm⟩
  · exact absurd ⟨hB, hU⟩ hne
  · subst hB
    have h' := h.bottomStep (fun p => cross p v) hle
    have hR := merge_length (fun p => cross p v) B' U e l
    have hb : b.v.bottom = true := h.bottom b (by simp)
    have hR0 : merge (fun a : Placed T => cross a.p v) (B' ++ [e]) (U ++ [l]) ≠ [] := by
      intro hx; rw [hx] at hR; simp at hR
    have F : Funnel v true origin [b] [b.p] (merge (fun a : Placed T => cross a.p v) (B' ++ [e]) (U ++ [l])) := by
      refine ⟨by simp, by simp [hb], ?_, ?_, by simp, ?_⟩
      · intro x y z hi
        have := hi.length_le
        simp at this
      · rw [hm, List.dropLast_cons_of_ne_nil hR0] at ho
        exact ho
      · refine (Rest.inside (fun p => cross p v) B' U h').1 [b.p] fun q hq => ?_
        rw [List.mem_singleton] at hq
        subst hq
        exact ⟨h.innerB b (by simp), h.beforeB b (by simp), hle⟩
    have harcs : (arcsC 0 (b :: B' ++ [e]) ++ arcsC 0 (U ++ [l])).Perm (arcsS [origin, b] ++ arcsR true origin.p b.p
        (merge (fun a : Placed T => cross a.p v) (B' ++ [e]) (U ++ [l]))) :=
      .cons _ (arcsR_merge (fun p => cross p v) B' U h').1.symm
    obtain ⟨st', h1, h2⟩ := sweep_spec A dbg hv0 _ F (hv.perm harcs)
    refine ⟨st', ?_, Done.trans (.perm (.refl _ _) harcs) h2⟩
    rw [hm]
    exact h1
  · subst hU
    have h' := h.topStep (fun p => cross p v) hlt
    have hR := merge_length (fun p => cross p v) B U' e l
    have ht : t.v.bottom = false := h.top t (by simp)
    have hR0 : merge (fun a : Placed T => cross a.p v) (B ++ [e]) (U' ++ [l]) ≠ [] := by
      intro hx; rw [hx] at hR; simp at hR
    have F : Funnel v false origin [t] [t.p] (merge (fun a : Placed T => cross a.p v) (B ++ [e]) (U' ++ [l])) := by
      refine ⟨by simp, by simp [ht], ?_, ?_, by simp, ?_⟩
      · intro x y z hi
        have := hi.length_le
        simp at this
      · rw [hm, List.dropLast_cons_of_ne_nil hR0] at ho
        exact ho
      · refine (Rest.inside (fun p => cross p v) B U' h').2 [t.p] fun q hq => ?_
        rw [List.mem_singleton] at hq
        subst hq
        exact ⟨h.innerT t (by simp), h.beforeT t (by simp), hlt⟩
    have harcs : (arcsC 0 (B ++ [e]) ++ arcsC 0 (t :: U' ++ [l])).Perm (arcsS [origin, t] ++ arcsR false origin.p t.p
        (merge (fun a : Placed T => cross a.p v) (B ++ [e]) (U' ++ [l]))) :=
      List.perm_middle.trans (.cons _ (arcsR_merge (fun p => cross p v) B U' h').2.symm)
    obtain ⟨st', h1, h2⟩ := sweep_spec A dbg hv0 _ F (hv.perm harcs)
    refine ⟨st', ?_, Done.trans (.perm (.refl _ _) harcs) h2⟩
    rw [hm]
    exact h1

/-! ### The chain of vertices -/

/-- The vertices along a chain of connections. -/
def place (v : Vec T) (bottom : Bool) (h : HE → HE) (f : HE → Vec T) : Vec T → List HE → List (Placed T)
  | _, [] => []
  | p, c :: cs => ⟨⟨cross (p + f c) v, bottom, h c⟩, p + f c⟩ :: place v bottom h f (p + f c) cs

section place

variable (v : Vec T) (bottom : Bool) (h : HE → HE) (f : HE → Vec T)

omit [LinearOrder T] [IsStrictOrderedRing T] in
theorem place_p (p : Vec T) (cs : List HE) : (place v bottom h f p cs).map Placed.p = walk p (cs.map f) := by
  induction cs generalizing p with
  | nil => rfl
  | cons c cs ih => simp only [place, List.map_cons, walk, ih]

omit [LinearOrder T] [IsStrictOrderedRing T] in
theorem place_length (p : Vec T) (cs : List HE) : (place v bottom h f p cs).length = cs.length := by
  induction cs generalizing p with
  | nil => rfl
  | cons c cs ih => simp [place, ih]

omit [LinearOrder T] [IsStrictOrderedRing T] in
theorem place_mem {p : Vec T} {cs : List HE} {a : Placed T} (ha : a ∈ place v bottom h f p cs) :
    a.v.bottom = bottom ∧ a.v.x = cross a.p v ∧ ∃ c ∈ cs, a.v.halfEdge = h c := by
  induction cs generalizing p with
  | nil => cases ha
  | cons c cs ih =>
    rcases List.mem_cons.1 ha with rfl | ha
    · exact ⟨rfl, rfl, c, by simp, rfl⟩
    · obtain ⟨h1, h2, d, h3, h4⟩ := ih ha
      exact ⟨h1, h2, d, by simp [h3], h4⟩

omit [LinearOrder T] [IsStrictOrderedRing T] in
theorem place_arcs (p : Vec T) (cs : List HE) : (arcsC p (place v bottom h f p cs)).map Arc.he = cs.map h := by
  induction cs generalizing p with
  | nil => rfl
  | cons c cs ih =>
    simp only [place, arcsC, List.map_cons, ih]
    congr 1
    unfold arc
    split_ifs <;> rfl

omit [LinearOrder T] [IsStrictOrderedRing T] in
theorem place_append (p : Vec T) (cs ds : List HE) :
    place v bottom h f p (cs ++ ds) = place v bottom h f p cs ++ place v bottom h f (p + (cs.map f).sum) ds := by
  induction cs generalizing p with
  | nil => simp [place]
  | cons c cs ih => simp only [List.cons_append, place, ih, List.map_cons, List.sum_cons, add_assoc]

theorem place_sorted {p : Vec T} {cs : List HE} (hr : ∀ c ∈ cs, 0 ≤ cross (f c) v) :
    (place v bottom h f p cs).Pairwise (fun a b => cross a.p v ≤ cross b.p v) ∧
      ∀ a ∈ place v bottom h f p cs, cross p v ≤ cross a.p v := by
  induction cs generalizing p with
  | nil => simp [place]
  | cons c cs ih =>
    obtain ⟨h1, h2⟩ := ih (p := p + f c) fun d hd => hr d (by simp [hd])
    have h3 : cross p v ≤ cross (p + f c) v := by
      rw [cross_add_left]; have := hr c (by simp); linarith
    refine ⟨List.pairwise_cons.2 ⟨fun a ha => h2 a ha, h1⟩, fun a ha => ?_⟩
    rcases List.mem_cons.1 ha with rfl | ha
    · exact h3
    · exact h3.trans (h2 a ha)

end place

theorem bottomChain_eq {N : Numbering T} {vec : HE → Vec T} {v : Vec T} : ∀ {B U : List Connection} {p : Vec T},
    (∀ c ∈ B, c.kind ≠ .top) → (∀ c ∈ U.head?, c.kind = .top) → 0 ≤ cross p v → (∀ c ∈ B, 0 ≤ cross (vec c.key) v) →
    bottomChain N vec v (cross p v) (B ++ U) =
      .ok ((place v true (fun c => (N.toHalfEdge c).getD 0) vec p (B.map Connection.key)).map Placed.v)
  | [], [], _, _, _, _, _ => rfl
  | [], u :: U, p, _, hu, _, _ => by
    rw [List.nil_append, bottomChain, if_pos (hu u rfl)]; rfl
  | c :: B, U, p, hB, hU, hp, hr => by
    have h1 : cross p v + cross (vec c.key) v = cross (p + vec c.key) v := (cross_add_left _ _ _).symm
    have h2 : 0 ≤ cross (p + vec c.key) v := by
      rw [cross_add_left]; have := hr c (by simp); linarith
    rw [List.cons_append, bottomChain, if_neg (hB c (by simp))]
    unfold Vertex.make
    simp only [Vertical.projectPerpendicular_eq, h1, ge_iff_le, if_pos h2, bind, Except.bind]
    rw [bottomChain_eq (fun d hd => hB d (by simp [hd])) hU h2 fun d hd => hr d (by simp [hd])]
    rfl

theorem topChain_eq {N : Numbering T} {vec : HE → Vec T} {v : Vec T} {g : HE} : ∀ {U B : List Connection} {p : Vec T},
    (∀ c ∈ U, (N.toHalfEdge c.key).getD 0 ≠ g) → (∀ c ∈ B.head?, (N.toHalfEdge c.key).getD 0 = g) → 0 ≤ cross p v →
    (∀ c ∈ U, cross (vec c.key) v ≤ 0) →
    topChain N vec v g (cross p v) (U ++ B) =
      .ok ((place v false (fun c => (N.toHalfEdge c).getD 0) (fun c => -vec c) p (U.map Connection.key)).map Placed.v)
  | [], [], _, _, _, _, _ => rfl
  | [], u :: U, p, _, hu, _, _ => by
    rw [List.nil_append, topChain]
    simp only [if_pos (hu u rfl)]
    rfl
  | c :: U, B, p, hU, hB, hp, hr => by
    have h1 : cross p v - cross (vec c.key) v = cross (p + -vec c.key) v := by
      rw [cross_add_left, cross_neg_left]; ring
    have h2 : 0 ≤ cross (p + -vec c.key) v := by
      rw [cross_add_left, cross_neg_left]; have := hr c (by simp); linarith
    rw [List.cons_append, topChain]
    unfold Vertex.make
    simp only [if_neg (hU c (by simp)), Vertical.projectPerpendicular_eq, h1, ge_iff_le, if_pos h2, bind, Except.bind]
    rw [topChain_eq (fun d hd => hU d (by simp [hd])) hB h2 fun d hd => hr d (by simp [hd])]
    rfl

/-! ### Monotone polygons -/

theorem links_walk {P : Vec T → Vec T → Prop} : ∀ {ws : List (Vec T)} {p : Vec T}, (∀ s ∈ sides p ws, P s.1 s.2) →
    Links P p (walk p ws)
  | [], _, _ => trivial
  | w :: ws, p, h => ⟨h (p, p + w) (by simp [sides]), links_walk fun s hs => h s (by simp [sides, hs])⟩

theorem place_end (v : Vec T) (bottom : Bool) (h : HE → HE) (f : HE → Vec T) {p : Vec T} {cs : List HE}
    (hr : ∀ c ∈ cs, 0 ≤ cross (f c) v) : cross p v ≤ cross (p + (cs.map f).sum) v ∧
      ∀ a ∈ place v bottom h f p cs, cross a.p v ≤ cross (p + (cs.map f).sum) v := by
  induction cs generalizing p with
  | nil => simp [place]
  | cons c cs ih =>
    obtain ⟨h1, h2⟩ := ih (p := p + f c) fun d hd => hr d (by simp [hd])
    have h3 : cross p v ≤ cross (p + f c) v := by
      rw [cross_add_left]; have := hr c (by simp); linarith
    rw [List.map_cons, List.sum_cons, ← add_assoc]
    refine ⟨h3.trans h1, fun a ha => ?_⟩
    rcases List.mem_cons.1 ha with rfl | ha
    · exact h1
    · exact h2 a ha

/-- The pieces that the algorithm sees. -/
theorem polygon_rest {v : Vec T} {h : HE → HE} {f g : HE → Vec T} {bs us : List HE}
    (hM : MonotonePolygon v (bs.map f) (us.map g)) :
    ∃ (B U : List (Placed T)) (e l : Placed T), place v true h f 0 bs = B ++ [e] ∧ place v false h g 0 us = U ++ [l] ∧
      Rest (fun p => cross p v) (fun q => q ∈ B.map Placed.p) (fun q => q ∈ U.map Placed.p) 0 0 B U e l ∧ ¬ (B = [] ∧ U = []) ∧
      Ordered v (0 :: (merge (fun a : Placed T => cross a.p v) (B ++ [e]) U).map Placed.p) := by
  have hrB : ∀ c ∈ bs, 0 ≤ cross (f c) v := fun c hc =>
    hM.right _ (List.mem_append_left _ (List.mem_map_of_mem hc))
  have hrU : ∀ c ∈ us, 0 ≤ cross (g c) v := fun c hc =>
    hM.right _ (List.mem_append_right _ (List.mem_map_of_mem hc))
  have hbs : bs ≠ [] := by
    rintro rfl
    have h3 := hM.three
    have hc := hM.closed
    rcases List.eq_nil_or_concat us with rfl | ⟨us', u, rfl⟩
    · simp at h3
    · rw [List.concat_eq_append] at *
      have h4 := (place_end v false h g (p := 0) (cs := us') fun c hc => hrU c (by simp [hc])).1
      have h5 := hM.last (g u) (by simp)
      have h6 : cross (0 : Vec T) v = cross (0 + (us'.map g).sum) v + cross (g u) v := by
        rw [← cross_add_left]
        congr 1
        simpa using hc
      linarith
  have hus : us ≠ [] := by
    rintro rfl
    have h3 := hM.three
    have hc := hM.closed
    cases bs with
    | nil => simp at h3
    | cons b bs' =>
      have h4 := (place_end v false h f (p := f b) (cs := bs') fun c hc => hrB c (by simp [hc])).1
      have h5 := hM.left (f b) (by simp)
      have h6 : cross (0 : Vec T) v = cross (f b + (bs'.map f).sum) v := by
        congr 1
        simpa using hc.symm
      have h7 : cross (0 : Vec T) v = 0 := by simp [cross]
      linarith
  obtain ⟨bs', b, rfl⟩ : ∃ M z, bs = M ++ [z] := ⟨_, _, (List.dropLast_append_getLast hbs).symm⟩
  obtain ⟨us', u, rfl⟩ : ∃ M z, us = M ++ [z] := ⟨_, _, (List.dropLast_append_getLast hus).symm⟩
  have eB := place_append v true h f 0 bs' [b]
  have eU := place_append v false h g 0 us' [u]
  have sB := place_sorted v true h f (p := 0) hrB
  have sU := place_sorted v false h g (p := 0) hrU
  have zero : cross (0 : Vec T) v = 0 := by simp [cross]
  have wB := place_p v true h f 0 (bs' ++ [b])
  have wU := place_p v false h g 0 (us' ++ [u])
  set B := place v true h f 0 bs' with hB
  set U := place v false h g 0 us' with hU
  set e : Placed T := ⟨⟨cross (0 + (bs'.map f).sum + f b) v, true, h b⟩, 0 + (bs'.map f).sum + f b⟩ with he
  set l : Placed T := ⟨⟨cross (0 + (us'.map g).sum + g u) v, false, h u⟩, 0 + (us'.map g).sum + g u⟩ with hl
  have eB' : place v true h f 0 (bs' ++ [b]) = B ++ [e] := eB
  have eU' : place v false h g 0 (us' ++ [u]) = U ++ [l] := eU
  rw [eB'] at sB wB
  rw [eU'] at sU wU
  have dB : (walk 0 ((bs' ++ [b]).map f)).dropLast = B.map Placed.p := by
    rw [← wB, List.map_append]; simp
  have dU : (walk 0 ((us' ++ [u]).map g)).dropLast = U.map Placed.p := by
    rw [← wU, List.map_append]; simp
  have hcorners : corners ((bs' ++ [b]).map f) ((us' ++ [u]).map g) = 0 :: ((B ++ [e]) ++ U).map Placed.p := by
    unfold corners
    rw [dU, ← wB, List.map_append (l₁ := B ++ [e]), List.cons_append]
  refine ⟨B, U, e, l, eB', eU', ⟨?_, ?_, ?_, ?_, ?_, sB.1, sU.1, ?_, ?_, ?_, ?_, ?_⟩, ?_, ?_, ?_, ?_⟩
  · intro a ha; rw [← eB'] at ha; exact (place_mem _ _ _ _ ha).1
  · intro a ha; rw [← eU'] at ha; exact (place_mem _ _ _ _ ha).1
  · have := hM.closed
    simp only [List.map_append, List.sum_append, List.map_cons, List.map_nil, List.sum_cons, List.sum_nil, add_zero] at this
    simp only [he, hl, zero_add]
    exact this
  · intro a ha; exact List.mem_map_of_mem ha
  · intro a ha; exact List.mem_map_of_mem ha
  · intro t ht
    have h1 := (place_end v false h g (p := 0) (cs := us') fun c hc => hrU c (by simp [hc])).2 t ht
    have h2 := hM.last (g u) (by simp)
    simp only [hl]
    rw [cross_add_left (0 + (us'.map g).sum)]
    linarith
  · intro t ht; exact sU.2 t ht
  · intro a ha
    rw [← eB'] at ha
    obtain ⟨c, cs, hcs⟩ := List.exists_cons_of_ne_nil hbs
    have h1 := hM.left (f c) (by rw [hcs]; simp)
    rw [hcs] at ha
    have h2 : cross (0 + f c) v ≤ cross a.p v := by
      rcases List.mem_cons.1 ha with rfl | ha
      · exact le_refl _
      · exact (place_sorted v true h f (p := 0 + f c) fun d hd => hrB d (by rw [hcs]; simp [hd])).2 a ha
    rw [zero_add] at h2
    change cross 0 v < _
    rw [zero]
    linarith
  · rw [wB]
    refine links_walk fun s hs q hq h1 h2 h3 => ?_
    have := hM.above s hs (by rw [cross_sub_left]; linarith) q (by rw [dU]; exact hq)
      (by rw [cross_sub_left]; linarith) (by rw [cross_sub_left]; linarith)
    unfold Sees
    simp only [Bool.false_eq_true, if_false]
    rw [cross_comm]; linarith
  · rw [wU]
    refine links_walk fun s hs q hq h1 h2 h3 => ?_
    have := hM.below s hs (by rw [cross_sub_left]; linarith) q (by rw [dB]; exact hq)
      (by rw [cross_sub_left]; linarith) (by rw [cross_sub_left]; linarith)
    unfold Sees
    simp only [if_true]
    rw [cross_comm]; linarith
  · rintro ⟨h1, h2⟩
    have l1 := place_length v true h f 0 bs'
    have l2 := place_length v false h g 0 us'
    rw [← hB, h1] at l1
    rw [← hU, h2] at l2
    have := hM.three
    simp at this l1 l2
    simp [← l1, ← l2] at this
  · rw [List.pairwise_cons]
    constructor
    · intro q hq
      obtain ⟨a, ha, rfl⟩ := List.mem_map.1 hq
      rw [(merge_perm _ _ _).mem_iff] at ha
      rw [sub_zero, ← zero]
      rcases List.mem_append.1 ha with ha | ha
      · exact sB.2 a ha
      · exact sU.2 a (List.mem_append_left _ ha)
    · have := merge_sorted (fun a : Placed T => cross a.p v) sB.1 (List.pairwise_append.1 sU.1).1
      refine List.pairwise_map.2 (this.imp fun hab => ?_)
      rw [cross_sub_left]; linarith
  · have h1 := hM.distinct
    rw [hcorners] at h1
    have h2 : (0 :: (merge (fun a : Placed T => cross a.p v) (B ++ [e]) U).map Placed.p).Perm (0 :: ((B ++ [e]) ++ U).map Placed.p) :=
      .cons _ ((merge_perm _ _ _).map _)
    exact h2.nodup_iff.2 h1
  · intro p q r hs h1 h2
    refine hM.line p q r ?_ h1 h2
    rw [hcorners]
    rw [cross_sub_left] at h1 h2
    have hf : [p, q, r].filter (fun a => cross a v = cross p v) = [p, q, r] := by
      rw [List.filter_eq_self]
      intro a ha
      simp only [List.mem_cons, List.not_mem_nil, or_false] at ha
      simp only [decide_eq_true_eq]
      rcases ha with rfl | rfl | rfl
      · rfl
      · linarith
      · linarith
    have hs' := hs.filter (fun a => decide (cross a v = cross p v))
    rw [hf] at hs'
    have e1 : (0 :: (merge (fun a : Placed T => cross a.p v) (B ++ [e]) U).map Placed.p).filter
        (fun a => decide (cross a v = cross p v)) =
        (0 :: ((B ++ [e]) ++ U).map Placed.p).filter (fun a => decide (cross a v = cross p v)) := by
      have e2 : ((merge (fun a : Placed T => cross a.p v) (B ++ [e]) U).map Placed.p).filter (fun a => decide (cross a v = cross p v)) =
          (((B ++ [e]) ++ U).map Placed.p).filter (fun a => decide (cross a v = cross p v)) := by
        rw [List.filter_map, List.filter_map]
        have := merge_filter (fun a : Placed T => cross a.p v) (cross p v) (U := U) sB.1
        rw [← List.filter_append] at this
        exact congrArg _ this
      rw [List.filter_cons, List.filter_cons, e2]
    rw [e1] at hs'
    exact hs'.trans List.filter_sublist

end Verif.FlowTriangulation
