import Verif.Lemmas.FlowSweep

/-!
# The loop that triangulates monotone polygons
-/

namespace Verif.FlowTriangulation

open Verif Vec

variable {T : Type} [CommRing T] [LinearOrder T] [IsStrictOrderedRing T]
variable {K : Type*} [Field K] [LinearOrder K] [IsStrictOrderedRing K]

/-- Of the vertices in the list, the ones on one chain are strictly on the correct side of the half edges of the other chain that
are above or below. The last vertex on the opposite chain is `v0`, the last vertex on this chain is `vk`, the vertices since `v0` are
`pend`. -/
def Inside (side : Bool) (v0 vk : Vec T) (pend : List (Vec T)) : List (Placed T) → Prop
  | [] => False
  | [_] => False
  | [u, l] => u.v.bottom = true ∧ l.v.bottom = false ∧ u.p = l.p ∧ ∀ q ∈ pend, Sees side v0 q u.p
  | u :: w :: x :: R =>
    if u.v.bottom = side then Inside side v0 u.p (u.p :: pend) (w :: x :: R)
    else (∀ q ∈ pend, Sees side v0 q u.p) ∧ Inside (!side) vk u.p [u.p] (w :: x :: R)

theorem allSee {v : Vec T} (hv : v ≠ 0) {side : Bool} {u : Vec T} {L : List (Placed T)} :
    ∀ {a : Placed T}, (∀ x y z, [x, y, z].IsInfix (a :: L) → Bend side x.p y.p z.p) →
    Ordered v ((a :: L).map Placed.p ++ [u]) → (∀ q ∈ L.head?, Sees side a.p q.p u) → AllSee side u (a :: L) := by
  induction L with
  | nil => intro a _ _ _; exact List.isChain_singleton _
  | cons b L ih =>
    intro a hb ho hs
    have h1 := hs b rfl
    refine List.isChain_cons_cons.2 ⟨h1, ih (fun x y z hi => hb x y z (hi.trans (List.suffix_cons _ _).isInfix))
      (ho.sub (List.sublist_cons_self _ _)) fun q hq => ?_⟩
    cases L with
    | nil => cases hq
    | cons c L =>
      cases hq
      refine h1.step hv (hb a b q ⟨[], L, rfl⟩) (ho.sub ?_)
      simp only [List.map_cons, List.cons_append]
      exact ((List.nil_sublist _).append (List.Sublist.refl [u])).cons_cons _ |>.cons_cons _ |>.cons_cons _

/-- What holds whenever the loop starts over. -/
structure Funnel (v : Vec T) (side : Bool) (v0 : Placed T) (L : List (Placed T)) (pend : List (Vec T)) (R : List (Placed T)) :
    Prop where
  nonempty : L ≠ []
  flag : ∀ b ∈ L, b.v.bottom = side
  reflex : ∀ x y z, [x, y, z].IsInfix (v0 :: L) → Bend side x.p y.p z.p
  ordered : Ordered v ((v0 :: L).map Placed.p ++ R.dropLast.map Placed.p)
  pending : ∀ b ∈ L, b.p ∈ pend
  inside : Inside side v0.p (L.getLast nonempty).p pend R

omit [CommRing T] [LinearOrder T] [IsStrictOrderedRing T] in
theorem infix_concat {S : List (Placed T)} {P : Placed T → Placed T → Placed T → Prop} {u : Placed T}
    (h1 : ∀ x y z, [x, y, z].IsInfix S → P x y z) (h2 : ∀ x y, [x, y].IsSuffix S → P x y u) :
    ∀ x y z, [x, y, z].IsInfix (S ++ [u]) → P x y z := by
  intro x y z h
  rw [List.infix_concat_iff] at h
  rcases h with h | h
  · have h' : [x, y] ++ [z] <:+ S ++ [u] := h
    obtain ⟨e1, e2⟩ := (List.suffix_append_inj_of_length_eq (s₁ := [z]) (s₂ := [u]) rfl).1 h'
    cases e2
    exact h2 x y e1
  · exact h1 x y z h

omit [CommRing T] [LinearOrder T] [IsStrictOrderedRing T] in
theorem getLast_map_v {S : List (Placed T)} (h : S ≠ []) : (S.map Placed.v).getLast? = some (S.getLast h).v := by
  rw [List.getLast?_map, List.getLast?_eq_some_getLast h]
  rfl

omit [CommRing T] [LinearOrder T] [IsStrictOrderedRing T] in
theorem reverse_form (v0 : Placed T) {L : List (Placed T)} (hL : L ≠ []) : ∃ w S, (v0 :: L).reverse = L.getLast hL :: w :: S ∧
    (w :: S).getLast (List.cons_ne_nil _ _) = v0 ∧ (L.getLast hL :: w :: S).dropLast = L.reverse := by
  obtain ⟨M, z, rfl⟩ : ∃ M z, L = M ++ [z] := ⟨_, _, (List.dropLast_append_getLast hL).symm⟩
  obtain ⟨w, S, hw⟩ : ∃ w S, (v0 :: M).reverse = w :: S := List.exists_cons_of_ne_nil (by simp)
  have hl : (M ++ [z]).getLast hL = z := by simp
  have hrev : (v0 :: (M ++ [z])).reverse = z :: w :: S := by
    rw [← List.cons_append, List.reverse_append, hw]; rfl
  refine ⟨w, S, by rw [hl, hrev], ?_, ?_⟩
  · have : (w :: S).getLast? = some v0 := by
      rw [← hw]; simp
    rw [List.getLast?_eq_some_getLast (List.cons_ne_nil _ _)] at this
    exact Option.some.inj this
  · rw [hl, ← hrev, List.reverse_cons, List.dropLast_concat]

theorem sweep_spec (A : Option (Approx T K)) (dbg : Bool) {v : Vec T} (hv0 : v ≠ 0) : ∀ (R : List (Placed T)) {side : Bool}
    {v0 : Placed T} {L : List (Placed T)} {pend : List (Vec T)} {st : State T} (F : Funnel v side v0 L pend R),
    Valid st.vectors (arcsS (v0 :: L) ++ arcsR side v0.p (L.getLast F.nonempty).p R) →
    ∃ st', sweep A dbg st ((v0 :: L).map Placed.v) (R.map Placed.v) = .ok st' ∧
      Done st (arcsS (v0 :: L) ++ arcsR side v0.p (L.getLast F.nonempty).p R) st'
  | [], _, _, _, _, _, F, _ => F.inside.elim
  | [_], _, _, _, _, _, F, _ => F.inside.elim
  | [u, l], side, v0, L, pend, st, F, hv => by
    obtain ⟨hu, hl, hp, hs⟩ := F.inside
    have hall : AllSee side u.p (v0 :: L) := by
      refine allSee hv0 F.reflex F.ordered fun q hq => hs _ (F.pending q (List.mem_of_mem_head? hq))
    have hlast : (v0 :: L).getLast (List.cons_ne_nil _ _) = L.getLast F.nonempty := List.getLast_cons F.nonempty
    have hlen : ¬ (dbg = true ∧ ¬ 2 ≤ ((v0 :: L).map Placed.v).length) := by
      rintro ⟨-, h2⟩
      have := List.length_pos_iff.2 F.nonempty
      rw [List.length_map, List.length_cons] at h2
      omega
    cases side
    · -- the last vertex is opposite of the funnel
      have e1 : arcsR false v0.p (L.getLast F.nonempty).p [u, l] = [arc v0.p u, ⟨l.v.halfEdge, u.p, (L.getLast F.nonempty).p⟩] := by
        simp [arcsR, hu, hl, arc, hp]
      rw [e1] at hv ⊢
      obtain ⟨b, S, rfl⟩ := List.exists_cons_of_ne_nil F.nonempty
      obtain ⟨st', ⟨u', S'⟩, h1, h2, h3⟩ := opposite_final A dbg hl F.flag hu hall hv
      refine ⟨st', ?_, h3⟩
      obtain ⟨front, S'', hS⟩ := List.exists_cons_of_ne_nil h2
      dsimp only at hS
      subst hS
      change sweep A dbg st (List.map Placed.v (v0 :: b :: S)) [u.v, l.v] = _
      unfold sweep advance
      rw [if_pos rfl, if_neg hlen, getLast_map_v (List.cons_ne_nil _ _)]
      dsimp only
      rw [hlast, if_pos (by rw [F.flag _ (List.getLast_mem _), hu]; decide), h1]
      rfl
    · -- the last vertex is on the same side
      have e1 : arcsR true v0.p (L.getLast F.nonempty).p [u, l] = [arc (L.getLast F.nonempty).p u, ⟨l.v.halfEdge, u.p, v0.p⟩] := by
        simp [arcsR, hu, hl, arc, hp]
      rw [e1] at hv ⊢
      obtain ⟨w, S, r1, r2, r3⟩ := reverse_form v0 F.nonempty
      have hperm : (arcsS (v0 :: L)).Perm (arcsB (L.getLast F.nonempty :: w :: S)) := by
        have := arcsS_reverse (L.getLast F.nonempty :: w :: S)
        rwa [← r1, List.reverse_reverse, r1] at this
      have hp2 : (arcsS (v0 :: L) ++ [arc (L.getLast F.nonempty).p u, ⟨l.v.halfEdge, u.p, v0.p⟩]).Perm
          (arcsB (L.getLast F.nonempty :: w :: S) ++ [arc (L.getLast F.nonempty).p u, ⟨l.v.halfEdge, u.p, v0.p⟩]) :=
        hperm.append_right _
      have hch : (L.getLast F.nonempty :: w :: S).IsChain fun b a => Sees true a.p b.p u.p := by
        rw [← r1]
        exact List.isChain_reverse.2 hall
      obtain ⟨st', r, h1, h2⟩ := same_final A dbg hl (v := L.getLast F.nonempty) (w := w) (S := S) (u := u) (st := st)
        (by rw [r3]; exact fun b hb => F.flag b (List.mem_reverse.1 hb)) hu hch (by rw [r2]; exact hv.perm hp2)
      refine ⟨st', ?_, Done.trans (Clips.perm (.refl _ _) hp2) (by rw [r2] at h2; exact h2)⟩
      obtain ⟨u', S'⟩ := r
      change sweep A dbg st (List.map Placed.v (v0 :: L)) [u.v, l.v] = _
      unfold sweep advance
      rw [if_pos rfl, if_neg hlen, getLast_map_v (List.cons_ne_nil _ _)]
      dsimp only
      rw [hlast, if_neg (by rw [F.flag _ (List.getLast_mem _), hu]; decide), ← List.map_reverse, r1, h1]
      rfl
  | u :: w :: x :: R, side, v0, L, pend, st, F, hv => by
    have hlast : (v0 :: L).getLast (List.cons_ne_nil _ _) = L.getLast F.nonempty := List.getLast_cons F.nonempty
    have hlen : ¬ (dbg = true ∧ ¬ 2 ≤ ((v0 :: L).map Placed.v).length) := by
      rintro ⟨-, h2⟩
      have := List.length_pos_iff.2 F.nonempty
      rw [List.length_map, List.length_cons] at h2
      omega
    have hin := F.inside
    have hord := F.ordered
    rw [List.dropLast_cons_of_ne_nil (List.cons_ne_nil _ _), List.map_cons] at hord
    unfold Inside at hin
    have hstart : ∀ {st1 : State T} {S1 : List (Vertex T)} {st'}, advance A dbg none st ((v0 :: L).map Placed.v) u.v = .ok (st1, S1) →
        sweep A dbg st1 S1 ((w :: x :: R).map Placed.v) = .ok st' →
        sweep A dbg st ((v0 :: L).map Placed.v) ((u :: w :: x :: R).map Placed.v) = .ok st' := by
      intro st1 S1 st' h1 h2
      simp only [List.map_cons] at h1 h2 ⊢
      rw [sweep, if_neg (by simp), h1]
      exact h2
    by_cases hu : u.v.bottom = side
    · rw [if_pos hu] at hin
      have e1 : arcsR side v0.p (L.getLast F.nonempty).p (u :: w :: x :: R) =
          arc (L.getLast F.nonempty).p u :: arcsR side v0.p u.p (w :: x :: R) := by rw [arcsR, if_pos hu]
      rw [e1] at hv ⊢
      obtain ⟨w', S, r1, r2, r3⟩ := reverse_form v0 F.nonempty
      have hperm : (arcsS (v0 :: L)).Perm (arcsB (L.getLast F.nonempty :: w' :: S)) := by
        have := arcsS_reverse (L.getLast F.nonempty :: w' :: S)
        rwa [← r1, List.reverse_reverse, r1] at this
      have hp2 := hperm.append_right (arc (L.getLast F.nonempty).p u :: arcsR side v0.p u.p (w :: x :: R))
      obtain ⟨st1, u1, q, S', h1, h2, h3, h4, h5, h6⟩ := same_spec A dbg (side := side) (v := L.getLast F.nonempty) (w := w')
        (S := S) (u := u) (st := st) (by rw [r3]; exact fun b hb => F.flag b (List.mem_reverse.1 hb)) hu (hv.perm hp2)
      have hpre : (q :: S').reverse <+: v0 :: L := by
        have := List.reverse_prefix.2 h2
        rwa [← r1, List.reverse_reverse] at this
      obtain ⟨L', hL'⟩ : ∃ L', (q :: S').reverse = v0 :: L' := by
        obtain ⟨t, ht⟩ := hpre
        obtain ⟨y, L', hy⟩ := List.exists_cons_of_ne_nil (l := (q :: S').reverse) (by simp)
        rw [hy, List.cons_append] at ht
        cases ht
        exact ⟨L', hy⟩
      rw [hL'] at hpre
      have hpre' : L' <+: L := (List.cons_prefix_cons.1 hpre).2
      have hadv : advance A dbg none st ((v0 :: L).map Placed.v) u.v = .ok (st1, (v0 :: (L' ++ [u1])).map Placed.v) := by
        unfold advance
        rw [if_neg hlen, getLast_map_v (List.cons_ne_nil _ _)]
        dsimp only
        rw [hlast, if_neg (by rw [F.flag _ (List.getLast_mem _), hu]; simp), ← List.map_reverse, r1, h1]
        simp only [bind, Except.bind, pure, Except.pure]
        rw [← List.map_reverse, hL', ← List.cons_append, List.map_append]
        rfl
      have hmap : (v0 :: (L' ++ [u1])).map Placed.p = (v0 :: L').map Placed.p ++ [u.p] := by
        rw [← List.cons_append, List.map_append, List.map_singleton, h3]
      have F' : Funnel v side v0 (L' ++ [u1]) (u.p :: pend) (w :: x :: R) := by
        refine ⟨by simp, ?_, ?_, ?_, ?_, ?_⟩
        · intro b hb
          rcases List.mem_append.1 hb with hb | hb
          · exact F.flag b (hpre'.subset hb)
          · rw [List.mem_singleton] at hb
            rw [hb, h4, hu]
        · rw [← List.cons_append]
          refine infix_concat (fun a b c hi => F.reflex a b c (hi.trans hpre.isInfix)) fun a b hs => ?_
          rw [← hL', ← List.reverse_prefix, List.reverse_reverse] at hs
          have hs' : [b, a] <+: q :: S' := hs
          obtain ⟨rfl, hs''⟩ := List.cons_prefix_cons.1 hs'
          rw [h3]
          refine h6 a ?_
          obtain ⟨t, ht⟩ := hs''
          rw [← ht]; rfl
        · rw [hmap, List.append_assoc]
          exact hord.sub ((hpre.sublist.map _).append (List.Sublist.refl _))
        · intro b hb
          rcases List.mem_append.1 hb with hb | hb
          · exact List.mem_cons_of_mem _ (F.pending b (hpre'.subset hb))
          · rw [List.mem_singleton] at hb
            rw [hb, h3]; exact List.mem_cons_self
        · simpa [h3] using hin
      have hgl : ((L' ++ [u1]).getLast F'.nonempty).p = u.p := by simp [h3]
      have harcs : (arcsB (q :: S') ++ arc q.p u1 :: arcsR side v0.p u.p (w :: x :: R)).Perm
          (arcsS (v0 :: (L' ++ [u1])) ++ arcsR side v0.p u.p (w :: x :: R)) := by
        have e : v0 :: (L' ++ [u1]) = S'.reverse ++ [q, u1] := by
          rw [← List.cons_append, ← hL']; simp
        have e2 := arcsS_reverse (q :: S')
        rw [List.reverse_cons] at e2
        rw [e, arcsS_concat, List.append_assoc]
        exact (e2.symm.append_right _)
      have c1 := ((Clips.perm (.refl st _) hp2).trans h5).perm harcs
      obtain ⟨st', g1, g2⟩ := sweep_spec A dbg hv0 (w :: x :: R) F' (by rw [hgl]; exact c1.valid hv)
      rw [hgl] at g2
      exact ⟨st', hstart hadv g1, Done.trans c1 g2⟩
    · rw [if_neg hu] at hin
      have hu' : u.v.bottom = !side := by
        revert hu; cases u.v.bottom <;> cases side <;> simp
      have e1 : arcsR side v0.p (L.getLast F.nonempty).p (u :: w :: x :: R) =
          arc v0.p u :: arcsR (!side) (L.getLast F.nonempty).p u.p (w :: x :: R) := by rw [arcsR, if_neg hu]
      rw [e1] at hv ⊢
      have hall : AllSee side u.p (v0 :: L) := by
        refine allSee hv0 F.reflex (hord.sub ?_) fun q hq => hin.1 _ (F.pending q (List.mem_of_mem_head? hq))
        exact (List.Sublist.refl _).append (List.singleton_sublist.2 List.mem_cons_self)
      obtain ⟨st1, u1, h1, h2, h3, h4⟩ := opposite_spec A dbg F.flag hu' hall hv
      rw [hlast] at h1 h4
      have hadv : advance A dbg none st ((v0 :: L).map Placed.v) u.v =
          .ok (st1, ((⟨{ (L.getLast F.nonempty).v with halfEdge := sentinel }, (L.getLast F.nonempty).p⟩ : Placed T) :: [u1]).map
            Placed.v) := by
        unfold advance
        rw [if_neg hlen, getLast_map_v (List.cons_ne_nil _ _)]
        dsimp only
        rw [hlast, if_pos (by rw [F.flag _ (List.getLast_mem _), hu']; cases side <;> simp), h1]
        rfl
      have F' : Funnel v (!side) ⟨{ (L.getLast F.nonempty).v with halfEdge := sentinel }, (L.getLast F.nonempty).p⟩ [u1] [u.p]
          (w :: x :: R) := by
        refine ⟨by simp, ?_, ?_, ?_, ?_, ?_⟩
        · intro b hb
          rw [List.mem_singleton] at hb
          rw [hb, h3, hu']
        · intro a b c hi
          have := hi.length_le
          simp at this
        · have e : List.map Placed.p [(⟨{ (L.getLast F.nonempty).v with halfEdge := sentinel }, (L.getLast F.nonempty).p⟩ : Placed T), u1]
              = [(L.getLast F.nonempty).p] ++ [u.p] := by simp [h2]
          rw [e, List.append_assoc]
          refine hord.sub (List.Sublist.append ?_ (List.Sublist.refl _))
          rw [List.singleton_sublist]
          exact List.mem_map_of_mem (List.mem_cons_of_mem _ (List.getLast_mem _))
        · intro b hb
          rw [List.mem_singleton] at hb
          rw [hb, h2]; exact List.mem_singleton_self _
        · simpa [h2] using hin.2
      have harcs : (arc (L.getLast F.nonempty).p u1 :: arcsR (!side) (L.getLast F.nonempty).p u.p (w :: x :: R)) =
          arcsS [(⟨{ (L.getLast F.nonempty).v with halfEdge := sentinel }, (L.getLast F.nonempty).p⟩ : Placed T), u1] ++
            arcsR (!side) (L.getLast F.nonempty).p u1.p (w :: x :: R) := by rw [h2]; rfl
      rw [harcs] at h4
      obtain ⟨st', g1, g2⟩ := sweep_spec A dbg hv0 (w :: x :: R) F' (h4.valid hv)
      exact ⟨st', hstart hadv g1, Done.trans h4 g2⟩

end Verif.FlowTriangulation
