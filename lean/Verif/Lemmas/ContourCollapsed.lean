import Verif.Lemmas.ContourSum

/-!
# Contours of collapsed surfaces
-/

set_option linter.unusedSectionVars false

namespace Verif.Collapsed

open Spec Contour Vertical Flow Vec

variable {T : Type} [CommRing T] [LinearOrder T] [IsStrictOrderedRing T]
variable {K : Type*} [Field K] [LinearOrder K] [IsStrictOrderedRing K]
variable {C : Collapsed T} {A : Option (Approx T K)} {dbg : Bool} {d : Component} {fuel : ℕ}
variable (h : C.Good) (hu : C.Upright) (hV : C.tri.VertexesOk)

include h hV in
theorem chain_source {l : List HE} {x y : HE} (hc : Turns C l) (hx : l.head? = some (neg x)) (hy : l.getLast? = some y)
    (hl : ∀ z ∈ l, z < C.tri.size) : C.tri.source (neg x) = C.tri.source y := by
  obtain ⟨s, t, k1, k2, k3⟩ := same_iff h.linked.hv hV (hl _ (List.mem_of_mem_head? hx)) (hl _ (List.mem_of_getLast? hy))
  have hm := meets h hV hc hx hy hl true
  refine h.same_source hV ((orb_iff h.linked.hv).2 (k3.1 ?_))
  unfold assertMeets at hm
  simp only [if_true, chained, k1, k2] at hm
  by_contra k
  rw [if_neg k] at hm
  simp at hm

theorem _root_.Verif.Flow.Gaps.gap {n : ℕ} {nx : HE → HE} {p : HE → T} {t : List HE} {g : List (List HE × List HE)} (hg : Gaps n nx p t g) (i : ℕ)
    (hi : i + 1 < t.length) : ∃ s, Gap n nx p t[i] t[i + 1] s := by
  induction hg generalizing i with
  | single x => simp at hi
  | @cons x y t s g k1 k2 ih =>
    cases i with
    | zero => exact ⟨s, k1⟩
    | succ i => exact ih i (by simpa using hi)

variable {mu md a b a' b' : List HE} {g g' : List (List HE × List HE)}

include h hu hV in
theorem Frame.source (F : Frame C d mu md a b g a' b' g') {x y : HE} (hxy : Follows d.perimeter x y) :
    C.tri.source (neg x) = C.tri.source y := by
  have hr : OK C.tri.size C.tri.nextInFace C.tri.previousInFace (across C) := (h.ready hu).ok
  obtain ⟨su, sd⟩ := F.both h hu
  have hb := sd.gaps.ne_nil
  have ht := su.gaps.ne_nil
  have un : ∀ a b : List HE, (∀ z ∈ a, z < C.tri.size) → (∀ z ∈ b, z < C.tri.size) → ∀ z ∈ a ++ b, z < C.tri.size := by
    intro a b ha hb z hz
    rcases List.mem_append.1 hz with k | k
    · exact ha z k
    · exact hb z k
  have gapped : ∀ (p : HE → T) x y s, Gap C.tri.size C.tri.nextInFace p x y s → C.tri.source (neg x) = C.tri.source y := by
    intro p x y s hs
    exact chain_source h hV hs.chain (append_head hs.start) (append_getLast hs.stop) (un _ _ hs.first.lt hs.second.lt)
  have up' : Rise C.tri.size C.tri.nextInFace (fun e => - -across C e) b := by simpa only [neg_neg] using su.down
  obtain ⟨xb, xb1, xb2⟩ := sd.a_head
  obtain ⟨xt, xt1, xt2⟩ := su.a_head
  obtain ⟨yb, yb1, yb2⟩ := sd.b_last
  obtain ⟨yt, yt1, yt2⟩ := su.b_last
  rcases follows_cases hb ht hxy with ⟨rfl, rfl⟩ | ⟨rfl, rfl⟩ | ⟨i, hi, rfl, rfl⟩ | ⟨i, hi, rfl, rfl⟩
  · rw [List.getLast?_eq_some_getLast hb] at xb1
    rw [List.head?_eq_some_head ht] at yt1
    rcases F.size_cases h hu with ⟨k1, -, k2, k3, k4, k5, k6, k7⟩ | ⟨-, l1, l2, l3, l4⟩
    · simp [k6, k7]
    · obtain ⟨p1, -⟩ := Rise.peak (OK.reverse hr) sd.up up' sd.a_last su.b_head l3
      cases xb1
      cases yt1
      exact chain_source h hV p1 (append_head xb2) (append_getLast (tail_getLast yt2 l2))
        (un _ _ sd.up.lt fun z hz => su.down.lt z (List.mem_of_mem_tail hz))
  · rw [List.getLast?_eq_some_getLast ht] at xt1
    rw [List.head?_eq_some_head hb] at yb1
    rcases F.size_cases h hu with ⟨k1, -, k2, k3, k4, k5, k6, k7⟩ | ⟨-, l1, l2, l3, l4⟩
    · simp [k6, k7, neg_neg']
    · have bh := sd.b_head
      rw [neg_neg'] at bh
      obtain ⟨p1, -⟩ := Rise.peak hr su.up sd.down su.a_last bh l1
      cases xt1
      cases yb1
      exact chain_source h hV p1 (append_head xt2) (append_getLast (tail_getLast yb2 l4))
        (un _ _ su.up.lt fun z hz => sd.down.lt z (List.mem_of_mem_tail hz))
  · obtain ⟨s, hs⟩ := sd.gaps.gap i hi
    exact gapped _ _ _ s hs
  · obtain ⟨s, hs⟩ := su.gaps.gap i hi
    exact gapped _ _ _ s hs

include h in
theorem Good.wedge_nonneg {z : HE} (hz : z < C.tri.size) : 0 ≤ C.net.wedge z := by
  have e1 : C.net.wedge z = ((C.cross z).map fun k => Vec.cross k (C.vec z)).sum := (sum_cross _ _).symm
  rw [e1]
  refine List.sum_nonneg fun x hx => ?_
  obtain ⟨k, hk, rfl⟩ := List.mem_map.1 hx
  exact (conn_area h.v0 (h.inv.vert z (mem_net.2 hz) k hk)).le

include h in
theorem Good.corner_nonneg {z : HE} (hz : z < C.tri.size) : 0 ≤ C.net.corner z := by
  rcases h.inv.face z (mem_net.2 hz) with ht | ht
  · rw [show C.net.corner z = Vec.cross (C.net.vec z) (C.net.vec (C.net.f z)) from if_neg ht.ne.2]
    exact ht.2.2.le
  · rw [show C.net.corner z = 0 from if_pos (by rw [ht.1]; exact ht.2.1)]

variable {lu ld : List HE} (hf : C.tri.size ≤ fuel)

/-- What is known about the perimeters of the components. -/
structure Loop (A : Option (Approx T K)) (dbg : Bool) (C : Collapsed T) (fuel : ℕ) (d : Component) (P : List (Vec T)) : Prop where
  ok : perimeter A dbg C fuel d = pure P
  sum : P.sum = 0
  area : 0 ≤ Vec.area2 P

include h hu hV hf in
theorem _root_.Verif.Contour.Built.loop (A : Option (Approx T K)) (dbg : Bool) (b : Built C.seen C.vertical d mu lu md ld) :
    ∃ P, Loop A dbg C fuel d P ∧
      (UniqueLarge C.seen C.vertical d.halfEdges →
        (open Classical in Vec.area2 P = (d.halfEdges.map fun e => (if Chief C e then C.net.corner e else 0) + C.net.wedge e).sum) ∧
        (P : Multiset (Vec T)) = (d.halfEdges.flatMap C.cross : List (Vec T)) + (d.bottomEdges.map C.vec : List (Vec T)) +
          ((d.bottomEdges.map C.vec).map (- ·) : List (Vec T))) := by
  have hr := h.ready hu
  obtain ⟨x1, x2, x3, y1, y2, y3, F⟩ := h.frame hu b
  obtain ⟨P, p1, p2, p3, p4⟩ := F.loop h hu hV hf A dbg
  have ht : OK C.tri.size C.tri.nextInFace C.tri.previousInFace (across C) := hr.ok
  have hd := b.down
  rw [perp_neg] at hd
  have mlt : ∀ x ∈ mu, x < C.tri.size := fun x hx =>
    b.part.lt x (Built.mem_of_desc b.part b.mem ((ht.mem_tree b.up b.lt x).1.1 hx).1)
  have dlt : ∀ x ∈ md, x < C.tri.size := fun x hx =>
    b.part.lt x (Built.mem_of_desc b.part (b.part.neg _ b.mem) ((OK.mem_tree ht.reverse hd (h.neg_lt b.lt) x).1.1 hx).1)
  refine ⟨P, ⟨p1, p2, ?_⟩, fun hL => ⟨?_, ?_⟩⟩
  · rw [p3]
    have k1 : 0 ≤ (mu.map C.net.corner).sum := List.sum_nonneg fun x hx => by
      obtain ⟨z, hz, rfl⟩ := List.mem_map.1 hx
      exact h.corner_nonneg (mlt z hz)
    have k2 : 0 ≤ (md.map C.net.corner).sum := List.sum_nonneg fun x hx => by
      obtain ⟨z, hz, rfl⟩ := List.mem_map.1 hx
      exact h.corner_nonneg (dlt z hz)
    have k3 : 0 ≤ ((mu ++ d.topEdges ++ md.tail).map (seam C)).sum := List.sum_nonneg fun x hx => by
      obtain ⟨z, hz, rfl⟩ := List.mem_map.1 hx
      have hz' : z < C.tri.size := by
        rcases List.mem_append.1 hz with hz | hz
        · rcases List.mem_append.1 hz with hz | hz
          · exact mlt z hz
          · exact F.neg_lt z (List.mem_append_right _ hz)
        · exact dlt z (List.mem_of_mem_tail hz)
      exact add_nonneg (h.wedge_nonneg hz') (h.wedge_nonneg (h.neg_lt hz'))
    linarith
  · have e1 := b.edges h hu hL
    have e2 := (e1.map C.net.wedge).sum_eq
    have e3 : ∀ l : List HE, ((l.flatMap fun x => [x, neg x]).map C.net.wedge).sum = (l.map (seam C)).sum := by
      intro l
      induction l with
      | nil => rfl
      | cons x l ih =>
        simp only [List.flatMap_cons, List.map_append, List.sum_append, List.map_cons, List.sum_cons, List.map_nil, List.sum_nil, ih]
        unfold seam
        ring
    rw [e3] at e2
    rw [p3, b.corners h hu hL, e2, List.sum_map_add]
  · have e1 := b.edges h hu hL
    have e2 := e1.flatMap_right C.cross
    have e3 : ∀ l : List HE, (l.flatMap fun x => [x, neg x]).flatMap C.cross = l.flatMap (bothWays C) := by
      intro l
      induction l with
      | nil => rfl
      | cons x l ih =>
        simp only [List.flatMap_cons, List.flatMap_append, List.flatMap_nil, List.append_nil, ih]
    rw [e3] at e2
    have e4 : (d.topEdges.map fun x => -C.vec (neg x)).Perm ((d.bottomEdges.map C.vec).map (- ·)) := by
      rw [List.map_map]
      have : (d.topEdges.map neg).Perm d.bottomEdges := by
        rw [List.perm_ext_iff_of_nodup ((List.nodup_append.1 F.nodup).2.1.map fun x y hxy => neg_inj'.1 hxy)
          (List.nodup_append.1 F.nodup).1]
        intro x
        rw [b.top, b.bottom]
        simp only [List.mem_map, List.mem_reverse]
        constructor
        · rintro ⟨-, ⟨y, hy, rfl⟩, rfl⟩
          exact ⟨neg y, (b.mem_iff hr hL y).2 hy, rfl⟩
        · rintro ⟨y, hy, rfl⟩
          exact ⟨y, ⟨neg y, (b.mem_iff hr hL (neg y)).1 (by rwa [neg_neg']), neg_neg' y⟩, rfl⟩
      have := this.map fun x => -C.vec x
      rw [List.map_map] at this
      exact this
    rw [← Multiset.coe_eq_coe] at p4 e2 e4
    rw [p4]
    simp only [← Multiset.coe_add] at e2 ⊢
    rw [e2, e4]
    abel

/-- The components as lists of half edges. -/
theorem flatten_perm {S : FlatTri T} {v : Vec T} (hr : Ready S v) {cs : List (List HE)} (hc : Vertical.Components S v cs)
    (hall : ∀ x < S.tri.size, ∃ c ∈ cs, x ∈ c) : cs.flatten.Perm (List.range S.tri.size) := by
  rw [List.perm_ext_iff_of_nodup _ List.nodup_range]
  · intro x
    rw [List.mem_flatten, List.mem_range]
    exact ⟨fun ⟨c, hm, hx⟩ => (Components.part hr hc hm).lt x hx, fun hx => hall x hx⟩
  · rw [List.nodup_flatten]
    refine ⟨fun c hm => (hc.comp c hm).1, List.Pairwise.imp_of_mem (fun {c d} hm hd hcd x hx hx' => ?_) hc.pair⟩
    exact hr.ok.ne x ((Components.part hr hc hm).lt x hx) (hcd x hx hx')

end Verif.Collapsed
