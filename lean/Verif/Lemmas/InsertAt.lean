import Verif.Model.InsertAt
import Verif.Lemmas.TriInsert
import Verif.Lemmas.Point
import Verif.Lemmas.FlatMaps

/-!
# Lemmas about the insertion of vertices
-/

namespace Verif.FlatTri

open Verif Spec Tri Vec

variable {T : Type} [CommRing T] [LinearOrder T] [IsStrictOrderedRing T]
variable {K : Type} [Field K] [LinearOrder K] [IsStrictOrderedRing K]

/-- The area of a surface of which some faces have been subdivided. -/
theorem area_subdivide {S S' : FlatTri T} (h : S.Flat) (h' : S'.Flat) {L : List HE} (hL : L.Nodup)
    (hlt : ∀ x ∈ L, x < S.tri.size) (hs : S'.tri.size = S.tri.size + 6)
    (hx : ∀ x < S.tri.size, x ∉ L → S'.faceArea x = S.faceArea x) :
    3 * (S'.area2 - S.area2) = (L.map fun x => S'.faceArea x - S.faceArea x).sum + (S'.faceArea S.tri.size +
      S'.faceArea (S.tri.size + 1) + S'.faceArea (S.tri.size + 2) + S'.faceArea (S.tri.size + 3) +
      S'.faceArea (S.tri.size + 4) + S'.faceArea (S.tri.size + 5)) := by
  have e1 : ∑ x ∈ Finset.range S.tri.size, S'.faceArea x - ∑ x ∈ Finset.range S.tri.size, S.faceArea x =
      (L.map fun x => S'.faceArea x - S.faceArea x).sum := by
    rw [← Finset.sum_sub_distrib]
    have hsub : L.toFinset ⊆ Finset.range S.tri.size := by
      intro x hx
      rw [List.mem_toFinset] at hx
      exact Finset.mem_range.2 (hlt x hx)
    rw [← Finset.sum_subset hsub]
    · exact List.sum_toFinset _ hL
    · intro x hx1 hx2
      rw [List.mem_toFinset] at hx2
      rw [hx x (Finset.mem_range.1 hx1) hx2, sub_self]
  have e2 := h'.area2_sum
  rw [hs] at e2
  simp only [Finset.sum_range_succ] at e2
  have e3 := h.area2_sum
  rw [mul_sub, e2, e3, ← e1]
  ring

section face

variable {S : FlatTri T} {C : Tri} {n : HE}

/-- The vectors assigned to half edges when inserting in a face. -/
structure FaceVectors (S S' : FlatTri T) (n : HE) (v : Vec T) : Prop where
  a : S'.vec S.tri.size = -v
  a' : S'.vec (S.tri.size + 1) = v
  b : S'.vec (S.tri.size + 2) = S.vec n - v
  b' : S'.vec (S.tri.size + 3) = v - S.vec n
  c : S'.vec (S.tri.size + 4) = S.vec n + S.vec (S.tri.faces.fwd n) - v
  c' : S'.vec (S.tri.size + 5) = v - (S.vec n + S.vec (S.tri.faces.fwd n))
  old : ∀ x < S.tri.size, S'.vec x = S.vec x

theorem flat_insertInFace (h : S.Shut) (hn : n < S.tri.size) {C : Tri} {dbg : Bool} (hC : C.Reachable dbg)
    (i : Inserted S.tri C n (S.tri.faces.fwd n) (S.tri.faces.fwd (S.tri.faces.fwd n))) {w : HE → Vec T} {v : Vec T}
    (hw : FaceVectors S ⟨C, w⟩ n v) (h1 : 0 < cross (S.vec n) v)
    (h2 : 0 < cross (S.vec (S.tri.faces.fwd n)) (v - S.vec n)) (h3 : cross (S.vec (S.tri.vertices.fwd n)) v < 0) :
    (⟨C, w⟩ : FlatTri T).Flat ∧ (⟨C, w⟩ : FlatTri T).area2 = S.area2 := by
  have hev := h.flat.coh.even
  obtain ⟨n0, n1, n2, n3, n4, n5⟩ := neg_new hev
  have q := h.quad hn
  obtain ⟨⟨ea, eb, ee', ec, ed⟩, ⟨ab, ae', ac, ad⟩, ⟨be', bc, bd⟩, ⟨e'c, e'd⟩, cd⟩ := q.ne
  obtain ⟨le, la, lb, -, -, -⟩ := q.lt
  obtain ⟨g1, g2, g3, g4, g5, g6, g7, g8, g9⟩ := h.flat.quad q
  have t1 := q.fb
  have hve := q.ve
  rw [hve] at h3
  set f := S.tri.faces.fwd n with hf
  set g := S.tri.faces.fwd f with hg
  obtain ⟨wa, wa', wb, wb', wc, wc', wx⟩ := hw
  dsimp only at wa wa' wb wb' wc wc' wx
  have we := wx n le
  have wf := wx f la
  have wg := wx g lb
  have eg : S.vec g = -(S.vec n + S.vec f) := by
    rw [eq_neg_iff_add_eq_zero, add_comm]
    exact g6
  have eg' : S.vec (neg g) = S.vec n + S.vec f := by
    rw [h.flat.odd g lb, eg, neg_neg]
  rw [eg'] at h3
  have hcoh := hC.inv.1
  have hFlat : (⟨C, w⟩ : FlatTri T).Flat := by
    refine ⟨hcoh, hC.inv.2, ?_, ?_, ?_⟩
    · intro x hx
      change x < C.size at hx
      rw [i.vsize] at hx
      dsimp only
      by_cases hxs : x < S.tri.size
      · rw [wx x hxs, wx _ (h.neg_lt hxs), h.flat.odd x hxs]
      · obtain rfl | rfl | rfl | rfl | rfl | rfl : x = S.tri.size ∨ x = S.tri.size + 1 ∨ x = S.tri.size + 2 ∨
            x = S.tri.size + 3 ∨ x = S.tri.size + 4 ∨ x = S.tri.size + 5 := by omega
        · rw [n0, wa, wa', neg_neg]
        · rw [n1, wa, wa']
        · rw [n2, wb, wb', neg_sub]
        · rw [n3, wb, wb', neg_sub]
        · rw [n4, wc, wc', neg_sub]
        · rw [n5, wc, wc', neg_sub]
    · intro x hx
      have hxs := hcoh.lt_of_not_boundary hx
      rw [i.vsize] at hxs
      dsimp only at hx ⊢
      by_cases k1 : x = n
      · subst k1; rw [i.fe, i.fb', we, wb', wa]; abel
      by_cases k2 : x = f
      · rw [k2, i.ff, i.fc', wf, wc', wb]; abel
      by_cases k3 : x = g
      · rw [k3, i.fg, i.fa', wg, wa', wc, eg]; abel
      by_cases hxs' : x < S.tri.size
      · have l1 := h.next_lt hxs'
        have l2 := h.next_lt l1
        have m : ∀ y, S.tri.faces.fwd y = n ∨ S.tri.faces.fwd y = f ∨ S.tri.faces.fwd y = g → y = n ∨ y = f ∨ y = g := by
          rintro y (hy | hy | hy)
          · right; right; exact h.flat.coh.hf.inj (hy.trans t1.symm)
          · left; exact h.flat.coh.hf.inj (hy.trans hf.symm)
          · right; left; exact h.flat.coh.hf.inj (hy.trans hg.symm)
        have m1 : ¬ (S.tri.faces.fwd x = n ∨ S.tri.faces.fwd x = f ∨ S.tri.faces.fwd x = g) := fun hc => by
          have := m x hc; tauto
        rw [not_or, not_or] at m1
        rw [i.fx x hxs' k1 k2 k3, i.fx _ l1 m1.1 m1.2.1 m1.2.2, wx _ hxs', wx _ l1, wx _ l2]
        exact h.flat.closed x (h.nb x hxs')
      · obtain rfl | rfl | rfl | rfl | rfl | rfl : x = S.tri.size ∨ x = S.tri.size + 1 ∨ x = S.tri.size + 2 ∨
            x = S.tri.size + 3 ∨ x = S.tri.size + 4 ∨ x = S.tri.size + 5 := by omega
        · rw [i.fa, i.fe, wa, we, wb']; abel
        · rw [i.fa', i.fc, wa', wc, wg, eg]; abel
        · rw [i.fb, i.ff, wb, wf, wc']; abel
        · rw [i.fb', i.fa, wb', wa, we]; abel
        · rw [i.fc, i.fg, wc, wg, wa', eg]; abel
        · rw [i.fc', i.fb, wc', wb, wf]; abel
    · intro x hx
      have hxs := hcoh.lt_of_not_boundary hx
      rw [i.vsize] at hxs
      dsimp only at hx ⊢
      have key : ∀ y : T, 0 < y → ∀ z : T, z = y → 0 < z := fun y hy z hz => hz ▸ hy
      have h3' := neg_pos.2 h3
      by_cases k1 : x = n
      · subst k1; rw [i.fe, we, wb']; exact key _ h1 _ (by simp [cross]; ring)
      by_cases k2 : x = f
      · rw [k2, i.ff, wf, wc']; exact key _ h2 _ (by simp [cross]; ring)
      by_cases k3 : x = g
      · rw [k3, i.fg, wg, wa', eg]; exact key _ h3' _ (by simp [cross]; ring)
      by_cases hxs' : x < S.tri.size
      · rw [i.fx x hxs' k1 k2 k3, wx _ hxs', wx _ (h.next_lt hxs')]
        exact h.flat.oriented x (h.nb x hxs')
      · obtain rfl | rfl | rfl | rfl | rfl | rfl : x = S.tri.size ∨ x = S.tri.size + 1 ∨ x = S.tri.size + 2 ∨
            x = S.tri.size + 3 ∨ x = S.tri.size + 4 ∨ x = S.tri.size + 5 := by omega
        · rw [i.fa, wa, we]; exact key _ h1 _ (by simp [cross]; ring)
        · rw [i.fa', wa', wc]; exact key _ h3' _ (by simp [cross]; ring)
        · rw [i.fb, wb, wf]; exact key _ h2 _ (by simp [cross]; ring)
        · rw [i.fb', wb', wa]; exact key _ h1 _ (by simp [cross]; ring)
        · rw [i.fc, wc, wg, eg]; exact key _ h3' _ (by simp [cross]; ring)
        · rw [i.fc', wc', wb]; exact key _ h2 _ (by simp [cross]; ring)
  refine ⟨hFlat, ?_⟩
  have hsum := area_subdivide h.flat hFlat (L := [n, f, g]) (by simp [ea, eb, ab])
    (by simp only [List.mem_cons, List.not_mem_nil, or_false]; rintro x (rfl | rfl | rfl) <;> assumption) i.vsize (by
      intro x hx hm
      simp only [List.mem_cons, List.not_mem_nil, or_false, not_or] at hm
      unfold faceArea
      dsimp only
      rw [i.fx x hx hm.1 hm.2.1 hm.2.2, wx x hx, wx _ (h.next_lt hx)])
  have A1 : ∀ x, C.faces.fwd x ≠ x → (⟨C, w⟩ : FlatTri T).faceArea x = cross (w x) (w (C.faces.fwd x)) := fun x hx => if_neg hx
  have A2 : ∀ x, x < S.tri.size → S.faceArea x = cross (S.vec x) (S.vec (S.tri.faces.fwd x)) := fun x hx => if_neg (h.nb x hx)
  simp only [List.map_cons, List.map_nil, List.sum_cons, List.sum_nil] at hsum
  rw [A1 n (by rw [i.fe]; omega), A1 f (by rw [i.ff]; omega), A1 g (by rw [i.fg]; omega),
    A1 _ (by rw [i.fa]; omega), A1 _ (by rw [i.fa']; omega), A1 _ (by rw [i.fb]; omega), A1 _ (by rw [i.fb']; omega),
    A1 _ (by rw [i.fc]; omega), A1 _ (by rw [i.fc']; omega), A2 n le, A2 f la, A2 g lb, i.fe, i.ff, i.fg, i.fa, i.fb, i.fc,
    i.fa', i.fb', i.fc', ← hf, ← hg, t1, wa, wa', wb, wb', wc, wc', we, wf, wg, eg] at hsum
  have : 3 * ((⟨C, w⟩ : FlatTri T).area2 - S.area2) = 0 := by
    rw [hsum]
    simp only [cross, add_x, add_y, neg_x, neg_y, sub_x, sub_y]
    ring
  have h3 := (mul_eq_zero.1 this).resolve_left (by norm_num)
  exact sub_eq_zero.1 h3

end face

section edge

variable {S : FlatTri T} {n : HE}

/-- The vectors assigned to half edges when inserting on an edge. -/
structure EdgeVectors (S S' : FlatTri T) (n : HE) (v : Vec T) : Prop where
  a : S'.vec S.tri.size = -v
  a' : S'.vec (S.tri.size + 1) = v
  b : S'.vec (neg n) = S.vec (S.tri.faces.fwd (neg n)) - v
  b' : S'.vec n = v - S.vec (S.tri.faces.fwd (neg n))
  c : S'.vec (S.tri.size + 2) = S.vec n - v
  c' : S'.vec (S.tri.size + 3) = v - S.vec n
  d : S'.vec (S.tri.size + 4) = S.vec n + S.vec (S.tri.faces.fwd n) - v
  d' : S'.vec (S.tri.size + 5) = v - (S.vec n + S.vec (S.tri.faces.fwd n))
  old : ∀ x < S.tri.size, x ≠ n → x ≠ neg n → S'.vec x = S.vec x

/-- Scaling one factor of a cross product. -/
theorem cross_parallel {n v k : Vec T} (h0 : cross n v = 0) (h1 : 0 < dot n v) (h2 : 0 < cross k n) : 0 < cross k v := by
  have e : cross k v * dot n n = cross k n * dot n v := by
    simp only [cross, dot] at *
    linear_combination (k.x * n.x + k.y * n.y) * h0
  have hn : n ≠ 0 := by
    rintro rfl
    simp [dot] at h1
  have := mul_pos h2 h1
  rw [← e] at this
  exact pos_of_mul_pos_left this (dot_self_pos hn).le

/-- The faces after inserting on an edge. -/
structure EdgeFaces (S : FlatTri T) (C : Tri) (n : HE) : Prop where
  size : C.size = S.tri.size + 6
  fk : C.faces.fwd (S.tri.faces.fwd (neg n)) = n
  fn : C.faces.fwd n = S.tri.size
  fa : C.faces.fwd S.tri.size = S.tri.faces.fwd (neg n)
  fl : C.faces.fwd (S.tri.faces.fwd (S.tri.faces.fwd (neg n))) = S.tri.size + 3
  fb' : C.faces.fwd (S.tri.size + 3) = neg n
  fn' : C.faces.fwd (neg n) = S.tri.faces.fwd (S.tri.faces.fwd (neg n))
  ff : C.faces.fwd (S.tri.faces.fwd n) = S.tri.size + 5
  fc' : C.faces.fwd (S.tri.size + 5) = S.tri.size + 2
  fb : C.faces.fwd (S.tri.size + 2) = S.tri.faces.fwd n
  fg : C.faces.fwd (S.tri.faces.fwd (S.tri.faces.fwd n)) = S.tri.size + 1
  fa' : C.faces.fwd (S.tri.size + 1) = S.tri.size + 4
  fc : C.faces.fwd (S.tri.size + 4) = S.tri.faces.fwd (S.tri.faces.fwd n)
  fx : ∀ x < S.tri.size, x ∉ [n, S.tri.faces.fwd n, S.tri.faces.fwd (S.tri.faces.fwd n), neg n, S.tri.faces.fwd (neg n),
    S.tri.faces.fwd (S.tri.faces.fwd (neg n))] → C.faces.fwd x = S.tri.faces.fwd x

theorem flat_insertOnEdge (h : S.Shut) (hn : n < S.tri.size) {C : Tri} {dbg : Bool} (hC : C.Reachable dbg)
    (i : EdgeFaces S C n) {w : HE → Vec T} {v : Vec T}
    (hw : EdgeVectors S ⟨C, w⟩ n v) (h0 : cross (S.vec n) v = 0) (h1 : 0 < dot (S.vec n) v)
    (h2 : 0 < dot (S.vec n) (S.vec n - v)) :
    (⟨C, w⟩ : FlatTri T).Flat ∧ (⟨C, w⟩ : FlatTri T).area2 = S.area2 := by
  have hev := h.flat.coh.even
  obtain ⟨n0, n1, n2, n3, n4, n5⟩ := neg_new hev
  have q := h.quad hn
  obtain ⟨⟨ea, eb, ee', ec, ed⟩, ⟨ab, ae', ac, ad⟩, ⟨be', bc, bd⟩, ⟨e'c, e'd⟩, cd⟩ := q.ne
  obtain ⟨le, la, lb, lk, ll, le'⟩ := q.lt
  obtain ⟨g1, g2, g3, g4, g5, g6, g7, g8, g9⟩ := h.flat.quad q
  have hnd := q.nodup
  have hmem := fun {x : HE} => q.fwd_not_mem h.flat.coh (x := x)
  have o1 := h.flat.oriented n (h.nb n le)
  have o2 := h.flat.oriented (neg n) (h.nb _ le')
  have hff := q.fb
  have hfl := q.fd
  set f := S.tri.faces.fwd n with hf
  set g := S.tri.faces.fwd f with hg
  set k := S.tri.faces.fwd (neg n) with hk
  set l := S.tri.faces.fwd k with hl
  obtain ⟨wa, wa', wb, wb', wc, wc', wd, wd', wx⟩ := hw
  obtain ⟨isz, ik, in_, ia, il, ib', in', if_, ic', ib, ig, ia', ic, ix⟩ := i
  dsimp only at wa wa' wb wb' wc wc' wd wd' wx
  have wf := wx f la ea.symm ae'
  have wg := wx g lb eb.symm be'
  have wk := wx k lk ec.symm e'c.symm
  have wl := wx l ll ed.symm e'd.symm
  have eg : S.vec g = -(S.vec n + S.vec f) := by
    rw [eq_neg_iff_add_eq_zero, add_comm]
    exact g6
  have el : S.vec l = S.vec n - S.vec k := by
    have : S.vec n - S.vec k = S.vec n - S.vec k + 0 := by abel
    rw [this, ← g7]
    abel
  rw [h.flat.odd n hn] at o2
  have c0 : cross (S.vec n) (S.vec n - v) = 0 := by
    simp only [cross, sub_x, sub_y] at h0 ⊢
    linear_combination -h0
  have p0 : 0 < cross (S.vec k) (S.vec n) := by
    have : cross (S.vec k) (S.vec n) = cross (-S.vec n) (S.vec k) := by simp only [cross, neg_x, neg_y]; ring
    rw [this]; exact o2
  have r0 : 0 < cross (-S.vec f) (S.vec n) := by
    have : cross (-S.vec f) (S.vec n) = cross (S.vec n) (S.vec f) := by simp only [cross, neg_x, neg_y]; ring
    rw [this]; exact o1
  have p1 := cross_parallel h0 h1 p0
  have p2 := cross_parallel c0 h2 p0
  have p3 := cross_parallel h0 h1 r0
  have p4 := cross_parallel c0 h2 r0
  have hcoh := hC.inv.1
  have cases12 : ∀ x, S.tri.size ≤ x → x < S.tri.size + 6 → x = S.tri.size ∨ x = S.tri.size + 1 ∨ x = S.tri.size + 2 ∨
      x = S.tri.size + 3 ∨ x = S.tri.size + 4 ∨ x = S.tri.size + 5 := by intros; omega
  have hFlat : (⟨C, w⟩ : FlatTri T).Flat := by
    refine ⟨hcoh, hC.inv.2, ?_, ?_, ?_⟩
    · intro x hx
      change x < C.size at hx
      rw [isz] at hx
      dsimp only
      by_cases k1 : x = n
      · rw [k1, wb, wb', neg_sub]
      by_cases k2 : x = neg n
      · rw [k2, neg_neg', wb, wb', neg_sub]
      by_cases hxs : x < S.tri.size
      · rw [wx x hxs k1 k2, wx _ (h.neg_lt hxs) (fun hc => k2 (by rw [← hc, neg_neg'])) (fun hc => k1 (neg_inj'.1 hc)),
          h.flat.odd x hxs]
      · obtain rfl | rfl | rfl | rfl | rfl | rfl := cases12 x (not_lt.1 hxs) hx
        · rw [n0, wa, wa', neg_neg]
        · rw [n1, wa, wa']
        · rw [n2, wc, wc', neg_sub]
        · rw [n3, wc, wc', neg_sub]
        · rw [n4, wd, wd', neg_sub]
        · rw [n5, wd, wd', neg_sub]
    · intro x hx
      have hxs := hcoh.lt_of_not_boundary hx
      rw [isz] at hxs
      dsimp only at hx ⊢
      by_cases hxs' : x < S.tri.size
      · by_cases hm : x ∈ [n, f, g, neg n, k, l]
        · rcases mem_six_cases hm with hm | hm | hm | hm | hm | hm <;> rw [hm]
          · rw [in_, ia, wb', wa, wk]; abel
          · rw [if_, ic', wf, wd', wc]; abel
          · rw [ig, ia', wg, wa', wd, eg]; abel
          · rw [in', il, wb, wl, wc', el]; abel
          · rw [ik, in_, wk, wb', wa]; abel
          · rw [il, ib', wl, wc', wb, el]; abel
        · have m1 := hmem.2 hm
          have m2 := hmem.2 m1
          have l1 := h.next_lt hxs'
          have l2 := h.next_lt l1
          have j := not_mem_six.1 hm
          have j1 := not_mem_six.1 m1
          have j2 := not_mem_six.1 m2
          rw [ix x hxs' hm, ix _ l1 m1, wx _ hxs' j.1 j.2.2.2.1, wx _ l1 j1.1 j1.2.2.2.1, wx _ l2 j2.1 j2.2.2.2.1]
          exact h.flat.closed x (h.nb x hxs')
      · obtain rfl | rfl | rfl | rfl | rfl | rfl := cases12 x (not_lt.1 hxs') hxs
        · rw [ia, ik, wa, wk, wb']; abel
        · rw [ia', ic, wa', wd, wg, eg]; abel
        · rw [ib, if_, wc, wf, wd']; abel
        · rw [ib', in', wc', wb, wl, el]; abel
        · rw [ic, ig, wd, wg, wa', eg]; abel
        · rw [ic', ib, wd', wc, wf]; abel
    · intro x hx
      have hxs := hcoh.lt_of_not_boundary hx
      rw [isz] at hxs
      dsimp only at hx ⊢
      have key : ∀ y : T, 0 < y → ∀ z : T, z = y → 0 < z := fun y hy z hz => hz ▸ hy
      have c1 : cross (S.vec k) (S.vec k) = 0 := by simp only [cross]; ring
      by_cases hxs' : x < S.tri.size
      · by_cases hm : x ∈ [n, f, g, neg n, k, l]
        · rcases mem_six_cases hm with hm | hm | hm | hm | hm | hm <;> rw [hm]
          · rw [in_, wb', wa]; exact key _ p1 _ (by simp [cross]; ring)
          · rw [if_, wf, wd']; exact key _ p4 _ (by simp [cross]; ring)
          · rw [ig, wg, wa', eg]
            exact key _ p3 _ (by simp only [cross, neg_x, neg_y, add_x, add_y] at h0 ⊢; linear_combination -h0)
          · rw [in', wb, wl, el]
            exact key _ p2 _ (by simp only [cross, neg_x, neg_y, add_x, add_y, sub_x, sub_y] at h0 ⊢; linear_combination h0)
          · rw [ik, wk, wb']; exact key _ p1 _ (by simp [cross]; ring)
          · rw [il, wl, wc', el]
            exact key _ p2 _ (by simp only [cross, neg_x, neg_y, add_x, add_y, sub_x, sub_y] at h0 ⊢; linear_combination h0)
        · have m1 := hmem.2 hm
          have j := not_mem_six.1 hm
          have j1 := not_mem_six.1 m1
          rw [ix x hxs' hm, wx _ hxs' j.1 j.2.2.2.1, wx _ (h.next_lt hxs') j1.1 j1.2.2.2.1]
          exact h.flat.oriented x (h.nb x hxs')
      · obtain rfl | rfl | rfl | rfl | rfl | rfl := cases12 x (not_lt.1 hxs') hxs
        · rw [ia, wa, wk]; exact key _ p1 _ (by simp [cross]; ring)
        · rw [ia', wa', wd]
          exact key _ p3 _ (by simp only [cross, neg_x, neg_y, add_x, add_y, sub_x, sub_y] at h0 ⊢; linear_combination -h0)
        · rw [ib, wc, wf]; exact key _ p4 _ (by simp [cross]; ring)
        · rw [ib', wc', wb]
          exact key _ p2 _ (by simp only [cross, neg_x, neg_y, add_x, add_y, sub_x, sub_y] at h0 ⊢; linear_combination h0)
        · rw [ic, wd, wg, eg]
          exact key _ p3 _ (by simp only [cross, neg_x, neg_y, add_x, add_y, sub_x, sub_y] at h0 ⊢; linear_combination -h0)
        · rw [ic', wd', wc]; exact key _ p4 _ (by simp [cross]; ring)
  refine ⟨hFlat, ?_⟩
  have hsum := area_subdivide h.flat hFlat (L := [n, f, g, neg n, k, l]) hnd
    (by intro x hx; rcases mem_six_cases hx with rfl | rfl | rfl | rfl | rfl | rfl <;> assumption) isz (by
      intro x hx hm
      have m1 := hmem.2 hm
      have j := not_mem_six.1 hm
      have j1 := not_mem_six.1 m1
      unfold faceArea
      dsimp only
      rw [ix x hx hm, wx _ hx j.1 j.2.2.2.1, wx _ (h.next_lt hx) j1.1 j1.2.2.2.1])
  have A1 : ∀ x, C.faces.fwd x ≠ x → (⟨C, w⟩ : FlatTri T).faceArea x = cross (w x) (w (C.faces.fwd x)) := fun x hx => if_neg hx
  have A2 : ∀ x, x < S.tri.size → S.faceArea x = cross (S.vec x) (S.vec (S.tri.faces.fwd x)) := fun x hx => if_neg (h.nb x hx)
  simp only [List.map_cons, List.map_nil, List.sum_cons, List.sum_nil] at hsum
  rw [A1 n (by rw [in_]; omega), A1 f (by rw [if_]; omega), A1 g (by rw [ig]; omega), A1 (neg n) (by rw [in']; exact e'd.symm),
    A1 k (by rw [ik]; exact ec), A1 l (by rw [il]; omega),
    A1 S.tri.size (by rw [ia]; exact lk.ne), A1 (S.tri.size + 1) (by rw [ia']; omega),
    A1 (S.tri.size + 2) (by rw [ib]; exact (lt_of_lt_of_le la (by omega)).ne), A1 (S.tri.size + 3) (by rw [ib']; exact (lt_of_lt_of_le le' (by omega)).ne),
    A1 (S.tri.size + 4) (by rw [ic]; exact (lt_of_lt_of_le lb (by omega)).ne), A1 (S.tri.size + 5) (by rw [ic']; omega), A2 n le, A2 f la, A2 g lb, A2 _ le', A2 k lk, A2 l ll, in_, if_, ig, in',
    ik, il, ia, ib, ic, ia', ib', ic', ← hf, ← hg, ← hk, ← hl, hff, hfl, wa, wa', wb, wb', wc, wc', wd, wd', wf, wg, wk, wl,
    h.flat.odd n hn, eg, el] at hsum
  have : 3 * ((⟨C, w⟩ : FlatTri T).area2 - S.area2) = 0 := by
    rw [hsum]
    simp only [cross, add_x, add_y, neg_x, neg_y, sub_x, sub_y]
    ring
  have h3 := (mul_eq_zero.1 this).resolve_left (by norm_num)
  exact sub_eq_zero.1 h3

end edge

section code

variable {S : FlatTri T} {n : HE}

/-- Inserting in a face succeeds. -/
theorem Shut.insertInFace (h : S.Shut) (hn : n < S.tri.size) (A : Option (Approx T K)) (dbg : Bool) {v : Vec T}
    (h1 : 0 < cross (S.vec n) v) (h2 : 0 < cross (S.vec (S.tri.faces.fwd n)) (v - S.vec n))
    (h3 : cross (S.vec (S.tri.vertices.fwd n)) v < 0) :
    ∃ C S', S.tri.insertAt dbg n = .ok C ∧ S.insertInFace A dbg n v = .ok S' ∧ S'.tri.Reachable dbg ∧ Same C S'.tri ∧
      S'.Flat ∧ S'.area2 = S.area2 ∧ FaceVectors S S' n v := by
  obtain ⟨C, hC, hr, i⟩ := h.flat.coh.insertAt (h.nb n hn) dbg
  obtain ⟨n0, n1, n2, n3, n4, n5⟩ := neg_new h.flat.coh.even
  have q := h.quad hn
  have hvec : S.vec (S.tri.vertices.fwd n) = S.vec n + S.vec (S.tri.faces.fwd n) := by
    obtain ⟨g1, g2, g3, g4, g5, g6, g7, g8, g9⟩ := h.flat.quad q
    rw [q.ve, g3]
    exact (eq_neg_of_add_eq_zero_left g6).symm
  have hlt : ∀ x < S.tri.size, x ≠ S.tri.size ∧ x ≠ S.tri.size + 1 ∧ x ≠ S.tri.size + 2 ∧ x ≠ S.tri.size + 3 ∧
    x ≠ S.tri.size + 4 ∧ x ≠ S.tri.size + 5 := by intros; omega
  have ea : neg (C.nextAtVertex n) = S.tri.size := by unfold Tri.nextAtVertex; rw [i.ve, n1]
  have eb : C.nextAtVertex S.tri.size = S.tri.size + 2 := i.va
  have ec : C.nextAtVertex (S.tri.size + 2) = S.tri.size + 4 := i.vb
  set w : HE → Vec T := fun x =>
    if x = S.tri.size ∨ x = S.tri.size + 1 then insertSymmetric x S.tri.size (-v)
    else if x = S.tri.size + 2 ∨ x = S.tri.size + 3 then insertSymmetric x (S.tri.size + 2) (S.vec n - v)
    else if x = S.tri.size + 4 ∨ x = S.tri.size + 5 then
      insertSymmetric x (S.tri.size + 4) (S.vec (S.tri.nextAtVertex n) - v)
    else S.vec x with hwd
  have hw : FaceVectors S ⟨C, w⟩ n v := by
    unfold Tri.nextAtVertex at hwd
    refine ⟨?_, ?_, ?_, ?_, ?_, ?_, fun x hx => ?_⟩
    · simp [hwd, insertSymmetric]
    · simp [hwd, insertSymmetric]
    · simp [hwd, insertSymmetric]
    · simp [hwd, insertSymmetric]
    · simp [hwd, insertSymmetric, hvec]
    · simp [hwd, insertSymmetric, hvec]
    · obtain ⟨i1, i2, i3, i4, i5, i6⟩ := hlt x hx
      simp [hwd, i1, i2, i3, i4, i5, i6]
  obtain ⟨hF, hA⟩ := flat_insertInFace h hn hr i hw h1 h2 h3
  obtain ⟨T', o1, o2, o3, o4, o5⟩ := ofFunction_flat A hr hF
  refine ⟨C, ⟨T', w⟩, hC, ?_, o2, o3, o4, o5.trans hA, ⟨hw.a, hw.a', hw.b, hw.b', hw.c, hw.c', hw.old⟩⟩
  unfold FlatTri.insertInFace
  simp only [hC, bind, Except.bind, ea, eb, ec, n0, n2, n4]
  exact o1

/-- The combinatorics of inserting on an edge. -/
theorem Shut.edgeFaces (h : S.Shut) (hn : n < S.tri.size) (dbg : Bool) :
    ∃ C C', S.tri.insertAt dbg n = .ok C ∧ C.flip dbg n = (C', .ok ()) ∧ C.Reachable dbg ∧ C'.Reachable dbg ∧
      C.nextAtVertex n = S.tri.size + 1 ∧ EdgeFaces S C' n ∧ C'.nextAtVertex S.tri.size = neg n ∧
      C'.nextAtVertex (neg n) = S.tri.size + 2 ∧ C'.nextAtVertex (S.tri.size + 2) = S.tri.size + 4 ∧
      C'.nextAtVertex (S.tri.size + 4) = S.tri.size := by
  obtain ⟨C, hC, hr, i⟩ := h.flat.coh.insertAt (h.nb n hn) dbg
  obtain ⟨n0, n1, n2, n3, n4, n5⟩ := neg_new h.flat.coh.even
  have q := h.quad hn
  obtain ⟨⟨ea, eb, ee', ec, ed⟩, ⟨ab, ae', ac, ad⟩, ⟨be', bc, bd⟩, ⟨e'c, e'd⟩, cd⟩ := q.ne
  obtain ⟨le, la, lb, lk, ll, le'⟩ := q.lt
  have hfd := q.fd
  have hnl : n ≠ S.tri.size ∧ n ≠ S.tri.size + 3 ∧ neg n ≠ S.tri.size ∧ neg n ≠ S.tri.size + 3 := by
    refine ⟨?_, ?_, ?_, ?_⟩ <;> omega
  set f := S.tri.faces.fwd n with hf
  set g := S.tri.faces.fwd f with hg
  set k := S.tri.faces.fwd (neg n) with hk
  set l := S.tri.faces.fwd k with hl
  have c1 : C.faces.fwd (neg n) = k := i.fx _ le' ee'.symm ae'.symm be'.symm
  have c2 : C.faces.fwd k = l := i.fx _ lk ec.symm ac.symm bc.symm
  have hfl : C.Flippable n := by
    refine ⟨?_, ?_, ?_, ?_⟩
    · rw [i.fe]; omega
    · rw [c1]; exact e'c.symm
    · rw [i.fe]; omega
    · rw [i.fe, i.fb']; omega
  have qc := hr.inv.1.quad hfl
  rw [c1, c2, i.fe, i.fb'] at qc
  obtain ⟨C', hC', F⟩ := flip_flipped hr.inv.1 qc dbg
  have hm : ∀ x, x ≠ n → x ≠ neg n → x ≠ k → x ≠ l → x ≠ S.tri.size → x ≠ S.tri.size + 3 →
      x ∉ [n, S.tri.size + 3, S.tri.size, neg n, k, l] := by
    intro x h1 h2 h3 h4 h5 h6
    simp [h1, h2, h3, h4, h5, h6]
  refine ⟨C, C', hC, hC', hr, .flip hr hC', i.ve, ?_, ?_, ?_, ?_, ?_⟩
  · refine ⟨?_, F.fc, F.fe, F.fb, F.fd, F.fa, F.fe', ?_, ?_, ?_, ?_, ?_, ?_, ?_⟩
    · rw [← i.vsize]; exact F.vsize
    · exact (F.fx _ (hm _ ea.symm ae' ac ad (by omega) (by omega))).trans i.ff
    · exact (F.fx _ (hm _ (by omega) (by omega) (by omega) (by omega) (by omega) (by omega))).trans i.fc'
    · exact (F.fx _ (hm _ (by omega) (by omega) (by omega) (by omega) (by omega) (by omega))).trans i.fb
    · exact (F.fx _ (hm _ eb.symm be' bc bd (by omega) (by omega))).trans i.fg
    · exact (F.fx _ (hm _ (by omega) (by omega) (by omega) (by omega) (by omega) (by omega))).trans i.fa'
    · exact (F.fx _ (hm _ (by omega) (by omega) (by omega) (by omega) (by omega) (by omega))).trans i.fc
    · intro x hx hxm
      obtain ⟨j1, j2, j3, j4, j5, j6⟩ := not_mem_six.1 hxm
      exact (F.fx _ (hm _ j1 j4 j5 j6 (by omega) (by omega))).trans (i.fx x hx j1 j2 j3)
  · exact F.vb
  · have := F.ve'
    rw [n3] at this
    exact this
  · exact (F.vx _ (hm _ (by omega) (by omega) (by omega) (by omega) (by omega) (by omega))).trans i.vb
  · exact (F.vx _ (hm _ (by omega) (by omega) (by omega) (by omega) (by omega) (by omega))).trans i.vc

/-- Inserting on an edge succeeds. -/
theorem Shut.insertOnEdge (h : S.Shut) (hn : n < S.tri.size) (A : Option (Approx T K)) (dbg : Bool) {v : Vec T}
    (h0 : cross (S.vec n) v = 0) (h1 : 0 < dot (S.vec n) v) (h2 : 0 < dot (S.vec n) (S.vec n - v)) :
    ∃ C' S', S.insertOnEdge A dbg n v = .ok S' ∧ S'.tri.Reachable dbg ∧ Same C' S'.tri ∧ C'.Reachable dbg ∧ EdgeFaces S C' n ∧
      C'.nextAtVertex S.tri.size = neg n ∧ C'.nextAtVertex (neg n) = S.tri.size + 2 ∧
      C'.nextAtVertex (S.tri.size + 2) = S.tri.size + 4 ∧ C'.nextAtVertex (S.tri.size + 4) = S.tri.size ∧
      S'.Flat ∧ S'.area2 = S.area2 ∧ EdgeVectors S S' n v := by
  obtain ⟨C, C', hC, hf, hr, hr', en, ef, ea, eb, ec, ed⟩ := h.edgeFaces hn dbg
  obtain ⟨n0, n1, n2, n3, n4, n5⟩ := neg_new h.flat.coh.even
  have q := h.quad hn
  have le' := h.neg_lt hn
  have hvec : S.vec (S.tri.vertices.fwd n) = S.vec n + S.vec (S.tri.faces.fwd n) := by
    obtain ⟨g1, g2, g3, g4, g5, g6, g7, g8, g9⟩ := h.flat.quad q
    rw [q.ve, g3]
    exact (eq_neg_of_add_eq_zero_left g6).symm
  have hprev : S.tri.vertices.inv n = S.tri.faces.fwd (neg n) := by
    rw [← h.flat.coh.hv.left (S.tri.faces.fwd (neg n)), q.vc]
  have hlt : ∀ x < S.tri.size, x ≠ S.tri.size ∧ x ≠ S.tri.size + 1 ∧ x ≠ S.tri.size + 2 ∧ x ≠ S.tri.size + 3 ∧
    x ≠ S.tri.size + 4 ∧ x ≠ S.tri.size + 5 := by intros; omega
  set w : HE → Vec T := fun x =>
    if x = S.tri.size ∨ x = S.tri.size + 1 then insertSymmetric x (S.tri.size + 1) v
    else if x = neg n ∨ x = n then insertSymmetric x (neg n) (S.vec (S.tri.previousAtVertex n) - v)
    else if x = S.tri.size + 2 ∨ x = S.tri.size + 3 then insertSymmetric x (S.tri.size + 2) (S.vec n - v)
    else if x = S.tri.size + 4 ∨ x = S.tri.size + 5 then
      insertSymmetric x (S.tri.size + 4) (S.vec (S.tri.nextAtVertex n) - v)
    else S.vec x with hwd
  obtain ⟨i1, i2, i3, i4, i5, i6⟩ := hlt n hn
  obtain ⟨j1, j2, j3, j4, j5, j6⟩ := hlt _ le'
  have hw : EdgeVectors S ⟨C', w⟩ n v := by
    unfold Tri.nextAtVertex Tri.previousAtVertex at hwd
    refine ⟨?_, ?_, ?_, ?_, ?_, ?_, ?_, ?_, fun x hx k1 k2 => ?_⟩
    · simp [hwd, insertSymmetric]
    · simp [hwd, insertSymmetric]
    · simp [hwd, insertSymmetric, hprev, j1, j2]
    · simp [hwd, insertSymmetric, hprev, i1, i2, ne_neg]
    · simp [hwd, insertSymmetric, i3.symm, j3.symm]
    · simp [hwd, insertSymmetric, i4.symm, j4.symm]
    · simp [hwd, insertSymmetric, hvec, i5.symm, j5.symm]
    · simp [hwd, insertSymmetric, hvec, i6.symm, j6.symm]
    · obtain ⟨i1, i2, i3, i4, i5, i6⟩ := hlt x hx
      simp [hwd, i1, i2, i3, i4, i5, i6, k1, k2]
  obtain ⟨hF, hA⟩ := flat_insertOnEdge h hn hr' ef hw h0 h1 h2
  obtain ⟨T', o1, o2, o3, o4, o5⟩ := ofFunction_flat A hr' hF
  refine ⟨C', ⟨T', w⟩, ?_, o2, o3, hr', ef, ea, eb, ec, ed, o4, o5.trans hA, ⟨hw.a, hw.a', hw.b, hw.b', hw.c, hw.c', hw.d, hw.d', hw.old⟩⟩
  unfold FlatTri.insertOnEdge
  simp only [hC, hf, bind, Except.bind, en, n1, ea, eb, ec, n0, n2, n4, neg_neg']
  exact o1

end code

end Verif.FlatTri
