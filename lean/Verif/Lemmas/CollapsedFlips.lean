import Verif.Lemmas.CollapsedLarge
import Verif.Model.UniqueLarge

/-!
# Flipping large edges of collapsed surfaces
-/

set_option linter.unusedSectionVars false

namespace Verif.Collapsed

open Verif Spec Vertical

variable {T : Type} [CommRing T] [LinearOrder T] [IsStrictOrderedRing T]
variable {K : Type*} [Field K] [LinearOrder K] [IsStrictOrderedRing K]
variable {C C' : Collapsed T} {e z : HE}

/-- No half edge is vertical. -/
def Upright (C : Collapsed T) : Prop := ∀ z < C.tri.size, Vec.cross (C.vec z) C.vertical ≠ 0

/-- Both faces at the half edge are triangles. -/
def Between (C : Collapsed T) (e : HE) : Prop := C.tri.nextInFace (C.tri.nextInFace (C.tri.nextInFace e)) = e ∧
    C.tri.nextInFace (C.tri.nextInFace (C.tri.nextInFace (neg e))) = neg e

theorem Between.neg (h : C.Between e) : C.Between (neg e) := ⟨h.2, by rw [neg_neg']; exact h.1⟩

theorem large_signs {x y z : T} (h : x + y + z = 0) (hx : 0 < x) (hy : y ≠ 0) (hz : z ≠ 0) (h1 : |y| ≤ |x|) (h2 : |z| ≤ |x|) :
    y < 0 ∧ z < 0 := by
  rw [abs_of_pos hx] at h1 h2
  have h1' := abs_le.1 h1
  have h2' := abs_le.1 h2
  refine ⟨lt_of_le_of_ne (by linarith [h2'.1]) hy, lt_of_le_of_ne (by linarith [h1'.1]) hz⟩

namespace Good

variable (h : C.Good)

include h

/-- The face is a triangle. -/
theorem isTri (hz : z < C.tri.size) (h3 : C.tri.nextInFace (C.tri.nextInFace (C.tri.nextInFace z)) = z) : C.net.IsTri z := by
  rcases h.inv.face z (mem_net.2 hz) with ht | ht
  · exact ht
  · exfalso
    have h1 : C.tri.nextInFace z = Verif.neg z := ht.1
    have h2 : C.tri.nextInFace (Verif.neg z) = z := ht.2.1
    rw [h1, h2, h1] at h3
    exact neg_ne z h3

/-- A large edge that goes to the right can be flipped. -/
theorem kite (hu : C.Upright) (he : e < C.tri.size) (hb : C.Between e) (hl : IsLarge C.seen C.vertical e)
    (hr : 0 < Vec.cross (C.vec e) C.vertical) :
    Net.Kite C.vertical C.net e (C.tri.nextInFace e) (C.tri.nextInFace (C.tri.nextInFace e)) (C.tri.nextInFace (Verif.neg e))
      (C.tri.nextInFace (C.tri.nextInFace (Verif.neg e))) := by
  have he' := h.neg_lt he
  have key : ∀ y < C.tri.size, C.net.IsTri y → Vec.cross (C.vec y) C.vertical + Vec.cross (C.vec (C.tri.nextInFace y)) C.vertical +
      Vec.cross (C.vec (C.tri.nextInFace (C.tri.nextInFace y))) C.vertical = 0 := by
    intro y hy ht
    have := ht.2.1
    change C.vec y + C.vec (C.tri.nextInFace y) + C.vec (C.tri.nextInFace (C.tri.nextInFace y)) = 0 at this
    rw [← Vec.cross_add_left, ← Vec.cross_add_left, this, Vec.cross_zero_left]
  have t1 := h.isTri he hb.1
  have t2 := h.isTri he' hb.2
  have k1 := key e he t1
  have k2 := key _ he' t2
  rw [h.isLarge_iff he, h.previous t1, h.previous t2] at hl
  obtain ⟨l1, l2, l3, l4⟩ := hl
  have hn := h.cross_neg he
  obtain ⟨s1, s2⟩ := large_signs k1 hr (hu _ (h.next_lt he)) (hu _ (h.next_lt (h.next_lt he))) l1 l2
  obtain ⟨s3, s4⟩ := large_signs (x := -Vec.cross (C.vec (Verif.neg e)) C.vertical)
    (y := -Vec.cross (C.vec (C.tri.nextInFace (Verif.neg e))) C.vertical)
    (z := -Vec.cross (C.vec (C.tri.nextInFace (C.tri.nextInFace (Verif.neg e)))) C.vertical) (by linarith) (by rw [hn]; linarith)
    (neg_ne_zero.2 (hu _ (h.next_lt he'))) (neg_ne_zero.2 (hu _ (h.next_lt (h.next_lt he'))))
    (by rw [abs_neg, hn, neg_neg]; exact l3) (by rw [abs_neg, hn, neg_neg]; exact l4)
  exact ⟨h.inv, h.v0, h.closed, mem_net.2 he, rfl, rfl, hb.1, rfl, rfl, hb.2, hr, s1, s2, neg_lt_zero.1 s3, neg_lt_zero.1 s4⟩

end Good

theorem foldl_update (l : List (Vec T)) (vec : HE → Vec T) (b : HE) :
    l.foldl (fun (vec : HE → Vec T) k => Function.update vec b (vec b + k)) vec = Function.update vec b (vec b + l.sum) := by
  induction l generalizing vec with
  | nil => simp
  | cons k l ih =>
    rw [List.foldl_cons, ih]
    simp [add_assoc]

/-- The update after a flip. -/
theorem afterFlip_spec (dbg : Bool) {v : Vec T} {N : Net T} {a b c d : HE} (k : Net.Kite v N e a b c d) {S : Tri} (hS : S.faces.WF)
    (hf : ∀ z, S.faces.fwd z = (N.flip e a b c d).f z) :
    afterFlip dbg S e ⟨N.vec, N.conn⟩ = .ok ⟨(N.flip e a b c d).vec, (N.flip e a b c d).conn⟩ := by
  have prev : ∀ {w z}, S.faces.fwd w = z → S.previousInFace z = w := by
    intro w z h
    rw [← h]
    exact hS.left w
  have p1 : S.previousInFace (neg e) = a := prev ((hf _).trans k.f_a)
  have p2 : S.nextInFace e = b := (hf _).trans k.f_e
  have p3 : S.previousInFace e = c := prev ((hf _).trans k.f_c)
  have p4 : S.nextInFace (neg e) = d := (hf _).trans k.f_e'
  have hvec : Function.update (Function.update (Function.update (Function.update N.vec b (N.vec b + (N.conn e).sum)) d
      (N.vec d + (N.conn (neg e)).sum)) e (N.vec d + (N.conn (neg e)).sum + N.vec a)) (neg e)
      (-(N.vec d + (N.conn (neg e)).sum + N.vec a)) = (N.flip e a b c d).vec := by
    funext z
    unfold Net.flip
    simp only [Function.update_apply]
    by_cases z1 : z = e
    · rw [if_neg (by rw [z1]; exact (neg_ne e).symm)]
      simp only [if_pos z1]
    · simp only [if_neg z1]
      by_cases z2 : z = neg e
      · simp only [if_pos z2]
      · simp only [if_neg z2]
        by_cases z3 : z = b
        · rw [if_neg (by rw [z3]; exact k.bd), if_pos z3, if_pos z3]
        · rw [if_neg z3, if_neg z3]
  have hconn : (Data.append (Data.append ⟨N.vec, N.conn⟩ (neg b) e) (neg d) (neg e)).conn = (N.flip e a b c d).conn := by
    funext z
    unfold Net.flip Data.append
    simp only [Function.update_apply]
    by_cases z1 : z = e
    · have : ¬ z = neg e := by rw [z1]; exact (neg_ne e).symm
      have : ¬ z = neg d := by rw [z1]; exact k.nde.symm
      simp only [z1, (neg_ne e).symm, k.nde.symm, if_true, if_false]
    · simp only [if_neg z1]
      by_cases z2 : z = neg e
      · simp only [if_pos z2]
      · simp only [if_neg z2]
        by_cases z3 : z = neg b
        · have z4 : ¬ z = neg d := by rw [z3]; exact k.nbd
          rw [if_neg z4, if_pos z3, if_pos z3]
        · rw [if_neg z3, if_neg z3]
          by_cases z4 : z = neg d
          · rw [if_pos z4, if_pos z4, if_neg k.nde, if_neg k.nbd.symm, if_neg (neg_ne e), if_neg k.nbe'.symm]
          · rw [if_neg z4, if_neg z4]
  have hvec' : ∀ m : HE → Vec T, m = (N.flip e a b c d).vec → m (neg e) = m b + m c := by
    rintro _ rfl
    rw [k.vec_e', k.vec_b, k.vec_c]
    have h1 := k.sum_left
    have h2 := k.sum_right
    rw [k.opp] at h2
    linear_combination (norm := abel) -h1 - h2
  unfold afterFlip
  rw [p1, p2, p3, p4]
  dsimp only
  rw [foldl_update, foldl_update]
  have e1 : Function.update N.vec b (N.vec b + (N.conn e).sum) d = N.vec d := Function.update_of_ne k.bd.symm _ _
  have e2 : (Data.append (Data.append ⟨Function.update (Function.update N.vec b (N.vec b + (N.conn e).sum)) d
      (N.vec d + (N.conn (neg e)).sum), N.conn⟩ (neg b) e) (neg d) (neg e)).vec = Function.update (Function.update N.vec b
      (N.vec b + (N.conn e).sum)) d (N.vec d + (N.conn (neg e)).sum) := rfl
  have e3 : Function.update (Function.update N.vec b (N.vec b + (N.conn e).sum)) d (N.vec d + (N.conn (neg e)).sum) d =
      N.vec d + (N.conn (neg e)).sum := Function.update_self ..
  have e4 : Function.update (Function.update N.vec b (N.vec b + (N.conn e).sum)) d (N.vec d + (N.conn (neg e)).sum) a = N.vec a := by
    rw [Function.update_of_ne k.ad, Function.update_of_ne k.ab]
  have e5 : Function.update (Function.update (Function.update N.vec b (N.vec b + (N.conn e).sum)) d (N.vec d + (N.conn (neg e)).sum)) e
      (N.vec d + (N.conn (neg e)).sum + N.vec a) e = N.vec d + (N.conn (neg e)).sum + N.vec a := Function.update_self ..
  rw [e1, e2, e3, e4, e5, hvec]
  rw [if_neg fun j => j.2 (hvec' _ rfl)]
  congr 1
  rw [← hconn]
  rfl

/-- What a flip does. -/
structure Flips (C C' : Collapsed T) : Prop where
  good : C'.Good
  upright : C'.Upright
  original : C'.original = C.original
  vertical : C'.vertical = C.vertical
  all : C'.net.all = C.net.all ∨ ∃ w, C'.net.all = -w ::ₘ w ::ₘ C.net.all
  total : C'.net.total = C.net.total

/-- Flips of large edges that go to the right. -/
theorem flip_right (A : Option (Approx T K)) (dbg : Bool) (h : C.Good) (hu : C.Upright) (he : e < C.tri.size) (hb : C.Between e)
    (hl : IsLarge C.seen C.vertical e) (hr : 0 < Vec.cross (C.vec e) C.vertical) :
    ∃ S m, C.tri.flip dbg e = (S, .ok ()) ∧ afterFlip dbg S e ⟨C.vec, C.conn⟩ = .ok m ∧
      (⟨C.original, C.vertical, S, m.vec, m.conn⟩ : Collapsed T).Good ∧ S.size = C.tri.size ∧
      (∀ z < S.size, z ≠ e → z ≠ neg e → Vec.cross (m.vec z) C.vertical ≠ 0) ∧
      (⟨C.original, C.vertical, S, m.vec, m.conn⟩ : Collapsed T).net.all = C.net.all ∧
      (⟨C.original, C.vertical, S, m.vec, m.conn⟩ : Collapsed T).net.total = C.net.total ∧
      Moved C ⟨C.original, C.vertical, S, m.vec, m.conn⟩ (Near C.tri e) 1 ∧ ∀ z, Near S e z ↔ Near C.tri e z := by
  have k := h.kite hu he hb hl hr
  have near : ∀ z, Near C.tri e z ↔ Net.Close e (C.tri.nextInFace e) (C.tri.nextInFace (C.tri.nextInFace e)) (C.tri.nextInFace (neg e))
    (C.tri.nextInFace (C.tri.nextInFace (neg e))) z := fun z => Iff.rfl
  generalize ha : C.tri.nextInFace e = a at k near
  generalize hb' : C.tri.nextInFace a = b at k near
  generalize hc : C.tri.nextInFace (neg e) = c at k near
  generalize hd : C.tri.nextInFace c = d at k near
  have nodup : [e, a, b, neg e, c, d].Nodup := by
    simp [k.ea, k.eb, (neg_ne e).symm, k.ce.symm, k.de.symm, k.ab, k.ae', k.ac, k.ad, k.be', k.bc, k.bd, k.e'c, k.e'd, k.cd]
  have q := h.linked.quad (fun z hz => Tri.Inv.ne_fix h.inv (mem_net.2 hz)) he k.fe k.fa k.fb k.fe' k.fc k.fd nodup
  obtain ⟨S, s1, s2⟩ := h.linked.flipped q dbg
  have hf : ∀ z, S.faces.fwd z = (C.net.flip e a b c d).f z := by
    intro z
    by_cases hm : z ∈ [e, a, b, neg e, c, d]
    · rcases Tri.mem_six_cases hm with rfl | rfl | rfl | rfl | rfl | rfl
      · rw [s2.fe, k.f_e]
      · rw [s2.fa, k.f_a]
      · rw [s2.fb, k.f_b]
      · rw [s2.fe', k.f_e']
      · rw [s2.fc, k.f_c]
      · rw [s2.fd, k.f_d]
    · rw [s2.fx z hm]
      simp only [List.mem_cons, List.not_mem_nil, or_false, not_or] at hm
      obtain ⟨m1, m2, m3, m4, m5, m6⟩ := hm
      unfold Net.flip
      dsimp only
      rw [if_neg m1, if_neg m3, if_neg m5, if_neg m4, if_neg m6, if_neg m2]
      rfl
  have hm := afterFlip_spec dbg k s2.hf hf
  have hsize : S.size = C.tri.size := s2.vsize
  have hnet : (⟨C.original, C.vertical, S, (C.net.flip e a b c d).vec, (C.net.flip e a b c d).conn⟩ : Collapsed T).net =
      C.net.flip e a b c d := by
    unfold net
    dsimp only
    rw [hsize, show S.faces.fwd = (C.net.flip e a b c d).f from funext hf]
    rfl
  have out : ∀ {z}, ¬ Near C.tri e z → z ∉ [e, a, b, neg e, c, d] := fun hz hm => hz ((near _).2 ⟨_, hm, .inl rfl⟩)
  have next : ∀ {z}, ¬ Near C.tri e z → S.nextInFace z = C.tri.nextInFace z := fun hz => s2.fx _ (out hz)
  have cr : ∀ {z}, z ≠ e → z ≠ neg e → Vec.cross ((C.net.flip e a b c d).vec z) C.vertical = Vec.cross (C.vec z) C.vertical :=
    fun z1 z2 => k.cross_vec z1 z2
  have back : ∀ {y z}, C.tri.nextInFace z = C.tri.nextInFace y → z = y := by
    intro y z hyz
    rw [← h.linked.hf.left z, ← h.linked.hf.left y]
    exact congrArg _ hyz
  refine ⟨S, _, s1, hm, ⟨Tri.Flipped.linked h.linked q s2, ?_, h.v0⟩, hsize, ?_, ?_, ?_, ⟨fun z => rfl, ?_, ?_, ?_, ?_⟩, ?_⟩
  · rw [hnet]
    exact k.flip_inv
  · intro z hz z1 z2
    dsimp only
    rw [k.cross_vec z1 z2]
    exact hu z (hsize ▸ hz)
  · rw [hnet, k.all_eq]
  · rw [hnet, k.total_eq]
  · exact fun z hz _ => hsize ▸ hz
  · intro z _ hz
    have := out hz
    simp only [List.mem_cons, List.not_mem_nil, or_false, not_or] at this
    exact cr this.1 this.2.2.2.1
  · intro z _ hz
    have := out hz
    simp only [List.mem_cons, List.not_mem_nil, or_false, not_or] at this
    dsimp only [Equiv.Perm.coe_one, id]
    rw [next hz]
    refine cr (fun j => this.2.2.1 (back ?_)) (fun j => this.2.2.2.2.2 (back ?_))
    · rw [j]; exact k.fb.symm
    · rw [j]; exact k.fd.symm
  · exact fun z _ hz _ => next hz
  · intro z
    rw [near]
    unfold Near
    rw [show S.nextInFace e = b from s2.fe, show S.nextInFace b = c from s2.fb, show S.nextInFace (neg e) = d from s2.fe',
      show S.nextInFace d = a from s2.fd]
    unfold Net.Close
    refine exists_congr fun w => and_congr_left fun _ => ?_
    simp only [List.mem_cons, List.not_mem_nil, or_false]
    tauto

theorem ccw_iff (A : Option (Approx T K)) : Vec.ccw A C.vertical (C.vec e) = .counterclockwise ↔ 0 < -Vec.cross (C.vec e) C.vertical := by
  rw [Vec.ccw_eq, Vec.ccwExact_ccw, Vec.cross_comm]

/-- The half edge that is flipped goes to the right. -/
theorem right_cases (A : Option (Approx T K)) (h : C.Good) (hu : C.Upright) (he : e < C.tri.size) :
    ∃ y, (y = e ∨ y = neg e) ∧ 0 < Vec.cross (C.vec y) C.vertical ∧
      (if Vec.ccw A C.vertical (C.vec e) = .counterclockwise then neg e else e) = y := by
  simp only [ccw_iff]
  by_cases hr : 0 < -Vec.cross (C.vec e) C.vertical
  · exact ⟨neg e, .inr rfl, by rw [h.cross_neg he]; exact hr, if_pos hr⟩
  · refine ⟨e, .inl rfl, ?_, if_neg hr⟩
    rcases lt_trichotomy (Vec.cross (C.vec e) C.vertical) 0 with k | k | k
    · exact absurd (by linarith) hr
    · exact absurd k (hu e he)
    · exact k

theorem Near.opposite (S : Tri) (e z : HE) : Near S (neg e) z ↔ Near S e z := by
  unfold Near
  rw [neg_neg']
  unfold Net.Close
  refine exists_congr fun w => and_congr_left fun _ => ?_
  rw [neg_neg']
  simp only [List.mem_cons, List.not_mem_nil, or_false]
  tauto

/-- What happens to half edges and to attached data. -/
structure Followed (A : Option (Approx T K)) (dbg : Bool) (C C' : Collapsed T) (e : HE) (σ : Equiv.Perm ℕ) : Prop where
  flip : C.flip A dbg e = (C', .ok ())
  flips : Flips C C'
  moved : Moved C C' (Near C.tri e) σ
  track : (C.collapsesAt A dbg e = none ∧ σ = 1) ∨ ∃ S y, (y = e ∨ y = neg e) ∧ C.collapsesAt A dbg e = some (S, y) ∧
    S.size = C.tri.size ∧ Tracks S y (Near C.tri e) σ

theorem Moved.comp {C1 C2 : Collapsed T} {Q : HE → Prop} {σ : Equiv.Perm ℕ} (h : Moved C C1 Q 1) (hs : C1.vertical = C.vertical)
    (h' : Moved C1 C2 Q σ) : Moved C C2 Q σ := by
  refine ⟨h'.odd, fun z hz hq => h'.lt z (h.lt z hz hq) hq, fun z hz hq => ?_, fun z hz hq => ?_, fun z hz hq hn => ?_⟩
  · have h1 := h'.vec z (h.lt z hz hq) hq
    rw [hs] at h1
    exact h1.trans (h.vec z hz hq)
  · have h1 := h'.next z (h.lt z hz hq) hq
    rw [hs] at h1
    exact h1.trans (h.next z hz hq)
  · have h1 : C1.tri.nextInFace z = C.tri.nextInFace z := h.face z hz hq hn
    rw [h'.face z (h.lt z hz hq) hq (by rw [h1]; exact hn), h1]

theorem Moved.congr {C1 : Collapsed T} {Q Q' : HE → Prop} {σ : Equiv.Perm ℕ} (h : Moved C C1 Q σ) (hq : ∀ z, Q z ↔ Q' z) : Moved C C1 Q' σ := by
  have : Q = Q' := funext fun z => propext (hq z)
  exact this ▸ h

theorem Tracks.congr {S : Tri} {Q Q' : HE → Prop} {σ : Equiv.Perm ℕ} (h : Tracks S e Q σ) (hq : ∀ z, Q z ↔ Q' z) : Tracks S e Q' σ := by
  have : Q = Q' := funext fun z => propext (hq z)
  exact this ▸ h

theorem flip_follows (A : Option (Approx T K)) (dbg : Bool) (h : C.Good) (hu : C.Upright) (he : e < C.tri.size) (hb : C.Between e)
    (hl : IsLarge C.seen C.vertical e) : ∃ C' σ, Followed A dbg C C' e σ := by
  have hmake : ∃ V, Vertical.make C.vertical = .ok V := by
    unfold Vertical.make
    rw [if_neg (by simpa [Vec.nonzero_iff] using h.v0)]
    exact ⟨_, rfl⟩
  obtain ⟨V, hV⟩ := hmake
  have hlarge := h.large_asks he hV
  obtain ⟨y, y0, y4, y5⟩ := right_cases A h hu he
  have y1 : y < C.tri.size := by rcases y0 with rfl | rfl <;> [exact he; exact h.neg_lt he]
  have y2 : C.Between y := by rcases y0 with rfl | rfl <;> [exact hb; exact hb.neg]
  have y3 : IsLarge C.seen C.vertical y := by rcases y0 with rfl | rfl <;> [exact hl; exact (h.isLarge_neg he).2 hl]
  have near : ∀ z, Near C.tri y z ↔ Near C.tri e z := by
    rcases y0 with rfl | rfl
    · exact fun z => Iff.rfl
    · exact Near.opposite _ _
  obtain ⟨S, m, s1, s2, s3, s4, s5, s6, s7, s8, s9⟩ := flip_right A dbg h hu y1 y2 y3 y4
  have hy : y < S.size := s4 ▸ y1
  have hflip : ∀ C' : Collapsed T, (if Vec.ccw A C.vertical (m.vec y) = .collinear then
      match collapse A dbg ⟨C.original, C.vertical, S, m.vec, m.conn⟩ y with
      | .error err => (⟨C.original, C.vertical, S, m.vec, m.conn⟩, .error err)
      | .ok (C, _) => (C, .ok ())
      else (⟨C.original, C.vertical, S, m.vec, m.conn⟩, .ok ())) = (C', Except.ok ()) → C.flip A dbg e = (C', .ok ()) := by
    intro C' hC
    unfold flip
    rw [hV]
    dsimp only
    rw [if_neg (by rw [hlarge.2 hl]; simp), if_neg (fun j => j hb), y5, s1]
    dsimp only
    rw [s2]
    dsimp only
    rw [if_neg (fun j => by rw [s3.face_closed hy] at j; cases j.2)]
    exact hC
  by_cases hx : Vec.cross (m.vec y) C.vertical = 0
  · have hx' := (Vertical.collinear_iff A _ _).2 hx
    obtain ⟨C', p, c1, c2, σ, c3, c4⟩ := collapse_spec A dbg s3 hy hx
    refine ⟨C', σ, hflip C' ?_, ⟨c2.good, ?_, c2.original, c2.vertical, .inr ⟨m.vec y, ?_⟩, c2.total.trans s7⟩,
      (s8.congr near).comp rfl (c3.congr fun z => (s9 z).trans (near z)),
      .inr ⟨S, y, y0, ?_, s4, c4.congr fun z => (s9 z).trans (near z)⟩⟩
    · rw [if_pos hx', c1]
    · intro z hz
      obtain ⟨w, w1, w2, w3, w4⟩ := c2.old z hz
      rw [c2.vertical]
      dsimp only at w4 ⊢
      rw [w4]
      exact s5 w w1 w2 w3
    · rw [c2.all, s6, c2.vec_neg]
    · unfold collapsesAt
      dsimp only
      rw [y5, s1]
      dsimp only
      rw [s2]
      dsimp only
      rw [if_pos hx']
  · have hx' := fun j => hx ((Vertical.collinear_iff A C.vertical (m.vec y)).1 j)
    refine ⟨_, 1, hflip _ (if_neg hx'), ⟨s3, ?_, rfl, rfl, .inl s6, s7⟩, s8.congr near, .inl ⟨?_, rfl⟩⟩
    · intro z hz
      by_cases z1 : z = y
      · rw [z1]; exact hx
      by_cases z2 : z = neg y
      · rw [z2]
        have := s3.cross_neg hy
        dsimp only at this ⊢
        rw [this]
        exact neg_ne_zero.2 hx
      exact s5 z hz z1 z2
    · unfold collapsesAt
      dsimp only
      rw [y5, s1]
      dsimp only
      rw [s2]
      dsimp only
      rw [if_neg hx']

theorem flip_spec (A : Option (Approx T K)) (dbg : Bool) (h : C.Good) (hu : C.Upright) (he : e < C.tri.size) :
    (C.Between e ∧ IsLarge C.seen C.vertical e → ∃ C', C.flip A dbg e = (C', .ok ()) ∧ Flips C C') ∧
    (¬ (C.Between e ∧ IsLarge C.seen C.vertical e) → C.flip A dbg e = (C, .error .invalidArgument)) := by
  constructor
  · rintro ⟨hb, hl⟩
    obtain ⟨C', σ, f⟩ := flip_follows A dbg h hu he hb hl
    exact ⟨C', f.flip, f.flips⟩
  · intro hn
    have hmake : ∃ V, Vertical.make C.vertical = .ok V := by
      unfold Vertical.make
      rw [if_neg (by simpa [Vec.nonzero_iff] using h.v0)]
      exact ⟨_, rfl⟩
    obtain ⟨V, hV⟩ := hmake
    have hlarge := h.large_asks he hV
    unfold flip
    rw [hV]
    dsimp only
    by_cases hl : IsLarge C.seen C.vertical e
    · rw [if_neg (by rw [hlarge.2 hl]; simp), if_pos]
      exact fun k => hn ⟨k, hl⟩
    · rw [if_pos]
      rw [← Bool.not_eq_true]
      exact fun k => hl (hlarge.1 k)

end Verif.Collapsed
