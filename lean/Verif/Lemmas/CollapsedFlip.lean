import Verif.Lemmas.CollapsedNet

/-!
# Flips in faces that are only connected through vertical saddle connections
-/

set_option linter.unusedSectionVars false

namespace Verif

open Vec

variable {T : Type} [CommRing T] [LinearOrder T] [IsStrictOrderedRing T]

namespace Net

variable {v : Vec T} {N N' : Net T} {e a b c d z : HE}

theorem parallel_nonneg {v k w : Vec T} (hv : v ≠ 0) (hk : cross k v = 0) (h : dot k v * cross w v ≤ 0) : 0 ≤ cross k w := by
  have h1 := parallel_mul (w := w) hk
  have h2 := dot_self_pos hv
  by_contra hc
  push Not at hc
  nlinarith

/-- The quadrilateral that surrounds a large edge is convex. -/
theorem convex {v e' a d n D U : Vec T} (hv : v ≠ 0) (hn : n = -e' + D + U) (hD : cross D v = 0) (hD' : dot D v ≤ 0)
    (hU : cross U v = 0) (hU' : 0 ≤ dot U v) (he : 0 < cross e' v) (ha : cross a v < 0) (hd : 0 < cross d v)
    (hde : cross d v ≤ cross e' v) (hea : 0 < cross e' a) (hdn : 0 < cross d n) : 0 < cross (d + U) a := by
  have k1 : 0 ≤ cross D d := parallel_nonneg hv hD (by nlinarith)
  have k2 : 0 ≤ cross U (d - e') := by
    refine parallel_nonneg hv hU ?_
    rw [cross_sub_left]
    nlinarith
  have k3 : 0 < cross e' (d + U) := by
    rw [hn, cross_add_right, cross_add_right, cross_neg_right] at hdn
    rw [cross_sub_right] at k2
    rw [cross_add_right, cross_comm d e', cross_comm U e']
    rw [cross_comm U d, cross_comm D d] at hdn
    linarith
  have k4 : cross (d + U) v = cross d v := by rw [cross_add_left, hU, add_zero]
  have k5 : cross (d + U) a * cross e' v = cross e' (d + U) * -cross a v + cross (d + U) v * cross e' a := by
    unfold cross
    ring
  rw [k4] at k5
  have : 0 < cross (d + U) a * cross e' v := by
    rw [k5]
    have := mul_pos k3 (neg_pos.2 ha)
    have := mul_pos hd hea
    linarith
  exact (mul_pos_iff_of_pos_right he).1 this

theorem dot_sum_nonneg (l : List (Vec T)) (v : Vec T) (h : ∀ k ∈ l, 0 ≤ dot k v) : 0 ≤ dot l.sum v := by
  induction l with
  | nil => simp [dot]
  | cons k l ih =>
    have h1 := h k (by simp)
    have h2 := ih fun k hk => h k (by simp [hk])
    have : dot (k + l.sum) v = dot k v + dot l.sum v := by unfold dot; simp only [Vec.add_x, Vec.add_y]; ring
    rw [List.sum_cons, this]
    linarith

theorem dot_sum_nonpos (l : List (Vec T)) (v : Vec T) (h : ∀ k ∈ l, dot k v ≤ 0) : dot l.sum v ≤ 0 := by
  induction l with
  | nil => simp [dot]
  | cons k l ih =>
    have h1 := h k (by simp)
    have h2 := ih fun k hk => h k (by simp [hk])
    have : dot (k + l.sum) v = dot k v + dot l.sum v := by unfold dot; simp only [Vec.add_x, Vec.add_y]; ring
    rw [List.sum_cons, this]
    linarith

/-- The faces `(e, a, b)` and `(-e, c, d)` where `e` is going right and the outer half edges do not go vertically. -/
structure Kite (v : Vec T) (N : Net T) (e a b c d : HE) : Prop where
  inv : N.Inv v
  v0 : v ≠ 0
  closed : ∀ z ∈ N.L, neg z ∈ N.L
  mem : e ∈ N.L
  fe : N.f e = a
  fa : N.f a = b
  fb : N.f b = e
  fe' : N.f (neg e) = c
  fc : N.f c = d
  fd : N.f d = neg e
  right : 0 < cross (N.vec e) v
  left_a : cross (N.vec a) v < 0
  left_b : cross (N.vec b) v < 0
  right_c : 0 < cross (N.vec c) v
  right_d : 0 < cross (N.vec d) v

/-- The edge has been flipped. -/
def flip (N : Net T) (e a b c d : HE) : Net T where
  L := N.L
  f z := if z = e then b else if z = b then c else if z = c then e else if z = neg e then d else if z = d then a else if z = a then neg e else N.f z
  vec z := if z = e then N.vec d + (N.conn (neg e)).sum + N.vec a
    else if z = neg e then -(N.vec d + (N.conn (neg e)).sum + N.vec a)
    else if z = b then N.vec b + (N.conn e).sum
    else if z = d then N.vec d + (N.conn (neg e)).sum
    else N.vec z
  conn z := if z = e then [] else if z = neg e then []
    else if z = neg b then N.conn (neg b) ++ N.conn e
    else if z = neg d then N.conn (neg d) ++ N.conn (neg e)
    else N.conn z

namespace Kite

theorem mem_a (k : Kite v N e a b c d) : a ∈ N.L := k.fe ▸ k.inv.maps _ k.mem
theorem mem_b (k : Kite v N e a b c d) : b ∈ N.L := k.fa ▸ k.inv.maps _ k.mem_a
theorem mem_e' (k : Kite v N e a b c d) : neg e ∈ N.L := k.closed _ k.mem
theorem mem_c (k : Kite v N e a b c d) : c ∈ N.L := k.fe' ▸ k.inv.maps _ k.mem_e'
theorem mem_d (k : Kite v N e a b c d) : d ∈ N.L := k.fc ▸ k.inv.maps _ k.mem_c

theorem left_e' (k : Kite v N e a b c d) : cross (N.vec (neg e)) v < 0 := by
  rw [k.inv.cross_neg k.mem k.mem_e']
  linarith [k.right]

theorem lr {z w : HE} (h : cross (N.vec z) v < 0) (h' : 0 < cross (N.vec w) v) : z ≠ w := by
  rintro rfl
  linarith

theorem ce (k : Kite v N e a b c d) : c ≠ e := fun h => lr k.left_a k.right_d (by rw [← k.fe, ← k.fc, h])
theorem ae' (k : Kite v N e a b c d) : a ≠ neg e := fun h => lr k.left_b k.right_c (by rw [← k.fa, ← k.fe', h])
theorem de (k : Kite v N e a b c d) : d ≠ e := fun h => k.ae' (by rw [← k.fe, ← k.fd, h])
theorem be' (k : Kite v N e a b c d) : b ≠ neg e := fun h => k.ce (by rw [← k.fe', ← h, k.fb])
theorem ea (k : Kite v N e a b c d) : e ≠ a := (lr k.left_a k.right).symm
theorem eb (k : Kite v N e a b c d) : e ≠ b := (lr k.left_b k.right).symm
theorem ab (k : Kite v N e a b c d) : a ≠ b := fun h => k.ea (k.inv.inj _ k.mem _ k.mem_a (by rw [k.fe, k.fa, h]))
theorem cd (k : Kite v N e a b c d) : c ≠ d := fun h =>
  lr k.left_e' k.right_c (k.inv.inj _ k.mem_e' _ k.mem_c (by rw [k.fe', k.fc, h]))
theorem e'c (k : Kite v N e a b c d) : neg e ≠ c := lr k.left_e' k.right_c
theorem e'd (k : Kite v N e a b c d) : neg e ≠ d := lr k.left_e' k.right_d
theorem ac (k : Kite v N e a b c d) : a ≠ c := lr k.left_a k.right_c
theorem ad (k : Kite v N e a b c d) : a ≠ d := lr k.left_a k.right_d
theorem bc (k : Kite v N e a b c d) : b ≠ c := lr k.left_b k.right_c
theorem bd (k : Kite v N e a b c d) : b ≠ d := lr k.left_b k.right_d
theorem nbe (k : Kite v N e a b c d) : neg b ≠ e := fun h => k.be' (by rw [← h, neg_neg'])
theorem nde' (k : Kite v N e a b c d) : neg d ≠ neg e := fun h => k.de (neg_inj'.1 h)
theorem nbe' (k : Kite v N e a b c d) : neg b ≠ neg e := fun h => k.eb (neg_inj'.1 h).symm
theorem nde (k : Kite v N e a b c d) : neg d ≠ e := fun h => k.e'd (by rw [← h, neg_neg'])
theorem nbd (k : Kite v N e a b c d) : neg b ≠ neg d := fun h => k.bd (neg_inj'.1 h)

variable (k : Kite v N e a b c d)

include k

theorem f_e : (N.flip e a b c d).f e = b := by unfold flip; dsimp only; rw [if_pos rfl]
theorem f_b : (N.flip e a b c d).f b = c := by unfold flip; dsimp only; rw [if_neg k.eb.symm, if_pos rfl]
theorem f_c : (N.flip e a b c d).f c = e := by unfold flip; dsimp only; rw [if_neg k.ce, if_neg k.bc.symm, if_pos rfl]
theorem f_e' : (N.flip e a b c d).f (neg e) = d := by
  unfold flip; dsimp only; rw [if_neg (neg_ne e), if_neg k.be'.symm, if_neg k.e'c, if_pos rfl]
theorem f_d : (N.flip e a b c d).f d = a := by
  unfold flip; dsimp only; rw [if_neg k.de, if_neg k.bd.symm, if_neg k.cd.symm, if_neg k.e'd.symm, if_pos rfl]
theorem f_a : (N.flip e a b c d).f a = neg e := by
  unfold flip; dsimp only; rw [if_neg k.ea.symm, if_neg k.ab, if_neg k.ac, if_neg k.ae', if_neg k.ad, if_pos rfl]

omit k in
/-- Half edges of other faces. -/
def Far (N : Net T) (e a b c d z : HE) : Prop := z ∈ N.L ∧ z ≠ e ∧ z ≠ a ∧ z ≠ b ∧ z ≠ neg e ∧ z ≠ c ∧ z ≠ d

omit k in
theorem f_far {z : HE} (h : Far N e a b c d z) : (N.flip e a b c d).f z = N.f z := by
  obtain ⟨-, h1, h2, h3, h4, h5, h6⟩ := h
  unfold flip; dsimp only; rw [if_neg h1, if_neg h3, if_neg h5, if_neg h4, if_neg h6, if_neg h2]

theorem far_f {z : HE} (h : Far N e a b c d z) : Far N e a b c d (N.f z) := by
  obtain ⟨h0, h1, h2, h3, h4, h5, h6⟩ := h
  refine ⟨k.inv.maps _ h0, fun j => h3 ?_, fun j => h1 ?_, fun j => h2 ?_, fun j => h6 ?_, fun j => h4 ?_, fun j => h5 ?_⟩
  · exact k.inv.inj _ h0 _ k.mem_b (by rw [j, k.fb])
  · exact k.inv.inj _ h0 _ k.mem (by rw [j, k.fe])
  · exact k.inv.inj _ h0 _ k.mem_a (by rw [j, k.fa])
  · exact k.inv.inj _ h0 _ k.mem_d (by rw [j, k.fd])
  · exact k.inv.inj _ h0 _ k.mem_e' (by rw [j, k.fe'])
  · exact k.inv.inj _ h0 _ k.mem_c (by rw [j, k.fc])

omit k in
theorem cases {z : HE} (h : z ∈ N.L) : z = e ∨ z = a ∨ z = b ∨ z = neg e ∨ z = c ∨ z = d ∨ Far N e a b c d z := by
  unfold Far
  tauto

theorem vec_e : (N.flip e a b c d).vec e = N.vec d + (N.conn (neg e)).sum + N.vec a := by unfold flip; dsimp only; rw [if_pos rfl]
theorem vec_e' : (N.flip e a b c d).vec (neg e) = -(N.vec d + (N.conn (neg e)).sum + N.vec a) := by
  unfold flip; dsimp only; rw [if_neg (neg_ne e), if_pos rfl]
theorem vec_b : (N.flip e a b c d).vec b = N.vec b + (N.conn e).sum := by
  unfold flip; dsimp only; rw [if_neg k.eb.symm, if_neg k.be', if_pos rfl]
theorem vec_d : (N.flip e a b c d).vec d = N.vec d + (N.conn (neg e)).sum := by
  unfold flip; dsimp only; rw [if_neg k.de, if_neg k.e'd.symm, if_neg k.bd.symm, if_pos rfl]

omit k in
theorem vec_other {z : HE} (h1 : z ≠ e) (h2 : z ≠ neg e) (h3 : z ≠ b) (h4 : z ≠ d) : (N.flip e a b c d).vec z = N.vec z := by
  unfold flip; dsimp only; rw [if_neg h1, if_neg h2, if_neg h3, if_neg h4]

theorem vec_a : (N.flip e a b c d).vec a = N.vec a := vec_other k.ea.symm k.ae' k.ab k.ad
theorem vec_c : (N.flip e a b c d).vec c = N.vec c := vec_other k.ce k.e'c.symm k.bc.symm k.cd

omit k in
theorem vec_far {z : HE} (h : Far N e a b c d z) : (N.flip e a b c d).vec z = N.vec z := vec_other h.2.1 h.2.2.2.2.1 h.2.2.2.1 h.2.2.2.2.2.2

theorem conn_e : (N.flip e a b c d).conn e = [] := by unfold flip; dsimp only; rw [if_pos rfl]
theorem conn_e' : (N.flip e a b c d).conn (neg e) = [] := by unfold flip; dsimp only; rw [if_neg (neg_ne e), if_pos rfl]
theorem conn_b' : (N.flip e a b c d).conn (neg b) = N.conn (neg b) ++ N.conn e := by
  unfold flip; dsimp only; rw [if_neg k.nbe, if_neg k.nbe', if_pos rfl]
theorem conn_d' : (N.flip e a b c d).conn (neg d) = N.conn (neg d) ++ N.conn (neg e) := by
  unfold flip; dsimp only; rw [if_neg k.nde, if_neg k.nde', if_neg k.nbd.symm, if_pos rfl]
omit k in
theorem conn_other {z : HE} (h1 : z ≠ e) (h2 : z ≠ neg e) (h3 : z ≠ neg b) (h4 : z ≠ neg d) : (N.flip e a b c d).conn z = N.conn z := by
  unfold flip; dsimp only; rw [if_neg h1, if_neg h2, if_neg h3, if_neg h4]

theorem sum_left : N.vec e + N.vec a + N.vec b = 0 := by
  have := (k.inv.face e k.mem).resolve_right fun h => k.ae' (by rw [← k.fe]; exact h.1)
  have := this.2.1
  rwa [k.fe, k.fa] at this

theorem pos_left : 0 < cross (N.vec e) (N.vec a) := by
  have := (k.inv.face e k.mem).resolve_right fun h => k.ae' (by rw [← k.fe]; exact h.1)
  have := this.2.2
  rwa [k.fe] at this

theorem tri_right : N.IsTri (neg e) := (k.inv.face _ k.mem_e').resolve_right fun h => k.ce (by rw [← k.fe', h.1, neg_neg'])

theorem sum_right : N.vec (neg e) + N.vec c + N.vec d = 0 := by
  have := k.tri_right.2.1
  rwa [k.fe', k.fc] at this

theorem pos_right : 0 < cross (N.vec (neg e)) (N.vec c) := by
  have := k.tri_right.2.2
  rwa [k.fe'] at this

theorem opp : N.vec (neg e) = -N.vec e + (N.conn e).sum + (N.conn (neg e)).sum := by
  have := k.inv.opp e k.mem k.mem_e'
  rw [add_assoc, ← this]
  abel

theorem cross_D : cross (N.conn e).sum v = 0 := k.inv.cross_conn k.mem
theorem cross_U : cross (N.conn (neg e)).sum v = 0 := k.inv.cross_conn k.mem_e'

theorem down {w : Vec T} (hw : w ∈ N.conn e) : dot w v < 0 := by
  have := (k.inv.vert e k.mem w hw).2
  have := k.right
  by_contra hc
  push Not at hc
  nlinarith

theorem up {w : Vec T} (hw : w ∈ N.conn (neg e)) : 0 < dot w v := by
  have := (k.inv.vert _ k.mem_e' w hw).2
  have := k.left_e'
  by_contra hc
  push Not at hc
  nlinarith

theorem dot_D : dot (N.conn e).sum v ≤ 0 := dot_sum_nonpos _ _ fun _ h => (k.down h).le
theorem dot_U : 0 ≤ dot (N.conn (neg e)).sum v := dot_sum_nonneg _ _ fun _ h => (k.up h).le

theorem pos_d : 0 < cross (N.vec d + (N.conn (neg e)).sum) (N.vec a) := by
  have h1 := congrArg (cross · v) k.sum_right
  simp only [cross_add_left, cross_zero_left, k.inv.cross_neg k.mem k.mem_e'] at h1
  refine convex k.v0 k.opp k.cross_D k.dot_D k.cross_U k.dot_U k.right k.left_a k.right_d (by linarith [k.right_c]) k.pos_left ?_
  have := k.tri_right.next.next.2.2
  rwa [k.fe', k.fc, k.fd] at this

theorem pos_b : 0 < cross (N.vec b + (N.conn e).sum) (N.vec c) := by
  have h1 := congrArg (cross · v) k.sum_left
  simp only [cross_add_left, cross_zero_left] at h1
  have h2 : ∀ w : Vec T, dot w (-v) = -dot w v := fun w => by unfold dot; simp only [Vec.neg_x, Vec.neg_y]; ring
  have hn : N.vec e = -N.vec (neg e) + (N.conn (neg e)).sum + (N.conn e).sum := by rw [k.opp]; abel
  refine convex (neg_ne_zero.2 k.v0) hn ?_ ?_ ?_ ?_ ?_ ?_ ?_ ?_ k.pos_right ?_
  · rw [cross_neg_right, k.cross_U, neg_zero]
  · rw [h2]; linarith [k.dot_U]
  · rw [cross_neg_right, k.cross_D, neg_zero]
  · rw [h2]; linarith [k.dot_D]
  · rw [cross_neg_right]; linarith [k.left_e']
  · rw [cross_neg_right]; linarith [k.right_c]
  · rw [cross_neg_right]; linarith [k.left_b]
  · rw [cross_neg_right, cross_neg_right, k.inv.cross_neg k.mem k.mem_e']; linarith [k.left_a]
  · have := ((k.inv.face e k.mem).resolve_right fun h => k.ae' (by rw [← k.fe]; exact h.1)).next.next.2.2
    rwa [k.fe, k.fa, k.fb] at this

theorem tri_e : (N.flip e a b c d).IsTri e := by
  have hs : (N.flip e a b c d).vec e + (N.flip e a b c d).vec b + (N.flip e a b c d).vec c = 0 := by
    rw [k.vec_e, k.vec_b, k.vec_c]
    have h1 := k.sum_left
    have h2 := k.sum_right
    rw [k.opp] at h2
    have : N.vec d + (N.conn (neg e)).sum + N.vec a + (N.vec b + (N.conn e).sum) + N.vec c =
      (N.vec e + N.vec a + N.vec b) + (-N.vec e + (N.conn e).sum + (N.conn (neg e)).sum + N.vec c + N.vec d) := by abel
    rw [this, h1, h2, add_zero]
  refine ⟨by rw [k.f_e, k.f_b, k.f_c], by rw [k.f_e, k.f_b]; exact hs, ?_⟩
  have : (N.flip e a b c d).vec e = -(N.flip e a b c d).vec b - (N.flip e a b c d).vec c := by
    rw [← sub_eq_zero, ← hs]; abel
  rw [k.f_e, this, cross_sub_left, cross_neg_left, cross_self, neg_zero, zero_sub, ← cross_comm, k.vec_b, k.vec_c]
  exact k.pos_b

theorem tri_e' : (N.flip e a b c d).IsTri (neg e) := by
  refine ⟨by rw [k.f_e', k.f_d, k.f_a], ?_, ?_⟩
  · rw [k.f_e', k.f_d, k.vec_e', k.vec_d, k.vec_a]
    abel
  · rw [k.f_e', k.vec_e', k.vec_d, cross_neg_left, cross_add_left, cross_self, zero_add, ← cross_comm]
    exact k.pos_d

theorem cross_vec {z : HE} (h1 : z ≠ e) (h2 : z ≠ neg e) : cross ((N.flip e a b c d).vec z) v = cross (N.vec z) v := by
  by_cases h3 : z = b
  · rw [h3, k.vec_b, cross_add_left, k.cross_D, add_zero]
  by_cases h4 : z = d
  · rw [h4, k.vec_d, cross_add_left, k.cross_U, add_zero]
  rw [vec_other h1 h2 h3 h4]

theorem flip_inv : (N.flip e a b c d).Inv v := by
  have mem : ∀ z, z ∈ (N.flip e a b c d).L ↔ z ∈ N.L := fun _ => Iff.rfl
  refine ⟨?_, ?_, ?_, ?_, ?_⟩
  · intro z hz
    rw [mem] at hz ⊢
    rcases cases (e := e) (a := a) (b := b) (c := c) (d := d) hz with h | h | h | h | h | h | h
    · rw [h, k.f_e]; exact k.mem_b
    · rw [h, k.f_a]; exact k.mem_e'
    · rw [h, k.f_b]; exact k.mem_c
    · rw [h, k.f_e']; exact k.mem_d
    · rw [h, k.f_c]; exact k.mem
    · rw [h, k.f_d]; exact k.mem_a
    · rw [f_far h]; exact k.inv.maps _ hz
  · -- the inverse
    have key : ∀ z ∈ N.L, N.f (N.f (N.f z)) = z ∨ Far N e a b c d z := by
      intro z hz
      rcases cases (e := e) (a := a) (b := b) (c := c) (d := d) hz with h | h | h | h | h | h | h
      · left; rw [h, k.fe, k.fa, k.fb]
      · left; rw [h, k.fa, k.fb, k.fe]
      · left; rw [h, k.fb, k.fe, k.fa]
      · left; rw [h, k.fe', k.fc, k.fd]
      · left; rw [h, k.fc, k.fd, k.fe']
      · left; rw [h, k.fd, k.fe', k.fc]
      · right; exact h
    let g : HE → HE := fun y => if y = b then e else if y = c then b else if y = e then c else if y = d then neg e else if y = a then d
      else if y = neg e then a else y
    have hg : ∀ z ∈ N.L, (Far N e a b c d z ∧ Far N e a b c d ((N.flip e a b c d).f z)) ∨
        (g ((N.flip e a b c d).f z) = z ∧ ¬ Far N e a b c d ((N.flip e a b c d).f z)) := by
      intro z hz
      rcases cases (e := e) (a := a) (b := b) (c := c) (d := d) hz with h | h | h | h | h | h | h
      · right; rw [h, k.f_e]; exact ⟨if_pos rfl, fun j => j.2.2.2.1 rfl⟩
      · right; rw [h, k.f_a]
        refine ⟨?_, fun j => j.2.2.2.2.1 rfl⟩
        change (if _ then _ else _) = _
        rw [if_neg k.be'.symm, if_neg k.e'c, if_neg (neg_ne e), if_neg k.e'd, if_neg k.ae'.symm, if_pos rfl]
      · right; rw [h, k.f_b]
        refine ⟨?_, fun j => j.2.2.2.2.2.1 rfl⟩
        change (if _ then _ else _) = _
        rw [if_neg k.bc.symm, if_pos rfl]
      · right; rw [h, k.f_e']
        refine ⟨?_, fun j => j.2.2.2.2.2.2 rfl⟩
        change (if _ then _ else _) = _
        rw [if_neg k.bd.symm, if_neg k.cd.symm, if_neg k.de, if_pos rfl]
      · right; rw [h, k.f_c]
        refine ⟨?_, fun j => j.2.1 rfl⟩
        change (if _ then _ else _) = _
        rw [if_neg k.eb, if_neg k.ce.symm, if_pos rfl]
      · right; rw [h, k.f_d]
        refine ⟨?_, fun j => j.2.2.1 rfl⟩
        change (if _ then _ else _) = _
        rw [if_neg k.ab, if_neg k.ac, if_neg k.ea.symm, if_neg k.ad, if_pos rfl]
      · left; rw [f_far h]; exact ⟨h, k.far_f h⟩
    intro z hz w hw j
    rw [mem] at hz hw
    rcases hg z hz with ⟨z1, z2⟩ | ⟨z1, z2⟩ <;> rcases hg w hw with ⟨w1, w2⟩ | ⟨w1, w2⟩
    · rw [f_far z1, f_far w1] at j
      exact k.inv.inj _ hz _ hw j
    · exact absurd (j ▸ z2) w2
    · exact absurd (j.symm ▸ w2) z2
    · rw [← z1, ← w1, j]
  · intro z hz
    rw [mem] at hz
    rcases cases (e := e) (a := a) (b := b) (c := c) (d := d) hz with h | h | h | h | h | h | h
    · rw [h]; exact Or.inl k.tri_e
    · have := k.tri_e'.next.next; rw [k.f_e', k.f_d] at this; rw [h]; exact Or.inl this
    · have := k.tri_e.next; rw [k.f_e] at this; rw [h]; exact Or.inl this
    · rw [h]; exact Or.inl k.tri_e'
    · have := k.tri_e.next.next; rw [k.f_e, k.f_b] at this; rw [h]; exact Or.inl this
    · have := k.tri_e'.next; rw [k.f_e'] at this; rw [h]; exact Or.inl this
    · have h1 := k.far_f h
      have h2 := k.far_f h1
      rcases k.inv.face z hz with ⟨t1, t2, t3⟩ | ⟨t1, t2, t3, t4, t5⟩
      · left
        unfold IsTri
        rw [f_far h, f_far h1, f_far h2, vec_far h, vec_far h1, vec_far h2]
        exact ⟨t1, t2, t3⟩
      · right
        have h1' : Far N e a b c d (neg z) := by rwa [t1] at h1
        unfold IsThin
        rw [f_far h, f_far h1', vec_far h, vec_far h1']
        exact ⟨t1, t2, t3, t4, t5⟩
  · -- opposite half edges
    have hb : N.vec (neg b) + N.vec b = (N.conn (neg b)).sum + (N.conn b).sum := by
      have := k.inv.opp _ (k.closed _ k.mem_b) (by rw [neg_neg']; exact k.mem_b)
      rwa [neg_neg'] at this
    have hd : N.vec (neg d) + N.vec d = (N.conn (neg d)).sum + (N.conn d).sum := by
      have := k.inv.opp _ (k.closed _ k.mem_d) (by rw [neg_neg']; exact k.mem_d)
      rwa [neg_neg'] at this
    have kb : (N.flip e a b c d).vec b + (N.flip e a b c d).vec (neg b) =
        ((N.flip e a b c d).conn b).sum + ((N.flip e a b c d).conn (neg b)).sum := by
      by_cases hbd : neg b = d
      · have hdb : neg d = b := by rw [← hbd, neg_neg']
        have c1 := k.conn_d'
        rw [hdb] at c1
        rw [k.conn_b', c1, k.vec_b, hbd, k.vec_d, List.sum_append, List.sum_append]
        rw [hdb] at hd
        linear_combination (norm := abel) hd
      · have hdb : b ≠ neg d := fun h => hbd (by rw [h, neg_neg'])
        rw [k.conn_b', k.vec_b, vec_other k.nbe k.nbe' (neg_ne b) hbd, conn_other k.eb.symm k.be' (neg_ne b).symm hdb, List.sum_append]
        linear_combination (norm := abel) hb
    have kd : (N.flip e a b c d).vec d + (N.flip e a b c d).vec (neg d) =
        ((N.flip e a b c d).conn d).sum + ((N.flip e a b c d).conn (neg d)).sum := by
      by_cases hbd : neg b = d
      · have hdb : neg d = b := by rw [← hbd, neg_neg']
        rw [hbd] at kb
        rw [hdb, add_comm, kb, add_comm]
      · have hdb : neg d ≠ b := fun h => hbd (by rw [← h, neg_neg'])
        rw [k.conn_d', k.vec_d, vec_other k.nde k.nde' hdb (neg_ne d), conn_other k.de k.e'd.symm (fun h => hbd h.symm) (neg_ne d).symm,
          List.sum_append]
        linear_combination (norm := abel) hd
    intro z hz hz'
    rw [mem] at hz hz'
    by_cases h1 : z = e
    · rw [h1, k.conn_e, k.conn_e', k.vec_e, k.vec_e', add_neg_cancel]; simp
    by_cases h2 : z = neg e
    · rw [h2, neg_neg', k.conn_e, k.conn_e', k.vec_e, k.vec_e', neg_add_cancel]; simp
    by_cases h3 : z = b
    · rw [h3]; exact kb
    by_cases h4 : z = neg b
    · rw [h4, neg_neg', add_comm, kb, add_comm]
    by_cases h5 : z = d
    · rw [h5]; exact kd
    by_cases h6 : z = neg d
    · rw [h6, neg_neg', add_comm, kd, add_comm]
    have i1 : neg z ≠ e := fun h => h2 (by rw [← h, neg_neg'])
    have i2 : neg z ≠ neg e := fun h => h1 (neg_inj'.1 h)
    have i3 : neg z ≠ b := fun h => h4 (by rw [← h, neg_neg'])
    have i4 : neg z ≠ neg b := fun h => h3 (neg_inj'.1 h)
    have i5 : neg z ≠ d := fun h => h6 (by rw [← h, neg_neg'])
    have i6 : neg z ≠ neg d := fun h => h5 (neg_inj'.1 h)
    rw [vec_other h1 h2 h3 h5, vec_other i1 i2 i3 i5, conn_other h1 h2 h4 h6, conn_other i1 i2 i4 i6]
    exact k.inv.opp z hz hz'
  · intro z hz w hw
    rw [mem] at hz
    by_cases h1 : z = e
    · rw [h1, k.conn_e] at hw; simp at hw
    by_cases h2 : z = neg e
    · rw [h2, k.conn_e'] at hw; simp at hw
    rw [k.cross_vec h1 h2]
    by_cases h3 : z = neg b
    · rw [h3, k.conn_b', List.mem_append] at hw
      rw [h3]
      rcases hw with hw | hw
      · exact k.inv.vert _ (k.closed _ k.mem_b) w hw
      · refine ⟨(k.inv.vert _ k.mem w hw).1, ?_⟩
        rw [k.inv.cross_neg k.mem_b (k.closed _ k.mem_b)]
        have := k.down hw
        have := k.left_b
        nlinarith
    by_cases h4 : z = neg d
    · rw [h4, k.conn_d', List.mem_append] at hw
      rw [h4]
      rcases hw with hw | hw
      · exact k.inv.vert _ (k.closed _ k.mem_d) w hw
      · refine ⟨(k.inv.vert _ k.mem_e' w hw).1, ?_⟩
        rw [k.inv.cross_neg k.mem_d (k.closed _ k.mem_d)]
        have := k.up hw
        have := k.right_d
        nlinarith
    rw [conn_other h1 h2 h3 h4] at hw
    exact k.inv.vert z hz w hw

theorem all_eq : (N.flip e a b c d).all = N.all := by
  have m1 : neg e ∈ N.L.erase e := by simp [k.mem_e', neg_ne]
  have m2 : neg b ∈ (N.L.erase e).erase (neg e) := by simp [k.closed _ k.mem_b, k.nbe, k.nbe']
  have m3 : neg d ∈ ((N.L.erase e).erase (neg e)).erase (neg b) := by simp [k.closed _ k.mem_d, k.nde, k.nde', k.nbd.symm]
  have key : ∀ F : HE → Multiset (Vec T), ∑ z ∈ N.L, F z = F e + (F (neg e) + (F (neg b) + (F (neg d) +
      ∑ z ∈ (((N.L.erase e).erase (neg e)).erase (neg b)).erase (neg d), F z))) := by
    intro F
    rw [Finset.add_sum_erase _ _ m3, Finset.add_sum_erase _ _ m2, Finset.add_sum_erase _ _ m1, Finset.add_sum_erase _ _ k.mem]
  unfold all
  change ∑ z ∈ N.L, _ = _
  rw [key, key, k.conn_e, k.conn_e', k.conn_b', k.conn_d']
  have : ∑ z ∈ (((N.L.erase e).erase (neg e)).erase (neg b)).erase (neg d), ((N.flip e a b c d).conn z : Multiset (Vec T)) =
      ∑ z ∈ (((N.L.erase e).erase (neg e)).erase (neg b)).erase (neg d), (N.conn z : Multiset (Vec T)) := by
    refine Finset.sum_congr rfl fun z hz => ?_
    simp only [Finset.mem_erase] at hz
    rw [conn_other hz.2.2.2.1 hz.2.2.1 hz.2.1 hz.1]
  rw [this]
  simp only [← Multiset.coe_add, Multiset.coe_nil]
  abel

theorem wedge_eq {z : HE} (hz : z ∈ N.L) : (N.flip e a b c d).wedge z = N.wedge z + (if z = e then -N.wedge e else 0) +
    (if z = neg e then -N.wedge (neg e) else 0) + (if z = neg b then cross (N.conn e).sum (N.vec (neg b)) else 0) +
    (if z = neg d then cross (N.conn (neg e)).sum (N.vec (neg d)) else 0) := by
  by_cases h1 : z = e
  · subst h1
    rw [if_pos rfl, if_neg (neg_ne z).symm, if_neg k.nbe.symm, if_neg k.nde.symm]
    unfold wedge
    rw [k.conn_e]
    simp
  by_cases h2 : z = neg e
  · subst h2
    rw [if_neg h1, if_pos rfl, if_neg k.nbe'.symm, if_neg k.nde'.symm]
    unfold wedge
    rw [k.conn_e']
    simp
  rw [if_neg h1, if_neg h2]
  have par : ∀ w, cross w v = 0 → cross w ((N.flip e a b c d).vec z) = cross w (N.vec z) := by
    intro w hw
    by_cases h3 : z = b
    · rw [h3, k.vec_b, cross_add_right, parallel k.v0 hw k.cross_D, add_zero]
    by_cases h4 : z = d
    · rw [h4, k.vec_d, cross_add_right, parallel k.v0 hw k.cross_U, add_zero]
    rw [vec_other h1 h2 h3 h4]
  have h0 := k.inv.cross_conn hz
  unfold wedge
  by_cases h3 : z = neg b
  · rw [if_pos h3, if_neg (fun h => k.nbd (by rw [← h3, h]))]
    have : (N.flip e a b c d).conn z = N.conn z ++ N.conn e := by rw [h3]; exact k.conn_b'
    rw [this, List.sum_append, cross_add_left, par _ h0, par _ k.cross_D, h3]
    ring
  rw [if_neg h3]
  by_cases h4 : z = neg d
  · rw [if_pos h4]
    have : (N.flip e a b c d).conn z = N.conn z ++ N.conn (neg e) := by rw [h4]; exact k.conn_d'
    rw [this, List.sum_append, cross_add_left, par _ h0, par _ k.cross_U, h4]
    ring
  rw [if_neg h4, conn_other h1 h2 h3 h4, par _ h0]
  ring

theorem total_eq : (N.flip e a b c d).total = N.total := by
  have hw : ∑ z ∈ N.L, (N.flip e a b c d).wedge z = ∑ z ∈ N.L, N.wedge z - N.wedge e - N.wedge (neg e) +
      cross (N.conn e).sum (N.vec (neg b)) + cross (N.conn (neg e)).sum (N.vec (neg d)) := by
    rw [Finset.sum_congr rfl fun z hz => k.wedge_eq hz]
    simp only [Finset.sum_add_distrib, Finset.sum_ite_eq', k.mem, k.mem_e', k.closed _ k.mem_b, k.closed _ k.mem_d, if_true]
    ring
  have m1 : a ∈ N.L.erase e := by simp [k.mem_a, k.ea.symm]
  have m2 : b ∈ (N.L.erase e).erase a := by simp [k.mem_b, k.eb.symm, k.ab.symm]
  have m3 : neg e ∈ ((N.L.erase e).erase a).erase b := by simp [k.mem_e', neg_ne, k.ae'.symm, k.be'.symm]
  have m4 : c ∈ (((N.L.erase e).erase a).erase b).erase (neg e) := by simp [k.mem_c, k.ce, k.ac.symm, k.bc.symm, k.e'c.symm]
  have m5 : d ∈ ((((N.L.erase e).erase a).erase b).erase (neg e)).erase c := by
    simp [k.mem_d, k.de, k.ad.symm, k.bd.symm, k.e'd.symm, k.cd.symm]
  have key : ∀ F : HE → T, ∑ z ∈ N.L, F z = F e + (F a + (F b + (F (neg e) + (F c + (F d +
      ∑ z ∈ (((((N.L.erase e).erase a).erase b).erase (neg e)).erase c).erase d, F z))))) := by
    intro F
    rw [Finset.add_sum_erase _ _ m5, Finset.add_sum_erase _ _ m4, Finset.add_sum_erase _ _ m3, Finset.add_sum_erase _ _ m2,
      Finset.add_sum_erase _ _ m1, Finset.add_sum_erase _ _ k.mem]
  have hrest : ∑ z ∈ (((((N.L.erase e).erase a).erase b).erase (neg e)).erase c).erase d, (N.flip e a b c d).corner z =
      ∑ z ∈ (((((N.L.erase e).erase a).erase b).erase (neg e)).erase c).erase d, N.corner z := by
    refine Finset.sum_congr rfl fun z hz => ?_
    simp only [Finset.mem_erase] at hz
    have h : Far N e a b c d z := ⟨hz.2.2.2.2.2.2, hz.2.2.2.2.2.1, hz.2.2.2.2.1, hz.2.2.2.1, hz.2.2.1, hz.2.1, hz.1⟩
    unfold corner
    rw [f_far h, f_far (k.far_f h), vec_far h, vec_far (k.far_f h)]
  -- the corners of a triangle
  have tri : ∀ M : Net T, ∀ z, M.IsTri z → M.corner z = cross (M.vec z) (M.vec (M.f z)) ∧ M.corner (M.f z) = cross (M.vec z) (M.vec (M.f z)) ∧
      M.corner (M.f (M.f z)) = cross (M.vec z) (M.vec (M.f z)) := by
    intro M z hM
    have n1 := hM.ne
    have n2 := hM.next.ne
    have n3 := hM.next.next.ne
    obtain ⟨t1, t2, -⟩ := hM
    have h4 : M.vec (M.f (M.f z)) = -M.vec z - M.vec (M.f z) := by
      rw [← sub_eq_zero, ← t2]; abel
    unfold corner
    refine ⟨if_neg n1.2, ?_, ?_⟩
    · rw [if_neg n2.2, h4, cross_sub_right, cross_neg_right, cross_self, sub_zero, ← cross_comm]
    · rw [if_neg n3.2, t1, h4, cross_sub_left, cross_neg_left, cross_self, neg_zero, zero_sub, ← cross_comm]
  obtain ⟨p1, p2, p3⟩ := tri _ _ k.tri_e
  obtain ⟨q1, q2, q3⟩ := tri _ _ k.tri_e'
  obtain ⟨r1, r2, r3⟩ := tri _ _ ((k.inv.face e k.mem).resolve_right fun h => k.ae' (by rw [← k.fe]; exact h.1))
  obtain ⟨s1, s2, s3⟩ := tri _ _ k.tri_right
  rw [k.f_e] at p1 p2 p3
  rw [k.f_b] at p3
  rw [k.f_e'] at q1 q2 q3
  rw [k.f_d] at q3
  rw [k.fe] at r1 r2 r3
  rw [k.fa] at r3
  rw [k.fe'] at s1 s2 s3
  rw [k.fc] at s3
  unfold total
  rw [Finset.sum_add_distrib, Finset.sum_add_distrib, ← Finset.mul_sum, ← Finset.mul_sum]
  change 3 * ∑ z ∈ N.L, _ + ∑ z ∈ N.L, _ = _
  rw [hw, key (fun z => (N.flip e a b c d).corner z), key (fun z => N.corner z), hrest, p1, p2, p3, q1, q2, q3, r1, r2, r3, s1, s2, s3]
  have hb : cross (N.conn e).sum (N.vec (neg b)) = -cross (N.conn e).sum (N.vec b) := by
    have := k.inv.opp b k.mem_b (k.closed _ k.mem_b)
    have h2 : N.vec (neg b) = (N.conn b).sum + (N.conn (neg b)).sum - N.vec b := by rw [← this]; abel
    rw [h2, cross_sub_right, cross_add_right, parallel k.v0 k.cross_D (k.inv.cross_conn k.mem_b),
      parallel k.v0 k.cross_D (k.inv.cross_conn (k.closed _ k.mem_b))]
    ring
  have hd : cross (N.conn (neg e)).sum (N.vec (neg d)) = -cross (N.conn (neg e)).sum (N.vec d) := by
    have := k.inv.opp d k.mem_d (k.closed _ k.mem_d)
    have h2 : N.vec (neg d) = (N.conn d).sum + (N.conn (neg d)).sum - N.vec d := by rw [← this]; abel
    rw [h2, cross_sub_right, cross_add_right, parallel k.v0 k.cross_U (k.inv.cross_conn k.mem_d),
      parallel k.v0 k.cross_U (k.inv.cross_conn (k.closed _ k.mem_d))]
    ring
  have e1 : N.vec b = -N.vec e - N.vec a := by rw [← sub_eq_zero, ← k.sum_left]; abel
  have e2 : N.vec d = -N.vec (neg e) - N.vec c := by rw [← sub_eq_zero, ← k.sum_right]; abel
  have e3 := parallel k.v0 k.cross_D k.cross_U
  rw [hb, hd, k.vec_e, k.vec_e', k.vec_b, k.vec_d, e1, e2, k.opp]
  unfold wedge
  rw [k.opp]
  unfold cross at e3 ⊢
  simp only [Vec.add_x, Vec.add_y, Vec.neg_x, Vec.neg_y, Vec.sub_x, Vec.sub_y]
  ring

end Kite

end Net

end Verif
