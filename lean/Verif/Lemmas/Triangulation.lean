import Verif.Model.Triangulation
import Verif.Lemmas.Permutation
import Verif.Lemmas.HalfEdge

namespace Verif

open Function

namespace Perm

/-- `y` is reached from `x` by applying the permutation. -/
def Orb (p : Perm) (x y : HE) : Prop := ∃ k, p.fwd^[k] x = y

theorem Orb.refl (p : Perm) (x : HE) : p.Orb x x := ⟨0, rfl⟩

theorem Orb.trans {p : Perm} {x y z : HE} (h1 : p.Orb x y) (h2 : p.Orb y z) : p.Orb x z := by
  obtain ⟨k, rfl⟩ := h1
  obtain ⟨l, rfl⟩ := h2
  exact ⟨l + k, iterate_add_apply _ _ _ _⟩

theorem Orb.step (p : Perm) (x : HE) : p.Orb x (p.fwd x) := ⟨1, rfl⟩

theorem Orb.symm {p : Perm} (hp : p.WF) {x y : HE} (h : p.Orb x y) : p.Orb y x := by
  obtain ⟨k, rfl⟩ := h
  by_cases hx : x < p.size
  · obtain ⟨m, hm, -, hmx⟩ := hp.exists_period hx
    refine ⟨m * (k + 1) - k, ?_⟩
    rw [← iterate_add_apply]
    have : m * (k + 1) - k + k = m * (k + 1) := by
      have : k ≤ m * (k + 1) := Nat.le_trans (Nat.le_succ k) (Nat.le_mul_of_pos_left _ hm)
      omega
    rw [this, iterate_mul]
    exact iterate_fixed hmx _
  · have : ∀ k, p.fwd^[k] x = x := fun k => iterate_fixed (hp.out x (by omega)) k
    rw [this]
    exact Orb.refl p x

theorem Orb.lt {p : Perm} (hp : p.WF) {x y : HE} (h : p.Orb x y) (hx : x < p.size) : y < p.size := by
  obtain ⟨k, rfl⟩ := h
  exact hp.iterate_lt hx k

/-- To relate the images under `π` of the elements of an orbit it is enough to relate neighbours. -/
theorem Orb.map {p q : Perm} {π : HE → HE} (h : ∀ x, q.Orb (π x) (π (p.fwd x))) {x y : HE} (hxy : p.Orb x y) :
    q.Orb (π x) (π y) := by
  obtain ⟨k, rfl⟩ := hxy
  induction k with
  | zero => exact Orb.refl _ _
  | succ k ih => rw [iterate_succ_apply']; exact ih.trans (h _)

theorem IsCycle.mem_iff {p : Perm} (hp : p.WF) {c : List HE} (hc : IsCycle p c) {x : HE} (hx : x ∈ c) (y : HE) :
    y ∈ c ↔ p.Orb x y := by
  constructor
  · intro hy
    -- both are reached from the first entry
    have h0 : 0 < c.length := List.length_pos_iff.2 hc.1
    have key : ∀ i (hi : i < c.length), p.Orb c[0] c[i] := by
      intro i hi
      induction i with
      | zero => exact Orb.refl _ _
      | succ i ih =>
        have h1 := hc.2.2 i (by omega)
        have h2 : (i + 1) % c.length = i + 1 := Nat.mod_eq_of_lt hi
        simp only [h2] at h1
        exact (ih (by omega)).trans ⟨1, h1⟩
    obtain ⟨i, hi, rfl⟩ := List.getElem_of_mem hx
    obtain ⟨j, hj, rfl⟩ := List.getElem_of_mem hy
    exact ((key i hi).symm hp).trans (key j hj)
  · rintro ⟨k, rfl⟩
    induction k with
    | zero => exact hx
    | succ k ih => rw [iterate_succ_apply', hc.fwd_mem hp]; exact ih

end Perm

/-! ### Three cycles -/

theorem formPerm3_fst {a b c : HE} (hab : a ≠ b) (hac : a ≠ c) : [a, b, c].formPerm a = b := by
  simp only [List.formPerm_cons_cons, List.formPerm_singleton, mul_one, Equiv.Perm.mul_apply]
  rw [Equiv.swap_apply_of_ne_of_ne hab hac, Equiv.swap_apply_left]

theorem formPerm3_snd {a b c : HE} (hac : a ≠ c) (hbc : b ≠ c) : [a, b, c].formPerm b = c := by
  simp only [List.formPerm_cons_cons, List.formPerm_singleton, mul_one, Equiv.Perm.mul_apply]
  rw [Equiv.swap_apply_left, Equiv.swap_apply_of_ne_of_ne hac.symm hbc.symm]

theorem formPerm3_trd {a b c : HE} : [a, b, c].formPerm c = a := by
  simp only [List.formPerm_cons_cons, List.formPerm_singleton, mul_one, Equiv.Perm.mul_apply]
  rw [Equiv.swap_apply_right, Equiv.swap_apply_right]

theorem formPerm3_other {a b c x : HE} (ha : x ≠ a) (hb : x ≠ b) (hc : x ≠ c) : [a, b, c].formPerm x = x :=
  List.formPerm_apply_of_notMem (by simp [ha, hb, hc])

namespace Tri

/-- The two permutations fit together and all faces are triangles or boundary. -/
structure Coherent (T : Tri) : Prop where
  hv : T.vertices.WF
  hf : T.faces.WF
  hs : T.faces.size = T.vertices.size
  even : T.vertices.size % 2 = 0
  link : ∀ x, T.faces.fwd x ≠ x → T.faces.fwd (neg (T.vertices.fwd x)) = x
  tri : ∀ x, T.faces.fwd (T.faces.fwd (T.faces.fwd x)) = x

/-- Vertices and faces fit together. -/
structure Linked (T : Tri) : Prop where
  hv : T.vertices.WF
  hf : T.faces.WF
  hs : T.faces.size = T.vertices.size
  even : T.vertices.size % 2 = 0
  link : ∀ x, T.faces.fwd x ≠ x → T.faces.fwd (neg (T.vertices.fwd x)) = x

theorem Coherent.linked {T : Tri} (h : T.Coherent) : T.Linked := ⟨h.hv, h.hf, h.hs, h.even, h.link⟩

/-- The recorded vertices are the orbits of the vertex permutation. -/
structure VertexesOk (T : Tri) : Prop where
  orbit : ∀ S ∈ T.vertexes, ∃ x < T.size, ∀ y, y ∈ S ↔ T.vertices.Orb x y
  cover : ∀ x < T.size, ∃ S ∈ T.vertexes, x ∈ S
  nodup : T.vertexes.Nodup

theorem Coherent.lt_of_not_boundary {T : Tri} (h : T.Coherent) {x : HE} (hx : T.faces.fwd x ≠ x) : x < T.size := by
  by_contra hc
  exact hx (h.hf.out x (by rw [h.hs]; unfold size at hc; omega))

theorem Coherent.fwd_fixed {T : Tri} (h : T.Coherent) {x : HE} :
    T.faces.fwd (T.faces.fwd x) = T.faces.fwd x ↔ T.faces.fwd x = x :=
  ⟨fun hx => h.hf.inj hx, fun hx => by rw [hx, hx]⟩

theorem Coherent.link' {T : Tri} (h : T.Coherent) {x : HE} (hx : T.faces.fwd x ≠ x) :
    T.vertices.fwd x = neg (T.faces.inv x) := by
  have := h.link x hx
  rw [← neg_eq_comm', ← h.hf.left (neg (T.vertices.fwd x)), this]

theorem Coherent.bdry {T : Tri} (h : T.Coherent) {x : HE} (hx : T.faces.fwd x = x) :
    T.faces.fwd (neg (T.vertices.fwd x)) = neg (T.vertices.fwd x) := by
  by_contra hc
  have h1 : T.faces.fwd (T.faces.fwd (neg (T.vertices.fwd x))) ≠ T.faces.fwd (neg (T.vertices.fwd x)) :=
    fun h' => hc (h.hf.inj h')
  have h2 := h.link _ h1
  have h3 := neg_inj'.1 (h.hf.inj h2)
  have h4 := h.hv.inj h3
  rw [h4] at h1
  exact h1 hx

theorem Coherent.boundary_iff {T : Tri} (h : T.Coherent) (x : HE) :
    T.faces.fwd (neg (T.vertices.fwd x)) = neg (T.vertices.fwd x) ↔ T.faces.fwd x = x := by
  constructor
  · intro h1
    by_contra h2
    have := h.link x h2
    rw [h1] at this
    rw [this] at h1
    exact h2 h1
  · exact h.bdry

theorem Coherent.neg_lt {T : Tri} (h : T.Coherent) (x : HE) : neg x < T.size ↔ x < T.size := neg_lt' h.even x

/-! ### The constructor -/

theorem mkVertexes_spec {v : Perm} (hv : v.WF) (f : Perm) :
    ∃ vs, mkVertexes v = some vs ∧ VertexesOk ⟨v, f, vs⟩ := by
  obtain ⟨cs, h1, h2, h3⟩ := Perm.cycles_spec hv
  refine ⟨cs.map List.toFinset, by simp [mkVertexes, h1], ?_, ?_, ?_⟩
  · intro S hS
    obtain ⟨c, hc, rfl⟩ := List.mem_map.1 hS
    have hcc := h2 c hc
    obtain ⟨x, hx⟩ := List.exists_mem_of_ne_nil c hcc.1
    refine ⟨x, List.mem_range.1 (h3.mem_iff.1 (List.mem_flatten.2 ⟨c, hc, hx⟩)), fun y => ?_⟩
    rw [List.mem_toFinset, hcc.mem_iff hv hx]
  · intro x hx
    obtain ⟨c, hc, hxc⟩ := List.mem_flatten.1 (h3.mem_iff.2 (List.mem_range.2 hx))
    exact ⟨c.toFinset, List.mem_map_of_mem hc, by simpa using hxc⟩
  · have hn : cs.flatten.Nodup := h3.nodup_iff.2 List.nodup_range
    rw [List.nodup_flatten] at hn
    simp only
    rw [List.Nodup, List.pairwise_map]
    refine (List.Pairwise.and_mem.1 hn.2).imp ?_
    rintro c d ⟨hc, hd, hdis⟩ heq
    obtain ⟨x, hx⟩ := List.exists_mem_of_ne_nil c (h2 c hc).1
    have : x ∈ d.toFinset := by rw [← heq]; simpa using hx
    exact hdis hx (by simpa using this)

/-- What the constructor guarantees. -/
theorem make_spec {dbg : Bool} {v : Perm} (hv : v.WF) {B : List HE} {T : Tri} (h : make dbg v B = .ok T) :
    T.Coherent ∧ T.VertexesOk ∧ T.vertices = v ∧ (∀ x < v.size, x ∈ B → T.faces.fwd x = x) ∧
      (∀ x < v.size, x ∉ B → T.faces.fwd (neg (v.fwd x)) = x) ∧
      (dbg = true → ∀ x < v.size, T.faces.fwd x = x → x ∈ B) := by
  unfold make at h
  cases hf : Perm.ofPairs (facePairs v B) with
  | error e => rw [hf] at h; cases h
  | ok f =>
    rw [hf] at h
    obtain ⟨vs, hvs, hvo⟩ := mkVertexes_spec hv f
    simp only [hvs, bind, Except.bind, pure, Except.pure, throw, throwThe, MonadExceptOf.throw] at h
    split_ifs at h with h1 h2 h3
    cases h
    obtain ⟨hfw, hfs, hfp⟩ := Perm.ofPairs_ok hf
    have hsize : f.size = v.size := by rw [hfs]; simp [facePairs, Perm.domain]
    have hin : ∀ x < v.size, x ∈ B → f.fwd x = x := by
      intro x hx hxB
      refine hfp (x, x) ?_
      unfold facePairs
      exact List.mem_map.2 ⟨x, (Perm.mem_domain hv x).2 hx, by simp [hxB]⟩
    have hnot : ∀ x < v.size, x ∉ B → f.fwd (neg (v.fwd x)) = x := by
      intro x hx hxB
      refine hfp (neg (v.fwd x), x) ?_
      unfold facePairs
      exact List.mem_map.2 ⟨x, (Perm.mem_domain hv x).2 hx, by simp [hxB]⟩
    refine ⟨⟨hv, hfw, hsize, by simpa using h1, ?_, ?_⟩, hvo, rfl, hin, hnot, ?_⟩
    · intro x hx
      have hxs : x < v.size := by
        by_contra hc
        exact hx (hfw.out x (by omega))
      exact hnot x hxs fun hc => hx (hin x hxs hc)
    · intro x
      simp only
      by_cases hx : f.fwd x = x
      · rw [hx, hx, hx]
      · push Not at h2
        refine h2 x ((Perm.mem_domain hfw x).2 ?_) hx
        by_contra hc
        exact hx (hfw.out x (by omega))
    · rintro hd x hx hfx
      by_contra hxB
      exact h3 ⟨hd, x, (Perm.mem_domain hfw x).2 (by omega), hfx, hxB⟩

/-! ### Flips -/

/-- The six half edges of the two triangles at `e` are distinct. -/
structure Flippable (T : Tri) (e : HE) : Prop where
  nb : T.faces.fwd e ≠ e
  nb' : T.faces.fwd (neg e) ≠ neg e
  a : T.faces.fwd e ≠ neg e
  b : T.faces.fwd (T.faces.fwd e) ≠ neg e

/-- The half edges of the quadrilateral around `e` and how they are linked. -/
structure Quad (T : Tri) (e a b c d : HE) : Prop where
  fe : T.faces.fwd e = a
  fa : T.faces.fwd a = b
  fb : T.faces.fwd b = e
  fe' : T.faces.fwd (neg e) = c
  fc : T.faces.fwd c = d
  fd : T.faces.fwd d = neg e
  ve : T.vertices.fwd e = neg b
  va : T.vertices.fwd a = neg e
  vb : T.vertices.fwd b = neg a
  ve' : T.vertices.fwd (neg e) = neg d
  vc : T.vertices.fwd c = e
  vd : T.vertices.fwd d = neg c
  lt : e < T.size ∧ a < T.size ∧ b < T.size ∧ c < T.size ∧ d < T.size ∧ neg e < T.size
  nodup : [e, a, b, neg e, c, d].Nodup

theorem Coherent.quad {T : Tri} (h : T.Coherent) {e : HE} (he : T.Flippable e) :
    T.Quad e (T.faces.fwd e) (T.faces.fwd (T.faces.fwd e)) (T.faces.fwd (neg e))
      (T.faces.fwd (T.faces.fwd (neg e))) := by
  obtain ⟨nb, nb', ha, hb⟩ := he
  have inj : ∀ {x y}, T.faces.fwd x = T.faces.fwd y ↔ x = y := ⟨fun h' => h.hf.inj h', fun h' => by rw [h']⟩
  have t1 := h.tri e
  have t2 := h.tri (neg e)
  have key : ∀ x, T.faces.fwd x ≠ x → T.vertices.fwd (T.faces.fwd x) = neg x := by
    intro x hx
    rw [h.link' (fun h' => hx (inj.1 h')), h.hf.left]
  have nba : T.faces.fwd (T.faces.fwd e) ≠ T.faces.fwd e := fun h' => nb (inj.1 h')
  have nbb : T.faces.fwd (T.faces.fwd (T.faces.fwd e)) ≠ T.faces.fwd (T.faces.fwd e) := fun h' => nba (inj.1 h')
  have nbc : T.faces.fwd (T.faces.fwd (neg e)) ≠ T.faces.fwd (neg e) := fun h' => nb' (inj.1 h')
  have nbd : T.faces.fwd (T.faces.fwd (T.faces.fwd (neg e))) ≠ T.faces.fwd (T.faces.fwd (neg e)) :=
    fun h' => nbc (inj.1 h')
  refine ⟨rfl, rfl, t1, rfl, rfl, t2, ?_, key e nb, key _ nba, ?_, ?_, key _ nbc, ?_, ?_⟩
  · have := key _ nbb; rwa [t1] at this
  · have := key _ nbd; rwa [t2] at this
  · have := key _ nb'; rwa [neg_neg'] at this
  · exact ⟨h.lt_of_not_boundary nb, h.lt_of_not_boundary nba, h.lt_of_not_boundary nbb,
      h.lt_of_not_boundary nbc, h.lt_of_not_boundary nbd, h.lt_of_not_boundary nb'⟩
  · have hce : T.faces.fwd (neg e) ≠ e := by
      intro hc
      rw [hc] at t2
      exact hb t2
    have hde : T.faces.fwd (T.faces.fwd (neg e)) ≠ e := by
      intro hc
      rw [hc] at t2
      exact ha t2
    simp only [List.nodup_cons, List.mem_cons, not_or, List.not_mem_nil, not_false_eq_true, List.nodup_nil,
      and_true]
    refine ⟨⟨nb.symm, fun hc => nbb (by rw [t1, ← hc]), ne_neg e, hce.symm, hde.symm⟩,
      ⟨nba.symm, ha, fun hc => ne_neg e (inj.1 hc), fun hc => ?_⟩,
      ⟨hb, fun hc => ha (inj.1 hc), fun hc => ne_neg e (inj.1 (inj.1 hc))⟩,
      ⟨nb'.symm, fun hc => nbd (by rw [t2, ← hc])⟩, nbc.symm⟩
    exact hce (inj.1 hc).symm

/-- The state after a flip. -/
structure Flipped (T T' : Tri) (e a b c d : HE) : Prop where
  hv : T'.vertices.WF
  hf : T'.faces.WF
  vsize : T'.vertices.size = T.vertices.size
  fsize : T'.faces.size = T.faces.size
  fa : T'.faces.fwd a = neg e
  fe' : T'.faces.fwd (neg e) = d
  fd : T'.faces.fwd d = a
  fc : T'.faces.fwd c = e
  fe : T'.faces.fwd e = b
  fb : T'.faces.fwd b = c
  fx : ∀ x, x ∉ [e, a, b, neg e, c, d] → T'.faces.fwd x = T.faces.fwd x
  vb : T'.vertices.fwd b = neg e
  va : T'.vertices.fwd a = neg d
  ve' : T'.vertices.fwd (neg e) = neg a
  vd : T'.vertices.fwd d = e
  vc : T'.vertices.fwd c = neg b
  ve : T'.vertices.fwd e = neg c
  vx : ∀ x, x ∉ [e, a, b, neg e, c, d] → T'.vertices.fwd x = T.vertices.fwd x
  vertexes : T'.vertexes = T.vertexes.map (afterFlip T'.vertices e)

theorem Linked.flipped {T : Tri} (h : T.Linked) {e a b c d : HE} (q : T.Quad e a b c d) (dbg : Bool) :
    ∃ T', T.flip dbg e = (T', .ok ()) ∧ T.Flipped T' e a b c d := by
  obtain ⟨fe, fa, fb, fe', fc, fd, ve, va, vb, ve', vc, vd, ⟨le, la, lb, lc, ld, le'⟩, nd⟩ := q
  simp only [List.nodup_cons, List.mem_cons, not_or, List.not_mem_nil, not_false_eq_true, List.nodup_nil,
      and_true, ← ne_eq] at nd
  obtain ⟨⟨ea, eb, ee', ec, ed⟩, ⟨ab, ae', ac, ad⟩, ⟨be', bc, bd⟩, ⟨e'c, e'd⟩, cd⟩ := nd
  unfold size at le la lb lc ld le'
  obtain ⟨v1, hv1⟩ := Perm.mulCycle_ok (p := T.vertices) (c := [b, a, neg e])
    (by simp [ab.symm, be', ae']) (by simp [lb, la, le'])
  obtain ⟨wv1, sv1, ev1⟩ := Perm.mulCycle_spec h.hv hv1
  obtain ⟨v2, hv2⟩ := Perm.mulCycle_ok (p := v1) (c := [d, c, e])
    (by simp [cd.symm, ed.symm, ec.symm]) (by simp [sv1, ld, lc, le])
  obtain ⟨wv2, sv2, ev2⟩ := Perm.mulCycle_spec wv1 hv2
  obtain ⟨f1, hf1⟩ := Perm.mulCycle_ok (p := T.faces) (c := [a, d, e])
    (by simp [ad, ea.symm, ed.symm]) (by simp [h.hs, ld, la, le])
  obtain ⟨wf1, sf1, ef1⟩ := Perm.mulCycle_spec h.hf hf1
  obtain ⟨f2, hf2⟩ := Perm.mulCycle_ok (p := f1) (c := [c, b, neg e])
    (by simp [bc.symm, be', e'c.symm]) (by simp [sf1, h.hs, lb, lc, le'])
  obtain ⟨wf2, sf2, ef2⟩ := Perm.mulCycle_spec wf1 hf2
  have hV : ∀ x, v2.fwd x = T.vertices.fwd ([b, a, neg e].formPerm ([d, c, e].formPerm x)) := by
    intro x
    have h1 := DFunLike.congr_fun ev2 x
    have h2 := DFunLike.congr_fun ev1 ([d, c, e].formPerm x)
    exact h1.trans h2
  have hF : ∀ x, f2.fwd x = T.faces.fwd ([a, d, e].formPerm ([c, b, neg e].formPerm x)) := by
    intro x
    have h1 := DFunLike.congr_fun ef2 x
    have h2 := DFunLike.congr_fun ef1 ([c, b, neg e].formPerm x)
    exact h1.trans h2
  refine ⟨⟨v2, f2, T.vertexes.map (afterFlip v2 e)⟩, ?_, ?_⟩
  · unfold flip nextInFace boundary
    simp only [fe, fa, fe', fc]
    rw [if_neg (by unfold size; omega), if_neg (by simp [ea.symm, e'c.symm])]
    simp only [hv1, hv2, hf1, hf2]
  · refine ⟨wv2, wf2, by simp only; rw [sv2, sv1], by simp only; rw [sf2, sf1], ?_, ?_, ?_, ?_, ?_, ?_, ?_, ?_, ?_, ?_, ?_, ?_, ?_, ?_, rfl⟩
    · simp only; rw [hF, formPerm3_other ac ab ae', formPerm3_fst ad ea.symm, fd]
    · simp only; rw [hF, formPerm3_trd, formPerm3_other ac.symm cd ec.symm, fc]
    · simp only; rw [hF, formPerm3_other cd.symm bd.symm e'd.symm, formPerm3_snd ea.symm ed.symm, fe]
    · simp only; rw [hF, formPerm3_fst bc.symm e'c.symm, formPerm3_other ab.symm bd eb.symm, fb]
    · simp only; rw [hF, formPerm3_other ec eb ee', formPerm3_trd, fa]
    · simp only; rw [hF, formPerm3_snd e'c.symm be', formPerm3_other ae'.symm e'd ee'.symm, fe']
    · intro x hx
      simp only [List.mem_cons, not_or, List.not_mem_nil, not_false_eq_true, and_true, ← ne_eq] at hx
      obtain ⟨xe, xa, xb, xe', xc, xd⟩ := hx
      simp only; rw [hF, formPerm3_other xc xb xe', formPerm3_other xa xd xe]
    · simp only; rw [hV, formPerm3_other bd bc eb.symm, formPerm3_fst ab.symm be', va]
    · simp only; rw [hV, formPerm3_other ad ac ea.symm, formPerm3_snd be' ae', ve']
    · simp only; rw [hV, formPerm3_other e'd e'c ee'.symm, formPerm3_trd, vb]
    · simp only; rw [hV, formPerm3_fst cd.symm ed.symm, formPerm3_other bc.symm ac.symm e'c.symm, vc]
    · simp only; rw [hV, formPerm3_snd ed.symm ec.symm, formPerm3_other eb ea ee', ve]
    · simp only; rw [hV, formPerm3_trd, formPerm3_other bd.symm ad.symm e'd.symm, vd]
    · intro x hx
      simp only [List.mem_cons, not_or, List.not_mem_nil, not_false_eq_true, and_true, ← ne_eq] at hx
      obtain ⟨xe, xa, xb, xe', xc, xd⟩ := hx
      simp only; rw [hV, formPerm3_other xd xc xe, formPerm3_other xb xa xe']

theorem flip_flipped {T : Tri} (h : T.Coherent) {e a b c d : HE} (q : T.Quad e a b c d) (dbg : Bool) :
    ∃ T', T.flip dbg e = (T', .ok ()) ∧ T.Flipped T' e a b c d := h.linked.flipped q dbg

theorem not_mem_six {e a b c d x : HE} :
    x ∉ [e, a, b, neg e, c, d] ↔ x ≠ e ∧ x ≠ a ∧ x ≠ b ∧ x ≠ neg e ∧ x ≠ c ∧ x ≠ d := by
  simp

/-- The six half edges are closed under the face permutation. -/
theorem Quad.fwd_not_mem {T : Tri} (h : T.Coherent) {e a b c d : HE} (q : T.Quad e a b c d) {x : HE} :
    T.faces.fwd x ∉ [e, a, b, neg e, c, d] ↔ x ∉ [e, a, b, neg e, c, d] := by
  rw [not_iff_not]
  constructor
  · intro hx
    simp only [List.mem_cons, List.not_mem_nil, or_false] at hx ⊢
    rcases hx with hx | hx | hx | hx | hx | hx
    · rw [← q.fb] at hx; have := h.hf.inj hx; simp [this]
    · rw [← q.fe] at hx; have := h.hf.inj hx; simp [this]
    · rw [← q.fa] at hx; have := h.hf.inj hx; simp [this]
    · rw [← q.fd] at hx; have := h.hf.inj hx; simp [this]
    · rw [← q.fe'] at hx; have := h.hf.inj hx; simp [this]
    · rw [← q.fc] at hx; have := h.hf.inj hx; simp [this]
  · intro hx
    simp only [List.mem_cons, List.not_mem_nil, or_false] at hx ⊢
    rcases hx with rfl | rfl | rfl | rfl | rfl | rfl
    · simp [q.fe]
    · simp [q.fa]
    · simp [q.fb]
    · simp [q.fe']
    · simp [q.fc]
    · simp [q.fd]

theorem mem_six_cases {e a b c d x : HE} (hx : x ∈ [e, a, b, neg e, c, d]) :
    x = e ∨ x = a ∨ x = b ∨ x = neg e ∨ x = c ∨ x = d := by simpa using hx

theorem Quad.ne {T : Tri} {e a b c d : HE} (q : T.Quad e a b c d) :
    (e ≠ a ∧ e ≠ b ∧ e ≠ neg e ∧ e ≠ c ∧ e ≠ d) ∧ (a ≠ b ∧ a ≠ neg e ∧ a ≠ c ∧ a ≠ d) ∧
      (b ≠ neg e ∧ b ≠ c ∧ b ≠ d) ∧ (neg e ≠ c ∧ neg e ≠ d) ∧ c ≠ d := by
  have nd := q.nodup
  simp only [List.nodup_cons, List.mem_cons, not_or, List.not_mem_nil, not_false_eq_true, List.nodup_nil,
      and_true, ← ne_eq] at nd
  exact nd

/-- The boundary is not changed by a flip. -/
theorem Flipped.boundary_iff {T T' : Tri} {e a b c d : HE} (q : T.Quad e a b c d)
    (f : T.Flipped T' e a b c d) (x : HE) : T'.faces.fwd x = x ↔ T.faces.fwd x = x := by
  obtain ⟨⟨ea, eb, ee', ec, ed⟩, ⟨ab, ae', ac, ad⟩, ⟨be', bc, bd⟩, ⟨e'c, e'd⟩, cd⟩ := q.ne
  by_cases hx : x ∈ [e, a, b, neg e, c, d]
  · rcases mem_six_cases hx with rfl | rfl | rfl | rfl | rfl | rfl
    · rw [f.fe, q.fe]; exact ⟨fun h => absurd h.symm eb, fun h => absurd h.symm ea⟩
    · rw [f.fa, q.fa]; exact ⟨fun h => absurd h.symm ae', fun h => absurd h.symm ab⟩
    · rw [f.fb, q.fb]; exact ⟨fun h => absurd h.symm bc, fun h => absurd h eb⟩
    · rw [f.fe', q.fe']; exact ⟨fun h => absurd h.symm e'd, fun h => absurd h.symm e'c⟩
    · rw [f.fc, q.fc]; exact ⟨fun h => absurd h ec, fun h => absurd h.symm cd⟩
    · rw [f.fd, q.fd]; exact ⟨fun h => absurd h ad, fun h => absurd h e'd⟩
  · rw [f.fx x hx]

theorem Flipped.coherent {T T' : Tri} (h : T.Coherent) {e a b c d : HE} (q : T.Quad e a b c d)
    (f : T.Flipped T' e a b c d) : T'.Coherent := by
  refine ⟨f.hv, f.hf, by rw [f.fsize, f.vsize, h.hs], by rw [f.vsize]; exact h.even, ?_, ?_⟩
  · intro x hx
    have hx' : T.faces.fwd x ≠ x := fun hc => hx ((f.boundary_iff q x).2 hc)
    by_cases hm : x ∈ [e, a, b, neg e, c, d]
    · rcases mem_six_cases hm with rfl | rfl | rfl | rfl | rfl | rfl
      · rw [f.ve, neg_neg', f.fc]
      · rw [f.va, neg_neg', f.fd]
      · rw [f.vb, neg_neg', f.fe]
      · rw [f.ve', neg_neg', f.fa]
      · rw [f.vc, neg_neg', f.fb]
      · rw [f.vd, f.fe']
    · have h1 := h.link x hx'
      rw [f.vx x hm, f.fx _ ((q.fwd_not_mem h).1 (by rw [h1]; exact hm)), h1]
  · intro x
    by_cases hm : x ∈ [e, a, b, neg e, c, d]
    · rcases mem_six_cases hm with rfl | rfl | rfl | rfl | rfl | rfl
      · rw [f.fe, f.fb, f.fc]
      · rw [f.fa, f.fe', f.fd]
      · rw [f.fb, f.fc, f.fe]
      · rw [f.fe', f.fd, f.fa]
      · rw [f.fc, f.fe, f.fb]
      · rw [f.fd, f.fa, f.fe']
    · have h1 := (q.fwd_not_mem h).2 hm
      have h2 := (q.fwd_not_mem h).2 h1
      rw [f.fx x hm, f.fx _ h1, f.fx _ h2, h.tri]

/-! ### Vertices are tracked -/

/-- Skip over `e` and `-e` when walking around a vertex. -/
def skip (p : Perm) (e x : HE) : HE := if x = e ∨ x = neg e then p.fwd x else x

theorem skip_of_ne {p : Perm} {e x : HE} (h1 : x ≠ e) (h2 : x ≠ neg e) : skip p e x = x := by
  unfold skip; rw [if_neg (by simp [h1, h2])]

theorem skip_self (p : Perm) (e : HE) : skip p e e = p.fwd e := by unfold skip; rw [if_pos (Or.inl rfl)]

theorem skip_neg (p : Perm) (e : HE) : skip p e (neg e) = p.fwd (neg e) := by unfold skip; rw [if_pos (Or.inr rfl)]

theorem Flipped.orb {T T' : Tri} (h : T.vertices.WF) {e a b c d : HE} (q : T.Quad e a b c d)
    (f : T.Flipped T' e a b c d) {x y : HE} (hx1 : x ≠ e) (hx2 : x ≠ neg e) (hy1 : y ≠ e) (hy2 : y ≠ neg e) :
    T'.vertices.Orb x y ↔ T.vertices.Orb x y := by
  obtain ⟨⟨ea, eb, ee', ec, ed⟩, ⟨ab, ae', ac, ad⟩, ⟨be', bc, bd⟩, ⟨e'c, e'd⟩, cd⟩ := q.ne
  have na1 : neg a ≠ e := fun hc => ae' (by rw [← hc, neg_neg'])
  have na2 : neg a ≠ neg e := fun hc => ea (neg_inj'.1 hc).symm
  have nb1 : neg b ≠ e := fun hc => be' (by rw [← hc, neg_neg'])
  have nb2 : neg b ≠ neg e := fun hc => eb (neg_inj'.1 hc).symm
  have nc1 : neg c ≠ e := fun hc => e'c (by rw [← hc, neg_neg'])
  have nc2 : neg c ≠ neg e := fun hc => ec (neg_inj'.1 hc).symm
  have nd1 : neg d ≠ e := fun hc => e'd (by rw [← hc, neg_neg'])
  have nd2 : neg d ≠ neg e := fun hc => ed (neg_inj'.1 hc).symm
  constructor
  · intro hxy
    have := hxy.map (q := T.vertices) (π := skip T'.vertices e) ?_
    · rwa [skip_of_ne hx1 hx2, skip_of_ne hy1 hy2] at this
    · intro z
      by_cases hz : z ∈ [e, a, b, neg e, c, d]
      · rcases mem_six_cases hz with rfl | rfl | rfl | rfl | rfl | rfl
        · rw [skip_self, f.ve, skip_of_ne nc1 nc2]; exact Perm.Orb.refl _ _
        · rw [skip_of_ne ea.symm ae', f.va, skip_of_ne nd1 nd2]
          exact ⟨2, by rw [iterate_succ_apply, iterate_one, q.va, q.ve']⟩
        · rw [skip_of_ne eb.symm be', f.vb, skip_neg, f.ve', ← q.vb]; exact Perm.Orb.step _ _
        · rw [skip_neg, f.ve', skip_of_ne na1 na2]; exact Perm.Orb.refl _ _
        · rw [skip_of_ne ec.symm e'c.symm, f.vc, skip_of_ne nb1 nb2]
          exact ⟨2, by rw [iterate_succ_apply, iterate_one, q.vc, q.ve]⟩
        · rw [skip_of_ne ed.symm e'd.symm, f.vd, skip_self, f.ve, ← q.vd]; exact Perm.Orb.step _ _
      · have hz' := not_mem_six.1 hz
        have g1 : T.vertices.fwd z ≠ e := fun hc => hz'.2.2.2.2.1 (h.inj (hc.trans q.vc.symm))
        have g2 : T.vertices.fwd z ≠ neg e := fun hc => hz'.2.1 (h.inj (hc.trans q.va.symm))
        rw [skip_of_ne hz'.1 hz'.2.2.2.1, f.vx z hz, skip_of_ne g1 g2]
        exact Perm.Orb.step _ _
  · intro hxy
    have := hxy.map (q := T'.vertices) (π := skip T.vertices e) ?_
    · rwa [skip_of_ne hx1 hx2, skip_of_ne hy1 hy2] at this
    · intro z
      by_cases hz : z ∈ [e, a, b, neg e, c, d]
      · rcases mem_six_cases hz with rfl | rfl | rfl | rfl | rfl | rfl
        · rw [skip_self, q.ve, skip_of_ne nb1 nb2]; exact Perm.Orb.refl _ _
        · rw [skip_of_ne ea.symm ae', q.va, skip_neg, q.ve', ← f.va]; exact Perm.Orb.step _ _
        · rw [skip_of_ne eb.symm be', q.vb, skip_of_ne na1 na2]
          exact ⟨2, by rw [iterate_succ_apply, iterate_one, f.vb, f.ve']⟩
        · rw [skip_neg, q.ve', skip_of_ne nd1 nd2]; exact Perm.Orb.refl _ _
        · rw [skip_of_ne ec.symm e'c.symm, q.vc, skip_self, q.ve, ← f.vc]; exact Perm.Orb.step _ _
        · rw [skip_of_ne ed.symm e'd.symm, q.vd, skip_of_ne nc1 nc2]
          exact ⟨2, by rw [iterate_succ_apply, iterate_one, f.vd, f.ve]⟩
      · have hz' := not_mem_six.1 hz
        have g1 : T.vertices.fwd z ≠ e := fun hc => hz'.2.2.2.2.1 (h.inj (hc.trans q.vc.symm))
        have g2 : T.vertices.fwd z ≠ neg e := fun hc => hz'.2.1 (h.inj (hc.trans q.va.symm))
        rw [skip_of_ne hz'.1 hz'.2.2.2.1, skip_of_ne g1 g2, ← f.vx z hz]
        exact Perm.Orb.step _ _

/-- The effect of `afterFlip` on a set of half edges. -/
theorem mem_afterFlip {v : Perm} {e b d : HE} (hb : v.inv (neg e) = b) (hd : v.inv e = d) {S : Finset HE}
    (hb1 : b ≠ e) (hb2 : b ≠ neg e) (hd1 : d ≠ e) (hd2 : d ≠ neg e)
    (hS1 : e ∈ S → neg b ∈ S) (hS2 : neg e ∈ S → neg d ∈ S) (y : HE) :
    y ∈ afterFlip v e S ↔ (y = e ∧ d ∈ S) ∨ (y = neg e ∧ b ∈ S) ∨ (y ≠ e ∧ y ≠ neg e ∧ y ∈ S) := by
  unfold afterFlip
  simp only [hb, hd]
  have ee : e ≠ neg e := ne_neg e
  have nb1 : neg b ≠ e := fun hc => hb2 (by rw [← hc, neg_neg'])
  have nb2 : neg b ≠ neg e := fun hc => hb1 (neg_inj'.1 hc)
  have nd1 : neg d ≠ e := fun hc => hd2 (by rw [← hc, neg_neg'])
  have nd2 : neg d ≠ neg e := fun hc => hd1 (neg_inj'.1 hc)
  have m1 : ∀ z, z ∈ (if neg b ∈ S then S.erase e else S) ↔ z ≠ e ∧ z ∈ S := by
    intro z
    split_ifs with h
    · rw [Finset.mem_erase]
    · constructor
      · intro hz; refine ⟨?_, hz⟩; rintro rfl; exact h (hS1 hz)
      · exact fun hz => hz.2
  generalize (if neg b ∈ S then S.erase e else S) = S1 at m1 ⊢
  have m2 : ∀ z, z ∈ (if neg d ∈ S1 then S1.erase (neg e) else S1) ↔ z ≠ e ∧ z ≠ neg e ∧ z ∈ S := by
    intro z
    split_ifs with h
    · rw [Finset.mem_erase, m1]; tauto
    · rw [m1] at h ⊢
      constructor
      · rintro ⟨h1, h2⟩; refine ⟨h1, ?_, h2⟩; rintro rfl; exact h ⟨nd1, hS2 h2⟩
      · tauto
  generalize (if neg d ∈ S1 then S1.erase (neg e) else S1) = S2 at m2 ⊢
  have m3 : ∀ z, z ∈ (if b ∈ S2 then insert (neg e) S2 else S2) ↔
      (z = neg e ∧ b ∈ S) ∨ (z ≠ e ∧ z ≠ neg e ∧ z ∈ S) := by
    intro z
    split_ifs with h
    · rw [Finset.mem_insert, m2]; rw [m2] at h; tauto
    · rw [m2]; rw [m2] at h; tauto
  generalize (if b ∈ S2 then insert (neg e) S2 else S2) = S3 at m3 ⊢
  split_ifs with h
  · rw [Finset.mem_insert, m3]; rw [m3] at h
    have hdS : d ∈ S := by rcases h with h | h; exacts [absurd h.1 hd2, h.2.2]
    by_cases hy : y = e
    · subst hy; simp [hdS]
    · simp [hy]
  · rw [m3]; rw [m3] at h
    have hdS : d ∉ S := fun hc => h (Or.inr ⟨hd1, hd2, hc⟩)
    by_cases hy : y = e
    · subst hy; simp [hdS, ee]
    · simp [hy]

theorem Flipped.vertexesOk {T T' : Tri} (h : T.vertices.WF) (hV : T.VertexesOk) {e a b c d : HE}
    (q : T.Quad e a b c d) (f : T.Flipped T' e a b c d) : T'.VertexesOk := by
  obtain ⟨⟨ea, eb, ee', ec, ed⟩, ⟨ab, ae', ac, ad⟩, ⟨be', bc, bd⟩, ⟨e'c, e'd⟩, cd⟩ := q.ne
  have hb : T'.vertices.inv (neg e) = b := by rw [← f.vb, f.hv.left]
  have hd : T'.vertices.inv e = d := by rw [← f.vd, f.hv.left]
  have nb1 : neg b ≠ e := fun hc => be' (by rw [← hc, neg_neg'])
  have nb2 : neg b ≠ neg e := fun hc => eb (neg_inj'.1 hc).symm
  have nd1 : neg d ≠ e := fun hc => e'd (by rw [← hc, neg_neg'])
  have nd2 : neg d ≠ neg e := fun hc => ed (neg_inj'.1 hc).symm
  -- each orbit has an element other than e and -e
  have hrep : ∀ S ∈ T.vertexes, ∃ x < T.size, x ≠ e ∧ x ≠ neg e ∧ ∀ y, y ∈ S ↔ T.vertices.Orb x y := by
    intro S hS
    obtain ⟨x, hx, hxS⟩ := hV.orbit S hS
    have shift : ∀ x, x < T.size → (∀ y, y ∈ S ↔ T.vertices.Orb x y) →
        T.vertices.fwd x < T.size ∧ ∀ y, y ∈ S ↔ T.vertices.Orb (T.vertices.fwd x) y := by
      intro x hx hxS
      refine ⟨h.fwd_lt.2 hx, fun y => ?_⟩
      rw [hxS]
      exact ⟨fun hy => ((Perm.Orb.step _ x).symm h).trans hy, fun hy => (Perm.Orb.step _ x).trans hy⟩
    by_cases h1 : x = e
    · subst h1
      obtain ⟨g1, g2⟩ := shift _ hx hxS
      rw [q.ve] at g1 g2
      exact ⟨neg b, g1, nb1, nb2, g2⟩
    · by_cases h2 : x = neg e
      · subst h2
        obtain ⟨g1, g2⟩ := shift _ hx hxS
        rw [q.ve'] at g1 g2
        exact ⟨neg d, g1, nd1, nd2, g2⟩
      · exact ⟨x, hx, h1, h2, hxS⟩
  have hmem : ∀ S ∈ T.vertexes, ∀ y, y ∈ afterFlip T'.vertices e S ↔
      (y = e ∧ d ∈ S) ∨ (y = neg e ∧ b ∈ S) ∨ (y ≠ e ∧ y ≠ neg e ∧ y ∈ S) := by
    intro S hS
    obtain ⟨x, -, -, -, hxS⟩ := hrep S hS
    apply mem_afterFlip hb hd eb.symm be' ed.symm e'd.symm
    · rw [hxS, hxS]; intro hy; rw [← q.ve]; exact hy.trans (Perm.Orb.step _ _)
    · rw [hxS, hxS]; intro hy; rw [← q.ve']; exact hy.trans (Perm.Orb.step _ _)
  have horb : ∀ S ∈ T.vertexes, ∃ x < T.size, x ≠ e ∧ x ≠ neg e ∧
      ∀ y, y ∈ afterFlip T'.vertices e S ↔ T'.vertices.Orb x y := by
    intro S hS
    obtain ⟨x, hx, hx1, hx2, hxS⟩ := hrep S hS
    refine ⟨x, hx, hx1, hx2, fun y => ?_⟩
    rw [hmem S hS]
    by_cases hy1 : y = e
    · subst hy1
      have : T'.vertices.Orb x y ↔ T'.vertices.Orb x d := by
        have s : T'.vertices.Orb d y := ⟨1, f.vd⟩
        exact ⟨fun g => g.trans (s.symm f.hv), fun g => g.trans s⟩
      rw [this, f.orb h q hx1 hx2 ed.symm e'd.symm, ← hxS]
      simp [ee']
    · by_cases hy2 : y = neg e
      · subst hy2
        have : T'.vertices.Orb x (neg e) ↔ T'.vertices.Orb x b := by
          have s : T'.vertices.Orb b (neg e) := ⟨1, f.vb⟩
          exact ⟨fun g => g.trans (s.symm f.hv), fun g => g.trans s⟩
        rw [this, f.orb h q hx1 hx2 eb.symm be', ← hxS]
        simp [ee'.symm]
      · rw [f.orb h q hx1 hx2 hy1 hy2, ← hxS]
        simp [hy1, hy2]
  refine ⟨?_, ?_, ?_⟩
  · intro S' hS'
    rw [f.vertexes] at hS'
    obtain ⟨S, hS, rfl⟩ := List.mem_map.1 hS'
    obtain ⟨x, hx, -, -, g⟩ := horb S hS
    exact ⟨x, by unfold size; rw [f.vsize]; exact hx, g⟩
  · intro x hx
    unfold size at hx
    rw [f.vsize] at hx
    rw [f.vertexes]
    have key : ∀ z S, S ∈ T.vertexes → z ∈ S → (z = d → e ∈ afterFlip T'.vertices e S) ∧
        (z = b → neg e ∈ afterFlip T'.vertices e S) ∧
        (z ≠ e → z ≠ neg e → z ∈ afterFlip T'.vertices e S) := by
      intro z S hS hz
      rw [hmem S hS, hmem S hS, hmem S hS]
      refine ⟨?_, ?_, ?_⟩
      · rintro rfl; exact Or.inl ⟨rfl, hz⟩
      · rintro rfl; exact Or.inr (Or.inl ⟨rfl, hz⟩)
      · intro h1 h2; exact Or.inr (Or.inr ⟨h1, h2, hz⟩)
    by_cases h1 : x = e
    · obtain ⟨S, hS, hzS⟩ := hV.cover d q.lt.2.2.2.2.1
      exact ⟨_, List.mem_map_of_mem hS, by rw [h1]; exact (key d S hS hzS).1 rfl⟩
    · by_cases h2 : x = neg e
      · obtain ⟨S, hS, hzS⟩ := hV.cover b q.lt.2.2.1
        exact ⟨_, List.mem_map_of_mem hS, by rw [h2]; exact (key b S hS hzS).2.1 rfl⟩
      · obtain ⟨S, hS, hzS⟩ := hV.cover x hx
        exact ⟨_, List.mem_map_of_mem hS, (key x S hS hzS).2.2 h1 h2⟩
  · rw [f.vertexes]
    refine List.Nodup.map_on ?_ hV.nodup
    intro S hS S' hS' heq
    obtain ⟨x, hx, hx1, hx2, g⟩ := horb S hS
    have hxS' : x ∈ S' := by
      have : x ∈ afterFlip T'.vertices e S' := by rw [← heq, g]; exact Perm.Orb.refl _ _
      rw [hmem S' hS'] at this
      simpa [hx1, hx2] using this
    have hxS : x ∈ S := by
      have : x ∈ afterFlip T'.vertices e S := by rw [g]; exact Perm.Orb.refl _ _
      rw [hmem S hS] at this
      simpa [hx1, hx2] using this
    obtain ⟨y, -, hyS⟩ := hV.orbit S hS
    obtain ⟨y', -, hyS'⟩ := hV.orbit S' hS'
    ext z
    rw [hyS, hyS']
    have o1 := (hyS x).1 hxS
    have o2 := (hyS' x).1 hxS'
    exact ⟨fun g => o2.trans ((o1.symm h).trans g), fun g => o1.trans ((o2.symm h).trans g)⟩

theorem Flipped.quad {T T' : Tri} {e a b c d : HE} (q : T.Quad e a b c d) (f : T.Flipped T' e a b c d) :
    T'.Quad e b c d a := by
  obtain ⟨le, la, lb, lc, ld, le'⟩ := q.lt
  refine ⟨f.fe, f.fb, f.fc, f.fe', f.fd, f.fa, f.ve, f.vb, f.vc, f.ve', f.vd, f.va, ?_, ?_⟩
  · unfold size at *
    rw [f.vsize]
    exact ⟨le, lb, lc, ld, la, le'⟩
  · obtain ⟨⟨ea, eb, ee', ec, ed⟩, ⟨ab, ae', ac, ad⟩, ⟨be', bc, bd⟩, ⟨e'c, e'd⟩, cd⟩ := q.ne
    simp only [List.nodup_cons, List.mem_cons, not_or, List.not_mem_nil, not_false_eq_true, List.nodup_nil,
      and_true]
    exact ⟨⟨eb, ec, ee', ed, ea⟩, ⟨bc, be', bd, ab.symm⟩, ⟨e'c.symm, cd, ac.symm⟩, ⟨e'd, ae'.symm⟩, ad.symm⟩

theorem Flipped.mem_iff {T T' : Tri} (hV : T.VertexesOk) {e a b c d : HE}
    (q : T.Quad e a b c d) (f : T.Flipped T' e a b c d) {S : Finset HE} (hS : S ∈ T.vertexes) {y : HE}
    (hy1 : y ≠ e) (hy2 : y ≠ neg e) : y ∈ afterFlip T'.vertices e S ↔ y ∈ S := by
  obtain ⟨⟨ea, eb, ee', ec, ed⟩, ⟨ab, ae', ac, ad⟩, ⟨be', bc, bd⟩, ⟨e'c, e'd⟩, cd⟩ := q.ne
  have hb : T'.vertices.inv (neg e) = b := by rw [← f.vb, f.hv.left]
  have hd : T'.vertices.inv e = d := by rw [← f.vd, f.hv.left]
  obtain ⟨x, -, hxS⟩ := hV.orbit S hS
  rw [mem_afterFlip hb hd eb.symm be' ed.symm e'd.symm]
  · simp [hy1, hy2]
  · rw [hxS, hxS]; intro hy; rw [← q.ve]; exact hy.trans (Perm.Orb.step _ _)
  · rw [hxS, hxS]; intro hy; rw [← q.ve']; exact hy.trans (Perm.Orb.step _ _)

theorem VertexesOk.eq_of_mem {T : Tri} (h : T.vertices.WF) {S S' : Finset HE}
    (h1 : ∃ x < T.size, ∀ y, y ∈ S ↔ T.vertices.Orb x y)
    (h2 : ∃ x < T.size, ∀ y, y ∈ S' ↔ T.vertices.Orb x y) {x : HE} (hx : x ∈ S) (hx' : x ∈ S') : S = S' := by
  obtain ⟨y, -, hyS⟩ := h1
  obtain ⟨y', -, hyS'⟩ := h2
  ext z
  rw [hyS, hyS']
  have o1 := (hyS x).1 hx
  have o2 := (hyS' x).1 hx'
  exact ⟨fun g => o2.trans ((o1.symm h).trans g), fun g => o1.trans ((o2.symm h).trans g)⟩

theorem Flipped.succ {T T' : Tri} (hV : T.VertexesOk) {e a b c d : HE}
    (q : T.Quad e a b c d) (f : T.Flipped T' e a b c d) {S : Finset HE} (hS : S ∈ T.vertexes) :
    ∃ S', S' = afterFlip T'.vertices e S ∧ S' ∈ T'.vertexes ∧ ∀ y, y ≠ e → y ≠ neg e → (y ∈ S' ↔ y ∈ S) :=
  ⟨_, rfl, by rw [f.vertexes]; exact List.mem_map_of_mem hS, fun _ h1 h2 => f.mem_iff hV q hS h1 h2⟩

theorem VertexesOk.exists_other {T : Tri} (hV : T.VertexesOk) {e a b c d : HE} (q : T.Quad e a b c d)
    {S : Finset HE} (hS : S ∈ T.vertexes) : ∃ y ∈ S, y ≠ e ∧ y ≠ neg e := by
  obtain ⟨⟨ea, eb, ee', ec, ed⟩, ⟨ab, ae', ac, ad⟩, ⟨be', bc, bd⟩, ⟨e'c, e'd⟩, cd⟩ := q.ne
  obtain ⟨x, hx, hxS⟩ := hV.orbit S hS
  have hxx : x ∈ S := (hxS x).2 (Perm.Orb.refl _ _)
  by_cases h1 : x = e
  · refine ⟨neg b, ?_, fun hc => be' (by rw [← hc, neg_neg']), fun hc => eb (neg_inj'.1 hc).symm⟩
    rw [hxS, ← q.ve, h1]; exact Perm.Orb.step _ _
  · by_cases h2 : x = neg e
    · refine ⟨neg d, ?_, fun hc => e'd (by rw [← hc, neg_neg']), fun hc => ed (neg_inj'.1 hc).symm⟩
      rw [hxS, ← q.ve', h2]; exact Perm.Orb.step _ _
    · exact ⟨x, hxx, h1, h2⟩

theorem four_vertexes {T T1 T2 T3 T4 : Tri} (h : T.Coherent) (hV : T.VertexesOk) (V1 : T1.VertexesOk)
    (V2 : T2.VertexesOk) (V3 : T3.VertexesOk) (V4 : T4.VertexesOk) {e a b c d : HE} (q : T.Quad e a b c d)
    (q1 : T1.Quad e b c d a) (q2 : T2.Quad e c d a b) (q3 : T3.Quad e d a b c)
    (f1 : T.Flipped T1 e a b c d) (f2 : T1.Flipped T2 e b c d a) (f3 : T2.Flipped T3 e c d a b)
    (f4 : T3.Flipped T4 e d a b c) (hverts : T4.vertices = T.vertices) : T4.vertexes = T.vertexes := by
  rw [f4.vertexes, f3.vertexes, f2.vertexes, f1.vertexes]
  simp only [List.map_map]
  refine (List.map_congr_left ?_).trans (List.map_id _)
  intro S hS
  obtain ⟨S1, e1, m1, i1⟩ := f1.succ hV q hS
  obtain ⟨S2, e2, m2, i2⟩ := f2.succ V1 q1 m1
  obtain ⟨S3, e3, m3, i3⟩ := f3.succ V2 q2 m2
  obtain ⟨S4, e4, m4, i4⟩ := f4.succ V3 q3 m3
  simp only [comp, ← e1, ← e2, ← e3, ← e4]
  obtain ⟨y, hy, hy1, hy2⟩ := hV.exists_other q hS
  have o4 := V4.orbit S4 m4
  unfold size at o4
  rw [hverts] at o4
  exact VertexesOk.eq_of_mem h.hv o4 (hV.orbit S hS)
    ((i4 y hy1 hy2).2 ((i3 y hy1 hy2).2 ((i2 y hy1 hy2).2 ((i1 y hy1 hy2).2 hy)))) hy

/-- Flipping four times. -/
theorem flip_four {T : Tri} (h : T.Coherent) (hV : T.VertexesOk) {e a b c d : HE} (q : T.Quad e a b c d)
    (dbg : Bool) : ∃ T1 T2 T3, T.flip dbg e = (T1, .ok ()) ∧ T1.flip dbg e = (T2, .ok ()) ∧
      T2.flip dbg e = (T3, .ok ()) ∧ T3.flip dbg e = (T, .ok ()) ∧
      T2.size = T.size ∧
      (∀ x, T2.faces.fwd x = Equiv.swap e (neg e) (T.faces.fwd (Equiv.swap e (neg e) x))) ∧
      (∀ x, T2.vertices.fwd x = Equiv.swap e (neg e) (T.vertices.fwd (Equiv.swap e (neg e) x))) := by
  obtain ⟨T1, hT1, f1⟩ := flip_flipped h q dbg
  have c1 := f1.coherent h q
  have V1 := f1.vertexesOk h.hv hV q
  have q1 := f1.quad q
  obtain ⟨T2, hT2, f2⟩ := flip_flipped c1 q1 dbg
  have c2 := f2.coherent c1 q1
  have V2 := f2.vertexesOk c1.hv V1 q1
  have q2 := f2.quad q1
  obtain ⟨T3, hT3, f3⟩ := flip_flipped c2 q2 dbg
  have c3 := f3.coherent c2 q2
  have V3 := f3.vertexesOk c2.hv V2 q2
  have q3 := f3.quad q2
  obtain ⟨T4, hT4, f4⟩ := flip_flipped c3 q3 dbg
  have c4 := f4.coherent c3 q3
  have V4 := f4.vertexesOk c3.hv V3 q3
  have perm1 : ∀ x, x ∉ [e, a, b, neg e, c, d] → x ∉ [e, b, c, neg e, d, a] := fun x hx => by
    obtain ⟨h1, h2, h3, h4, h5, h6⟩ := not_mem_six.1 hx; exact not_mem_six.2 ⟨h1, h3, h5, h4, h6, h2⟩
  have perm2 : ∀ x, x ∉ [e, a, b, neg e, c, d] → x ∉ [e, c, d, neg e, a, b] := fun x hx => by
    obtain ⟨h1, h2, h3, h4, h5, h6⟩ := not_mem_six.1 hx; exact not_mem_six.2 ⟨h1, h5, h6, h4, h2, h3⟩
  have perm3 : ∀ x, x ∉ [e, a, b, neg e, c, d] → x ∉ [e, d, a, neg e, b, c] := fun x hx => by
    obtain ⟨h1, h2, h3, h4, h5, h6⟩ := not_mem_six.1 hx; exact not_mem_six.2 ⟨h1, h6, h2, h4, h3, h5⟩
  have hfaces : T4.faces = T.faces := by
    refine f4.hf.ext h.hf (by rw [f4.fsize, f3.fsize, f2.fsize, f1.fsize]) fun x _ => ?_
    by_cases hm : x ∈ [e, a, b, neg e, c, d]
    · rcases mem_six_cases hm with rfl | rfl | rfl | rfl | rfl | rfl
      · rw [q.fe, f4.fe]
      · rw [q.fa, f4.fb]
      · rw [q.fb, f4.fc]
      · rw [q.fe', f4.fe']
      · rw [q.fc, f4.fd]
      · rw [q.fd, f4.fa]
    · rw [f4.fx x (perm3 x hm), f3.fx x (perm2 x hm), f2.fx x (perm1 x hm), f1.fx x hm]
  have hverts : T4.vertices = T.vertices := by
    refine f4.hv.ext h.hv (by rw [f4.vsize, f3.vsize, f2.vsize, f1.vsize]) fun x _ => ?_
    by_cases hm : x ∈ [e, a, b, neg e, c, d]
    · rcases mem_six_cases hm with rfl | rfl | rfl | rfl | rfl | rfl
      · rw [q.ve, f4.ve]
      · rw [q.va, f4.vb]
      · rw [q.vb, f4.vc]
      · rw [q.ve', f4.ve']
      · rw [q.vc, f4.vd]
      · rw [q.vd, f4.va]
    · rw [f4.vx x (perm3 x hm), f3.vx x (perm2 x hm), f2.vx x (perm1 x hm), f1.vx x hm]
  have hvv : T4.vertexes = T.vertexes := four_vertexes h hV V1 V2 V3 V4 q q1 q2 q3 f1 f2 f3 f4 hverts
  have hT : T4 = T := Tri.ext hverts hfaces hvv
  refine ⟨T1, T2, T3, hT1, hT2, hT3, hT ▸ hT4, by unfold size; rw [f2.vsize, f1.vsize], ?_, ?_⟩
  · intro x
    obtain ⟨⟨ea, eb, ee', ec, ed⟩, ⟨ab, ae', ac, ad⟩, ⟨be', bc, bd⟩, ⟨e'c, e'd⟩, cd⟩ := q.ne
    by_cases hm : x ∈ [e, a, b, neg e, c, d]
    · rcases mem_six_cases hm with rfl | rfl | rfl | rfl | rfl | rfl
      · rw [f2.fe, Equiv.swap_apply_left, q.fe', Equiv.swap_apply_of_ne_of_ne ec.symm e'c.symm]
      · rw [f2.fd, Equiv.swap_apply_of_ne_of_ne ea.symm ae', q.fa, Equiv.swap_apply_of_ne_of_ne eb.symm be']
      · rw [f2.fa, Equiv.swap_apply_of_ne_of_ne eb.symm be', q.fb, Equiv.swap_apply_left]
      · rw [f2.fe', Equiv.swap_apply_right, q.fe, Equiv.swap_apply_of_ne_of_ne ea.symm ae']
      · rw [f2.fb, Equiv.swap_apply_of_ne_of_ne ec.symm e'c.symm, q.fc,
          Equiv.swap_apply_of_ne_of_ne ed.symm e'd.symm]
      · rw [f2.fc, Equiv.swap_apply_of_ne_of_ne ed.symm e'd.symm, q.fd, Equiv.swap_apply_right]
    · rw [f2.fx x (perm1 x hm), f1.fx x hm]
      have h1 := not_mem_six.1 hm
      have h2 := not_mem_six.1 ((q.fwd_not_mem h).2 hm)
      rw [Equiv.swap_apply_of_ne_of_ne h1.1 h1.2.2.2.1, Equiv.swap_apply_of_ne_of_ne h2.1 h2.2.2.2.1]
  · intro x
    obtain ⟨⟨ea, eb, ee', ec, ed⟩, ⟨ab, ae', ac, ad⟩, ⟨be', bc, bd⟩, ⟨e'c, e'd⟩, cd⟩ := q.ne
    have nn : ∀ y, y ≠ e → y ≠ neg e → Equiv.swap e (neg e) (neg y) = neg y := by
      intro y h1 h2
      exact Equiv.swap_apply_of_ne_of_ne (fun hc => h2 (by rw [← hc, neg_neg'])) (fun hc => h1 (neg_inj'.1 hc))
    by_cases hm : x ∈ [e, a, b, neg e, c, d]
    · rcases mem_six_cases hm with rfl | rfl | rfl | rfl | rfl | rfl
      · rw [f2.ve, Equiv.swap_apply_left, q.ve', nn _ ed.symm e'd.symm]
      · rw [f2.vd, Equiv.swap_apply_of_ne_of_ne ea.symm ae', q.va, Equiv.swap_apply_right]
      · rw [f2.va, Equiv.swap_apply_of_ne_of_ne eb.symm be', q.vb, nn _ ea.symm ae']
      · rw [f2.ve', Equiv.swap_apply_right, q.ve, nn _ eb.symm be']
      · rw [f2.vb, Equiv.swap_apply_of_ne_of_ne ec.symm e'c.symm, q.vc, Equiv.swap_apply_left]
      · rw [f2.vc, Equiv.swap_apply_of_ne_of_ne ed.symm e'd.symm, q.vd, nn _ ec.symm e'c.symm]
    · rw [f2.vx x (perm1 x hm), f1.vx x hm]
      have h1 := not_mem_six.1 hm
      have g1 : T.vertices.fwd x ≠ e := fun hc => h1.2.2.2.2.1 (h.hv.inj (hc.trans q.vc.symm))
      have g2 : T.vertices.fwd x ≠ neg e := fun hc => h1.2.1 (h.hv.inj (hc.trans q.va.symm))
      rw [Equiv.swap_apply_of_ne_of_ne h1.1 h1.2.2.2.1, Equiv.swap_apply_of_ne_of_ne g1 g2]

/-! ### Flips which fail -/

theorem mulCycle_three_repeat {p : Perm} {x y z : HE} (h1 : x ≠ y ∨ y ≠ z) (h2 : x = y ∨ y = z ∨ x = z) :
    p.mulCycle [x, y, z] = .error .invalidArgument := by
  unfold Perm.mulCycle
  have hd : [x, y, z].dedup.length = 2 := by
    rcases h2 with rfl | rfl | rfl
    · have : x ≠ z := by simpa using h1
      simp [List.dedup_cons_of_mem, this]
    · have : x ≠ y := by simpa using h1
      simp [List.dedup_cons_of_mem, this]
    · have : x ≠ y := by rcases h1 with h | h; exacts [h, h.symm]
      simp [List.dedup_cons_of_mem, this.symm]
  rw [hd]
  simp

theorem flip_rejects {T : Tri} (h : T.Coherent) {e : HE} (he : e < T.size) (hn : ¬ T.Flippable e)
    (dbg : Bool) (hb : dbg = true ∨ T.faces.fwd (neg e) ≠ neg e ∨ T.faces.fwd e = e) :
    T.flip dbg e = (T, .error .invalidArgument) := by
  have he' := (h.neg_lt e).2 he
  unfold flip boundary nextInFace
  rw [if_neg (by omega)]
  split_ifs with hd
  · rfl
  · have key : T.vertices.mulCycle [T.faces.fwd (T.faces.fwd e), T.faces.fwd e, neg e] = .error .invalidArgument := by
      by_cases nb : T.faces.fwd e = e
      · rw [nb, nb]
        exact mulCycle_three_repeat (Or.inr (ne_neg e)) (Or.inl rfl)
      · have nb' : T.faces.fwd (neg e) ≠ neg e := by
          rcases hb with hb | hb | hb
          · subst hb
            simp only [true_and, beq_iff_eq, not_or] at hd
            exact hd.2
          · exact hb
          · exact absurd hb nb
        have hne : T.faces.fwd (T.faces.fwd e) ≠ T.faces.fwd e := fun hc => nb (h.hf.inj hc)
        by_cases ha : T.faces.fwd e = neg e
        · exact mulCycle_three_repeat (Or.inl hne) (Or.inr (Or.inl ha))
        · by_cases hbb : T.faces.fwd (T.faces.fwd e) = neg e
          · exact mulCycle_three_repeat (Or.inl hne) (Or.inr (Or.inr hbb))
          · exact absurd ⟨nb, nb', ha, hbb⟩ hn
    simp only [key]

/-- A flip succeeds only for the edge of a quadrilateral. -/
theorem flippable_of_ok {T T' : Tri} (h : T.Coherent) {e : HE} {dbg : Bool} (hf : T.flip dbg e = (T', .ok ())) :
    T.Flippable e := by
  by_contra hn
  by_cases he : e < T.size
  · by_cases hb : dbg = true ∨ T.faces.fwd (neg e) ≠ neg e ∨ T.faces.fwd e = e
    · rw [flip_rejects h he hn dbg hb] at hf
      simp at hf
    · push Not at hb
      have he' := (h.neg_lt e).2 he
      unfold flip boundary nextInFace at hf
      rw [if_neg (by omega)] at hf
      simp only [hb.2.1] at hf
      have hd : dbg = false := by simpa using hb.1
      subst hd
      cases hv : T.vertices.mulCycle [T.faces.fwd (T.faces.fwd e), T.faces.fwd e, neg e] with
      | error er => rw [hv] at hf; simp at hf
      | ok v1 =>
        rw [hv] at hf
        have := mulCycle_three_repeat (p := v1) (x := neg e) (y := neg e) (z := e) (Or.inr (neg_ne e)) (Or.inl rfl)
        simp [this] at hf
  · unfold flip at hf
    rw [if_pos (by omega)] at hf
    simp at hf

/-! ### The list of faces -/

theorem IsCycle_length {T : Tri} (h : T.Coherent) {c : List HE} (hc : Perm.IsCycle T.faces c) :
    (∃ x, c = [x] ∧ T.faces.fwd x = x) ∨
    (∃ x y z, c = [x, y, z] ∧ T.faces.fwd x = y ∧ T.faces.fwd y = z ∧ T.faces.fwd z = x ∧ x ≠ y ∧ y ≠ z ∧ x ≠ z) := by
  obtain ⟨h1, h2, h3⟩ := hc
  match c, h1, h2, h3 with
  | [x], _, _, h3 => exact Or.inl ⟨x, rfl, by simpa using h3 0 (by simp)⟩
  | [x, y], _, h2, h3 =>
    exfalso
    have g1 := h3 0 (by simp)
    have g2 := h3 1 (by simp)
    simp at g1 g2
    have := h.tri x
    rw [g1, g2, g1] at this
    simp [this] at h2
  | [x, y, z], _, h2, h3 =>
    have g1 := h3 0 (by simp)
    have g2 := h3 1 (by simp)
    have g3 := h3 2 (by simp)
    simp at g1 g2 g3
    simp at h2
    exact Or.inr ⟨x, y, z, rfl, g1, g2, g3, h2.1.1, h2.2, h2.1.2⟩
  | x :: y :: z :: w :: c, _, h2, h3 =>
    exfalso
    have g1 := h3 0 (by simp)
    have g2 := h3 1 (by simp)
    have g3 := h3 2 (by simp)
    have m1 : (0 + 1) % (x :: y :: z :: w :: c).length = 1 := Nat.mod_eq_of_lt (by simp)
    have m2 : (1 + 1) % (x :: y :: z :: w :: c).length = 2 := Nat.mod_eq_of_lt (by simp)
    have m3 : (2 + 1) % (x :: y :: z :: w :: c).length = 3 := Nat.mod_eq_of_lt (by simp)
    simp only [m1] at g1
    simp only [m2] at g2
    simp only [m3] at g3
    simp at g1 g2 g3
    have := h.tri x
    rw [g1, g2, g3] at this
    simp [this] at h2

theorem facesList_spec {T : Tri} (h : T.Coherent) :
    ∃ l, T.facesList = some l ∧
      (∀ t ∈ l, T.faces.fwd t.1 = t.2.1 ∧ T.faces.fwd t.2.1 = t.2.2 ∧ T.faces.fwd t.2.2 = t.1 ∧
        T.faces.fwd t.1 ≠ t.1) ∧
      (l.flatMap fun t => [t.1, t.2.1, t.2.2]).Perm ((List.range T.size).filter fun x => !T.boundary x) := by
  obtain ⟨cs, h1, h2, h3⟩ := Perm.cycles_spec h.hf
  refine ⟨_, by unfold facesList; rw [h1]; rfl, ?_, ?_⟩
  · intro t ht
    obtain ⟨c, hc, hct⟩ := List.mem_filterMap.1 ht
    rcases IsCycle_length h (h2 c hc) with ⟨x, rfl, -⟩ | ⟨x, y, z, rfl, g1, g2, g3, g4, -, -⟩
    · simp [asTriple] at hct
    · simp [asTriple] at hct
      subst hct
      exact ⟨g1, g2, g3, by simp only; rw [g1]; exact g4.symm⟩
  · rw [h.hs] at h3
    refine List.Perm.trans ?_ (h3.filter _)
    have : ∀ cs : List (List HE), (∀ c ∈ cs, Perm.IsCycle T.faces c) →
        ((cs.filterMap asTriple).flatMap fun t : HE × HE × HE => [t.1, t.2.1, t.2.2]) =
        cs.flatten.filter fun x => !T.boundary x := by
      intro cs hcs
      induction cs with
      | nil => rfl
      | cons c cs ih =>
        have ih' := ih fun d hd => hcs d (List.mem_cons_of_mem _ hd)
        rcases IsCycle_length h (hcs c List.mem_cons_self) with ⟨x, rfl, g⟩ | ⟨x, y, z, rfl, g1, g2, g3, g4, g5, g6⟩
        · rw [List.filterMap_cons_none (by rfl), ih', List.flatten_cons, List.filter_append]
          simp [boundary, g]
        · rw [List.filterMap_cons_some (by rfl), List.flatMap_cons, ih', List.flatten_cons, List.filter_append]
          simp [boundary, g1, g2, g3, g4.symm, g5.symm, g6]
    rw [← this cs h2]

end Tri

end Verif
