import Verif.Props.C38
import Verif.Lemmas.EquivalenceClass
import Mathlib.Data.Prod.Lex

/-!
Codes of surfaces modulo linear maps.
-/

set_option linter.unusedSectionVars false

namespace Verif

open Spec

/-! ### What a step of a walker does to its tables -/

namespace Walker

theorem label_facts (w : Walker) (e : HE) : (w.label e).2.steps = w.steps ∧ w.labeled <+: (w.label e).2.labeled := by
  unfold label
  split_ifs
  · exact ⟨rfl, List.prefix_refl _⟩
  · split
    · exact ⟨rfl, List.prefix_refl _⟩
    · split
      · exact ⟨rfl, List.prefix_refl _⟩
      · exact ⟨rfl, List.prefix_append _ _⟩

theorem walk_facts {nxt : HE → HE} {a : HE} (fuel : ℕ) : ∀ {w : Walker} {p : HE} {cs : List ℤ} {r : List ℤ × Walker},
    walk nxt a fuel w p cs = some r → r.2.steps = w.steps ∧ w.labeled <+: r.2.labeled := by
  induction fuel with
  | zero => intro w p cs r h; cases h
  | succ fuel ih =>
    intro w p cs r h
    have hl := label_facts w (nxt p)
    simp only [walk] at h
    split_ifs at h
    · cases h; exact ⟨rfl, List.prefix_refl _⟩
    · cases h; exact hl
    · cases h; exact hl
    · obtain ⟨h1, h2⟩ := ih h
      exact ⟨h1.trans hl.1, hl.2.trans h2⟩

theorem step_facts {nxt : HE → HE} {fuel : ℕ} {w w' : Walker} {c : List ℤ} (h : step nxt fuel w = some (some c, w')) :
    w'.steps = w.steps + 1 ∧ w.labeled <+: w'.labeled ∧ w.steps < w.labeled.length := by
  simp only [step] at h
  cases hc : w.labeled[w.steps]? with
  | none => rw [hc] at h; cases h
  | some x =>
    have hlen := (List.getElem?_eq_some_iff.1 hc).1
    rw [hc] at h
    simp only at h
    split_ifs at h
    · cases h
      exact ⟨rfl, List.prefix_refl _, hlen⟩
    · rw [Option.map_eq_some_iff] at h
      obtain ⟨q, hq, h⟩ := h
      cases h
      obtain ⟨h1, h2⟩ := walk_facts _ hq
      exact ⟨h1, h2, hlen⟩

theorem run_prefix {nxt : HE → HE} {fuel : ℕ} {w f : Walker} {word : List (List ℤ)} (h : Run (step nxt fuel) w word f) :
    w.labeled <+: f.labeled := by
  induction h with
  | done => exact List.prefix_refl _
  | cons h1 _ ih => exact (step_facts h1).2.1.trans ih

end Walker

variable {T : Type} [CommRing T] [LinearOrder T] [IsStrictOrderedRing T] {S S' : FlatTri T}

namespace LinearEquivalence

/-- The characters of the walkers in the combinatorial and in the linear setting. -/
theorem run_lift {o : Bool} {fuel : ℕ} (M : Mat T) {w f : Walker} {word : List (List ℤ)}
    (h : Run (Walker.step (Walker.advance S.tri o) fuel) w word f) :
    Run (step S fuel) (M, o, w) ((word.zipIdx w.steps).map fun c => (c.1, M.apply (S.vec (neg (f.labeled.getD c.2 0))))) (M, o, f) := by
  induction h with
  | done h => exact .done (by simp [step, h])
  | @cons w w' f c cs h1 h2 ih =>
    obtain ⟨h3, h4, h5⟩ := Walker.step_facts h1
    rw [h3] at ih
    rw [List.zipIdx_cons, List.map_cons]
    refine .cons ?_ ih
    have e : w'.labeled.getD w.steps 0 = f.labeled.getD w.steps 0 := by
      obtain ⟨t, ht⟩ := h4
      obtain ⟨t', ht'⟩ := Walker.run_prefix h2
      rw [← ht', List.getD_append _ _ _ _ (by rw [← ht, List.length_append]; omega)]
    simp only [step, h1, Option.map_some, h3, Nat.add_sub_cancel, e]

/-- The order of the characters. -/
def key (c : List ℤ × Vec T) : List ℤ ×ₗ (T ×ₗ T) := toLex (c.1, toLex (c.2.x, c.2.y))

theorem key_injective : Function.Injective (key (T := T)) := by
  rintro ⟨c, v⟩ ⟨d, w⟩ h
  simp only [key, EmbeddingLike.apply_eq_iff_eq, Prod.mk.injEq] at h
  exact Prod.ext h.1 (Vec.ext h.2.1 h.2.2)

theorem cmp_eq (a b : List ℤ × Vec T) : cmp a b = @compare (List ℤ ×ₗ (T ×ₗ T)) LinearOrder.toOrd (key a) (key b) := by
  obtain ⟨c, v⟩ := a
  obtain ⟨d, w⟩ := b
  rw [← ite_eq_compare]
  simp only [cmp, Walker.cmp]
  have hl : ∀ (c d : List ℤ) (v w : Vec T), key (c, v) < key (d, w) ↔ c < d ∨ c = d ∧ (v.x < w.x ∨ v.x = w.x ∧ v.y < w.y) := by
    intro c d v w
    simp only [key, Prod.Lex.toLex_lt_toLex]
  simp only [gt_iff_lt, hl]
  rcases lt_trichotomy c d with h | rfl | h
  · simp [h]
  · rcases lt_trichotomy v.x w.x with h | h | h
    · simp [h]
    · rcases lt_trichotomy v.y w.y with h' | h' | h'
      · simp [h, h']
      · simp [h, h']
      · simp [h, h', lt_asymm h']
    · simp [h, lt_asymm h, h.ne']
  · simp [h, lt_asymm h, h.ne']

/-- The normalizing matrix for a half edge and an orientation. -/
def mat (quot : T → T → T) (group : LinearGroup) (S : FlatTri T) (p : Bool × HE) : Mat T :=
  match normalize false quot group (S.vec p.2) (S.vec (FlatTri.Shut.around S p.1 p.2)) with
  | .ok M => M
  | .error _ => ⟨1, 0, 0, 1⟩

theorem cross_around (h : S.Shut) (p : Bool × HE) (hp : p.2 < S.tri.size) :
    if p.1 then 0 < Vec.cross (S.vec p.2) (S.vec (FlatTri.Shut.around S p.1 p.2))
    else Vec.cross (S.vec p.2) (S.vec (FlatTri.Shut.around S p.1 p.2)) < 0 := by
  have key : ∀ x < S.tri.size, 0 < Vec.cross (S.vec x) (S.vec (S.tri.nextAtVertex x)) := by
    intro x hx
    have h6 := h.faces_lt (h.faces_lt hx)
    have h7 := h.flat.oriented _ (h.nb _ h6)
    rw [h.flat.coh.tri] at h7
    rw [h.nextAtVertex hx, h.flat.odd _ h6]
    simp only [Vec.cross, Vec.neg_x, Vec.neg_y] at h7 ⊢
    linarith
  obtain ⟨o, x⟩ := p
  cases o with
  | true => exact key x hp
  | false =>
    have h1 := key _ (h.around_lt false hp)
    have h2 : S.tri.nextAtVertex (FlatTri.Shut.around S false x) = x := h.around_not false hp
    rw [h2] at h1
    simp only [Bool.false_eq_true, if_false]
    simp only [Vec.cross] at h1 ⊢
    linarith

theorem cross_ne (h : S.Shut) (p : Bool × HE) (hp : p.2 < S.tri.size) :
    Vec.cross (S.vec p.2) (S.vec (FlatTri.Shut.around S p.1 p.2)) ≠ 0 := by
  have := cross_around h p hp
  split_ifs at this
  · exact this.ne'
  · exact this.ne

theorem exists_standard {v w : Vec T} : (∃ M : Mat T, M.apply v = ⟨1, 0⟩ ∧ M.apply w = ⟨0, 1⟩) ↔ IsUnit (Vec.cross v w) := by
  constructor
  · rintro ⟨M, h1, h2⟩
    have := orthonormalize_det h1 h2
    exact .of_mul_eq_one M.det (by rw [mul_comm]; exact this)
  · intro hu
    obtain ⟨i, hi⟩ := hu.exists_left_inv
    unfold Vec.cross at hi
    refine ⟨⟨i * w.y, -(i * w.x), -(i * v.y), i * v.x⟩, ?_, ?_⟩
    · ext
      · simp only [Mat.apply_x]
        linear_combination hi
      · simp only [Mat.apply_y]
        ring
    · ext
      · simp only [Mat.apply_x]
        ring
      · simp only [Mat.apply_y]
        linear_combination hi

theorem isUnit_around (h : S.Shut) (hu : UnitAreas S) (p : Bool × HE) (hp : p.2 < S.tri.size) :
    IsUnit (Vec.cross (S.vec p.2) (S.vec (FlatTri.Shut.around S p.1 p.2))) := by
  obtain ⟨o, x⟩ := p
  cases o with
  | true => exact hu x hp
  | false =>
    have h1 := hu _ (h.around_lt false hp)
    have h2 : S.tri.nextAtVertex (FlatTri.Shut.around S false x) = x := h.around_not false hp
    rw [h2] at h1
    rw [← IsUnit.neg_iff]
    convert h1 using 1
    simp only [Vec.cross]
    ring

theorem normalize_ok (h : S.Shut) {quot : T → T → T} (hq : ExactQuot quot) {group : LinearGroup}
    (hu : group ≠ .trivial → UnitAreas S) (dbg : Bool) {p : Bool × HE} (hp : p.2 < S.tri.size) :
    LinearEquivalence.normalize dbg quot group (S.vec p.2) (S.vec (FlatTri.Shut.around S p.1 p.2)) = .ok (mat quot group S p) := by
  have h0 := cross_ne h p hp
  by_cases ht : group = .trivial
  · subst ht
    rfl
  have h1 := exists_standard.2 (isUnit_around h (hu ht) p hp)
  obtain ⟨M, hM⟩ := (C38.possible_iff (dbg := dbg) hq ht h0).2 h1
  obtain ⟨N, hN⟩ := (C38.possible_iff (dbg := false) hq ht h0).2 h1
  have e : mat quot group S p = N := by
    unfold mat
    rw [hN]
  rw [hM, e]
  congr 1
  cases group with
  | trivial => exact absurd rfl ht
  | gl =>
    obtain ⟨-, a, b⟩ := orthonormalize_ok hM
    obtain ⟨-, c, d⟩ := orthonormalize_ok hN
    exact Mat.ext_of_apply h0 (a.trans c.symm) (b.trans d.symm)
  | sl =>
    obtain ⟨-, a, b⟩ := orthogonalize_ok hq hM
    obtain ⟨-, c, d⟩ := orthogonalize_ok hq hN
    exact Mat.ext_of_apply h0 (a.trans c.symm) (b.trans d.symm)

theorem det_mat (h : S.Shut) {quot : T → T → T} (hq : ExactQuot quot) {group : LinearGroup}
    (hu : group ≠ .trivial → UnitAreas S) {p : Bool × HE} (hp : p.2 < S.tri.size) (ht : group = .trivial → p.1 = true) :
    (0 < (mat quot group S p).det ↔ p.1 = true) ∧ (p.1 = false → (mat quot group S p).det < 0) := by
  have hn := normalize_ok h hq hu false hp
  have hx := cross_around h p hp
  cases group with
  | trivial =>
    have e : mat quot .trivial S p = ⟨1, 0, 0, 1⟩ := rfl
    rw [e]
    simp [Mat.det, ht rfl]
  | gl =>
    have h1 := (C38.gl_standard hn).2.2
    have h2 : 0 < (mat quot .gl S p).det * Vec.cross (S.vec p.2) (S.vec (FlatTri.Shut.around S p.1 p.2)) := by
      rw [h1]; exact one_pos
    split_ifs at hx with ho
    · exact ⟨⟨fun _ => ho, fun _ => pos_of_mul_pos_left h2 hx.le⟩, fun h3 => by rw [ho] at h3; cases h3⟩
    · have h3 : (mat quot .gl S p).det < 0 := by
        by_contra hc
        exact absurd h2 (not_lt.2 (mul_nonpos_of_nonneg_of_nonpos (not_lt.1 hc) hx.le))
      exact ⟨⟨fun h4 => absurd h4 (lt_asymm h3), fun h4 => absurd h4 ho⟩, fun _ => h3⟩
  | sl =>
    obtain ⟨-, -, h1, h2⟩ := C38.sl_standard hq hn
    split_ifs at hx with ho
    · rw [h1 hx]
      exact ⟨⟨fun _ => ho, fun _ => one_pos⟩, fun h3 => by rw [ho] at h3; cases h3⟩
    · rw [h2 hx]
      have : (-1 : T) < 0 := by linarith [one_pos (α := T)]
      exact ⟨⟨fun h4 => absurd h4 (lt_asymm this), fun h4 => absurd h4 ho⟩, fun _ => this⟩

theorem mapM_ok {A B : Type} {f : A → Except Err B} {g : A → B} (l : List A) (h : ∀ x ∈ l, f x = .ok (g x)) :
    l.mapM f = .ok (l.map g) := by
  induction l with
  | nil => rfl
  | cons a l ih =>
    rw [List.mapM_cons, h a (by simp), ih (fun x hx => h x (by simp [hx]))]
    rfl

theorem walkers_eq (h : S.Shut) {quot : T → T → T} (hq : ExactQuot quot) {group : LinearGroup} (hu : group ≠ .trivial → UnitAreas S)
    {oriented : Bool} (ht : group = .trivial → oriented = true) (dbg : Bool) :
    walkers dbg quot group oriented S =
      .ok ((starts oriented S.tri).map fun p => (mat quot group S p, p.1, Walker.make p.2)) := by
  have key : ∀ x ∈ S.tri.halfEdges, walkersAt dbg quot group oriented S x =
      .ok (((true, x) :: if oriented then [] else [(false, x)]).map fun p : Bool × HE => (mat quot group S p, p.1, Walker.make p.2)) := by
    intro x hx
    rw [Tri.mem_halfEdges] at hx
    have h1 := normalize_ok h hq hu dbg (p := (true, x)) hx
    have h2 := normalize_ok h hq hu dbg (p := (false, x)) hx
    have d1 := (det_mat h hq hu (p := (true, x)) hx (fun _ => rfl)).1.2 rfl
    simp only [FlatTri.Shut.around, Bool.false_eq_true, if_false, if_true] at h1 h2
    unfold walkersAt
    rw [h1]
    cases oriented with
    | true => simp [d1, makeWalker, bind, Except.bind, pure, Except.pure]
    | false =>
      have hne : group ≠ .trivial := fun hc => by cases ht hc
      have d2 := (det_mat h hq hu (p := (false, x)) hx (fun hc => absurd hc hne)).2 rfl
      simp [d1, d2, h2, makeWalker, bind, Except.bind, pure, Except.pure, lt_asymm d2]
  unfold walkers
  rw [mapM_ok _ key]
  simp only [bind, Except.bind, pure, Except.pure, Except.ok.injEq]
  rw [starts, List.map_flatMap, List.flatMap_def]

/-- The word of a walker. -/
noncomputable def lwordAt (quot : T → T → T) (group : LinearGroup) (S : FlatTri T) (p : Bool × HE) : List (List ℤ × Vec T) :=
  (wordAt S.tri p).zipIdx.map fun c =>
    (c.1, (mat quot group S p).apply (S.vec (neg ((finalAt S.tri p).labeled.getD c.2 0))))

open Classical in
theorem word_spec (h : S.Shut) (hc : ConnectedSurface S.tri) {quot : T → T → T} (hq : ExactQuot quot) {group : LinearGroup}
    (hu : group ≠ .trivial → UnitAreas S) {oriented : Bool} (ht : group = .trivial → oriented = true) (dbg : Bool) :
    ∃ code, (∃ p ∈ starts oriented S.tri, lwordAt quot group S p = code) ∧
      (∀ p ∈ starts oriented S.tri, code.map key ≤ (lwordAt quot group S p).map key) ∧
      ∀ fuel, S.tri.size + 3 ≤ fuel → word dbg quot group oriented S fuel =
        some (.ok (code, ((starts oriented S.tri).filter fun p => lwordAt quot group S p = code).map
          fun p => (mat quot group S p, p.1, finalAt S.tri p))) := by
  have main : ∀ fuel, S.tri.size + 3 ≤ fuel → ∃ code, (∃ p ∈ starts oriented S.tri, lwordAt quot group S p = code) ∧
      (∀ p ∈ starts oriented S.tri, code.map key ≤ (lwordAt quot group S p).map key) ∧ word dbg quot group oriented S fuel =
        some (.ok (code, ((starts oriented S.tri).filter fun p => lwordAt quot group S p = code).map
          fun p => (mat quot group S p, p.1, finalAt S.tri p))) := by
    intro fuel hf
    have hne : starts oriented S.tri ≠ [] :=
      List.ne_nil_of_mem (mem_starts.2 (⟨hc.nonempty, fun _ => rfl⟩ : (true, 0).2 < S.tri.size ∧ _))
    obtain ⟨code, h1, ⟨r, hr, hr2⟩, h3⟩ := EquivalenceWalker.loop_spec (k := key (T := T))
      (step := step S fuel) (cmp := cmp) cmp_eq key_injective (S.tri.size / 2)
      ((starts oriented S.tri).map fun p => ((mat quot group S p, p.1, Walker.make p.2), lwordAt quot group S p,
        (mat quot group S p, p.1, finalAt S.tri p)))
      (by simpa using hne)
      (by
        intro r hr
        obtain ⟨p, hp, rfl⟩ := List.mem_map.1 hr
        have := (Walker.result_spec (h.cells p.1) (h.conn hc p.1) (mem_starts.1 hp).1).1 fuel (by omega)
        exact run_lift _ this)
      (by
        intro r hr
        obtain ⟨p, hp, rfl⟩ := List.mem_map.1 hr
        have := (final_at h hc (mem_starts.1 hp).1).length h.even
        simp only [lwordAt, List.length_map, List.length_zipIdx]
        omega) fuel (by omega) []
    refine ⟨code, ?_, ?_, ?_⟩
    · obtain ⟨p, hp, rfl⟩ := List.mem_map.1 hr
      exact ⟨p, hp, hr2⟩
    · intro p hp
      exact h3 _ (List.mem_map.2 ⟨p, hp, rfl⟩)
    · unfold word EquivalenceWalker.word
      rw [walkers_eq h hq hu ht]
      rw [List.map_map] at h1
      have e1 : (Prod.fst ∘ fun p : Bool × HE => ((mat quot group S p, p.1, Walker.make p.2), lwordAt quot group S p,
        (mat quot group S p, p.1, finalAt S.tri p))) = fun p => (mat quot group S p, p.1, Walker.make p.2) := rfl
      rw [e1] at h1
      simp only
      rw [h1, List.filter_map, List.map_map]
      simp only [List.nil_append, Option.map_some]
      congr 5
      funext p
      simp only [Function.comp, (List.map_injective_iff.2 (key_injective (T := T))).eq_iff]
  obtain ⟨code, ⟨p, hp, hpc⟩, h2, -⟩ := main (S.tri.size + 3) (le_refl _)
  refine ⟨code, ⟨p, hp, hpc⟩, h2, ?_⟩
  intro fuel hf
  obtain ⟨code', ⟨p', hp', hpc'⟩, h2', h3⟩ := main fuel hf
  have : code = code' := by
    apply List.map_injective_iff.2 (key_injective (T := T))
    exact le_antisymm (by rw [← hpc']; exact h2 p' hp') (by rw [← hpc]; exact h2' p hp)
  rw [this]
  exact h3

/-- Two words agree exactly if there is a relabelling between them. -/
theorem lword_iff (h : S.Shut) (hc : ConnectedSurface S.tri) (h' : S'.Shut) (hc' : ConnectedSurface S'.tri) {quot : T → T → T}
    {group : LinearGroup} {p p' : Bool × HE} (hp : p.2 < S.tri.size) (hp' : p'.2 < S'.tri.size) :
    lwordAt quot group S p = lwordAt quot group S' p' ↔
      ∃ σ, Relabels S.tri S'.tri (p.1 == p'.1) σ ∧ σ p.2 = p'.2 ∧
        ∀ x < S.tri.size, (mat quot group S p).apply (S.vec x) = (mat quot group S' p').apply (S'.vec (σ x)) := by
  have hf := final_at h hc hp
  have hlen : ∀ {p : Bool × HE}, p.2 < S.tri.size → (wordAt S.tri p).length = (finalAt S.tri p).labeled.length := by
    intro p hp
    exact (final_at h hc hp).len.symm
  constructor
  · intro he
    have hw : wordAt S.tri p = wordAt S'.tri p' := by
      have := congrArg (List.map Prod.fst) he
      simpa [lwordAt, List.map_map, Function.comp_def, List.zipIdx_map_fst] using this
    obtain ⟨σ, hσ, hs, hl⟩ := iso_of_word h hc h' hc' hp hp' hw
    refine ⟨σ, hσ, hs, ?_⟩
    have hk : ∀ (k : ℕ) (x : HE), (finalAt S.tri p).labeled[k]? = some x →
        (mat quot group S p).apply (S.vec (neg x)) = (mat quot group S' p').apply (S'.vec (neg (σ x))) := by
      intro k x hkx
      have hklt : k < (wordAt S.tri p).length := by rw [hlen hp]; exact (List.getElem?_eq_some_iff.1 hkx).1
      have e := congrArg (fun l => l[k]?) he
      have hkx' : (finalAt S'.tri p').labeled[k]? = some (σ x) := by rw [hl, List.getElem?_map, hkx]; rfl
      have hklt' : k < (wordAt S'.tri p').length := by rw [← hw]; exact hklt
      simp only [lwordAt, List.getElem?_map, List.getElem?_zipIdx, List.getElem?_eq_getElem hklt, List.getElem?_eq_getElem hklt',
        Option.map_some, Option.some.injEq, Prod.mk.injEq, Nat.zero_add, List.getD_eq_getElem?_getD, hkx, hkx', Option.getD_some] at e
      exact e.2
    have odd : ∀ (M : Mat T) (v : Vec T), M.apply (-v) = -(M.apply v) := by
      intro M v
      ext
      · simp only [Mat.apply_x, Vec.neg_x, Vec.neg_y]; ring
      · simp only [Mat.apply_y, Vec.neg_x, Vec.neg_y]; ring
    intro x hx
    have hxs := hσ.lt x hx
    rcases hf.cover x hx with hm | hm
    · obtain ⟨k, hkx⟩ := List.getElem?_of_mem hm
      have := hk k x hkx
      rw [h.flat.odd x hx, h'.flat.odd _ hxs, odd, odd] at this
      exact _root_.neg_injective this
    · obtain ⟨k, hkx⟩ := List.getElem?_of_mem hm
      have := hk k _ hkx
      rwa [neg_neg', hσ.neg x hx, neg_neg'] at this
  · rintro ⟨σ, hσ, hs, hv⟩
    have hw : wordAt S.tri p = wordAt S'.tri p' := by
      have := wordAt_iso h hc h' hσ (p := p) hp
      rw [← this, hs]
      congr 1
      obtain ⟨o, s⟩ := p
      obtain ⟨o', s'⟩ := p'
      cases o <;> cases o' <;> rfl
    obtain ⟨τ, hτ, hs', hl⟩ := iso_of_word h hc h' hc' hp hp' hw
    have hτσ : ∀ x < S.tri.size, τ x = σ x :=
      ((h.relabels_iff h' _ _ _).1 hτ).rigid (h.cells p.1) (h.conn hc p.1) ((h.relabels_iff h' _ _ _).1 hσ) hp (hs'.trans hs.symm)
    unfold lwordAt
    rw [← hw]
    apply List.map_congr_left
    rintro ⟨c, k⟩ hck
    have hklt : k < (finalAt S.tri p).labeled.length := by
      have := List.mem_zipIdx hck
      rw [← hlen hp]
      omega
    have hxm := List.getElem_mem hklt
    have hx := hf.inv.lt _ hxm
    have e1 : (finalAt S.tri p).labeled.getD k 0 = (finalAt S.tri p).labeled[k] := by
      rw [List.getD_eq_getElem?_getD, List.getElem?_eq_getElem hklt]; rfl
    have e2 : (finalAt S'.tri p').labeled.getD k 0 = σ (finalAt S.tri p).labeled[k] := by
      rw [hl, List.getD_eq_getElem?_getD, List.getElem?_map, List.getElem?_eq_getElem hklt]
      exact hτσ _ hx
    simp only [e1, e2]
    rw [← hσ.neg _ hx, hv _ (neg_lt_of_even h.even hx)]

/-- The group element that takes one normalized surface to the other. -/
theorem exists_element (h : S.Shut) (h' : S'.Shut) {quot : T → T → T} (hq : ExactQuot quot) {group : LinearGroup}
    (hu : group ≠ .trivial → UnitAreas S) (hu' : group ≠ .trivial → UnitAreas S') {p p' : Bool × HE}
    (hp : p.2 < S.tri.size) (hp' : p'.2 < S'.tri.size) (ht : group = .trivial → p.1 = true ∧ p'.1 = true) :
    ∃ g, InGroup group g ∧ decide (0 < g.det) = (p.1 == p'.1) ∧
      ∀ u v : Vec T, (mat quot group S p).apply u = (mat quot group S' p').apply v → v = g.apply u := by
  have i1 := C38.in_group hq (normalize_ok h hq hu false hp)
  have i2 := C38.in_group hq (normalize_ok h' hq hu' false hp')
  have d1 := det_mat h hq hu hp (fun hc => (ht hc).1)
  have d2 := det_mat h' hq hu' hp' (fun hc => (ht hc).2)
  set M := mat quot group S p
  set N := mat quot group S' p'
  obtain ⟨i, hi, hgroup⟩ : ∃ i, i * N.det = 1 ∧ InGroup group (Mat.mul ⟨i * N.d, -(i * N.b), -(i * N.c), i * N.a⟩ M) := by
    cases group with
    | trivial =>
      refine ⟨1, ?_, ?_⟩
      · rw [show N = ⟨1, 0, 0, 1⟩ from i2]; simp [Mat.det]
      · rw [show N = ⟨1, 0, 0, 1⟩ from i2, show M = ⟨1, 0, 0, 1⟩ from i1]; simp [Mat.mul, InGroup]
    | gl =>
      obtain ⟨i, hi⟩ := IsUnit.exists_left_inv i2
      refine ⟨i, hi, ?_⟩
      show IsUnit _
      rw [Mat.det_mul]
      refine IsUnit.mul ?_ i1
      refine .of_mul_eq_one N.det ?_
      unfold Mat.det at hi ⊢
      simp only
      linear_combination (i * (N.a * N.d - N.b * N.c) + 1) * hi
    | sl =>
      refine ⟨N.det, ?_, ?_⟩
      · rcases i2 with h | h <;> rw [h] <;> simp
      · have e : (Mat.mul ⟨N.det * N.d, -(N.det * N.b), -(N.det * N.c), N.det * N.a⟩ M).det = N.det * N.det * N.det * M.det := by
          rw [Mat.det_mul]; unfold Mat.det; ring
        show _ ∨ _
        rw [e]
        rcases i2 with h | h <;> rcases i1 with h' | h' <;> rw [h, h'] <;> simp
  refine ⟨_, hgroup, ?_, ?_⟩
  · have e : (Mat.mul ⟨i * N.d, -(i * N.b), -(i * N.c), i * N.a⟩ M).det = i * M.det := by
      rw [Mat.det_mul]
      unfold Mat.det at hi ⊢
      simp only
      linear_combination i * (M.a * M.d - M.b * M.c) * hi
    rw [e]
    have hi0 : 0 < i ↔ 0 < N.det := by
      have : 0 < i * N.det := by rw [hi]; exact one_pos
      constructor
      · intro h1; exact (mul_pos_iff_of_pos_left h1).1 this
      · intro h1; exact (mul_pos_iff_of_pos_right h1).1 this
    have hne : i ≠ 0 := fun hc => by rw [hc, zero_mul] at hi; exact zero_ne_one hi
    have hi1 : ¬ 0 < N.det → i < 0 := fun h1 => lt_of_le_of_ne (not_lt.1 (fun h2 => h1 (hi0.1 h2))) hne
    cases ho : p.1 <;> cases ho' : p'.1
    · have a := d1.2 ho
      have b := hi1 (fun hc => by rw [d2.1, ho'] at hc; cases hc)
      simpa using mul_pos_of_neg_of_neg b a
    · have a := d1.2 ho
      have b := hi0.2 (d2.1.2 ho')
      simpa using (mul_neg_of_pos_of_neg b a).le
    · have a := d1.1.2 ho
      have b := hi1 (fun hc => by rw [d2.1, ho'] at hc; cases hc)
      simpa using (mul_neg_of_neg_of_pos b a).le
    · have a := d1.1.2 ho
      have b := hi0.2 (d2.1.2 ho')
      simpa using mul_pos b a
  · intro u v huv
    rw [Mat.mul_apply, huv]
    unfold Mat.det at hi
    ext
    · simp only [Mat.apply_x, Mat.apply_y]
      linear_combination -(v.x * hi)
    · simp only [Mat.apply_x, Mat.apply_y]
      linear_combination -(v.y * hi)

/-- Relabellings do not change the words. -/
theorem lword_image (h : S.Shut) (hc : ConnectedSurface S.tri) (h' : S'.Shut) (hc' : ConnectedSurface S'.tri) {quot : T → T → T}
    (hq : ExactQuot quot) {group : LinearGroup} (hu : group ≠ .trivial → UnitAreas S) (hu' : group ≠ .trivial → UnitAreas S')
    {g : Mat T} (hg : InGroup group g) {σ : HE → HE} (hσ : Relabels S.tri S'.tri (decide (0 < g.det)) σ)
    (hv : ∀ x < S.tri.size, S'.vec (σ x) = g.apply (S.vec x)) {p : Bool × HE} (hp : p.2 < S.tri.size) :
    lwordAt quot group S' ((if decide (0 < g.det) then p.1 else !p.1), σ p.2) = lwordAt quot group S p := by
  symm
  rw [lword_iff h hc h' hc' hp (hσ.lt _ hp)]
  have hb : (p.1 == (if decide (0 < g.det) then p.1 else !p.1)) = decide (0 < g.det) := by
    cases decide (0 < g.det) <;> cases p.1 <;> rfl
  refine ⟨σ, ?_, rfl, ?_⟩
  · simp only [hb]
    exact hσ
  intro x hx
  rw [hv x hx]
  have hiso := (h.relabels_iff h' p.1 (if decide (0 < g.det) then p.1 else !p.1) σ).1 (by rw [hb]; exact hσ)
  have hn := normalize_ok h hq hu false hp
  have hn' := normalize_ok h' hq hu' false (p := ((if decide (0 < g.det) then p.1 else !p.1), σ p.2)) (hσ.lt _ hp)
  have ha : σ (FlatTri.Shut.around S p.1 p.2) =
      FlatTri.Shut.around S' (if decide (0 < g.det) then p.1 else !p.1) (σ p.2) := by
    have l1 := (h.cells p.1).lt _ hp
    rw [h.around_eq _ hp, h'.around_eq _ (hσ.lt _ hp), hσ.neg _ ((h.cells p.1).lt _ l1), hiso.next _ l1, hiso.next _ hp]
  simp only at hn'
  rw [← ha, hv _ hp, hv _ (h.around_lt p.1 hp)] at hn'
  exact (C38.invariant hq hg hn hn' _).symm

/-- The codes agree if and only if there is a relabelling. -/
theorem lcode_eq_iff (h : S.Shut) (hc : ConnectedSurface S.tri) (h' : S'.Shut) (hc' : ConnectedSurface S'.tri) {quot : T → T → T}
    (hq : ExactQuot quot) {group : LinearGroup} (hu : group ≠ .trivial → UnitAreas S) (hu' : group ≠ .trivial → UnitAreas S')
    {oriented : Bool} (ht : group = .trivial → oriented = true) {code code' : List (List ℤ × Vec T)}
    (h1 : ∃ p ∈ starts oriented S.tri, lwordAt quot group S p = code)
    (h2 : ∀ p ∈ starts oriented S.tri, code.map key ≤ (lwordAt quot group S p).map key)
    (h1' : ∃ p ∈ starts oriented S'.tri, lwordAt quot group S' p = code')
    (h2' : ∀ p ∈ starts oriented S'.tri, code'.map key ≤ (lwordAt quot group S' p).map key) :
    code = code' ↔ ∃ σ, LinearRelabelling group oriented S S' σ := by
  constructor
  · rintro rfl
    obtain ⟨p, hp, hpc⟩ := h1
    obtain ⟨p', hp', hpc'⟩ := h1'
    rw [mem_starts] at hp hp'
    obtain ⟨σ, hσ, -, hv⟩ := (lword_iff h hc h' hc' hp.1 hp'.1).1 (hpc.trans hpc'.symm)
    obtain ⟨g, hg, hd, hg'⟩ := exists_element h h' hq hu hu' hp.1 hp'.1 (fun e => ⟨hp.2 (ht e), hp'.2 (ht e)⟩)
    refine ⟨σ, g, hg, ?_, by rw [hd]; exact hσ, fun x hx => hg' _ _ (hv x hx)⟩
    intro ho
    rw [hp.2 ho, hp'.2 ho] at hd
    simpa using hd
  · rintro ⟨σ, g, hg, ho, hσ, hv⟩
    have hb : oriented = true → decide (0 < g.det) = true := fun e => by simpa using ho e
    apply List.map_injective_iff.2 (key_injective (T := T))
    apply le_antisymm
    · obtain ⟨p', hp', rfl⟩ := h1'
      rw [mem_starts] at hp'
      obtain ⟨x, hx, hxs⟩ := hσ.surj _ hp'.1
      have hm : ((if decide (0 < g.det) then p'.1 else !p'.1), x) ∈ starts oriented S.tri := by
        rw [mem_starts]
        refine ⟨hx, fun e => ?_⟩
        simp only [hb e, if_true]
        exact hp'.2 e
      have e := lword_image h hc h' hc' hq hu hu' hg hσ hv (p := ((if decide (0 < g.det) then p'.1 else !p'.1), x)) hx
      have e' : ((if decide (0 < g.det) then (if decide (0 < g.det) then p'.1 else !p'.1) else !(if decide (0 < g.det) then p'.1 else !p'.1)), σ x) = p' := by
        rw [hxs]
        obtain ⟨o, s⟩ := p'
        cases decide (0 < g.det) <;> cases o <;> rfl
      rw [e'] at e
      rw [e]
      exact h2 _ hm
    · obtain ⟨p, hp, rfl⟩ := h1
      rw [← lword_image h hc h' hc' hq hu hu' hg hσ hv (mem_starts.1 hp).1]
      exact h2' _ (starts_image hb hσ hp)

open Classical in
/-- The walkers that produce the code correspond to the relabellings of the surface. -/
theorem card_linearAutomorphisms (h : S.Shut) (hc : ConnectedSurface S.tri) {quot : T → T → T} (hq : ExactQuot quot)
    {group : LinearGroup} (hu : group ≠ .trivial → UnitAreas S) {oriented : Bool} (ht : group = .trivial → oriented = true)
    {code : List (List ℤ × Vec T)} (h1 : ∃ p ∈ starts oriented S.tri, lwordAt quot group S p = code) :
    ((starts oriented S.tri).filter fun p => lwordAt quot group S p = code).length =
      (linearAutomorphisms group oriented S).ncard := by
  obtain ⟨p, hp, rfl⟩ := h1
  have hp' := mem_starts.1 hp
  have hex : ∀ q : Bool × HE, q ∈ (starts oriented S.tri).filter (fun q => lwordAt quot group S q = lwordAt quot group S p) →
      ∃ σ, LinearRelabelling group oriented S S σ ∧ Relabels S.tri S.tri (p.1 == q.1) σ ∧ σ p.2 = q.2 ∧
        ∀ x, S.tri.size ≤ x → σ x = x := by
    intro q hq'
    rw [List.mem_filter] at hq'
    have hqs := mem_starts.1 hq'.1
    obtain ⟨σ, hσ, hs, hv⟩ := (lword_iff h hc h hc hp'.1 hqs.1).1 (of_decide_eq_true hq'.2).symm
    obtain ⟨g, hg, hd, hg'⟩ := exists_element h h hq hu hu hp'.1 hqs.1 (fun e => ⟨hp'.2 (ht e), hqs.2 (ht e)⟩)
    have hr : Relabels S.tri S.tri (p.1 == q.1) (fun x => if x < S.tri.size then σ x else x) := by
      refine ⟨?_, ?_, ?_, ?_, ?_⟩
      · intro x hx
        simp only [if_pos hx]
        exact hσ.lt x hx
      · intro x hx y hy
        simp only [if_pos hx, if_pos hy]
        exact hσ.inj x hx y hy
      · intro y hy
        obtain ⟨x, hx, hxy⟩ := hσ.surj y hy
        exact ⟨x, hx, by simp only [if_pos hx]; exact hxy⟩
      · intro x hx
        simp only [if_pos hx, if_pos (neg_lt_of_even h.even hx)]
        exact hσ.neg x hx
      · intro x hx
        have : S.tri.nextAtVertex x < S.tri.size := h.around_lt true hx
        simp only [if_pos hx, if_pos this]
        exact hσ.vertex x hx
    refine ⟨fun x => if x < S.tri.size then σ x else x, ⟨g, hg, ?_, by rw [hd]; exact hr, ?_⟩, hr, ?_, ?_⟩
    · intro ho
      rw [hp'.2 ho, hqs.2 ho] at hd
      simpa using hd
    · intro x hx
      simp only [if_pos hx]
      exact hg' _ _ (hv x hx)
    · simp only [if_pos hp'.1]
      exact hs
    · intro x hx
      simp only [if_neg (by omega : ¬ x < S.tri.size)]
  let γ : Bool × HE → (HE → HE) := fun q =>
    if hq : q ∈ (starts oriented S.tri).filter (fun q => lwordAt quot group S q = lwordAt quot group S p) then (hex q hq).choose
    else id
  have hγ : ∀ q ∈ (starts oriented S.tri).filter (fun q => lwordAt quot group S q = lwordAt quot group S p),
      LinearRelabelling group oriented S S (γ q) ∧ Relabels S.tri S.tri (p.1 == q.1) (γ q) ∧ γ q p.2 = q.2 ∧
        ∀ x, S.tri.size ≤ x → γ q x = x := by
    intro q hq
    simp only [γ, dif_pos hq]
    exact (hex q hq).choose_spec
  have himage : linearAutomorphisms group oriented S =
      γ '' (((starts oriented S.tri).filter (fun q => lwordAt quot group S q = lwordAt quot group S p)).toFinset : Set (Bool × HE)) := by
    ext σ
    simp only [Set.mem_image, List.coe_toFinset, Set.mem_ofPred_eq, linearAutomorphisms]
    constructor
    · rintro ⟨⟨g, hg, ho, hσ, hv⟩, hout⟩
      have hb : oriented = true → decide (0 < g.det) = true := fun e => by simpa using ho e
      have hq : ((if decide (0 < g.det) then p.1 else !p.1), σ p.2) ∈
          (starts oriented S.tri).filter (fun q => lwordAt quot group S q = lwordAt quot group S p) := by
        rw [List.mem_filter]
        exact ⟨starts_image hb hσ hp, decide_eq_true (lword_image h hc h hc hq hu hu hg hσ hv hp'.1)⟩
      refine ⟨_, hq, ?_⟩
      obtain ⟨-, e1, e2, e3⟩ := hγ _ hq
      have hbb : (p.1 == (if decide (0 < g.det) then p.1 else !p.1)) = decide (0 < g.det) := by
        cases decide (0 < g.det) <;> cases p.1 <;> rfl
      have i1 := (h.relabels_iff h p.1 (if decide (0 < g.det) then p.1 else !p.1) σ).1 (by rw [hbb]; exact hσ)
      have i2 := (h.relabels_iff h p.1 (if decide (0 < g.det) then p.1 else !p.1) _).1 e1
      funext x
      by_cases hx : x < S.tri.size
      · exact i2.rigid (h.cells p.1) (h.conn hc p.1) i1 hp'.1 e2 x hx
      · rw [e3 x (by omega), hout x (by omega)]
    · rintro ⟨q, hq, rfl⟩
      obtain ⟨e0, e1, e2, e3⟩ := hγ q hq
      exact ⟨e0, e3⟩
  rw [himage, Set.InjOn.ncard_image, Set.ncard_coe_finset,
    List.toFinset_card_of_nodup ((starts_nodup oriented S.tri).filter _)]
  intro q hq q' hq' hqq
  simp only [List.coe_toFinset, Set.mem_ofPred_eq] at hq hq'
  obtain ⟨-, e1, e2, -⟩ := hγ q hq
  obtain ⟨-, e1', e2', -⟩ := hγ q' hq'
  rw [← hqq] at e1' e2'
  have hs : q.2 = q'.2 := e2.symm.trans e2'
  have ho : q.1 = q'.1 := by
    by_contra hne
    obtain ⟨o, s⟩ := q
    obtain ⟨o', s'⟩ := q'
    simp only at e1 e1' hne
    generalize γ (o, s) = τ at e1 e1'
    cases hpo : p.1 <;> rw [hpo] at e1 e1' <;> cases o <;> cases o' <;> first
      | exact hne rfl
      | exact not_both h hc e1 e1'
      | exact not_both h hc e1' e1
  exact Prod.ext ho hs

end LinearEquivalence

end Verif
