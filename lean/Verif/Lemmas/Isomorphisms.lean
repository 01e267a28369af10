import Verif.Model.Isomorphisms
import Verif.Lemmas.LinearClass
import Verif.Lemmas.TriSlit
import Verif.Props.C122
import Verif.Props.C85
import Verif.Props.C36

/-!
How half edges are renamed in the normal form of a surface.
-/

set_option linter.unusedSectionVars false

namespace Verif

open Spec Tri FlatTri

variable {T : Type} [CommRing T] [LinearOrder T] [IsStrictOrderedRing T]
variable {K : Type*} [Field K] [LinearOrder K] [IsStrictOrderedRing K]
variable {S S' : FlatTri T} {p p' : Bool × HE}

/-- The name of a half edge in the normal form. -/
noncomputable def normalName (S : FlatTri T) (p : Bool × HE) (e : HE) : HE :=
  if e < S.tri.size then ((finalAt S.tri p).relabeling e).getD 0 else e

theorem neg_double (l : ℕ) : neg (2 * l) = 2 * l + 1 := by
  rw [neg_def, if_pos (by omega)]

theorem neg_double' (l : ℕ) : neg (2 * l + 1) = 2 * l := by
  rw [neg_def, if_neg (by omega)]
  omega

/-- Half edges that have been seen are even, their opposites are odd. -/
theorem normalName_iff (h : S.Shut) (hc : ConnectedSurface S.tri) (hp : p.2 < S.tri.size) {e : HE} (he : e < S.tri.size) (k : ℕ) :
    (normalName S p e = 2 * k ↔ (finalAt S.tri p).labeled[k]? = some e) ∧
      (normalName S p e = 2 * k + 1 ↔ (finalAt S.tri p).labeled[k]? = some (neg e)) := by
  have hf := final_at h hc hp
  unfold normalName Walker.relabeling
  rw [if_pos he, ← hf.inv.lab, ← hf.inv.lab]
  cases h1 : (finalAt S.tri p).labels e with
  | some l =>
    have h2 : (finalAt S.tri p).labels (neg e) = none := by
      rw [hf.inv.labels_none]
      exact hf.inv.both e (List.mem_of_getElem? ((hf.inv.lab _ _).1 h1))
    rw [h2]
    simp only [Option.getD_some, Option.some.injEq, reduceCtorEq, iff_false]
    constructor <;> omega
  | none =>
    cases h2 : (finalAt S.tri p).labels (neg e) with
    | some l =>
      simp only [Option.getD_some, Option.some.injEq, reduceCtorEq, iff_false]
      constructor <;> omega
    | none =>
      exfalso
      rcases hf.cover e he with hm | hm
      · exact hf.inv.labels_none.1 h1 hm
      · exact hf.inv.labels_none.1 h2 hm

theorem normalName_cases (n : ℕ) : ∃ k, n = 2 * k ∨ n = 2 * k + 1 := ⟨n / 2, by omega⟩

theorem normalName_lt (h : S.Shut) (hc : ConnectedSurface S.tri) (hp : p.2 < S.tri.size) {e : HE} (he : e < S.tri.size) :
    normalName S p e < S.tri.size := by
  have hf := final_at h hc hp
  have hl := hf.length h.even
  rw [← hf.len] at hl
  obtain ⟨k, hk | hk⟩ := normalName_cases (normalName S p e)
  · have := (List.getElem?_eq_some_iff.1 ((normalName_iff h hc hp he k).1.1 hk)).1
    omega
  · have := (List.getElem?_eq_some_iff.1 ((normalName_iff h hc hp he k).2.1 hk)).1
    omega

theorem normalName_neg (h : S.Shut) (hc : ConnectedSurface S.tri) (hp : p.2 < S.tri.size) {e : HE} (he : e < S.tri.size) :
    normalName S p (neg e) = neg (normalName S p e) := by
  have hn := h.neg_lt he
  obtain ⟨k, hk | hk⟩ := normalName_cases (normalName S p e)
  · rw [hk, neg_double, (normalName_iff h hc hp hn k).2, neg_neg']
    exact (normalName_iff h hc hp he k).1.1 hk
  · rw [hk, neg_double', (normalName_iff h hc hp hn k).1]
    exact (normalName_iff h hc hp he k).2.1 hk

theorem normalName_inj (h : S.Shut) (hc : ConnectedSurface S.tri) (hp : p.2 < S.tri.size) : Function.Injective (normalName S p) := by
  intro x y hxy
  by_cases hx : x < S.tri.size <;> by_cases hy : y < S.tri.size
  · obtain ⟨k, hk | hk⟩ := normalName_cases (normalName S p x)
    · have h1 := (normalName_iff h hc hp hx k).1.1 hk
      have h2 := (normalName_iff h hc hp hy k).1.1 (hxy ▸ hk)
      rw [h1] at h2
      exact Option.some.inj h2
    · have h1 := (normalName_iff h hc hp hx k).2.1 hk
      have h2 := (normalName_iff h hc hp hy k).2.1 (hxy ▸ hk)
      rw [h1] at h2
      exact neg_inj'.1 (Option.some.inj h2)
  · have h1 := normalName_lt h hc hp hx
    rw [hxy, normalName, if_neg hy] at h1
    exact absurd h1 hy
  · have h1 := normalName_lt h hc hp hy
    rw [← hxy, normalName, if_neg hx] at h1
    exact absurd h1 hx
  · unfold normalName at hxy
    rwa [if_neg hx, if_neg hy] at hxy

/-- The walk starts by crossing the first half edge. -/
theorem normalName_start (h : S.Shut) (hc : ConnectedSurface S.tri) (hp : p.2 < S.tri.size) : normalName S p p.2 = 1 :=
  (normalName_iff h hc hp hp 0).2.2 (final_at h hc hp).inv.head

theorem normalName_surj (h : S.Shut) (hc : ConnectedSurface S.tri) (hp : p.2 < S.tri.size) {y : HE} (hy : y < S.tri.size) :
    ∃ x < S.tri.size, normalName S p x = y := by
  have hinj := (normalName_inj h hc hp)
  have := Finset.surjOn_of_injOn_of_card_le (s := Finset.range S.tri.size) (t := Finset.range S.tri.size) (normalName S p)
    (fun x hx => by simpa using normalName_lt h hc hp (by simpa using hx)) (fun x _ y _ hxy => hinj hxy) (le_refl _)
  obtain ⟨x, hx, hxy⟩ := this (by simpa using hy : y ∈ (Finset.range S.tri.size : Set HE))
  exact ⟨x, by simpa using hx, hxy⟩

/-- Relabelling a surface does not change its normal form. -/
theorem normalName_iso (h : S.Shut) (hc : ConnectedSurface S.tri) (h' : S'.Shut) (hc' : ConnectedSurface S'.tri)
    (hp : p.2 < S.tri.size) (hp' : p'.2 < S'.tri.size) {σ : HE → HE} (hσ : Relabels S.tri S'.tri (p.1 == p'.1) σ) (hs : σ p.2 = p'.2)
    {x : HE} (hx : x < S.tri.size) : normalName S' p' (σ x) = normalName S p x := by
  have hw : wordAt S.tri p = wordAt S'.tri p' := by
    have := wordAt_iso h hc h' hσ (p := p) hp
    rw [← this, hs]
    congr 1
    obtain ⟨o, s⟩ := p
    obtain ⟨o', s'⟩ := p'
    cases o <;> cases o' <;> rfl
  obtain ⟨τ, hτ, hs', hl⟩ := iso_of_word h hc h' hc' hp hp' hw
  have hτσ : ∀ x < S.tri.size, τ x = σ x :=
    ((h.relabels_iff h' _ _ _).1 hτ).rigid (h.cells p.1) (h.conn hc p.1) ((h.relabels_iff h' _ _ _).1 hσ) hp (hs'.trans hs.symm)
  have key : ∀ y < S.tri.size, ∀ k : ℕ, (finalAt S.tri p).labeled[k]? = some y → (finalAt S'.tri p').labeled[k]? = some (σ y) := by
    intro y hy k hk
    rw [hl, List.getElem?_map, hk, Option.map_some, hτσ y hy]
  have hx' := hσ.lt x hx
  obtain ⟨k, hk | hk⟩ := normalName_cases (normalName S p x)
  · rw [hk, (normalName_iff h' hc' hp' hx' k).1]
    exact key x hx k ((normalName_iff h hc hp hx k).1.1 hk)
  · rw [hk, (normalName_iff h' hc' hp' hx' k).2, ← hσ.neg x hx]
    exact key _ (h.neg_lt hx) k ((normalName_iff h hc hp hx k).2.1 hk)

/-- The table of the new names. -/
theorem walker_table (h : S.Shut) (hc : ConnectedSurface S.tri) (hp : p.2 < S.tri.size) (dbg : Bool) :
    (finalAt S.tri p).table dbg S.tri = .ok (S.tri.halfEdges.map fun e => (e, normalName S p e)) := by
  unfold Walker.table
  refine LinearEquivalence.mapM_ok _ fun e he => ?_
  have he' := mem_halfEdges.1 he
  have := relabeling_isSome h hc hp he'
  unfold normalName
  rw [if_pos he']
  cases hx : (finalAt S.tri p).relabeling e with
  | none => rw [hx] at this; cases this
  | some x => rfl

/-- Cloning a closed surface. -/
theorem clone_eq (A : Option (Approx T K)) (dbg : Bool) (hb : S.tri.hasBoundary = false) : S.clone A dbg = S.applyMatrix A dbg 1 0 0 1 := by
  unfold FlatTri.clone FlatTri.applyMatrix
  rw [if_neg (by simp), if_neg (by rw [hb]; simp), if_neg (by simp)]
  have : (fun e => (S.vec e).applyMatrix 1 0 0 1) = S.vec := by
    funext e
    ext <;> simp [Vec.applyMatrix]
  rw [this]

/-- How the half edges of a surface are renamed in its normal form. -/
structure Renames (dbg : Bool) (S N : FlatTri T) (M : Mat T) (p : Bool × HE) : Prop where
  closed : Closed dbg N
  size : N.tri.size = S.tri.size
  vec : ∀ x < S.tri.size, N.vec (normalName S p x) = M.apply (S.vec x)
  around : ∀ x < S.tri.size, N.tri.nextAtVertex (normalName S p x) = normalName S p (Shut.around S p.1 x)

theorem applyMatrix_image (A : Option (Approx T K)) {dbg : Bool} (h : Closed dbg S) {M : Mat T} (hM : M.det ≠ 0) :
    ∃ N, S.applyMatrix A dbg M.a M.b M.c M.d = .ok N ∧ LinearImage dbg S N M.a M.b M.c M.d := by
  obtain ⟨N, h1, -⟩ := C22.applyMatrix_correct A h.reachable h.flat h.closed hM
  exact ⟨N, h1, LinearImage.of_ok A h h1⟩

theorem normalization_ok (A : Option (Approx T K)) {dbg : Bool} (h : Closed dbg S) (hc : ConnectedSurface S.tri) (hp : p.2 < S.tri.size)
    {M : Mat T} (hM : M.det ≠ 0) (ho : 0 < M.det ↔ p.1 = true) :
    ∃ N, LinearEquivalence.normalization A dbg S (M, p.1, finalAt S.tri p) = .ok N ∧ Renames dbg S N M p := by
  have hs := h.shut
  obtain ⟨r, r1, r2, r3, r4⟩ := ofPairs_range (normalName_inj hs hc hp) (fun k hk => normalName_lt hs hc hp hk)
    (fun k hk => by unfold normalName; rw [if_neg (by omega)])
  obtain ⟨S1, R, s1, s2, s3, s4, s5⟩ := C121.relabel_correct A h (.ofPairs r1) r3
    (fun e he => by rw [r4, r4]; exact normalName_neg hs hc hp (mem_halfEdges.1 he))
  obtain ⟨S2, t1, t2⟩ := applyMatrix_image A s3 (M := ⟨1, 0, 0, 1⟩) (by simp [Mat.det])
  obtain ⟨S3, u1, u2⟩ := applyMatrix_image A t2.closed' hM
  obtain ⟨S4, v1, v2⟩ := applyMatrix_image A u2.closed' (M := ⟨1, 0, 0, 1⟩) (by simp [Mat.det])
  have hR : R.codomain = S1 := by
    obtain ⟨m, -, rfl⟩ := C121.deforms_eq h s3 s4 s5
    rfl
  obtain ⟨S1', e1, -, -, e2, e3, -⟩ := C22.relabel_correct A h.reachable h.flat h.closed (.ofPairs r1) r3
    (fun e he => by rw [r4, r4]; exact normalName_neg hs hc hp (mem_halfEdges.1 he))
  rw [s1] at e1
  cases e1
  have size1 := size_of_halfEdges e2
  refine ⟨S4, ?_, v2.closed', ?_, ?_, ?_⟩
  · unfold LinearEquivalence.normalization Walker.normalization
    simp only [walker_table hs hc hp, bind, Except.bind]
    rw [show S.tri.halfEdges = List.range S.tri.size from rfl, r1]
    simp only
    rw [s2]
    simp only
    rw [hR, clone_eq A dbg s3.closed, t1]
    simp only
    rw [u1]
    simp only
    rw [clone_eq A dbg u2.closed'.closed]
    exact v1
  · rw [v2.size, u2.size, t2.size, size1]
  · intro x hx
    have one : ∀ v : Vec T, v.applyMatrix 1 0 0 1 = v := fun v => by ext <;> simp [Vec.applyMatrix]
    rw [v2.vec, u2.vec, t2.vec, ← r4, (e3 x).1, one, one]
    rfl
  · intro x hx
    have i1 := fun y => (t2.pos (by simp)).nextAtVertex y
    have i2 := fun y => (v2.pos (by simp)).nextAtVertex y
    rw [i2]
    rcases lt_or_gt_of_ne hM with hlt | hgt
    · have hp1 : p.1 = false := by
        rw [← Bool.not_eq_true, ← ho]
        exact not_lt.2 hlt.le
      have j := (u2.neg hlt)
      have hprev : S.tri.previousAtVertex x < S.tri.size := hs.around_lt false hx
      have k1 : S2.tri.nextAtVertex (normalName S p (S.tri.previousAtVertex x)) = normalName S p x := by
        rw [i1, ← r4, (e3 _).2.2, r4]
        congr 1
        exact hs.around_not false hx
      rw [← k1, j.nextAtVertex, hp1]
      exact t2.closed'.shut.flat.coh.hv.left _
    · have hp1 : p.1 = true := ho.1 hgt
      rw [(u2.pos hgt).nextAtVertex, i1, ← r4, (e3 x).2.2, r4, hp1]
      rfl

/-- Surfaces with the same word have the same normal form. -/
theorem Renames.transfer {dbg : Bool} {N : FlatTri T} {quot : T → T → T} {group : LinearGroup} (h : S.Shut) (hc : ConnectedSurface S.tri)
    (h' : S'.Shut) (hc' : ConnectedSurface S'.tri) (hp : p.2 < S.tri.size) (hp' : p'.2 < S'.tri.size)
    (hw : LinearEquivalence.lwordAt quot group S p = LinearEquivalence.lwordAt quot group S' p')
    (hN : Renames dbg S' N (LinearEquivalence.mat quot group S' p') p') : Renames dbg S N (LinearEquivalence.mat quot group S p) p := by
  obtain ⟨σ, hσ, hs, hv⟩ := (LinearEquivalence.lword_iff h hc h' hc' hp hp').1 hw
  have hn : ∀ x < S.tri.size, normalName S' p' (σ x) = normalName S p x := fun x hx => normalName_iso h hc h' hc' hp hp' hσ hs hx
  have hsize : S'.tri.size = S.tri.size := by
    have e : (Finset.range S'.tri.size) = (Finset.range S.tri.size).image σ := by
      ext y
      simp only [Finset.mem_range, Finset.mem_image]
      exact ⟨hσ.surj y, fun ⟨x, hx, e⟩ => e ▸ hσ.lt x hx⟩
    have := congrArg Finset.card e
    rwa [Finset.card_image_of_injOn (fun x hx y hy => hσ.inj x (by simpa using hx) y (by simpa using hy)), Finset.card_range,
      Finset.card_range] at this
  refine ⟨hN.closed, hN.size.trans hsize, ?_, ?_⟩
  · intro x hx
    rw [← hn x hx, hN.vec _ (hσ.lt x hx), hv x hx]
  · intro x hx
    have hiso := (h.relabels_iff h' p.1 p'.1 σ).1 hσ
    have ha : σ (Shut.around S p.1 x) = Shut.around S' p'.1 (σ x) := by
      have l1 := (h.cells p.1).lt _ hx
      rw [h.around_eq _ hx, h'.around_eq _ (hσ.lt _ hx), hσ.neg _ ((h.cells p.1).lt _ l1), hiso.next _ l1, hiso.next _ hx]
    rw [← hn x hx, hN.around _ (hσ.lt x hx), ← ha, hn _ (h.around_lt _ hx)]

/-- Two normal forms of a surface are equal. -/
theorem Renames.beq {dbg : Bool} {N N' : FlatTri T} {M : Mat T} {Q : Type} [DecidableEq Q] (ring : T → Q) (hring : ∀ x y, ring x = ring y)
    (h : S.Shut) (hc : ConnectedSurface S.tri) (hp : p.2 < S.tri.size) (hN : Renames dbg S N M p) (hN' : Renames dbg S N' M p) :
    N.beq ring N' = true := by
  rw [C36.beq_iff]
  constructor
  · have e : N.tri.vertices.size = N'.tri.vertices.size := hN.size.trans hN'.size.symm
    unfold Perm.domain
    rw [← e]
    refine List.map_congr_left fun y hy => ?_
    have hy' : y < S.tri.size := by
      rw [← hN.size]
      exact List.mem_range.1 hy
    obtain ⟨x, hx, rfl⟩ := normalName_surj h hc hp hy'
    exact (hN.around x hx).trans (hN'.around x hx).symm
  · intro e he
    refine ⟨⟨hring _ _, hring _ _⟩, ?_⟩
    have he' : e < S.tri.size := by
      rw [← hN.size]
      have := (Tri.mem_edges e).1 he
      omega
    obtain ⟨x, hx, rfl⟩ := normalName_surj h hc hp he'
    rw [hN.vec x hx, hN'.vec x hx]

theorem mapM_map_ok {α β γ : Type} {f : β → Except Err γ} {g : α → β} {k : α → γ} (l : List α) (h : ∀ x ∈ l, f (g x) = .ok (k x)) :
    (l.map g).mapM f = .ok (l.map k) := by
  induction l with
  | nil => rfl
  | cons x l ih =>
    rw [List.map_cons, List.mapM_cons, h x (by simp), ih fun y hy => h y (by simp [hy])]
    rfl

/-- The surface after a linear map. -/
def imageOf (A : Option (Approx T K)) (dbg : Bool) (S : FlatTri T) (M : Mat T) : FlatTri T :=
  match S.applyMatrix A dbg M.a M.b M.c M.d with
  | .ok D => D
  | .error _ => S

/-- The map to the normal form. -/
noncomputable def normalMap (A : Option (Approx T K)) (dbg : Bool) (quot : T → T → T) (group : LinearGroup) (S N : FlatTri T) (p : Bool × HE) :
    Normalizing T :=
  ⟨some (LinearEquivalence.mat quot group S p), imageOf A dbg S (LinearEquivalence.mat quot group S p), N,
    S.tri.halfEdges.map fun e => (e, normalName S p e), true⟩

/-- The map to the normal form renames half edges. -/
theorem normalMap_renaming (A : Option (Approx T K)) {dbg : Bool} {N : FlatTri T} {quot : T → T → T} {group : LinearGroup} (h : Closed dbg S)
    (hc : ConnectedSurface S.tri) (hp : p.2 < S.tri.size) (hM : (LinearEquivalence.mat quot group S p).det ≠ 0)
    (ho : 0 < (LinearEquivalence.mat quot group S p).det ↔ p.1 = true) (hN : Renames dbg S N (LinearEquivalence.mat quot group S p) p) :
    ∃ D, S.applyMatrix A dbg (LinearEquivalence.mat quot group S p).a (LinearEquivalence.mat quot group S p).b
        (LinearEquivalence.mat quot group S p).c (LinearEquivalence.mat quot group S p).d = .ok D ∧
      imageOf A dbg S (LinearEquivalence.mat quot group S p) = D ∧
      Renaming D N (normalName S p) ∧ TableOf D (normalName S p) (S.tri.halfEdges.map fun e => (e, normalName S p e)) ∧
      Deforms dbg D N (normalName S p) (normalMap A dbg quot group S N p).rename := by
  have hs := h.shut
  obtain ⟨D, d1, d2⟩ := applyMatrix_image A h hM
  have hD : imageOf A dbg S (LinearEquivalence.mat quot group S p) = D := by
    unfold imageOf
    rw [d1]
  have hmem : ∀ {e : HE}, e ∈ D.tri.halfEdges → e < S.tri.size := fun he => by rw [← d2.size]; exact mem_halfEdges.1 he
  have htab : TableOf D (normalName S p) (S.tri.halfEdges.map fun e => (e, normalName S p e)) := by
    unfold TableOf Tri.halfEdges
    rw [d2.size]
  have hopp : ∀ e ∈ D.tri.halfEdges, normalName S p (neg e) = neg (normalName S p e) := fun e he => normalName_neg hs hc hp (hmem he)
  have hvec : ∀ e ∈ D.tri.halfEdges, N.vec (normalName S p e) = D.vec e := fun e he => by
    rw [hN.vec e (hmem he), d2.vec]
    rfl
  have hb : (D.tri.halfEdges.map (normalName S p)).Perm N.tri.halfEdges := by
    refine (List.perm_ext_iff_of_nodup (List.nodup_range.map (normalName_inj hs hc hp)) List.nodup_range).2 fun y => ?_
    rw [List.mem_map]
    constructor
    · rintro ⟨x, hx, rfl⟩
      exact mem_halfEdges.2 (by rw [hN.size]; exact normalName_lt hs hc hp (hmem hx))
    · intro hy
      obtain ⟨x, hx, e⟩ := normalName_surj hs hc hp (y := y) (by rw [← hN.size]; exact mem_halfEdges.1 hy)
      exact ⟨x, mem_halfEdges.2 (by rw [d2.size]; exact hx), e⟩
  have haround : ∀ x, D.tri.nextAtVertex x = Shut.around S p.1 x := by
    intro x
    rcases lt_or_gt_of_ne hM with hlt | hgt
    · have hp1 : p.1 = false := by
        rw [← Bool.not_eq_true, ← ho]
        exact not_lt.2 hlt.le
      rw [(d2.neg hlt).nextAtVertex, hp1]
      rfl
    · rw [(d2.pos hgt).nextAtVertex, ho.1 hgt]
      rfl
  have hturn : ∀ {U : FlatTri T}, U.Shut → ∀ {x}, x < U.tri.size → U.tri.nextAtVertex (U.tri.nextInFace x) = neg x := by
    intro U hU x hx
    have hl := hU.flat.coh.link (U.tri.nextInFace x) (hU.nb _ (hU.next_lt hx))
    have hi := hU.flat.coh.hf.left
    have e : neg (U.tri.nextAtVertex (U.tri.nextInFace x)) = x := by
      exact (hi _).symm.trans ((congrArg U.tri.faces.inv hl).trans (hi x))
    exact (neg_neg' _).symm.trans (congrArg neg e)
  have hfaces : ∀ e ∈ D.tri.halfEdges, N.tri.nextInFace (normalName S p e) = normalName S p (D.tri.nextInFace e) := by
    intro e he
    have he' := hmem he
    have hDs := d2.closed'.shut
    have hNs := hN.closed.shut
    have hnx : D.tri.nextInFace e < S.tri.size := by
      rw [← d2.size]
      exact hDs.next_lt (mem_halfEdges.1 he)
    have e1 : N.tri.nextAtVertex (normalName S p (D.tri.nextInFace e)) = neg (normalName S p e) := by
      rw [hN.around _ hnx, ← haround, hturn hDs (mem_halfEdges.1 he), normalName_neg hs hc hp he']
    have e2 : N.tri.nextAtVertex (N.tri.nextInFace (normalName S p e)) = neg (normalName S p e) :=
      hturn hNs (by rw [hN.size]; exact normalName_lt hs hc hp he')
    have e3 := congrArg N.tri.vertices.inv (e2.trans e1.symm)
    exact (hNs.flat.coh.hv.left _).symm.trans (e3.trans (hNs.flat.coh.hv.left _))
  refine ⟨D, d1, hD, ⟨hb, hopp, hfaces, hvec⟩, htab, hopp, _, htab, ?_⟩
  rw [Combinatorial.make_spec dbg d2.closed'.shut htab hopp
    (fun e he => hN.closed.shut.flat.odd _ (by rw [hN.size]; exact normalName_lt hs hc hp (hmem he))), decide_eq_true hvec]
  unfold normalMap
  rw [hD]

theorem deformation_ok (A : Option (Approx T K)) {dbg : Bool} {N : FlatTri T} {quot : T → T → T} {group : LinearGroup} (h : Closed dbg S)
    (hc : ConnectedSurface S.tri) (hp : p.2 < S.tri.size) (hM : (LinearEquivalence.mat quot group S p).det ≠ 0)
    (ho : 0 < (LinearEquivalence.mat quot group S p).det ↔ p.1 = true) (hN : Renames dbg S N (LinearEquivalence.mat quot group S p) p) :
    LinearEquivalence.deformation A dbg S N (LinearEquivalence.mat quot group S p, p.1, finalAt S.tri p) =
      .ok (normalMap A dbg quot group S N p) := by
  obtain ⟨D, d1, d2, d3, d4, d5⟩ := normalMap_renaming A h hc hp hM ho hN
  obtain ⟨m, hm, hR⟩ := C121.deforms_eq (LinearImage.of_ok A h d1).closed' hN.closed d3 d5
  have hmk := Combinatorial.make_spec dbg (LinearImage.of_ok A h d1).closed'.shut d4 d3.opposite (C := N)
    (fun e he => hN.closed.shut.flat.odd _ (d3.lt (mem_halfEdges.1 he)))
  rw [decide_eq_true d3.vectors] at hmk
  unfold LinearEquivalence.deformation normalMap
  simp only [d1, walker_table h.shut hc hp, bind, Except.bind, hmk, d2]
  rfl

/-- The code, the normal form and the maps to the normal form. -/
theorem code_ok (A : Option (Approx T K)) {dbg : Bool} (h : Closed dbg S) (hc : ConnectedSurface S.tri) {quot : T → T → T}
    (hq : ExactQuot quot) {group : LinearGroup} (hu : group ≠ .trivial → UnitAreas S) {oriented : Bool}
    (ht : group = .trivial → oriented = true) :
    ∃ code l p N, (∀ q, q ∈ p :: l ↔ q ∈ starts oriented S.tri ∧ LinearEquivalence.lwordAt quot group S q = code) ∧ (p :: l).Nodup ∧
      (∀ q ∈ starts oriented S.tri, code.map LinearEquivalence.key ≤ (LinearEquivalence.lwordAt quot group S q).map LinearEquivalence.key) ∧
      (∀ q ∈ p :: l, Renames dbg S N (LinearEquivalence.mat quot group S q) q) ∧
      ∀ fuel, S.tri.size + 3 ≤ fuel → LinearEquivalence.code A dbg quot group oriented fuel S =
        some (.ok (code, N, (p :: l).map (normalMap A dbg quot group S N))) := by
  classical
  have hs := h.shut
  obtain ⟨code, ⟨p0, h0, h0'⟩, h2, h3⟩ := LinearEquivalence.word_spec hs hc hq hu ht dbg
  have hmem : ∀ q, q ∈ (starts oriented S.tri).filter (fun p => LinearEquivalence.lwordAt quot group S p = code) ↔
      q ∈ starts oriented S.tri ∧ LinearEquivalence.lwordAt quot group S q = code := fun q => by
    rw [List.mem_filter, decide_eq_true_eq]
  have hnd := (starts_nodup oriented S.tri).filter (fun p => LinearEquivalence.lwordAt quot group S p = code)
  cases hl : (starts oriented S.tri).filter (fun p => LinearEquivalence.lwordAt quot group S p = code) with
  | nil =>
    have := (hmem p0).2 ⟨h0, h0'⟩
    rw [hl] at this
    cases this
  | cons p l =>
    rw [hl] at hmem hnd
    have hdet : ∀ q ∈ p :: l, q.2 < S.tri.size ∧ (LinearEquivalence.mat quot group S q).det ≠ 0 ∧
        (0 < (LinearEquivalence.mat quot group S q).det ↔ q.1 = true) := by
      intro q hq'
      have hq1 := mem_starts.1 ((hmem q).1 hq').1
      have hd := LinearEquivalence.det_mat hs hq hu hq1.1 fun e => hq1.2 (ht e)
      refine ⟨hq1.1, ?_, hd.1⟩
      cases hq2 : q.1 with
      | true => exact (hd.1.2 hq2).ne'
      | false => exact (hd.2 hq2).ne
    have hp := hdet p (by simp)
    obtain ⟨N, n1, n2⟩ := normalization_ok A h hc hp.1 hp.2.1 hp.2.2
    have hren : ∀ q ∈ p :: l, Renames dbg S N (LinearEquivalence.mat quot group S q) q := fun q hq' =>
      n2.transfer hs hc hs hc (hdet q hq').1 hp.1 (((hmem q).1 hq').2.trans ((hmem p).1 (by simp)).2.symm)
    refine ⟨code, l, p, N, hmem, hnd, h2, hren, ?_⟩
    intro fuel hf
    unfold LinearEquivalence.code
    rw [h3 fuel hf, hl]
    simp only [Option.map_some, List.map_cons, bind, Except.bind, n1]
    have := mapM_map_ok (f := LinearEquivalence.deformation A dbg S N) (p :: l)
      fun q hq' => deformation_ok A h hc (hdet q hq').1 (hdet q hq').2.1 (hdet q hq').2.2 (hren q hq')
    rw [List.map_cons, List.map_cons] at this
    rw [this]
    rfl

/-- A path that consists of a half edge. -/
def Along (S : FlatTri T) (x : HE) (p : List Saddle) : Prop :=
  ∃ s, p = [s] ∧ IsSegment S s ∧ s.source = x ∧ S.saddleVector s = S.vec x

theorem along_halfEdge (h : S.Shut) {x : HE} (hx : x < S.tri.size) : Along S x [Saddle.ofHalfEdge x] := by
  have key : S.saddleVector (Saddle.ofHalfEdge x) = S.vec x := by
    unfold saddleVector Saddle.ofHalfEdge
    rw [chainVector_bump h.flat.coh.even h.flat.odd _ hx, show S.chainVector (fun _ => 0) = 0 from chainVector_zero S, zero_add]
  have hl : ∀ e < S.tri.size, LeavesCorner S e (S.vec e) := by
    intro e he
    have := (h.flat.corner (h.nb e he)).2
    refine ⟨he, by rw [Vec.cross_self], ?_⟩
    rw [Vec.cross_comm]
    exact neg_neg_of_pos this
  refine ⟨_, rfl, ?_, rfl, key⟩
  unfold IsSegment
  rw [key, ← h.flat.odd x hx]
  exact ⟨hl x hx, hl (neg x) (h.neg_lt hx)⟩

theorem Along.image (h : S.Shut) {x : HE} {p : List Saddle} (hp : Along S x p) : S.imageHalfEdge (some p) = .ok (some x) := by
  obtain ⟨s, rfl, h1, h2, h3⟩ := hp
  obtain ⟨t, e, -, -, h4⟩ := along_halfEdge h (h2 ▸ h1.1.1 : x < S.tri.size)
  cases e
  unfold FlatTri.imageHalfEdge
  dsimp only
  rw [if_pos, h2]
  unfold FlatTri.saddleEq
  rw [h3, h2, h4]
  simp [Saddle.ofHalfEdge]

theorem Along.linear (A : Option (Approx T K)) {dbg : Bool} {a b c d : T} {D : FlatTri T} (h : Closed dbg S)
    (hm : S.applyMatrix A dbg a b c d = .ok D) {x : HE} {q : List Saddle} (hq : Along S x q) :
    ∃ q', (∀ fuel ≥ 3, linearPath A dbg fuel S D a b c d q = some (.ok q')) ∧ Along D x q' := by
  obtain ⟨s, rfl, h1, h2, h3⟩ := hq
  obtain ⟨q', p1, p2, p3, -⟩ := C85.path_correct A h hm (path := [s]) (by simpa using h1) (by simp [Spec.Connected])
  have hl := LinearImage.of_ok A h hm
  cases p2 with
  | @cons _ s' _ _ i1 i2 =>
    cases i2
    refine ⟨_, p1, s', rfl, p3 s' (by simp), ?_, ?_⟩
    · rw [i1.source.1 (.inr (by rw [h3, h2, Vec.cross_self])), h2]
    · rw [i1.vector, h3, hl.vec]

theorem Along.linearBack (A : Option (Approx T K)) {dbg : Bool} {a b c d : T} {D : FlatTri T} (h : Closed dbg S)
    (hm : S.applyMatrix A dbg a b c d = .ok D) {div : T → T → Option T} (hdiv : TrueDivision div) {a' b' c' d' : T}
    (hsec : linearSection div a b c d = .ok (a', b', c', d')) {x : HE} {q : List Saddle} (hq : Along D x q) :
    ∃ q', (∀ fuel ≥ 3, linearPath A dbg fuel D S a' b' c' d' q = some (.ok q')) ∧ Along S x q' := by
  obtain ⟨s, rfl, h1, h2, h3⟩ := hq
  have hl := LinearImage.of_ok A h hm
  have hv := h.shut.flat.coh.hv
  have hv' := hl.closed'.shut.flat.coh.hv
  obtain ⟨hD, hD0, hDD⟩ : (0 < a' * d' - b' * c' ↔ 0 < a * d - b * c) ∧ a' * d' - b' * c' ≠ 0 ∧
      (a' * d' - b' * c') * (a * d - b * c) = 1 := C34.section_det hdiv hl.det hsec
  have hback : a' * d' - b' * c' < 0 → ∀ x, S.tri.vertices.fwd x = D.tri.vertices.inv x := by
    intro hx x
    have hn : a * d - b * c < 0 := lt_of_le_of_ne (not_lt.1 fun hy => absurd (hD.2 hy) (not_lt.2 hx.le)) hl.det
    rw [← hv'.left (S.tri.vertices.fwd x), hl.fwd_neg hn, hv.left]
  have hcr : ∀ x, Vec.cross (D.vec x) (D.saddleVector s) = (a * d - b * c) * Vec.cross (S.vec x) (S.saddleVector s) := by
    intro x
    have hv : D.saddleVector s = (S.saddleVector s).applyMatrix a b c d := hl.chain s.chain
    rw [hl.vec, hv]
    unfold Vec.cross Vec.applyMatrix
    ring
  obtain ⟨s', f1, f2, f3, f4, -⟩ := segment_image A dbg hl.closed'.shut h.shut hD0 hl.size.symm
    (fun hx x => (hl.fwd_pos (hD.1 hx) x).symm) hback one_pos (s := s) (fun x => by
      rw [one_mul, hcr, ← mul_assoc, hDD, one_mul]) h1
  refine ⟨[s'], fun fuel hf => ?_, s', rfl, f2, ?_, ?_⟩
  · unfold linearPath linearPathLoop
    rw [f1 fuel hf]
    rfl
  · rw [f4.1 (.inr (by rw [h3, h2, Vec.cross_self])), h2]
  · rw [f3]
    apply C85.matrix_injective hl.det
    rw [← hl.vec, ← h3]
    exact (hl.chain s.chain).symm

theorem Along.rename {dbg : Bool} {D N : FlatTri T} {σ : HE → HE} {R : Combinatorial T} (hD : Closed dbg D) (hN : Closed dbg N)
    (hr : Renaming D N σ) (hR : Deforms dbg D N σ R) {x : HE} {q : List Saddle} (hq : Along D x q) :
    ∃ q', R.path dbg q = .ok q' ∧ Along N (σ x) q' := by
  obtain ⟨s, rfl, h1, h2, h3⟩ := hq
  obtain ⟨q', p1, p2, p3, -⟩ := C121.path_correct hD hN hr hR (path := [s]) (by simpa using h1) (by simp [Spec.Connected])
  cases p2 with
  | @cons _ s' _ _ i1 i2 =>
    cases i2
    refine ⟨_, p1, s', rfl, p3 s' (by simp), ?_, ?_⟩
    · rw [i1.source, h2]
    · rw [i1.vector, h3, hr.vectors x (mem_halfEdges.2 (h2 ▸ h1.1.1))]

/-- Normal forms that look the same have the same paths. -/
theorem Along.same {dbg : Bool} {N N' : FlatTri T} {M : Mat T} (h : S.Shut) (hc : ConnectedSurface S.tri) (hp : p.2 < S.tri.size)
    (hN : Renames dbg S N M p) (hN' : Renames dbg S N' M p) {x : HE} {q : List Saddle} (hq : Along N x q) : Along N' x q := by
  have hsize : N'.tri.size = N.tri.size := hN'.size.trans hN.size.symm
  have hvec : ∀ y < N.tri.size, N'.vec y = N.vec y := by
    intro y hy
    rw [hN.size] at hy
    obtain ⟨x, hx, rfl⟩ := normalName_surj h hc hp hy
    rw [hN.vec x hx, hN'.vec x hx]
  have hnext : ∀ y < N.tri.size, N'.tri.nextAtVertex y = N.tri.nextAtVertex y := by
    intro y hy
    rw [hN.size] at hy
    obtain ⟨x, hx, rfl⟩ := normalName_surj h hc hp hy
    rw [hN.around x hx, hN'.around x hx]
  have hchain : ∀ c, N'.chainVector c = N.chainVector c := by
    intro c
    unfold chainVector
    rw [hsize]
    refine List.foldl_ext _ _ _ fun v i hi => ?_
    rw [hvec]
    have := List.mem_range.1 hi
    omega
  have hleave : ∀ e v, LeavesCorner N e v → LeavesCorner N' e v := by
    rintro e v ⟨h1, h2, h3⟩
    have h4 : N.tri.nextAtVertex e < N.tri.size := hN.closed.shut.around_lt true h1
    exact ⟨by rw [hsize]; exact h1, by rw [hvec e h1]; exact h2, by rw [hnext e h1, hvec _ h4]; exact h3⟩
  obtain ⟨s, rfl, h1, h2, h3⟩ := hq
  refine ⟨s, rfl, ?_, h2, ?_⟩
  · unfold IsSegment saddleVector
    rw [hchain]
    exact ⟨hleave _ _ h1.1, hleave _ _ h1.2⟩
  · unfold saddleVector
    rw [hchain, hvec x (h2 ▸ h1.1.1)]
    exact h3

/-- How the map to the normal form acts on half edges. -/
theorem normalMap_path (A : Option (Approx T K)) {dbg : Bool} {N : FlatTri T} {quot : T → T → T} {group : LinearGroup} (h : Closed dbg S)
    (hc : ConnectedSurface S.tri) (hp : p.2 < S.tri.size) (hM : (LinearEquivalence.mat quot group S p).det ≠ 0)
    (ho : 0 < (LinearEquivalence.mat quot group S p).det ↔ p.1 = true) (hN : Renames dbg S N (LinearEquivalence.mat quot group S p) p)
    {x : HE} (hx : x < S.tri.size) :
    ∃ q q', (∀ fuel ≥ 3, linearPart A dbg fuel S (normalMap A dbg quot group S N p).rename.domain (normalMap A dbg quot group S N p).matrix
        [Saddle.ofHalfEdge x] = some (.ok q)) ∧
      (normalMap A dbg quot group S N p).rename.path dbg q = .ok q' ∧ Along N (normalName S p x) q' := by
  obtain ⟨D, d1, d2, d3, d4, d5⟩ := normalMap_renaming A h hc hp hM ho hN
  have hl := LinearImage.of_ok A h d1
  obtain ⟨q, q1, q2⟩ := (along_halfEdge h.shut hx).linear A h d1
  obtain ⟨q', r1, r2⟩ := q2.rename hl.closed' hN.closed d3 d5
  refine ⟨q, q', fun fuel hf => ?_, r1, r2⟩
  have := q1 fuel hf
  unfold normalMap linearPart
  rw [d2]
  exact this

/-- How the section acts on half edges. -/
theorem back_ok (A : Option (Approx T K)) {dbg : Bool} {N : FlatTri T} {quot : T → T → T} {group : LinearGroup} (h : Closed dbg S)
    (hc : ConnectedSurface S.tri) {div : T → T → Option T} (hdiv : TrueDivision div) (hp : p.2 < S.tri.size)
    (hM : IsUnit (LinearEquivalence.mat quot group S p).det)
    (ho : 0 < (LinearEquivalence.mat quot group S p).det ↔ p.1 = true) (hN : Renames dbg S N (LinearEquivalence.mat quot group S p) p) :
    ∃ R M, LinearEquivalence.back div dbg (normalMap A dbg quot group S N p) = .ok (R, M) ∧
      ∀ x < S.tri.size, ∀ q, Along N (normalName S p x) q → ∃ q1 q2, R.path dbg q = .ok q1 ∧
        (∀ fuel ≥ 3, linearPart A dbg fuel R.codomain S M q1 = some (.ok q2)) ∧ Along S x q2 := by
  obtain ⟨D, d1, d2, d3, d4, d5⟩ := normalMap_renaming A h hc hp hM.ne_zero ho hN
  have hl := LinearImage.of_ok A h d1
  obtain ⟨R, τ, r1, r2, r3, r4⟩ := C122.section_correct hl.closed' hN.closed d3 d5
  have hcod : R.codomain = D := by
    obtain ⟨m, -, rfl⟩ := C121.deforms_eq hN.closed hl.closed' r3 r4
    rfl
  obtain ⟨a', b', c', d', hsec⟩ : ∃ a' b' c' d', linearSection div (LinearEquivalence.mat quot group S p).a
      (LinearEquivalence.mat quot group S p).b (LinearEquivalence.mat quot group S p).c (LinearEquivalence.mat quot group S p).d =
      .ok (a', b', c', d') := by
    rcases C34.section_exists hdiv hl.det with ⟨a', b', c', d', e, -⟩ | ⟨-, e⟩
    · exact ⟨a', b', c', d', e⟩
    · exact absurd ⟨hM.dvd, hM.dvd, hM.dvd, hM.dvd⟩ e
  refine ⟨R, some ⟨a', b', c', d'⟩, ?_, ?_⟩
  · unfold LinearEquivalence.back
    rw [r1]
    unfold normalMap
    simp only [bind, Except.bind, hsec]
    rfl
  · intro x hx q hq
    obtain ⟨q1, s1, s2⟩ := hq.rename hN.closed hl.closed' r3 r4
    rw [r2 x (mem_halfEdges.2 (by rw [hl.size]; exact hx))] at s2
    obtain ⟨q2, t1, t2⟩ := s2.linearBack A h d1 hdiv hsec
    refine ⟨q1, q2, s1, fun fuel hf => ?_, t2⟩
    unfold linearPart
    rw [hcod]
    exact t1 fuel hf

/-- A surface in normal form is not renamed anymore if the walk starts at the right place. -/
theorem exists_fixed {dbg : Bool} {N : FlatTri T} {quot : T → T → T} (hq : ExactQuot quot) {group : LinearGroup} (h : S.Shut)
    (hu : group ≠ .trivial → UnitAreas S) (hc : ConnectedSurface S.tri) {oriented : Bool} (ht : group = .trivial → oriented = true)
    (hp : p ∈ starts oriented S.tri) (hN : Renames dbg S N (LinearEquivalence.mat quot group S p) p) {Q : Type} [DecidableEq Q]
    {ring : T → Q} (hb : N.beq ring S = true) :
    ∃ q ∈ starts oriented S.tri, LinearEquivalence.lwordAt quot group S q = LinearEquivalence.lwordAt quot group S p ∧
      ∀ x < S.tri.size, normalName S q x = x := by
  have hp' := mem_starts.1 hp
  obtain ⟨b1, b2⟩ := (C36.beq_iff ring).1 hb
  have hev := h.even
  have hvec : ∀ x < S.tri.size, N.vec x = S.vec x := by
    intro x hx
    by_cases hx2 : x % 2 = 0
    · exact (b2 x ((Tri.mem_edges x).2 ⟨hx2, by rw [hN.size]; omega⟩)).2
    · have e : neg (x - 1) = x := by
        rw [neg_def, if_pos (by omega)]
        omega
      rw [← e, h.flat.odd _ (by omega), hN.closed.shut.flat.odd _ (by rw [hN.size]; omega)]
      rw [(b2 (x - 1) ((Tri.mem_edges _).2 ⟨by omega, by rw [hN.size]; omega⟩)).2]
  have hnext : ∀ x < S.tri.size, N.tri.nextAtVertex x = S.tri.nextAtVertex x := by
    intro x hx
    have := congrArg (fun l : List HE => l[x]?) b1
    unfold Perm.domain at this
    simp only [List.getElem?_map] at this
    rw [List.getElem?_range (show x < N.tri.vertices.size from by rw [show N.tri.vertices.size = S.tri.size from hN.size]; exact hx),
      List.getElem?_range (show x < S.tri.vertices.size from hx)] at this
    exact Option.some.inj this
  have hdet := LinearEquivalence.det_mat h hq hu hp'.1 fun e => hp'.2 (ht e)
  have hdec : decide (0 < (LinearEquivalence.mat quot group S p).det) = p.1 := by
    rw [Bool.eq_iff_iff, decide_eq_true_eq]
    exact hdet.1
  have hiso : Relabels S.tri S.tri p.1 (normalName S p) := by
    refine ⟨fun x hx => normalName_lt h hc hp'.1 hx, fun x _ y _ e => normalName_inj h hc hp'.1 e,
      fun y hy => normalName_surj h hc hp'.1 hy, fun x hx => normalName_neg h hc hp'.1 hx, fun x hx => ?_⟩
    have key : ∀ x < S.tri.size, S.tri.nextAtVertex (normalName S p x) = normalName S p (Shut.around S p.1 x) := fun x hx => by
      rw [← hN.around x hx, hnext _ (normalName_lt h hc hp'.1 hx)]
    cases hp1 : p.1 with
    | true =>
      rw [if_pos rfl, key x hx, hp1]
      rfl
    | false =>
      rw [if_neg (by simp)]
      have hx' : S.tri.nextAtVertex x < S.tri.size := h.around_lt true hx
      have k := key _ hx'
      rw [hp1, show Shut.around S false (S.tri.nextAtVertex x) = x from h.around_not true hx] at k
      rw [← k]
      exact (h.flat.coh.hv.left _).symm
  refine ⟨(true, 1), ?_, ?_, ?_⟩
  · rw [mem_starts]
    have := hc.nonempty
    exact ⟨by simp only; omega, fun _ => rfl⟩
  · have e := LinearEquivalence.lword_image h hc h hc hq hu hu (g := LinearEquivalence.mat quot group S p)
      (C38.in_group hq (LinearEquivalence.normalize_ok h hq hu false hp'.1)) (σ := normalName S p) (by rw [hdec]; exact hiso)
      (fun x hx => by rw [← hN.vec x hx, hvec _ (normalName_lt h hc hp'.1 hx)]) hp'.1
    rw [normalName_start h hc hp'.1, hdec] at e
    rw [← e]
    congr 2
    cases p.1 <;> rfl
  · intro y hy
    obtain ⟨x, hx, rfl⟩ := normalName_surj h hc hp'.1 hy
    exact normalName_iso h hc h hc hp'.1 (p' := (true, 1)) (by have := hc.nonempty; simp only; omega)
      (by rw [show (p.1 == true) = p.1 from by cases p.1 <;> rfl]; exact hiso) (normalName_start h hc hp'.1) hx

/-- Equal names of half edges come from equal places. -/
theorem start_unique {quot : T → T → T} {group : LinearGroup} (h : S.Shut) (hc : ConnectedSurface S.tri) (hp : p.2 < S.tri.size)
    (hp' : p'.2 < S.tri.size) (hw : LinearEquivalence.lwordAt quot group S p = LinearEquivalence.lwordAt quot group S p')
    (hn : ∀ x < S.tri.size, normalName S p x = normalName S p' x) : p = p' := by
  have h2 : p.2 = p'.2 := by
    apply normalName_inj h hc hp
    rw [normalName_start h hc hp, hn _ hp', normalName_start h hc hp']
  obtain ⟨σ, hσ, hs, -⟩ := (LinearEquivalence.lword_iff h hc h hc hp hp').1 hw
  have hid : ∀ x < S.tri.size, σ x = x := fun x hx => by
    apply normalName_inj h hc hp'
    rw [normalName_iso h hc h hc hp hp' hσ hs hx, hn x hx]
  refine Prod.ext ?_ h2
  by_contra hne
  have hb : (p.1 == p'.1) = false := by simpa using hne
  rw [hb] at hσ
  refine not_both h hc ⟨hσ.lt, hσ.inj, hσ.surj, hσ.neg, fun x hx => ?_⟩ hσ
  have hx' : S.tri.nextAtVertex x < S.tri.size := h.around_lt true hx
  rw [if_pos rfl, hid _ hx', hid x hx]

/-- The normal form for combinatorial equivalence always has the orientation of the surface. -/
theorem combinatorialNormalization_ok (A : Option (Approx T K)) {dbg : Bool} (h : Closed dbg S) (hc : ConnectedSurface S.tri)
    (hp : p.2 < S.tri.size) : ∃ N, (finalAt S.tri p).normalization A dbg S = .ok N ∧ Closed dbg N ∧ N.tri.size = S.tri.size := by
  have hs := h.shut
  obtain ⟨r, r1, r2, r3, r4⟩ := ofPairs_range (normalName_inj hs hc hp) (fun k hk => normalName_lt hs hc hp hk)
    (fun k hk => by unfold normalName; rw [if_neg (by omega)])
  obtain ⟨S1, R, s1, s2, s3, s4, s5⟩ := C121.relabel_correct A h (.ofPairs r1) r3
    (fun e he => by rw [r4, r4]; exact normalName_neg hs hc hp (mem_halfEdges.1 he))
  obtain ⟨S2, t1, t2⟩ := applyMatrix_image A s3 (M := ⟨1, 0, 0, 1⟩) (by simp [Mat.det])
  have hR : R.codomain = S1 := by
    obtain ⟨m, -, rfl⟩ := C121.deforms_eq h s3 s4 s5
    rfl
  obtain ⟨S1', e1, -, -, e2, -, -⟩ := C22.relabel_correct A h.reachable h.flat h.closed (.ofPairs r1) r3
    (fun e he => by rw [r4, r4]; exact normalName_neg hs hc hp (mem_halfEdges.1 he))
  rw [s1] at e1
  cases e1
  have size1 := size_of_halfEdges e2
  refine ⟨S2, ?_, t2.closed', by rw [t2.size, size1]⟩
  unfold Walker.normalization
  simp only [walker_table hs hc hp, bind, Except.bind]
  rw [show S.tri.halfEdges = List.range S.tri.size from rfl, r1]
  simp only
  rw [s2]
  simp only
  rw [hR, clone_eq A dbg s3.closed, t1]

/-- The map to the normal form for combinatorial equivalence. It does not always know that it renames half edges. -/
theorem combinatorialDeformation_ok {dbg : Bool} {N : FlatTri T} (h : Closed dbg S) (hc : ConnectedSurface S.tri) (hp : p.2 < S.tri.size)
    (hN : Closed dbg N) (hsize : N.tri.size = S.tri.size) :
    ∃ d, (finalAt S.tri p).deformation dbg S N = .ok d ∧ ∃ R, d.rename.inverse dbg = .ok R := by
  have hs := h.shut
  have htab : TableOf S (normalName S p) (S.tri.halfEdges.map fun e => (e, normalName S p e)) := List.Perm.refl _
  have hmk := Combinatorial.make_spec dbg hs htab (C := N) (fun e he => normalName_neg hs hc hp (mem_halfEdges.1 he))
    (fun e he => hN.shut.flat.odd _ (by rw [hsize]; exact normalName_lt hs hc hp (mem_halfEdges.1 he)))
  have hinv : Function.LeftInverse (Function.invFun (normalName S p)) (normalName S p) :=
    Function.leftInverse_invFun (normalName_inj hs hc hp)
  have hnmem : ∀ {y : HE}, y ∈ N.tri.halfEdges → ∃ x < S.tri.size, normalName S p x = y := fun hy =>
    normalName_surj hs hc hp (by rw [← hsize]; exact mem_halfEdges.1 hy)
  have hb : (S.tri.halfEdges.map (normalName S p)).Perm N.tri.halfEdges := by
    refine (List.perm_ext_iff_of_nodup (List.nodup_range.map (normalName_inj hs hc hp)) List.nodup_range).2 fun y => ?_
    rw [List.mem_map]
    constructor
    · rintro ⟨x, hx, rfl⟩
      exact mem_halfEdges.2 (by rw [hsize]; exact normalName_lt hs hc hp (mem_halfEdges.1 hx))
    · intro hy
      obtain ⟨x, hx, e⟩ := hnmem hy
      exact ⟨x, mem_halfEdges.2 hx, e⟩
  have hmk' := Combinatorial.make_spec dbg hN.shut (inverse_table hb (fun e _ => hinv e) htab) (C := S)
    (fun y hy => by
      obtain ⟨x, hx, rfl⟩ := hnmem hy
      rw [← normalName_neg hs hc hp hx, hinv, hinv])
    (fun y hy => by
      obtain ⟨x, hx, rfl⟩ := hnmem hy
      rw [hinv]
      exact hs.flat.odd _ hx)
  refine ⟨⟨none, ⟨S, N, S.tri.halfEdges.map fun e => (e, normalName S p e),
    decide (∀ e ∈ S.tri.halfEdges, N.vec (normalName S p e) = S.vec e)⟩⟩, ?_, ⟨_, hmk'⟩⟩
  unfold Walker.deformation
  simp only [walker_table hs hc hp, bind, Except.bind, hmk]
  rfl

/-- The code, the normal form and the maps to the normal form for combinatorial equivalence. -/
theorem combinatorialCode_ok (A : Option (Approx T K)) {dbg : Bool} (h : Closed dbg S) (hc : ConnectedSurface S.tri) (oriented : Bool) :
    ∃ code N d ds, (∃ p ∈ starts oriented S.tri, wordAt S.tri p = code) ∧ (∀ p ∈ starts oriented S.tri, code ≤ wordAt S.tri p) ∧
      (d :: ds).length = (automorphisms oriented S.tri).ncard ∧ (∃ R, d.rename.inverse dbg = .ok R) ∧
      ∀ fuel, S.tri.size + 3 ≤ fuel → combinatorialCode A dbg oriented fuel S = some (.ok (code, N, d :: ds)) := by
  have hs := h.shut
  obtain ⟨code, h1, h2, h3⟩ := combinatorialWord_spec hs hc oriented
  have hcard := card_automorphisms hs hc h1
  have hmem : ∀ q ∈ (starts oriented S.tri).filter (fun p => wordAt S.tri p = code), q.2 < S.tri.size := fun q hq =>
    (mem_starts.1 (List.mem_filter.1 hq).1).1
  cases hl : (starts oriented S.tri).filter (fun p => wordAt S.tri p = code) with
  | nil =>
    obtain ⟨p, hp, e⟩ := h1
    have : p ∈ (starts oriented S.tri).filter (fun p => wordAt S.tri p = code) := List.mem_filter.2 ⟨hp, by simpa using e⟩
    rw [hl] at this
    cases this
  | cons p l =>
    rw [hl] at hcard hmem
    obtain ⟨N, n1, n2, n3⟩ := combinatorialNormalization_ok A h hc (hmem p (by simp))
    have hd : ∀ q : Bool × HE, ∃ d, q.2 < S.tri.size → (finalAt S.tri q).deformation dbg S N = .ok d ∧
        ∃ R, d.rename.inverse dbg = .ok R := fun q => by
      by_cases hq : q.2 < S.tri.size
      · obtain ⟨d, d1, d2⟩ := combinatorialDeformation_ok h hc hq n2 n3
        exact ⟨d, fun _ => ⟨d1, d2⟩⟩
      · obtain ⟨d, -⟩ := combinatorialDeformation_ok h hc (hmem p (by simp)) n2 n3
        exact ⟨d, fun hq' => absurd hq' hq⟩
    choose D hD using hd
    refine ⟨code, N, D p, l.map D, h1, h2, ?_, (hD p (hmem p (by simp))).2, fun fuel hf => ?_⟩
    · rw [← hcard]
      simp
    · unfold combinatorialCode
      rw [h3 fuel hf, hl]
      simp only [Option.map_some, List.map_cons, bind, Except.bind, n1]
      have := mapM_map_ok (f := fun w : Bool × Walker => w.2.deformation dbg S N) (g := fun p : Bool × HE => (p.1, finalAt S.tri p)) (k := D)
        (p :: l) fun q hq => (hD q (hmem q hq)).1
      rw [List.map_cons, List.map_cons] at this
      simp only [this]
      rfl

end Verif
