import Verif.Lemmas.WalkerSurface

/-!
Codes of surfaces: minimal words, and which walkers produce them.
-/

set_option linter.unusedSectionVars false

namespace Verif

open Spec

namespace Walker

theorem walk_mono {nxt : HE → HE} {a : HE} (fuel j : ℕ) : ∀ {w : Walker} {p : HE} {cs : List ℤ} {r : List ℤ × Walker},
    walk nxt a fuel w p cs = some r → walk nxt a (fuel + j) w p cs = some r := by
  induction fuel with
  | zero => intro w p cs r h; cases h
  | succ fuel ih =>
    intro w p cs r h
    rw [show fuel + 1 + j = (fuel + j) + 1 from by omega]
    simp only [walk] at h ⊢
    split_ifs at h ⊢
    · exact h
    · exact h
    · exact h
    · exact ih h

theorem step_mono {nxt : HE → HE} {fuel fuel' : ℕ} (hf : fuel ≤ fuel') {w : Walker} {r : Option (List ℤ) × Walker}
    (h : step nxt fuel w = some r) : step nxt fuel' w = some r := by
  obtain ⟨j, rfl⟩ := Nat.exists_eq_add_of_le hf
  simp only [step] at h ⊢
  cases hc : w.labeled[w.steps]? with
  | none => rw [hc] at h; exact h
  | some x =>
    rw [hc] at h
    simp only at h ⊢
    split_ifs at h ⊢
    · exact h
    · rw [Option.map_eq_some_iff] at h ⊢
      obtain ⟨q, hq, h⟩ := h
      exact ⟨q, walk_mono _ _ hq, h⟩

theorem run_mono {nxt : HE → HE} {fuel fuel' : ℕ} (hf : fuel ≤ fuel') {w f : Walker} {word : List (List ℤ)}
    (h : Run (step nxt fuel) w word f) : Run (step nxt fuel') w word f := by
  induction h with
  | done h => exact .done (step_mono hf h)
  | cons h _ ih => exact .cons (step_mono hf h) ih

open Classical in
/-- The word of the walker starting at `s` and its final state. -/
noncomputable def result (nxt : HE → HE) (s : HE) : List (List ℤ) × Walker :=
  if h : ∃ r : List (List ℤ) × Walker, Run (step nxt 3) (make s) r.1 r.2 then h.choose else ([], make s)

theorem result_eq {nxt : HE → HE} {s : HE} {word : List (List ℤ)} {f : Walker} (h : Run (step nxt 3) (make s) word f) :
    result nxt s = (word, f) := by
  have hex : ∃ r : List (List ℤ) × Walker, Run (step nxt 3) (make s) r.1 r.2 := ⟨(word, f), h⟩
  unfold result
  rw [dif_pos hex]
  obtain ⟨h1, h2⟩ := hex.choose_spec.unique h
  exact Prod.ext h1 h2

theorem result_spec {n : ℕ} {nxt : HE → HE} {s : HE} (hc : Cells n nxt) (hconn : Conn n nxt) (hs : s < n) :
    (∀ fuel, 3 ≤ fuel → Run (step nxt fuel) (make s) (result nxt s).1 (result nxt s).2) ∧
      Final n nxt s (result nxt s).1 (result nxt s).2 := by
  obtain ⟨word, f, h1, h2⟩ := exists_run hc hconn hs (le_refl 3)
  rw [result_eq h1]
  exact ⟨fun fuel hf => run_mono hf h1, h2⟩

/-- Isomorphic surfaces have the same words. -/
theorem result_iso {n n' : ℕ} {nxt nxt' φ : HE → HE} {s : HE} (hc : Cells n nxt) (hconn : Conn n nxt)
    (hφ : CellIso n nxt n' nxt' φ) (hs : s < n) : (result nxt' (φ s)).1 = (result nxt s).1 := by
  obtain ⟨h1, h2⟩ := result_spec hc hconn hs
  obtain ⟨f', h3, -⟩ := Rel.run hc.even hc.lt hφ (h1 3 (le_refl _)) (Rel.make hc.even hφ hs)
  rw [result_eq h3]

end Walker

theorem ite_eq_compare {K : Type} [LinearOrder K] (a b : K) :
    (if a < b then Ordering.lt else if a > b then .gt else .eq) = compare a b := by
  rcases lt_trichotomy a b with h | h | h
  · rw [if_pos h, compare_lt_iff_lt.2 h]
  · rw [h, if_neg (lt_irrefl _), if_neg (lt_irrefl _), compare_eq_iff_eq.2 rfl]
  · rw [if_neg (lt_asymm h), if_pos h, compare_gt_iff_gt.2 h]

theorem Walker.cmp_eq (a b : List ℤ) : Walker.cmp a b = @compare (List ℤ) LinearOrder.toOrd a b := by
  unfold Walker.cmp
  rw [← ite_eq_compare]
  congr

theorem Run.lift {W V C : Type} {step : W → Option (Option C × W)} {step' : V → Option (Option C × V)} {g : W → V}
    (hg : ∀ w, step' (g w) = (step w).map fun r => (r.1, g r.2)) {w f : W} {word : List C} (h : Run step w word f) :
    Run step' (g w) word (g f) := by
  induction h with
  | done h => exact .done (by rw [hg, h]; rfl)
  | cons h _ ih => exact .cons (by rw [hg, h]; rfl) ih

/-- Where the walkers start and with which orientation. -/
def starts (oriented : Bool) (T : Tri) : List (Bool × HE) :=
  T.halfEdges.flatMap fun s => (true, s) :: if oriented then [] else [(false, s)]

theorem mem_starts {oriented : Bool} {T : Tri} {p : Bool × HE} :
    p ∈ starts oriented T ↔ p.2 < T.size ∧ (oriented = true → p.1 = true) := by
  obtain ⟨o, s⟩ := p
  simp only [starts, List.mem_flatMap, Tri.mem_halfEdges]
  constructor
  · rintro ⟨x, hx, h⟩
    cases oriented <;> simp at h
    · rcases h with ⟨rfl, rfl⟩ | ⟨rfl, rfl⟩ <;> simpa using hx
    · obtain ⟨rfl, rfl⟩ := h
      exact ⟨hx, fun _ => rfl⟩
  · rintro ⟨hs, ho⟩
    refine ⟨s, hs, ?_⟩
    cases oriented
    · cases o <;> simp
    · simp [ho rfl]

theorem starts_nodup (oriented : Bool) (T : Tri) : (starts oriented T).Nodup := by
  unfold starts Tri.halfEdges
  rw [List.nodup_flatMap]
  constructor
  · intro x _
    cases oriented <;> simp
  · refine List.nodup_range.pairwise_of_forall_ne ?_
    intro a _ b _ hab
    simp only [Function.onFun, List.disjoint_left]
    intro p hp hp'
    apply hab
    cases oriented <;> simp at hp hp'
    · rcases hp with rfl | rfl <;> rcases hp' with h | h <;> simpa using congrArg Prod.snd h
    · rw [hp] at hp'
      exact congrArg Prod.snd hp'

theorem combinatorialWalkers_eq (oriented : Bool) (T : Tri) :
    combinatorialWalkers oriented T = (starts oriented T).map fun p => (p.1, Walker.make p.2) := by
  unfold combinatorialWalkers starts
  rw [List.map_flatMap]
  congr 1
  funext s
  cases oriented <;> rfl

variable {T : Type} [CommRing T] [LinearOrder T] [IsStrictOrderedRing T] {S S' : FlatTri T}

/-- The word of the walker that starts at a half edge with an orientation. -/
noncomputable def wordAt (T : Tri) (p : Bool × HE) : List (List ℤ) := (Walker.result (Walker.advance T p.1) p.2).1

/-- The final state of that walker. -/
noncomputable def finalAt (T : Tri) (p : Bool × HE) : Walker := (Walker.result (Walker.advance T p.1) p.2).2

theorem final_at (h : S.Shut) (hc : ConnectedSurface S.tri) {p : Bool × HE} (hp : p.2 < S.tri.size) :
    Walker.Final S.tri.size (Walker.advance S.tri p.1) p.2 (wordAt S.tri p) (finalAt S.tri p) :=
  (Walker.result_spec (h.cells p.1) (h.conn hc p.1) hp).2

/-- What the code of a surface is. -/
theorem combinatorialWord_spec (h : S.Shut) (hc : ConnectedSurface S.tri) (oriented : Bool) :
    ∃ code, (∃ p ∈ starts oriented S.tri, wordAt S.tri p = code) ∧ (∀ p ∈ starts oriented S.tri, code ≤ wordAt S.tri p) ∧
      ∀ fuel, S.tri.size + 3 ≤ fuel → combinatorialWord oriented S.tri fuel =
        some (code, ((starts oriented S.tri).filter fun p => wordAt S.tri p = code).map fun p => (p.1, finalAt S.tri p)) := by
  have key : ∀ fuel, S.tri.size + 3 ≤ fuel → ∃ code, (∃ p ∈ starts oriented S.tri, wordAt S.tri p = code) ∧
      (∀ p ∈ starts oriented S.tri, code ≤ wordAt S.tri p) ∧ combinatorialWord oriented S.tri fuel =
        some (code, ((starts oriented S.tri).filter fun p => wordAt S.tri p = code).map fun p => (p.1, finalAt S.tri p)) := by
    intro fuel hf
    have hne : starts oriented S.tri ≠ [] :=
      List.ne_nil_of_mem (mem_starts.2 (⟨hc.nonempty, fun _ => rfl⟩ : (true, 0).2 < S.tri.size ∧ _))
    obtain ⟨code, h1, ⟨r, hr, hr2⟩, h3⟩ := EquivalenceWalker.loop_spec (k := fun c : List ℤ => c)
      (K := List ℤ) (step := fun w : Bool × Walker => (w.2.step (Walker.advance S.tri w.1) fuel).map fun r => (r.1, (w.1, r.2)))
      (cmp := Walker.cmp) Walker.cmp_eq (fun _ _ h => h) (S.tri.size / 2)
      ((starts oriented S.tri).map fun p => ((p.1, Walker.make p.2), wordAt S.tri p, (p.1, finalAt S.tri p)))
      (by simpa using hne)
      (by
        intro r hr
        obtain ⟨p, hp, rfl⟩ := List.mem_map.1 hr
        have := (Walker.result_spec (h.cells p.1) (h.conn hc p.1) (mem_starts.1 hp).1).1 fuel (by omega)
        exact this.lift (g := fun w => (p.1, w)) (fun w => rfl))
      (by
        intro r hr
        obtain ⟨p, hp, rfl⟩ := List.mem_map.1 hr
        have := (final_at h hc (mem_starts.1 hp).1).length h.even
        simp only
        omega) fuel (by omega) []
    refine ⟨code, ?_, ?_, ?_⟩
    · obtain ⟨p, hp, rfl⟩ := List.mem_map.1 hr
      exact ⟨p, hp, hr2⟩
    · intro p hp
      have := h3 _ (List.mem_map.2 ⟨p, hp, rfl⟩)
      simpa using this
    · unfold combinatorialWord EquivalenceWalker.word
      rw [combinatorialWalkers_eq]
      rw [List.map_map] at h1
      have e1 : (Prod.fst ∘ fun p : Bool × HE => ((p.1, Walker.make p.2), wordAt S.tri p, (p.1, finalAt S.tri p))) =
        fun p => (p.1, Walker.make p.2) := rfl
      rw [e1] at h1
      rw [h1, List.filter_map, List.map_map]
      simp only [List.map_id_fun', id_eq, List.nil_append]
      rfl
  obtain ⟨code, ⟨p, hp, hpc⟩, h2, -⟩ := key (S.tri.size + 3) (le_refl _)
  refine ⟨code, ⟨p, hp, hpc⟩, h2, ?_⟩
  intro fuel hf
  obtain ⟨code', ⟨p', hp', hpc'⟩, h2', h3⟩ := key fuel hf
  have : code = code' := le_antisymm (by rw [← hpc']; exact h2 p' hp') (by rw [← hpc]; exact h2' p hp)
  rw [this]
  exact h3

/-- Relabelling a surface does not change the words. -/
theorem wordAt_iso (h : S.Shut) (hc : ConnectedSurface S.tri) (h' : S'.Shut) {b : Bool} {σ : HE → HE}
    (hσ : Relabels S.tri S'.tri b σ) {p : Bool × HE} (hp : p.2 < S.tri.size) :
    wordAt S'.tri (if b then p.1 else !p.1, σ p.2) = wordAt S.tri p := by
  have h1 : Relabels S.tri S'.tri (p.1 == (if b then p.1 else !p.1)) σ := by
    have : (p.1 == (if b then p.1 else !p.1)) = b := by cases b <;> cases p.1 <;> rfl
    rwa [this]
  have h2 := (h.relabels_iff h' p.1 _ σ).1 h1
  exact Walker.result_iso (h.cells p.1) (h.conn hc p.1) h2 hp

/-- If words agree, there is a relabelling. -/
theorem iso_of_word (h : S.Shut) (hc : ConnectedSurface S.tri) (h' : S'.Shut) (hc' : ConnectedSurface S'.tri) {p p' : Bool × HE}
    (hp : p.2 < S.tri.size) (hp' : p'.2 < S'.tri.size) (he : wordAt S.tri p = wordAt S'.tri p') :
    ∃ σ, Relabels S.tri S'.tri (p.1 == p'.1) σ ∧ σ p.2 = p'.2 ∧
      (finalAt S'.tri p').labeled = (finalAt S.tri p).labeled.map σ := by
  have hf := final_at h hc hp
  have hf' := final_at h' hc' hp'
  rw [← he] at hf'
  obtain ⟨h1, h2⟩ := hf.iso (h.cells p.1) (h'.cells p'.1) hf'
  refine ⟨_, (h.relabels_iff h' _ _ _).2 h1, h2, ?_⟩
  apply List.ext_getElem?
  intro k
  rw [List.getElem?_map]
  cases hk : (finalAt S.tri p).labeled[k]? with
  | none =>
    have : (finalAt S.tri p).labeled.length ≤ k := List.getElem?_eq_none_iff.1 hk
    rw [hf.len, ← hf'.len] at this
    rw [List.getElem?_eq_none this]
    rfl
  | some x =>
    have := (List.getElem?_eq_some_iff.1 hk).1
    rw [hf.len, ← hf'.len] at this
    rw [List.getElem?_eq_getElem this]
    simp only [Option.map_some, Option.some.injEq]
    exact (Walker.match_pos hf.inv.toCore hk (List.getElem?_eq_getElem this)).symm

theorem starts_image {oriented b : Bool} {σ : HE → HE} (hb : oriented = true → b = true) (hσ : Relabels S.tri S'.tri b σ) {p : Bool × HE}
    (hp : p ∈ starts oriented S.tri) : ((if b then p.1 else !p.1), σ p.2) ∈ starts oriented S'.tri := by
  rw [mem_starts] at hp ⊢
  refine ⟨hσ.lt _ hp.1, fun ho => ?_⟩
  simp only [hb ho, if_true]
  exact hp.2 ho

/-- A relabelling backwards. -/
theorem Relabels.symm' (h : S.Shut) (h' : S'.Shut) {b : Bool} {σ : HE → HE} (hσ : Relabels S.tri S'.tri b σ) :
    ∃ τ, Relabels S'.tri S.tri b τ := by
  classical
  have hσ' := (h.relabels_iff h' true b σ).1 (by rwa [show (true == b) = b by cases b <;> rfl])
  have hex : ∀ y < S'.tri.size, ∃ x < S.tri.size, σ x = y := hσ.surj
  let τ : HE → HE := fun y => if hy : y < S'.tri.size then (hex y hy).choose else y
  have h1 : ∀ y < S'.tri.size, τ y < S.tri.size ∧ σ (τ y) = y := by
    intro y hy
    simp only [τ, dif_pos hy]
    exact (hex y hy).choose_spec
  have h2 : ∀ x < S.tri.size, τ (σ x) = x := by
    intro x hx
    have := h1 (σ x) (hσ.lt x hx)
    exact hσ.inj _ this.1 _ hx this.2
  have : CellIso S'.tri.size (Walker.advance S'.tri b) S.tri.size (Walker.advance S.tri true) τ := by
    refine ⟨fun y hy => (h1 y hy).1, ?_, fun x hx => ⟨σ x, hσ.lt x hx, h2 x hx⟩, ?_, ?_⟩
    · intro x hx y hy hxy
      rw [← (h1 x hx).2, hxy, (h1 y hy).2]
    · intro y hy
      have h3 := (h1 y hy).1
      conv_lhs => rw [← (h1 y hy).2, ← hσ.neg _ h3, h2 _ (neg_lt_of_even h.even h3)]
    · intro y hy
      have h3 := (h1 y hy).1
      conv_lhs => rw [← (h1 y hy).2, ← hσ'.next _ h3, h2 _ ((h.cells true).lt _ h3)]
  refine ⟨τ, ?_⟩
  have h4 := (h'.relabels_iff h b true τ).2 this
  rwa [show (b == true) = b by cases b <;> rfl] at h4

/-- The codes of two surfaces agree if and only if there is a relabelling. -/
theorem code_eq_iff (h : S.Shut) (hc : ConnectedSurface S.tri) (h' : S'.Shut) (hc' : ConnectedSurface S'.tri) {oriented : Bool}
    {code code' : List (List ℤ)}
    (h1 : ∃ p ∈ starts oriented S.tri, wordAt S.tri p = code) (h2 : ∀ p ∈ starts oriented S.tri, code ≤ wordAt S.tri p)
    (h1' : ∃ p ∈ starts oriented S'.tri, wordAt S'.tri p = code') (h2' : ∀ p ∈ starts oriented S'.tri, code' ≤ wordAt S'.tri p) :
    code = code' ↔ ∃ σ, Relabelling oriented S.tri S'.tri σ := by
  constructor
  · rintro rfl
    obtain ⟨p, hp, hpc⟩ := h1
    obtain ⟨p', hp', hpc'⟩ := h1'
    rw [mem_starts] at hp hp'
    obtain ⟨σ, hσ, -, -⟩ := iso_of_word h hc h' hc' hp.1 hp'.1 (hpc.trans hpc'.symm)
    refine ⟨σ, ?_⟩
    cases hpp : (p.1 == p'.1) with
    | true => rw [hpp] at hσ; exact .inl hσ
    | false =>
      rw [hpp] at hσ
      refine .inr ⟨?_, hσ⟩
      cases oriented with
      | true => rw [hp.2 rfl, hp'.2 rfl] at hpp; cases hpp
      | false => rfl
  · have key : ∀ (S S' : FlatTri T), S.Shut → ConnectedSurface S.tri → S'.Shut → ∀ (code code' : List (List ℤ)) (b : Bool) (σ : HE → HE),
        (oriented = true → b = true) → Relabels S.tri S'.tri b σ → (∃ p ∈ starts oriented S.tri, wordAt S.tri p = code) →
        (∀ p ∈ starts oriented S'.tri, code' ≤ wordAt S'.tri p) → code' ≤ code := by
      rintro S S' h hc h' code code' b σ hb hσ ⟨p, hp, rfl⟩ h2
      rw [← wordAt_iso h hc h' hσ (mem_starts.1 hp).1]
      exact h2 _ (starts_image hb hσ hp)
    rintro ⟨σ, hσ⟩
    obtain ⟨b, hb, hσ⟩ : ∃ b, (oriented = true → b = true) ∧ Relabels S.tri S'.tri b σ := by
      rcases hσ with hσ | ⟨ho, hσ⟩
      · exact ⟨true, fun _ => rfl, hσ⟩
      · exact ⟨false, fun h => (by rw [ho] at h; cases h), hσ⟩
    obtain ⟨τ, hτ⟩ := Relabels.symm' h h' hσ
    exact le_antisymm (key S' S h' hc' h code' code b τ hb hτ h1' h2) (key S S' h hc h' code code' b σ hb hσ h1 h2')

/-- No relabelling of a flat surface preserves and reverses the orientation at the same time. -/
theorem not_both (h' : S'.Shut) (hc : ConnectedSurface S.tri) {σ : HE → HE} (h1 : Relabels S.tri S'.tri true σ)
    (h2 : Relabels S.tri S'.tri false σ) : False := by
  have h3 := h1.vertex 0 hc.nonempty
  have h4 := h2.vertex 0 hc.nonempty
  rw [if_pos rfl] at h3
  rw [if_neg (by simp)] at h4
  rw [h3] at h4
  have hy : σ 0 < S'.tri.size := h1.lt 0 hc.nonempty
  generalize σ 0 = y at h4 hy
  have h5 : S'.tri.nextAtVertex (S'.tri.nextAtVertex y) = y := by
    rw [h4]
    exact h'.around_not false hy
  have key : ∀ x < S'.tri.size, 0 < Vec.cross (S'.vec x) (S'.vec (S'.tri.nextAtVertex x)) := by
    intro x hx
    have h6 := h'.faces_lt (h'.faces_lt hx)
    have h7 := h'.flat.oriented _ (h'.nb _ h6)
    rw [h'.flat.coh.tri] at h7
    rw [h'.nextAtVertex hx, h'.flat.odd _ h6]
    simp only [Vec.cross, Vec.neg_x, Vec.neg_y] at h7 ⊢
    linarith
  have h6 := key y hy
  have h7 := key _ (h'.around_lt true hy)
  simp only [FlatTri.Shut.around, if_true] at h7
  rw [h5] at h7
  simp only [Vec.cross] at h6 h7
  linarith

/-- The walkers that produce the code correspond to the relabellings of the surface. -/
theorem card_automorphisms (h : S.Shut) (hc : ConnectedSurface S.tri) {oriented : Bool} {code : List (List ℤ)}
    (h1 : ∃ p ∈ starts oriented S.tri, wordAt S.tri p = code) :
    ((starts oriented S.tri).filter fun p => wordAt S.tri p = code).length = (automorphisms oriented S.tri).ncard := by
  classical
  obtain ⟨p, hp, rfl⟩ := h1
  have hp' := mem_starts.1 hp
  have hex : ∀ q : Bool × HE, q ∈ (starts oriented S.tri).filter (fun q => wordAt S.tri q = wordAt S.tri p) →
      ∃ σ, Relabels S.tri S.tri (p.1 == q.1) σ ∧ σ p.2 = q.2 ∧ ∀ x, S.tri.size ≤ x → σ x = x := by
    intro q hq
    rw [List.mem_filter] at hq
    obtain ⟨σ, hσ, hs, -⟩ := iso_of_word h hc h hc hp'.1 (mem_starts.1 hq.1).1 (of_decide_eq_true hq.2).symm
    refine ⟨fun x => if x < S.tri.size then σ x else x, ⟨?_, ?_, ?_, ?_, ?_⟩, ?_, ?_⟩
    · intro x hx
      simp only [if_pos hx]
      exact hσ.lt x hx
    · intro x hx y hy
      simp only [if_pos hx, if_pos hy]
      exact hσ.inj x hx y hy
    · intro y hy
      obtain ⟨x, hx, hxy⟩ := hσ.surj y hy
      exact ⟨x, hx, by simp only [if_pos hx]; exact hxy⟩
    · intro x hx
      simp only [if_pos hx, if_pos (neg_lt_of_even h.even hx)]
      exact hσ.neg x hx
    · intro x hx
      have : S.tri.nextAtVertex x < S.tri.size := h.around_lt true hx
      simp only [if_pos hx, if_pos this]
      exact hσ.vertex x hx
    · simp only [if_pos hp'.1]
      exact hs
    · intro x hx
      simp only [if_neg (by omega : ¬ x < S.tri.size)]
  let g : Bool × HE → (HE → HE) := fun q =>
    if hq : q ∈ (starts oriented S.tri).filter (fun q => wordAt S.tri q = wordAt S.tri p) then (hex q hq).choose else id
  have hg : ∀ q ∈ (starts oriented S.tri).filter (fun q => wordAt S.tri q = wordAt S.tri p),
      Relabels S.tri S.tri (p.1 == q.1) (g q) ∧ g q p.2 = q.2 ∧ ∀ x, S.tri.size ≤ x → g q x = x := by
    intro q hq
    simp only [g, dif_pos hq]
    exact (hex q hq).choose_spec
  have himage : automorphisms oriented S.tri =
      g '' (((starts oriented S.tri).filter (fun q => wordAt S.tri q = wordAt S.tri p)).toFinset : Set (Bool × HE)) := by
    ext σ
    simp only [Set.mem_image, List.coe_toFinset, Set.mem_ofPred_eq, automorphisms]
    constructor
    · rintro ⟨hσ, hout⟩
      obtain ⟨b, hb, hσ⟩ : ∃ b, (oriented = true → b = true) ∧ Relabels S.tri S.tri b σ := by
        rcases hσ with hσ | ⟨ho, hσ⟩
        · exact ⟨true, fun _ => rfl, hσ⟩
        · exact ⟨false, fun h => (by rw [ho] at h; cases h), hσ⟩
      have hq : ((if b then p.1 else !p.1), σ p.2) ∈ (starts oriented S.tri).filter (fun q => wordAt S.tri q = wordAt S.tri p) := by
        rw [List.mem_filter]
        exact ⟨starts_image hb hσ hp, by simpa using wordAt_iso h hc h hσ hp'.1⟩
      refine ⟨_, hq, ?_⟩
      obtain ⟨e1, e2, e3⟩ := hg _ hq
      have hbb : (p.1 == (if b then p.1 else !p.1)) = b := by cases b <;> cases p.1 <;> rfl
      simp only [hbb] at e1
      funext x
      by_cases hx : x < S.tri.size
      · have i1 := (h.relabels_iff h true b σ).1 (by rwa [show (true == b) = b by cases b <;> rfl])
        have i2 := (h.relabels_iff h true b _).1 (by rw [show (true == b) = b by cases b <;> rfl]; exact e1)
        exact i2.rigid (h.cells true) (h.conn hc true) i1 hp'.1 e2 x hx
      · rw [e3 x (by omega), hout x (by omega)]
    · rintro ⟨q, hq, rfl⟩
      obtain ⟨e1, e2, e3⟩ := hg q hq
      refine ⟨?_, e3⟩
      cases hb : (p.1 == q.1) with
      | true => rw [hb] at e1; exact .inl e1
      | false =>
        rw [hb] at e1
        refine .inr ⟨?_, e1⟩
        cases oriented with
        | true =>
          have := (mem_starts.1 (List.mem_filter.1 hq).1).2 rfl
          rw [hp'.2 rfl, this] at hb
          cases hb
        | false => rfl
  rw [himage, Set.InjOn.ncard_image, Set.ncard_coe_finset,
    List.toFinset_card_of_nodup ((starts_nodup oriented S.tri).filter _)]
  intro q hq q' hq' hqq
  simp only [List.coe_toFinset, Set.mem_ofPred_eq] at hq hq'
  obtain ⟨e1, e2, -⟩ := hg q hq
  obtain ⟨e1', e2', -⟩ := hg q' hq'
  rw [← hqq] at e1' e2'
  have hs : q.2 = q'.2 := e2.symm.trans e2'
  have ho : q.1 = q'.1 := by
    by_contra hne
    obtain ⟨o, s⟩ := q
    obtain ⟨o', s'⟩ := q'
    simp only at e1 e1' hne
    generalize g (o, s) = τ at e1 e1'
    cases hpo : p.1 <;> rw [hpo] at e1 e1' <;> cases o <;> cases o' <;> first
      | exact hne rfl
      | exact not_both h hc e1 e1'
      | exact not_both h hc e1' e1
  exact Prod.ext ho hs

/-- All half edges have been seen by the walkers. -/
theorem relabeling_isSome (h : S.Shut) (hc : ConnectedSurface S.tri) {p : Bool × HE} (hp : p.2 < S.tri.size) {e : HE}
    (he : e < S.tri.size) : ((finalAt S.tri p).relabeling e).isSome := by
  have hf := final_at h hc hp
  unfold Walker.relabeling
  cases h1 : (finalAt S.tri p).labels e with
  | some l => rfl
  | none =>
    cases h2 : (finalAt S.tri p).labels (neg e) with
    | some l => rfl
    | none =>
      exfalso
      rcases hf.cover e he with hm | hm
      · exact hf.inv.labels_none.1 h1 hm
      · exact hf.inv.labels_none.1 h2 hm

end Verif
