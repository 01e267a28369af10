import Verif.Model.Equivalence
import Verif.Lemmas.HalfEdge

/-!
The walk through a triangulated surface which produces a code word: its invariants and what can be read off from its
final state.
-/

namespace Verif

/-- The half edges of triangles which are glued along edges, `nxt` walks around a triangle. No two edges of a triangle are
glued to each other, and no edge separates the surface. -/
structure Cells (n : ℕ) (nxt : HE → HE) : Prop where
  even : n % 2 = 0
  lt : ∀ x < n, nxt x < n
  cube : ∀ x < n, nxt (nxt (nxt x)) = x
  fix : ∀ x < n, nxt x ≠ x
  fold : ∀ x < n, nxt x ≠ neg x
  bridge : ∀ s < n, ∀ Q : Finset HE, (∀ x ∈ Q, x < n) → (∀ x ∈ Q, nxt x ∈ Q) → (∀ x ∈ Q, x ≠ s → neg x ∈ Q) → s ∈ Q → neg s ∈ Q

theorem neg_lt_of_even {n : ℕ} (h : n % 2 = 0) {x : HE} (hx : x < n) : neg x < n := by
  rw [neg_def]; split <;> omega

theorem prefix_get {L L' : List HE} (hL : L <+: L') {k : ℕ} {x : HE} (h : L[k]? = some x) : L'[k]? = some x := by
  obtain ⟨t, rfl⟩ := hL
  rw [List.getElem?_append_left (List.getElem?_eq_some_iff.1 h).1, h]

namespace Cells

variable {n : ℕ} {nxt : HE → HE}

theorem neg_lt (h : Cells n nxt) {x : HE} (hx : x < n) : neg x < n := neg_lt_of_even h.even hx

theorem fix2 (h : Cells n nxt) {x : HE} (hx : x < n) : nxt (nxt x) ≠ x := by
  intro h1
  have := h.cube x hx
  rw [h1] at this
  exact h.fix x hx this

theorem fold2 (h : Cells n nxt) {x : HE} (hx : x < n) : nxt (nxt x) ≠ neg x := by
  intro h1
  have h2 := h.fold _ (h.lt _ (h.lt _ hx))
  rw [h.cube x hx, h1, neg_neg'] at h2
  exact h2 rfl

end Cells

/-- `x` is in the face of `a`. -/
def Face (nxt : HE → HE) (a x : HE) : Prop := x = a ∨ x = nxt a ∨ x = nxt (nxt a)

namespace Walker

variable {n : ℕ} {nxt : HE → HE} {s : HE} {w : Walker}

/-- `x` is in a face that has been entered through one of the first `k` labeled half edges. -/
def Proc (nxt : HE → HE) (L : List HE) (k : ℕ) (x : HE) : Prop :=
  ∃ j a, j < k ∧ L[j]? = some (neg a) ∧ Face nxt a x

theorem Proc.next (hc : Cells n nxt) {L : List HE} (hL : ∀ x ∈ L, x < n) {k : ℕ} {x : HE} (h : Proc nxt L k x) :
    Proc nxt L k (nxt x) := by
  obtain ⟨j, a, hj, ha, h⟩ := h
  have han : a < n := by
    have := hc.neg_lt (hL _ (List.mem_of_getElem? ha))
    rwa [neg_neg'] at this
  refine ⟨j, a, hj, ha, ?_⟩
  rcases h with rfl | rfl | rfl
  · exact .inr (.inl rfl)
  · exact .inr (.inr rfl)
  · exact .inl (hc.cube a han)

theorem Proc.mono {L L' : List HE} {k k' : ℕ} {x : HE} (hk : k ≤ k') (hL : L <+: L') (h : Proc nxt L k x) :
    Proc nxt L' k' x := by
  obtain ⟨j, a, hj, ha, h⟩ := h
  exact ⟨j, a, by omega, (prefix_get hL ha) , h⟩

/-- The tables of a walker fit together. -/
structure Core (n : ℕ) (s : HE) (w : Walker) : Prop where
  len : w.count = w.labeled.length
  head : w.labeled[0]? = some (neg s)
  lt : ∀ x ∈ w.labeled, x < n
  lab : ∀ x k, w.labels x = some k ↔ w.labeled[k]? = some x
  both : ∀ x ∈ w.labeled, neg x ∉ w.labeled

/-- A half edge gets a new label. -/
def push (w : Walker) (e : HE) : Walker :=
  { w with
    labels := fun x => if x = e then some w.count else w.labels x
    count := w.count + 1
    labeled := w.labeled ++ [e] }

theorem Core.labels_none (h : Core n s w) {e : HE} : w.labels e = none ↔ e ∉ w.labeled := by
  constructor
  · intro h1 h2
    obtain ⟨k, hk⟩ := List.getElem?_of_mem h2
    rw [← h.lab] at hk
    rw [h1] at hk
    cases hk
  · intro h1
    cases h2 : w.labels e with
    | none => rfl
    | some k => exact absurd (List.mem_of_getElem? ((h.lab _ _).1 h2)) h1

theorem Core.index (h : Core n s w) {i j : ℕ} {x : HE} (hi : w.labeled[i]? = some x) (hj : w.labeled[j]? = some x) :
    i = j := by
  rw [← h.lab] at hi hj
  rw [hi] at hj
  exact Option.some.inj hj

theorem Core.push (h : Core n s w) {e : HE} (he : e < n) (h1 : e ∉ w.labeled) (h2 : neg e ∉ w.labeled) :
    Core n s (w.push e) := by
  have hpos : 0 < w.labeled.length := by
    have := h.head
    by_contra hc
    rw [List.getElem?_eq_none (by omega)] at this
    cases this
  refine ⟨?_, ?_, ?_, ?_, ?_⟩
  · simp [Walker.push, h.len]
  · simp only [Walker.push]
    rw [List.getElem?_append_left hpos, h.head]
  · intro x hx
    simp only [Walker.push, List.mem_append, List.mem_singleton] at hx
    rcases hx with hx | rfl
    · exact h.lt x hx
    · exact he
  · intro x k
    simp only [Walker.push]
    by_cases hx : x = e
    · subst hx
      rw [if_pos rfl, h.len]
      constructor
      · intro hk
        cases hk
        simp
      · intro hk
        by_cases hlt : k < w.labeled.length
        · rw [List.getElem?_append_left hlt] at hk
          exact absurd (List.mem_of_getElem? hk) h1
        · by_cases heq : k = w.labeled.length
          · rw [heq]
          · rw [List.getElem?_eq_none (by simp; omega)] at hk
            cases hk
    · rw [if_neg hx, h.lab]
      by_cases hlt : k < w.labeled.length
      · rw [List.getElem?_append_left hlt]
      · rw [List.getElem?_eq_none (by omega)]
        constructor
        · intro hk; cases hk
        · intro hk
          by_cases heq : k = w.labeled.length
          · subst heq
            simp at hk
            exact absurd hk.symm hx
          · rw [List.getElem?_eq_none (by simp; omega)] at hk
            cases hk
  · intro x hx
    simp only [Walker.push, List.mem_append, List.mem_singleton] at hx ⊢
    rintro (h3 | h3)
    · rcases hx with hx | rfl
      · exact h.both x hx h3
      · exact h2 h3
    · rcases hx with hx | rfl
      · apply h2
        rw [← h3, neg_neg']
        exact hx
      · exact absurd h3 (neg_ne _)

/-- What `label` does. -/
theorem Core.label_cases (h : Core n s w) (e : HE) :
    (∃ k : ℕ, w.labeled[k]? = some e ∧ w.label e = ((k : ℤ), w)) ∨
    (e ∉ w.labeled ∧ ∃ k : ℕ, w.labeled[k]? = some (neg e) ∧ w.label e = (-(k : ℤ), w)) ∨
    (e ∉ w.labeled ∧ neg e ∉ w.labeled ∧ w.label e = ((w.labeled.length : ℤ), w.push e)) := by
  simp only [Walker.label]
  by_cases h0 : w.labeled.head? = some e
  · left
    refine ⟨0, by rw [← List.head?_eq_getElem?]; exact h0, ?_⟩
    rw [if_pos h0]
    rfl
  · rw [if_neg h0]
    cases h1 : w.labels e with
    | some k =>
      left
      exact ⟨k, (h.lab _ _).1 h1, rfl⟩
    | none =>
      right
      have h1' := h.labels_none.1 h1
      cases h2 : w.labels (neg e) with
      | some k =>
        left
        exact ⟨h1', k, (h.lab _ _).1 h2, rfl⟩
      | none =>
        right
        refine ⟨h1', h.labels_none.1 h2, ?_⟩
        simp only [Walker.push, h.len]

/-- The invariant of the walk. -/
structure Inv (n : ℕ) (nxt : HE → HE) (s : HE) (w : Walker) : Prop extends Core n s w where
  steps_le : w.steps ≤ w.labeled.length
  seen : ∀ x, Proc nxt w.labeled w.steps x → x ∈ w.labeled ∨ neg x ∈ w.labeled
  source : ∀ k x, 1 ≤ k → w.labeled[k]? = some x → Proc nxt w.labeled w.steps x
  first : 0 < w.steps → nxt s ∈ w.labeled ∧ nxt (nxt s) ∈ w.labeled

theorem Inv.make (hc : Cells n nxt) (hs : s < n) : Inv n nxt s (make s) := by
  refine ⟨⟨rfl, rfl, ?_, ?_, ?_⟩, by simp [Walker.make], ?_, ?_, by simp [Walker.make]⟩
  · intro x hx
    simp only [Walker.make, List.mem_singleton] at hx
    rw [hx]; exact hc.neg_lt hs
  · intro x k
    simp only [Walker.make]
    by_cases hx : x = neg s
    · rw [if_pos hx, hx]
      cases k <;> simp
    · rw [if_neg hx]
      cases k
      · simp [Ne.symm hx]
      · simp
  · intro x hx
    simp only [Walker.make, List.mem_singleton] at hx ⊢
    rw [hx]
    exact neg_ne _
  · rintro x ⟨j, a, hj, -⟩
    simp [Walker.make] at hj
  · intro k x hk hx
    simp only [Walker.make] at hx
    rw [List.getElem?_eq_none (by simpa using hk)] at hx
    cases hx

/-- The half edge with label `l`. -/
def Lab (L : List HE) (e : HE) (l : ℤ) : Prop :=
  (0 ≤ l ∧ L[l.toNat]? = some e) ∨ (l < 0 ∧ L[(-l).toNat]? = some (neg e))

theorem Lab.mono {L L' : List HE} {e : HE} {l : ℤ} (hL : L <+: L') (h : Lab L e l) : Lab L' e l := by
  rcases h with h | h
  · exact .inl ⟨h.1, prefix_get hL h.2⟩
  · exact .inr ⟨h.1, prefix_get hL h.2⟩

/-- The loop on a triangle. -/
theorem walk_triangle {a b c : HE} (hb : nxt a = b) (hcc : nxt b = c) (ha : nxt c = a) (hba : b ≠ a) (hca : c ≠ a)
    (fuel : ℕ) (w : Walker) :
    walk nxt a (fuel + 3) w a [] =
      (let r := w.label b
       if 0 < r.1 ∧ r.1 < r.2.steps then some ([], r.2)
       else if r.1 < 0 ∧ -r.1 < (r.2.steps : ℤ) - 1 then some ([], r.2)
       else
        let r' := r.2.label c
        if 0 < r'.1 ∧ r'.1 < r'.2.steps then some ([], r'.2)
        else if r'.1 < 0 ∧ -r'.1 < (r'.2.steps : ℤ) - 1 then some ([], r'.2)
        else some ([r.1, r'.1], r'.2)) := by
  simp only [walk, hb, hcc, ha, if_neg hba, if_neg hca, if_true]
  rfl

theorem Inv.lt_of_neg (hc : Cells n nxt) (h : Inv n nxt s w) {j : ℕ} {a : HE} (ha : w.labeled[j]? = some (neg a)) :
    a < n := by
  have := hc.neg_lt (h.lt _ (List.mem_of_getElem? ha))
  rwa [neg_neg'] at this

theorem Inv.not_mem (h : Inv n nxt s w) {j : ℕ} {a : HE} (ha : w.labeled[j]? = some (neg a)) : a ∉ w.labeled := by
  have := h.both _ (List.mem_of_getElem? ha)
  rwa [neg_neg'] at this

/-- The half edges which are labeled have been found in a face, except for the first one. -/
theorem Inv.mem_proc (h : Inv n nxt s w) {x : HE} (hx : x ∈ w.labeled) (h0 : x ≠ neg s) :
    Proc nxt w.labeled w.steps x := by
  obtain ⟨k, hk⟩ := List.getElem?_of_mem hx
  cases k with
  | zero => rw [h.head] at hk; exact absurd (Option.some.inj hk).symm h0
  | succ k => exact h.source _ _ (by omega) hk

theorem step_done (h : w.labeled.length ≤ w.steps) (fuel : ℕ) : step nxt fuel w = some (none, w) := by
  simp only [step]
  rw [List.getElem?_eq_none h]

theorem Inv.step_walk (h : Inv n nxt s w) {a : HE} (ha : w.labeled[w.steps]? = some (neg a)) (fuel : ℕ) :
    step nxt fuel w = (walk nxt a fuel { w with steps := w.steps + 1 } a []).map fun r => (some r.1, r.2) := by
  simp only [step, ha, neg_neg']
  rw [if_neg]
  rw [h.labels_none.2 (h.not_mem ha)]
  simp

/-- The face has been seen before. -/
theorem Inv.step_old (hc : Cells n nxt) (h : Inv n nxt s w) {a : HE} (ha : w.labeled[w.steps]? = some (neg a))
    (hp : Proc nxt w.labeled w.steps a) {fuel : ℕ} (hf : 3 ≤ fuel) :
    step nxt fuel w = some (some [], { w with steps := w.steps + 1 }) ∧ Inv n nxt s { w with steps := w.steps + 1 } := by
  have han := h.lt_of_neg hc ha
  have hlen : w.steps < w.labeled.length := (List.getElem?_eq_some_iff.1 ha).1
  refine ⟨?_, ⟨⟨h.len, h.head, h.lt, h.lab, h.both⟩, ?_, ?_, ?_, ?_⟩⟩
  · rw [h.step_walk ha]
    obtain ⟨fuel, rfl⟩ : ∃ k, fuel = k + 3 := ⟨fuel - 3, by omega⟩
    rw [walk_triangle rfl rfl (hc.cube a han) (hc.fix a han) (hc.fix2 han)]
    obtain ⟨j, d, hj, hd, hdf⟩ := hp
    have hdn := h.lt_of_neg hc hd
    have had : a ≠ d := by
      rintro rfl
      have := h.index ha hd
      omega
    have hj1 : 1 ≤ j := by
      by_contra hj0
      obtain rfl : j = 0 := by omega
      rw [h.head] at hd
      obtain rfl := neg_inj'.1 (Option.some.inj hd)
      have hnm := h.not_mem ha
      obtain ⟨h1, h2⟩ := h.first (by omega)
      rcases hdf with rfl | rfl | rfl
      · exact had rfl
      · exact hnm h1
      · exact hnm h2
    have hb := hc.lt a han
    -- the other two half edges are known already
    have known : ∀ x, Proc nxt w.labeled w.steps x → ∃ l : ℤ, w.label x = (l, w) ∧
        { w with steps := w.steps + 1 }.label x = (l, { w with steps := w.steps + 1 }) := by
      intro x hx
      have hcore : Core n s { w with steps := w.steps + 1 } := ⟨h.len, h.head, h.lt, h.lab, h.both⟩
      have hseen := h.seen x hx
      rcases h.label_cases x with ⟨k, hk, hl⟩ | ⟨hn, k, hk, hl⟩ | ⟨h1, h2, -⟩
      · rcases hcore.label_cases x with ⟨k', hk', hl'⟩ | ⟨hn', -⟩ | ⟨h1', -⟩
        · cases h.index hk hk'
          exact ⟨k, hl, hl'⟩
        · exact absurd (List.mem_of_getElem? hk) hn'
        · exact absurd (List.mem_of_getElem? hk) h1'
      · rcases hcore.label_cases x with ⟨k', hk', hl'⟩ | ⟨hn', k', hk', hl'⟩ | ⟨h1', h2', -⟩
        · exact absurd (List.mem_of_getElem? hk') hn
        · cases h.index hk hk'
          exact ⟨_, hl, hl'⟩
        · exact absurd (List.mem_of_getElem? hk) h2'
      · rcases hseen with hs | hs
        · exact absurd hs h1
        · exact absurd hs h2
    have hpa : Proc nxt w.labeled w.steps a := ⟨j, d, hj, hd, hdf⟩
    obtain ⟨l, hl, hl'⟩ := known _ (hpa.next hc h.lt)
    obtain ⟨m, hm, hm'⟩ := known _ ((hpa.next hc h.lt).next hc h.lt)
    -- one of them is `d`
    have hlabd : ∀ l : ℤ, w.label d = (l, w) → l = -(j : ℤ) := by
      intro l hl
      rcases h.label_cases d with ⟨k, hk, -⟩ | ⟨hn, k, hk, hl2⟩ | ⟨h1, h2, -⟩
      · exact absurd (List.mem_of_getElem? hk) (h.not_mem hd)
      · cases h.index hk hd
        rw [hl] at hl2
        exact congrArg Prod.fst hl2
      · exact absurd (List.mem_of_getElem? hd) h2
    have hor : l = -(j : ℤ) ∨ m = -(j : ℤ) := by
      rcases hdf with rfl | rfl | rfl
      · exact absurd rfl had
      · right
        rw [hc.cube d hdn] at hm
        exact hlabd m hm
      · left
        rw [hc.cube d hdn] at hl
        exact hlabd l hl
    simp only [hl', hm']
    rcases hor with rfl | rfl
    · rw [if_neg (by omega), if_pos (by push_cast; omega)]
      rfl
    · split_ifs
      · rfl
      · rfl
      · rfl
      · rfl
      · exfalso
        rename_i h3
        apply h3
        push_cast
        omega
  · show w.steps + 1 ≤ _
    exact hlen
  · rintro x ⟨j, b, hj, hb, hbf⟩
    apply h.seen
    by_cases hj' : j < w.steps
    · exact ⟨j, b, hj', hb, hbf⟩
    · obtain rfl : j = w.steps := by simp only at hj; omega
      rw [show ({ w with steps := w.steps + 1 } : Walker).labeled = w.labeled from rfl, ha] at hb
      obtain rfl := neg_inj'.1 (Option.some.inj hb)
      rcases hbf with rfl | rfl | rfl
      · exact hp
      · exact hp.next hc h.lt
      · exact (hp.next hc h.lt).next hc h.lt
  · intro k x hk hx
    exact (h.source k x hk hx).mono (Nat.le_succ _) (List.prefix_refl _)
  · intro _
    have : 0 < w.steps := by
      obtain ⟨j, -, hj, -⟩ := hp
      omega
    exact h.first this

/-- A half edge of a face which has not been seen before. -/
theorem Core.fresh (h : Core n s w) {e : HE} {t : ℕ} (ht : w.steps = t + 1) (hlen : t < w.labeled.length) (he : e < n)
    (hes : e ≠ s) (h1 : e ∈ w.labeled → e = neg s) (h2 : ∀ k ≤ t, w.labeled[k]? ≠ some (neg e)) :
    ∃ l w', w.label e = (l, w') ∧ ¬ (0 < l ∧ l < (w'.steps : ℤ)) ∧ ¬ (l < 0 ∧ -l < (w'.steps : ℤ) - 1) ∧
      Lab w'.labeled e l ∧ Core n s w' ∧ w.labeled <+: w'.labeled ∧ w'.steps = w.steps ∧
      (e ∈ w'.labeled ∨ neg e ∈ w'.labeled) ∧ ∀ x ∈ w'.labeled, x ∈ w.labeled ∨ x = e := by
  rcases h.label_cases e with ⟨k, hk, hl⟩ | ⟨hn, k, hk, hl⟩ | ⟨hn, hn', hl⟩
  · have hm := List.mem_of_getElem? hk
    obtain rfl := h1 hm
    obtain rfl := h.index hk h.head
    exact ⟨_, _, hl, by simp, by simp, .inl ⟨by simp, by simpa using hk⟩, h, List.prefix_refl _, rfl, .inl hm,
      fun x hx => .inl hx⟩
  · have hk0 : t < k := by
      by_contra hc
      exact h2 k (by omega) hk
    refine ⟨_, _, hl, by omega, by omega, .inr ⟨by omega, by simpa using hk⟩, h, List.prefix_refl _, rfl,
      .inr (List.mem_of_getElem? hk), fun x hx => .inl hx⟩
  · refine ⟨_, _, hl, ?_, by omega, .inl ⟨by omega, ?_⟩, h.push he hn hn', ⟨[e], rfl⟩, rfl, ?_, ?_⟩
    · show ¬ (_ ∧ (w.labeled.length : ℤ) < (w.steps : ℤ))
      omega
    · simp [Walker.push]
    · simp [Walker.push]
    · intro x hx
      simpa [Walker.push] using hx

/-- The face has not been seen before. -/
theorem Inv.step_new (hc : Cells n nxt) (hs : s < n) (h : Inv n nxt s w) {a : HE}
    (ha : w.labeled[w.steps]? = some (neg a)) (hp : ¬ Proc nxt w.labeled w.steps a) {fuel : ℕ} (hf : 3 ≤ fuel) :
    ∃ l₁ l₂ w', step nxt fuel w = some (some [l₁, l₂], w') ∧ Lab w'.labeled (nxt a) l₁ ∧
      Lab w'.labeled (nxt (nxt a)) l₂ ∧ w.labeled <+: w'.labeled ∧ w'.steps = w.steps + 1 ∧ Inv n nxt s w' := by
  have han := h.lt_of_neg hc ha
  have hlen : w.steps < w.labeled.length := (List.getElem?_eq_some_iff.1 ha).1
  have hbn := hc.lt a han
  have hcn := hc.lt _ hbn
  have hpb : ¬ Proc nxt w.labeled w.steps (nxt a) := by
    intro h1
    have := (h1.next hc h.lt).next hc h.lt
    rw [hc.cube a han] at this
    exact hp this
  have hpc : ¬ Proc nxt w.labeled w.steps (nxt (nxt a)) := by
    intro h1
    have := h1.next hc h.lt
    rw [hc.cube a han] at this
    exact hp this
  -- half edges which have not been seen before
  have key : ∀ x, ¬ Proc nxt w.labeled w.steps x → x ≠ a →
      x ≠ s ∧ (x ∈ w.labeled → x = neg s) ∧ ∀ k ≤ w.steps, w.labeled[k]? ≠ some (neg x) := by
    intro x hx hxa
    refine ⟨?_, ?_, ?_⟩
    · rintro rfl
      by_cases h0 : w.steps = 0
      · rw [h0, h.head] at ha
        exact hxa (neg_inj'.1 (Option.some.inj ha))
      · exact hx ⟨0, x, by omega, h.head, .inl rfl⟩
    · intro hm
      by_contra hne
      exact hx (h.mem_proc hm hne)
    · intro k hk hkx
      by_cases hk' : k = w.steps
      · rw [hk', ha] at hkx
        exact hxa (neg_inj'.1 (Option.some.inj hkx)).symm
      · exact hx ⟨k, x, by omega, hkx, .inl rfl⟩
  have hcore : Core n s { w with steps := w.steps + 1 } := ⟨h.len, h.head, h.lt, h.lab, h.both⟩
  obtain ⟨hb1, hb2, hb3⟩ := key _ hpb (hc.fix a han)
  obtain ⟨hc1, hc2, hc3⟩ := key _ hpc (hc.fix2 han)
  obtain ⟨l₁, w₁, e₁, x₁, y₁, lab₁, core₁, pre₁, st₁, see₁, new₁⟩ := hcore.fresh rfl hlen hbn hb1 hb2 hb3
  obtain ⟨l₂, w₂, e₂, x₂, y₂, lab₂, core₂, pre₂, st₂, see₂, new₂⟩ := core₁.fresh (e := nxt (nxt a)) (t := w.steps) st₁
    (Nat.lt_of_lt_of_le hlen pre₁.length_le) hcn hc1
    (by
      intro hm
      rcases new₁ _ hm with hm | hm
      · exact hc2 hm
      · exact absurd hm (hc.fix _ hbn))
    (by
      intro k hk hkx
      apply hc3 k hk
      rw [← hkx]
      have : k < w.labeled.length := by omega
      obtain ⟨t, ht⟩ := pre₁
      rw [← ht, List.getElem?_append_left this])
  have pre : w.labeled <+: w₂.labeled := pre₁.trans pre₂
  have see : nxt a ∈ w₂.labeled ∨ neg (nxt a) ∈ w₂.labeled := see₁.imp (fun h => pre₂.subset h) (fun h => pre₂.subset h)
  have new : ∀ x ∈ w₂.labeled, x ∈ w.labeled ∨ x = nxt a ∨ x = nxt (nxt a) := by
    intro x hx
    rcases new₂ x hx with hx | hx
    · rcases new₁ x hx with hx | hx
      · exact .inl hx
      · exact .inr (.inl hx)
    · exact .inr (.inr hx)
  have hst : w₂.steps = w.steps + 1 := by rw [st₂, st₁]
  refine ⟨l₁, l₂, w₂, ?_, lab₁.mono pre₂, lab₂, pre, hst, ⟨core₂, ?_, ?_, ?_, ?_⟩⟩
  · rw [h.step_walk ha]
    obtain ⟨fuel, rfl⟩ : ∃ k, fuel = k + 3 := ⟨fuel - 3, by omega⟩
    rw [walk_triangle rfl rfl (hc.cube a han) (hc.fix a han) (hc.fix2 han)]
    simp only [e₁, e₂, if_neg x₁, if_neg x₂, if_neg y₁, if_neg y₂]
    rfl
  · rw [hst]
    exact Nat.lt_of_lt_of_le hlen pre.length_le
  · rintro x ⟨j, d, hj, hd, hdx⟩
    have hd' : w.labeled[j]? = some (neg d) := by
      rw [← hd]
      have : j < w.labeled.length := by omega
      obtain ⟨t, ht⟩ := pre
      rw [← ht, List.getElem?_append_left this]
    by_cases hj' : j < w.steps
    · exact (h.seen x ⟨j, d, hj', hd', hdx⟩).imp (fun h => pre.subset h) (fun h => pre.subset h)
    · obtain rfl : j = w.steps := by omega
      rw [ha] at hd'
      obtain rfl := neg_inj'.1 (Option.some.inj hd')
      rcases hdx with rfl | rfl | rfl
      · exact .inr (pre.subset (List.mem_of_getElem? ha))
      · exact see
      · exact see₂
  · intro k x hk hx
    rcases new x (List.mem_of_getElem? hx) with hm | hm
    · obtain ⟨k', hk'⟩ := List.getElem?_of_mem hm
      cases core₂.index hx (prefix_get pre hk')
      exact (h.source k x hk hk').mono (by omega) pre
    · exact ⟨w.steps, a, by omega, prefix_get pre ha, .inr hm⟩
  · intro _
    by_cases h0 : 0 < w.steps
    · obtain ⟨f1, f2⟩ := h.first h0
      exact ⟨pre.subset f1, pre.subset f2⟩
    · have h00 : w.steps = 0 := by omega
      have hL : ∀ x ∈ w.labeled, x = neg s := by
        intro x hx
        by_contra hne
        obtain ⟨j, -, hj, -⟩ := h.mem_proc hx hne
        omega
      rw [h00, h.head] at ha
      obtain rfl := neg_inj'.1 (Option.some.inj ha)
      constructor
      · rcases see with hm | hm
        · exact hm
        · exfalso
          rcases new _ hm with hm | hm | hm
          · exact hb1 (neg_inj'.1 (hL _ hm))
          · exact neg_ne _ hm
          · exact hc.fold _ hbn hm.symm
      · rcases see₂ with hm | hm
        · exact hm
        · exfalso
          rcases new _ hm with hm | hm | hm
          · exact hc1 (neg_inj'.1 (hL _ hm))
          · apply hc.fold _ hbn
            have := congrArg neg hm
            rwa [neg_neg'] at this
          · exact neg_ne _ hm

theorem Proc.of_prefix {L L' : List HE} {k : ℕ} {x : HE} (hL : L <+: L') (hk : k ≤ L.length) (h : Proc nxt L' k x) :
    Proc nxt L k x := by
  obtain ⟨j, a, hj, ha, h⟩ := h
  refine ⟨j, a, hj, ?_, h⟩
  rw [← ha]
  obtain ⟨t, ht⟩ := hL
  rw [← ht, List.getElem?_append_left (by omega)]

theorem Core.nodup (h : Core n s w) : w.labeled.Nodup := by
  rw [List.nodup_iff_injective_getElem]
  intro i j hij
  have hij' : w.labeled[i.1] = w.labeled[j.1] := hij
  exact Fin.ext (h.index (List.getElem?_eq_getElem i.2) (by rw [hij']; exact List.getElem?_eq_getElem j.2))

theorem Core.length_le (h : Core n s w) : w.labeled.length ≤ n := by
  have : w.labeled.toFinset ⊆ Finset.range n := fun x hx => Finset.mem_range.2 (h.lt x (List.mem_toFinset.1 hx))
  have := Finset.card_le_card this
  rwa [List.toFinset_card_of_nodup h.nodup, Finset.card_range] at this

end Walker

/-- The characters a walker emits and its state when it is done. -/
inductive Run {W C : Type} (step : W → Option (Option C × W)) : W → List C → W → Prop
  | done {w : W} : step w = some (none, w) → Run step w [] w
  | cons {w w' f : W} {c : C} {cs : List C} : step w = some (some c, w') → Run step w' cs f → Run step w (c :: cs) f

theorem Run.unique {W C : Type} {step : W → Option (Option C × W)} {w f f' : W} {cs cs' : List C} (h : Run step w cs f)
    (h' : Run step w cs' f') : cs = cs' ∧ f = f' := by
  induction h generalizing cs' f' with
  | done h =>
    cases h' with
    | done => exact ⟨rfl, rfl⟩
    | cons h1 => rw [h] at h1; cases h1
  | cons h1 h2 ih =>
    cases h' with
    | done h => rw [h] at h1; cases h1
    | cons h3 h4 =>
      rw [h1] at h3
      cases h3
      obtain ⟨rfl, rfl⟩ := ih h4
      exact ⟨rfl, rfl⟩

namespace Walker

variable {n : ℕ} {nxt : HE → HE} {s : HE} {w : Walker}

/-- What the character emitted when crossing `L[i]` says. -/
def Char (nxt : HE → HE) (L : List HE) (i : ℕ) (c : List ℤ) : Prop :=
  ∃ a, L[i]? = some (neg a) ∧
    ((c = [] ∧ Proc nxt L i a) ∨
      ∃ l₁ l₂, c = [l₁, l₂] ∧ ¬ Proc nxt L i a ∧ Lab L (nxt a) l₁ ∧ Lab L (nxt (nxt a)) l₂)

theorem Inv.run (hc : Cells n nxt) (hs : s < n) {fuel : ℕ} (hf : 3 ≤ fuel) (w : Walker) (h : Inv n nxt s w) :
    ∃ word f, Run (step nxt fuel) w word f ∧ Inv n nxt s f ∧ w.labeled <+: f.labeled ∧ f.steps = f.labeled.length ∧
      f.steps = w.steps + word.length ∧ ∀ (i : ℕ) (c : List ℤ), word[i]? = some c → Char nxt f.labeled (w.steps + i) c := by
  obtain ⟨m, hm⟩ : ∃ m, n = w.steps + m := ⟨n - w.steps, by have := h.length_le; have := h.steps_le; omega⟩
  induction m generalizing w with
  | zero =>
    have h1 := h.length_le
    have h2 := h.steps_le
    have h3 : w.labeled.length ≤ w.steps := by omega
    refine ⟨[], w, .done (step_done h3 fuel), h, List.prefix_refl _, by omega, rfl, ?_⟩
    intro i c hi
    simp at hi
  | succ m ih =>
    by_cases hd : w.labeled.length ≤ w.steps
    · have h2 := h.steps_le
      refine ⟨[], w, .done (step_done hd fuel), h, List.prefix_refl _, by omega, rfl, ?_⟩
      intro i c hi
      simp at hi
    · obtain ⟨a, ha⟩ : ∃ a, w.labeled[w.steps]? = some (neg a) :=
        ⟨neg w.labeled[w.steps], by rw [neg_neg']; exact List.getElem?_eq_getElem _⟩
      by_cases hp : Proc nxt w.labeled w.steps a
      · obtain ⟨h1, h2⟩ := h.step_old hc ha hp hf
        obtain ⟨word, f, hr, hi, hpre, hst, hl, hch⟩ := ih _ h2 (by simp only; omega)
        refine ⟨[] :: word, f, .cons h1 hr, hi, hpre, hst, by simp only [List.length_cons] at hl ⊢; omega, ?_⟩
        intro i c hic
        cases i with
        | zero =>
          simp only [List.getElem?_cons_zero, Option.some.injEq] at hic
          exact ⟨a, prefix_get hpre ha, .inl ⟨hic.symm, hp.mono (by omega) hpre⟩⟩
        | succ i =>
          simp only [List.getElem?_cons_succ] at hic
          have := hch i c hic
          rwa [show w.steps + 1 + i = w.steps + (i + 1) from by omega] at this
      · obtain ⟨l₁, l₂, w', h1, lab₁, lab₂, hpre', hst', h2⟩ := h.step_new hc hs ha hp hf
        obtain ⟨word, f, hr, hi, hpre, hst, hl, hch⟩ := ih _ h2 (by omega)
        refine ⟨[l₁, l₂] :: word, f, .cons h1 hr, hi, hpre'.trans hpre, hst, by simp only [List.length_cons] at hl ⊢; omega, ?_⟩
        intro i c hic
        cases i with
        | zero =>
          simp only [List.getElem?_cons_zero, Option.some.injEq] at hic
          refine ⟨a, prefix_get (hpre'.trans hpre) ha, .inr ⟨l₁, l₂, hic.symm, ?_, lab₁.mono hpre, lab₂.mono hpre⟩⟩
          intro hp'
          exact hp (hp'.of_prefix (hpre'.trans hpre) h.steps_le)
        | succ i =>
          simp only [List.getElem?_cons_succ] at hic
          have := hch i c hic
          rwa [hst', show w.steps + 1 + i = w.steps + (i + 1) from by omega] at this

/-- Any two half edges are connected by crossing edges and walking around faces. -/
def Conn (n : ℕ) (nxt : HE → HE) : Prop :=
  ∀ Q : Finset HE, (∀ x ∈ Q, x < n) → (∀ x ∈ Q, nxt x ∈ Q) → (∀ x ∈ Q, neg x ∈ Q) → Q.Nonempty → ∀ x < n, x ∈ Q

/-- On a connected surface everything has been seen in the end. -/
theorem Inv.cover (hc : Cells n nxt) (hs : s < n) (hconn : Conn n nxt) (h : Inv n nxt s w)
    (hst : w.steps = w.labeled.length) {x : HE} (hx : x < n) :
    Proc nxt w.labeled w.steps x ∧ (x ∈ w.labeled ∨ neg x ∈ w.labeled) := by
  classical
  have hlt : ∀ x, Proc nxt w.labeled w.steps x → x < n := by
    rintro x ⟨j, a, -, ha, hx⟩
    have han := h.lt_of_neg hc ha
    rcases hx with rfl | rfl | rfl
    · exact han
    · exact hc.lt _ han
    · exact hc.lt _ (hc.lt _ han)
  have hpos : 0 < w.steps := by
    have := (List.getElem?_eq_some_iff.1 h.head).1
    omega
  let Q := (Finset.range n).filter fun x => Proc nxt w.labeled w.steps x
  have hQ : ∀ x, x ∈ Q ↔ Proc nxt w.labeled w.steps x := by
    intro x
    simp only [Q, Finset.mem_filter, Finset.mem_range]
    exact ⟨fun h => h.2, fun h => ⟨hlt x h, h⟩⟩
  have hsQ : s ∈ Q := (hQ s).2 ⟨0, s, hpos, h.head, .inl rfl⟩
  have hclosed : ∀ x ∈ Q, x ≠ s → neg x ∈ Q := by
    intro x hx hxs
    rw [hQ] at hx ⊢
    rcases h.seen x hx with hm | hm
    · obtain ⟨k, hk⟩ := List.getElem?_of_mem hm
      refine ⟨k, neg x, ?_, by rwa [neg_neg'], .inl rfl⟩
      rw [hst]
      exact (List.getElem?_eq_some_iff.1 hk).1
    · exact h.mem_proc hm (fun h => hxs (neg_inj'.1 h))
  have hnext : ∀ x ∈ Q, nxt x ∈ Q := fun x hx => (hQ _).2 (((hQ x).1 hx).next hc h.lt)
  have hrange : ∀ x ∈ Q, x < n := fun x hx => hlt x ((hQ x).1 hx)
  have hneg := hc.bridge s hs Q hrange hnext hclosed hsQ
  have hall := hconn Q hrange hnext
    (fun x hx => by
      by_cases hxs : x = s
      · rw [hxs]; exact hneg
      · exact hclosed x hx hxs) ⟨s, hsQ⟩ x hx
  rw [hQ] at hall
  exact ⟨hall, h.seen x hall⟩

end Walker

end Verif
