import Verif.Spec.IndexedSet
import Mathlib.Data.List.Forall2
import Mathlib.Data.Finset.Sort
import Mathlib.Data.List.Sort
import Mathlib.Order.Interval.Finset.Nat

/-!
# Sets of indexed elements: refinement of finite sets
-/

namespace Verif.IndexedSet

/-- A bitset represents a finite set. -/
def Rep (s : IndexedSet) (a : Finset ℕ) : Prop := ∀ i, (s.bits i = true → i < s.size) ∧ (s.bits i = true ↔ i ∈ a)

variable {s t : IndexedSet} {a b : Finset ℕ}

theorem Rep.mem (h : Rep s a) (i : ℕ) : s.bits i = decide (i ∈ a) := by
  rw [Bool.eq_iff_iff, decide_eq_true_eq]
  exact (h i).2

theorem Rep.lt (h : Rep s a) {i : ℕ} (hi : i ∈ a) : i < s.size := (h i).1 ((h i).2.2 hi)

theorem rep_empty : Rep empty ∅ := fun i => by simp [empty]

theorem Rep.resize (h : Rep s a) {n : ℕ} (hn : s.size ≤ n) : Rep (s.resize n) a := by
  intro i
  have := h i
  simp only [IndexedSet.resize, Bool.and_eq_true, decide_eq_true_eq]
  refine ⟨fun h => h.2, ?_⟩
  rw [this.2]
  constructor
  · exact fun h => h.1
  · exact fun hi => ⟨hi, by have := this.1 (this.2.2 hi); omega⟩

theorem Rep.contains (h : Rep s a) (i : ℕ) : s.contains i = decide (i ∈ a) := by
  unfold IndexedSet.contains
  split_ifs with hi
  · symm
    rw [decide_eq_false_iff_not]
    intro h'
    have := h.lt h'
    omega
  · exact h.mem i

theorem Rep.insert (h : Rep s a) (i : ℕ) : Rep (s.insert i) (Insert.insert i a) := by
  have : ∃ s', s.insert i = { s' with bits := Function.update s'.bits i true } ∧ i < s'.size ∧ Rep s' a := by
    unfold IndexedSet.insert
    by_cases hi : s.size ≤ i
    · exact ⟨s.resize (i + 1), by simp only [if_pos hi], Nat.lt_succ_self i, h.resize (by omega)⟩
    · exact ⟨s, by simp only [if_neg hi], by omega, h⟩
  obtain ⟨s', hs', hi, hr⟩ := this
  rw [hs']
  intro k
  by_cases hk : k = i
  · subst hk
    simp [hi]
  · simp only [Function.update_of_ne hk, Finset.mem_insert, hk, false_or]
    exact hr k

theorem Rep.erase (h : Rep s a) (i : ℕ) : Rep (s.erase i) (a.erase i) := by
  unfold IndexedSet.erase
  split_ifs with hi
  · have : i ∉ a := fun h' => by have := h.lt h'; omega
    rwa [Finset.erase_eq_of_notMem this]
  · intro k
    by_cases hk : k = i
    · subst hk
      simp
    · simp only [Function.update_of_ne hk, Finset.mem_erase, ne_eq, hk, not_false_eq_true, true_and]
      exact h k

theorem rep_ofItems (items : List ℕ) : Rep (ofItems items) items.toFinset := by
  have : ∀ (items : List ℕ) s a, Rep s a → Rep (items.foldl IndexedSet.insert s) (a ∪ items.toFinset) := by
    intro items
    induction items with
    | nil => intro s a h; simpa using h
    | cons x l ih =>
      intro s a h
      have := ih _ _ (h.insert x)
      rw [List.foldl_cons, List.toFinset_cons]
      have e : Insert.insert x a ∪ l.toFinset = a ∪ Insert.insert x l.toFinset := by
        ext k; simp only [Finset.mem_union, Finset.mem_insert]; tauto
      rwa [e] at this
  have := this items _ _ rep_empty
  rwa [Finset.empty_union] at this

theorem Rep.count (h : Rep s a) : s.count = a.card := by
  unfold IndexedSet.count
  rw [List.countP_eq_length_filter]
  have : ((List.range s.size).filter s.bits).toFinset = a := by
    ext i
    rw [List.mem_toFinset, List.mem_filter, List.mem_range, (h i).2]
    exact ⟨fun h => h.2, fun hi => ⟨h.lt hi, hi⟩⟩
  rw [← this, List.toFinset_card_of_nodup (List.nodup_range.filter _)]

theorem Rep.bitsEq (hs : Rep s a) (ht : Rep t b) (hst : s.size = t.size) : s.bitsEq t = decide (a = b) := by
  rw [Bool.eq_iff_iff, decide_eq_true_eq]
  simp only [IndexedSet.bitsEq, hst, beq_self_eq_true, Bool.true_and, List.all_eq_true, List.mem_range, beq_iff_eq]
  constructor
  · intro h
    ext i
    by_cases hi : i < t.size
    · have := h i hi
      rw [← (hs i).2, ← (ht i).2, this]
    · constructor
      · intro h'; have := hs.lt h'; omega
      · intro h'; have := ht.lt h'; omega
  · rintro rfl i _
    rw [hs.mem, ht.mem]

theorem Rep.intersects (hs : Rep s a) (ht : Rep t b) : s.intersects t = decide (¬ Disjoint a b) := by
  rw [Bool.eq_iff_iff, decide_eq_true_eq, Finset.not_disjoint_iff]
  simp only [IndexedSet.intersects, List.any_eq_true, List.mem_range, Bool.and_eq_true]
  constructor
  · rintro ⟨i, _, h1, h2⟩
    exact ⟨i, (hs i).2.1 h1, (ht i).2.1 h2⟩
  · rintro ⟨i, h1, h2⟩
    exact ⟨i, hs.lt h1, (hs i).2.2 h1, (ht i).2.2 h2⟩

/-! ### Iteration -/

theorem Rep.findFrom (h : Rep s a) (pos : ℕ) :
    (s.findFrom pos = s.size ∧ ∀ i ∈ a, i < pos) ∨
    (s.findFrom pos < s.size ∧ pos ≤ s.findFrom pos ∧ s.findFrom pos ∈ a ∧ ∀ i ∈ a, pos ≤ i → s.findFrom pos ≤ i) := by
  unfold IndexedSet.findFrom
  cases hf : (List.range s.size).find? fun i => decide (pos ≤ i) && s.bits i with
  | none =>
    left
    refine ⟨rfl, fun i hi => ?_⟩
    have := List.find?_eq_none.1 hf i (List.mem_range.2 (h.lt hi))
    simp only [(h i).2.2 hi, Bool.and_true, decide_eq_true_eq] at this
    omega
  | some k =>
    right
    rw [Option.getD_some]
    obtain ⟨h1, h2⟩ := List.find?_range_eq_some.1 hf |>.2
    have h0 := (List.find?_range_eq_some.1 hf).1
    simp only [Bool.and_eq_true, decide_eq_true_eq] at h0
    refine ⟨List.mem_range.1 h1, h0.1, (h k).2.1 h0.2, fun i hi hp => ?_⟩
    by_contra hlt
    have := h2 i (by omega)
    simp [hp, (h i).2.2 hi] at this

theorem Rep.begin_eq_end (h : Rep s a) : s.isEmpty = decide (a = ∅) := by
  rw [Bool.eq_iff_iff, decide_eq_true_eq]
  unfold IndexedSet.isEmpty IndexedSet.begin IndexedSet.end
  rw [beq_iff_eq]
  rcases h.findFrom 0 with ⟨h1, h2⟩ | ⟨h1, _, h3, _⟩
  · refine ⟨fun _ => Finset.eq_empty_of_forall_notMem fun i hi => absurd (h2 i hi) (Nat.not_lt_zero i), fun _ => h1⟩
  · exact ⟨fun h' => by omega, fun h' => by rw [h'] at h3; simp at h3⟩

/-- The loop reports the elements in order. -/
theorem Rep.loop (h : Rep s a) (fuel pos : ℕ) (hf : s.size < fuel + pos) (hp : pos ≤ s.size) :
    ∃ l, IndexedSet.loop id s.size fuel (s.findFrom pos) s = some l ∧ l.Pairwise (· < ·) ∧
      ∀ i, i ∈ l ↔ i ∈ a ∧ pos ≤ i := by
  induction fuel generalizing pos with
  | zero => omega
  | succ fuel ih =>
    unfold IndexedSet.loop
    rcases h.findFrom pos with ⟨h1, h2⟩ | ⟨h1, h2, h3, h4⟩
    · rw [h1, if_pos rfl]
      refine ⟨[], rfl, List.Pairwise.nil, fun i => ?_⟩
      simp only [List.not_mem_nil, false_iff, not_and, not_le]
      exact h2 i
    · rw [if_neg (by omega)]
      obtain ⟨l, h5, h6, h7⟩ := ih (s.findFrom pos + 1) (by omega) (by omega)
      generalize s.findFrom pos = p at *
      simp only [id_eq, h5]
      refine ⟨_, rfl, List.pairwise_cons.2 ⟨fun i hi => ((h7 i).1 hi).2, h6⟩, fun i => ?_⟩
      rw [List.mem_cons, h7]
      constructor
      · rintro (rfl | ⟨hi, hi'⟩)
        · exact ⟨h3, h2⟩
        · exact ⟨hi, by omega⟩
      · rintro ⟨hi, hi'⟩
        have := h4 i hi hi'
        rcases Nat.eq_or_lt_of_le this with h | h
        · exact Or.inl h.symm
        · exact Or.inr ⟨hi, h⟩

/-! ### Histories -/

/-- The sets represent the finite sets. -/
abbrev Reps (l : List IndexedSet) (m : List (Finset ℕ)) : Prop := List.Forall₂ Rep l m

theorem Reps.get {l : List IndexedSet} {m : List (Finset ℕ)} (h : Reps l m) (i : ℕ) :
    (l[i]? = none ∧ m[i]? = none) ∨ ∃ s a, l[i]? = some s ∧ m[i]? = some a ∧ Rep s a := by
  have hl := h.length_eq
  by_cases hi : i < l.length
  · right
    exact ⟨l[i], m[i]'(hl ▸ hi), List.getElem?_eq_getElem _, List.getElem?_eq_getElem _,
      List.Forall₂.get h hi (hl ▸ hi)⟩
  · left
    exact ⟨List.getElem?_eq_none (by omega), List.getElem?_eq_none (by omega)⟩

theorem Reps.set {l : List IndexedSet} {m : List (Finset ℕ)} (h : Reps l m) (i : ℕ) {s : IndexedSet} {a : Finset ℕ}
    (hs : Rep s a) : Reps (l.set i s) (m.set i a) := by
  induction h generalizing i with
  | nil => exact .nil
  | cons h1 h2 ih =>
    cases i with
    | zero => exact .cons hs h2
    | succ i => exact .cons h1 (ih i)

theorem Reps.push {l : List IndexedSet} {m : List (Finset ℕ)} (h : Reps l m) {s : IndexedSet} {a : Finset ℕ}
    (hs : Rep s a) : Reps (l ++ [s]) (m ++ [a]) := List.rel_append h (.cons hs .nil)

theorem set_self {α : Type*} {l : List α} {i : ℕ} {x : α} (h : l[i]? = some x) : l.set i x = l := by
  obtain ⟨hi, rfl⟩ := List.getElem?_eq_some_iff.1 h
  exact List.set_getElem_self hi

theorem Reps.align {l : List IndexedSet} {m : List (Finset ℕ)} (h : Reps l m) (i j : ℕ) :
    (align l i j = none ∧ ¬ (i < m.length ∧ j < m.length)) ∨ ∃ l', align l i j = some l' ∧ Reps l' m ∧
      (i < m.length ∧ j < m.length) ∧ (l'[i]?.map IndexedSet.size = l'[j]?.map IndexedSet.size) := by
  have hl := h.length_eq
  unfold IndexedSet.align
  rcases h.get i with ⟨h1, h2⟩ | ⟨s, a, h1, h2, h3⟩
  · left
    rw [List.getElem?_eq_none_iff] at h2
    exact ⟨by simp [h1], fun h => by omega⟩
  rcases h.get j with ⟨h1', h2'⟩ | ⟨t, b, h1', h2', h3'⟩
  · left
    rw [List.getElem?_eq_none_iff] at h2'
    exact ⟨by simp [h1, h1'], fun h => by omega⟩
  right
  have hi : i < l.length := (List.getElem?_eq_some_iff.1 h1).1
  have hj : j < l.length := (List.getElem?_eq_some_iff.1 h1').1
  have hset : Reps (l.set i (s.resize (max s.size t.size))) m := by
    have := h.set i (h3.resize (le_max_left s.size t.size))
    rwa [set_self h2] at this
  have hgi : (l.set i (s.resize (max s.size t.size)))[i]? = some (s.resize (max s.size t.size)) := by
    rw [List.getElem?_set_self hi]
  obtain ⟨t', ht', hr', hsz⟩ : ∃ t', (l.set i (s.resize (max s.size t.size)))[j]? = some t' ∧ Rep t' b ∧
      t'.size ≤ max s.size t.size := by
    by_cases hij : i = j
    · subst hij
      rw [h1] at h1'
      rw [h2] at h2'
      cases h1'
      cases h2'
      exact ⟨_, hgi, h3.resize (le_max_left _ _), le_refl _⟩
    · rw [List.getElem?_set_ne hij]
      exact ⟨t, h1', h3', le_max_right _ _⟩
  have hmax : max (max s.size t.size) t'.size = max s.size t.size := max_eq_left hsz
  refine ⟨(l.set i (s.resize (max s.size t.size))).set j (t'.resize (max s.size t.size)), ?_, ?_, ⟨by omega, by omega⟩, ?_⟩
  · have : (s.resize (max s.size t.size)).size = max s.size t.size := rfl
    simp only [h1, h1', hgi, ht', Option.bind_eq_bind, Option.bind_some, Option.pure_def, this, hmax]
  · have := hset.set j (hr'.resize hsz)
    rwa [set_self h2'] at this
  · rw [List.getElem?_set_self (by simpa using hj)]
    by_cases hij : j = i
    · subst hij
      rw [List.getElem?_set_self (by simpa using hj)]
    · rw [List.getElem?_set_ne hij, hgi]
      rfl

theorem step_spec {l : List IndexedSet} {m : List (Finset ℕ)} (h : Reps l m) (op : Op) :
    (step l op = none ∧ specStep m op = none) ∨ ∃ l' m', step l op = some l' ∧ specStep m op = some m' ∧ Reps l' m' := by
  cases op with
  | new => exact Or.inr ⟨_, _, rfl, rfl, h.push rep_empty⟩
  | ofItems items => exact Or.inr ⟨_, _, rfl, rfl, h.push (rep_ofItems items)⟩
  | copy i =>
    rcases h.get i with ⟨h1, h2⟩ | ⟨s, a, h1, h2, h3⟩
    · exact Or.inl ⟨by simp [step, h1], by simp [specStep, h2]⟩
    · exact Or.inr ⟨_, _, by simp [step, h1], by simp [specStep, h2], h.push h3⟩
  | insert i t =>
    rcases h.get i with ⟨h1, h2⟩ | ⟨s, a, h1, h2, h3⟩
    · exact Or.inl ⟨by simp [step, h1], by simp [specStep, h2]⟩
    · exact Or.inr ⟨l.set i (s.insert t), m.set i (Insert.insert t a), by simp [step, h1], by simp [specStep, h2],
        h.set i (h3.insert t)⟩
  | erase i t =>
    rcases h.get i with ⟨h1, h2⟩ | ⟨s, a, h1, h2, h3⟩
    · exact Or.inl ⟨by simp [step, h1], by simp [specStep, h2]⟩
    · exact Or.inr ⟨l.set i (s.erase t), m.set i (a.erase t), by simp [step, h1], by simp [specStep, h2],
        h.set i (h3.erase t)⟩
  | eq i j =>
    rcases h.align i j with ⟨h1, h2⟩ | ⟨l', h1, h2, h3, _⟩
    · exact Or.inl ⟨h1, if_neg h2⟩
    · exact Or.inr ⟨l', m, h1, if_pos h3, h2⟩
  | disjoint i j =>
    rcases h.align i j with ⟨h1, h2⟩ | ⟨l', h1, h2, h3, _⟩
    · exact Or.inl ⟨h1, if_neg h2⟩
    · exact Or.inr ⟨l', m, h1, if_pos h3, h2⟩

theorem run_spec (ops : List Op) {l : List IndexedSet} {m : List (Finset ℕ)} (h : Reps l m) :
    (run ops l = none ∧ specRun ops m = none) ∨
      ∃ l' m', run ops l = some l' ∧ specRun ops m = some m' ∧ Reps l' m' := by
  induction ops generalizing l m with
  | nil => exact Or.inr ⟨l, m, rfl, rfl, h⟩
  | cons op ops ih =>
    unfold run specRun
    rcases step_spec h op with ⟨h1, h2⟩ | ⟨l', m', h1, h2, h3⟩
    · rw [h1, h2]; exact Or.inl ⟨rfl, rfl⟩
    · rw [h1, h2]; exact ih h3

end Verif.IndexedSet
