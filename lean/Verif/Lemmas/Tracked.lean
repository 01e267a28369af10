import Verif.Model.Tracked
import Verif.Spec.Tracked
import Verif.Lemmas.Triangulation
import Verif.Lemmas.IndexedSet

namespace Verif

open Spec (rename)

theorem rename_self (a e : HE) : rename a a e = e := by
  unfold rename
  split_ifs <;> simp_all

theorem rename_neg (a b e : HE) : rename a b (neg e) = neg (rename a b e) := by
  unfold rename
  have h1 : neg e = a ↔ e = neg a := neg_eq_comm'
  have h2 : neg e = b ↔ e = neg b := neg_eq_comm'
  simp only [h1, h2, neg_inj']
  have := ne_neg a
  have := ne_neg b
  split_ifs <;> simp_all

theorem rename_rename (a b e : HE) : rename a b (rename a b e) = e := by
  have := ne_neg a
  have := ne_neg b
  have := neg_ne a
  have := neg_ne b
  by_cases h : a = b
  · subst h; rw [rename_self, rename_self]
  have h1 : neg a ≠ neg b := fun h' => h (neg_inj'.1 h')
  by_cases h3 : a = neg b
  · subst h3
    unfold rename
    simp only [neg_neg']
    split_ifs <;> simp_all
  have h4 : neg a ≠ b := fun h' => h3 (neg_eq_comm'.1 h')
  have h' := Ne.symm h
  have h1' := Ne.symm h1
  have h3' := Ne.symm h3
  have h4' := Ne.symm h4
  unfold rename
  split_ifs <;> simp_all

theorem rename_inj {a b x y : HE} : rename a b x = rename a b y ↔ x = y :=
  ⟨fun h => by rw [← rename_rename a b x, h, rename_rename], fun h => by rw [h]⟩

theorem rename_lt {n : ℕ} (hn : n % 2 = 0) {a b : HE} (ha : a < n) (hb : b < n) (e : HE) : rename a b e < n ↔ e < n := by
  have h1 := (neg_lt' hn a).2 ha
  have h2 := (neg_lt' hn b).2 hb
  unfold rename
  split_ifs <;> simp_all

theorem rename_out {n : ℕ} (hn : n % 2 = 0) {a b : HE} (ha : a < n) (hb : b < n) {e : HE} (he : n ≤ e) :
    rename a b e = e := by
  have h1 := (neg_lt' hn a).2 ha
  have h2 := (neg_lt' hn b).2 hb
  unfold rename
  rw [if_neg (by omega), if_neg (by omega), if_neg (by omega), if_neg (by omega)]

theorem rename_eq_swap {a b : HE} (h : a = neg b) (e : HE) : rename a b e = Equiv.swap a b e := by
  subst h
  rw [Equiv.swap_apply_def]
  unfold rename
  simp only [neg_neg']
  split_ifs <;> simp_all

theorem rename_eq_swaps {a b : HE} (h : a ≠ b) (h' : a ≠ neg b) (e : HE) :
    rename a b e = Equiv.swap (neg a) (neg b) (Equiv.swap a b e) := by
  have h4 : b ≠ neg a := fun h => h' (by rw [h, neg_neg'])
  simp only [Equiv.swap_apply_def]
  unfold rename
  have := ne_neg a
  have := ne_neg b
  split_ifs <;> simp_all

theorem rename_div (a b e e' : HE) (h : e / 2 = e' / 2) : rename a b e / 2 = rename a b e' / 2 := by
  have : e' = e ∨ e' = neg e := by rw [neg_def]; split <;> omega
  rcases this with rfl | rfl
  · rfl
  · rw [rename_neg, neg_div]

theorem rename_left (a b : HE) : rename a b a = b := by simp [rename]

theorem rename_right (a b : HE) : rename a b b = a := by
  unfold rename
  by_cases h : b = a
  · rw [if_pos h, h]
  · rw [if_neg h, if_pos rfl]

theorem rename_other {a b e : HE} (h1 : e / 2 ≠ a / 2) (h2 : e / 2 ≠ b / 2) : rename a b e = e := by
  unfold rename
  have h3 : e ≠ neg a := fun h => h1 (by rw [h, neg_div])
  have h4 : e ≠ neg b := fun h => h2 (by rw [h, neg_div])
  rw [if_neg (by rintro rfl; exact h1 rfl), if_neg (by rintro rfl; exact h2 rfl), if_neg h3, if_neg h4]

theorem div_two_eq {a e : HE} (h : e / 2 = a / 2) : e = a ∨ e = neg a := by rw [neg_def]; split <;> omega

/-- Cases for how a half edge can be related to two others. -/
theorem div_cases (a b e : HE) : e = a ∨ e = neg a ∨ e = b ∨ e = neg b ∨ (e / 2 ≠ a / 2 ∧ e / 2 ≠ b / 2) := by
  by_cases h : e / 2 = a / 2
  · rcases div_two_eq h with h | h <;> simp [h]
  by_cases h' : e / 2 = b / 2
  · rcases div_two_eq h' with h | h <;> simp [h]
  simp [h, h']

namespace Tri

theorem conj_spec {p : Perm} (hp : p.WF) {a b : HE} (h : a ≠ b) (ha : a < p.size) (hb : b < p.size) :
    ∃ p', conj p a b = .ok p' ∧ ∃ hp' : p'.WF, p'.size = p.size ∧
      p'.toEquiv hp' = Equiv.swap a b * p.toEquiv hp * Equiv.swap a b := by
  have hn : [a, b].Nodup := by simpa using h
  obtain ⟨q, hq⟩ := Perm.mulCycle_ok (p := p) hn (by simp [ha, hb])
  obtain ⟨hqw, hqs, hqe⟩ := Perm.mulCycle_spec hp hq
  obtain ⟨r, hr⟩ := Perm.cycleMul_ok (p := q) hn (by simp [ha, hb, hqs])
  obtain ⟨hrw, hrs, hre⟩ := Perm.cycleMul_spec hqw hr
  refine ⟨r, by simp [conj, hq, hr, bind, Except.bind], hrw, hrs.trans hqs, ?_⟩
  rw [hre, hqe, List.formPerm_pair, Equiv.swap_inv, mul_assoc]

theorem conj2_spec {p : Perm} (hp : p.WF) (he : p.size % 2 = 0) {a b : HE} (h : a ≠ b) (ha : a < p.size)
    (hb : b < p.size) :
    ∃ p', conjBoth p a b = .ok p' ∧ p'.WF ∧ p'.size = p.size ∧ ∀ e, p'.fwd (rename a b e) = rename a b (p.fwd e) := by
  obtain ⟨q, hq, hqw, hqs, hqe⟩ := conj_spec hp h ha hb
  have hqf : ∀ e, q.fwd e = Equiv.swap a b (p.fwd (Equiv.swap a b e)) := fun e => by
    rw [← Perm.toEquiv_apply q hqw, hqe]; rfl
  by_cases hab : a = neg b
  · refine ⟨q, by rw [conjBoth, hq]; simp [bind, Except.bind, ← hab, pure, Except.pure], hqw, hqs, fun e => ?_⟩
    rw [hqf, ← rename_eq_swap hab, ← rename_eq_swap hab, rename_rename]
  · obtain ⟨r, hr, hrw, hrs, hre⟩ := conj_spec hqw (a := neg a) (b := neg b) (by simpa using h)
      (by rw [hqs, neg_lt' he]; exact ha) (by rw [hqs, neg_lt' he]; exact hb)
    refine ⟨r, by rw [conjBoth, hq]; simp [hr, hab, bind, Except.bind], hrw, hrs.trans hqs, fun e => ?_⟩
    have hrf : ∀ e, r.fwd e = Equiv.swap (neg a) (neg b) (q.fwd (Equiv.swap (neg a) (neg b) e)) := fun e => by
      rw [← Perm.toEquiv_apply r hrw, hre]; rfl
    rw [hrf, hqf, ← rename_eq_swaps h hab]
    congr 2
    rw [rename_eq_swaps h hab]
    simp

theorem swap_spec {T : Tri} (hT : T.Coherent) (hv : T.VertexesOk) {a b : HE} (ha : a < T.size) (hb : b < T.size) :
    ∃ T', T.swap a b = .ok T' ∧ T'.Coherent ∧ T'.VertexesOk ∧ T'.size = T.size ∧
      (∀ e, T'.vertices.fwd (rename a b e) = rename a b (T.vertices.fwd e)) ∧
      ∀ e, T'.faces.fwd (rename a b e) = rename a b (T.faces.fwd e) := by
  by_cases h : a = b
  · subst h
    refine ⟨T, by simp [swap, pure, Except.pure], hT, hv, rfl, fun e => ?_, fun e => ?_⟩ <;> simp only [rename_self]
  obtain ⟨v, h1, h2, h3, h4⟩ := conj2_spec hT.hv hT.even h ha hb
  obtain ⟨f, g1, g2, g3, g4⟩ := conj2_spec hT.hf (by rw [hT.hs]; exact hT.even) h (by rw [hT.hs]; exact ha)
    (by rw [hT.hs]; exact hb)
  obtain ⟨vs, hvs, hok⟩ := mkVertexes_spec h2 f
  have hfi : ∀ e, f.fwd e = rename a b (T.faces.fwd (rename a b e)) := fun e => by
    rw [← g4, rename_rename]
  have hvi : ∀ e, v.fwd e = rename a b (T.vertices.fwd (rename a b e)) := fun e => by
    rw [← h4, rename_rename]
  refine ⟨⟨v, f, vs⟩, ?_, ⟨h2, g2, by simp only [g3, h3, hT.hs], by simp only [h3]; exact hT.even, ?_, ?_⟩, hok, h3, h4,
    g4⟩
  · unfold swap
    simp only [if_neg h]
    rw [h1]
    simp only [bind, Except.bind, g1, hvs]
    rfl
  · intro x hx
    simp only at hx ⊢
    rw [hfi, hvi, ← rename_neg, rename_rename]
    have hx : T.faces.fwd (rename a b x) ≠ rename a b x := fun h => hx (by rw [hfi, h, rename_rename])
    rw [hT.link _ hx, rename_rename]
  · intro x
    simp only
    simp only [hfi, rename_rename, hT.tri]

end Tri

namespace Tracked

/-- A tracked set of edges contains the new name of an edge exactly when it contained the edge. -/
theorem swapEdgeSet_contains {s : IndexedSet} {S : Finset ℕ} (hS : IndexedSet.Rep s S) (a b e : HE) :
    (swapEdgeSet a b s).contains (rename a b e / 2) = s.contains (e / 2) := by
  unfold swapEdgeSet
  by_cases h : a = b ∨ a = neg b
  · rw [if_pos h]
    congr 1
    rcases h with rfl | rfl
    · rw [rename_self]
    · rcases div_cases (neg b) b e with rfl | rfl | rfl | rfl | ⟨h1, h2⟩
      · rw [rename_left, neg_div]
      · rw [neg_neg', rename_right, neg_div]
      · rw [rename_right, neg_div]
      · rw [rename_left, neg_div]
      · rw [rename_other h1 h2]
  rw [if_neg h]
  have hab : a / 2 ≠ b / 2 := fun h' => h (div_two_eq h')
  have hba := Ne.symm hab
  have key : ∀ s' : IndexedSet, (∀ i, s'.contains i = if i = a / 2 then s.contains (b / 2) else if i = b / 2 then s.contains (a / 2)
      else s.contains i) → s'.contains (rename a b e / 2) = s.contains (e / 2) := by
    intro s' hs'
    rw [hs']
    rcases div_cases a b e with rfl | rfl | rfl | rfl | ⟨h1, h2⟩
    · rw [rename_left, if_neg hba, if_pos rfl]
    · rw [rename_neg, neg_div, neg_div, rename_left, if_neg hba, if_pos rfl]
    · rw [rename_right, if_pos rfl]
    · rw [rename_neg, neg_div, neg_div, rename_right, if_pos rfl]
    · rw [rename_other h1 h2, if_neg h1, if_neg h2]
  split_ifs with h1 h2
  · apply key
    intro i
    rw [((hS.erase _).insert _).contains]
    simp only [hS.contains, Finset.mem_insert, Finset.mem_erase] at h1 ⊢
    split_ifs <;> simp_all
  · apply key
    intro i
    rw [((hS.erase _).insert _).contains]
    simp only [hS.contains, Finset.mem_insert, Finset.mem_erase] at h1 h2 ⊢
    split_ifs <;> simp_all
  · apply key
    intro i
    have : s.contains (a / 2) = s.contains (b / 2) := by
      revert h1 h2
      cases s.contains (a / 2) <;> cases s.contains (b / 2) <;> simp
    split_ifs <;> simp_all

theorem swapEdgeSet_rep {s : IndexedSet} {S : Finset ℕ} (hS : IndexedSet.Rep s S) (a b : HE) : ∃ S', IndexedSet.Rep (swapEdgeSet a b s) S' := by
  unfold swapEdgeSet
  split_ifs
  · exact ⟨_, hS⟩
  · exact ⟨_, (hS.erase _).insert _⟩
  · exact ⟨_, (hS.erase _).insert _⟩
  · exact ⟨_, hS⟩

theorem eraseEdgeSet_rep {s : IndexedSet} {S : Finset ℕ} (hS : IndexedSet.Rep s S) (l : List ℕ) :
    ∃ S', IndexedSet.Rep (eraseEdgeSet l s) S' ∧ ∀ i, i ∈ S' ↔ i ∈ S ∧ i ∉ l := by
  unfold eraseEdgeSet
  induction l generalizing s S with
  | nil => exact ⟨S, hS, by simp⟩
  | cons x l ih =>
    obtain ⟨S', h1, h2⟩ := ih (hS.erase x)
    refine ⟨S', h1, fun i => ?_⟩
    rw [h2, Finset.mem_erase, List.mem_cons]
    tauto

end Tracked

end Verif
