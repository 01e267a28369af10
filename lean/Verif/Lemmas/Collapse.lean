import Verif.Model.Collapse
import Verif.Spec.Collapse
import Verif.Lemmas.TriOps
import Verif.Lemmas.TriSlit
import Mathlib.Order.Interval.Finset.Nat

/-!
# Lemmas about collapsing an edge
-/

namespace Verif.Tri

open Verif Spec Function

/-! ### Transpositions -/

theorem mulPair {f : Perm} (hf : f.WF) {u v : HE} (hu : u < f.size) (hv : v < f.size) :
    ∃ g, f.mulCycle [u, v] = .ok g ∧ g.WF ∧ g.size = f.size ∧ ∀ z, g.fwd z = f.fwd (Equiv.swap u v z) := by
  have hok : ∃ g, f.mulCycle [u, v] = .ok g := by
    by_cases h : u = v
    · subst h
      exact ⟨f, by unfold Perm.mulCycle; rw [if_pos (by simp)]⟩
    · exact Perm.mulCycle_ok (by simp [h]) (by simp [hu, hv])
  obtain ⟨g, hg⟩ := hok
  obtain ⟨h1, h2, h3⟩ := Perm.mulCycle_spec hf hg
  refine ⟨g, hg, h1, h2, fun z => ?_⟩
  have := Equiv.ext_iff.1 h3 z
  simpa using this

theorem pairMul {f : Perm} (hf : f.WF) {u v : HE} (huv : u ≠ v) (hu : u < f.size) (hv : v < f.size) :
    ∃ g, Perm.cycleMul [u, v] f = .ok g ∧ g.WF ∧ g.size = f.size ∧ ∀ z, g.fwd z = Equiv.swap u v (f.fwd z) := by
  obtain ⟨g, hg⟩ := Perm.cycleMul_ok (p := f) (c := [u, v]) (by simp [huv]) (by simp [hu, hv])
  obtain ⟨h1, h2, h3⟩ := Perm.cycleMul_spec hf hg
  refine ⟨g, hg, h1, h2, fun z => ?_⟩
  have := Equiv.ext_iff.1 h3 z
  simpa using this

/-! ### Swapping edges -/

/-- Exchanging two half edges and their opposites. -/
def exchange (a b : HE) : Equiv.Perm ℕ := Equiv.swap (neg a) (neg b) * Equiv.swap a b

theorem exchange_apply {a b : HE} (hab : a ≠ b) (hab' : a ≠ neg b) (z : HE) :
    exchange a b z = if z = a then b else if z = b then a else if z = neg a then neg b else if z = neg b then neg a else z := by
  have h1 := neg_ne a
  have h2 := neg_ne b
  have h3 : neg a ≠ b := fun h => hab' (by rw [← h, neg_neg'])
  unfold exchange
  rw [Equiv.Perm.mul_apply]
  simp only [Equiv.swap_apply_def]
  by_cases k1 : z = a
  · subst k1
    rw [if_pos rfl, if_pos rfl, if_neg h3.symm, if_neg h2.symm]
  by_cases k2 : z = b
  · subst k2
    rw [if_neg k1, if_pos rfl, if_neg h1.symm, if_neg hab', if_neg k1, if_pos rfl]
  simp only [if_neg k1, if_neg k2]

theorem exchange_neg {a b : HE} (hab : a ≠ b) (hab' : a ≠ neg b) (z : HE) : exchange a b (neg z) = neg (exchange a b z) := by
  have h3 : neg a ≠ b := fun h => hab' (by rw [← h, neg_neg'])
  have h1 := neg_ne a
  have h2 := neg_ne b
  rw [exchange_apply hab hab', exchange_apply hab hab']
  have e : ∀ w, neg z = w ↔ z = neg w := fun w => ⟨fun h => by rw [← h, neg_neg'], fun h => by rw [h, neg_neg']⟩
  simp only [e, neg_neg']
  by_cases k1 : z = a
  · subst k1
    rw [if_neg h1.symm, if_neg hab', if_pos rfl, if_pos rfl]
  by_cases k2 : z = b
  · subst k2
    rw [if_neg h3.symm, if_neg h2.symm, if_neg k1, if_pos rfl, if_neg k1, if_pos rfl]
  by_cases k3 : z = neg a
  · subst k3
    rw [if_pos rfl, if_neg k1, if_neg k2, if_pos rfl, neg_neg']
  by_cases k4 : z = neg b
  · subst k4
    rw [if_neg k3, if_pos rfl, if_neg k1, if_neg k2, if_neg k3, if_pos rfl, neg_neg']
  simp only [if_neg k1, if_neg k2, if_neg k3, if_neg k4]

theorem exchange_lt {n : ℕ} {a b : HE} (hab : a ≠ b) (hab' : a ≠ neg b) (h1 : a < n) (h2 : b < n) (h3 : neg a < n) (h4 : neg b < n) (z : HE) :
    exchange a b z < n ↔ z < n := by
  rw [exchange_apply hab hab']
  split_ifs with k1 k2 k3 k4
  · subst k1; tauto
  · subst k2; tauto
  · subst k3; tauto
  · subst k4; tauto
  · rfl

theorem conjBoth_exchange {p : Perm} (hp : p.WF) {a b : HE} (hab : a ≠ b) (hab' : a ≠ neg b) (h1 : a < p.size) (h2 : b < p.size)
    (h3 : neg a < p.size) (h4 : neg b < p.size) :
    ∃ g, conjBoth p a b = .ok g ∧ g.WF ∧ g.size = p.size ∧ ∀ z, g.fwd (exchange a b z) = exchange a b (p.fwd z) := by
  obtain ⟨p1, a1, a2, a3, a4⟩ := mulPair hp h1 h2
  obtain ⟨p2, b1, b2, b3, b4⟩ := pairMul a2 hab (a3 ▸ h1) (a3 ▸ h2)
  obtain ⟨p3, c1, c2, c3, c4⟩ := mulPair b2 (u := neg a) (v := neg b) (by rw [b3, a3]; exact h3) (by rw [b3, a3]; exact h4)
  obtain ⟨p4, d1, d2, d3, d4⟩ := pairMul c2 (u := neg a) (v := neg b) (fun h => hab (neg_inj'.1 h)) (by rw [c3, b3, a3]; exact h3) (by rw [c3, b3, a3]; exact h4)
  refine ⟨p4, ?_, d2, by rw [d3, c3, b3, a3], fun z => ?_⟩
  · unfold conjBoth conj
    simp only [bind, Except.bind, a1, b1]
    rw [if_pos hab']
    simp only [c1, d1]
  · rw [d4, c4, b4, a4]
    unfold exchange
    simp [Equiv.Perm.mul_apply, Equiv.swap_apply_self]

/-- The half edges of a triangulation have been renamed. -/
structure Renamed (T T' : Tri) (σ : Equiv.Perm ℕ) : Prop where
  coh : T'.Linked
  size : T'.size = T.size
  odd : ∀ z, σ (neg z) = neg (σ z)
  lt : ∀ z, σ z < T.size ↔ z < T.size
  face : ∀ z, T'.faces.fwd (σ z) = σ (T.faces.fwd z)

theorem Renamed.refl {T : Tri} (h : T.Linked) : Renamed T T 1 := ⟨h, rfl, fun _ => rfl, fun _ => Iff.rfl, fun _ => rfl⟩

theorem Renamed.trans {T T' T'' : Tri} {σ τ : Equiv.Perm ℕ} (h : Renamed T T' σ) (h' : Renamed T' T'' τ) : Renamed T T'' (τ * σ) where
  coh := h'.coh
  size := h'.size.trans h.size
  odd z := by rw [Equiv.Perm.mul_apply, h.odd, h'.odd]; rfl
  lt z := by rw [Equiv.Perm.mul_apply, ← h.size, h'.lt, h.size, h.lt]
  face z := by rw [Equiv.Perm.mul_apply, h'.face, h.face]; rfl

theorem Renamed.inv {T T' : Tri} {σ : Equiv.Perm ℕ} (h : Renamed T T' σ) (hT : T.Linked) (z : HE) : T'.faces.inv (σ z) = σ (T.faces.inv z) := by
  refine h.coh.hf.inj ?_
  rw [h.coh.hf.right, h.face, hT.hf.right]

theorem mkVertexes_some {v : Perm} (hv : v.WF) : ∃ vs, mkVertexes v = some vs := by
  obtain ⟨cs, h, -⟩ := Perm.cycles_spec hv
  exact ⟨_, by unfold mkVertexes; rw [h]; rfl⟩

theorem swap_renamed {T : Tri} (h : T.Linked) {a b : HE} (hab : a ≠ b) (hab' : a ≠ neg b) (ha : a < T.size) (hb : b < T.size) :
    ∃ T', T.swap a b = .ok T' ∧ Renamed T T' (exchange a b) := by
  have ha' : neg a < T.size := (neg_lt' h.even a).2 ha
  have hb' : neg b < T.size := (neg_lt' h.even b).2 hb
  obtain ⟨v, v1, v2, v3, v4⟩ := conjBoth_exchange h.hv hab hab' ha hb ha' hb'
  obtain ⟨f, f1, f2, f3, f4⟩ := conjBoth_exchange h.hf hab hab' (by rw [h.hs]; exact ha) (by rw [h.hs]; exact hb) (by rw [h.hs]; exact ha') (by rw [h.hs]; exact hb')
  obtain ⟨vs, hvs⟩ := mkVertexes_some v2
  refine ⟨⟨v, f, vs⟩, ?_, ⟨v2, f2, by rw [f3, v3, h.hs], by show v.size % 2 = 0; rw [v3]; exact h.even, ?_⟩, v3, exchange_neg hab hab',
    exchange_lt hab hab' ha hb ha' hb', f4⟩
  · unfold swap
    rw [if_neg hab]
    simp only [bind, Except.bind, v1, f1, hvs]
    rfl
  · intro x hx
    obtain ⟨x, rfl⟩ := (exchange a b).surjective x
    dsimp only at hx ⊢
    rw [f4] at hx
    rw [v4, ← exchange_neg hab hab', f4, h.link x (fun k => hx (by rw [k]))]

theorem swapHalfEdgeMap_exchange {V : Type} {a b : HE} (hab : a ≠ b) (hab' : a ≠ neg b) (m : HE → V) (z : HE) :
    Tracked.swapHalfEdgeMap a b m (exchange a b z) = m z := by
  have h1 := neg_ne a
  have h2 := neg_ne b
  have h3 : neg a ≠ b := fun h => hab' (by rw [← h, neg_neg'])
  have h4 : neg a ≠ neg b := fun h => hab (neg_inj'.1 h)
  unfold Tracked.swapHalfEdgeMap Tracked.swapCells
  rw [if_neg hab, exchange_apply hab hab']
  simp only [Function.update_apply]
  by_cases k1 : z = a
  · subst k1
    rw [if_pos rfl, if_neg h2.symm, if_neg h3.symm, if_pos rfl]
  by_cases k2 : z = b
  · subst k2
    rw [if_neg k1, if_pos rfl, if_neg hab', if_neg h1.symm, if_neg hab, if_pos rfl]
  by_cases k3 : z = neg a
  · subst k3
    rw [if_neg h1, if_neg h3, if_pos rfl, if_pos rfl, if_neg h3, if_neg h1]
  by_cases k4 : z = neg b
  · subst k4
    rw [if_neg k1, if_neg h2, if_neg k3, if_pos rfl, if_neg h4, if_pos rfl, if_neg h2, if_neg hab'.symm]
  simp only [if_neg k1, if_neg k2, if_neg k3, if_neg k4]

/-! ### The edges that are dropped come last -/

theorem lastKept_spec (D : Finset ℕ) {n l : ℕ} (h : ∀ m, l ≤ m → m < n → m ∈ D) :
    (∀ m, lastKept D l ≤ m → m < n → m ∈ D) ∧ (lastKept D l = 0 ∨ lastKept D l - 1 ∉ D) ∧ lastKept D l ≤ l := by
  induction l with
  | zero => exact ⟨h, .inl rfl, le_refl _⟩
  | succ l ih =>
    unfold lastKept
    split_ifs with hl
    · obtain ⟨h1, h2, h3⟩ := ih fun m hm hn => by
        rcases hm.eq_or_lt with rfl | hm
        · exact hl
        · exact h m hm hn
      exact ⟨h1, h2, by omega⟩
    · exact ⟨h, .inr hl, le_refl _⟩

/-- Loop invariant. -/
structure Keeps (T : Tri) (e : HE) (D : Finset ℕ) (ds : List ℕ) (r : Renaming) (σ : Equiv.Perm ℕ) : Prop where
  renamed : Renamed T r.tri σ
  at_e : r.e = σ e
  card : r.drop.card = D.card
  image : ∀ z, σ z / 2 ∈ r.drop ↔ z / 2 ∈ D
  lt : ∀ m ∈ r.drop, m < T.size / 2
  todo : ∀ m ∈ r.drop, m < T.size / 2 - D.card → m ∈ ds
  nodup : ds.Nodup
  sub : ∀ m ∈ ds, m ∈ r.drop
  last : ∀ m, r.last ≤ m → m < T.size / 2 → m ∈ r.drop
  last_le : r.last ≤ T.size / 2

theorem neg_even (m : ℕ) : neg (2 * m) = 2 * m + 1 := by rw [neg_def, if_pos (by omega)]

theorem neg_half (z : HE) : neg z / 2 = z / 2 := by
  rw [neg_def]
  split_ifs <;> omega

theorem half_eq {z w : HE} : z / 2 = w / 2 ↔ z = w ∨ z = neg w := by
  rw [neg_def]
  split_ifs <;> omega

/-- The tracked data follows the half edges that are swapped. -/
def Carries {X : Type} (swap : HE → HE → X → X) (P : Equiv.Perm ℕ → X → Prop) : Prop :=
  ∀ a b, a ≠ b → a ≠ neg b → ∀ τ x, P τ x → P (exchange a b * τ) (swap a b x)

theorem Keeps.step {T : Tri} (hT : T.Linked) {e : HE} {D : Finset ℕ} (he : e / 2 ∈ D) {d : ℕ} {ds : List ℕ} {r : Renaming} {σ : Equiv.Perm ℕ}
    (h : Keeps T e D (d :: ds) r σ) : ∃ r' σ', renameStep (T.size / 2) r d = .ok r' ∧ Keeps T e D ds r' σ' ∧
      (∀ {V : Type} (m m' : HE → V), (∀ z, m (σ z) = m' z) → ∀ z, renameData (T.size / 2) r d m (σ' z) = m' z) ∧
      ∀ {X : Type} (swap : HE → HE → X → X) (P : Equiv.Perm ℕ → X → Prop), Carries swap P → ∀ x, P σ x →
        P σ' (trackStep swap (T.size / 2) r d x) := by
  have heven : 2 * (T.size / 2) = T.size := by have := hT.even; unfold size; omega
  obtain ⟨l1, l2, l3⟩ := lastKept_spec r.drop (n := T.size / 2) h.last
  set m := lastKept r.drop r.last with hm
  have hd : d ∈ r.drop := h.sub d (by simp)
  have hdlt := h.lt d hd
  have hnd := List.nodup_cons.1 h.nodup
  have hll := h.last_le
  unfold renameStep renameData trackStep
  rw [← hm, h.card]
  dsimp only
  by_cases hk : d < T.size / 2 - D.card
  · rw [if_pos hk]
    have hbig : T.size / 2 - D.card < m := by
      by_contra hc
      push Not at hc
      have hsub : insert d (Finset.Ico (T.size / 2 - D.card) (T.size / 2)) ⊆ r.drop := by
        intro z hz
        rcases Finset.mem_insert.1 hz with rfl | hz
        · exact hd
        · rw [Finset.mem_Ico] at hz
          exact l1 z (by omega) hz.2
      have hcard := Finset.card_le_card hsub
      rw [Finset.card_insert_of_notMem (by rw [Finset.mem_Ico]; omega), Nat.card_Ico, h.card] at hcard
      omega
    have hkept : m - 1 ∉ r.drop := l2.resolve_left (by omega)
    have hne : d ≠ m - 1 := fun k => hkept (k ▸ hd)
    have hmlt : m - 1 < T.size / 2 := by omega
    have hab : 2 * d ≠ 2 * (m - 1) := by omega
    have hab' : 2 * d ≠ neg (2 * (m - 1)) := by rw [neg_even]; omega
    obtain ⟨T', t1, t2⟩ := swap_renamed h.renamed.coh hab hab' (by rw [h.renamed.size]; omega) (by rw [h.renamed.size]; omega)
    have hdrop : ∀ w, exchange (2 * d) (2 * (m - 1)) w / 2 ∈ insert (m - 1) (r.drop.erase d) ↔ w / 2 ∈ r.drop := by
      intro w
      rw [exchange_apply hab hab', neg_even, neg_even, Finset.mem_insert, Finset.mem_erase]
      by_cases k1 : w / 2 = d
      · have e1 : (if w = 2 * d then 2 * (m - 1) else if w = 2 * (m - 1) then 2 * d else if w = 2 * d + 1 then 2 * (m - 1) + 1 else
          if w = 2 * (m - 1) + 1 then 2 * d + 1 else w) / 2 = m - 1 := by split_ifs <;> omega
        rw [e1, k1]
        tauto
      by_cases k2 : w / 2 = m - 1
      · have e1 : (if w = 2 * d then 2 * (m - 1) else if w = 2 * (m - 1) then 2 * d else if w = 2 * d + 1 then 2 * (m - 1) + 1 else
          if w = 2 * (m - 1) + 1 then 2 * d + 1 else w) / 2 = d := by split_ifs <;> omega
        rw [e1, k2]
        tauto
      · have e1 : (if w = 2 * d then 2 * (m - 1) else if w = 2 * (m - 1) then 2 * d else if w = 2 * d + 1 then 2 * (m - 1) + 1 else
          if w = 2 * (m - 1) + 1 then 2 * d + 1 else w) = w := by split_ifs <;> omega
        rw [e1]
        tauto
    refine ⟨_, exchange (2 * d) (2 * (m - 1)) * σ, by simp only [bind, Except.bind, t1]; rfl, ⟨h.renamed.trans t2, ?_, ?_, ?_, ?_, ?_, hnd.2, ?_, ?_, ?_⟩, ?_, ?_⟩
    · have hre : r.e / 2 ∈ r.drop := by rw [h.at_e, h.image]; exact he
      dsimp only
      rw [Equiv.Perm.mul_apply, ← h.at_e, exchange_apply hab hab', neg_even, neg_even]
      have h1 : r.e ≠ 2 * (m - 1) := fun k => hkept (by rw [k] at hre; rwa [show 2 * (m - 1) / 2 = m - 1 by omega] at hre)
      have h2 : r.e ≠ 2 * (m - 1) + 1 := fun k => hkept (by rw [k] at hre; rwa [show (2 * (m - 1) + 1) / 2 = m - 1 by omega] at hre)
      split_ifs <;> omega
    · dsimp only
      rw [Finset.card_insert_of_notMem (fun k => hkept (Finset.mem_of_mem_erase k)), Finset.card_erase_of_mem hd, ← h.card]
      have := Finset.card_pos.2 ⟨d, hd⟩
      omega
    · intro z
      dsimp only
      rw [Equiv.Perm.mul_apply, hdrop, h.image]
    · intro z hz
      rcases Finset.mem_insert.1 hz with rfl | hz
      · exact hmlt
      · exact h.lt z (Finset.mem_of_mem_erase hz)
    · intro z hz hz'
      rcases Finset.mem_insert.1 hz with rfl | hz
      · omega
      · obtain ⟨k1, k2⟩ := Finset.mem_erase.1 hz
        exact (List.mem_cons.1 (h.todo z k2 hz')).resolve_left k1
    · intro z hz
      exact Finset.mem_insert_of_mem (Finset.mem_erase.2 ⟨fun k => hnd.1 (k ▸ hz), h.sub z (by simp [hz])⟩)
    · intro z hz hz'
      exact Finset.mem_insert_of_mem (Finset.mem_erase.2 ⟨fun k => by dsimp only at hz; omega, l1 z hz hz'⟩)
    · dsimp only
      omega
    · intro V m m' hm z
      rw [if_pos hk, Equiv.Perm.mul_apply, swapHalfEdgeMap_exchange hab hab', hm]
    · intro X swap P hP x hx
      rw [if_pos hk]
      exact hP _ _ hab hab' σ x hx
  · rw [if_neg hk]
    refine ⟨_, σ, rfl, ⟨h.renamed, h.at_e, h.card, h.image, h.lt, ?_, hnd.2, fun z hz => h.sub z (by simp [hz]), l1, by dsimp only; omega⟩, ?_, ?_⟩
    · intro z hz hz'
      rcases List.mem_cons.1 (h.todo z hz hz') with rfl | k
      · exact absurd hz' hk
      · exact k
    · intro V m m' hm z
      rw [if_neg hk, hm]
    · intro X swap P hP x hx
      rw [if_neg hk]
      exact hx

theorem Keeps.run {T : Tri} (hT : T.Linked) {e : HE} {D : Finset ℕ} (he : e / 2 ∈ D) {ds : List ℕ} {r : Renaming} {σ : Equiv.Perm ℕ}
    (h : Keeps T e D ds r σ) : ∃ r' σ', ds.foldlM (renameStep (T.size / 2)) r = .ok r' ∧ Keeps T e D [] r' σ' ∧
      (∀ {V : Type} (m m' : HE → V), (∀ z, m (σ z) = m' z) → ∃ m'', (ds.foldlM
        (fun (p : Renaming × (HE → V)) d => do
          let r ← renameStep (T.size / 2) p.1 d
          return (r, renameData (T.size / 2) p.1 d p.2)) (r, m) : Except Err (Renaming × (HE → V))) = .ok (r', m'') ∧ ∀ z, m'' (σ' z) = m' z) ∧
      ∀ {X : Type} (swap : HE → HE → X → X) (P : Equiv.Perm ℕ → X → Prop), Carries swap P → ∀ x, P σ x → ∃ x', (ds.foldlM
        (fun (p : Renaming × X) d => do
          let r ← renameStep (T.size / 2) p.1 d
          return (r, trackStep swap (T.size / 2) p.1 d p.2)) (r, x) : Except Err (Renaming × X)) = .ok (r', x') ∧ P σ' x' := by
  induction ds generalizing r σ with
  | nil => exact ⟨r, σ, rfl, h, fun m m' hm => ⟨m, rfl, hm⟩, fun swap P hP x hx => ⟨x, rfl, hx⟩⟩
  | cons d ds ih =>
    obtain ⟨r', σ', h1, h2, h5, h9⟩ := h.step hT he
    obtain ⟨r'', σ'', h3, h4, h6, h10⟩ := ih h2
    refine ⟨r'', σ'', ?_, h4, ?_, ?_⟩
    · rw [List.foldlM_cons]
      simp only [bind, Except.bind, h1]
      exact h3
    · intro V m m' hm
      obtain ⟨m'', h7, h8⟩ := h6 _ m' (h5 m m' hm)
      refine ⟨m'', ?_, h8⟩
      rw [List.foldlM_cons]
      dsimp only
      rw [h1]
      exact h7
    · intro X swap P hP x hx
      obtain ⟨x', h7, h8⟩ := h10 swap P hP _ (h9 swap P hP x hx)
      refine ⟨x', ?_, h8⟩
      rw [List.foldlM_cons]
      dsimp only
      rw [h1]
      exact h7

theorem mem_sorted {n : ℕ} {D : Finset ℕ} {m : ℕ} : m ∈ sorted n D ↔ m < n ∧ m ∈ D := by
  unfold sorted
  simp

theorem sorted_nodup (n : ℕ) (D : Finset ℕ) : (sorted n D).Nodup := List.nodup_range.filter _

theorem sorted_length {n : ℕ} {D : Finset ℕ} (h : ∀ m ∈ D, m < n) : (sorted n D).length = D.card := by
  rw [← List.toFinset_card_of_nodup (sorted_nodup n D)]
  congr 1
  ext m
  rw [List.mem_toFinset, mem_sorted]
  exact ⟨fun k => k.2, fun k => ⟨h m k, k⟩⟩

/-- The dropped edges have been renamed. -/
theorem renameDropped_spec {T : Tri} (hT : T.Linked) {e : HE} (he : e / 2 ∈ T.dropEdges e) (hlt : ∀ m ∈ T.dropEdges e, m < T.size / 2) :
    ∃ r σ, T.renameDropped e = .ok r ∧ Renamed T r.tri σ ∧ r.e = σ e ∧ (∀ z, σ z / 2 ∈ r.drop ↔ z / 2 ∈ T.dropEdges e) ∧
      r.drop = Finset.Ico (T.size / 2 - (T.dropEdges e).card) (T.size / 2) ∧ (T.dropEdges e).card ≤ T.size / 2 ∧
      (∀ {V : Type} (m : HE → V), ∃ m', T.renameAll e m = .ok m' ∧ ∀ z, m' (σ z) = m z) ∧
      ∀ {X : Type} (swap : HE → HE → X → X) (P : Equiv.Perm ℕ → X → Prop), Carries swap P → ∀ x, P 1 x → ∃ x',
        T.renameTracked swap e x = .ok (r, x') ∧ P σ x' := by
  obtain ⟨r, σ, h1, h2, h3, h4⟩ := Keeps.run hT (e := e) (D := T.dropEdges e) he (ds := sorted (T.size / 2) (T.dropEdges e)) (r := ⟨T, e, T.dropEdges e, T.size / 2⟩) (σ := 1)
    ⟨.refl hT, rfl, rfl, fun _ => Iff.rfl, hlt, fun m hm _ => mem_sorted.2 ⟨hlt m hm, hm⟩, sorted_nodup _ _, fun m hm => (mem_sorted.1 hm).2,
      fun m hm hm' => by dsimp only at hm; omega, le_refl _⟩
  have hcard : (T.dropEdges e).card ≤ T.size / 2 := by
    have : T.dropEdges e ⊆ Finset.range (T.size / 2) := fun m hm => Finset.mem_range.2 (hlt m hm)
    simpa using Finset.card_le_card this
  refine ⟨r, σ, h1, h2.renamed, h2.at_e, h2.image, ?_, hcard, fun {V} m => ?_, h4⟩
  swap
  · obtain ⟨m', k1, k2⟩ := h3 m m fun _ => rfl
    refine ⟨m', ?_, k2⟩
    unfold renameAll
    rw [k1]
    rfl
  refine Finset.eq_of_subset_of_card_le (fun m hm => ?_) ?_
  · have k1 := h2.lt m hm
    rw [Finset.mem_Ico]
    refine ⟨?_, k1⟩
    by_contra hc
    exact absurd (h2.todo m hm (by omega)) (by simp)
  · rw [Nat.card_Ico, h2.card]
    omega

/-! ### Closing the faces -/

theorem closeFirst_spec {f : Perm} (hf : f.WF) {e x t : HE} (he : f.fwd e = x) (hx : f.fwd x = t) (ht : f.fwd t = e)
    (hex : e ≠ x) (hxt : x ≠ t) (hte : t ≠ e) (hlt : e < f.size) (hq : neg x < f.size)
    (hqe : neg x ≠ e) (hqt : neg x ≠ t) (hqq : f.fwd (neg x) ≠ neg x) :
    ∃ g, closeFirst f e = .ok g ∧ g.WF ∧ g.size = f.size ∧ g.fwd e = e ∧ g.fwd x = neg x ∧ g.fwd (neg x) = x ∧
      ∀ z, z ≠ e → z ≠ x → z ≠ t → g.fwd (if z = neg x then t else z) = if f.fwd z = neg x then t else f.fwd z := by
  have hqx := neg_ne x
  set q := neg x with hqdef
  have hie : f.inv e = t := by rw [← ht, hf.left]
  have hxlt : x < f.size := he ▸ hf.fwd_lt.2 hlt
  have htlt : t < f.size := hx ▸ hf.fwd_lt.2 hxlt
  obtain ⟨p, hp⟩ : ∃ p, f.inv q = p := ⟨_, rfl⟩
  have hfp : f.fwd p = q := by rw [← hp, hf.right]
  have hplt : p < f.size := hp ▸ hf.inv_lt.2 hq
  have hpe : p ≠ e := fun k => hqx (by rw [← hfp, k, he])
  have hpx : p ≠ x := fun k => hqt (by rw [← hfp, k, hx])
  have hpt : p ≠ t := fun k => hqe (by rw [← hfp, k, ht])
  have hpq : p ≠ q := fun k => hqq (by rw [k] at hfp; exact hfp)
  obtain ⟨f1, a1, a2, a3, a4⟩ := mulPair hf htlt hq
  obtain ⟨f2, b1, b2, b3, b4⟩ := mulPair a2 (u := p) (v := x) (a3 ▸ hplt) (a3 ▸ hxlt)
  have hf2q : f2.fwd q = e := by
    rw [b4, Equiv.swap_apply_of_ne_of_ne hpq.symm hqx, a4, Equiv.swap_apply_right, ht]
  have hie2 : f2.inv e = q := by rw [← hf2q, b2.left]
  obtain ⟨f3, c1, c2, c3, c4⟩ := mulPair b2 (u := q) (v := e) (by rw [b3, a3]; exact hq) (by rw [b3, a3]; exact hlt)
  refine ⟨f3, ?_, c2, by rw [c3, b3, a3], ?_, ?_, ?_, ?_⟩
  · unfold closeFirst
    simp only [bind, Except.bind, he, hie, ← hqdef, a1, hp, b1, hie2, c1]
  · rw [c4, Equiv.swap_apply_right, hf2q]
  · rw [c4, Equiv.swap_apply_of_ne_of_ne hqx.symm hex.symm, b4, Equiv.swap_apply_right, a4, Equiv.swap_apply_of_ne_of_ne hpt hpq, hfp]
  · rw [c4, Equiv.swap_apply_left, b4, Equiv.swap_apply_of_ne_of_ne hpe.symm hex, a4, Equiv.swap_apply_of_ne_of_ne hte.symm hqe.symm, he]
  · intro z z1 z2 z3
    by_cases k1 : z = q
    · rw [if_pos k1, c4, Equiv.swap_apply_of_ne_of_ne hqt.symm hte, b4, Equiv.swap_apply_of_ne_of_ne hpt.symm hxt.symm, a4,
        Equiv.swap_apply_left, k1, if_neg hqq]
    · rw [if_neg k1]
      by_cases k2 : z = p
      · subst k2
        rw [if_pos hfp, c4, Equiv.swap_apply_of_ne_of_ne k1 z1, b4, Equiv.swap_apply_left, a4, Equiv.swap_apply_of_ne_of_ne hxt hqx.symm, hx]
      · rw [if_neg (fun k => k2 (by rw [← hp, ← k, hf.left])), c4, Equiv.swap_apply_of_ne_of_ne k1 z1, b4, Equiv.swap_apply_of_ne_of_ne k2 z2,
          a4, Equiv.swap_apply_of_ne_of_ne z3 k1]

theorem closeSecond_spec {f : Perm} (hf : f.WF) {e c t : HE} (he : f.fwd e = c) (hc : f.fwd c = t) (ht : f.fwd t = e)
    (hec : e ≠ c) (hct : c ≠ t) (hte : t ≠ e) (hlt : e < f.size) (hq : neg t < f.size)
    (hqe : neg t ≠ e) (hqc : neg t ≠ c) (hqq : f.fwd (neg t) ≠ neg t) :
    ∃ g, closeSecond f e = .ok g ∧ g.WF ∧ g.size = f.size ∧ g.fwd e = e ∧ g.fwd t = neg t ∧ g.fwd (neg t) = t ∧
      ∀ z, z ≠ e → z ≠ c → z ≠ t → g.fwd (if z = neg t then c else z) = if f.fwd z = neg t then c else f.fwd z := by
  have hqt := neg_ne t
  set q := neg t with hqdef
  have hie : f.inv e = t := by rw [← ht, hf.left]
  have hclt : c < f.size := he ▸ hf.fwd_lt.2 hlt
  obtain ⟨p, hp⟩ : ∃ p, f.inv q = p := ⟨_, rfl⟩
  have hfp : f.fwd p = q := by rw [← hp, hf.right]
  have hplt : p < f.size := hp ▸ hf.inv_lt.2 hq
  have hpe : p ≠ e := fun k => hqc (by rw [← hfp, k, he])
  have hpc : p ≠ c := fun k => hqt (by rw [← hfp, k, hc])
  have hpt : p ≠ t := fun k => hqe (by rw [← hfp, k, ht])
  have hpq : p ≠ q := fun k => hqq (by rw [k] at hfp; exact hfp)
  obtain ⟨f1, a1, a2, a3, a4⟩ := mulPair hf hclt hq
  obtain ⟨f2, b1, b2, b3, b4⟩ := mulPair a2 (u := p) (v := e) (a3 ▸ hplt) (a3 ▸ hlt)
  have hf2t : f2.fwd t = e := by
    rw [b4, Equiv.swap_apply_of_ne_of_ne hpt.symm hte, a4, Equiv.swap_apply_of_ne_of_ne hct.symm hqt.symm, ht]
  have hie2 : f2.inv e = t := by rw [← hf2t, b2.left]
  obtain ⟨f3, c1, c2, c3, c4⟩ := mulPair b2 (u := t) (v := e) (by rw [b3, a3]; exact (hc ▸ hf.fwd_lt.2 hclt)) (by rw [b3, a3]; exact hlt)
  refine ⟨f3, ?_, c2, by rw [c3, b3, a3], ?_, ?_, ?_, ?_⟩
  · unfold closeSecond
    simp only [bind, Except.bind, he, hie, ← hqdef, a1, hp, b1, hie2, c1]
  · rw [c4, Equiv.swap_apply_right, hf2t]
  · rw [c4, Equiv.swap_apply_left, b4, Equiv.swap_apply_right, a4, Equiv.swap_apply_of_ne_of_ne hpc hpq, hfp]
  · rw [c4, Equiv.swap_apply_of_ne_of_ne hqt hqe, b4, Equiv.swap_apply_of_ne_of_ne hpq.symm hqe, a4, Equiv.swap_apply_right, hc]
  · intro z z1 z2 z3
    by_cases k1 : z = q
    · rw [if_pos k1, c4, Equiv.swap_apply_of_ne_of_ne hct hec.symm, b4, Equiv.swap_apply_of_ne_of_ne hpc.symm hec.symm, a4,
        Equiv.swap_apply_left, k1, if_neg hqq]
    · rw [if_neg k1]
      by_cases k2 : z = p
      · subst k2
        rw [if_pos hfp, c4, Equiv.swap_apply_of_ne_of_ne z3 z1, b4, Equiv.swap_apply_left, a4, Equiv.swap_apply_of_ne_of_ne hec hqe.symm, he]
      · rw [if_neg (fun k => k2 (by rw [← hp, ← k, hf.left])), c4, Equiv.swap_apply_of_ne_of_ne z3 z1, b4, Equiv.swap_apply_of_ne_of_ne k2 z1,
          a4, Equiv.swap_apply_of_ne_of_ne z2 k1]

/-- The faces `(e, x, t)` and `(-e, c, u)` at an edge that can be collapsed. -/
structure Diamond (f : Perm) (e x t c u : HE) : Prop where
  hf : f.WF
  even : f.size % 2 = 0
  lt : e < f.size
  fix : ∀ z < f.size, f.fwd z ≠ z
  tri : ∀ z, f.fwd (f.fwd (f.fwd z)) = z
  fe : f.fwd e = x
  fx : f.fwd x = t
  ft : f.fwd t = e
  fe' : f.fwd (neg e) = c
  fc : f.fwd c = u
  fu : f.fwd u = neg e
  ne_x : neg e ≠ x
  ne_t : neg e ≠ t
  xt : neg x ≠ t
  uc : neg u ≠ c
  tc : neg t ≠ c
  xu : neg x ≠ u
  torus : ¬ (c = neg x ∧ neg u = t)

/-- What the half edges are replaced with. -/
def first (x t z : HE) : HE := if z = neg x then t else if z = x then neg t else z

def second (c u z : HE) : HE := if z = neg u then c else if z = u then neg c else z

/-- What the half edges are replaced with when the faces `(e, x, t)` and `(-e, c, u)` disappear. -/
def merged (x t c u z : HE) : HE := second (if c = neg x then t else c) u (first x t z)

theorem first_neg (x t z : HE) : first x t (neg z) = neg (first x t z) := by
  unfold first
  have e : ∀ w, neg z = w ↔ z = neg w := fun w => ⟨fun h => by rw [← h, neg_neg'], fun h => by rw [h, neg_neg']⟩
  simp only [e, neg_neg']
  have := neg_ne x
  by_cases k1 : z = x
  · rw [if_pos k1, if_neg (by rw [k1]; exact this.symm), if_pos k1, neg_neg']
  · rw [if_neg k1, if_neg k1]
    split_ifs <;> rfl

theorem second_neg (c u z : HE) : second c u (neg z) = neg (second c u z) := by
  unfold second
  have e : ∀ w, neg z = w ↔ z = neg w := fun w => ⟨fun h => by rw [← h, neg_neg'], fun h => by rw [h, neg_neg']⟩
  simp only [e, neg_neg']
  have := neg_ne u
  by_cases k1 : z = u
  · rw [if_pos k1, if_neg (by rw [k1]; exact this.symm), if_pos k1, neg_neg']
  · rw [if_neg k1, if_neg k1]
    split_ifs <;> rfl

theorem merged_neg (x t c u z : HE) : merged x t c u (neg z) = neg (merged x t c u z) := by
  unfold merged
  rw [first_neg, second_neg]

namespace Diamond

variable {f : Perm} {e x t c u : HE}

theorem neg_lt (d : Diamond f e x t c u) {z : HE} : neg z < f.size ↔ z < f.size := neg_lt' d.even z

theorem ex (d : Diamond f e x t c u) : e ≠ x := fun k => d.fix e d.lt (by rw [d.fe, k])

theorem x_lt (d : Diamond f e x t c u) : x < f.size := d.fe ▸ d.hf.fwd_lt.2 d.lt

theorem t_lt (d : Diamond f e x t c u) : t < f.size := d.fx ▸ d.hf.fwd_lt.2 d.x_lt

theorem c_lt (d : Diamond f e x t c u) : c < f.size := d.fe' ▸ d.hf.fwd_lt.2 (d.neg_lt.2 d.lt)

theorem u_lt (d : Diamond f e x t c u) : u < f.size := d.fc ▸ d.hf.fwd_lt.2 d.c_lt

theorem x_t (d : Diamond f e x t c u) : x ≠ t := fun k => d.fix x d.x_lt (by rw [d.fx, k])

theorem te (d : Diamond f e x t c u) : t ≠ e := fun k => d.fix t d.t_lt (by rw [d.ft, k])

theorem e'c (d : Diamond f e x t c u) : neg e ≠ c := fun k => d.fix (neg e) (d.neg_lt.2 d.lt) (by rw [d.fe', k])

theorem cu (d : Diamond f e x t c u) : c ≠ u := fun k => d.fix c d.c_lt (by rw [d.fc, k])

theorem ue' (d : Diamond f e x t c u) : u ≠ neg e := fun k => d.fix u d.u_lt (by rw [d.fu, k])

/-- The faces have no half edge in common. -/
theorem disjoint (d : Diamond f e x t c u) : (c ≠ e ∧ c ≠ x ∧ c ≠ t) ∧ u ≠ e ∧ u ≠ x ∧ u ≠ t := by
  have h1 : ∀ z, (z = e ∨ z = x ∨ z = t) → (f.fwd z = e ∨ f.fwd z = x ∨ f.fwd z = t) := by
    rintro z (rfl | rfl | rfl)
    · exact .inr (.inl d.fe)
    · exact .inr (.inr d.fx)
    · exact .inl d.ft
  have h3 : ¬ (neg e = e ∨ neg e = x ∨ neg e = t) := by
    rintro (h | h | h)
    · exact neg_ne e h
    · exact d.ne_x h
    · exact d.ne_t h
  have hu : ¬ (u = e ∨ u = x ∨ u = t) := fun h => h3 (by have := h1 u h; rwa [d.fu] at this)
  have hc : ¬ (c = e ∨ c = x ∨ c = t) := fun h => hu (by have := h1 c h; rwa [d.fc] at this)
  tauto

/-- Half edges in neither of the faces. -/
def Out (e x t c u z : HE) : Prop := z ≠ e ∧ z ≠ x ∧ z ≠ t ∧ z ≠ neg e ∧ z ≠ c ∧ z ≠ u

theorem out_fwd (d : Diamond f e x t c u) {z : HE} (h : Out e x t c u z) : Out e x t c u (f.fwd z) := by
  obtain ⟨h1, h2, h3, h4, h5, h6⟩ := h
  exact ⟨fun k => h3 (d.hf.inj (by rw [k, d.ft])), fun k => h1 (d.hf.inj (by rw [k, d.fe])), fun k => h2 (d.hf.inj (by rw [k, d.fx])),
    fun k => h6 (d.hf.inj (by rw [k, d.fu])), fun k => h4 (d.hf.inj (by rw [k, d.fe'])), fun k => h5 (d.hf.inj (by rw [k, d.fc]))⟩

theorem neg_eq_iff {a b : HE} : neg a = b ↔ a = neg b := ⟨fun h => by rw [← h, neg_neg'], fun h => by rw [h, neg_neg']⟩

/-- The half edges that are removed. -/
def Gone (e x u z : HE) : Prop := z = e ∨ z = neg e ∨ z = x ∨ z = neg x ∨ z = u ∨ z = neg u

theorem merged_kept {z : HE} (h : ¬ Gone e x u z) : merged x t c u z = z := by
  unfold Gone at h
  unfold merged first second
  push Not at h
  obtain ⟨h1, h2, h3, h4, h5, h6⟩ := h
  rw [if_neg h4, if_neg h3, if_neg h6, if_neg h5]

theorem gone_neg {z : HE} : Gone e x u (neg z) ↔ Gone e x u z := by
  unfold Gone
  simp only [neg_eq_iff, neg_neg']
  tauto

/-- The replacement of `c`. -/
theorem kept_c (d : Diamond f e x t c u) : ¬ Gone e x u (if c = neg x then t else c) := by
  obtain ⟨⟨d1, d2, d3⟩, d4, d5, d6⟩ := d.disjoint
  have := d.ne_x
  have := d.ne_t
  have := d.te
  have := d.x_t
  have := d.xt
  have := d.e'c
  have := d.cu
  have := d.uc
  unfold Gone
  split_ifs with k
  · have h : neg u ≠ t := fun h => d.torus ⟨k, h⟩
    push Not
    exact ⟨d.te, d.ne_t.symm, d.x_t.symm, d.xt.symm, d6.symm, h.symm⟩
  · push Not
    exact ⟨d1, d.e'c.symm, d2, k, d.cu, d.uc.symm⟩

theorem kept (d : Diamond f e x t c u) {z : HE} (h : z ≠ e) (h' : z ≠ neg e) : ¬ Gone e x u (merged x t c u z) := by
  obtain ⟨⟨d1, d2, d3⟩, d4, d5, d6⟩ := d.disjoint
  have key : ∀ w, ¬ (w = e ∨ w = neg e ∨ w = x ∨ w = neg x) → ¬ Gone e x u (second (if c = neg x then t else c) u w) := by
    intro w hw
    unfold second
    split_ifs with k1 k2 k3 k4 k5
    · have := d.kept_c; rwa [if_pos k2] at this
    · have := d.kept_c; rwa [if_neg k2] at this
    · have := d.kept_c; rw [if_pos k4] at this; rwa [gone_neg]
    · have := d.kept_c; rw [if_neg k4] at this; rwa [gone_neg]
    · unfold Gone; tauto
  unfold merged
  apply key
  unfold first
  split_ifs with k1 k2
  · push Not
    exact ⟨d.te, d.ne_t.symm, d.x_t.symm, d.xt.symm⟩
  · push Not
    exact ⟨fun k => d.ne_t (by rw [← k, neg_neg']), fun k => d.te (neg_inj'.1 k), fun k => d.xt (by rw [← k, neg_neg']), fun k => d.x_t (neg_inj'.1 k).symm⟩
  · tauto

/-- Closing both faces. -/
theorem close (d : Diamond f e x t c u) : ∃ g h, closeFirst f e = .ok g ∧ closeSecond g (neg e) = .ok h ∧ h.WF ∧ h.size = f.size ∧
    (∀ z, Gone e x u z → Gone e x u (h.fwd z)) ∧ ∀ z, Out e x t c u z → h.fwd (merged x t c u z) = merged x t c u (f.fwd z) := by
  obtain ⟨⟨d1, d2, d3⟩, d4, d5, d6⟩ := d.disjoint
  have hqe : neg x ≠ e := fun k => d.ne_x (by rw [← k, neg_neg'])
  have hxx := neg_ne x
  have huu := neg_ne u
  have hee := neg_ne e
  obtain ⟨g, a1, a2, a3, a4, a5, a6, a7⟩ := closeFirst_spec d.hf d.fe d.fx d.ft d.ex d.x_t d.te d.lt (d.neg_lt.2 d.x_lt) hqe d.xt
    (d.fix _ (d.neg_lt.2 d.x_lt))
  have qe' : neg e ≠ neg x := fun k => d.ex (neg_inj'.1 k)
  set c' := if c = neg x then t else c with hc'
  have g1 : g.fwd (neg e) = c' := by
    have := a7 (neg e) hee d.ne_x d.ne_t
    rw [if_neg qe', d.fe'] at this
    exact this
  have g2 : g.fwd c' = u := by
    have := a7 c d1 d2 d3
    rw [d.fc, if_neg d.xu.symm] at this
    exact this
  have g3 : g.fwd u = neg e := by
    have := a7 u d4 d5 d6
    rw [if_neg d.xu.symm, d.fu, if_neg qe'] at this
    exact this
  have kc := d.kept_c
  rw [← hc'] at kc
  unfold Gone at kc
  push Not at kc
  obtain ⟨kc1, kc2, kc3, kc4, kc5, kc6⟩ := kc
  have uqe : neg u ≠ neg e := fun k => d4 (neg_inj'.1 k)
  have ue : neg u ≠ e := fun k => d.ue' (by rw [← k, neg_neg'])
  have ux : neg u ≠ x := fun k => d.xu (by rw [← k, neg_neg'])
  have uqx : neg u ≠ neg x := fun k => d5 (neg_inj'.1 k)
  have hfix : g.fwd (neg u) ≠ neg u := by
    by_cases k : neg u = t
    · have := a7 (neg x) hqe hxx d.xt
      rw [if_pos rfl, if_neg (d.fix _ (d.neg_lt.2 d.x_lt))] at this
      rw [k, this]
      intro h
      exact hxx (d.hf.inj (by rw [h, d.fx]))
    · have := a7 (neg u) ue ux k
      rw [if_neg uqx] at this
      rw [this]
      split_ifs with h
      · exact fun h => k h.symm
      · exact d.fix _ (d.neg_lt.2 d.u_lt)
  obtain ⟨h, b1, b2, b3, b4, b5, b6, b7⟩ := closeSecond_spec a2 g1 g2 g3 kc2.symm kc5 d.ue' (by rw [a3]; exact d.neg_lt.2 d.lt)
    (by rw [a3]; exact d.neg_lt.2 d.u_lt) uqe kc6.symm hfix
  refine ⟨g, h, a1, b1, b2, b3.trans a3, ?_, ?_⟩
  · have he : h.fwd e = e := by
      have := b7 e hee.symm kc1.symm d4.symm
      rwa [if_neg ue.symm, a4, if_neg ue.symm] at this
    have hx : h.fwd x = neg x := by
      have := b7 x d.ne_x.symm kc3.symm d5.symm
      rwa [if_neg ux.symm, a5, if_neg uqx.symm] at this
    have hq : h.fwd (neg x) = x := by
      have := b7 (neg x) qe'.symm kc4.symm d.xu
      rwa [if_neg uqx.symm, a6, if_neg ux.symm] at this
    unfold Gone
    rintro z (rfl | rfl | rfl | rfl | rfl | rfl)
    · exact .inl he
    · exact .inr (.inl b4)
    · exact .inr (.inr (.inr (.inl hx)))
    · exact .inr (.inr (.inl hq))
    · exact .inr (.inr (.inr (.inr (.inr b5))))
    · exact .inr (.inr (.inr (.inr (.inl b6))))
  · intro z hz
    have hz' := d.out_fwd hz
    obtain ⟨z1, z2, z3, z4, z5, z6⟩ := hz
    obtain ⟨w1, w2, w3, w4, w5, w6⟩ := hz'
    have k1 := a7 z z1 z2 z3
    have f1 : first x t z = if z = neg x then t else z := by
      unfold first
      rw [if_neg z2]
    have f2 : first x t (f.fwd z) = if f.fwd z = neg x then t else f.fwd z := by
      unfold first
      rw [if_neg w2]
    have k2 : first x t z ≠ u := by
      rw [f1]
      split_ifs
      · exact d6.symm
      · exact z6
    have k2' : first x t (f.fwd z) ≠ u := by
      rw [f2]
      split_ifs
      · exact d6.symm
      · exact w6
    have k3 : first x t z ≠ neg e := by
      rw [f1]
      split_ifs
      · exact d.ne_t.symm
      · exact z4
    have k4 : first x t z ≠ c' := by
      rw [f1, hc']
      split_ifs with j1 j2
      · exact fun _ => z5 (by rw [j1, j2])
      · exact d3.symm
      · exact z3
      · exact z5
    rw [← f1, ← f2] at k1
    have k5 := b7 _ k3 k4 k2
    rw [k1] at k5
    unfold merged second
    rw [← hc', if_neg k2, if_neg k2', k5]

/-- Every half edge that is kept is in one of the other faces. -/
theorem out_of_kept (d : Diamond f e x t c u) {w : HE} (h : ¬ Gone e x u w) (hw : w < f.size) :
    ∃ z < f.size, Out e x t c u z ∧ merged x t c u z = w := by
  obtain ⟨⟨d1, d2, d3⟩, d4, d5, d6⟩ := d.disjoint
  have hk := merged_kept (t := t) (c := c) h
  unfold Gone at h
  push Not at h
  obtain ⟨h1, h2, h3, h4, h5, h6⟩ := h
  have hqe : neg x ≠ e := fun k => d.ne_x (by rw [← k, neg_neg'])
  have qe' : neg x ≠ neg e := fun k => d.ex (neg_inj'.1 k).symm
  have hxx := neg_ne x
  have huu := neg_ne u
  have uqe : neg u ≠ neg e := fun k => d4 (neg_inj'.1 k)
  have ue : neg u ≠ e := fun k => d.ue' (by rw [← k, neg_neg'])
  have ux : neg u ≠ x := fun k => d.xu (by rw [← k, neg_neg'])
  have uqx : neg u ≠ neg x := fun k => d5 (neg_inj'.1 k)
  by_cases k1 : w = t
  · by_cases k2 : c = neg x
    · refine ⟨neg u, d.neg_lt.2 d.u_lt, ⟨ue, ux, by rw [← k1]; exact h6.symm, uqe, d.uc, huu⟩, ?_⟩
      unfold merged first second
      rw [if_neg uqx, if_neg ux, if_pos rfl, if_pos k2, k1]
    · refine ⟨neg x, d.neg_lt.2 d.x_lt, ⟨hqe, hxx, d.xt, qe', Ne.symm k2, d.xu⟩, ?_⟩
      unfold merged first second
      rw [if_pos rfl, if_neg (by rw [← k1]; exact h6), if_neg (by rw [← k1]; exact h5), k1]
  by_cases k2 : w = c
  · have k3 : c ≠ neg x := by rw [← k2]; exact h4
    by_cases k4 : neg u = t
    · refine ⟨neg x, d.neg_lt.2 d.x_lt, ⟨hqe, hxx, d.xt, qe', k3.symm, d.xu⟩, ?_⟩
      unfold merged first second
      rw [if_pos rfl, if_pos k4.symm, if_neg k3, k2]
    · refine ⟨neg u, d.neg_lt.2 d.u_lt, ⟨ue, ux, k4, uqe, d.uc, huu⟩, ?_⟩
      unfold merged first second
      rw [if_neg uqx, if_neg ux, if_pos rfl, if_neg k3, k2]
  exact ⟨w, hw, ⟨h1, h3, k1, h2, k2, h5⟩, hk⟩

theorem merged_inj (d : Diamond f e x t c u) {z w : HE} (hz : Out e x t c u z) (hw : Out e x t c u w)
    (h : merged x t c u z = merged x t c u w) : z = w := by
  obtain ⟨⟨d1, d2, d3⟩, d4, d5, d6⟩ := d.disjoint
  have key : ∀ v, Out e x t c u v → first x t v ≠ u ∧ first x t v ≠ if c = neg x then t else c := by
    rintro v ⟨z1, z2, z3, z4, z5, z6⟩
    unfold first
    rw [if_neg z2]
    refine ⟨?_, ?_⟩
    · split_ifs
      · exact d6.symm
      · exact z6
    · split_ifs with j1 j2
      · exact fun _ => z5 (by rw [j1, j2])
      · exact d3.symm
      · exact z3
      · exact z5
  have h1 : first x t z = first x t w := by
    obtain ⟨a1, a2⟩ := key z hz
    obtain ⟨b1, b2⟩ := key w hw
    unfold merged second at h
    rw [if_neg a1, if_neg b1] at h
    by_cases k1 : first x t z = neg u
    · by_cases k2 : first x t w = neg u
      · rw [k1, k2]
      · rw [if_pos k1, if_neg k2] at h
        exact absurd h.symm b2
    · by_cases k2 : first x t w = neg u
      · rw [if_neg k1, if_pos k2] at h
        exact absurd h a2
      · rwa [if_neg k1, if_neg k2] at h
  unfold first at h1
  rw [if_neg hz.2.1, if_neg hw.2.1] at h1
  split_ifs at h1 with k1 k2 k2
  · rw [k1, k2]
  · exact absurd h1.symm hw.2.2.1
  · exact absurd h1 hz.2.2.1
  · exact h1

end Diamond

/-! ### The collapsed surface -/

theorem verticesOfFaces_spec {f : Perm} (hf : f.WF) (heven : f.size % 2 = 0) (hfix : ∀ z < f.size, f.fwd z ≠ z) :
    ∃ v, verticesOfFaces f = .ok v ∧ v.WF ∧ v.size = f.size ∧ ∀ z < f.size, v.fwd z = neg (f.inv z) := by
  have h1 : ¬ ∃ e ∈ f.domain, f.fwd e = e := by
    rintro ⟨z, h, h'⟩
    exact hfix z ((Perm.mem_domain hf z).1 h) h'
  have h2 : (f.domain.map fun e => (e, if f.fwd e = neg e ∧ f.fwd (f.fwd e) = e then e else neg (f.inv e))) =
      f.domain.map fun e => (e, neg (f.inv e)) := by
    refine List.map_congr_left fun z hz => ?_
    split_ifs with k
    · have : f.inv z = neg z := by rw [← k.1]; exact hf.inj (by rw [hf.right, k.2])
      rw [this, neg_neg']
    · rfl
  have h3 := Perm.map_range_perm (p := f) f.fwd (fun _ _ h => hf.inj h) fun i hi => hf.fwd_lt.2 hi
  have h4 := Perm.map_range_perm (p := f) neg (fun _ _ h => neg_inj'.1 h) fun i hi => (neg_lt' heven i).2 hi
  have e1 : (f.domain.map fun e => (e, neg (f.inv e))).map Prod.fst = (List.range f.size).map f.fwd := by
    rw [List.map_map]
    exact List.map_id'' (fun _ => rfl) _
  have e2 : (f.domain.map fun e => (e, neg (f.inv e))).map Prod.snd = (List.range f.size).map neg := by
    unfold Perm.domain
    rw [List.map_map, List.map_map]
    refine List.map_congr_left fun z _ => ?_
    simp only [Function.comp, hf.left]
  have e3 : (f.domain.map fun e => (e, neg (f.inv e))).length = f.size := by
    unfold Perm.domain
    simp
  obtain ⟨v, a1, a2, a3, a4⟩ := Perm.ofPairs_ok_of_perm (l := f.domain.map fun e => (e, neg (f.inv e)))
    (by rw [e1, e3]; simpa using h3) (by rw [e2, e3]; simpa using h4)
  refine ⟨v, ?_, a2, by rw [a3, e3], fun z hz => ?_⟩
  · unfold verticesOfFaces
    rw [if_neg h1, h2, a1]
  · exact a4 (z, neg (f.inv z)) (List.mem_map.2 ⟨z, (Perm.mem_domain hf z).2 hz, rfl⟩)

theorem make_verticesOfFaces (dbg : Bool) {f v : Perm} (hf : f.WF) (heven : f.size % 2 = 0) (hfix : ∀ z < f.size, f.fwd z ≠ z)
    (htri : ∀ z, f.fwd (f.fwd (f.fwd z)) = z) (hv : v.WF) (hs : v.size = f.size) (h : ∀ z < f.size, v.fwd z = neg (f.inv z)) :
    ∃ vs, mkVertexes v = some vs ∧ make dbg v [] = .ok ⟨v, f, vs⟩ := by
  obtain ⟨T, h1, h2, h3⟩ := make_of_faces dbg (B := []) hv (by rw [hs]; exact heven) f.fwd (by simp) (by simp) fun x hx _ =>
    ⟨by rw [h x (hs ▸ hx), neg_neg', hf.right], htri x, hfix x (hs ▸ hx)⟩
  obtain ⟨-, -, h4⟩ := make_eq h1
  obtain ⟨hc, -⟩ := make_spec hv h1
  refine ⟨T.vertexes, h4, ?_⟩
  rw [h1]
  have hff : T.faces = f := hc.hf.ext hf (by rw [hc.hs, h2, hs]) fun i hi => h3 i (by rw [← h2, ← hc.hs]; exact hi)
  rw [← h2, ← hff]

theorem merged_map {σ : Equiv.Perm ℕ} (hσ : ∀ z, σ (neg z) = neg (σ z)) (x t c u z : HE) :
    merged (σ x) (σ t) (σ c) (σ u) (σ z) = σ (merged x t c u z) := by
  have h1 : ∀ w, first (σ x) (σ t) (σ w) = σ (first x t w) := by
    intro w
    unfold first
    simp only [← hσ, σ.injective.eq_iff]
    split_ifs <;> rfl
  have h2 : ∀ c w, second (σ c) (σ u) (σ w) = σ (second c u w) := by
    intro c w
    unfold second
    simp only [← hσ, σ.injective.eq_iff]
    split_ifs <;> rfl
  unfold merged
  rw [h1, ← h2]
  simp only [← hσ, σ.injective.eq_iff]
  split_ifs <;> rfl

theorem Diamond.map {T T' : Tri} {σ : Equiv.Perm ℕ} (hr : Renamed T T' σ) (hT : T.Coherent) {e x t c u : HE} (d : Diamond T.faces e x t c u) :
    Diamond T'.faces (σ e) (σ x) (σ t) (σ c) (σ u) := by
  have hs : T'.faces.size = T.size := by rw [hr.coh.hs]; exact hr.size
  have hs' : T.faces.size = T.size := hT.hs
  refine ⟨hr.coh.hf, by rw [hr.coh.hs]; exact hr.coh.even, by rw [hs, hr.lt, ← hs']; exact d.lt, ?_, ?_, ?_, ?_, ?_, ?_, ?_, ?_, ?_, ?_, ?_, ?_,
    ?_, ?_, ?_⟩
  · intro z hz
    obtain ⟨z, rfl⟩ := σ.surjective z
    rw [hr.face]
    rw [hs, hr.lt, ← hs'] at hz
    exact fun k => d.fix z hz (σ.injective k)
  · intro z
    obtain ⟨z, rfl⟩ := σ.surjective z
    rw [hr.face, hr.face, hr.face, d.tri]
  · rw [hr.face, d.fe]
  · rw [hr.face, d.fx]
  · rw [hr.face, d.ft]
  · rw [← hr.odd, hr.face, d.fe']
  · rw [hr.face, d.fc]
  · rw [hr.face, d.fu, hr.odd]
  · rw [← hr.odd]; exact fun k => d.ne_x (σ.injective k)
  · rw [← hr.odd]; exact fun k => d.ne_t (σ.injective k)
  · rw [← hr.odd]; exact fun k => d.xt (σ.injective k)
  · rw [← hr.odd]; exact fun k => d.uc (σ.injective k)
  · rw [← hr.odd]; exact fun k => d.tc (σ.injective k)
  · rw [← hr.odd]; exact fun k => d.xu (σ.injective k)
  · rw [← hr.odd, ← hr.odd]; exact fun k => d.torus ⟨σ.injective k.1, σ.injective k.2⟩

theorem Diamond.of {T : Tri} (hT : T.Coherent) {e : HE} (h : Collapsible T e) :
    Diamond T.faces e (T.nextInFace e) (T.previousInFace e) (T.nextInFace (neg e)) (T.previousInFace (neg e)) := by
  have hs : T.faces.size = T.size := hT.hs
  have hlt : e < T.size := by simpa [halfEdges] using h.mem
  have hprev : ∀ z, T.faces.fwd (T.faces.fwd z) = T.faces.inv z := fun z => hT.hf.inj (by rw [hT.tri, hT.hf.right])
  have ha := h.apart
  unfold InFace at ha
  push Not at ha
  refine ⟨hT.hf, by rw [hs]; exact hT.even, by rw [hs]; exact hlt, fun z hz => hasBoundary_false.1 h.closed z (hs ▸ hz), hT.tri, rfl, hprev e,
    hT.hf.right e, rfl, hprev _, hT.hf.right _, ha.2.1, ha.2.2, ?_, ?_, ?_, ?_, ?_⟩
  · exact fun k => h.left (by rw [← k, neg_neg'])
  · exact fun k => h.right k.symm
  · exact fun k => h.source k.symm
  · exact fun k => h.target (by rw [← k, neg_neg'])
  · exact fun k => h.torus ⟨k.1, by rw [← k.2, neg_neg']⟩

theorem Diamond.half {e x u z : HE} : (z / 2 = e / 2 ∨ z / 2 = x / 2 ∨ z / 2 = u / 2) ↔ Gone e x u z := by
  unfold Gone
  simp only [half_eq]
  tauto

theorem dropEdges_eq {T : Tri} (hT : T.Coherent) {e : HE} (h : Collapsible T e) :
    T.dropEdges e = insert (T.previousInFace (neg e) / 2) (insert (T.nextInFace e / 2) {e / 2}) := by
  have d := Diamond.of hT h
  unfold dropEdges
  dsimp only
  rw [if_neg h.left, if_neg, if_neg h.right.symm, neg_half]
  rintro ⟨k1, k2⟩
  exact h.torus ⟨by rw [k1, neg_neg'], by rw [← k2, neg_neg']⟩

theorem glued_merged {T : Tri} {e : HE} (hT : T.Coherent) (z : HE) :
    Glued T e (merged (T.nextInFace e) (T.previousInFace e) (T.nextInFace (neg e)) (T.previousInFace (neg e)) z) z := by
  have h1 : Glued T e (neg (T.nextInFace e)) (T.previousInFace e) := by
    have := Glued.neg (Glued.left (T := T) (e := e))
    rwa [neg_neg'] at this
  have hfirst : ∀ w, Glued T e (first (T.nextInFace e) (T.previousInFace e) w) w := by
    intro w
    unfold first
    split_ifs with k1 k2
    · rw [k1]; exact h1.symm
    · rw [k2]; exact Glued.left.symm
    · exact .refl w
  have h2 : Glued T e (neg (T.previousInFace (neg e))) (if T.nextInFace (neg e) = neg (T.nextInFace e) then T.previousInFace e else T.nextInFace (neg e)) := by
    split_ifs with k
    · refine Glued.right.trans ?_
      rw [k]
      exact h1
    · exact Glued.right
  have h3 : ∀ w, Glued T e (second (if T.nextInFace (neg e) = neg (T.nextInFace e) then T.previousInFace e else T.nextInFace (neg e))
      (T.previousInFace (neg e)) w) w := by
    intro w
    unfold second
    by_cases k1 : w = neg (T.previousInFace (neg e))
    · rw [if_pos k1, k1]; exact h2.symm
    rw [if_neg k1]
    by_cases k2 : w = T.previousInFace (neg e)
    · rw [if_pos k2, k2]
      have := h2.neg
      rw [neg_neg'] at this
      exact this.symm
    · rw [if_neg k2]; exact .refl w
  exact (h3 _).trans (hfirst z)

theorem Diamond.merged_left {f : Perm} {e x t c u : HE} (d : Diamond f e x t c u) : merged x t c u x = merged x t c u (neg t) := by
  have h1 : neg t ≠ neg x := fun k => d.x_t (neg_inj'.1 k).symm
  have h2 : neg t ≠ x := fun k => d.xt (by rw [← k, neg_neg'])
  unfold merged first
  rw [if_neg (neg_ne x).symm, if_pos rfl, if_neg h1, if_neg h2]

theorem Diamond.merged_right {f : Perm} {e x t c u : HE} (d : Diamond f e x t c u) : merged x t c u (neg u) = merged x t c u c := by
  obtain ⟨⟨d1, d2, d3⟩, d4, d5, d6⟩ := d.disjoint
  have ux : neg u ≠ x := fun k => d.xu (by rw [← k, neg_neg'])
  have uqx : neg u ≠ neg x := fun k => d5 (neg_inj'.1 k)
  have kc := d.kept_c
  unfold Gone at kc
  push Not at kc
  have hl : merged x t c u (neg u) = if c = neg x then t else c := by
    unfold merged first second
    rw [if_neg uqx, if_neg ux, if_pos rfl]
  have hr : first x t c = if c = neg x then t else c := by
    unfold first
    rw [if_neg d2]
  rw [hl]
  unfold merged second
  rw [hr, if_neg kc.2.2.2.2.2, if_neg kc.2.2.2.2.1]

theorem merged_of_glued {T : Tri} {e : HE} (hT : T.Coherent) (h : Collapsible T e) {z w : HE} (hg : Glued T e z w) :
    merged (T.nextInFace e) (T.previousInFace e) (T.nextInFace (neg e)) (T.previousInFace (neg e)) z =
      merged (T.nextInFace e) (T.previousInFace e) (T.nextInFace (neg e)) (T.previousInFace (neg e)) w := by
  have d := Diamond.of hT h
  induction hg with
  | left => exact d.merged_left
  | right => exact d.merged_right
  | neg _ ih => rw [merged_neg, merged_neg, ih]
  | refl => rfl
  | symm _ ih => exact ih.symm
  | trans _ _ ih ih' => exact ih.trans ih'

theorem Diamond.merged_lt {f : Perm} {e x t c u : HE} (d : Diamond f e x t c u) {z : HE} (hz : z < f.size) : merged x t c u z < f.size := by
  have h1 : first x t z < f.size := by
    unfold first
    split_ifs
    · exact d.t_lt
    · exact d.neg_lt.2 d.t_lt
    · exact hz
  unfold merged second
  split_ifs
  · exact d.t_lt
  · exact d.c_lt
  · exact d.neg_lt.2 d.t_lt
  · exact d.neg_lt.2 d.c_lt
  · exact h1

theorem collapse_spec (dbg : Bool) {T : Tri} (hT : T.Coherent) {e : HE} (h : Collapsible T e) :
    ∃ T' ψ, collapse dbg T e = .ok (T', ψ (neg (T.previousInFace e)), ψ (T.nextInFace (neg e))) ∧ Collapses T e T' ψ ∧ T'.Reachable dbg ∧
      T'.size + 6 = T.size ∧ T'.hasBoundary = false := by
  have d := Diamond.of hT h
  have hs : T.faces.size = T.size := hT.hs
  have heven : 2 * (T.size / 2) = T.size := by have := hT.even; unfold size; omega
  have hD := dropEdges_eq hT h
  have hmemD : ∀ z, z / 2 ∈ T.dropEdges e ↔ Diamond.Gone e (T.nextInFace e) (T.previousInFace (neg e)) z := by
    intro z
    rw [hD, ← Diamond.half]
    simp only [Finset.mem_insert, Finset.mem_singleton]
    tauto
  have hcard : (T.dropEdges e).card = 3 := by
    obtain ⟨⟨d1, d2, d3⟩, d4, d5, d6⟩ := d.disjoint
    rw [hD, Finset.card_insert_of_notMem, Finset.card_insert_of_notMem, Finset.card_singleton]
    · rw [Finset.mem_singleton, half_eq]
      rintro (k | k)
      · exact d.ex k.symm
      · exact d.ne_x k.symm
    · rw [Finset.mem_insert, Finset.mem_singleton, half_eq, half_eq]
      rintro ((k | k) | k | k)
      · exact d5 k
      · exact d.xu k.symm
      · exact d4 k
      · exact d.ue' k
  obtain ⟨r, σ, r1, r2, r3, r4, r5, r6, -, -⟩ := renameDropped_spec hT.linked (e := e) ((hmemD e).2 (.inl rfl)) (by
    rw [hD]
    have l1 := d.lt
    have l2 := d.x_lt
    have l3 := d.u_lt
    rw [hs] at l1 l2 l3
    intro m hm
    simp only [Finset.mem_insert, Finset.mem_singleton] at hm
    clear * - hm l1 l2 l3 heven
    omega)
  rw [hcard] at r5 r6
  have dm := d.map r2 hT
  set x := T.nextInFace e
  set t := T.previousInFace e
  set c := T.nextInFace (neg e)
  set u := T.previousInFace (neg e)
  have hs1 : r.tri.faces.size = T.size := by rw [r2.coh.hs]; exact r2.size
  obtain ⟨g, H, c1, c2, c3, c4, c5, c6⟩ := dm.close
  rw [hs1] at c4
  have hgone : ∀ w, Diamond.Gone (σ e) (σ x) (σ u) w ↔ T.size - 6 ≤ w ∧ w < T.size := by
    intro w
    obtain ⟨w, rfl⟩ := σ.surjective w
    have k1 := (hmemD w).symm.trans (r4 w).symm
    have k2 : Diamond.Gone (σ e) (σ x) (σ u) (σ w) ↔ Diamond.Gone e x u w := by
      unfold Diamond.Gone
      simp only [← r2.odd, σ.injective.eq_iff]
    rw [k2, k1, r5, Finset.mem_Ico]
    clear * - heven
    omega
  -- dropping
  have hitems : ∀ z, z ∈ ((sorted (T.size / 2) r.drop).flatMap fun d => [2 * d, 2 * d + 1]) ↔ T.size - 6 ≤ z ∧ z < T.size := by
    intro z
    simp only [List.mem_flatMap, mem_sorted, List.mem_cons, List.not_mem_nil, or_false]
    rw [r5]
    constructor
    · rintro ⟨m, ⟨-, hm⟩, k⟩
      rw [Finset.mem_Ico] at hm
      clear * - hm k heven
      omega
    · rintro ⟨k1, k2⟩
      refine ⟨z / 2, ?_, ?_⟩
      · rw [Finset.mem_Ico]
        clear * - k1 k2 heven
        omega
      · clear * - k1
        omega
  have hlen : ((sorted (T.size / 2) r.drop).flatMap fun d => [2 * d, 2 * d + 1]).length = 6 := by
    rw [List.length_flatMap]
    have : r.drop.card = 3 := by rw [r5, Nat.card_Ico]; clear * - r6; omega
    simp [sorted_length (fun m hm => by rw [r5, Finset.mem_Ico] at hm; exact hm.2 : ∀ m ∈ r.drop, m < T.size / 2), this]
  set items := (sorted (T.size / 2) r.drop).flatMap fun d => [2 * d, 2 * d + 1]
  have hsize6 : 6 ≤ T.size := by clear * - r6 heven; omega
  have hdrop : ∃ f', H.drop items = .ok f' := by
    unfold Perm.drop
    rw [if_neg, if_neg, if_neg]
    · exact ⟨_, rfl⟩
    · rintro ⟨i, k1, k2⟩
      have := (hitems i).1 k1
      rw [hlen, c4] at k2
      omega
    · rintro ⟨i, k1, k2⟩
      exact k2 ((hitems _).2 ((hgone _).1 (c5 i ((hgone i).2 ((hitems i).1 k1)))))
    · rintro ⟨i, k1, k2⟩
      have := (hitems i).1 k1
      rw [c4] at k2
      omega
  obtain ⟨f', hf'⟩ := hdrop
  have hnodup : items.Nodup := by
    rw [List.nodup_flatMap]
    refine ⟨fun m _ => by simp, ?_⟩
    refine (sorted_nodup (T.size / 2) r.drop).imp ?_
    intro a b hab
    simp only [Function.onFun, List.disjoint_cons_left, List.mem_cons, List.not_mem_nil, or_false, List.disjoint_nil_left, and_true]
    omega
  obtain ⟨f1, f2, -, f4⟩ := Perm.drop_spec c3 hnodup hf'
  rw [hlen, c4] at f2
  have hf4 : ∀ w, w < f'.size → f'.fwd w = H.fwd w := f4
  -- the faces
  have hkept : ∀ w, w < f'.size ↔ w < T.size ∧ ¬ Diamond.Gone (σ e) (σ x) (σ u) w := by
    intro w
    rw [hgone]
    omega
  have hrep : ∀ w < f'.size, ∃ z < T.size, Diamond.Out (σ e) (σ x) (σ t) (σ c) (σ u) z ∧ merged (σ x) (σ t) (σ c) (σ u) z = w := by
    intro w hw
    have := dm.out_of_kept ((hkept w).1 hw).2 (by rw [hs1]; exact ((hkept w).1 hw).1)
    rwa [hs1] at this
  have hstep : ∀ z, z < T.size → Diamond.Out (σ e) (σ x) (σ t) (σ c) (σ u) z →
      f'.fwd (merged (σ x) (σ t) (σ c) (σ u) z) = merged (σ x) (σ t) (σ c) (σ u) (r.tri.faces.fwd z) := by
    intro z hz ho
    rw [hf4, c6 z ho]
    rw [hkept]
    exact ⟨by have := dm.merged_lt (z := z) (by rw [hs1]; exact hz); rwa [hs1] at this, dm.kept ho.1 ho.2.2.2.1⟩
  have hlt1 : ∀ z, z < T.size → r.tri.faces.fwd z < T.size := fun z hz => by
    have := dm.hf.fwd_lt.2 (by rw [hs1]; exact hz : z < r.tri.faces.size)
    rwa [hs1] at this
  have hfix : ∀ w < f'.size, f'.fwd w ≠ w := by
    intro w hw
    obtain ⟨z, z1, z2, rfl⟩ := hrep w hw
    rw [hstep z z1 z2]
    intro k
    exact dm.fix z (by rw [hs1]; exact z1) (dm.merged_inj (dm.out_fwd z2) z2 k)
  have htri : ∀ w, f'.fwd (f'.fwd (f'.fwd w)) = w := by
    intro w
    by_cases hw : w < f'.size
    · obtain ⟨z, z1, z2, rfl⟩ := hrep w hw
      rw [hstep z z1 z2, hstep _ (hlt1 _ z1) (dm.out_fwd z2), hstep _ (hlt1 _ (hlt1 _ z1)) (dm.out_fwd (dm.out_fwd z2)), dm.tri]
    · have : f'.fwd w = w := f1.out w (by omega)
      rw [this, this, this]
  have heven' : f'.size % 2 = 0 := by clear * - f2 heven; omega
  obtain ⟨v, v1, v2, v3, v4⟩ := verticesOfFaces_spec f1 heven' hfix
  obtain ⟨vs, w1, w2⟩ := make_verticesOfFaces dbg f1 heven' hfix htri v2 v3 v4
  have hc1 : r.tri.nextInFace (neg r.e) = σ c := by rw [r3]; exact dm.fe'
  have hp1 : r.tri.previousInFace r.e = σ t := by
    rw [r3]
    exact dm.hf.inj (by rw [dm.ft]; exact dm.hf.right _)
  have hsize' : v.size + 6 = T.size := by rw [v3]; exact f2
  refine ⟨⟨v, f', vs⟩, fun z => σ (merged x t c u z), ?_, ⟨?_, ?_, ?_, ?_, ?_⟩, ofMake v2 w2, hsize', ?_⟩
  · have b1 : ¬ (T.size ≤ e ∨ T.size ≤ neg e) := by
      have l1 := d.lt
      have l2 := d.neg_lt.2 d.lt
      rw [hs] at l1 l2
      clear * - l1 l2
      omega
    have b2 : ¬ (T.boundary e = true ∨ T.boundary (neg e) = true) := by
      unfold boundary
      simp only [beq_iff_eq]
      rintro (k | k)
      · exact d.fix _ d.lt k
      · exact d.fix _ (d.neg_lt.2 d.lt) k
    have b3 : ¬ (T.nextInFace (T.nextInFace (T.nextInFace e)) ≠ e ∨ T.nextInFace (T.nextInFace (T.nextInFace (neg e))) ≠ neg e) := by
      rintro (k | k)
      · exact k (hT.tri e)
      · exact k (hT.tri (neg e))
    have hdropmem : ∀ z, σ z / 2 ∈ r.drop ↔ Diamond.Gone e x u z := fun z => (r4 z).trans (hmemD z)
    obtain ⟨⟨d1, d2, d3⟩, d4, d5, d6⟩ := d.disjoint
    have gt : Diamond.Gone e x u (neg t) ↔ t = neg u := by
      rw [Diamond.gone_neg]
      unfold Diamond.Gone
      have := d.te
      have := d.ne_t.symm
      have := d.x_t.symm
      have := d.xt.symm
      have := d6.symm
      tauto
    have gc : Diamond.Gone e x u c ↔ c = neg x := by
      unfold Diamond.Gone
      have := d.e'c.symm
      have := d.cu
      have := d.uc.symm
      tauto
    have hux : u ≠ neg x := d.xu.symm
    unfold collapse
    rw [if_neg b1, if_neg b2, if_neg b3]
    simp only [bind, Except.bind, r1, hc1, hp1]
    rw [r3]
    have hf'' : H.drop ((sorted (T.size / 2) r.drop).flatMap fun d => [2 * d, 2 * d + 1]) = .ok f' := hf'
    simp only [c1, c2, hf'', v1, w1]
    rw [← r2.odd]
    simp only [hdropmem, gt, gc]
    by_cases k1 : t = neg u
    · have k2 : c ≠ neg x := fun k => d.torus ⟨k, k1.symm⟩
      have m1 : merged x t c u (neg t) = neg c := by
        rw [k1, neg_neg']
        unfold merged first second
        rw [if_neg hux, if_neg d5, if_neg (neg_ne u).symm, if_pos rfl, if_neg k2]
      rw [if_pos k1, if_neg (fun k => k2 k.2), m1, Diamond.merged_kept (e := e) (fun k => k2 (gc.1 k)), r2.odd]
    · rw [if_neg k1]
      have m1 : merged x t c u (neg t) = neg t := Diamond.merged_kept (e := e) (fun k => k1 (gt.1 k))
      rw [m1]
      by_cases k2 : c = neg x
      · have m2 : merged x t c u c = t := by
          unfold merged first second
          rw [if_pos k2, if_pos k2, if_neg k1, if_neg d6.symm]
        rw [if_pos k2, m2, r2.odd, neg_neg']
      · rw [if_neg k2, Diamond.merged_kept (e := e) (fun k => k2 (gc.1 k))]
  · intro h'
    unfold halfEdges
    simp only [List.mem_range]
    show h' < v.size ↔ _
    rw [v3, hkept]
    have k2 : ∀ w, Diamond.Gone (σ e) (σ x) (σ u) (σ w) ↔ Diamond.Gone e x u w := by
      intro w
      unfold Diamond.Gone
      simp only [← r2.odd, σ.injective.eq_iff]
    constructor
    · obtain ⟨w, rfl⟩ := σ.surjective h'
      rintro ⟨l1, l2⟩
      rw [k2] at l2
      refine ⟨w, (r2.lt w).1 l1, fun k => l2 (.inl k), fun k => l2 (.inr (.inl k)), ?_⟩
      rw [Diamond.merged_kept l2]
    · rintro ⟨w, l1, l2, l3, rfl⟩
      rw [k2, r2.lt]
      exact ⟨by have := d.merged_lt (z := w) (by rw [hs]; exact l1); rwa [hs] at this, d.kept l2 l3⟩
  · intro z _
    rw [merged_neg, r2.odd]
  · intro z _ w _
    rw [σ.injective.eq_iff]
    constructor
    · intro k
      have := (glued_merged (e := e) hT z).symm
      rw [show merged (T.nextInFace e) (T.previousInFace e) (T.nextInFace (neg e)) (T.previousInFace (neg e)) z =
        merged (T.nextInFace e) (T.previousInFace e) (T.nextInFace (neg e)) (T.previousInFace (neg e)) w from k] at this
      exact this.trans (glued_merged hT w)
    · exact merged_of_glued hT h
  · intro z hz k1 k2
    have hz : z < T.size := by simpa [halfEdges] using hz
    unfold InFace at k1 k2
    push Not at k1 k2
    show f'.fwd _ = _
    rw [← merged_map r2.odd, hstep (σ z) ((r2.lt z).2 hz), r2.face, merged_map r2.odd]
    · rfl
    · refine ⟨?_, ?_, ?_, ?_, ?_, ?_⟩
      · exact fun k => k1.1 (σ.injective k)
      · exact fun k => k1.2.1 (σ.injective k)
      · exact fun k => k1.2.2 (σ.injective k)
      · rw [← r2.odd]; exact fun k => k2.1 (σ.injective k)
      · exact fun k => k2.2.1 (σ.injective k)
      · exact fun k => k2.2.2 (σ.injective k)
  · intro w hw
    have hw : w < f'.size := by rw [← v3]; simpa [halfEdges] using hw
    obtain ⟨z, z1, z2, rfl⟩ := hrep w hw
    obtain ⟨z, rfl⟩ := σ.surjective z
    obtain ⟨o1, o2, o3, o4, o5, o6⟩ := z2
    refine ⟨z, by simpa [halfEdges] using (r2.lt z).1 z1, ?_, ?_, (merged_map r2.odd _ _ _ _ z).symm⟩
    · rintro (k | k | k)
      · exact o1 (by rw [k])
      · exact o2 (by rw [k])
      · exact o3 (by rw [k])
    · rintro (k | k | k)
      · exact o4 (by rw [k, r2.odd])
      · exact o5 (by rw [k])
      · exact o6 (by rw [k])
  · rw [hasBoundary_false]
    intro w hw
    exact hfix w (by rw [← v3]; exact hw)

end Verif.Tri
