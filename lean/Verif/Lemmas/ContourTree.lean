import Verif.Lemmas.HalfEdge
import Mathlib.Algebra.Order.Ring.Defs
import Mathlib.Data.Finset.Card
import Mathlib.Logic.Relation
import Mathlib.Tactic.Linarith
import Mathlib.Tactic.LinearCombination
import Mathlib.Tactic.Tauto

/-!
# Trees of half edges below a contour

The combinatorics of contours depends only on the horizontal components `p` of half edges. Faces are triangles or they have
been collapsed to an edge.
-/

set_option linter.unusedSectionVars false

namespace Verif

open Relation

variable {T : Type} [CommRing T] [LinearOrder T] [IsStrictOrderedRing T]

namespace Flow

/-- Half edges below `n`, `nx` and `pv` turn around faces, `p` is the horizontal component of a half edge. -/
structure OK (n : ℕ) (nx pv : HE → HE) (p : HE → T) : Prop where
  neg_lt : ∀ e < n, neg e < n
  nx_lt : ∀ e < n, nx e < n
  pv_lt : ∀ e < n, pv e < n
  nx_pv : ∀ e < n, nx (pv e) = e
  pv_nx : ∀ e < n, pv (nx e) = e
  odd : ∀ e < n, p (neg e) = -p e
  ne : ∀ e < n, p e ≠ 0
  face : ∀ e < n, nx e = neg e ∧ nx (neg e) = e ∨ nx (nx e) = pv e ∧ p e + p (nx e) + p (pv e) = 0

variable {n : ℕ} {nx pv : HE → HE} {p : HE → T}

theorem OK.reverse (h : OK n nx pv p) : OK n nx pv (fun e => -p e) where
  neg_lt := h.neg_lt
  nx_lt := h.nx_lt
  pv_lt := h.pv_lt
  nx_pv := h.nx_pv
  pv_nx := h.pv_nx
  odd e he := by rw [h.odd e he]
  ne e he := neg_ne_zero.2 (h.ne e he)
  face e he := (h.face e he).imp id fun ⟨h1, h2⟩ => ⟨h1, by linear_combination -h2⟩

/-- The flow enters the face of `e` through `e` only. -/
def Up (nx pv : HE → HE) (p : HE → T) (e : HE) : Prop := 0 < p e ∧ nx e ≠ pv e ∧ p (nx e) < 0 ∧ p (pv e) < 0

/-- When the flow enters a face through `y`, then it leaves the face through `x`. -/
def Child (nx pv : HE → HE) (p : HE → T) (y x : HE) : Prop := y < n ∧ Up nx pv p y ∧ (x = neg (pv y) ∨ x = neg (nx y))

/-- What is above `e`: the half edges through which the flow enters the faces on the way, and where it stops. -/
inductive Tree (nx pv : HE → HE) (p : HE → T) : HE → List HE → List HE → Prop
  | leaf {e} : ¬ Up nx pv p e → Tree nx pv p e [] [e]
  | node {e m m' l l'} : Up nx pv p e → Tree nx pv p (neg (pv e)) m l → Tree nx pv p (neg (nx e)) m' l' →
      Tree nx pv p e (e :: (m ++ m')) (l ++ l')

namespace OK

variable (h : OK n nx pv p)

include h

theorem pv_neg {e : HE} (he : e < n) (hi : nx (neg e) = e) : pv e = neg e := by
  rw [← hi, h.pv_nx _ (h.neg_lt e he), hi]

theorem pos_neg {e : HE} (he : e < n) : 0 < p (neg e) ↔ p e < 0 := by rw [h.odd e he]; simp

theorem neg_neg {e : HE} (he : e < n) : p (neg e) < 0 ↔ 0 < p e := by rw [h.odd e he]; simp

/-- A face whose next and previous half edges are the same has been collapsed. -/
theorem flat_iff {e : HE} (he : e < n) : nx e = pv e ↔ nx e = neg e := by
  constructor
  · intro hx
    rcases h.face e he with ⟨h1, -⟩ | ⟨h1, h2⟩
    · exact h1
    · exfalso
      have e1 : nx (nx e) = e := by rw [hx, h.nx_pv e he]
      rw [e1] at h1
      rw [← h1] at hx h2
      rw [hx] at h2
      exact h.ne e he (by linarith)
  · intro hx
    rcases h.face e he with ⟨h1, h2⟩ | ⟨h1, h2⟩
    · rw [h1, h.pv_neg he h2]
    · exfalso
      rw [hx, h.odd e he] at h2
      exact h.ne _ (h.pv_lt e he) (by linarith)

theorem tri {e : HE} (he : e < n) (hi : nx e ≠ neg e) : nx (nx e) = pv e ∧ p e + p (nx e) + p (pv e) = 0 :=
  (h.face e he).resolve_left fun h1 => hi h1.1

theorem nx_nf {e : HE} (he : e < n) (hi : nx e ≠ neg e) : nx (nx e) ≠ neg (nx e) := by
  intro h2
  obtain ⟨h1, h3⟩ := h.tri he hi
  rw [← h1, h2, h.odd _ (h.nx_lt e he)] at h3
  exact h.ne e he (by linarith)

theorem pv_nf {e : HE} (he : e < n) (hi : nx e ≠ neg e) : nx (pv e) ≠ neg (pv e) := by
  intro h2
  obtain ⟨h1, h3⟩ := h.tri he hi
  rw [h.nx_pv e he] at h2
  have h4 : p e = -p (pv e) := by rw [← h.odd _ (h.pv_lt e he), ← h2]
  exact h.ne _ (h.nx_lt e he) (by linarith)

theorem pv_pv {e : HE} (he : e < n) (hi : nx e ≠ neg e) : pv (pv e) = nx e := by
  rw [← (h.tri he hi).1, h.pv_nx _ (h.nx_lt e he)]

theorem up_nf {e : HE} (he : e < n) (hu : Up nx pv p e) : nx e ≠ neg e := fun hx => hu.2.1 ((h.flat_iff he).2 hx)

theorem child_lt {y x : HE} (hc : Child (n := n) nx pv p y x) : x < n := by
  obtain ⟨hy, -, rfl | rfl⟩ := hc
  · exact h.neg_lt _ (h.pv_lt y hy)
  · exact h.neg_lt _ (h.nx_lt y hy)

theorem child_pos {y x : HE} (hc : Child (n := n) nx pv p y x) : 0 < p x := by
  obtain ⟨hy, hu, rfl | rfl⟩ := hc
  · exact (h.pos_neg (h.pv_lt y hy)).2 hu.2.2.2
  · exact (h.pos_neg (h.nx_lt y hy)).2 hu.2.2.1

theorem child_small {y x : HE} (hc : Child (n := n) nx pv p y x) : p x < p y := by
  obtain ⟨hy, hu, hx⟩ := hc
  have h1 := (h.tri hy (h.up_nf hy hu)).2
  have h2 := hu.2.2
  rcases hx with rfl | rfl
  · rw [h.odd _ (h.pv_lt y hy)]; linarith
  · rw [h.odd _ (h.nx_lt y hy)]; linarith

/-- The flow enters a face through the right face of a child. -/
theorem child_unique {y y' x : HE} (hc : Child (n := n) nx pv p y x) (hc' : Child (n := n) nx pv p y' x) : y = y' := by
  have key : ∀ a b, Child (n := n) nx pv p a x → Child (n := n) nx pv p b x → x = neg (pv a) → x = neg (nx b) → False := by
    intro a b ha hb e1 e2
    have e3 : pv a = nx b := neg_inj'.1 (e1.symm.trans e2)
    have f1 := h.tri ha.1 (h.up_nf ha.1 ha.2.1)
    have f2 := h.tri hb.1 (h.up_nf hb.1 hb.2.1)
    have e4 : a = pv b := by rw [← f2.1, ← e3, h.nx_pv a ha.1]
    have h1 := ha.2.1.1
    rw [e4] at h1
    exact absurd h1 (not_lt.2 hb.2.1.2.2.2.le)
  rcases hc.2.2 with h1 | h1 <;> rcases hc'.2.2 with h2 | h2
  · have := neg_inj'.1 (h1.symm.trans h2)
    rw [← h.nx_pv y hc.1, this, h.nx_pv y' hc'.1]
  · exact (key _ _ hc hc' h1 h2).elim
  · exact (key _ _ hc' hc h2 h1).elim
  · have := neg_inj'.1 (h1.symm.trans h2)
    rw [← h.pv_nx y hc.1, this, h.pv_nx y' hc'.1]

theorem desc_le {y x : HE} (hc : ReflTransGen (Child (n := n) nx pv p) y x) : p x ≤ p y := by
  induction hc with
  | refl => exact le_rfl
  | tail _ hs ih => exact (h.child_small hs).le.trans ih

theorem desc_lt {y x : HE} (hy : y < n) (hc : ReflTransGen (Child (n := n) nx pv p) y x) : x < n := by
  induction hc with
  | refl => exact hy
  | tail _ hs _ => exact h.child_lt hs

theorem desc_pos {y x : HE} (hy : 0 < p y) (hc : ReflTransGen (Child (n := n) nx pv p) y x) : 0 < p x := by
  induction hc with
  | refl => exact hy
  | tail _ hs _ => exact h.child_pos hs

theorem desc_total {a b x : HE} (ha : ReflTransGen (Child (n := n) nx pv p) a x)
    (hb : ReflTransGen (Child (n := n) nx pv p) b x) :
    ReflTransGen (Child (n := n) nx pv p) a b ∨ ReflTransGen (Child (n := n) nx pv p) b a := by
  have hu : Relator.RightUnique (Function.swap (Child (n := n) nx pv p)) := fun _ _ _ h1 h2 => h.child_unique h1 h2
  rcases ReflTransGen.total_of_right_unique hu (reflTransGen_swap.2 ha) (reflTransGen_swap.2 hb) with h1 | h1
  · exact .inr (reflTransGen_swap.1 h1)
  · exact .inl (reflTransGen_swap.1 h1)

/-- Where the flow enters. -/
theorem desc_parent {a b y : HE} (hb : Child (n := n) nx pv p y b) (hr : ReflTransGen (Child (n := n) nx pv p) a b) :
    a = b ∨ ReflTransGen (Child (n := n) nx pv p) a y := by
  rcases ReflTransGen.cases_tail hr with h1 | ⟨c, h1, h2⟩
  · exact .inl h1.symm
  · rw [h.child_unique hb h2]
    exact .inr h1

/-! ### Contours -/

theorem exists_tree (e : HE) (he : e < n) (hp : 0 < p e) : ∃ m l, Tree nx pv p e m l := by
  induction hk : ((Finset.range n).filter fun x => p x < p e).card using Nat.strong_induction_on generalizing e with
  | _ k ih =>
    by_cases hu : Up nx pv p e
    · have key : ∀ x, Child (n := n) nx pv p e x → ∃ m l, Tree nx pv p x m l := by
        intro x hx
        refine ih _ ?_ x (h.child_lt hx) (h.child_pos hx) rfl
        rw [← hk]
        refine Finset.card_lt_card ⟨fun y hy => ?_, fun hs => ?_⟩
        · rw [Finset.mem_filter] at hy ⊢
          exact ⟨hy.1, hy.2.trans (h.child_small hx)⟩
        · have := hs (Finset.mem_filter.2 ⟨Finset.mem_range.2 (h.child_lt hx), h.child_small hx⟩)
          exact absurd (Finset.mem_filter.1 this).2 (lt_irrefl _)
      obtain ⟨m, l, h1⟩ := key _ ⟨he, hu, .inl rfl⟩
      obtain ⟨m', l', h2⟩ := key _ ⟨he, hu, .inr rfl⟩
      exact ⟨_, _, .node hu h1 h2⟩
    · exact ⟨_, _, .leaf hu⟩

theorem mem_tree {e : HE} {m l : List HE} (hc : Tree nx pv p e m l) (he : e < n) (x : HE) :
    (x ∈ m ↔ ReflTransGen (Child (n := n) nx pv p) e x ∧ Up nx pv p x) ∧
    (x ∈ l ↔ ReflTransGen (Child (n := n) nx pv p) e x ∧ ¬ Up nx pv p x) := by
  induction hc with
  | @leaf e hu =>
    have key : ReflTransGen (Child (n := n) nx pv p) e x ↔ x = e := by
      constructor
      · intro hr
        rcases ReflTransGen.cases_head hr with h1 | ⟨c, h1, -⟩
        · exact h1.symm
        · exact absurd h1.2.1 hu
      · rintro rfl; exact .refl
    rw [key]
    constructor
    · simp only [List.not_mem_nil, false_iff, not_and]
      rintro rfl; exact hu
    · simp only [List.mem_singleton]
      exact ⟨fun hx => ⟨hx, by rw [hx]; exact hu⟩, fun hx => hx.1⟩
  | @node e m m' l l' hu _ _ ih ih' =>
    have i1 := ih (h.neg_lt _ (h.pv_lt e he))
    have i2 := ih' (h.neg_lt _ (h.nx_lt e he))
    have key : ReflTransGen (Child (n := n) nx pv p) e x ↔ x = e ∨ ReflTransGen (Child (n := n) nx pv p) (neg (pv e)) x ∨
        ReflTransGen (Child (n := n) nx pv p) (neg (nx e)) x := by
      constructor
      · intro hr
        rcases ReflTransGen.cases_head hr with h1 | ⟨c, h1, h2⟩
        · exact .inl h1.symm
        · rcases h1.2.2 with rfl | rfl
          · exact .inr (.inl h2)
          · exact .inr (.inr h2)
      · rintro (rfl | h1 | h1)
        · exact .refl
        · exact .head ⟨he, hu, .inl rfl⟩ h1
        · exact .head ⟨he, hu, .inr rfl⟩ h1
    rw [key, List.mem_cons, List.mem_append, List.mem_append, i1.1, i1.2, i2.1, i2.2]
    constructor
    · constructor
      · rintro (rfl | h1 | h1)
        · exact ⟨.inl rfl, hu⟩
        · exact ⟨.inr (.inl h1.1), h1.2⟩
        · exact ⟨.inr (.inr h1.1), h1.2⟩
      · rintro ⟨h1 | h1 | h1, h2⟩
        · exact .inl h1
        · exact .inr (.inl ⟨h1, h2⟩)
        · exact .inr (.inr ⟨h1, h2⟩)
    · constructor
      · rintro (h1 | h1)
        · exact ⟨.inr (.inl h1.1), h1.2⟩
        · exact ⟨.inr (.inr h1.1), h1.2⟩
      · rintro ⟨h1 | h1 | h1, h2⟩
        · exact absurd hu (h1 ▸ h2)
        · exact .inl ⟨h1, h2⟩
        · exact .inr ⟨h1, h2⟩

theorem siblings {e x : HE} (he : e < n) (hu : Up nx pv p e) (h1 : ReflTransGen (Child (n := n) nx pv p) (neg (pv e)) x)
    (h2 : ReflTransGen (Child (n := n) nx pv p) (neg (nx e)) x) : False := by
  have c1 : Child (n := n) nx pv p e (neg (pv e)) := ⟨he, hu, .inl rfl⟩
  have c2 : Child (n := n) nx pv p e (neg (nx e)) := ⟨he, hu, .inr rfl⟩
  rcases h.desc_total h1 h2 with h3 | h3
  · rcases h.desc_parent c2 h3 with h4 | h4
    · exact hu.2.1 (neg_inj'.1 h4).symm
    · exact absurd (h.desc_le h4) (not_le.2 (h.child_small c1))
  · rcases h.desc_parent c1 h3 with h4 | h4
    · exact hu.2.1 (neg_inj'.1 h4)
    · exact absurd (h.desc_le h4) (not_le.2 (h.child_small c2))

theorem nodup_tree {e : HE} {m l : List HE} (hc : Tree nx pv p e m l) (he : e < n) : m.Nodup ∧ l.Nodup := by
  induction hc with
  | leaf _ => exact ⟨List.nodup_nil, List.nodup_singleton _⟩
  | @node e m m' l l' hu hm hm' ih ih' =>
    have l1 := h.neg_lt _ (h.pv_lt e he)
    have l2 := h.neg_lt _ (h.nx_lt e he)
    have i1 := ih l1
    have i2 := ih' l2
    refine ⟨List.nodup_cons.2 ⟨fun hx => ?_, ?_⟩, ?_⟩
    · rcases List.mem_append.1 hx with h1 | h1
      · have h2 := ((h.mem_tree hm l1 e).1.1 h1).1
        exact absurd (h.desc_le h2) (not_le.2 (h.child_small ⟨he, hu, .inl rfl⟩))
      · have h2 := ((h.mem_tree hm' l2 e).1.1 h1).1
        exact absurd (h.desc_le h2) (not_le.2 (h.child_small ⟨he, hu, .inr rfl⟩))
    · exact List.Nodup.append i1.1 i2.1 fun x h1 h2 =>
        h.siblings he hu ((h.mem_tree hm l1 x).1.1 h1).1 ((h.mem_tree hm' l2 x).1.1 h2).1
    · exact List.Nodup.append i1.2 i2.2 fun x h1 h2 =>
        h.siblings he hu ((h.mem_tree hm l1 x).2.1 h1).1 ((h.mem_tree hm' l2 x).2.1 h2).1

/-! ### Roots -/

/-- A half edge is above the half edge through which the flow enters the face to its right; unless the flow leaves that face
through it only, or the face has been collapsed. -/
theorem parent {e : HE} (he : e < n) (hp : 0 < p e) :
    (∃ y, Child (n := n) nx pv p y e) ∨ Up nx pv (fun x => -p x) (neg e) ∨ nx e = neg e := by
  have hn := h.neg_lt e he
  have hp' := (h.neg_neg he).2 hp
  rcases h.face (neg e) hn with ⟨-, h1⟩ | ⟨h1, h2⟩
  · rw [neg_neg'] at h1
    exact .inr (.inr h1)
  by_cases hi : nx (neg e) = pv (neg e)
  · have h3 := (h.flat_iff hn).1 hi
    rw [neg_neg'] at h3
    rcases h.face (neg e) hn with ⟨-, h1⟩ | ⟨h1, h2⟩
    · rw [neg_neg'] at h1
      exact .inr (.inr h1)
    · exfalso
      rw [h3, h.odd e he] at h2
      exact h.ne _ (h.pv_lt _ hn) (by linarith)
  have hi' : nx (neg e) ≠ neg (neg e) := fun hx => hi ((h.flat_iff hn).2 hx)
  have l1 := h.nx_lt _ hn
  have l2 := h.pv_lt _ hn
  have b1 : nx (nx (neg e)) ≠ pv (nx (neg e)) := fun hx => h.nx_nf hn hi' ((h.flat_iff l1).1 hx)
  have b2 : nx (pv (neg e)) ≠ pv (pv (neg e)) := fun hx => h.pv_nf hn hi' ((h.flat_iff l2).1 hx)
  rcases lt_or_gt_of_ne (h.ne _ l1) with ha | ha <;> rcases lt_or_gt_of_ne (h.ne _ l2) with hb | hb
  · linarith
  · left
    refine ⟨pv (neg e), l2, ⟨hb, b2, ?_, ?_⟩, .inr ?_⟩
    · rw [h.nx_pv _ hn]; exact hp'
    · rw [h.pv_pv hn hi']; exact ha
    · rw [h.nx_pv _ hn, neg_neg']
  · left
    refine ⟨nx (neg e), l1, ⟨ha, b1, ?_, ?_⟩, .inl ?_⟩
    · rw [h1]; exact hb
    · rw [h.pv_nx _ hn]; exact hp'
    · rw [h.pv_nx _ hn, neg_neg']
  · exact .inr (.inl ⟨by linarith, hi, by linarith, by linarith⟩)

/-- The half edges which are not above anything. -/
theorem not_child {e : HE} (he : e < n) (hr : Up nx pv (fun x => -p x) (neg e) ∨ nx e = neg e) (y : HE) :
    ¬ Child (n := n) nx pv p y e := by
  rintro ⟨hy, hu, hx⟩
  have f := h.tri hy (h.up_nf hy hu)
  rcases hr with hr | hr
  · obtain ⟨-, -, r1, r2⟩ := hr
    rcases hx with rfl | rfl
    · rw [neg_neg'] at r1 r2
      rw [h.nx_pv y hy] at r1
      rw [h.pv_pv hy (h.up_nf hy hu)] at r2
      have := hu.2.2.1
      linarith
    · rw [neg_neg'] at r1 r2
      rw [f.1] at r1
      have := hu.2.2.2
      linarith
  · have hr' : pv e = neg e := (h.flat_iff he).2 hr ▸ hr
    have hr2 : nx (neg e) = e := by rw [← hr', h.nx_pv e he]
    rcases hx with rfl | rfl
    · rw [neg_neg', h.nx_pv y hy] at hr2
      have := hu.2.2.2
      have h3 := (h.pos_neg (h.pv_lt y hy)).2 this
      have h4 : p y = -p (pv y) := by rw [← h.odd _ (h.pv_lt y hy), ← hr2]
      have := h.ne _ (h.nx_lt y hy)
      exact this (by linarith [f.2])
    · rw [neg_neg', f.1] at hr2
      have h4 : p (pv y) = -p (nx y) := by rw [hr2, h.odd _ (h.nx_lt y hy)]
      exact h.ne _ hy (by linarith [f.2])

/-- Roots of trees. -/
def _root_.Verif.Flow.Root (n : ℕ) (nx pv : HE → HE) (p : HE → T) (e : HE) : Prop :=
  e < n ∧ 0 < p e ∧ (Up nx pv (fun x => -p x) (neg e) ∨ nx e = neg e)

omit h in
theorem exists_root (h : OK n nx pv p) (e : HE) (he : e < n) (hp : 0 < p e) :
    ∃ r, Root n nx pv p r ∧ ReflTransGen (Child (n := n) nx pv p) r e := by
  induction hk : ((Finset.range n).filter fun x => p e < p x).card using Nat.strong_induction_on generalizing e with
  | _ k ih =>
    rcases h.parent he hp with ⟨y, hy⟩ | hr
    · obtain ⟨r, h1, h2⟩ := ih _ (by
        rw [← hk]
        refine Finset.card_lt_card ⟨fun x hx => ?_, fun hs => ?_⟩
        · rw [Finset.mem_filter] at hx ⊢
          exact ⟨hx.1, (h.child_small hy).trans hx.2⟩
        · have := hs (Finset.mem_filter.2 ⟨Finset.mem_range.2 hy.1, h.child_small hy⟩)
          exact absurd (Finset.mem_filter.1 this).2 (lt_irrefl _)) y hy.1 hy.2.1.1 rfl
      exact ⟨r, h1, h2.tail hy⟩
    · exact ⟨e, ⟨he, hp, hr⟩, .refl⟩

omit h in
theorem root_unique (h : OK n nx pv p) {r r' x : HE} (hr : Root n nx pv p r) (hr' : Root n nx pv p r')
    (h1 : ReflTransGen (Child (n := n) nx pv p) r x) (h2 : ReflTransGen (Child (n := n) nx pv p) r' x) : r = r' := by
  have key : ∀ a b, Root n nx pv p b → ReflTransGen (Child (n := n) nx pv p) a b → b = a := by
    intro a b hb hab
    rcases ReflTransGen.cases_tail hab with h1 | ⟨c, -, h2⟩
    · exact h1
    · exact absurd h2 (h.not_child hb.1 hb.2.2 c)
  rcases h.desc_total h1 h2 with h3 | h3
  · exact (key _ _ hr' h3).symm
  · exact key _ _ hr h3

/-! ### Large half edges -/

/-- The horizontally longest half edges of their faces. -/
def _root_.Verif.Flow.Large (nx pv : HE → HE) (p : HE → T) (e : HE) : Prop :=
  nx e = neg e ∨ Up nx pv p e ∧ Up nx pv (fun x => -p x) (neg e)

theorem flat_neg {e : HE} (he : e < n) : nx (neg e) = neg (neg e) ↔ nx e = neg e := by
  have key : ∀ e < n, nx e = neg e → nx (neg e) = neg (neg e) := by
    intro e he hx
    have h1 := (h.flat_iff he).2 hx
    rw [neg_neg', ← hx, h1, h.nx_pv e he]
  refine ⟨fun hx => ?_, key e he⟩
  have := key _ (h.neg_lt e he) hx
  rwa [neg_neg'] at this

theorem large_neg {e : HE} (he : e < n) : Large nx pv (fun x => -p x) (neg e) ↔ Large nx pv p e := by
  unfold Large
  rw [h.flat_neg he, neg_neg']
  simp only [_root_.neg_neg]
  tauto

theorem large_iff {e : HE} (he : e < n) (hp : 0 < p e) : Large nx pv p e ↔
    |p (nx e)| ≤ |p e| ∧ |p (pv e)| ≤ |p e| ∧ |p (nx (neg e))| ≤ |p e| ∧ |p (pv (neg e))| ≤ |p e| := by
  have hn := h.neg_lt e he
  have a1 : |p e| = p e := abs_of_pos hp
  have key : ∀ (q : HE → T), OK n nx pv q → ∀ x < n, 0 < q x → nx x ≠ neg x →
      (|q (nx x)| ≤ q x ∧ |q (pv x)| ≤ q x ↔ Up nx pv q x) := by
    intro q hq x hx hp hi
    have f := hq.tri hx hi
    have n1 := hq.ne _ (hq.nx_lt x hx)
    have n2 := hq.ne _ (hq.pv_lt x hx)
    constructor
    · rintro ⟨h1, h2⟩
      refine ⟨hp, fun hx' => hi ((hq.flat_iff hx).1 hx'), ?_, ?_⟩
      · refine lt_of_le_of_ne (not_lt.1 fun hy => ?_) n1
        have := neg_le_of_abs_le h2
        linarith
      · refine lt_of_le_of_ne (not_lt.1 fun hy => ?_) n2
        have := neg_le_of_abs_le h1
        linarith
    · rintro ⟨-, -, h1, h2⟩
      rw [abs_of_neg h1, abs_of_neg h2]
      constructor <;> linarith
  rw [a1]
  by_cases hi : nx e = neg e
  · have b1 : pv e = neg e := by rw [← (h.flat_iff he).2 hi, hi]
    have b2 := (h.flat_neg he).2 hi
    have b3 : pv (neg e) = neg (neg e) := by rw [← (h.flat_iff hn).2 b2, b2]
    rw [b1, hi, b2, b3, neg_neg', h.odd e he, abs_neg, a1]
    exact ⟨fun _ => ⟨le_rfl, le_rfl, le_rfl, le_rfl⟩, fun _ => .inl hi⟩
  · have k1 := key p h e he hp hi
    have k2 := key _ h.reverse (neg e) hn (by rw [h.odd e he]; linarith) (fun hx => hi ((h.flat_neg he).1 hx))
    simp only [abs_neg, h.odd e he, _root_.neg_neg] at k2
    unfold Large
    rw [← k1, ← k2]
    tauto

theorem large_root {e : HE} (he : e < n) (hp : 0 < p e) (hl : Large nx pv p e) : Root n nx pv p e :=
  ⟨he, hp, hl.symm.imp And.right id⟩

/-- The half edges above a large half edge where the flow stops are also below a large half edge where the flow stops. -/
theorem below {x : HE} (hx : x < n) (hp : 0 < p x) (hu : ¬ Up nx pv p x) :
    ∃ r < n, 0 < p r ∧ Large nx pv p r ∧ ReflTransGen (Child (n := n) nx pv (fun y => -p y)) (neg r) (neg x) := by
  have hx' := h.neg_lt x hx
  obtain ⟨r, h1, h2⟩ := exists_root h.reverse (neg x) hx' (by rw [h.odd x hx]; linarith)
  refine ⟨neg r, h.neg_lt r h1.1, (h.pos_neg h1.1).2 (by linarith [h1.2.1]), ?_, by rwa [neg_neg']⟩
  have key : Large nx pv (fun y => -p y) r := by
    rcases h1.2.2 with h3 | h3
    · refine .inr ⟨?_, h3⟩
      rcases ReflTransGen.cases_head h2 with h4 | ⟨c, h4, -⟩
      · exfalso
        rw [h4, neg_neg'] at h3
        simp only [_root_.neg_neg] at h3
        exact hu h3
      · exact h4.2.1
    · exact .inl h3
  have h5 := h.large_neg (h.neg_lt r h1.1)
  rw [neg_neg'] at h5
  exact h5.1 key

theorem leaf_not_down {e x : HE} (he : e < n) (hl : Large nx pv p e)
    (hr : ReflTransGen (Child (n := n) nx pv p) e x) (hu : ¬ Up nx pv p x) : ¬ Up nx pv (fun y => -p y) (neg x) := by
  intro hd
  rcases ReflTransGen.cases_tail hr with h1 | ⟨c, -, h2⟩
  · subst h1
    rcases hl with h3 | h3
    · exact hd.2.1 ((h.flat_iff (h.neg_lt _ he)).2 ((h.flat_neg he).2 h3))
    · exact hu h3.1
  · exact h.not_child (h.child_lt h2) (.inl hd) c h2

end OK

/-! ### Components -/

/-- A part of the surface with only one large half edge. -/
structure Unique (n : ℕ) (nx pv : HE → HE) (p : HE → T) (C : HE → Prop) (e : HE) : Prop where
  lt : ∀ x, C x → x < n
  neg_mem : ∀ x, C x → C (neg x)
  nx_mem : ∀ x, C x → C (nx x)
  pv_mem : ∀ x, C x → C (pv x)
  mem : C e
  pos : 0 < p e
  large : Large nx pv p e
  uniq : ∀ x, C x → 0 < p x → Large nx pv p x → x = e

variable {C : HE → Prop} {e : HE}

theorem Unique.reverse (h : OK n nx pv p) (u : Unique n nx pv p C e) : Unique n nx pv (fun x => -p x) C (neg e) where
  lt := u.lt
  neg_mem := u.neg_mem
  nx_mem := u.nx_mem
  pv_mem := u.pv_mem
  mem := u.neg_mem e u.mem
  pos := by rw [h.odd e (u.lt e u.mem)]; linarith [u.pos]
  large := (h.large_neg (u.lt e u.mem)).2 u.large
  uniq x hx hp hl := by
    have h1 := u.lt x hx
    have h2 := h.large_neg (h.neg_lt x h1)
    rw [neg_neg'] at h2
    rw [← u.uniq (neg x) (u.neg_mem x hx) ((h.pos_neg h1).2 (by linarith)) (h2.1 hl), neg_neg']

theorem Unique.child (u : Unique n nx pv p C e) {y x : HE} (hy : C y) (hc : Child (n := n) nx pv p y x) : C x := by
  rcases hc.2.2 with rfl | rfl
  · exact u.neg_mem _ (u.pv_mem y hy)
  · exact u.neg_mem _ (u.nx_mem y hy)

theorem Unique.desc (u : Unique n nx pv p C e) {y x : HE} (hy : C y)
    (hc : ReflTransGen (Child (n := n) nx pv p) y x) : C x := by
  induction hc with
  | refl => exact hy
  | tail _ hs ih => exact u.child ih hs

theorem Unique.asc (h : OK n nx pv p) (u : Unique n nx pv p C e) {y x : HE} (hy : C x)
    (hc : ReflTransGen (Child (n := n) nx pv p) y x) : C y := by
  induction hc with
  | refl => exact hy
  | @tail b c _ hs ih =>
    refine ih ?_
    rcases hs.2.2 with rfl | rfl
    · have := u.nx_mem _ (u.neg_mem _ hy)
      rwa [neg_neg', h.nx_pv _ hs.1] at this
    · have := u.pv_mem _ (u.neg_mem _ hy)
      rwa [neg_neg', h.pv_nx _ hs.1] at this

/-- Everything in the component is above the large half edge, except for the half edges below. -/
theorem Unique.above (h : OK n nx pv p) (u : Unique n nx pv p C e) {x : HE} (hx : C x) (hp : 0 < p x)
    (hd : Up nx pv p x ∨ ¬ Up nx pv (fun y => -p y) (neg x)) : ReflTransGen (Child (n := n) nx pv p) e x := by
  obtain ⟨r, h1, h2⟩ := OK.exists_root h x (u.lt x hx) hp
  have key : Large nx pv p r := by
    rcases h1.2.2 with h3 | h3
    · refine .inr ⟨?_, h3⟩
      rcases ReflTransGen.cases_head h2 with h4 | ⟨c, h4, -⟩
      · subst h4
        exact hd.resolve_right (not_not.2 h3)
      · exact h4.2.1
    · exact .inl h3
  rw [← u.uniq r (u.asc h hx h2) h1.2.1 key]
  exact h2

theorem Unique.mem_inner (h : OK n nx pv p) (u : Unique n nx pv p C e) {m l : List HE} (ht : Tree nx pv p e m l) (x : HE) :
    x ∈ m ↔ C x ∧ Up nx pv p x := by
  rw [(h.mem_tree ht (u.lt e u.mem) x).1]
  exact ⟨fun hx => ⟨u.desc u.mem hx.1, hx.2⟩, fun hx => ⟨u.above h hx.1 hx.2.1 (.inl hx.2), hx.2⟩⟩

theorem Unique.mem_leaf (h : OK n nx pv p) (u : Unique n nx pv p C e) {m l : List HE} (ht : Tree nx pv p e m l) (x : HE) :
    x ∈ l ↔ C x ∧ 0 < p x ∧ ¬ Up nx pv p x ∧ ¬ Up nx pv (fun y => -p y) (neg x) := by
  rw [(h.mem_tree ht (u.lt e u.mem) x).2]
  refine ⟨fun hx => ⟨u.desc u.mem hx.1, h.desc_pos u.pos hx.1, hx.2, h.leaf_not_down (u.lt e u.mem) u.large hx.1 hx.2⟩,
    fun hx => ⟨u.above h hx.1 hx.2.1 (.inr hx.2.2.2), hx.2.2.1⟩⟩

/-- What is above is also below. -/
theorem Unique.mem_below (h : OK n nx pv p) (u : Unique n nx pv p C e) {m l m' l' : List HE} (ht : Tree nx pv p e m l)
    (ht' : Tree nx pv (fun y => -p y) (neg e) m' l') (x : HE) : neg x ∈ l' ↔ x ∈ l := by
  rw [u.mem_leaf h ht, (Unique.reverse h u).mem_leaf h.reverse ht', neg_neg']
  simp only [_root_.neg_neg]
  have key : C (neg x) ↔ C x := ⟨fun hx => by simpa using u.neg_mem _ hx, u.neg_mem x⟩
  rw [key]
  constructor
  · rintro ⟨h1, h2, h3, h4⟩
    exact ⟨h1, (h.neg_neg (u.lt x h1)).1 (by linarith), h4, h3⟩
  · rintro ⟨h1, h2, h3, h4⟩
    exact ⟨h1, by linarith [(h.neg_neg (u.lt x h1)).2 h2], h4, h3⟩

end Flow

end Verif
