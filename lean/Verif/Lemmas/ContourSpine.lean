import Verif.Lemmas.ContourTree
import Mathlib.Data.List.Chain

/-!
# What is crossed between the leaves of a tree of half edges
-/

set_option linter.unusedSectionVars false

namespace Verif.Flow

open Relation

variable {T : Type} [CommRing T] [LinearOrder T] [IsStrictOrderedRing T]
variable {n : ℕ} {nx pv : HE → HE} {p : HE → T}

/-- A tree with its negative leaves `t` from the right to the left, the half edges `a` from its first leaf up to the root, the negatives
`b` from the root to the last leaf, and the half edges `g` that one meets when turning clockwise from one leaf to the next. -/
inductive Spine (nx pv : HE → HE) (p : HE → T) :
    HE → List HE → List HE → List HE → List HE → List (List HE × List HE) → Prop
  | leaf {e} : ¬ Up nx pv p e → Spine nx pv p e [] [neg e] [e] [neg e] []
  | node {e m t a b g m' t' a' b' g'} : Up nx pv p e → Spine nx pv p (neg (pv e)) m t a b g →
      Spine nx pv p (neg (nx e)) m' t' a' b' g' →
      Spine nx pv p e (e :: (m ++ m')) (t' ++ t) (a ++ [e]) (neg e :: b') (g' ++ (a', b) :: g)

theorem Tree.spine {e : HE} {m l : List HE} (h : Tree nx pv p e m l) : ∃ a b g, Spine nx pv p e m (l.map neg).reverse a b g := by
  induction h with
  | leaf hu => exact ⟨_, _, _, .leaf hu⟩
  | node hu _ _ ih ih' =>
    obtain ⟨a, b, g, h1⟩ := ih
    obtain ⟨a', b', g', h2⟩ := ih'
    have := Spine.node hu h1 h2
    rw [← List.reverse_append, ← List.map_append] at this
    exact ⟨_, _, _, this⟩

/-- Half edges that one meets when turning clockwise at a vertex, the horizontal component increases. -/
structure Rise (n : ℕ) (nx : HE → HE) (p : HE → T) (l : List HE) : Prop where
  lt : ∀ x ∈ l, x < n
  chain : l.IsChain fun x y => nx (neg x) = y
  sorted : l.Pairwise fun x y => p x < p y

/-- What one meets from the right of the half edge `x` to the left of the half edge `y`. -/
structure Gap (n : ℕ) (nx : HE → HE) (p : HE → T) (x y : HE) (s : List HE × List HE) : Prop where
  start : s.1.head? = some (neg x)
  stop : s.2.getLast? = some y
  first : Rise n nx p s.1
  second : Rise n nx p s.2
  pos : ∀ z ∈ s.1, 0 < p z
  neg : ∀ z ∈ s.2, p z < 0
  chain : (s.1 ++ s.2).IsChain fun x y => nx (Verif.neg x) = y

/-- The gaps between half edges. -/
inductive Gaps (n : ℕ) (nx : HE → HE) (p : HE → T) : List HE → List (List HE × List HE) → Prop
  | single (x) : Gaps n nx p [x] []
  | cons {x y t s g} : Gap n nx p x y s → Gaps n nx p (y :: t) g → Gaps n nx p (x :: y :: t) (s :: g)

theorem Gaps.append {t t' : List HE} {g g' : List (List HE × List HE)} (h : Gaps n nx p t g) (h' : Gaps n nx p t' g') {x y : HE}
    {s : List HE × List HE} (hx : t.getLast? = some x) (hy : t'.head? = some y) (hs : Gap n nx p x y s) :
    Gaps n nx p (t ++ t') (g ++ s :: g') := by
  induction h with
  | single z =>
    cases hx
    cases h' with
    | single w => cases hy; exact .cons hs (.single _)
    | cons k1 k2 => cases hy; exact .cons hs (.cons k1 k2)
  | cons k1 k2 ih =>
    refine .cons k1 (ih ?_)
    rwa [List.getLast?_cons_cons] at hx

/-- What is known about spines. -/
structure Spined (n : ℕ) (nx : HE → HE) (p : HE → T) (e : HE) (t a b : List HE) (g : List (List HE × List HE)) : Prop where
  gaps : Gaps n nx p t g
  up : Rise n nx p a
  down : Rise n nx p b
  pos : ∀ z ∈ a, 0 < p z
  neg : ∀ z ∈ b, p z < 0
  a_last : a.getLast? = some e
  b_head : b.head? = some (Verif.neg e)
  a_head : ∃ x, t.getLast? = some x ∧ a.head? = some (Verif.neg x)
  b_last : ∃ x, t.head? = some x ∧ b.getLast? = some x

theorem Rise.append {l m : List HE} {e x y : HE} (h : Rise n nx p l) (h' : Rise n nx p m) (hx : l.getLast? = some x) (hy : m.head? = some y)
    (hc : nx (neg x) = y) (hlt : p x < p y) : Rise n nx p (l ++ m) := by
  refine ⟨fun z hz => ?_, ?_, ?_⟩
  · rcases List.mem_append.1 hz with hz | hz
    · exact h.lt z hz
    · exact h'.lt z hz
  · rw [List.isChain_append]
    refine ⟨h.chain, h'.chain, fun u hu w hw => ?_⟩
    rw [hx] at hu
    rw [hy] at hw
    cases hu
    cases hw
    exact hc
  · rw [List.pairwise_append]
    refine ⟨h.sorted, h'.sorted, fun u hu w hw => ?_⟩
    have h1 : p u ≤ p x := by
      obtain ⟨l', rfl⟩ := List.getLast?_eq_some_iff.1 hx
      rcases List.mem_append.1 hu with k | k
      · exact ((List.pairwise_append.1 h.sorted).2.2 u k x (by simp)).le
      · rw [List.mem_singleton.1 k]
    have h2 : p y ≤ p w := by
      obtain ⟨m', rfl⟩ := List.head?_eq_some_iff.1 hy
      rcases List.mem_cons.1 hw with k | k
      · rw [k]
      · exact ((List.pairwise_cons.1 h'.sorted).1 w k).le
    exact (h1.trans_lt hlt).trans_le h2

theorem Rise.single {x : HE} (hx : x < n) : Rise n nx p [x] := ⟨by simpa using hx, .singleton _, List.pairwise_singleton _ _⟩

theorem Spine.spined (h : OK n nx pv p) {e : HE} {m t a b : List HE} {g : List (List HE × List HE)} (hs : Spine nx pv p e m t a b g)
    (he : e < n) (hp : 0 < p e) : Spined n nx p e t a b g := by
  induction hs with
  | @leaf e hu =>
    have h1 := (h.neg_neg he).2 hp
    exact ⟨.single _, .single he, .single (h.neg_lt e he), by simpa using hp, by simpa using h1, rfl, rfl,
      ⟨neg e, rfl, by rw [neg_neg']; rfl⟩, ⟨neg e, rfl, rfl⟩⟩
  | @node e m t a b g m' t' a' b' g' hu _ _ ih ih' =>
    have c1 : Child (n := n) nx pv p e (neg (pv e)) := ⟨he, hu, .inl rfl⟩
    have c2 : Child (n := n) nx pv p e (neg (nx e)) := ⟨he, hu, .inr rfl⟩
    have i1 := ih (h.child_lt c1) (h.child_pos c1)
    have i2 := ih' (h.child_lt c2) (h.child_pos c2)
    have f := h.tri he (h.up_nf he hu)
    obtain ⟨x, x1, x2⟩ := i2.a_head
    obtain ⟨y, y1, y2⟩ := i1.b_last
    have hgap : Gap n nx p x y (a', b) := by
      refine ⟨x2, y2, i2.up, i1.down, i2.pos, i1.neg, ?_⟩
      rw [List.isChain_append]
      refine ⟨i2.up.chain, i1.down.chain, fun u hu' w hw => ?_⟩
      rw [i2.a_last] at hu'
      rw [i1.b_head] at hw
      cases hu'
      cases hw
      rw [neg_neg', neg_neg', f.1]
    refine ⟨i2.gaps.append i1.gaps x1 y1 hgap, ?_, ?_, ?_, ?_, by simp, rfl, ?_, ?_⟩
    · exact i1.up.append (e := e) (.single he) i1.a_last rfl (by rw [neg_neg', h.nx_pv e he]) (h.child_small c1)
    · refine (Rise.single (h.neg_lt e he)).append (e := e) (x := neg e) i2.down rfl i2.b_head (by rw [neg_neg', neg_neg']) ?_
      have := h.child_small c2
      rw [h.odd e he, h.odd _ (h.child_lt c2)]
      linarith
    · intro z hz
      rcases List.mem_append.1 hz with k | k
      · exact i1.pos z k
      · rw [List.mem_singleton.1 k]; exact hp
    · intro z hz
      rcases List.mem_cons.1 hz with k | k
      · rw [k]; exact (h.neg_neg he).2 hp
      · exact i2.neg z k
    · obtain ⟨z, z1, z2⟩ := i1.a_head
      refine ⟨z, ?_, ?_⟩
      · rw [List.getLast?_append, z1]; rfl
      · rw [List.head?_append, z2]; rfl
    · obtain ⟨z, z1, z2⟩ := i2.b_last
      refine ⟨z, ?_, ?_⟩
      · rw [List.head?_append, z1]; rfl
      · rw [List.getLast?_cons, z2]; rfl

theorem Rise.nodup {l : List HE} (h : Rise n nx p l) : l.Nodup := h.sorted.imp fun {x y} hxy he => by rw [he] at hxy; exact lt_irrefl _ hxy

theorem Gap.nodup {x y : HE} {s : List HE × List HE} (h : Gap n nx p x y s) : (s.1 ++ s.2).Nodup :=
  h.first.nodup.append h.second.nodup fun z h1 h2 => absurd (h.pos z h1) (h.neg z h2).not_gt

/-! ### Paths -/

variable {V : Type}

/-- What is at the leaves and in the gaps, one after the other. -/
def weave (f : HE → List V) (c : List HE × List HE → List V) : List HE → List (List HE × List HE) → List V
  | [], _ => []
  | x :: t, [] => f x
  | x :: t, s :: g => f x ++ c s ++ weave f c t g

theorem Gaps.ne_nil {t : List HE} {g : List (List HE × List HE)} (h : Gaps n nx p t g) : t ≠ [] := by cases h <;> simp

theorem weave_append (f : HE → List V) (c : List HE × List HE → List V) {t t' : List HE} {g g' : List (List HE × List HE)}
    (h : Gaps n nx p t g) (s : List HE × List HE) : weave f c (t ++ t') (g ++ s :: g') = weave f c t g ++ c s ++ weave f c t' g' := by
  induction h with
  | single x => rfl
  | cons _ _ ih =>
    change _ ++ _ ++ weave f c (_ ++ t') (_ ++ s :: g') = _ ++ _ ++ weave f c _ _ ++ _ ++ _
    rw [ih]
    simp only [List.append_assoc]

/-- What one sees when going around the tree. -/
inductive Tour (nx pv : HE → HE) (p : HE → T) (k f : HE → List V) : HE → List HE → List HE → List V → Prop
  | leaf {e} : ¬ Up nx pv p e → Tour nx pv p k f e [] [neg e] (f (neg e))
  | node {e m t l m' t' l'} : Up nx pv p e → Tour nx pv p k f (neg (pv e)) m t l → Tour nx pv p k f (neg (nx e)) m' t' l' →
      Tour nx pv p k f e (e :: (m ++ m')) (t' ++ t) (k (neg e) ++ l' ++ l ++ k e)

/-- Going around the tree, including the leaves. -/
theorem Spine.tour (h : OK n nx pv p) {e : HE} {m t a b : List HE} {g : List (List HE × List HE)} (hs : Spine nx pv p e m t a b g)
    (he : e < n) (hp : 0 < p e) (k f : HE → List V) :
    Tour nx pv p k (fun x => k x ++ f x ++ k (neg x)) e m t
      (b.flatMap k ++ weave f (fun s => (s.1 ++ s.2).flatMap k) t g ++ a.flatMap k) := by
  induction hs with
  | @leaf e hu =>
    have := Tour.leaf (k := k) (f := fun x => k x ++ f x ++ k (neg x)) hu
    simpa [weave] using this
  | @node e m t a b g m' t' a' b' g' hu hs hs' ih ih' =>
    have c1 : Child (n := n) nx pv p e (neg (pv e)) := ⟨he, hu, .inl rfl⟩
    have c2 : Child (n := n) nx pv p e (neg (nx e)) := ⟨he, hu, .inr rfl⟩
    have i2 := hs'.spined h (h.child_lt c2) (h.child_pos c2)
    have := Tour.node hu (ih (h.child_lt c1) (h.child_pos c1)) (ih' (h.child_lt c2) (h.child_pos c2))
    rw [weave_append f _ i2.gaps]
    simp only [List.flatMap_append, List.flatMap_cons, List.flatMap_nil, List.append_nil, List.append_assoc] at this ⊢
    exact this

theorem dropLast_cons {x : HE} {l : List HE} (h : l ≠ []) : (x :: l).dropLast = x :: l.dropLast := List.dropLast_cons_of_ne_nil h

/-- Going around the tree, without the leaves. -/
theorem Spine.tour' (h : OK n nx pv p) {e : HE} {m t a b : List HE} {g : List (List HE × List HE)} (hs : Spine nx pv p e m t a b g)
    (he : e < n) (hp : 0 < p e) (k f : HE → List V) :
    Tour nx pv p k f e m t
      (b.dropLast.flatMap k ++ weave f (fun s => (s.1.tail ++ s.2.dropLast).flatMap k) t g ++ a.tail.flatMap k) := by
  induction hs with
  | @leaf e hu => simpa [weave] using Tour.leaf (k := k) (f := f) hu
  | @node e m t a b g m' t' a' b' g' hu hs hs' ih ih' =>
    have c1 : Child (n := n) nx pv p e (neg (pv e)) := ⟨he, hu, .inl rfl⟩
    have c2 : Child (n := n) nx pv p e (neg (nx e)) := ⟨he, hu, .inr rfl⟩
    have i1 := hs.spined h (h.child_lt c1) (h.child_pos c1)
    have i2 := hs'.spined h (h.child_lt c2) (h.child_pos c2)
    have := Tour.node hu (ih (h.child_lt c1) (h.child_pos c1)) (ih' (h.child_lt c2) (h.child_pos c2))
    have ha : a ≠ [] := fun hx => by have := i1.a_last; rw [hx] at this; cases this
    have hb : b' ≠ [] := fun hx => by have := i2.b_head; rw [hx] at this; cases this
    rw [weave_append f _ i2.gaps, dropLast_cons hb, List.tail_append_of_ne_nil ha]
    simp only [List.flatMap_append, List.flatMap_cons, List.flatMap_nil, List.append_nil, List.append_assoc] at this ⊢
    exact this

end Verif.Flow
