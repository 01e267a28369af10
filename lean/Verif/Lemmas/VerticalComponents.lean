import Verif.Lemmas.VerticalCache
import Mathlib.Data.Finset.Card

/-!
# Components of vertical directions
-/

set_option linter.unusedSectionVars false

namespace Verif.Vertical

open Spec Tri FlatTri Vec

variable {T : Type} [CommRing T] [LinearOrder T] [IsStrictOrderedRing T]
variable {K : Type*} [Field K] [LinearOrder K] [IsStrictOrderedRing K]

theorem collinear_iff (A : Option (Approx T K)) (v w : Vec T) : Vec.ccw A v w = .collinear ↔ cross w v = 0 := by
  rw [ccw_eq, ccwExact_collinear]
  have : cross v w = -cross w v := by unfold cross; ring
  rw [this, neg_eq_zero]

/-- Faces are triangles, or have been collapsed and have two sides. -/
structure Tame (S : FlatTri T) : Prop where
  neg_lt : ∀ e < S.tri.size, neg e < S.tri.size
  next_lt : ∀ e < S.tri.size, S.tri.nextInFace e < S.tri.size
  prev_lt : ∀ e < S.tri.size, S.tri.previousInFace e < S.tri.size
  left : ∀ e, S.tri.previousInFace (S.tri.nextInFace e) = e
  right : ∀ e, S.tri.nextInFace (S.tri.previousInFace e) = e
  side : ∀ e, S.tri.previousInFace e = S.tri.nextInFace e ∨ S.tri.previousInFace e = S.tri.nextInFace (S.tri.nextInFace e)
  side' : ∀ e, S.tri.nextInFace (S.tri.nextInFace e) = e ∨ S.tri.nextInFace (S.tri.nextInFace e) = S.tri.previousInFace e

theorem prev_lt {S : FlatTri T} (h : S.Flat) {e : HE} (he : e < S.tri.size) : S.tri.previousInFace e < S.tri.size := by
  rw [prev_eq h e]
  exact next_lt h (next_lt h he)

theorem _root_.Verif.FlatTri.Flat.tame {S : FlatTri T} (h : S.Flat) : Tame S where
  neg_lt e he := (h.coh.neg_lt e).2 he
  next_lt e he := Vertical.next_lt h he
  prev_lt e he := Vertical.prev_lt h he
  left e := h.coh.hf.left e
  right e := h.coh.hf.right e
  side e := .inr (prev_eq h e)
  side' e := .inr (prev_eq h e).symm

/-- Where we can go from `x` in one step. -/
def Step (S : FlatTri T) (v : Vec T) (x y : HE) : Prop :=
  cross (S.vec x) v ≠ 0 ∧ (y = neg x ∨ y = S.tri.nextInFace x ∨ y = S.tri.previousInFace x)

/-- What `visit` does to a component. -/
structure Grown (S : FlatTri T) (v : Vec T) (start : HE) (c c' : List HE) : Prop where
  sub : ∀ x ∈ c, x ∈ c'
  mem : start ∈ c'
  joined : ∀ x ∈ c', x ∈ c ∨ Relation.ReflTransGen (Step S v) start x
  closed : ∀ x ∈ c', x ∉ c → ∀ y, Step S v x y → y ∈ c'
  lt : (∀ x ∈ c, x < S.tri.size) → ∀ x ∈ c', x < S.tri.size
  nodup : c.Nodup → c'.Nodup

/-- The half edges that have not been visited. -/
def unvisited (S : FlatTri T) (c : List HE) : Finset HE := (Finset.range S.tri.size).filter (· ∉ c)


theorem visit_grown {S : FlatTri T} (h : Tame S) (A : Option (Approx T K)) (v : Vec T) (n : ℕ) {c : List HE}
    (hn : (unvisited S c).card < n) {s : HE} (hs : s < S.tri.size) :
    ∃ c', visit S A v n s c = some c' ∧ Grown S v s c c' := by
  induction n generalizing c s with
  | zero => omega
  | succ n ih =>
    unfold visit
    by_cases h1 : s ∈ c
    · rw [if_pos h1]
      exact ⟨c, rfl, fun _ h => h, h1, fun _ h => .inl h, fun _ h h' => absurd h h', fun h => h, fun h => h⟩
    rw [if_neg h1]
    simp only
    by_cases h2 : Vec.ccw A v (S.vec s) = .collinear
    · rw [if_pos h2]
      rw [collinear_iff] at h2
      refine ⟨s :: c, rfl, fun _ h => by simp [h], by simp, fun x hx => ?_, fun x hx hx' y hy => ?_, fun hc x hx => ?_,
        fun hc => ?_⟩
      · rcases List.mem_cons.1 hx with rfl | hx
        · exact .inr .refl
        · exact .inl hx
      · rcases List.mem_cons.1 hx with rfl | hx
        · exact absurd h2 hy.1
        · exact absurd hx hx'
      · rcases List.mem_cons.1 hx with rfl | hx
        · exact hs
        · exact hc x hx
      · exact List.nodup_cons.2 ⟨h1, hc⟩
    rw [if_neg h2]
    rw [collinear_iff] at h2
    have hsub : ∀ c', (∀ x ∈ s :: c, x ∈ c') → (unvisited S c').card < n := by
      intro c' hc'
      have : unvisited S c' ⊂ unvisited S c := by
        unfold unvisited
        refine Finset.ssubset_iff_of_subset (fun x hx => ?_) |>.2 ⟨s, by simp [hs, h1], by simp [hc' s (by simp)]⟩
        simp only [Finset.mem_filter, Finset.mem_range] at hx ⊢
        exact ⟨hx.1, fun hx' => hx.2 (hc' x (by simp [hx']))⟩
      have := Finset.card_lt_card this
      omega
    obtain ⟨c1, e1, g1⟩ := ih (hsub (s :: c) fun _ h => h) (h.neg_lt s hs)
    obtain ⟨c2, e2, g2⟩ := ih (hsub c1 g1.sub) (h.next_lt s hs)
    obtain ⟨c3, e3, g3⟩ := ih (hsub c2 fun x hx => g2.sub x (g1.sub x hx)) (h.prev_lt s hs)
    have hstep : ∀ y, y = neg s ∨ y = S.tri.nextInFace s ∨ y = S.tri.previousInFace s → Step S v s y := fun y hy => ⟨h2, hy⟩
    refine ⟨c3, ?_, ?_⟩
    · simp only [e1, e2, Option.bind_eq_bind, Option.bind_some]
      exact e3
    refine ⟨fun x hx => g3.sub x (g2.sub x (g1.sub x (by simp [hx]))), g3.sub s (g2.sub s (g1.sub s (by simp))), ?_, ?_, ?_, ?_⟩
    · intro x hx
      rcases g3.joined x hx with hx | hx
      · rcases g2.joined x hx with hx | hx
        · rcases g1.joined x hx with hx | hx
          · rcases List.mem_cons.1 hx with rfl | hx
            · exact .inr .refl
            · exact .inl hx
          · exact .inr (.head (hstep _ (by tauto)) hx)
        · exact .inr (.head (hstep _ (by tauto)) hx)
      · exact .inr (.head (hstep _ (by tauto)) hx)
    · intro x hx hxc y hy
      by_cases k0 : x = s
      · subst k0
        rcases hy.2 with rfl | rfl | rfl
        · exact g3.sub _ (g2.sub _ g1.mem)
        · exact g3.sub _ g2.mem
        · exact g3.mem
      by_cases k2 : x ∈ c2
      · refine g3.sub y ?_
        by_cases k1 : x ∈ c1
        · exact g2.sub y (g1.closed x k1 (by simp [k0, hxc]) y hy)
        · exact g2.closed x k2 k1 y hy
      · exact g3.closed x hx k2 y hy
    · intro hc
      exact g3.lt (g2.lt (g1.lt (by simpa using ⟨hs, hc⟩)))
    · intro hc
      exact g3.nodup (g2.nodup (g1.nodup (List.nodup_cons.2 ⟨h1, hc⟩)))

theorem joined_iff {S : FlatTri T} (h : Tame S) {v : Vec T} {x y : HE} :
    Joined S v x y ↔ Relation.ReflTransGen (Step S v) x y := by
  constructor
  · intro hj
    induction hj with
    | refl => exact .refl
    | across _ hc ih => exact ih.tail ⟨hc, .inl rfl⟩
    | @face y z _ hc hs ih =>
      rcases hs with rfl | rfl | rfl
      · exact ih
      · exact ih.tail ⟨hc, .inr (.inl rfl)⟩
      · rcases h.side' y with k | k
        · rw [k]
          exact ih
        · exact ih.tail ⟨hc, .inr (.inr k)⟩
  · intro hj
    induction hj with
    | refl => exact .refl
    | @tail y z _ hs ih =>
      obtain ⟨hc, rfl | rfl | rfl⟩ := hs
      · exact .across ih hc
      · exact .face ih hc (.inr (.inl rfl))
      · exact .face ih hc (.inr (h.side y))

theorem Step.symm {S : FlatTri T} (h : Tame S) {v : Vec T} {x y : HE} (hs : Step S v x y) (hy : cross (S.vec y) v ≠ 0) :
    Step S v y x := by
  refine ⟨hy, ?_⟩
  have hl := h.left x
  have ht := h.right x
  obtain ⟨-, rfl | rfl | rfl⟩ := hs
  · exact .inl (neg_neg' x).symm
  · exact .inr (.inr hl.symm)
  · exact .inr (.inl ht.symm)

theorem reach_symm {S : FlatTri T} (h : Tame S) {v : Vec T} {x y : HE} (hr : Relation.ReflTransGen (Step S v) x y)
    (hy : cross (S.vec y) v ≠ 0) : Relation.ReflTransGen (Step S v) y x := by
  induction hr with
  | refl => exact .refl
  | tail _ hs ih => exact .head (hs.symm h hy) (ih hs.1)

theorem visit_nil {S : FlatTri T} (h : Tame S) (A : Option (Approx T K)) (v : Vec T) {n : ℕ} (hn : S.tri.size < n) {s : HE}
    (hs : s < S.tri.size) : ∃ c, visit S A v n s [] = some c ∧ c.Nodup ∧ s ∈ c ∧ ∀ y, y ∈ c ↔ Joined S v s y := by
  obtain ⟨c, h1, h2⟩ := visit_grown h A v n (c := []) (by simpa [unvisited] using hn) hs
  refine ⟨c, h1, h2.nodup List.nodup_nil, h2.mem, fun y => ?_⟩
  rw [joined_iff h]
  constructor
  · intro hy
    simpa using h2.joined y hy
  · intro hy
    induction hy with
    | refl => exact h2.mem
    | tail _ hs ih => exact h2.closed _ ih (by simp) _ hs

/-- What we know about a list of components. -/
structure Components (S : FlatTri T) (v : Vec T) (cs : List (List HE)) : Prop where
  comp : ∀ c ∈ cs, c.Nodup ∧ ∃ s ∈ c, s < S.tri.size ∧ ∀ y, y ∈ c ↔ Joined S v s y
  pair : cs.Pairwise fun c d => ∀ x ∈ c, x ∈ d → cross (S.vec x) v = 0

theorem loop_components {S : FlatTri T} (h : Tame S) (A : Option (Approx T K)) (v : Vec T) {n : ℕ} (hn : S.tri.size < n)
    {rest done : List HE} {cs : List (List HE)} (hr : ∀ x ∈ rest, x < S.tri.size) (hd : ∀ x, x ∈ done ↔ ∃ c ∈ cs, x ∈ c)
    (hc : Components S v cs) :
    ∃ cs', componentsLoop S A v n rest done cs = some cs' ∧ Components S v cs' ∧
      ∀ x, x ∈ rest ∨ x ∈ done → ∃ c ∈ cs', x ∈ c := by
  induction rest generalizing done cs with
  | nil => exact ⟨cs, rfl, hc, fun x hx => (hd x).1 (by simpa using hx)⟩
  | cons s rest ih =>
    have hr' : ∀ x ∈ rest, x < S.tri.size := fun x hx => hr x (by simp [hx])
    unfold componentsLoop
    by_cases h1 : s ∈ done
    · rw [if_pos h1]
      obtain ⟨cs', k1, k2, k3⟩ := ih hr' hd hc
      refine ⟨cs', k1, k2, fun x hx => k3 x ?_⟩
      rcases hx with hx | hx
      · rcases List.mem_cons.1 hx with rfl | hx
        · exact .inr h1
        · exact .inl hx
      · exact .inr hx
    rw [if_neg h1]
    have hs := hr s (by simp)
    obtain ⟨c, e1, e2, e3, e4⟩ := visit_nil h A v hn hs
    simp only [e1, Option.bind_eq_bind, Option.bind_some]
    have hnew : ∀ d ∈ cs, ∀ x ∈ d, x ∈ c → cross (S.vec x) v = 0 := by
      intro d hd' x hx hx'
      by_contra hne
      obtain ⟨-, s', -, -, q⟩ := hc.comp d hd'
      rw [q, joined_iff h] at hx
      rw [e4, joined_iff h] at hx'
      exact h1 ((hd s).2 ⟨d, hd', (q s).2 ((joined_iff h).2 (hx.trans (reach_symm h hx' hne)))⟩)
    obtain ⟨cs', k1, k2, k3⟩ := ih (done := c ++ done) (cs := cs ++ [c]) hr' (by
      intro x
      rw [List.mem_append, hd]
      simp only [List.mem_append, List.mem_singleton]
      constructor
      · rintro (hx | ⟨d, hd', hx⟩)
        · exact ⟨c, .inr rfl, hx⟩
        · exact ⟨d, .inl hd', hx⟩
      · rintro ⟨d, hd' | rfl, hx⟩
        · exact .inr ⟨d, hd', hx⟩
        · exact .inl hx) ⟨by
      intro d hd'
      rcases List.mem_append.1 hd' with hd' | hd'
      · exact hc.comp d hd'
      · rw [List.mem_singleton.1 hd']
        exact ⟨e2, s, e3, hs, e4⟩, by
      rw [List.pairwise_append]
      refine ⟨hc.pair, by simp, fun d hd' c' hc' => ?_⟩
      rw [List.mem_singleton.1 hc']
      exact hnew d hd'⟩
    refine ⟨cs', k1, k2, fun x hx => k3 x ?_⟩
    rcases hx with hx | hx
    · rcases List.mem_cons.1 hx with rfl | hx
      · exact .inr (by simp [e3])
      · exact .inl hx
    · exact .inr (by simp [hx])

theorem components_components {S : FlatTri T} (h : Tame S) (A : Option (Approx T K)) (v : Vec T) {n : ℕ}
    (hn : S.tri.size < n) : ∃ cs, components S A v n = some cs ∧ Components S v cs ∧ ∀ x < S.tri.size, ∃ c ∈ cs, x ∈ c := by
  obtain ⟨cs, h1, h2, h3⟩ := loop_components h A v hn (rest := S.tri.halfEdges) (done := []) (cs := [])
    (fun x hx => mem_halfEdges.1 hx) (by simp) ⟨by simp, by simp⟩
  exact ⟨cs, h1, h2, fun x hx => h3 x (.inl (mem_halfEdges.2 hx))⟩

theorem visit_mono {S : FlatTri T} {A : Option (Approx T K)} {v : Vec T} {n m : ℕ} (h : n ≤ m) {s : HE} {c c' : List HE}
    (hc : visit S A v n s c = some c') : visit S A v m s c = some c' := by
  induction n generalizing m s c c' with
  | zero => cases hc
  | succ n ih =>
    obtain ⟨m, rfl⟩ := Nat.exists_eq_add_of_lt (show 0 < m by omega)
    simp only [Nat.zero_add] at h ⊢
    unfold visit at hc ⊢
    split_ifs at hc ⊢
    · exact hc
    · exact hc
    · simp only [Option.bind_eq_bind, Option.bind_eq_some_iff] at hc ⊢
      obtain ⟨c1, h1, c2, h2, h3⟩ := hc
      exact ⟨c1, ih (by omega) h1, c2, ih (by omega) h2, ih (by omega) h3⟩

theorem loop_mono {S : FlatTri T} {A : Option (Approx T K)} {v : Vec T} {n m : ℕ} (h : n ≤ m) {rest done : List HE}
    {cs cs' : List (List HE)} (hc : componentsLoop S A v n rest done cs = some cs') :
    componentsLoop S A v m rest done cs = some cs' := by
  induction rest generalizing done cs with
  | nil => exact hc
  | cons s rest ih =>
    unfold componentsLoop at hc ⊢
    split_ifs at hc ⊢
    · exact ih hc
    · simp only [Option.bind_eq_bind, Option.bind_eq_some_iff] at hc ⊢
      obtain ⟨c1, h1, h2⟩ := hc
      exact ⟨c1, visit_mono h h1, ih h2⟩

end Verif.Vertical
