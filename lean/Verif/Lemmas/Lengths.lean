import Verif.Spec.Lengths
import Verif.Props.C01
import Verif.Lemmas.Vertical
import Verif.Lemmas.LinearNormalize

/-!
# Lemmas about lengths of labels
-/

namespace Verif.Lengths

open Verif Spec

variable {T : Type} [CommRing T] [LinearOrder T] [IsStrictOrderedRing T]

theorem projectPerpendicular_extent (v w : Vec T) : Vertical.projectPerpendicular v w = extent v w :=
  Vertical.projectPerpendicular_eq v w

theorem extent_add (v u w : Vec T) : extent v (u + w) = extent v u + extent v w := by
  change (u.x + w.x) * v.y - (u.y + w.y) * v.x = (u.x * v.y - u.y * v.x) + (w.x * v.y - w.y * v.x)
  ring

theorem extent_neg (v u : Vec T) : extent v (-u) = -extent v u := by
  change (-u.x) * v.y - (-u.y) * v.x = -(u.x * v.y - u.y * v.x)
  ring

theorem extent_smul (v : Vec T) (c : T) (u : Vec T) : extent v (c • u) = c * extent v u := by
  change (u.x * c) * v.y - (u.y * c) * v.x = c * (u.x * v.y - u.y * v.x)
  ring

theorem extent_zero (v : Vec T) : extent v 0 = 0 := by
  change (0 : T) * v.y - 0 * v.x = 0
  ring

theorem extent_walkAlong (v : Vec T) (L : List (Vec T)) (w : Vec T) :
    extent v (walkAlong w L) = extent v w + (L.map (extent v)).sum := by
  induction L generalizing w with
  | nil => simp [walkAlong]
  | cons a L ih =>
    have := ih (w + a)
    simp only [walkAlong, List.foldl_cons] at this ⊢
    rw [this, extent_add, List.map_cons, List.sum_cons, add_assoc]

theorem extent_flow (v : Vec T) (r : Bool) (L : List (Vec T)) :
    ((flow r L).map (extent v)).sum = if r then -(L.map (extent v)).sum else (L.map (extent v)).sum := by
  cases r with
  | false => simp [flow]
  | true =>
    simp only [flow, if_true, List.map_reverse, List.map_map, List.sum_reverse]
    induction L with
    | nil => simp
    | cons a L ih => simp [ih, extent_neg]; ring

theorem fromLabel_index {dbg : Bool} {L : Lengths T} {l : ℕ} {e : Edge} (h : L.fromLabel dbg l = .ok e) : e.index = l := by
  unfold fromLabel at h
  cases h' : Edge.ofId ((l : ℤ) + 1) with
  | error x => rw [h'] at h; cases h
  | ok e' =>
    have : e = e' := by
      rw [h'] at h
      change (do
        if dbg then
          let l' ← L.toLabel dbg e'
          if l' ≠ l then throw Err.logicError
          if L.lengths e'.index = none then throw Err.logicError
        return e') = _ at h
      cases dbg with
      | false => cases h; rfl
      | true =>
        rw [if_pos rfl] at h
        cases ht : L.toLabel true e' with
        | error x => rw [ht] at h; cases h
        | ok l' =>
          rw [ht] at h
          by_cases h1 : l' ≠ l
          · simp [h1, bind, Except.bind, throw, throwThe, MonadExceptOf.throw] at h
          · by_cases h2 : L.lengths e'.index = none
            · simp [h1, h2, bind, Except.bind, throw, throwThe, MonadExceptOf.throw, pure, Except.pure] at h
            · simp [h1, h2, bind, Except.bind, pure, Except.pure] at h
              exact h.symm
    rw [this]
    exact C01.index_fromIndex h'

theorem fromLabel_ok (dbg : Bool) {L : Lengths T} {l : ℕ} (hl : l < 2 ^ 30) (h : L.lengths l ≠ none) :
    ∃ e, L.fromLabel dbg l = .ok e ∧ e.index = l := by
  have h0 : ∃ e, Edge.ofId ((l : ℤ) + 1) = .ok e := by
    have h1 := (C01.ofId_defined ((l : ℤ) + 1)).2 (by unfold C01.ValidId; omega)
    obtain ⟨e, he⟩ := h1
    exact ⟨Edge.ofHalfEdge e, by unfold Edge.ofId; rw [he]; rfl⟩
  obtain ⟨e, he⟩ := h0
  have hi : e.index = l := C01.index_fromIndex he
  refine ⟨e, ?_, hi⟩
  unfold fromLabel
  rw [he]
  cases dbg with
  | false => rfl
  | true => simp [toLabel, hi, h, bind, Except.bind, pure, Except.pure]

theorem length_eq (dbg : Bool) {L : Lengths T} {l : ℕ} (h : HasLabel L l) : L.length dbg l = .ok (labelLength L l) := by
  obtain ⟨h1, h2, h3⟩ := h
  obtain ⟨e, he, hi⟩ := fromLabel_ok dbg h2 h1
  obtain ⟨v, hv⟩ := Option.ne_none_iff_exists'.1 h1
  unfold length
  rw [he]
  simp only [labelLength, hv, Option.elim] at h3 ⊢
  simp [hi, hv, bind, Except.bind, projectPerpendicular_extent, h3, pure, Except.pure]

theorem length_ok {dbg : Bool} {L : Lengths T} {l : ℕ} {x : T} (h : L.length dbg l = .ok x) :
    L.lengths l ≠ none ∧ x = labelLength L l ∧ (dbg = true → 0 < x) := by
  unfold length at h
  cases he : L.fromLabel dbg l with
  | error x => rw [he] at h; cases h
  | ok e =>
    have hi := fromLabel_index he
    rw [he] at h
    cases hv : L.lengths l with
    | none => simp [hi, hv, bind, Except.bind, throw, throwThe, MonadExceptOf.throw] at h
    | some v =>
      simp only [hi, hv, bind, Except.bind, projectPerpendicular_extent] at h
      by_cases hp : dbg = true ∧ ¬ 0 < extent L.vertical v
      · simp [hp, throw, throwThe, MonadExceptOf.throw] at h
      · rw [if_neg hp] at h
        have hx : extent L.vertical v = x := by cases h; rfl
        refine ⟨by simp, by simp [labelLength, hv, hx], fun hd => ?_⟩
        by_contra hc
        exact hp ⟨hd, by rwa [hx]⟩

theorem walkAcross_ok (dbg r : Bool) (v : Vec T) {len : ℕ → T} {rest : List (ContourEdge T)} (hrest : rest ≠ [])
    (subs : List (ContourEdge T)) (back : ℕ) (hb : (subs.map ContourEdge.label).getLast? = some back)
    (hn : (subs.map ContourEdge.label).Nodup)
    (hl : ∀ s ∈ subs, (s.cross.map (extent v)).sum = if r then -len s.label else len s.label) (w : Vec T) :
    ∃ w', walkAcross dbg r back (subs ++ rest) w = .ok w' ∧
      extent v w' = extent v w + ((subs.map ContourEdge.label).map len).sum := by
  induction subs generalizing w with
  | nil => simp at hb
  | cons a subs ih =>
    have ha := hl a (by simp)
    have hw : extent v (walkAlong w (flow r a.cross)) = extent v w + len a.label := by
      rw [extent_walkAlong, extent_flow, ha]
      cases r <;> simp
    have hne : subs ++ rest ≠ [] := by simp [hrest]
    simp only [List.cons_append, walkAcross, hne, and_false, if_false]
    by_cases hs : subs = []
    · subst hs
      have : a.label = back := by simpa using hb
      exact ⟨_, by rw [if_pos this], by simp [hw]⟩
    · have hb' : (subs.map ContourEdge.label).getLast? = some back := by
        rw [← hb, List.map_cons]
        cases subs with
        | nil => exact absurd rfl hs
        | cons b subs => simp [List.getLast?_cons_cons]
      have hne : a.label ≠ back := by
        intro h
        rw [List.map_cons, List.nodup_cons] at hn
        exact hn.1 (h ▸ List.mem_of_getLast? hb')
      obtain ⟨w', h1, h2⟩ := ih hb' (List.nodup_cons.1 hn).2 (fun s hs => hl s (by simp [hs])) (walkAlong w (flow r a.cross))
      refine ⟨w', by rw [if_neg hne, h1], ?_⟩
      rw [h2, hw, List.map_cons, List.map_cons, List.sum_cons, add_assoc]

theorem component_ok (dbg : Bool) {cs : List (ContourPair T)} {c : ContourPair T} {top : Bool} {L : Lengths T} {m : ℕ}
    (h : Subtractable cs c top L m) : component dbg cs m = .ok c := by
  unfold component
  cases hf : cs.find? fun c => decide (c.top.head?.map ContourEdge.label = some m ∨
      c.bottom.head?.map ContourEdge.label = some m) with
  | none =>
    rw [List.find?_eq_none] at hf
    have := hf c h.mem
    cases ht : top with
    | true => simp [h.onTop.1 ht] at this
    | false => simp [h.onBottom ht] at this
  | some d =>
    have h1 := List.find?_some hf
    have h2 := List.mem_of_find?_eq_some hf
    rw [h.unique d h2 (by simpa using h1)]

theorem minuendOnTop_eq {cs : List (ContourPair T)} {c : ContourPair T} {top : Bool} {L : Lengths T} {m : ℕ}
    (h : Subtractable cs c top L m) : minuendOnTop c m = top := by
  unfold minuendOnTop
  cases ht : top with
  | true => simp [h.onTop.1 ht]
  | false =>
    have : ¬ c.top.head?.map ContourEdge.label = some m := fun hc => by
      have := h.onTop.2 hc
      rw [ht] at this
      cases this
    simpa using this

theorem sum_pos {L : Lengths T} (hs : SumOfStack L) (hl : ∀ l ∈ L.stack, HasLabel L l) (hn : L.stack ≠ []) : 0 < L.sum := by
  rw [hs]
  refine List.sum_pos _ ?_ (by simpa using hn)
  intro x hx
  obtain ⟨l, hl', rfl⟩ := List.mem_map.1 hx
  exact (hl l hl').2.2

/-- The lengths after a subtraction. -/
theorem subtractTimes_ok (dbg : Bool) {cs : List (ContourPair T)} {c : ContourPair T} {top : Bool} {L : Lengths T} {m : ℕ}
    (h : Subtractable cs c top L m) (hs : SumOfStack L) (hm : HasLabel L m) (hl : ∀ l ∈ L.stack, HasLabel L l) {n : ℤ}
    (hn : 0 < n) (hfit : (n : T) * L.sum < labelLength L m) :
    ∃ w : Vec T, extent L.vertical w = labelLength L m - (n : T) * L.sum ∧
      L.subtractTimes dbg cs m n =
        .ok ⟨L.vertical, fun l => if l = m then some w else L.lengths l, [], 0⟩ := by
  have hpos := sum_pos hs hl h.nonempty
  have hn' : (0 : T) < n := by exact_mod_cast hn
  have hnp : 0 < (n : T) * L.sum := mul_pos hn' hpos
  obtain ⟨v, hv⟩ := Option.ne_none_iff_exists'.1 hm.1
  have hlv : labelLength L m = extent L.vertical v := by simp [labelLength, hv]
  obtain ⟨back, stack, hst⟩ := List.exists_cons_of_ne_nil h.nonempty
  have hfirst : ∃ a as, (if top then c.top else c.bottom) = a :: as := by
    have : (if top then c.top else c.bottom).head?.map ContourEdge.label = some m := by
      cases ht : top with
      | true => simpa using h.onTop.1 ht
      | false => simpa using h.onBottom ht
    cases hc : (if top then c.top else c.bottom) with
    | nil => rw [hc] at this; cases this
    | cons a as => exact ⟨a, as, rfl⟩
  obtain ⟨a, as, ha⟩ := hfirst
  obtain ⟨subs, rest, hc, hrest, hmap, hcross⟩ := h.stack
  have hleft : ∀ w ∈ a.left, extent L.vertical w = 0 := h.vertical a (by rw [ha]; rfl)
  have hw0 : extent L.vertical (walkAlong 0 (flow (!top) a.left.reverse)) = 0 := by
    have h0 : ((a.left.reverse).map (extent L.vertical)).sum = 0 := by
      rw [List.map_reverse, List.sum_reverse]
      apply List.sum_eq_zero
      intro x hx
      obtain ⟨w, hw, rfl⟩ := List.mem_map.1 hx
      exact hleft w hw
    rw [extent_walkAlong, extent_flow, h0, extent_zero]
    cases top <;> simp
  obtain ⟨w', hw', he'⟩ := walkAcross_ok dbg (!top) L.vertical (len := labelLength L) hrest subs back
    (by rw [hmap, hst]; simp) (by rw [hmap]; exact List.nodup_reverse.2 h.nodup)
    (by
      intro s hs
      rw [hcross s hs]
      cases top <;> simp) (walkAlong 0 (flow (!top) a.left.reverse))
  rw [hw0, zero_add, hmap, List.map_reverse, List.sum_reverse, ← hs] at he'
  have hvec : extent L.vertical ((n : T) • w' + -v) = -(labelLength L m - (n : T) * L.sum) := by
    rw [extent_add, extent_smul, extent_neg, he', hlv]
    ring
  refine ⟨-((n : T) • w' + -v), by rw [extent_neg, hvec, _root_.neg_neg], ?_⟩
  have hccw : Vec.ccwExact L.vertical ((n : T) • w' + -v) = .counterclockwise := by
    have h1 : Vec.cross ((n : T) • w' + -v) L.vertical < 0 := by
      change extent L.vertical _ < 0
      rw [hvec]
      linarith
    generalize (n : T) • w' + -v = u at h1
    have h2 : L.vertical.x * u.y > u.x * L.vertical.y := by
      simp only [Vec.cross] at h1
      linarith [mul_comm u.y L.vertical.x]
    unfold Vec.ccwExact
    rw [if_neg h2.ne', if_pos h2]
  have htot : L.total dbg = .ok L.sum := by
    unfold total
    rw [if_neg (by push Not; intro _; exact hpos.le)]
  have hnew : Lengths.length dbg ({ L with lengths := fun l => if l = m then some (-((n : T) • w' + -v)) else L.lengths l }) m =
      .ok (labelLength L m - (n : T) * L.sum) := by
    have hl' : labelLength ({ L with lengths := fun l => if l = m then some (-((n : T) • w' + -v)) else L.lengths l }) m =
        labelLength L m - (n : T) * L.sum := by
      simp only [labelLength, if_true, Option.elim]
      rw [extent_neg, hvec, _root_.neg_neg]
      rfl
    rw [length_eq dbg ⟨by simp, hm.2.1, by rw [hl']; linarith⟩, hl']
  unfold subtractTimes
  rw [length_eq dbg hm, htot, component_ok dbg h]
  have e1 : ¬ (dbg = true ∧ ¬ 0 < n) := fun h => h.2 hn
  have e2 : ¬ (dbg = true ∧ ¬ 0 < labelLength L m) := fun h => h.2 hm.2.2
  have e3 : ¬ (dbg = true ∧ ¬ 0 < labelLength L m - (n : T) * L.sum) := fun h => h.2 (by linarith)
  have e4 : ¬ (dbg = true ∧ ¬ labelLength L m - (n : T) * L.sum < labelLength L m) := fun h => h.2 (by linarith)
  have e5 : ¬ (dbg = true ∧ Vec.ccwExact L.vertical ((n : T) • w' + -v) ≠ .counterclockwise) := fun h => h.2 hccw
  simp only [e1, e2, e3, e4, if_false, bind, Except.bind, pure, Except.pure, minuendOnTop_eq h]
  simp only [ha, hv, hst]
  rw [hc, hw']
  simp only [hccw]
  cases dbg with
  | false => simp
  | true =>
    simp only [hst] at hnew
    rw [hnew]
    have e6 : labelLength L m - (n : T) * L.sum ≠ 0 := by linarith
    simp [e6]

/-- What a successful subtraction does. -/
theorem subtractTimes_inv {dbg : Bool} {cs : List (ContourPair T)} {L L' : Lengths T} {m : ℕ} {n : ℤ}
    (h : L.subtractTimes dbg cs m n = .ok L') : L'.vertical = L.vertical ∧ L'.stack = [] ∧ L'.sum = 0 ∧
      L.lengths m ≠ none ∧ (∃ w, L'.lengths = fun l => if l = m then some w else L.lengths l) ∧
      (dbg = true → 0 < labelLength L' m) := by
  unfold subtractTimes at h
  by_cases h0 : dbg = true ∧ ¬ 0 < n
  · rw [if_pos h0] at h; cases h
  rw [if_neg h0] at h
  obtain ⟨x, hx, h⟩ := LinearEquivalence.bind_ok h
  try dsimp only at h
  by_cases h1 : dbg = true ∧ ¬ 0 < x
  · rw [if_pos h1] at h; cases h
  rw [if_neg h1] at h
  obtain ⟨s, hs, h⟩ := LinearEquivalence.bind_ok h
  try dsimp only at h
  by_cases h2 : dbg = true ∧ ¬ 0 < x - (n : T) * s
  · rw [if_pos h2] at h; cases h
  rw [if_neg h2] at h
  by_cases h3 : dbg = true ∧ ¬ x - (n : T) * s < x
  · rw [if_pos h3] at h; cases h
  rw [if_neg h3] at h
  obtain ⟨c, hc, h⟩ := LinearEquivalence.bind_ok h
  try dsimp only at h
  split at h
  · rename_i v a as b bs hv _ _
    obtain ⟨w, hw, h⟩ := LinearEquivalence.bind_ok h
    try dsimp only at h
    split at h
    · cases h
    cases dbg with
    | false =>
      cases h
      exact ⟨rfl, rfl, rfl, by simp [hv], ⟨_, rfl⟩, by simp⟩
    | true =>
      rw [if_pos rfl] at h
      obtain ⟨y, hy, h⟩ := LinearEquivalence.bind_ok h
      try dsimp only at h
      split at h
      · cases h
      split at h
      · cases h
      cases h
      refine ⟨rfl, rfl, rfl, by simp [hv], ⟨_, rfl⟩, fun _ => ?_⟩
      obtain ⟨-, e, h⟩ := length_ok hy
      have := h rfl
      rw [e] at this
      exact this
  · cases h
end Verif.Lengths
