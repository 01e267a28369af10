import Verif.Lemmas.Lengths

/-!
# C46: Lengths arithmetic follows the Zorich induction

The operations on the stack of labels keep the running sum equal to the sum of the labels on the stack. Subtracting removes
the sum of the labels on the stack from the minuend, and subtracting repeatedly removes the largest multiple that keeps the
minuend positive. Labels round trip.
-/

namespace Verif.C46

open Verif Spec Lengths

variable {T : Type} [CommRing T] [LinearOrder T] [IsStrictOrderedRing T]
variable {K : Type} [Field K] [LinearOrder K] [IsStrictOrderedRing K]

/-- Edges can be recovered from their labels. -/
theorem fromLabel_toLabel {dbg : Bool} {L : Lengths T} {e : HE} (he : e < 2 ^ 31) {l : ℕ}
    (h : L.toLabel dbg (Edge.ofHalfEdge e) = .ok l) (hl : L.lengths l ≠ none) :
    L.fromLabel dbg l = .ok (Edge.ofHalfEdge e) := by
  have h1 : (Edge.ofHalfEdge e).index = l := by
    unfold toLabel at h
    split_ifs at h
    cases h
    rfl
  have h2 := C01.fromIndex_index he
  rw [h1] at h2
  have h3 : Edge.ofId ((l : ℤ) + 1) = .ok (Edge.ofHalfEdge e) := h2
  unfold fromLabel
  rw [h3]
  cases dbg with
  | false => rfl
  | true => simp [toLabel, h1, hl, bind, Except.bind, pure, Except.pure]

/-- Labels can be recovered from their edges. -/
theorem toLabel_fromLabel {dbg : Bool} {L : Lengths T} {l : ℕ} {e : Edge} (h : L.fromLabel dbg l = .ok e)
    (hl : L.lengths l ≠ none) : L.toLabel dbg e = .ok l := by
  have := fromLabel_index h
  unfold toLabel
  rw [this, if_neg (fun h => hl h.2)]

/-- The lengths are only created if all lengths are positive. -/
theorem make_correct (A : Option (Approx T K)) (vertical : Vec T) {n : ℕ} (hn : n ≤ 2 ^ 30) (lengths : ℕ → Option (Vec T)) :
    ((∃ L, Lengths.make A vertical n lengths = .ok L) ↔
      ∀ l < n, ∀ v, lengths l = some v → 0 < extent vertical v) ∧
    ∀ L, Lengths.make A vertical n lengths = .ok L → PositiveLengths L ∧ SumOfStack L ∧ L.stack = [] ∧
      L.vertical = vertical ∧ ∀ l < n, L.lengths l = lengths l := by
  have key : ∀ v : Vec T, Vec.ccw A vertical v = .clockwise ↔ 0 < extent vertical v := by
    intro v
    rw [Vec.ccw_eq, Vec.ccwExact_clockwise]
    unfold extent Vec.cross
    constructor <;> intro h <;> linarith [mul_comm v.x vertical.y, mul_comm v.y vertical.x]
  have hany : ((List.range n).any (fun l => match lengths l with
      | none => false
      | some v => decide (Vec.ccw A vertical v ≠ .clockwise))) = true ↔
      ¬ ∀ l < n, ∀ v, lengths l = some v → 0 < extent vertical v := by
    rw [List.any_eq_true]
    constructor
    · rintro ⟨l, hl, h⟩ hc
      cases hv : lengths l with
      | none => simp [hv] at h
      | some v =>
        simp only [hv, decide_eq_true_eq] at h
        exact h ((key v).2 (hc l (List.mem_range.1 hl) v hv))
    · intro h
      push Not at h
      obtain ⟨l, hl, v, hv, h⟩ := h
      refine ⟨l, List.mem_range.2 hl, ?_⟩
      simp only [hv, decide_eq_true_eq]
      exact fun hc => absurd ((key v).1 hc) (not_lt.2 h)
  constructor
  · unfold Lengths.make
    constructor
    · rintro ⟨L, h⟩
      split_ifs at h with hc
      by_contra hcon
      exact hc (hany.2 hcon)
    · intro h
      exact ⟨_, if_neg (fun hc => hany.1 hc h)⟩
  · intro L h
    unfold Lengths.make at h
    split_ifs at h with hc
    have hall : ∀ l < n, ∀ v, lengths l = some v → 0 < extent vertical v := by
      by_contra hcon
      exact hc (hany.2 hcon)
    cases h
    refine ⟨fun l hl => ?_, by simp [SumOfStack], rfl, rfl, fun l hl => by simp [hl]⟩
    have hln : l < n := by
      by_contra hcon
      exact hl (by simp [hcon])
    refine ⟨hl, by omega, ?_⟩
    obtain ⟨v, hv⟩ := Option.ne_none_iff_exists'.1 hl
    simp only [hln, if_true] at hv
    simp only [labelLength, hln, if_true, hv, Option.elim]
    exact hall l hln v hv

/-- Each operation keeps the sum correct. -/
theorem step_sum {dbg : Bool} {floorDiv : T → T → ℤ} {L L' : Lengths T} (hs : SumOfStack L) {op : Lengths.Op T}
    (h : L.step dbg floorDiv op = .ok L') : SumOfStack L' := by
  cases op with
  | push l =>
    simp only [step, push] at h
    split at h
    · cases h
    obtain ⟨x, hx, h⟩ := LinearEquivalence.bind_ok h
    obtain ⟨-, rfl, -⟩ := length_ok hx
    cases h
    simp only [SumOfStack, List.map_cons, List.sum_cons]
    rw [show L.sum = _ from hs, add_comm]
    rfl
  | pop =>
    simp only [step, pop] at h
    cases hst : L.stack with
    | nil => rw [hst] at h; cases h
    | cons l stack =>
      rw [hst] at h
      obtain ⟨x, hx, h⟩ := LinearEquivalence.bind_ok h
      obtain ⟨-, rfl, -⟩ := length_ok hx
      try dsimp only at h
      split at h
      · cases h
      cases h
      simp only [SumOfStack]
      rw [show L.sum = _ from hs, hst, List.map_cons, List.sum_cons, add_sub_cancel_left]
      rfl
  | subtract cs m =>
    obtain ⟨-, h1, h2, -⟩ := subtractTimes_inv (show L.subtractTimes dbg cs m 1 = .ok L' from h)
    simp [SumOfStack, h1, h2]
  | subtractRepeated cs m =>
    obtain ⟨⟨L'', r⟩, h, h'⟩ := LinearEquivalence.bind_ok h
    cases h'
    unfold subtractRepeated at h
    obtain ⟨c, -, h⟩ := LinearEquivalence.bind_ok h
    try dsimp only at h
    split at h
    · cases h
    · cases h
    · split at h
      · obtain ⟨x, hx, h⟩ := LinearEquivalence.bind_ok h
        obtain ⟨s, hs, h⟩ := LinearEquivalence.bind_ok h
        try dsimp only at h
        split at h
        · cases h
        generalize (if (floorDiv x s : T) * s = x then floorDiv x s - 1 else floorDiv x s) = n at h
        split at h
        · cases h
        obtain ⟨M, hM, h⟩ := LinearEquivalence.bind_ok h
        cases h
        obtain ⟨-, h1, h2, -⟩ := subtractTimes_inv hM
        simp [SumOfStack, h1, h2]
      · obtain ⟨M, hM, h⟩ := LinearEquivalence.bind_ok h
        cases h
        obtain ⟨-, h1, h2, -⟩ := subtractTimes_inv hM
        simp [SumOfStack, h1, h2]

/-- After all sequences of operations, the sum is the sum of the labels on the stack. -/
theorem sum_correct {dbg : Bool} {floorDiv : T → T → ℤ} {L L' : Lengths T} (hs : SumOfStack L) {ops : List (Lengths.Op T)}
    (h : L.run dbg floorDiv ops = .ok L') : SumOfStack L' := by
  induction ops generalizing L with
  | nil => cases h; exact hs
  | cons op ops ih =>
    obtain ⟨M, hM, h⟩ := LinearEquivalence.bind_ok h
    exact ih (step_sum hs hM) h

/-- Pushing a label succeeds and adds its length. -/
theorem push_correct (dbg : Bool) {L : Lengths T} {l : ℕ} (hl : HasLabel L l) (hn : l ∉ L.stack) :
    L.push dbg l = .ok { L with stack := l :: L.stack, sum := L.sum + labelLength L l } := by
  unfold push
  rw [if_neg (fun h => hn h.2), length_eq dbg hl]
  rfl

/-- Popping a label undoes pushing it. -/
theorem pop_push (dbg : Bool) {L : Lengths T} (hs : SumOfStack L) {l : ℕ} (hl : HasLabel L l) (hn : l ∉ L.stack) :
    (L.push dbg l >>= fun L => L.pop dbg) = .ok L := by
  rw [push_correct dbg hl hn]
  have h1 : HasLabel { L with stack := l :: L.stack, sum := L.sum + labelLength L l } l := hl
  change (Lengths.pop dbg { L with stack := l :: L.stack, sum := L.sum + labelLength L l }) = _
  unfold pop
  simp only [length_eq dbg h1, bind, Except.bind]
  have h2 : labelLength { L with stack := l :: L.stack, sum := L.sum + labelLength L l } l = labelLength L l := rfl
  rw [h2, add_sub_cancel_right, if_neg]
  · rfl
  · rintro ⟨-, h3, h4⟩
    rw [show L.sum = _ from hs, h3] at h4
    simp at h4

/-- A subtraction removes the sum of the labels on the stack from the minuend, changes nothing else, and clears the
stack. -/
theorem subtract_correct (dbg : Bool) {cs : List (ContourPair T)} {c : ContourPair T} {top : Bool} {L : Lengths T} {m : ℕ}
    (h : Subtractable cs c top L m) (hs : SumOfStack L) (hp : PositiveLengths L) (hm : L.lengths m ≠ none)
    (hl : ∀ l ∈ L.stack, L.lengths l ≠ none) (hfit : (L.stack.map (labelLength L)).sum < labelLength L m) :
    ∃ L', L.subtract dbg cs m = .ok L' ∧ PositiveLengths L' ∧
      labelLength L' m = labelLength L m - (L.stack.map (labelLength L)).sum ∧
      (∀ l ≠ m, L'.lengths l = L.lengths l) ∧ L'.vertical = L.vertical ∧ L'.stack = [] ∧ SumOfStack L' := by
  rw [← show L.sum = _ from hs] at hfit ⊢
  obtain ⟨w, hw, he⟩ := subtractTimes_ok dbg h hs (hp m hm) (fun l hl' => hp l (hl l hl')) (n := 1) one_pos
    (by simpa using hfit)
  simp only [Int.cast_one, one_mul] at hw
  refine ⟨_, he, fun l hl' => ⟨hl', ?_, ?_⟩, ?_, fun l hl' => by simp [hl'], rfl, rfl, by simp [SumOfStack]⟩
  · by_cases e : l = m
    · subst e
      exact (hp l hm).2.1
    · exact (hp l (by simpa [e] using hl')).2.1
  · by_cases e : l = m
    · subst e
      simp only [labelLength, if_true, Option.elim]
      rw [hw]
      linarith
    · have := (hp l (by simpa [e] using hl')).2.2
      simpa [labelLength, e] using this
  · simp only [labelLength, if_true, Option.elim]
    rw [hw]
    rfl

/-- Subtracting repeatedly removes a multiple of the sum of the labels on the stack from the minuend, changes nothing else,
clears the stack, and returns the label that was on top of the stack. The minuend stays positive. If there are no
connections to the left of the minuend on the other contour, then what remains is not longer than the labels on the stack,
i.e., the multiple is the largest possible. Otherwise, it is subtracted once. -/
theorem subtractRepeated_correct (dbg : Bool) {floorDiv : T → T → ℤ} (hdiv : IsFloorDiv floorDiv)
    {cs : List (ContourPair T)} {c : ContourPair T} {top : Bool} {L : Lengths T} {m : ℕ}
    (h : Subtractable cs c top L m) (hs : SumOfStack L) (hp : PositiveLengths L) (hm : L.lengths m ≠ none)
    (hl : ∀ l ∈ L.stack, L.lengths l ≠ none) (hfit : (L.stack.map (labelLength L)).sum < labelLength L m)
    {pre post : List (ContourEdge T)} {a : ContourEdge T} (ha : (if top then c.bottom else c.top) = pre ++ a :: post)
    (hal : a.label = m) (hpre : ∀ b ∈ pre, b.label ≠ m) :
    ∃ L' back n, L.subtractRepeated dbg floorDiv cs m = .ok (L', back) ∧ L.stack.head? = some back ∧
      1 ≤ n ∧ labelLength L' m = labelLength L m - (n : ℤ) * (L.stack.map (labelLength L)).sum ∧
      (a.left = [] → labelLength L' m ≤ (L.stack.map (labelLength L)).sum) ∧ (a.left ≠ [] → n = 1) ∧
      PositiveLengths L' ∧ (∀ l ≠ m, L'.lengths l = L.lengths l) ∧ L'.vertical = L.vertical ∧ L'.stack = [] ∧
      SumOfStack L' := by
  rw [← show L.sum = _ from hs] at hfit ⊢
  have hl' : ∀ l ∈ L.stack, HasLabel L l := fun l hl' => hp l (hl l hl')
  have hpos := sum_pos hs hl' h.nonempty
  obtain ⟨back, stack, hst⟩ := List.exists_cons_of_ne_nil h.nonempty
  have hfind : (if top then c.bottom else c.top).find? (fun c => decide (c.label = m)) = some a := by
    rw [ha, List.find?_append, List.find?_eq_none.2 (by simpa using hpre)]
    simp [hal]
  have result : ∀ n : ℤ, 1 ≤ n → (n : T) * L.sum < labelLength L m → (a.left = [] → labelLength L m - (n : T) * L.sum ≤ L.sum) →
      (a.left ≠ [] → n = 1) →
      L.subtractRepeated dbg floorDiv cs m = (L.subtractTimes dbg cs m n >>= fun L' => .ok (L', back)) →
      ∃ L' back n, L.subtractRepeated dbg floorDiv cs m = .ok (L', back) ∧ L.stack.head? = some back ∧
      1 ≤ n ∧ labelLength L' m = labelLength L m - (n : ℤ) * L.sum ∧
      (a.left = [] → labelLength L' m ≤ L.sum) ∧ (a.left ≠ [] → n = 1) ∧
      PositiveLengths L' ∧ (∀ l ≠ m, L'.lengths l = L.lengths l) ∧ L'.vertical = L.vertical ∧ L'.stack = [] ∧
      SumOfStack L' := by
    intro n hn hfit' hmax hone heq
    obtain ⟨w, hw, he⟩ := subtractTimes_ok dbg h hs (hp m hm) hl' (n := n) (by omega) hfit'
    rw [heq, he]
    have hlen : labelLength ⟨L.vertical, fun l => if l = m then some w else L.lengths l, [], 0⟩ m =
        labelLength L m - (n : T) * L.sum := by
      simp only [labelLength, if_true, Option.elim]
      rw [hw]
      rfl
    refine ⟨_, back, n, rfl, by simp [hst], hn, hlen, fun h0 => by rw [hlen]; exact hmax h0, hone, fun l hl' => ⟨hl', ?_, ?_⟩,
      fun l hl' => by simp [hl'], rfl, rfl, by simp [SumOfStack]⟩
    · by_cases e : l = m
      · subst e
        exact (hp l hm).2.1
      · exact (hp l (by simpa [e] using hl')).2.1
    · by_cases e : l = m
      · subst e
        rw [hlen]
        linarith
      · have := (hp l (by simpa [e] using hl')).2.2
        simpa [labelLength, e] using this
  have htot : L.total dbg = .ok L.sum := by
    unfold total
    rw [if_neg (by push Not; intro _; exact hpos.le)]
  by_cases hleft : a.left = []
  · obtain ⟨d1, d2⟩ := hdiv (labelLength L m) L.sum hpos
    set q := floorDiv (labelLength L m) L.sum with hq
    have hcast : ∀ k : ℤ, (k : T) * L.sum ≤ labelLength L m → labelLength L m < ((k : T) + 1) * L.sum →
        (k : T) * L.sum ≠ labelLength L m → 1 ≤ k := by
      intro k k1 k2 k3
      by_contra hc
      have : (k : T) + 1 ≤ 1 := by exact_mod_cast (by omega : k + 1 ≤ 1)
      have := mul_le_mul_of_nonneg_right this hpos.le
      linarith
    by_cases hex : (q : T) * L.sum = labelLength L m
    · refine result (q - 1) ?_ ?_ ?_ (fun h => absurd hleft h) ?_
      · by_contra hc
        have : (q : T) ≤ 1 := by exact_mod_cast (by omega : q ≤ 1)
        have := mul_le_mul_of_nonneg_right this hpos.le
        linarith
      · push_cast
        linarith [sub_mul (q : T) 1 L.sum]
      · intro _
        push_cast
        linarith [sub_mul (q : T) 1 L.sum]
      · have hq1 : 0 < q - 1 := by
          by_contra hc
          have : (q : T) ≤ 1 := by exact_mod_cast (by omega : q ≤ 1)
          have := mul_le_mul_of_nonneg_right this hpos.le
          linarith
        unfold subtractRepeated
        rw [component_ok dbg h]
        simp only [bind, Except.bind, minuendOnTop_eq h, hfind, hst]
        rw [if_pos (by simp [hleft]), length_eq dbg (hp m hm), htot]
        dsimp only
        rw [if_neg hpos.ne', ← hq, if_pos hex, if_neg (fun h => h.2 hq1)]
        rfl
    · have hq1 := hcast q d1 d2 hex
      refine result q hq1 (lt_of_le_of_ne d1 hex) ?_ (fun h => absurd hleft h) ?_
      · intro _
        linarith [add_mul (q : T) 1 L.sum]
      · unfold subtractRepeated
        rw [component_ok dbg h]
        simp only [bind, Except.bind, minuendOnTop_eq h, hfind, hst]
        rw [if_pos (by simp [hleft]), length_eq dbg (hp m hm), htot]
        dsimp only
        rw [if_neg hpos.ne', ← hq, if_neg hex, if_neg (fun h => h.2 (by omega))]
        rfl
  · refine result 1 le_rfl (by simpa using hfit) (fun h => absurd h hleft) (fun _ => rfl) ?_
    unfold subtractRepeated
    rw [component_ok dbg h]
    simp only [bind, Except.bind, minuendOnTop_eq h, hfind, hst]
    rw [if_neg (by simpa using hleft)]
    rfl

/-- The sum of the labels on the stack is compared to a label by length, and labels are compared by length. -/
theorem cmp_correct (dbg : Bool) {L : Lengths T} (hs : SumOfStack L) (hl : ∀ l ∈ L.stack, HasLabel L l) {a b : ℕ}
    (ha : HasLabel L a) (hb : HasLabel L b) :
    L.cmp dbg a = .ok (if (L.stack.map (labelLength L)).sum < labelLength L a then -1
      else if labelLength L a < (L.stack.map (labelLength L)).sum then 1 else 0) ∧
    L.cmpLabels dbg a b = .ok (if labelLength L a < labelLength L b then -1
      else if labelLength L b < labelLength L a then 1 else 0) := by
  have h0 : 0 ≤ L.sum := by
    rw [hs]
    apply List.sum_nonneg
    intro x hx
    obtain ⟨l, hl', rfl⟩ := List.mem_map.1 hx
    exact (hl l hl').2.2.le
  have htot : L.total dbg = .ok L.sum := by
    unfold total
    rw [if_neg (by push Not; intro _; exact h0)]
  constructor
  · unfold Lengths.cmp
    rw [htot, length_eq dbg ha, ← show L.sum = _ from hs]
    rfl
  · unfold cmpLabels
    rw [length_eq dbg ha, length_eq dbg hb]
    rfl

/-! ### Examples -/

/-- Two labels of lengths 5 and 2. -/
def lengthsExample : Lengths ℤ := ⟨⟨0, 1⟩, fun l => if l = 0 then some ⟨5, 1⟩ else if l = 1 then some ⟨2, 3⟩ else none, [1], 2⟩

/-- The labels are in the opposite order on top and bottom. -/
def contourExample : ContourPair ℤ :=
  ⟨[⟨0, [⟨0, 1⟩], [⟨-5, -1⟩]⟩, ⟨1, [], [⟨-2, -3⟩]⟩], [⟨1, [], [⟨2, 3⟩]⟩, ⟨0, [], [⟨5, 1⟩]⟩]⟩

theorem example_subtractable : Subtractable [contourExample] contourExample true lengthsExample 0 where
  mem := by simp
  unique := by simp
  onTop := by simp [contourExample]
  onBottom := by simp
  vertical := by
    intro a ha v hv
    simp only [contourExample, if_true, List.head?_cons, Option.mem_def, Option.some.injEq] at ha
    subst ha
    simp only [List.mem_singleton] at hv
    subst hv
    decide
  nonempty := by simp [lengthsExample]
  stack := ⟨[⟨1, [], [⟨2, 3⟩]⟩], [⟨0, [], [⟨5, 1⟩]⟩], rfl, by simp, rfl, by
    intro s hs
    simp only [List.mem_singleton] at hs
    subst hs
    decide⟩
  nodup := by simp [lengthsExample]

example : SumOfStack lengthsExample ∧ PositiveLengths lengthsExample := by
  refine ⟨by simp [SumOfStack, lengthsExample, labelLength, extent, Vec.cross], fun l hl => ⟨hl, ?_, ?_⟩⟩
  · by_contra hc
    have h0 : l ≠ 0 := by omega
    have h1 : l ≠ 1 := by omega
    simp [lengthsExample, h0, h1] at hl
  · by_cases h0 : l = 0
    · subst h0; decide
    · by_cases h1 : l = 1
      · subst h1; decide
      · simp [lengthsExample, h0, h1] at hl

example : IsFloorDiv (fun a b : ℤ => a / b) := by
  intro a b hb
  simp only [Int.cast_id]
  exact ⟨Int.ediv_mul_le a hb.ne', Int.lt_ediv_add_one_mul_self a hb⟩

/-- The label of length 2 is subtracted twice from the label of length 5. -/
example : ((lengthsExample.subtractRepeated true (fun a b : ℤ => a / b) [contourExample] 0).map fun L =>
    (labelLength L.1 0, L.2)) = .ok (1, 1) := rfl

end Verif.C46
