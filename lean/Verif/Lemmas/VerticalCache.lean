import Verif.Lemmas.Vertical

/-!
# Caches of vertical directions
-/

set_option linter.unusedSectionVars false

namespace Verif.Vertical

open Spec Tri FlatTri Vec

variable {T : Type} [CommRing T] [LinearOrder T] [IsStrictOrderedRing T]
variable {K : Type*} [Field K] [LinearOrder K] [IsStrictOrderedRing K]

/-- What is in the caches is right. -/
structure Sound (A : Option (Approx T K)) (S : FlatTri T) (v : Vec T) (V : Vertical T) : Prop where
  vertical : V.vertical = v
  perpendicular : ∀ e < S.tri.size, ∀ x, V.perpendicular e = some x → x = cross (S.vec e) v
  parallel : ∀ e < S.tri.size, ∀ x, V.parallel e = some x → x = dot v (S.vec e)
  ccw : ∀ e < S.tri.size, ∀ x, V.ccw e = some x → x = ccwExact v (S.vec e)
  orientation : ∀ e < S.tri.size, ∀ x, V.orientation e = some x → A = none ∨ dot v (S.vec e) ≠ 0 →
    x = orientationExact v (S.vec e)
  large : ∀ e < S.tri.size, ∀ x, V.large (e / 2) = some x → (x = true ↔ IsLarge S v e)

/-- A query returns something that satisfies `P` and keeps the caches right. -/
def Answers {α : Type} (A : Option (Approx T K)) (S : FlatTri T) (v : Vec T) (m : StateM (Vertical T) α) (P : α → Prop) :
    Prop := ∀ V, Sound A S v V → P (m V).1 ∧ Sound A S v (m V).2

theorem Answers.bind {α β : Type} {A : Option (Approx T K)} {S : FlatTri T} {v : Vec T} {m : StateM (Vertical T) α}
    {P : α → Prop} {k : α → StateM (Vertical T) β} {Q : β → Prop} (h : Answers A S v m P)
    (hk : ∀ a, P a → Answers A S v (k a) Q) : Answers A S v (m >>= k) Q := fun V hV =>
  hk _ (h V hV).1 _ (h V hV).2

theorem Answers.pure {α : Type} {A : Option (Approx T K)} {S : FlatTri T} {v : Vec T} {a : α} {P : α → Prop} (h : P a) :
    Answers A S v (Pure.pure a) P := fun _ hV => ⟨h, hV⟩

theorem oddSet_cases {V : Type*} {n : V → V} {g : HE → V} {e : HE} {x y : V} {z : HE}
    (h : Tracked.oddSet n g e x z = y) : z = neg e ∧ y = n x ∨ z = e ∧ y = x ∨ z ≠ e ∧ z ≠ neg e ∧ g z = y := by
  unfold Tracked.oddSet at h
  by_cases h1 : z = neg e
  · subst h1; simp at h; exact .inl ⟨rfl, h.symm⟩
  · by_cases h2 : z = e
    · subst h2; simp [ne_neg] at h; exact .inr (.inl ⟨rfl, h.symm⟩)
    · simp [h1, h2] at h; exact .inr (.inr ⟨h2, h1, h⟩)

theorem cross_neg_l (u w : Vec T) : cross (-u) w = -cross u w := by
  unfold cross; simp only [neg_x, neg_y]; ring

theorem dot_neg_r (u w : Vec T) : dot u (-w) = -dot u w := by
  unfold dot; simp only [neg_x, neg_y]; ring

theorem ccwExact_neg (u w : Vec T) : ccwExact u (-w) = (ccwExact u w).opposite := by
  have hc : cross u (-w) = -cross u w := by unfold cross; simp only [neg_x, neg_y]; ring
  rcases lt_trichotomy (cross u w) 0 with h | h | h
  · rw [ccwExact_clockwise.2 h, ccwExact_ccw.2 (by rw [hc]; linarith)]; rfl
  · rw [ccwExact_collinear.2 h, ccwExact_collinear.2 (by rw [hc]; linarith)]; rfl
  · rw [ccwExact_ccw.2 h, ccwExact_clockwise.2 (by rw [hc]; linarith)]; rfl

theorem orientationExact_neg (u w : Vec T) : orientationExact u (-w) = (orientationExact u w).neg := by
  unfold orientationExact
  rw [dot_neg_r]
  rcases lt_trichotomy (dot u w) 0 with h | h | h
  · rw [if_neg (by linarith), if_pos (by linarith), if_neg h.ne, if_neg (by linarith)]; rfl
  · rw [if_pos (by linarith), if_pos h]; rfl
  · rw [if_neg (by linarith), if_neg (by linarith), if_neg h.ne', if_pos h]; rfl

variable {A : Option (Approx T K)} {S : FlatTri T} {v : Vec T}

theorem perpendicular_answers (h : S.Flat) {e : HE} (he : e < S.tri.size) :
    Answers A S v (projectPerpendicularAt S e) (· = cross (S.vec e) v) := by
  intro V hV
  unfold projectPerpendicularAt
  simp only [bind, StateT.bind, get, getThe, MonadStateOf.get, StateT.get, pure]
  cases hc : V.perpendicular e with
  | some x => exact ⟨hV.perpendicular e he x hc, hV⟩
  | none =>
    refine ⟨by rw [← hV.vertical]; exact projectPerpendicular_eq _ _, hV.vertical, ?_, hV.parallel, hV.ccw, hV.orientation,
      hV.large⟩
    intro z hz x hx
    rcases oddSet_cases hx with ⟨rfl, h2⟩ | ⟨rfl, h2⟩ | ⟨h1, h2, h3⟩
    · injection h2 with h2
      rw [h2, projectPerpendicular_eq, hV.vertical, h.odd e he, cross_neg_l]
    · injection h2 with h2
      rw [h2, projectPerpendicular_eq, hV.vertical]
    · exact hV.perpendicular z hz x h3

theorem parallel_answers (h : S.Flat) {e : HE} (he : e < S.tri.size) :
    Answers A S v (projectAt S e) (· = dot v (S.vec e)) := by
  intro V hV
  unfold projectAt
  simp only [bind, StateT.bind, get, getThe, MonadStateOf.get, StateT.get, pure]
  cases hc : V.parallel e with
  | some x => exact ⟨hV.parallel e he x hc, hV⟩
  | none =>
    refine ⟨by rw [← hV.vertical]; rfl, hV.vertical, hV.perpendicular, ?_, hV.ccw, hV.orientation,
      hV.large⟩
    intro z hz x hx
    rcases oddSet_cases hx with ⟨rfl, h2⟩ | ⟨rfl, h2⟩ | ⟨h1, h2, h3⟩
    · injection h2 with h2
      rw [h2, project, hV.vertical, h.odd e he, dot_neg_r]
    · injection h2 with h2
      rw [h2, project, hV.vertical]
    · exact hV.parallel z hz x h3

theorem ccw_answers (h : S.Flat) {e : HE} (he : e < S.tri.size) :
    Answers A S v (ccwAt S A e) (· = ccwExact v (S.vec e)) := by
  intro V hV
  unfold ccwAt
  simp only [bind, StateT.bind, get, getThe, MonadStateOf.get, StateT.get, pure]
  cases hc : V.ccw e with
  | some x => exact ⟨hV.ccw e he x hc, hV⟩
  | none =>
    refine ⟨by rw [← hV.vertical]; exact ccw_eq A _ _, hV.vertical, hV.perpendicular, hV.parallel, ?_, hV.orientation,
      hV.large⟩
    intro z hz x hx
    rcases oddSet_cases hx with ⟨rfl, h2⟩ | ⟨rfl, h2⟩ | ⟨h1, h2, h3⟩
    · injection h2 with h2
      rw [h2, ccw_eq, hV.vertical, h.odd e he, ccwExact_neg]
    · injection h2 with h2
      rw [h2, ccw_eq, hV.vertical]
    · exact hV.ccw z hz x h3

theorem orientation_exact (A : Option (Approx T K)) {v w : Vec T} (h : A = none ∨ dot v w ≠ 0) :
    Vec.orientation A v w = orientationExact v w := by
  rcases h with rfl | h
  · rfl
  · exact orientation_eq A h

theorem orientation_answers (h : S.Flat) {e : HE} (he : e < S.tri.size) :
    Answers A S v (orientationAt S A e) (fun x => A = none ∨ dot v (S.vec e) ≠ 0 → x = orientationExact v (S.vec e)) := by
  intro V hV
  unfold orientationAt
  simp only [bind, StateT.bind, get, getThe, MonadStateOf.get, StateT.get, pure]
  cases hc : V.orientation e with
  | some x => exact ⟨hV.orientation e he x hc, hV⟩
  | none =>
    refine ⟨by rw [← hV.vertical]; exact fun hx => orientation_exact A hx, hV.vertical, hV.perpendicular, hV.parallel,
      hV.ccw, ?_, hV.large⟩
    intro z hz x hx hd
    rcases oddSet_cases hx with ⟨rfl, h2⟩ | ⟨rfl, h2⟩ | ⟨h1, h2, h3⟩
    · injection h2 with h2
      rw [h.odd e he, dot_neg_r] at hd
      rw [h2, hV.vertical, h.odd e he, orientationExact_neg, orientation_exact A]
      exact hd.imp id fun hx hy => hx (by rw [hy, neg_zero])
    · injection h2 with h2
      rw [h2, hV.vertical, orientation_exact A hd]
    · exact hV.orientation z hz x h3 hd

theorem length_answers (h : S.Flat) {e : HE} (he : e < S.tri.size) :
    Answers A S v (lengthAt S e) (· = horizontalLength S v e) := by
  refine Answers.bind (perpendicular_answers h he) ?_
  rintro _ rfl
  refine Answers.pure ?_
  unfold horizontalLength
  split_ifs with h1
  · exact (abs_of_pos h1).symm
  · exact (abs_of_nonpos (not_lt.1 h1)).symm

theorem isLarge_iff (h : S.Flat) {e : HE} (he : e < S.tri.size) : IsLarge S v e ↔
    horizontalLength S v (S.tri.nextInFace e) ≤ horizontalLength S v e ∧
    horizontalLength S v (S.tri.previousInFace e) ≤ horizontalLength S v e ∧
    horizontalLength S v (S.tri.nextInFace (neg e)) ≤ horizontalLength S v e ∧
    horizontalLength S v (S.tri.previousInFace (neg e)) ≤ horizontalLength S v e := by
  have hn : horizontalLength S v (neg e) = horizontalLength S v e := by
    unfold horizontalLength
    rw [h.odd e he, cross_neg_l, abs_neg]
  unfold IsLarge SideOf
  rw [prev_eq h, prev_eq h]
  constructor
  · intro hx
    exact ⟨hx _ (by tauto), hx _ (by tauto), hx _ (by tauto), hx _ (by tauto)⟩
  · rintro ⟨h1, h2, h3, h4⟩ x hx
    rcases hx with (rfl | rfl | rfl) | (rfl | rfl | rfl)
    · exact le_refl _
    · exact h1
    · exact h2
    · exact hn.le
    · exact h3
    · exact h4

theorem isLarge_neg {e : HE} (h : S.Flat) (he : e < S.tri.size) : IsLarge S v (neg e) ↔ IsLarge S v e := by
  rw [isLarge_iff h he, isLarge_iff h ((h.coh.neg_lt e).2 he), neg_neg']
  have hn : horizontalLength S v (neg e) = horizontalLength S v e := by
    unfold horizontalLength
    rw [h.odd e he, cross_neg_l, abs_neg]
  rw [hn]
  tauto

theorem next_lt (h : S.Flat) {e : HE} (he : e < S.tri.size) : S.tri.nextInFace e < S.tri.size := by
  unfold Tri.nextInFace Tri.size at *
  rwa [← h.coh.hs, h.coh.hf.fwd_lt, h.coh.hs]

theorem large_answers (h : S.Flat) {e : HE} (he : e < S.tri.size) :
    Answers A S v (largeAt S e) (fun x => x = true ↔ IsLarge S v e) := by
  have hn := (h.coh.neg_lt e).2 he
  have l1 := next_lt h he
  have l2 := next_lt h l1
  have l3 := next_lt h hn
  have l4 := next_lt h l3
  intro V hV
  unfold largeAt
  change (fun x => x = true ↔ IsLarge S v e) ((match V.large (e / 2) with
    | some x => (Pure.pure x : StateM (Vertical T) Bool)
    | none => _) V).1 ∧ Sound A S v ((match V.large (e / 2) with
    | some x => (Pure.pure x : StateM (Vertical T) Bool)
    | none => _) V).2
  cases hc : V.large (e / 2) with
  | some x => exact ⟨hV.large e he x hc, hV⟩
  | none =>
    simp only
    refine Answers.bind (Q := fun x => x = true ↔ IsLarge S v e) (length_answers h he) ?_ V hV
    rintro _ rfl
    refine Answers.bind (P := fun x => x = true ↔ IsLarge S v e) ?_ ?_
    · rw [isLarge_iff h he]
      refine Answers.bind (length_answers h l1) ?_
      rintro _ rfl
      by_cases h1 : horizontalLength S v e ≥ horizontalLength S v (S.tri.nextInFace e)
      swap
      · rw [if_pos (by simp [h1])]
        exact Answers.pure ⟨fun hx => (by cases hx), fun hx => absurd hx.1 h1⟩
      rw [if_neg (by simp [h1])]
      refine Answers.bind (length_answers h (by rw [prev_eq h]; exact l2)) ?_
      rintro _ rfl
      by_cases h2 : horizontalLength S v e ≥ horizontalLength S v (S.tri.previousInFace e)
      swap
      · rw [if_pos (by simp [h2])]
        exact Answers.pure ⟨fun hx => (by cases hx), fun hx => absurd hx.2.1 h2⟩
      rw [if_neg (by simp [h2])]
      refine Answers.bind (length_answers h l3) ?_
      rintro _ rfl
      by_cases h3 : horizontalLength S v e ≥ horizontalLength S v (S.tri.nextInFace (neg e))
      swap
      · rw [if_pos (by simp [h3])]
        exact Answers.pure ⟨fun hx => (by cases hx), fun hx => absurd hx.2.2.1 h3⟩
      rw [if_neg (by simp [h3])]
      refine Answers.bind (length_answers h (by rw [prev_eq h]; exact l4)) ?_
      rintro _ rfl
      refine Answers.pure ?_
      rw [decide_eq_true_iff]
      exact ⟨fun hx => ⟨h1, h2, h3, hx⟩, fun hx => hx.2.2.2⟩
    · intro x hx
      refine Answers.bind (P := fun _ => True) (fun V hV => ⟨trivial, ?_⟩) fun _ _ => Answers.pure hx
      refine ⟨hV.vertical, hV.perpendicular, hV.parallel, hV.ccw, hV.orientation, fun z hz y hy => ?_⟩
      by_cases hze : z / 2 = e / 2
      · have : y = x := by
          change Function.update V.large (e / 2) (some x) (z / 2) = some y at hy
          rw [hze] at hy
          simpa using hy.symm
        rw [this, hx]
        have : z = e ∨ z = neg e := by
          have := neg_def e
          split_ifs at this <;> omega
        rcases this with rfl | rfl
        · rfl
        · exact (isLarge_neg h he).symm
      · refine hV.large z hz y ?_
        change Function.update V.large (e / 2) (some x) (z / 2) = some y at hy
        rwa [Function.update_of_ne hze] at hy

/-! ### Flips -/

theorem flip_sides {S S' : FlatTri T} (h : S.Flat) {e a b c d : HE} (q : S.tri.Quad e a b c d) (f : S.Flip S' e a b c d)
    {x : HE} (hx : x ∉ [e, a, b, neg e, c, d]) {y : HE} : (SideOf S' x y ↔ SideOf S x y) ∧
      (SideOf S x y → y ∉ [e, a, b, neg e, c, d]) := by
  have h1 := f.tri.fx x hx
  have hx' := (q.fwd_not_mem h.coh).2 hx
  have h2 := f.tri.fx _ hx'
  unfold SideOf Tri.nextInFace
  rw [h1, h2]
  refine ⟨Iff.rfl, ?_⟩
  rintro (rfl | rfl | rfl)
  · exact hx
  · exact hx'
  · exact (q.fwd_not_mem h.coh).2 hx'

theorem oddSet_none {V : Type*} {n : V → V} {g : HE → Option V} {e z : HE} {x : V}
    (h : Tracked.oddSet (Option.map n) g e none z = some x) : z ≠ e ∧ z ≠ neg e ∧ g z = some x := by
  rcases oddSet_cases h with ⟨-, h1⟩ | ⟨-, h1⟩ | h1
  · cases h1
  · cases h1
  · exact h1

theorem update_none {V : Type*} {g : ℕ → Option V} {i j : ℕ} {x : V} (h : Function.update g i none j = some x) :
    j ≠ i ∧ g j = some x := by
  by_cases hj : j = i
  · subst hj; simp at h
  · rw [Function.update_of_ne hj] at h
    exact ⟨hj, h⟩

theorem half_ne {x y : HE} (h : x / 2 ≠ y / 2) : x ≠ y ∧ x ≠ neg y ∧ neg x ≠ y ∧ neg x ≠ neg y := by
  have h1 := neg_def x
  have h2 := neg_def y
  split_ifs at h1 h2 <;> omega

theorem Sound.afterFlip {S S' : FlatTri T} (h : S.Flat) {e a b c d : HE} (q : S.tri.Quad e a b c d)
    (f : S.Flip S' e a b c d) (h' : S'.Flat) {V : Vertical T} (hV : Sound A S v V) : Sound A S' v (V.afterFlip S' e) := by
  have hs : S'.tri.size = S.tri.size := f.tri.vsize
  have hvec := f.vec_e.2.2
  refine ⟨hV.vertical, ?_, ?_, ?_, ?_, ?_⟩
  · intro z hz x hx
    obtain ⟨h1, h2, h3⟩ := oddSet_none hx
    rw [hvec z h1 h2]
    exact hV.perpendicular z (hs ▸ hz) x h3
  · intro z hz x hx
    obtain ⟨h1, h2, h3⟩ := oddSet_none hx
    rw [hvec z h1 h2]
    exact hV.parallel z (hs ▸ hz) x h3
  · intro z hz x hx
    obtain ⟨h1, h2, h3⟩ := oddSet_none hx
    rw [hvec z h1 h2]
    exact hV.ccw z (hs ▸ hz) x h3
  · intro z hz x hx hd
    obtain ⟨h1, h2, h3⟩ := oddSet_none hx
    rw [hvec z h1 h2] at hd ⊢
    exact hV.orientation z (hs ▸ hz) x h3 hd
  · intro z hz x hx
    have e1 : S'.tri.nextInFace e = b := f.tri.fe
    have e2 : S'.tri.previousInFace e = c := by
      rw [prev_eq h', e1]; exact f.tri.fb
    have e3 : S'.tri.nextInFace (neg e) = d := f.tri.fe'
    have e4 : S'.tri.previousInFace (neg e) = a := by
      rw [prev_eq h', e3]; exact f.tri.fd
    unfold Vertical.afterFlip at hx
    simp only [e1, e2, e3, e4, List.foldl_cons, List.foldl_nil] at hx
    obtain ⟨na, hx⟩ := update_none hx
    obtain ⟨nd, hx⟩ := update_none hx
    obtain ⟨nc, hx⟩ := update_none hx
    obtain ⟨nb, hx⟩ := update_none hx
    obtain ⟨ne, hx⟩ := update_none hx
    have m1 : z ∉ [e, a, b, neg e, c, d] := by
      simp only [List.mem_cons, List.not_mem_nil, or_false, not_or]
      exact ⟨(half_ne ne).1, (half_ne na).1, (half_ne nb).1, (half_ne ne).2.1, (half_ne nc).1, (half_ne nd).1⟩
    have m2 : neg z ∉ [e, a, b, neg e, c, d] := by
      simp only [List.mem_cons, List.not_mem_nil, or_false, not_or]
      exact ⟨(half_ne ne).2.2.1, (half_ne na).2.2.1, (half_ne nb).2.2.1, (half_ne ne).2.2.2, (half_ne nc).2.2.1,
        (half_ne nd).2.2.1⟩
    rw [hV.large z (hs ▸ hz) x hx]
    unfold IsLarge
    have hl : ∀ y, y ∉ [e, a, b, neg e, c, d] → horizontalLength S' v y = horizontalLength S v y := by
      intro y hy
      unfold horizontalLength
      rw [hvec y (fun hc => hy (by simp [hc])) (fun hc => hy (by simp [hc]))]
    rw [hl z m1]
    refine forall_congr' fun y => ?_
    rw [(flip_sides h q f m1).1, (flip_sides h q f m2).1]
    constructor
    · intro hi hy
      rw [hl y (hy.elim (flip_sides h q f m1).2 (flip_sides h q f m2).2)]
      exact hi hy
    · intro hi hy
      rw [← hl y (hy.elim (flip_sides h q f m1).2 (flip_sides h q f m2).2)]
      exact hi hy

theorem sound_make {V : Vertical T} (h : make v = .ok V) : Sound A S v V := by
  unfold make at h
  split_ifs at h
  cases h
  exact ⟨rfl, fun _ _ _ h => (by cases h), fun _ _ _ h => (by cases h), fun _ _ _ h => (by cases h),
    fun _ _ _ h => (by cases h), fun _ _ _ h => (by cases h)⟩

end Verif.Vertical
