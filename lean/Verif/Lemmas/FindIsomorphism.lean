import Verif.Spec.FindIsomorphism
import Verif.Lemmas.Isomorphisms

/-!
# Lemmas about the search for an isomorphism of surfaces
-/

set_option linter.unusedSectionVars false

namespace Verif

open Spec Tri FlatTri

section matching

variable {fits : HE → HE → Bool} {next next' : HE → Option HE}

theorem match_sound : ∀ {fuel : ℕ} {x y : HE} {m m' : HE → Option HE}, matchHalfEdges fits next next' fuel x y m = some (true, m') →
    (∀ a b, m a = some b → m' a = some b) ∧ m' x = some y ∧ ∀ a b, m' a = some b → m a = some b ∨
      (fits a b = true ∧ m' (neg a) = some (neg b) ∧ ∃ a' b', next a = some a' ∧ next' b = some b' ∧ m' a' = some b') := by
  intro fuel
  induction fuel with
  | zero => intro x y m m' h; simp [matchHalfEdges] at h
  | succ fuel ih =>
    intro x y m m' h
    unfold matchHalfEdges at h
    cases hm : m x with
    | some z =>
      simp only [hm, Option.some.injEq, Prod.mk.injEq, decide_eq_true_eq] at h
      obtain ⟨rfl, rfl⟩ := h
      exact ⟨fun a b e => e, hm, fun a b e => .inl e⟩
    | none =>
      simp only [hm] at h
      by_cases hf : fits x y = true
      swap
      · simp [hf] at h
      simp only [hf, Bool.not_true, Bool.false_eq_true, if_false] at h
      cases h1 : matchHalfEdges fits next next' fuel (neg x) (neg y) (Function.update m x (some y)) with
      | none => simp [h1] at h
      | some r =>
        obtain ⟨o, m1⟩ := r
        cases o with
        | false => simp [h1] at h
        | true =>
          simp only [h1] at h
          obtain ⟨i1, i2, i3⟩ := ih h1
          cases hx : next x with
          | none => simp [hx] at h
          | some x1 =>
            cases hy : next' y with
            | none => simp [hx, hy] at h
            | some y1 =>
              simp only [hx, hy] at h
              obtain ⟨j1, j2, j3⟩ := ih h
              have hxy : m1 x = some y := i1 x y (by simp)
              refine ⟨fun a b e => j1 a b (i1 a b ?_), j1 x y hxy, fun a b e => ?_⟩
              · rw [Function.update_of_ne, e]
                rintro rfl
                rw [hm] at e
                cases e
              · rcases j3 a b e with e1 | e1
                · rcases i3 a b e1 with e2 | ⟨e2, e3, a', b', e4, e5, e6⟩
                  · by_cases hax : a = x
                    · subst hax
                      simp only [Function.update_self, Option.some.injEq] at e2
                      subst e2
                      exact .inr ⟨hf, j1 _ _ i2, x1, y1, hx, hy, j2⟩
                    · rw [Function.update_of_ne hax] at e2
                      exact .inl e2
                  · exact .inr ⟨e2, j1 _ _ e3, a', b', e4, e5, j1 _ _ e6⟩
                · exact .inr e1

theorem match_complete {σ : HE → HE} {P : HE → Prop} (hfits : ∀ a, P a → fits a (σ a) = true)
    (hneg : ∀ a, P a → P (neg a) ∧ σ (neg a) = neg (σ a))
    (hnext : ∀ a, P a → ∃ a', next a = some a' ∧ P a' ∧ next' (σ a) = some (σ a')) :
    ∀ {fuel : ℕ} {x : HE} {m : HE → Option HE}, P x → (∀ a b, m a = some b → b = σ a) →
      ∀ {r}, matchHalfEdges fits next next' fuel x (σ x) m = some r → r.1 = true ∧ ∀ a b, r.2 a = some b → b = σ a := by
  intro fuel
  induction fuel with
  | zero => intro x m _ _ r h; simp [matchHalfEdges] at h
  | succ fuel ih =>
    intro x m hx hm r h
    unfold matchHalfEdges at h
    cases hmx : m x with
    | some z =>
      simp only [hmx, Option.some.injEq] at h
      subst h
      exact ⟨by simp [hm x z hmx], hm⟩
    | none =>
      simp only [hmx, hfits x hx, Bool.not_true, Bool.false_eq_true, if_false] at h
      obtain ⟨n1, n2⟩ := hneg x hx
      obtain ⟨x', k1, k2, k3⟩ := hnext x hx
      have hm' : ∀ a b, Function.update m x (some (σ x)) a = some b → b = σ a := by
        intro a b e
        by_cases hax : a = x
        · subst hax
          simpa using e.symm
        · rw [Function.update_of_ne hax] at e
          exact hm a b e
      rw [← n2] at h
      cases h1 : matchHalfEdges fits next next' fuel (neg x) (σ (neg x)) (Function.update m x (some (σ x))) with
      | none => simp [h1] at h
      | some r1 =>
        obtain ⟨o, m1⟩ := r1
        obtain ⟨e1, e2⟩ := ih n1 hm' h1
        simp only at e1
        subst e1
        simp only [h1, k1, k3] at h
        exact ih k2 e2 h

theorem match_ends {F G : Finset HE} (hF : ∀ x ∈ F, neg x ∈ F ∧ ∃ x' ∈ F, next x = some x') (hG : ∀ y ∈ G, neg y ∈ G ∧ ∃ y' ∈ G, next' y = some y') :
    ∀ {fuel : ℕ} {x y : HE} {m : HE → Option HE}, x ∈ F → y ∈ G → (F.filter fun a => m a = none).card < fuel →
      ∃ r, matchHalfEdges fits next next' fuel x y m = some r ∧ (∀ a, r.2 a = none → m a = none) ∧
        ∀ a b, r.2 a = some b → m a = some b ∨ a ∈ F ∧ b ∈ G := by
  intro fuel
  induction fuel with
  | zero => intro x y m _ _ h; omega
  | succ fuel ih =>
    intro x y m hx hy hc
    unfold matchHalfEdges
    cases hm : m x with
    | some z => exact ⟨_, rfl, fun a e => e, fun a b e => .inl e⟩
    | none =>
      simp only
      by_cases hf : fits x y = true
      swap
      · simp only [hf, Bool.not_false, if_true]
        exact ⟨_, rfl, fun a e => e, fun a b e => .inl e⟩
      simp only [hf, Bool.not_true, Bool.false_eq_true, if_false]
      obtain ⟨f1, x', f2, f3⟩ := hF x hx
      obtain ⟨g1, y', g2, g3⟩ := hG y hy
      have hup : ∀ a, Function.update m x (some y) a = none → m a = none ∧ a ≠ x := by
        intro a e
        by_cases hax : a = x
        · subst hax
          simp at e
        · rw [Function.update_of_ne hax] at e
          exact ⟨e, hax⟩
      have hlt : (F.filter fun a => Function.update m x (some y) a = none).card < (F.filter fun a => m a = none).card := by
        apply Finset.card_lt_card
        rw [Finset.ssubset_iff_of_subset (fun a ha => by
          rw [Finset.mem_filter] at ha ⊢
          exact ⟨ha.1, (hup a ha.2).1⟩)]
        exact ⟨x, by simp [hx, hm], by simp⟩
      have hup' : ∀ a b, Function.update m x (some y) a = some b → m a = some b ∨ a ∈ F ∧ b ∈ G := by
        intro a b e
        by_cases hax : a = x
        · subst hax
          simp only [Function.update_self, Option.some.injEq] at e
          exact .inr ⟨hx, e ▸ hy⟩
        · rw [Function.update_of_ne hax] at e
          exact .inl e
      obtain ⟨⟨o, m1⟩, r1, r2, r3⟩ := ih (y := neg y) f1 g1 (by omega : (F.filter fun a => Function.update m x (some y) a = none).card < fuel)
      simp only [r1]
      have hm1 : ∀ a, m1 a = none → m a = none := fun a e => (hup a (r2 a e)).1
      have hm2 : ∀ a b, m1 a = some b → m a = some b ∨ a ∈ F ∧ b ∈ G := fun a b e => (r3 a b e).elim (hup' a b) .inr
      cases o with
      | false => exact ⟨_, rfl, hm1, hm2⟩
      | true =>
        simp only [f3, g3]
        obtain ⟨r', s1, s2, s3⟩ := ih (x := x') (y := y') (m := m1) f2 g2 (by
          have : (F.filter fun a => m1 a = none).card ≤ (F.filter fun a => Function.update m x (some y) a = none).card := by
            apply Finset.card_le_card
            intro a ha
            rw [Finset.mem_filter] at ha ⊢
            exact ⟨ha.1, r2 a ha.2⟩
          omega)
        exact ⟨r', s1, fun a e => hm1 a (s2 a e), fun a b e => (s3 a b e).elim (hm2 a b) .inr⟩

end matching

theorem firstAnswer_none {α β : Type} {f : α → Option (Option β)} {l : List α} : firstAnswer f l = some none ↔ ∀ x ∈ l, f x = some none := by
  induction l with
  | nil => simp [firstAnswer]
  | cons x l ih =>
    unfold firstAnswer
    cases h : f x with
    | none => simp [h]
    | some y => cases y <;> simp [h, ih]

theorem firstAnswer_some {α β : Type} {f : α → Option (Option β)} {l : List α} {y : β} (h : firstAnswer f l = some (some y)) :
    ∃ x ∈ l, f x = some (some y) := by
  induction l with
  | nil => simp [firstAnswer] at h
  | cons x l ih =>
    unfold firstAnswer at h
    cases hx : f x with
    | none => simp [hx] at h
    | some z =>
      cases z with
      | none =>
        simp only [hx] at h
        obtain ⟨x', h1, h2⟩ := ih h
        exact ⟨x', by simp [h1], h2⟩
      | some z =>
        simp only [hx, Option.some.injEq] at h
        subst h
        exact ⟨x, by simp, hx⟩

theorem firstAnswer_ends {α β : Type} {f : α → Option (Option β)} {l : List α} (h : ∀ x ∈ l, ∃ r, f x = some r) : ∃ r, firstAnswer f l = some r := by
  induction l with
  | nil => exact ⟨_, rfl⟩
  | cons x l ih =>
    unfold firstAnswer
    obtain ⟨r, hr⟩ := h x (by simp)
    cases r with
    | none =>
      simp only [hr]
      exact ih fun y hy => h y (by simp [hy])
    | some r => simp only [hr]; exact ⟨_, rfl⟩

namespace FlatTri

variable {T : Type} [CommRing T] [LinearOrder T] [IsStrictOrderedRing T] {S S' : FlatTri T}

theorem fits_iff {filter : HE → HE → Bool} {M : Mat T} {x y : HE} :
    S.fits S' filter M x y = true ↔ filter x y = true ∧ S'.vec y = M.apply (S.vec x) := by
  unfold fits Mat.apply Vec.applyMatrix
  rw [Vec.ext_iff]
  by_cases h1 : filter x y = true
  · by_cases h2 : M.a * (S.vec x).x + M.b * (S.vec x).y = (S'.vec y).x
    · by_cases h3 : M.c * (S.vec x).x + M.d * (S.vec x).y = (S'.vec y).y
      · simp [h1, h2, h3]
      · simp [h1, h2, h3, eq_comm]
    · simp only [h1, Bool.not_true, Bool.false_eq_true, if_false, ne_eq, h2, not_false_eq_true, if_true, true_and, false_iff]
      exact fun e => h2 e.1.symm
  · simp [h1]

/-- Whether half edges can be mapped such that a given half edge has a given image. -/
theorem tryImage_spec {div : T → T → Option T} (hdiv : TrueDivision div) {kind : IsomorphismKind} {fm : T → T → T → T → Bool}
    {fh : HE → HE → Bool} {fuel : ℕ} {F F' : Finset HE} {c c' : HE → HE} {reflect : Bool}
    (hF : ∀ x ∈ F, neg x ∈ F ∧ c x ∈ F ∧ S.nextInCell kind fuel x = some (c x))
    (hF' : ∀ y ∈ F', neg y ∈ F' ∧ c' y ∈ F' ∧ S'.nextInImageCell kind reflect fuel y = some (c' y))
    (hfuel : F.card < fuel) {x y : HE} (hx : x ∈ F) (hy : y ∈ F') (hcorner : Vec.cross (S.vec x) (S.vec (c x)) ≠ 0) :
    ∃ r, tryImage div fuel S S' kind fm fh x (y, reflect) = some r ∧
      (∀ M m, r = some (M, m) → fm M.a M.b M.c M.d = true ∧ (!reflect) = decide (0 < M.det) ∧
        M.apply (S.vec x) = S'.vec y ∧ M.apply (S.vec (c x)) = S'.vec (c' y) ∧ m x = some y ∧
        ∀ a b, m a = some b → a ∈ F ∧ b ∈ F' ∧ (fh a b = true ∧ S'.vec b = M.apply (S.vec a)) ∧ m (neg a) = some (neg b) ∧ m (c a) = some (c' b)) ∧
      (r = none → ¬ ∃ M : Mat T, ∃ σ : HE → HE, fm M.a M.b M.c M.d = true ∧ (!reflect) = decide (0 < M.det) ∧ σ x = y ∧
        ∀ a ∈ F, (fh a (σ a) = true ∧ S'.vec (σ a) = M.apply (S.vec a)) ∧ σ a ∈ F' ∧ σ (neg a) = neg (σ a) ∧ σ (c a) = c' (σ a)) := by
  obtain ⟨x1, x2, x3⟩ := hF x hx
  obtain ⟨y1, y2, y3⟩ := hF' y hy
  have hden : (S.vec x).x * (S.vec (c x)).y - (S.vec x).y * (S.vec (c x)).x ≠ 0 := by
    unfold Vec.cross at hcorner
    exact hcorner
  have key : ∀ p q, div p ((S.vec x).x * (S.vec (c x)).y - (S.vec x).y * (S.vec (c x)).x) = some q ↔
      q * ((S.vec x).x * (S.vec (c x)).y - (S.vec x).y * (S.vec (c x)).x) = p := fun p q => hdiv _ _ hden q
  -- If there is a matrix, then it is the one that is computed.
  have hmat : ∀ M : Mat T, M.apply (S.vec x) = S'.vec y → M.apply (S.vec (c x)) = S'.vec (c' y) →
      div ((S'.vec y).x * (S.vec (c x)).y - (S.vec x).y * (S'.vec (c' y)).x)
        ((S.vec x).x * (S.vec (c x)).y - (S.vec x).y * (S.vec (c x)).x) = some M.a ∧
      div ((S.vec x).x * (S'.vec (c' y)).x - (S'.vec y).x * (S.vec (c x)).x)
        ((S.vec x).x * (S.vec (c x)).y - (S.vec x).y * (S.vec (c x)).x) = some M.b ∧
      div ((S'.vec y).y * (S.vec (c x)).y - (S.vec x).y * (S'.vec (c' y)).y)
        ((S.vec x).x * (S.vec (c x)).y - (S.vec x).y * (S.vec (c x)).x) = some M.c ∧
      div ((S.vec x).x * (S'.vec (c' y)).y - (S'.vec y).y * (S.vec (c x)).x)
        ((S.vec x).x * (S.vec (c x)).y - (S.vec x).y * (S.vec (c x)).x) = some M.d := by
    intro M e1 e2
    rw [key, key, key, key, ← e1, ← e2]
    unfold Mat.apply Vec.applyMatrix
    refine ⟨?_, ?_, ?_, ?_⟩ <;> dsimp only <;> ring
  unfold tryImage
  dsimp only
  rw [x3, y3]
  dsimp only
  split
  · next a b c2 d ea eb ec ed =>
    rw [key] at ea eb ec ed
    have hv : (⟨a, b, c2, d⟩ : Mat T).apply (S.vec x) = S'.vec y := by
      unfold Mat.apply Vec.applyMatrix
      refine Vec.ext ?_ ?_
      · apply mul_right_cancel₀ hden
        linear_combination (S.vec x).x * ea + (S.vec x).y * eb
      · apply mul_right_cancel₀ hden
        linear_combination (S.vec x).x * ec + (S.vec x).y * ed
    have hw : (⟨a, b, c2, d⟩ : Mat T).apply (S.vec (c x)) = S'.vec (c' y) := by
      unfold Mat.apply Vec.applyMatrix
      refine Vec.ext ?_ ?_
      · apply mul_right_cancel₀ hden
        linear_combination (S.vec (c x)).x * ea + (S.vec (c x)).y * eb
      · apply mul_right_cancel₀ hden
        linear_combination (S.vec (c x)).x * ec + (S.vec (c x)).y * ed
    have huniq : ∀ M : Mat T, M.apply (S.vec x) = S'.vec y → M.apply (S.vec (c x)) = S'.vec (c' y) → M = ⟨a, b, c2, d⟩ := by
      intro M e1 e2
      obtain ⟨i1, i2, i3, i4⟩ := hmat M e1 e2
      rw [(key _ _).2 ea] at i1
      rw [(key _ _).2 eb] at i2
      rw [(key _ _).2 ec] at i3
      rw [(key _ _).2 ed] at i4
      exact Mat.ext (Option.some.inj i1).symm (Option.some.inj i2).symm (Option.some.inj i3).symm (Option.some.inj i4).symm
    have hdet : decide (a * d > b * c2) = decide (0 < (⟨a, b, c2, d⟩ : Mat T).det) := by
      unfold Mat.det
      simp [sub_pos]
    rw [hdet]
    by_cases hsgn : (!reflect) = decide (0 < (⟨a, b, c2, d⟩ : Mat T).det)
    swap
    · rw [if_pos (by simpa using hsgn)]
      refine ⟨none, rfl, by simp, fun _ => ?_⟩
      rintro ⟨M, σ, m1, m2, rfl, m3⟩
      obtain ⟨⟨-, n1⟩, -, -, n2⟩ := m3 x hx
      obtain ⟨⟨-, n3⟩, -⟩ := m3 (c x) x2
      rw [n2] at n3
      rw [huniq M n1.symm n3.symm] at m2
      exact hsgn m2
    rw [if_neg (by rw [hsgn]; simp)]
    by_cases hfm : fm a b c2 d = true
    swap
    · rw [if_pos (by simpa using hfm)]
      refine ⟨none, rfl, by simp, fun _ => ?_⟩
      rintro ⟨M, σ, m1, m2, rfl, m3⟩
      obtain ⟨⟨-, n1⟩, -, -, n2⟩ := m3 x hx
      obtain ⟨⟨-, n3⟩, -⟩ := m3 (c x) x2
      rw [n2] at n3
      rw [huniq M n1.symm n3.symm] at m1
      exact hfm m1
    rw [if_neg (by simpa using hfm)]
    obtain ⟨⟨o, m⟩, r1, -, r2⟩ := match_ends (fits := S.fits S' fh ⟨a, b, c2, d⟩) (next := S.nextInCell kind fuel)
      (next' := S'.nextInImageCell kind reflect fuel) (F := F) (G := F') (fun x hx => ⟨(hF x hx).1, _, (hF x hx).2⟩)
      (fun y hy => ⟨(hF' y hy).1, _, (hF' y hy).2⟩) (m := fun _ => none) hx hy
      (lt_of_le_of_lt (Finset.card_filter_le _ _) hfuel)
    rw [r1]
    cases o with
    | false =>
      refine ⟨none, rfl, by simp, fun _ => ?_⟩
      rintro ⟨M, σ, m1, m2, rfl, m3⟩
      obtain ⟨⟨-, n1⟩, -, -, n2⟩ := m3 x hx
      obtain ⟨⟨-, n3⟩, -⟩ := m3 (c x) x2
      rw [n2] at n3
      rw [huniq M n1.symm n3.symm] at m3
      have := match_complete (fits := S.fits S' fh ⟨a, b, c2, d⟩) (next := S.nextInCell kind fuel)
        (next' := S'.nextInImageCell kind reflect fuel) (σ := σ) (P := fun a => a ∈ F) (fun a ha => fits_iff.2 (m3 a ha).1)
        (fun a ha => ⟨(hF a ha).1, (m3 a ha).2.2.1⟩)
        (fun a ha => ⟨c a, (hF a ha).2.2, (hF a ha).2.1, by rw [(m3 a ha).2.2.2]; exact (hF' _ (m3 a ha).2.1).2.2⟩) hx (by simp) r1
      simp at this
    | true =>
      refine ⟨_, rfl, ?_, by simp⟩
      rintro M m' e
      simp only [Option.some.injEq, Prod.mk.injEq] at e
      obtain ⟨rfl, rfl⟩ := e
      obtain ⟨-, s2, s3⟩ := match_sound r1
      refine ⟨hfm, hsgn, hv, hw, s2, fun a' b' e => ?_⟩
      obtain ⟨ha', hb'⟩ : a' ∈ F ∧ b' ∈ F' := by
        rcases r2 a' b' e with e' | e'
        · cases e'
        · exact e'
      rcases s3 a' b' e with e' | ⟨t1, t2, a2, b2, t3, t4, t5⟩
      · cases e'
      rw [(hF a' ha').2.2] at t3
      rw [(hF' b' hb').2.2] at t4
      cases t3
      cases t4
      exact ⟨ha', hb', fits_iff.1 t1, t2, t5⟩
  · next h1 =>
    refine ⟨none, rfl, by simp, fun _ => ?_⟩
    rintro ⟨M, σ, m1, m2, rfl, m3⟩
    obtain ⟨⟨-, n1⟩, -, -, n2⟩ := m3 x hx
    obtain ⟨⟨-, n3⟩, -⟩ := m3 (c x) x2
    rw [n2] at n3
    obtain ⟨i1, i2, i3, i4⟩ := hmat M n1.symm n3.symm
    exact h1 _ _ _ _ i1 i2 i3 i4

/-! ### Sides of cells -/

theorem ignored_iff {kind : IsomorphismKind} {e : HE} : S.ignored kind e = true ↔ Inner S kind e := by
  unfold ignored Inner
  cases kind <;> simp

theorem inner_neg {kind : IsomorphismKind} {e : HE} : Inner S kind (neg e) ↔ Inner S kind e := by
  unfold Inner
  rw [neg_div]

theorem firstSide_unique {turn : HE → HE} {inner : HE → Prop} {e y y' : HE} (h : FirstSide turn inner e y) (h' : FirstSide turn inner e y') :
    y = y' := by
  obtain ⟨k, rfl, h1, h2⟩ := h
  obtain ⟨k', rfl, h1', h2'⟩ := h'
  rcases lt_trichotomy k k' with hk | hk | hk
  · exact absurd (h2' k hk) h1
  · rw [hk]
  · exact absurd (h2 k' hk) h1'

theorem firstSide_skip {turn : HE → HE} {kind : IsomorphismKind} {e y : HE} (h : FirstSide turn (Inner S kind) e y) :
    ∃ N, ∀ fuel ≥ N, skipIgnored turn (S.ignored kind) fuel e = some y := by
  obtain ⟨k, rfl, h1, h2⟩ := h
  refine ⟨k + 1, ?_⟩
  induction k generalizing e with
  | zero =>
    intro fuel hf
    obtain ⟨n, rfl⟩ := Nat.exists_eq_add_of_le hf
    rw [show 0 + 1 + n = n + 1 by omega]
    unfold skipIgnored
    rw [if_neg (by rw [ignored_iff]; exact h1)]
    rfl
  | succ k ih =>
    intro fuel hf
    obtain ⟨n, rfl⟩ := Nat.exists_eq_add_of_le hf
    rw [show k + 1 + 1 + n = k + 1 + n + 1 by omega]
    unfold skipIgnored
    rw [if_pos (show S.ignored kind (turn e) = true from ignored_iff.2 (h2 0 (by omega))), Function.iterate_succ_apply]
    exact ih h1 (fun i hi => h2 (i + 1) (by omega)) _ (by omega)

theorem firstSide_reverse {f g : HE → HE} (hfg : Function.LeftInverse g f) {inner : HE → Prop} {e y : HE} (he : ¬ inner e)
    (h : FirstSide f inner e y) : FirstSide g inner y e := by
  obtain ⟨k, rfl, h1, h2⟩ := h
  have hit : ∀ i, i ≤ k + 1 → g^[i] (f^[k + 1] e) = f^[k + 1 - i] e := by
    intro i hi
    obtain ⟨j, hj⟩ := Nat.exists_eq_add_of_le hi
    rw [hj, show i + j - i = j by omega, Function.iterate_add_apply]
    exact hfg.iterate i _
  refine ⟨k, ?_, he, fun i hi => ?_⟩
  · rw [hit _ le_rfl]
    simp
  · rw [hit _ (by omega), show k + 1 - (i + 1) = k - 1 - i + 1 by omega]
    exact h2 _ (by omega)

theorem firstSide_exists {turn : HE → HE} {inner : HE → Prop} {e : HE} (he : ¬ inner e) (hp : ∃ n, 0 < n ∧ turn^[n] e = e) :
    ∃ y, FirstSide turn inner e y := by
  classical
  have hex : ∃ k, ¬ inner (turn^[k + 1] e) := by
    obtain ⟨n, h1, h2⟩ := hp
    exact ⟨n - 1, by rw [show n - 1 + 1 = n by omega, h2]; exact he⟩
  exact ⟨_, Nat.find hex, rfl, Nat.find_spec hex, fun i hi => not_not.1 (Nat.find_min hex hi)⟩

theorem firstSide_side {f : HE → HE} (hf : ∀ x < S.tri.size, f x < S.tri.size) {kind : IsomorphismKind} {e y : HE} (he : e < S.tri.size)
    (h : FirstSide f (Inner S kind) e y) : CellSide S kind y := by
  obtain ⟨k, rfl, h1, -⟩ := h
  have : ∀ n, f^[n] e < S.tri.size := by
    intro n
    clear h1
    induction n generalizing e with
    | zero => exact he
    | succ n ih => exact ih (hf e he)
  exact ⟨this _, h1⟩

theorem cellSide_neg (h : S.Shut) {kind : IsomorphismKind} {e : HE} (he : CellSide S kind e) : CellSide S kind (neg e) :=
  ⟨h.neg_lt he.1, fun hi => he.2 (inner_neg.1 hi)⟩

theorem period (h : S.Shut) {e : HE} (he : e < S.tri.size) : ∃ n, 0 < n ∧ S.tri.nextAtVertex^[n] e = e := by
  obtain ⟨n, h1, h2⟩ := h.flat.coh.hv.exists_period he
  exact ⟨n, h1, h2.2⟩

theorem period' (h : S.Shut) {e : HE} (he : e < S.tri.size) : ∃ n, 0 < n ∧ S.tri.previousAtVertex^[n] e = e := by
  obtain ⟨n, h1, h2⟩ := period h he
  exact ⟨n, h1, by rw [← h2]; exact (Function.LeftInverse.iterate h.flat.coh.hv.left n e).trans h2.symm⟩

/-- The half edges of a surface that are sides. -/
theorem sides_finite (S : FlatTri T) (kind : IsomorphismKind) : ∃ F : Finset HE, ∀ x, x ∈ F ↔ CellSide S kind x := by
  classical
  refine ⟨(Finset.range S.tri.size).filter fun x => ¬ Inner S kind x, fun x => ?_⟩
  rw [Finset.mem_filter, Finset.mem_range]
  rfl

theorem common_bound {F : Finset HE} {p : HE → ℕ → Prop} (h : ∀ x ∈ F, ∃ N, ∀ n ≥ N, p x n) : ∃ N, ∀ x ∈ F, ∀ n ≥ N, p x n := by
  classical
  have : ∀ x, ∃ N, x ∈ F → ∀ n ≥ N, p x n := fun x => by
    by_cases hx : x ∈ F
    · obtain ⟨N, hN⟩ := h x hx
      exact ⟨N, fun _ => hN⟩
    · exact ⟨0, fun hx' => absurd hx' hx⟩
  choose N hN using this
  exact ⟨F.sup N, fun x hx n hn => hN x hx n (le_trans (Finset.le_sup hx) hn)⟩

/-- The side after a side, and the half edges that are found by `nextInCell` and `nextInImageCell`. -/
theorem cellSides (h : S.Shut) (kind : IsomorphismKind) (reflect : Bool) : ∃ c : HE → HE, ∃ N, ∀ x, CellSide S kind x → CellSide S kind (c x) ∧
    FirstSide (if reflect then S.tri.nextAtVertex else S.tri.previousAtVertex) (Inner S kind) (Verif.neg x) (c x) ∧
    ∀ fuel ≥ N, S.nextInImageCell kind reflect fuel x = some (c x) := by
  have hv := h.flat.coh.hv
  have hturn : ∀ x < S.tri.size, (if reflect then S.tri.nextAtVertex else S.tri.previousAtVertex) x < S.tri.size := by
    intro x hx
    cases reflect
    · exact h.around_lt false hx
    · exact h.around_lt true hx
  have hex : ∀ x, ∃ y, CellSide S kind x →
      FirstSide (if reflect then S.tri.nextAtVertex else S.tri.previousAtVertex) (Inner S kind) (Verif.neg x) y := by
    intro x
    by_cases hx : CellSide S kind x
    · have hn := cellSide_neg h hx
      obtain ⟨y, hy⟩ := firstSide_exists (turn := if reflect then S.tri.nextAtVertex else S.tri.previousAtVertex) hn.2 (by
        cases reflect
        · exact period' h hn.1
        · exact period h hn.1)
      exact ⟨y, fun _ => hy⟩
    · exact ⟨0, fun hx' => absurd hx' hx⟩
  choose c hc using hex
  obtain ⟨F, hF⟩ := sides_finite S kind
  obtain ⟨N, hN⟩ := common_bound (F := F) (p := fun x n => S.nextInImageCell kind reflect n x = some (c x)) fun x hx =>
    firstSide_skip (hc x ((hF x).1 hx))
  exact ⟨c, N, fun x hx => ⟨firstSide_side hturn (cellSide_neg h hx).1 (hc x hx), hc x hx, hN x ((hF x).2 hx)⟩⟩

/-- Like a map of cells, but sides can have several preimages. -/
structure CellCover (S S' : FlatTri T) (kind : IsomorphismKind) (preserving : Bool) (σ : HE → HE) : Prop where
  side : ∀ x, CellSide S kind x → CellSide S' kind (σ x)
  surj : ∀ y, CellSide S' kind y → ∃ x, CellSide S kind x ∧ σ x = y
  opposite : ∀ x, CellSide S kind x → σ (Verif.neg x) = Verif.neg (σ x)
  next : ∀ x y, CellSide S kind x → NextSide S kind x y →
    if preserving then NextSide S' kind (σ x) (σ y) else NextSide S' kind (Verif.neg (σ y)) (Verif.neg (σ x))

/-- If the search is successful, then there is an isomorphism. -/
theorem cellIsomorphism_of_map (h : S.Shut) (h' : S'.Shut) {kind : IsomorphismKind} (hp : ProperCells S kind) (hp' : ProperCells S' kind)
    {F F' : Finset HE} (hF : ∀ x, x ∈ F ↔ CellSide S kind x) (hF' : ∀ x, x ∈ F' ↔ CellSide S' kind x)
    {reflect : Bool} {c c' : HE → HE} (hc : ∀ x, CellSide S kind x → NextSide S kind x (c x))
    (hc' : ∀ x, CellSide S' kind x →
      FirstSide (if reflect then S'.tri.nextAtVertex else S'.tri.previousAtVertex) (Inner S' kind) (Verif.neg x) (c' x))
    {fm : T → T → T → T → Bool} {fh : HE → HE → Bool} {M : Mat T} {m : HE → Option HE}
    (hcover : ∀ σ, CellCover S S' kind (decide (0 < M.det)) σ → (∀ x, CellSide S kind x → S'.vec (σ x) = M.apply (S.vec x)) →
      ∀ x y, CellSide S kind x → CellSide S kind y → σ x = σ y → x = y) (h1 : fm M.a M.b M.c M.d = true)
    (h2 : (!reflect) = decide (0 < M.det)) {x₀ y₀ : HE} (h3 : m x₀ = some y₀)
    (h4 : ∀ a b, m a = some b → a ∈ F ∧ b ∈ F' ∧ (fh a b = true ∧ S'.vec b = M.apply (S.vec a)) ∧ m (Verif.neg a) = some (Verif.neg b) ∧
      m (c a) = some (c' b)) : CellIsomorphism S S' kind fm fh M fun a => (m a).getD 0 := by
  classical
  have hv := h.flat.coh.hv
  have hv' := h'.flat.coh.hv
  have hx₀ := (hF x₀).1 (h4 _ _ h3).1
  have hall : ∀ a, CellSide S kind a → ∃ b, m a = some b := by
    intro a ha
    suffices CellSide S kind a ∧ ∃ b, m a = some b from this.2
    have := hp.path x₀ a hx₀ ha
    clear ha
    induction this with
    | refl => exact ⟨hx₀, _, h3⟩
    | @tail u w hu hw ih =>
      obtain ⟨hu', b, hb⟩ := ih
      obtain ⟨-, -, -, e1, e2⟩ := h4 _ _ hb
      rcases hw with rfl | hw
      · exact ⟨cellSide_neg h hu', _, e1⟩
      · rw [firstSide_unique (hc u hu') hw] at e2
        exact ⟨firstSide_side (fun x hx => h.around_lt false hx) (cellSide_neg h hu').1 hw, _, e2⟩
  have hm : ∀ a, CellSide S kind a → m a = some ((m a).getD 0) := by
    intro a ha
    obtain ⟨b, hb⟩ := hall a ha
    rw [hb]
    rfl
  have hneg : ∀ a, CellSide S kind a → (m (Verif.neg a)).getD 0 = Verif.neg ((m a).getD 0) := by
    intro a ha
    rw [(h4 _ _ (hm a ha)).2.2.2.1]
    rfl
  have hnext : ∀ a, CellSide S kind a → (m (c a)).getD 0 = c' ((m a).getD 0) := by
    intro a ha
    rw [(h4 _ _ (hm a ha)).2.2.2.2]
    rfl
  have hside : ∀ a, CellSide S kind a → CellSide S' kind ((m a).getD 0) := fun a ha => (hF' _).1 (h4 _ _ (hm a ha)).2.1
  have hmap : ∀ a b, CellSide S kind a → NextSide S kind a b → if (!reflect) then NextSide S' kind ((m a).getD 0) ((m b).getD 0)
      else NextSide S' kind (Verif.neg ((m b).getD 0)) (Verif.neg ((m a).getD 0)) := by
    intro a b ha hb
    have e := hc' _ (hside a ha)
    rw [← hnext a ha, firstSide_unique (hc a ha) hb] at e
    cases reflect with
    | false => exact e
    | true =>
      show FirstSide _ _ (Verif.neg (Verif.neg _)) _
      rw [neg_neg']
      exact firstSide_reverse (f := S'.tri.nextAtVertex) (g := S'.tri.previousAtVertex) hv'.left (cellSide_neg h' (hside a ha)).2 e
  have hsurj : ∀ y, CellSide S' kind y → ∃ x, CellSide S kind x ∧ (m x).getD 0 = y := by
    intro y hy
    have := hp'.path _ y (hside x₀ hx₀) hy
    clear hy
    induction this with
    | refl => exact ⟨x₀, hx₀, rfl⟩
    | @tail u w hu hw ih =>
      obtain ⟨x, hx, rfl⟩ := ih
      rcases hw with rfl | hw
      · exact ⟨Verif.neg x, cellSide_neg h hx, hneg x hx⟩
      · cases hr : reflect with
        | false =>
          subst hr
          refine ⟨c x, firstSide_side (fun x hx => h.around_lt false hx) (cellSide_neg h hx).1 (hc x hx), ?_⟩
          rw [hnext x hx]
          exact firstSide_unique (hc' _ (hside x hx)) hw
        | true =>
          subst hr
          obtain ⟨z, hz⟩ := firstSide_exists (turn := S.tri.nextAtVertex) (cellSide_neg h hx).2 (period h (cellSide_neg h hx).1)
          have hz' : CellSide S kind z := firstSide_side (fun x hx => h.around_lt true hx) (cellSide_neg h hx).1 hz
          have hz2 : NextSide S kind (Verif.neg z) (Verif.neg x) := by
            unfold NextSide
            rw [neg_neg']
            exact firstSide_reverse hv.left (cellSide_neg h hx).2 hz
          have e : NextSide S' kind (Verif.neg ((m (Verif.neg x)).getD 0)) (Verif.neg ((m (Verif.neg z)).getD 0)) :=
            hmap _ _ (cellSide_neg h hz') hz2
          rw [hneg x hx, neg_neg', hneg z hz', neg_neg'] at e
          exact ⟨z, hz', firstSide_unique e hw⟩
  rw [h2] at hmap
  have hvec : ∀ a, CellSide S kind a → S'.vec ((m a).getD 0) = M.apply (S.vec a) := fun a ha => (h4 _ _ (hm a ha)).2.2.1.2
  exact ⟨⟨hside, hcover _ ⟨hside, hsurj, hneg, hmap⟩ hvec, hsurj, hneg, hmap⟩, hvec, h1, fun a ha => (h4 _ _ (hm a ha)).2.2.1.1⟩

/-- The search for isomorphisms of cells. -/
theorem isomorphism_cells {K : Type*} [Field K] [LinearOrder K] [IsStrictOrderedRing K] (A : Option (Approx T K)) {dbg : Bool}
    (h : Closed dbg S) (h' : Closed dbg S') {div : T → T → Option T} (hdiv : TrueDivision div) {kind : IsomorphismKind}
    (hp : ProperCells S kind) (hp' : ProperCells S' kind) (hsize : S.tri.size = S'.tri.size)
    (hcover : ∀ (M : Mat T) σ, M.det ≠ 0 → CellCover S S' kind (decide (0 < M.det)) σ → (∀ x, CellSide S kind x → S'.vec (σ x) = M.apply (S.vec x)) →
      ∀ x y, CellSide S kind x → CellSide S kind y → σ x = σ y → x = y)
    (hdel : dbg = true → kind = .delaunayCells → (∀ e ∈ S.tri.edges, S.delaunayAt e ≠ .nonDelaunay) ∧
      ∀ e ∈ S'.tri.edges, S'.delaunayAt e ≠ .nonDelaunay) (fm : T → T → T → T → Bool) (fh : HE → HE → Bool) :
    ∃ N, ∀ fuel ≥ N, ∃ r, isomorphism div A dbg fuel S S' kind fm fh = some (.ok r) ∧
      (r = none ↔ ¬ ∃ M σ, CellIsomorphism S S' kind fm fh M σ) ∧
      ∀ d, r = some d → S.applyMatrix A dbg d.matrix.a d.matrix.b d.matrix.c d.matrix.d = .ok d.linear ∧ CellSide S kind d.preimage ∧
        ∃ σ, CellIsomorphism S S' kind fm fh d.matrix σ ∧ d.image = σ d.preimage := by
  classical
  have hs := h.shut
  have hs' := h'.shut
  obtain ⟨F, hF⟩ := sides_finite S kind
  obtain ⟨F', hF'⟩ := sides_finite S' kind
  obtain ⟨c, N, hc⟩ := cellSides hs kind false
  have hall : ∀ reflect, ∃ c' : HE → HE, ∃ N, ∀ x, CellSide S' kind x → CellSide S' kind (c' x) ∧
    FirstSide (if reflect then S'.tri.nextAtVertex else S'.tri.previousAtVertex) (Inner S' kind) (Verif.neg x) (c' x) ∧
    ∀ fuel ≥ N, S'.nextInImageCell kind reflect fuel x = some (c' x) := fun reflect => cellSides hs' kind reflect
  choose c' N' hc' using hall
  have hb : S.tri.hasBoundary = false := h.closed
  have hb' : S'.tri.hasBoundary = false := h'.closed
  obtain ⟨x₀, hfind⟩ : ∃ x₀, S.tri.halfEdges.find? (fun e => !S.ignored kind e) = some x₀ := by
    obtain ⟨x, hx⟩ := hp.nonempty
    rw [← Option.isSome_iff_exists, List.find?_isSome]
    refine ⟨x, mem_halfEdges.2 hx.1, ?_⟩
    rw [Bool.not_eq_true', ← Bool.not_eq_true, ignored_iff]
    exact hx.2
  have hx₀ : CellSide S kind x₀ := by
    have e := List.find?_some hfind
    rw [Bool.not_eq_true', ← Bool.not_eq_true, ignored_iff] at e
    exact ⟨mem_halfEdges.1 (List.mem_of_find?_eq_some hfind), e⟩
  refine ⟨max (max N (max (N' false) (N' true))) (F.card + 1), fun fuel hfuel => ?_⟩
  have hN : N ≤ fuel := le_trans (le_trans (le_max_left _ _) (le_max_left _ _)) hfuel
  have hN' : ∀ reflect, N' reflect ≤ fuel := fun reflect => by
    cases reflect
    · exact le_trans (le_trans (le_trans (le_max_left _ _) (le_max_right _ _)) (le_max_left _ _)) hfuel
    · exact le_trans (le_trans (le_trans (le_max_right _ _) (le_max_right _ _)) (le_max_left _ _)) hfuel
  have htry : ∀ y reflect, CellSide S' kind y → _ := fun y reflect hy => tryImage_spec (S := S) (S' := S') hdiv (kind := kind) (fm := fm)
    (fh := fh) (fuel := fuel) (F := F) (F' := F') (c := c) (c' := c' reflect) (reflect := reflect) (x := x₀) (y := y)
    (fun x hx => ⟨(hF _).2 (cellSide_neg hs ((hF x).1 hx)), (hF _).2 (hc x ((hF x).1 hx)).1, (hc x ((hF x).1 hx)).2.2 fuel hN⟩)
    (fun y hy => ⟨(hF' _).2 (cellSide_neg hs' ((hF' y).1 hy)), (hF' _).2 (hc' reflect y ((hF' y).1 hy)).1,
      (hc' reflect y ((hF' y).1 hy)).2.2 fuel (hN' reflect)⟩)
    (lt_of_lt_of_le (Nat.lt_succ_self _) (le_trans (le_max_right _ _) hfuel)) ((hF x₀).2 hx₀) ((hF' y).2 hy)
    (hp.corner x₀ (c x₀) hx₀ (hc x₀ hx₀).2.1).ne'
  have hcand : ∀ p : HE × Bool, p ∈ ((S'.tri.halfEdges.filter fun e => !S'.ignored kind e).flatMap fun e => [(e, false), (e, true)]) ↔
      CellSide S' kind p.1 := by
    rintro ⟨y, o⟩
    rw [List.mem_flatMap]
    constructor
    · rintro ⟨e, e1, e2⟩
      rw [List.mem_filter, Bool.not_eq_true', ← Bool.not_eq_true, ignored_iff] at e1
      have : y = e := by
        simp only [List.mem_cons, Prod.mk.injEq, List.not_mem_nil, or_false] at e2
        rcases e2 with e2 | e2 <;> exact e2.1
      subst this
      exact ⟨mem_halfEdges.1 e1.1, e1.2⟩
    · intro hy
      refine ⟨y, ?_, by cases o <;> simp⟩
      rw [List.mem_filter, Bool.not_eq_true', ← Bool.not_eq_true, ignored_iff]
      exact ⟨mem_halfEdges.2 hy.1, hy.2⟩
  obtain ⟨r, hr⟩ := firstAnswer_ends (f := tryImage div fuel S S' kind fm fh x₀)
    (l := (S'.tri.halfEdges.filter fun e => !S'.ignored kind e).flatMap fun e => [(e, false), (e, true)]) fun p hp => by
      obtain ⟨r, hr, -⟩ := htry p.1 p.2 ((hcand p).1 hp)
      exact ⟨r, hr⟩
  have hassert : ∀ U : FlatTri T, (dbg = true → kind = .delaunayCells → ∀ e ∈ U.tri.edges, U.delaunayAt e ≠ .nonDelaunay) →
      ¬ (dbg && decide (kind = .delaunayCells) && !(U.tri.edges.all fun e => decide (U.delaunayAt e ≠ .nonDelaunay))) = true := by
    intro U hU e
    simp only [Bool.and_eq_true, decide_eq_true_eq, Bool.not_eq_true'] at e
    obtain ⟨⟨e1, e2⟩, e3⟩ := e
    rw [← Bool.not_eq_true, List.all_eq_true] at e3
    exact e3 fun x hx => by simpa using hU e1 e2 x hx
  have hrun : isomorphism div A dbg fuel S S' kind fm fh = match (generalizing := false) r with
      | none => some (.ok none)
      | some (M, m) =>
        match S.applyMatrix A dbg M.a M.b M.c M.d with
        | .error e => some (.error e)
        | .ok D =>
          match S.tri.halfEdges.find? fun e => (m e).isSome with
          | none => some (.error (if dbg then .logicError else .undefined))
          | some e => some (.ok (some ⟨M, D, e, (m e).getD 0⟩)) := by
    unfold isomorphism
    rw [if_neg (by rw [hb, hb']; simp), if_neg (by
        unfold Tri.halfEdges
        rw [List.length_range, List.length_range, hsize]
        simp), if_neg (by rw [hb]; simp), if_neg (hassert S fun a b => (hdel a b).1), if_neg (hassert S' fun a b => (hdel a b).2), hfind]
    dsimp only
    rw [hr]
    cases r <;> rfl
  cases r with
  | none =>
    refine ⟨none, hrun, ?_, by simp⟩
    simp only [true_iff]
    rintro ⟨M, σ, hσ⟩
    have hy := hσ.map.side x₀ hx₀
    have e := firstAnswer_none.1 hr (σ x₀, !decide (0 < M.det)) ((hcand _).2 hy)
    obtain ⟨r', e1, -, e3⟩ := htry (σ x₀) (!decide (0 < M.det)) hy
    rw [e1] at e
    cases e
    refine e3 rfl ⟨M, σ, hσ.matrix, by simp, rfl, fun a ha => ?_⟩
    have ha' := (hF a).1 ha
    refine ⟨⟨hσ.halfEdge a ha', hσ.vec a ha'⟩, (hF' _).2 (hσ.map.side a ha'), hσ.map.opposite a ha', ?_⟩
    have hn := hσ.map.next a (c a) ha' (hc a ha').2.1
    have hn' := (hc' (!decide (0 < M.det)) (σ a) (hσ.map.side a ha')).2.1
    by_cases hd : 0 < M.det
    · simp only [hd, decide_true, if_true] at hn
      simp only [hd, decide_true, Bool.not_true, Bool.false_eq_true, if_false] at hn' ⊢
      exact firstSide_unique hn hn'
    · simp only [hd, decide_false, Bool.false_eq_true, if_false] at hn
      simp only [hd, decide_false, Bool.not_false, if_true] at hn' ⊢
      refine firstSide_unique (firstSide_reverse (f := S'.tri.previousAtVertex) hs'.flat.coh.hv.right ?_ ?_) hn'
      · exact (hσ.map.side _ (hc a ha').1).2
      · unfold NextSide at hn
        rwa [neg_neg'] at hn
  | some p =>
    obtain ⟨M, m⟩ := p
    obtain ⟨⟨y₀, reflect⟩, e1, e2⟩ := firstAnswer_some hr
    have hy₀ := (hcand _).1 e1
    obtain ⟨r', f1, f2, -⟩ := htry y₀ reflect hy₀
    rw [e2] at f1
    cases f1
    obtain ⟨g1, g2, g3, g4, g5, g6⟩ := f2 M m rfl
    have hdet : M.det ≠ 0 := by
      intro hd
      have e : Vec.cross (S'.vec y₀) (S'.vec (c' reflect y₀)) = 0 := by
        rw [← g3, ← g4]
        have : Vec.cross (M.apply (S.vec x₀)) (M.apply (S.vec (c x₀))) = M.det * Vec.cross (S.vec x₀) (S.vec (c x₀)) := by
          unfold Mat.apply Vec.applyMatrix Mat.det Vec.cross
          ring
        rw [this, hd, zero_mul]
      have hn := (hc' reflect y₀ hy₀).2.1
      cases reflect with
      | false => exact (hp'.corner _ _ hy₀ hn).ne' e
      | true =>
        have hside := (hc' true y₀ hy₀).1
        have hn2 : NextSide S' kind (Verif.neg (c' true y₀)) (Verif.neg y₀) := by
          unfold NextSide
          rw [neg_neg']
          exact firstSide_reverse (f := S'.tri.nextAtVertex) hs'.flat.coh.hv.left (cellSide_neg hs' hy₀).2 hn
        have hpos := hp'.corner _ _ (cellSide_neg hs' hside) hn2
        rw [hs'.flat.odd _ hside.1, hs'.flat.odd _ hy₀.1] at hpos
        have : Vec.cross (-S'.vec (c' true y₀)) (-S'.vec y₀) = -Vec.cross (S'.vec y₀) (S'.vec (c' true y₀)) := by
          unfold Vec.cross
          simp only [Vec.neg_x, Vec.neg_y]
          ring
        rw [this, e] at hpos
        simp at hpos
    have hiso := cellIsomorphism_of_map hs hs' hp hp' hF hF' (reflect := reflect) (c := c) (c' := c' reflect)
      (fun x hx => (hc x hx).2.1) (fun x hx => (hc' reflect x hx).2.1) (fun σ => hcover M σ hdet) g1 g2 g5 g6
    obtain ⟨D, d1, -⟩ := applyMatrix_image A h hdet
    obtain ⟨x, hx⟩ : ∃ x, S.tri.halfEdges.find? (fun e => (m e).isSome) = some x := by
      rw [← Option.isSome_iff_exists, List.find?_isSome]
      exact ⟨x₀, mem_halfEdges.2 hx₀.1, by rw [g5]; rfl⟩
    simp only [d1, hx] at hrun
    refine ⟨_, hrun, by simpa using ⟨M, _, hiso⟩, ?_⟩
    rintro d hd
    simp only [Option.some.injEq] at hd
    subst hd
    refine ⟨d1, ?_, _, hiso, rfl⟩
    have hsome : (m x).isSome = true := by simpa using List.find?_some hx
    obtain ⟨b, hb⟩ := Option.isSome_iff_exists.1 hsome
    exact (hF x).1 (g6 x b hb).1

end FlatTri

end Verif
