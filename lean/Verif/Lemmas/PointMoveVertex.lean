import Verif.Lemmas.PointMove

/-!
# Lemmas about moving a vertex
-/

namespace Verif

open Spec Tri FlatTri Vec SaddleSearch

variable {T : Type} [CommRing T] [LinearOrder T] [IsStrictOrderedRing T]
variable {K : Type} [Field K] [LinearOrder K] [IsStrictOrderedRing K]

namespace Move

variable {S : FlatTri T} {f : T →+* ℝ} {free : HE → Prop} {V : Vec ℝ} {e x : HE} {q : Vec T} {l s ε ρ : ℝ}

/-- A slower velocity takes more time. -/
theorem _root_.Verif.Spec.Travels.scale {c t : ℝ} {a b : HE × Vec ℝ} (hc : 0 ≤ c) (h : Travels f S free (c • V) t a b) :
    Travels f S free V (t * c) a b := by
  induction h with
  | @move e w t ht h1 h2 =>
    have : w + t • c • V = w + (t * c) • V := by rw [mul_smul]
    rw [this] at h2 ⊢
    exact .move (mul_nonneg ht hc) h1 h2
  | rotate => rw [zero_mul]; exact .rotate
  | glue h1 h2 h3 h4 => rw [zero_mul]; exact .glue h1 h2 h3 h4
  | trans _ _ ih1 ih2 => rw [add_mul]; exact ih1.trans ih2

/-- The triangle of a half edge. -/
theorem corner (h : S.Shut) (hf : StrictMono f) (he : e < S.tri.size) :
    (S.vec (S.tri.nextInFace e)).map f = (S.vec (S.tri.nextAtVertex e)).map f - (S.vec e).map f ∧
    (S.vec (S.tri.nextInFace (S.tri.nextInFace e))).map f = -(S.vec (S.tri.nextAtVertex e)).map f ∧
    0 < cross ((S.vec e).map f) ((S.vec (S.tri.nextAtVertex e)).map f) := by
  obtain ⟨r1, r2⟩ := root h he
  have hsum := h.flat.closed e (h.nb e he)
  have : S.vec (S.tri.nextInFace (S.tri.nextInFace e)) = -(S.vec e + S.vec (S.tri.nextInFace e)) := by
    rw [eq_neg_iff_add_eq_zero, add_comm]
    exact hsum
  rw [this, r1]
  refine ⟨?_, ?_, ?_⟩
  · ext
    · simp only [Vec.map, add_x, sub_x, map_add]; ring
    · simp only [Vec.map, add_y, sub_y, map_add]; ring
  · ext
    · simp only [Vec.map, add_x, neg_x, map_add, map_neg]
    · simp only [Vec.map, add_y, neg_y, map_add, map_neg]
  · rw [cross_map, ← map_zero f]
    exact hf r2

theorem inTriangle_corner (h : S.Shut) (hf : StrictMono f) (he : e < S.tri.size) (w : Vec ℝ) :
    InTriangle f S e w ↔ 0 ≤ cross ((S.vec e).map f) w ∧
      0 ≤ cross ((S.vec (S.tri.nextAtVertex e)).map f - (S.vec e).map f) (w - (S.vec e).map f) ∧
      0 ≤ cross w ((S.vec (S.tri.nextAtVertex e)).map f) := by
  obtain ⟨c1, c2, -⟩ := corner h hf he
  unfold InTriangle
  rw [c1, c2]
  have : cross (-(S.vec (S.tri.nextAtVertex e)).map f) w = cross w ((S.vec (S.tri.nextAtVertex e)).map f) := by
    simp only [cross, neg_x, neg_y]; ring
  rw [this]

theorem inTriangle_zero (h : S.Shut) (hf : StrictMono f) (he : e < S.tri.size) : InTriangle f S e 0 := by
  obtain ⟨-, -, c3⟩ := corner h hf he
  rw [inTriangle_corner h hf he]
  refine ⟨by simp [cross], ?_, by simp [cross]⟩
  simp only [cross, sub_x, sub_y, zero_x, zero_y] at c3 ⊢
  linarith

/-- Turning around a vertex that may be crossed. -/
theorem turn_step (h : S.Shut) (he : e < S.tri.size) (hfree : free (S.tri.nextAtVertex e)) :
    Travels f S free V 0 (e, 0) (S.tri.nextAtVertex e, 0) := by
  have hn : S.tri.nextAtVertex e = neg (S.tri.nextInFace (S.tri.nextInFace e)) := by rw [← prev_eq h he, neg_neg']
  have hsum := h.flat.closed e (h.nb e he)
  have h1 : Travels f S free V 0 (e, 0) _ := .rotate
  have h2 : Travels f S free V 0 (S.tri.nextInFace e, 0 - (S.vec e).map f) _ := .rotate
  have e1 : (0 : Vec ℝ) - (S.vec e).map f - (S.vec (S.tri.nextInFace e)).map f =
      (1 : ℝ) • (S.vec (S.tri.nextInFace (S.tri.nextInFace e))).map f := by
    have : S.vec (S.tri.nextInFace (S.tri.nextInFace e)) = -(S.vec e + S.vec (S.tri.nextInFace e)) := by
      rw [eq_neg_iff_add_eq_zero, add_comm]
      exact hsum
    rw [this, one_smul]
    ext
    · simp only [Vec.map, neg_x, add_x, sub_x, zero_x, map_neg, map_add]; ring
    · simp only [Vec.map, neg_y, add_y, sub_y, zero_y, map_neg, map_add]; ring
  rw [e1] at h2
  have h3 : Travels f S free V 0 (S.tri.nextInFace (S.tri.nextInFace e), (1 : ℝ) • (S.vec (S.tri.nextInFace (S.tri.nextInFace e))).map f)
      (neg (S.tri.nextInFace (S.tri.nextInFace e)), ((1 : ℝ) - 1) • (S.vec (S.tri.nextInFace (S.tri.nextInFace e))).map f) :=
    .glue zero_le_one le_rfl (fun k => absurd k one_ne_zero) fun _ => by rw [← hn]; exact hfree
  have h4 := (h1.trans h2).trans h3
  rw [← hn, sub_self, zero_smul, add_zero, add_zero] at h4
  exact h4

theorem turn (h : S.Shut) (hf : StrictMono f) (he : e < S.tri.size) (hfree : ∀ y, S.tri.vertices.Orb e y → free y) (n : ℕ) :
    Travels f S free V 0 (e, 0) (S.tri.nextAtVertex^[n] e, 0) ∧ S.tri.nextAtVertex^[n] e < S.tri.size ∧
      S.tri.vertices.Orb e (S.tri.nextAtVertex^[n] e) := by
  induction n with
  | zero =>
    refine ⟨?_, he, .refl _ e⟩
    have h0 := inTriangle_zero h hf he
    have : Travels f S free V 0 (e, 0) (e, 0 + (0 : ℝ) • V) :=
      .move le_rfl h0 (by rw [zero_smul, add_zero]; exact h0)
    rwa [zero_smul, add_zero] at this
  | succ n ih =>
    obtain ⟨i1, i2, i3⟩ := ih
    have ho := i3.trans (Perm.Orb.step _ _)
    rw [Function.iterate_succ_apply']
    refine ⟨?_, ho.lt h.flat.coh.hv he, ho⟩
    have := i1.trans (turn_step h i2 (hfree _ ho) (f := f) (V := V))
    rwa [add_zero] at this

/-- The first half edge that is crossed. -/
theorem first (h : S.Shut) (hf : StrictMono f) (he : e < S.tri.size) {δ D : ℝ} (hδ : 0 < δ) (hD : 0 < D) (hρ : 0 ≤ ρ)
    (hV : dot V V = ρ ^ 2)
    (harea : δ ≤ cross ((S.vec e).map f) ((S.vec (S.tri.nextInFace e)).map f))
    (hsize : dot ((S.vec (S.tri.nextInFace e)).map f) ((S.vec (S.tri.nextInFace e)).map f) ≤ D ^ 2)
    (h1 : 0 ≤ cross ((S.vec e).map f) V) (h2 : 0 < cross V ((S.vec (S.tri.nextAtVertex e)).map f))
    (hn : ¬InTriangle f S e V) (hfree : 0 < cross ((S.vec e).map f) V ∨ free (S.tri.nextInFace e)) :
    ∃ l s, 0 ≤ l ∧ Comes f S free V e (S.tri.nextInFace e) (S.vec e + S.vec (S.tri.nextInFace e)) (δ / D) ρ l s := by
  obtain ⟨c1, c2, c3⟩ := corner h hf he
  obtain ⟨r1, -⟩ := root h he
  have hin := inTriangle_corner h hf he
  have hp : S.vec e + S.vec (S.tri.nextInFace e) - S.vec (S.tri.nextInFace e) = S.vec e := by abel
  set p := (S.vec e).map f with hpdef
  set q := (S.vec (S.tri.nextAtVertex e)).map f with hqdef
  rw [c1] at harea hsize
  have hd : 0 < cross p V + cross V q := by linarith
  have key : (cross p q / (cross p V + cross V q)) • V = p + (cross p V / (cross p V + cross V q)) • (q - p) := by
    ext
    · simp only [smul_x, add_x, sub_x]
      field_simp
      simp only [cross]; ring
    · simp only [smul_y, add_y, sub_y]
      field_simp
      simp only [cross]; ring
  have hs0 : 0 ≤ cross p V / (cross p V + cross V q) := div_nonneg h1 hd.le
  have hs1 : cross p V / (cross p V + cross V q) < 1 := (div_lt_one hd).2 (by linarith)
  have hsf : 0 < cross p V → 0 < cross p V / (cross p V + cross V q) := fun k => div_pos k hd
  have hl0 : 0 < cross p q / (cross p V + cross V q) := div_pos c3 hd
  set l := cross p q / (cross p V + cross V q)
  set s := cross p V / (cross p V + cross V q)
  have hin1 : InTriangle f S e (l • V) := by
    rw [hin]
    refine ⟨?_, ?_, ?_⟩
    · have : cross p (l • V) = l * cross p V := by simp only [cross, smul_x, smul_y]; ring
      rw [this]; positivity
    · rw [key]
      have : cross (q - p) (p + s • (q - p) - p) = 0 := by simp only [cross, smul_x, smul_y, add_x, add_y, sub_x, sub_y]; ring
      rw [this]
    · have : cross (l • V) q = l * cross V q := by simp only [cross, smul_x, smul_y]; ring
      rw [this]; positivity
  have hin0 := inTriangle_zero h hf he
  have hl1 : l ≤ 1 := by
    by_contra hk
    push Not at hk
    apply hn
    have := Spec.InTriangle.between (f := f) (S := S) (e := e) (v := V) (d := 0) (l := 0) (l' := l) (by simpa using hin0) (by simpa using hin1)
      zero_le_one hk.le
    simpa using this
  have t1 : Travels f S free V l (e, 0) (e, 0 + l • V) := .move hl0.le hin0 (by rw [zero_add]; exact hin1)
  have t2 : Travels f S free V 0 (e, 0 + l • V) _ := .rotate
  have t3 := t1.trans t2
  have e1 : 0 + l • V - (S.vec e).map f = s • (q - p) := by rw [key]; abel
  rw [e1, add_zero] at t3
  refine ⟨l, s, hl0.le, hl1, hs0, hs1, fun k => ?_, ?_, ?_, ?_⟩
  · rcases hfree with hfree | hfree
    · exact absurd k (hsf hfree).ne'
    · exact hfree
  · rw [hp, ← r1]; exact key
  · rw [hp, ← r1]; exact t3
  · have e2 : l * cross V (q - p) = cross p (q - p) := by
      have : l * cross V (q - p) = cross (l • V) (q - p) := by simp only [cross, smul_x, smul_y]; ring
      rw [this, key]
      simp only [cross, smul_x, smul_y, add_x, add_y, sub_x, sub_y]; ring
    have e3 : cross V (q - p) ≤ ρ * D := by
      apply le_trans (le_abs_self _)
      apply abs_le_of_sq_le_sq _ (by positivity)
      have e4 : (cross V (q - p)) ^ 2 + (dot V (q - p)) ^ 2 = dot V V * dot (q - p) (q - p) := by
        simp only [cross, dot]; ring
      rw [hV] at e4
      have e5 : ρ ^ 2 * dot (q - p) (q - p) ≤ ρ ^ 2 * D ^ 2 := mul_le_mul_of_nonneg_left hsize (sq_nonneg _)
      rw [mul_pow]
      nlinarith [sq_nonneg (dot V (q - p))]
    rw [div_le_iff₀ hD, mul_assoc]
    calc δ ≤ cross p (q - p) := harea
      _ = l * cross V (q - p) := e2.symm
      _ ≤ l * (ρ * D) := mul_le_mul_of_nonneg_left e3 hl0.le

/-- What we need to know about the sizes of a surface. -/
structure Sizes (f : T →+* ℝ) (S : FlatTri T) (δ D : ℝ) : Prop where
  pos : 0 < δ
  pos' : 0 < D
  area : ∀ e < S.tri.size, δ ≤ cross ((S.vec e).map f) ((S.vec (S.tri.nextInFace e)).map f)
  size : ∀ e < S.tri.size, dot ((S.vec e).map f) ((S.vec e).map f) ≤ D ^ 2

theorem exists_sizes (h : S.Shut) (hf : StrictMono f) : ∃ δ D, Sizes f S δ D := by
  obtain ⟨δ, h1, h2⟩ := exists_lower (fun e => cross ((S.vec e).map f) ((S.vec (S.tri.nextInFace e)).map f)) S.tri.size fun e he => by
    rw [cross_map, ← map_zero f]
    exact hf (h.flat.oriented e (h.nb e he))
  obtain ⟨D, h3, h4⟩ := exists_upper (fun e => dot ((S.vec e).map f) ((S.vec e).map f)) S.tri.size
  exact ⟨δ, D, h1, h3, h2, h4⟩

/-- A bound for the number of half edges that are crossed. -/
def Depth (f : T →+* ℝ) (S : FlatTri T) (R : ℝ) (M : ℕ) : Prop :=
  ∀ W, dot W W = 1 → ∀ m x q, Gets f S W m x q →
    (∃ s : ℝ, 0 ≤ s ∧ s ≤ 1 ∧ dot (q.map f - s • (S.vec x).map f) (q.map f - s • (S.vec x).map f) ≤ R ^ 2) → m ≤ M

theorem exists_depth (h : S.Shut) (hf : StrictMono f) {R : ℝ} (hR : 0 ≤ R) : ∃ M, Depth f S R M := by
  obtain ⟨r1, r2, δ, D, N, hS⟩ := exists_strip h hf
  obtain ⟨M, hM⟩ := Track.bound hS hR
  exact ⟨M, fun W hW m x q ⟨x0, q0, h1, h2, h3, h4, h5⟩ hs => hM W hW _ x0 q0 h1 h2 h3 h4 m x _ h5 hs⟩

/-- The search for the endpoint from the source of a half edge. -/
theorem search_from {P : Params T K} {dbg : Bool} (hC : Closed dbg P.S) (hr : P.radius = none) (hl : P.lower = .zero) (hf : StrictMono f)
    (he : e < P.S.tri.size) {v : Vec T} (hfree : 0 < cross (P.S.vec e) v ∨ ∀ y < P.S.tri.size, free y) (hρ : 0 < ρ)
    (hV : dot (v.map f) (v.map f) = ρ ^ 2) {M : ℕ} {R δ D : ℝ} (hR : ρ ≤ R) (hM : Depth f P.S R M) (hδ : Sizes f P.S δ D)
    (hs : P.S.inSector P.A e v = true) (hn : ¬InTriangle f P.S e (v.map f)) :
    ∃ m, (∀ fuel, start P fuel [⟨e, none⟩] = some (.ok m)) ∧ ∀ F fuel, 2 ≤ F → 2 * (M + 1) ≤ fuel →
      Ends f P.S free v e (δ / D) ρ (pointSearch P v F fuel m) := by
  have h := hC.shut
  obtain ⟨m, m1, -, -, m2⟩ := start_single h hr hl he
  obtain ⟨r1, r2⟩ := root h he
  obtain ⟨s1, s2⟩ := (inSector_iff P.A P.S e v).1 hs
  have s1' : 0 ≤ cross (P.S.vec e) v := not_lt.1 s1
  have s2' : 0 < cross v (P.S.vec (P.S.tri.nextAtVertex e)) := by rw [cross_comm]; exact neg_pos.2 s2
  have hm := m2 v s1' (by rw [← r1]; exact s2')
  have hnlt := next_lt h he
  have key0 : ∀ z : T, 0 ≤ z → 0 ≤ f z := fun z hz => by rw [← map_zero f]; exact hf.monotone hz
  have key1 : ∀ z : T, 0 < z → 0 < f z := fun z hz => by rw [← map_zero f]; exact hf hz
  have v1 : 0 ≤ cross ((P.S.vec e).map f) (v.map f) := by rw [cross_map]; exact key0 _ s1'
  have v2 : 0 < cross (v.map f) ((P.S.vec (P.S.tri.nextAtVertex e)).map f) := by rw [cross_map]; exact key1 _ s2'
  obtain ⟨l, s, hl0, hc⟩ := first (free := free) h hf he hδ.pos hδ.pos' hρ.le hV (hδ.area e he) (hδ.size _ hnlt) v1 v2 hn (by
    rcases hfree with k | k
    · refine .inl ?_
      rw [cross_map]; exact key1 _ k
    · exact .inr (k _ hnlt))
  refine ⟨m, m1, fun F fuel hF hfuel => ?_⟩
  refine search hC hr hl hf hfree hρ (div_pos hδ.pos hδ.pos') hV hR hM (M + 1) 0 _ _ m l s (by omega) ⟨hm.toCourse, .inl hm⟩ hc hl0
    ⟨_, _, hnlt, ?_, ?_, ?_, .root⟩ F fuel hF hfuel
  all_goals rw [← r1]
  · have : (P.S.vec (P.S.tri.nextAtVertex e)).map f - (P.S.vec (P.S.tri.nextInFace e)).map f = (P.S.vec e).map f := by
      rw [(corner h hf he).1]; abel
    rw [this]
    exact (corner h hf he).2.2
  · have : (P.S.vec (P.S.tri.nextAtVertex e)).map f - (P.S.vec (P.S.tri.nextInFace e)).map f = (P.S.vec e).map f := by
      rw [(corner h hf he).1]; abel
    rw [this]
    have : cross ((P.S.vec e).map f) (ρ⁻¹ • v.map f) = ρ⁻¹ * cross ((P.S.vec e).map f) (v.map f) := by
      simp only [cross, smul_x, smul_y]; ring
    rw [this]
    positivity
  · have : cross (ρ⁻¹ • v.map f) ((P.S.vec (P.S.tri.nextAtVertex e)).map f) = ρ⁻¹ * cross (v.map f) ((P.S.vec (P.S.tri.nextAtVertex e)).map f) := by
      simp only [cross, smul_x, smul_y]; ring
    rw [this]
    positivity

theorem walk_stops {next : HE → HE} {cond : HE → Bool} : ∀ k fuel e, k < fuel → cond (next^[k] e) = false →
    ∃ j, FlatTri.walk next cond fuel e = some (next^[j] e) ∧ cond (next^[j] e) = false := by
  intro k
  induction k with
  | zero =>
    intro fuel e hk hc
    obtain ⟨fuel, rfl⟩ : ∃ g, fuel = g + 1 := ⟨fuel - 1, by omega⟩
    refine ⟨0, ?_, hc⟩
    rw [Function.iterate_zero_apply] at hc
    unfold FlatTri.walk
    rw [hc]
    rfl
  | succ k ih =>
    intro fuel e hk hc
    obtain ⟨fuel, rfl⟩ : ∃ g, fuel = g + 1 := ⟨fuel - 1, by omega⟩
    rw [Function.iterate_succ_apply] at hc
    cases h0 : cond e with
    | false =>
      refine ⟨0, ?_, h0⟩
      unfold FlatTri.walk
      rw [h0]
      rfl
    | true =>
      obtain ⟨j, j1, j2⟩ := ih fuel (next e) (by omega) hc
      refine ⟨j + 1, ?_, by rw [Function.iterate_succ_apply]; exact j2⟩
      unfold FlatTri.walk
      rw [h0, Function.iterate_succ_apply]
      exact j1

theorem exists_sector (A : Option (Approx T K)) {dbg : Bool} (hC : Closed dbg S) (hf : StrictMono f) (he : e < S.tri.size) {v : Vec T}
    (hv : v ≠ 0) : ∃ y, S.tri.vertices.Orb e y ∧ S.inSector A y v = true := by
  obtain ⟨V, hs, ho⟩ := hC.shut.source he
  have hV : V ∈ S.tri.vertexes := List.mem_of_find?_eq_some hs
  have hb : ∀ x ∈ V, S.tri.boundary x = false := fun x hx =>
    boundary_false.2 (hC.shut.nb x (((ho x).1 hx).lt hC.shut.flat.coh.hv he))
  obtain ⟨θ, hθ⟩ := C21.corners_exist hf hC.reachable hC.flat hV hb
  obtain ⟨y, h1, h2⟩ := (C21.around hf hC.reachable hC.flat hV hb hθ).exists_sector (A := A) ⟨e, (ho e).2 (.refl _ e)⟩ hv
  exact ⟨y, (ho y).1 h1, h2⟩

/-- Turning to a sector takes only so many steps. -/
theorem exists_turn (A : Option (Approx T K)) {dbg : Bool} (hC : Closed dbg S) (hf : StrictMono f) :
    ∃ N, ∀ fuel ≥ N, ∀ e < S.tri.size, ∀ v : Vec T, v ≠ 0 →
      ∃ j, S.turnTo A fuel e v = some (S.tri.nextAtVertex^[j] e) ∧ S.inSector A (S.tri.nextAtVertex^[j] e) v = true := by
  obtain ⟨N, hN⟩ := exists_steps S.tri.nextAtVertex S.tri.size
  refine ⟨N + 1, fun fuel hfuel e he v hv => ?_⟩
  obtain ⟨y, hy, hs⟩ := exists_sector A hC hf he hv
  obtain ⟨k, hk, rfl⟩ := hN e he y (hy.lt hC.shut.flat.coh.hv he) hy
  obtain ⟨j, j1, j2⟩ := walk_stops (next := S.tri.nextAtVertex) (cond := fun e => !S.inSector A e v) k fuel e (by omega) (by simp [hs])
  exact ⟨j, j1, by simpa using j2⟩

theorem uniform {p : ℕ → ℕ → Prop} (n : ℕ) (h : ∀ x < n, ∃ N, ∀ k ≥ N, p x k) : ∃ N, ∀ k ≥ N, ∀ x < n, p x k := by
  induction n with
  | zero => exact ⟨0, fun _ _ _ hx => absurd hx (Nat.not_lt_zero _)⟩
  | succ n ih =>
    obtain ⟨N, hN⟩ := ih fun x hx => h x (by omega)
    obtain ⟨N', hN'⟩ := h n (by omega)
    refine ⟨max N N', fun k hk x hx => ?_⟩
    rcases Nat.lt_succ_iff_lt_or_eq.1 hx with hx | rfl
    · exact hN k (le_trans (le_max_left _ _) hk) x hx
    · exact hN' k (le_trans (le_max_right _ _) hk)

/-- Whether a vertex is a marked point can be determined. -/
theorem exists_marked {dbg : Bool} (hC : Closed dbg S) (hf : StrictMono f) :
    ∃ N, ∀ fuel ≥ N, ∀ e < S.tri.size, ∃ b, S.isMarked fuel e = some (.ok b) ∧ (b = true ↔ MarkedPoint f S e) := by
  refine uniform _ fun e he => ?_
  obtain ⟨h1, N, hN⟩ := C52.isMarked_eq hf hC he
  refine ⟨N, fun fuel hfuel => ?_⟩
  obtain ⟨b, hb⟩ := hN fuel hfuel
  obtain ⟨m, rfl, hm⟩ := h1 _ _ hb
  exact ⟨m, hb, hm⟩

theorem marked_orbit (h : S.Shut) {y : HE} (hm : MarkedPoint f S e) (ho : S.tri.vertices.Orb e y) : MarkedPoint f S y := by
  obtain ⟨V, h1, h2, h3⟩ := hm
  obtain ⟨x, -, hx⟩ := h.flat.ver.orbit V h1
  exact ⟨V, h1, (hx y).2 (((hx e).1 h2).trans ho), h3⟩

theorem pointAt_min (h : S.Shut) (dbg : Bool) {V : Finset HE} (hV : V.Nonempty) (hlt : ∀ y ∈ V, y < S.tri.size) :
    ∃ y ∈ V, S.pointAt dbg V = .ok ⟨y, 1, 0, 0⟩ := by
  obtain ⟨y, hy⟩ := Finset.min_of_nonempty hV
  have hm := Finset.mem_of_min hy
  refine ⟨y, hm, ?_⟩
  unfold FlatTri.pointAt
  rw [hy]
  show S.point dbg y 1 0 0 = _
  unfold FlatTri.point
  rw [if_neg (not_le.2 (hlt y hm))]
  have h01 : ¬(1 : T) < 0 := not_lt.2 zero_le_one
  unfold FlatTri.normalize FlatTri.normalizeLoop
  simp [h01]

/-- The outcome of moving a vertex. -/
def Moved (f : T →+* ℝ) (S : FlatTri T) (v : Vec T) (e : HE) (r : Option (Except Err (Point T))) : Prop :=
  (∃ p, r = some (.ok p) ∧ Arrives f S (MarkedPoint f S) (v.map f) e p) ∨
  r = some (.error .invalidArgument) ∧ ∃ t μ, Meets f S (MarkedPoint f S) (v.map f) e t μ ∧ ¬MarkedPoint f S t

theorem cartesian_vertex {div : T → T → Option T} (hdiv : TrueDivision div) {a : T} (ha : a ≠ 0) : S.cartesian div ⟨e, a, 0, 0⟩ = .ok 0 := by
  have h0 : div 0 a = some 0 := (hdiv 0 a ha 0).2 (by ring)
  unfold FlatTri.cartesian
  simp only [zero_smul, add_zero, zero_x, zero_y, h0]
  rfl

/-- Moving a vertex without leaving the face. -/
theorem moveImpl_inside (A : Option (Approx T K)) {dbg dbg' : Bool} (hC : Closed dbg S) (hf : StrictMono f) {div : T → T → Option T}
    (hdiv : TrueDivision div) (elsewhere : Point T → Vec T → Option (Except Err (Point T))) (he : e < S.tri.size) {a : T} (ha : 0 < a)
    {v : Vec T} (hin : InTriangle f S e (v.map f)) (F fuel : ℕ) :
    ∃ p, S.moveImpl A dbg' div elsewhere F (fuel + 1) ⟨e, a, 0, 0⟩ v = some (.ok p) ∧ Arrives f S free (v.map f) e p := by
  have h := hC.shut
  have hin' := (inFace_iff h hf he v).2 hin
  obtain ⟨d1, d2⟩ := inFace_point hC hf he hin'
  obtain ⟨p, p1, p2, p3⟩ := h.normalize d1
  refine ⟨p, ?_, p2, _, d1, p1, ?_⟩
  · obtain ⟨i1, -, i3⟩ := (inTriangle_corner h hf he _).1 hin
    rw [cross_map, ← map_zero f, hf.le_iff_le] at i1 i3
    unfold FlatTri.moveImpl
    have hface : S.faceInto A ⟨e, a, 0, 0⟩ v = ⟨e, a, 0, 0⟩ := by simp [FlatTri.faceInto]
    rw [if_neg (by simp)]
    simp only [hface, cartesian_vertex hdiv ha.ne', zero_add]
    rw [if_neg, if_pos hin', p1]
    rintro ⟨-, -, hk⟩
    apply hk
    constructor
    · rw [ccw_eq, ne_eq, ccwExact_clockwise]; exact not_lt.2 i1
    · rw [ccw_eq, ne_eq, ccwExact_ccw, cross_comm]; linarith
  · rw [d2]
    have h0 := inTriangle_zero h hf he
    have : Travels f S free (v.map f) 1 (e, 0) (e, 0 + (1 : ℝ) • v.map f) := .move zero_le_one h0 (by rw [one_smul, zero_add]; exact hin)
    rwa [one_smul, zero_add] at this

/-- Moving a vertex out of the face. -/
theorem moveImpl_outside (A : Option (Approx T K)) {dbg : Bool} (h : S.Shut) (hf : StrictMono f) {div : T → T → Option T}
    (hdiv : TrueDivision div) (elsewhere : Point T → Vec T → Option (Except Err (Point T))) (he : e < S.tri.size) {a : T} (ha : 0 < a)
    {v : Vec T} (hin : ¬InTriangle f S e (v.map f)) (hs : S.inSector A e v = true) {F fuel : ℕ} {m : Machine T}
    (hm : SaddleSearch.start (⟨A, dbg, S, none, .zero⟩ : Params T K) F [⟨e, none⟩] = some (.ok m)) :
    S.moveImpl A dbg div elsewhere F (fuel + 1) ⟨e, a, 0, 0⟩ v =
      (pointSearch (⟨A, dbg, S, none, .zero⟩ : Params T K) v F F m).bind fun
        | .error err => some (.error err)
        | .ok (.inl p) => some (.ok p)
        | .ok (.inr c) => (S.isMarked F c.target).bind fun
          | .error err => some (.error err)
          | .ok false => some (.error .invalidArgument)
          | .ok true =>
            match S.tri.source c.target with
            | none => some (.error .undefined)
            | some V =>
              match S.pointAt dbg V with
              | .error err => some (.error err)
              | .ok q =>
                (S.turnTo A F q.face (v - S.saddleVector c)).bind fun face =>
                  S.moveImpl A dbg div elsewhere F fuel ⟨face, q.a, q.b, q.c⟩ (v - S.saddleVector c) := by
  obtain ⟨s1, s2⟩ := (inSector_iff A S e v).1 hs
  have hin' : ¬inFace (S.barycentric e v) = true := fun k => hin ((inFace_iff h hf he v).1 k)
  conv_lhs => unfold FlatTri.moveImpl
  have hface : S.faceInto A ⟨e, a, 0, 0⟩ v = ⟨e, a, 0, 0⟩ := by simp [FlatTri.faceInto]
  rw [if_neg (by simp)]
  simp only [hface, cartesian_vertex hdiv ha.ne', zero_add]
  rw [if_neg, if_neg hin', if_neg (by simp), if_neg (by simp [hs])]
  · have e1 : (SaddleConnections.sectorHalfEdge (SaddleConnections.make S) e).searchRadius = none := rfl
    have e2 : (SaddleConnections.sectorHalfEdge (SaddleConnections.make S) e).lowerBound = .zero := rfl
    rw [e1, e2, sector_halfEdge S he, hm]
    rfl
  · rintro ⟨-, -, hk⟩
    apply hk
    constructor
    · rw [ccw_eq, ne_eq, ccwExact_clockwise]; exact s1
    · rw [ccw_eq, ne_eq, ccwExact_ccw]; exact not_lt.2 s2.le

theorem Meets.trans {t face : HE} {μ μ' : ℝ} (hm : Meets f S free V e x μ) (ht : Travels f S free V 0 (x, 0) (face, 0))
    (h' : Meets f S free ((1 - μ) • V) face t μ') : Meets f S free V e t (μ + μ' * (1 - μ)) := by
  obtain ⟨a1, a2, a3, a4⟩ := hm
  obtain ⟨b1, b2, b3, b4⟩ := h'
  refine ⟨b1, ?_, ?_, ?_⟩
  · nlinarith
  · nlinarith
  · have := (a4.trans ht).trans (b4.scale (by linarith))
    rwa [add_zero] at this

theorem Meets.arrives {face : HE} {μ : ℝ} {p : Point T} (hm : Meets f S free V e x μ) (ht : Travels f S free V 0 (x, 0) (face, 0))
    (h' : Arrives f S free ((1 - μ) • V) face p) : Arrives f S free V e p := by
  obtain ⟨a1, a2, a3, a4⟩ := hm
  obtain ⟨b1, d, b2, b3, b4⟩ := h'
  refine ⟨b1, d, b2, b3, ?_⟩
  have := (a4.trans ht).trans (b4.scale (by linarith))
  convert this using 1
  ring

/-- Moving a vertex. -/
theorem moveImpl_vertex (A : Option (Approx T K)) {dbg dbg' : Bool} (hC : Closed dbg' S) (hf : StrictMono f) {div : T → T → Option T}
    (hdiv : TrueDivision div) (elsewhere : Point T → Vec T → Option (Except Err (Point T))) {M F : ℕ} {R δ D : ℝ}
    (hM : Depth f S R M) (hδ : Sizes f S δ D) (hF : 2 * (M + 1) ≤ F)
    (hmarked : ∀ e < S.tri.size, ∃ b, S.isMarked F e = some (.ok b) ∧ (b = true ↔ MarkedPoint f S e))
    (hturn : ∀ e < S.tri.size, ∀ v : Vec T, v ≠ 0 →
      ∃ j, S.turnTo A F e v = some (S.tri.nextAtVertex^[j] e) ∧ S.inSector A (S.tri.nextAtVertex^[j] e) v = true) :
    ∀ (n : ℕ) (v : Vec T) (ρ : ℝ) (e : HE) (a : T), 0 ≤ ρ → dot (v.map f) (v.map f) = ρ ^ 2 → ρ ≤ R → ρ < n * (δ / D) → e < S.tri.size →
      0 < a → (S.inSector A e v = true ∨ InTriangle f S e (v.map f)) →
      ((∀ y < S.tri.size, MarkedPoint f S y) ∨ ∀ y < S.tri.size, cross (S.vec y) v ≠ 0) →
      ∀ fuel ≥ n, Moved f S v e (S.moveImpl A dbg div elsewhere F fuel ⟨e, a, 0, 0⟩ v) := by
  have h := hC.shut
  have hε : 0 < δ / D := div_pos hδ.pos hδ.pos'
  intro n
  induction n with
  | zero =>
    intro v ρ e a hρ hV hR hn
    rw [Nat.cast_zero, zero_mul] at hn
    exact absurd hρ (not_le.2 hn)
  | succ n ih =>
    intro v ρ e a hρ hV hR hn he ha hs hfree fuel hfuel
    obtain ⟨fuel, rfl⟩ : ∃ g, fuel = g + 1 := ⟨fuel - 1, by omega⟩
    by_cases hin : InTriangle f S e (v.map f)
    · exact .inl (moveImpl_inside A hC hf hdiv elsewhere he ha hin F fuel)
    · have hs := hs.resolve_right hin
      have hρ' : 0 < ρ := by
        rcases hρ.lt_or_eq with k | k
        · exact k
        · exfalso
          apply hin
          rw [← k, zero_pow two_ne_zero] at hV
          have : v.map f = 0 := by
            by_contra hk
            exact (dot_self_pos hk).ne' hV
          rw [this]
          exact inTriangle_zero h hf he
      obtain ⟨s1, s2⟩ := (inSector_iff A S e v).1 hs
      obtain ⟨m, m1, m2⟩ := search_from (P := (⟨A, dbg, S, none, .zero⟩ : Params T K)) (free := MarkedPoint f S) hC rfl rfl hf he (v := v)
        (by
          rcases hfree with k | k
          · exact .inr k
          · exact .inl (lt_of_le_of_ne (not_lt.1 s1) (k e he).symm)) hρ' hV hR hM hδ hs hin
      rw [moveImpl_outside A h hf hdiv elsewhere he ha hin hs (m1 F)]
      rcases m2 F F (by omega) hF with ⟨p, p1, p2⟩ | ⟨c, μ, c1, c2, c3, c4⟩
      · rw [p1]
        exact .inl ⟨p, rfl, p2⟩
      · rw [c1]
        simp only [Option.bind_some]
        obtain ⟨b, b1, b2⟩ := hmarked c.target c2.1
        rw [b1]
        simp only [Option.bind_some]
        cases b with
        | false => exact .inr ⟨rfl, _, μ, c2, fun k => absurd (b2.2 k) (by decide)⟩
        | true =>
          have hmk := b2.1 rfl
          obtain ⟨V, v1, v2⟩ := h.source c2.1
          obtain ⟨y, y1, y2⟩ := pointAt_min h dbg (V := V) ⟨c.target, (v2 _).2 (.refl _ _)⟩ fun y hy =>
            ((v2 y).1 hy).lt h.flat.coh.hv c2.1
          have hyo := (v2 y).1 y1
          have hylt := hyo.lt h.flat.coh.hv c2.1
          have hδmap : (v - S.saddleVector c).map f = (1 - μ) • v.map f := by
            rw [sub_map, c4]
            ext
            · simp only [sub_x, smul_x]; ring
            · simp only [sub_y, smul_y]; ring
          have hμ : 0 < 1 - μ := by linarith [c2.2.2.1]
          have hδV : dot ((v - S.saddleVector c).map f) ((v - S.saddleVector c).map f) = ((1 - μ) * ρ) ^ 2 := by
            rw [hδmap, mul_pow, ← hV]
            simp only [dot, smul_x, smul_y]; ring
          have hne : v - S.saddleVector c ≠ 0 := by
            intro k
            rw [k] at hδV
            have : dot ((0 : Vec T).map f) ((0 : Vec T).map f) = 0 := by simp [dot, Vec.map]
            rw [this] at hδV
            have : 0 < ((1 - μ) * ρ) ^ 2 := by positivity
            linarith
          obtain ⟨j, j1, j2⟩ := hturn y hylt _ hne
          simp only [v1, y2, j1, Option.bind_some]
          -- turning to the sector
          obtain ⟨k, hk⟩ := hyo
          obtain ⟨t1, t2, t3⟩ := turn (V := v.map f) (free := MarkedPoint f S) h hf c2.1 (fun z hz => marked_orbit h hmk hz) (k + j)
          have hface : S.tri.nextAtVertex^[k + j] c.target = S.tri.nextAtVertex^[j] y := by
            rw [add_comm, Function.iterate_add_apply]
            exact congrArg _ hk
          rw [hface] at t1 t2
          have := ih (v - S.saddleVector c) ((1 - μ) * ρ) (S.tri.nextAtVertex^[j] y) 1 (by positivity) hδV (by nlinarith [c2.2.1])
            (by push_cast at hn; nlinarith) t2 one_pos (.inl j2) (by
              rcases hfree with k | k
              · exact .inl k
              · refine .inr fun z hz hk => k z hz ?_
                have e1 : f (cross (S.vec z) (v - S.saddleVector c)) = (1 - μ) * f (cross (S.vec z) v) := by
                  rw [← cross_map, hδmap, ← cross_map]
                  simp only [cross, smul_x, smul_y]; ring
                rw [hk, map_zero] at e1
                rcases mul_eq_zero.1 e1.symm with k | k
                · exact absurd k hμ.ne'
                · exact (map_eq_zero_iff f hf.injective).1 k) fuel (by omega)
          rcases this with ⟨p, p1, p2⟩ | ⟨p1, t, μ', p2, p3⟩
          · refine .inl ⟨p, p1, ?_⟩
            rw [hδmap] at p2
            exact c2.arrives t1 p2
          · refine .inr ⟨p1, t, μ + μ' * (1 - μ), ?_, p3⟩
            rw [hδmap] at p2
            exact c2.trans t1 p2

/-- Moving a vertex in the direction of a sector. -/
theorem moveImpl_sector (A : Option (Approx T K)) (dbg : Bool) {dbg' : Bool} (hC : Closed dbg' S) (hf : StrictMono f) {div : T → T → Option T}
    (hdiv : TrueDivision div) (elsewhere : Point T → Vec T → Option (Except Err (Point T))) (v : Vec T)
    (hfree : (∀ y < S.tri.size, MarkedPoint f S y) ∨ ∀ y < S.tri.size, cross (S.vec y) v ≠ 0) :
    ∃ N, ∀ e a, e < S.tri.size → 0 < a → (S.inSector A e v = true ∨ InTriangle f S e (v.map f)) →
      ∀ F ≥ N, ∀ fuel ≥ N, Moved f S v e (S.moveImpl A dbg div elsewhere F fuel ⟨e, a, 0, 0⟩ v) := by
  have h := hC.shut
  have hdot : 0 ≤ dot (v.map f) (v.map f) := dot_self_nonneg _
  obtain ⟨M, hM⟩ := exists_depth h hf (Real.sqrt_nonneg (dot (v.map f) (v.map f)))
  obtain ⟨δ, D, hδ⟩ := exists_sizes h hf
  obtain ⟨N1, h1⟩ := exists_marked hC hf
  obtain ⟨N2, h2⟩ := exists_turn A hC hf
  have hε : 0 < δ / D := div_pos hδ.pos hδ.pos'
  obtain ⟨n, hn⟩ := exists_nat_gt (Real.sqrt (dot (v.map f) (v.map f)) / (δ / D))
  rw [div_lt_iff₀ hε] at hn
  refine ⟨2 * (M + 1) + N1 + N2 + n, fun e a he ha hs F hF fuel hfuel => ?_⟩
  exact moveImpl_vertex A hC hf hdiv elsewhere hM hδ (by omega) (h1 F (by omega)) (h2 F (by omega)) n v _ e a (Real.sqrt_nonneg _)
    (Real.sq_sqrt hdot).symm le_rfl hn he ha hs hfree fuel (by omega)

/-- Moving a point that is not a vertex. -/
theorem moveImpl_face (A : Option (Approx T K)) {dbg dbg' : Bool} (hC : Closed dbg S) (hf : StrictMono f) {div : T → T → Option T}
    (hdiv : TrueDivision div) (elsewhere : Point T → Vec T → Option (Except Err (Point T))) {p : Point T} (hp : Describes S p) (ha : p.a ≠ 0)
    (hb : p.b ≠ 0) (v : Vec T) (F fuel : ℕ) :
    (S.moveImpl A dbg' div elsewhere F (fuel + 1) p v = some (.error .invalidArgument) ∧
        (∀ xy : Vec T, xy.map f ≠ planePosition f S (S.faceInto A p v)) ∨
      InTriangle f S (S.faceInto A p v).face (planePosition f S (S.faceInto A p v) + v.map f) ∧
        (∃ p' d', S.moveImpl A dbg' div elsewhere F (fuel + 1) p v = some (.ok p') ∧
        Describes S d' ∧ S.normalize d' = .ok p' ∧ d'.face = (S.faceInto A p v).face ∧
        planePosition f S d' = planePosition f S (S.faceInto A p v) + v.map f) ∨
      ¬InTriangle f S (S.faceInto A p v).face (planePosition f S (S.faceInto A p v) + v.map f) ∧
        S.moveImpl A dbg' div elsewhere F (fuel + 1) p v = elsewhere (S.faceInto A p v) v) ∧
    Describes S (S.faceInto A p v) ∧ SamePosition S p (S.faceInto A p v) ∧ (p.c = 0 → 0 ≤ cross (S.vec (S.faceInto A p v).face) v) := by
  have h := hC.shut
  have hq : Describes S (S.faceInto A p v) ∧ SamePosition S p (S.faceInto A p v) ∧ (S.faceInto A p v).b ≠ 0 ∧
      (p.c = 0 → 0 ≤ cross (S.vec (S.faceInto A p v).face) v) := by
    unfold FlatTri.faceInto
    by_cases hc : p.c ≠ 0
    · rw [if_pos hc]
      exact ⟨hp, .refl _, hb, fun k => absurd k hc⟩
    · rw [if_neg hc]
      push Not at hc
      by_cases hk : p.b ≠ 0 ∧ Vec.ccw A (S.vec p.face) v = .clockwise
      · rw [if_pos hk]
        refine ⟨⟨h.neg_lt hp.lt, ⟨hp.nonneg.2.1, hp.nonneg.1, hp.nonneg.2.2⟩, by have := hp.pos; dsimp only; rwa [add_comm p.b]⟩, ?_, ha, fun _ => ?_⟩
        · obtain ⟨e, a, b, c⟩ := p
          dsimp only at hc
          subst hc
          exact .glue
        · rw [h.flat.odd _ hp.lt, cross_neg_left]
          have := hk.2
          rw [ccw_eq, ccwExact_clockwise] at this
          linarith
      · rw [if_neg hk]
        refine ⟨hp, .refl _, hb, fun _ => ?_⟩
        by_contra hneg
        push Not at hneg
        exact hk ⟨hb, by rw [ccw_eq, ccwExact_clockwise]; exact hneg⟩
  obtain ⟨q1, q2, q3, q4⟩ := hq
  refine ⟨?_, q1, q2, q4⟩
  unfold FlatTri.moveImpl
  rw [if_neg (by rintro ⟨-, k | k⟩; exacts [k.2 ⟨ha, hb⟩, ha k.2])]
  set q := S.faceInto A p v
  simp only
  rw [if_neg (fun k => q3 k.1)]
  rcases C31.cartesian_correct hf hC hdiv q1.lt q1.pos.ne' with ⟨xy, x1, x2⟩ | ⟨x1, x2⟩
  · refine .inr ?_
    rw [x1]
    simp only
    have hpos : planePosition f S q + v.map f = (xy + v).map f := by
      rw [← x2]
      ext
      · simp only [Vec.map, add_x, map_add]
      · simp only [Vec.map, add_y, map_add]
    rw [hpos]
    by_cases hin : inFace (S.barycentric q.face (xy + v)) = true
    · refine .inl ⟨(inFace_iff h hf q1.lt _).1 hin, ?_⟩
      obtain ⟨d1, d2⟩ := inFace_point hC hf q1.lt hin
      obtain ⟨p', p1, -, -⟩ := h.normalize d1
      exact ⟨p', _, by rw [if_pos hin, p1], d1, p1, rfl, d2⟩
    · refine .inr ⟨fun k => hin ((inFace_iff h hf q1.lt _).2 k), ?_⟩
      rw [if_neg hin, if_pos (.inr q3)]
  · refine .inl ⟨?_, x2⟩
    rw [x1]

end Move

end Verif
