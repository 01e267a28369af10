import Verif.Lemmas.SaddleAngle
import Verif.Spec.SaddleConnections
import Verif.Lemmas.PointCode
import Verif.Lemmas.Bound

/-!
# Refining sectors
-/

set_option linter.unusedSectionVars false

namespace Verif

open Verif Spec Tri FlatTri Vec Real Function

variable {T : Type} [CommRing T] [LinearOrder T] [IsStrictOrderedRing T]
variable {K : Type} [Field K] [LinearOrder K] [IsStrictOrderedRing K] (A : Option (Approx T K))
variable {f : T →+* ℝ}

namespace SaddleConnections

/-- The vector `v` is at an angle of `x` from `u`. -/
structure At (f : T →+* ℝ) (u v : Vec T) (x : ℝ) : Prop where
  ne : v ≠ 0
  nonneg : 0 ≤ x
  lt : x < 2 * π
  turns : Turns (u.map f) x (v.map f)

theorem exists_at (hf : StrictMono f) {u v : Vec T} (hu : u ≠ 0) (hv : v ≠ 0) : ∃ x, At f u v x := by
  obtain ⟨x, h0, h1, h2⟩ := exists_turns (map_ne_zero f hf hu) (map_ne_zero f hf hv)
  exact ⟨x, hv, h0, h1, h2⟩

theorem At.unique (hf : StrictMono f) {u v : Vec T} (hu : u ≠ 0) {x y : ℝ} (h : At f u v x) (h' : At f u v y) : x = y :=
  Turns.unique (map_ne_zero f hf hu) ⟨h.nonneg, h.lt⟩ ⟨h'.nonneg, h'.lt⟩ h.turns h'.turns

/-- The angle from one vector to another one. -/
theorem At.sub {u v w : Vec T} {x y : ℝ} (h : At f u v x) (h' : At f u w y) :
    At f v w (if x ≤ y then y - x else y - x + 2 * π) := by
  have := h.turns.symm.trans h'.turns
  split_ifs with hxy
  · exact ⟨h'.ne, by linarith, by linarith [h.nonneg, h'.lt], by convert this using 1; ring⟩
  · refine ⟨h'.ne, by linarith [h.lt, h'.nonneg], by linarith, ?_⟩
    rw [Turns.period]
    convert this using 1
    ring

/-- The directions in a sector. -/
def Cyc (b e x : ℝ) : Prop := if b = e then x = b else if b < e then b ≤ x ∧ x < e else b ≤ x ∨ x < e

noncomputable instance (b e x : ℝ) : Decidable (Cyc b e x) := Classical.dec _

theorem inSector_at (hf : StrictMono f) {u v b e : Vec T} {x β ε : ℝ} (hv : At f u v x) (hb : At f u b β)
    (he : At f u e ε) : Vec.inSector A v b e = .ok (decide (Cyc β ε x)) := by
  have h1 := hb.sub hv
  have h2 := hb.sub he
  rw [inSector_angle f hf A hv.ne hb.ne he.ne ⟨h1.nonneg, h1.lt⟩ ⟨h2.nonneg, h2.lt⟩ h1.turns h2.turns]
  congr 1
  rw [decide_eq_decide]
  unfold Cyc
  have a1 := hv.nonneg
  have a2 := hv.lt
  have a3 := hb.nonneg
  have a4 := hb.lt
  have a5 := he.nonneg
  have a6 := he.lt
  rcases lt_trichotomy β ε with h | h | h
  · rw [if_pos h.le, if_neg (by linarith), if_neg h.ne, if_pos h]
    split_ifs with g
    · exact ⟨fun k => ⟨g, by linarith⟩, fun k => by linarith [k.2]⟩
    · exact ⟨fun k => by linarith, fun k => absurd k.1 g⟩
  · subst h
    rw [if_pos le_rfl, if_pos (by ring), if_pos rfl]
    split_ifs with g
    · exact ⟨fun k => by linarith, fun k => by linarith⟩
    · exact ⟨fun k => by linarith, fun k => absurd k.ge g⟩
  · rw [if_neg h.not_ge, if_neg (by linarith), if_neg h.ne', if_neg h.not_gt]
    split_ifs with g
    · exact ⟨fun k => .inl g, fun k => by linarith⟩
    · exact ⟨fun k => .inr (by linarith), fun k => by rcases k with k | k <;> [exact absurd k g; linarith]⟩

theorem ccw_at (hf : StrictMono f) {u v w : Vec T} (hv : v ≠ 0) {x y : ℝ} (h : At f u v x) (h' : At f u w y) :
    (Vec.ccw A v w = .counterclockwise ↔ (x < y ∧ y < x + π) ∨ y < x - π) ∧
      (Vec.ccw A v w = .clockwise ↔ (y < x ∧ x < y + π) ∨ x < y - π) ∧
      (Vec.ccw A v w = .collinear ↔ y = x ∨ y = x + π ∨ y = x - π) := by
  have h1 := h.sub h'
  obtain ⟨c1, c2, c3⟩ := ccw_turn A hf (map_ne_zero f hf hv) h1.turns
  rw [c1, c2, c3, sin_pos_iff h1.nonneg h1.lt, sin_neg_iff h1.nonneg h1.lt, sin_zero_iff h1.nonneg h1.lt]
  have a1 := h.nonneg
  have a2 := h.lt
  have a3 := h'.nonneg
  have a4 := h'.lt
  have := pi_pos
  split_ifs with g
  · refine ⟨⟨fun k => .inl ⟨by linarith, by linarith⟩, ?_⟩, ⟨fun k => .inr (by linarith), ?_⟩,
      ⟨?_, ?_⟩⟩
    · rintro (k | k)
      · exact ⟨by linarith, by linarith⟩
      · linarith
    · rintro (k | k) <;> linarith
    · rintro (k | k)
      · exact .inl (by linarith)
      · exact .inr (.inl (by linarith))
    · rintro (k | k | k)
      · exact .inl (by linarith)
      · exact .inr (by linarith)
      · linarith
  · refine ⟨⟨fun k => .inr (by linarith), ?_⟩, ⟨fun k => .inl ⟨by linarith, by linarith⟩, ?_⟩,
      ⟨?_, ?_⟩⟩
    · rintro (k | k)
      · linarith
      · exact ⟨by linarith, by linarith⟩
    · rintro (k | k) <;> linarith
    · rintro (k | k)
      · linarith
      · exact .inr (.inr (by linarith))
    · rintro (k | k | k)
      · linarith
      · linarith
      · exact .inr (by linarith)

/-- Whether two directions are the same. -/
theorem same_at (hf : StrictMono f) {u v w : Vec T} {x y : ℝ} (h : At f u v x) (h' : At f u w y) :
    (decide (Vec.ccw A w v = .collinear) && decide (Vec.orientation A w v = .same)) = decide (y = x) := by
  have h1 := h'.sub h
  rw [Bool.eq_iff_iff, Bool.and_eq_true, decide_eq_true_eq, decide_eq_true_eq, decide_eq_true_eq, orientation_same]
  have hd : 0 < dot w v ↔ 0 < cos (if y ≤ x then x - y else x - y + 2 * π) := by
    obtain ⟨r, hr, hc⟩ := h1.turns
    have e : dot (w.map f) (v.map f) = r * dot (w.map f) (w.map f) * cos (if y ≤ x then x - y else x - y + 2 * π) := by
      rw [hc]
      simp only [dot, rotate, smul_x, smul_y]
      ring
    have hp := mul_pos hr (dot_self_pos (map_ne_zero f hf h'.ne))
    rw [← hf.lt_iff_lt, map_zero, ← dot_map, e]
    exact ⟨fun k => (mul_pos_iff_of_pos_left hp).1 k, fun k => mul_pos hp k⟩
  rw [(ccw_turn A hf (map_ne_zero f hf h'.ne) h1.turns).2.2, sin_zero_iff h1.nonneg h1.lt, hd]
  constructor
  · rintro ⟨k, k'⟩
    have := (cos_sign k).1.1 k'
    have := h.nonneg
    have := h'.lt
    split_ifs at * <;> linarith
  · rintro rfl
    rw [if_pos le_rfl, sub_self]
    exact ⟨.inl rfl, by simp⟩

/-! ### Sectors -/

/-- The two vectors that bound a sector. -/
def limits (S : FlatTri T) (s : Sector T) : Vec T × Vec T :=
  s.sector.getD (S.vec s.source, S.vec (S.tri.nextAtVertex s.source))

/-- A sector is part of a corner. -/
structure Ok (f : T →+* ℝ) (S : FlatTri T) (θ : HE → ℝ) (s : Sector T) (x y : ℝ) : Prop where
  lt : s.source < S.tri.size
  start : At f (S.vec s.source) (limits S s).1 x
  stop : At f (S.vec s.source) (limits S s).2 y
  le : x ≤ y
  lt' : x < θ s.source
  le' : y ≤ θ s.source

/-- Whether a connection is in a sector. -/
def has (A : Option (Approx T K)) (c : HE × Vec T) (s : Sector T) : Bool :=
  match contains A s c.1 c.2 with
  | .ok r => r
  | .error _ => false

theorem has_source {c : HE × Vec T} {s : Sector T} (h : c.1 ≠ s.source) : has A c s = false := by
  unfold has contains
  rw [if_pos h]

/-- The angles of the corners of a surface without boundary. -/
structure Cor (f : T →+* ℝ) (S : FlatTri T) (θ : HE → ℝ) : Prop where
  mono : StrictMono f
  ne : ∀ e < S.tri.size, S.vec e ≠ 0
  next : ∀ e < S.tri.size, At f (S.vec e) (S.vec (S.tri.nextAtVertex e)) (θ e)
  pos : ∀ e < S.tri.size, 0 < θ e
  lt : ∀ e < S.tri.size, θ e < π

variable {S : FlatTri T} {θ : HE → ℝ}

theorem at_self {u : Vec T} (hu : u ≠ 0) : At f u u 0 := ⟨hu, le_rfl, by positivity, turns_self _⟩

theorem has_some (hf : StrictMono f) {e : HE} {p q v : Vec T} {x y ρ : ℝ} (hp : At f (S.vec e) p x)
    (hq : At f (S.vec e) q y) (hv : At f (S.vec e) v ρ) : has A (e, v) ⟨e, some (p, q)⟩ = decide (Cyc x y ρ) := by
  unfold has contains
  rw [if_neg (by simp)]
  simp only
  rw [inSector_at A hf hv hp hq]

theorem Ok.has (hc : Cor f S θ) {s : Sector T} {x y : ℝ} (h : Ok f S θ s x y)
    {v : Vec T} {ρ : ℝ} (hv : At f (S.vec s.source) v ρ) (hρ : ρ < θ s.source) :
    has A (s.source, v) s = decide (Cyc x y ρ) := by
  obtain ⟨e, _ | p⟩ := s
  · have hne := hc.ne e h.lt
    have hx := At.unique hc.mono hne h.start (at_self hne)
    have hy := At.unique hc.mono hne h.stop (hc.next e h.lt)
    subst hx hy
    unfold SaddleConnections.has contains
    rw [if_neg (by simp)]
    simp only
    rw [eq_comm, decide_eq_true_eq]
    have h0 := hc.pos e h.lt
    unfold Cyc
    rw [if_neg h0.ne, if_pos h0]
    exact ⟨hv.nonneg, hρ⟩
  · exact has_some A hc.mono h.start h.stop hv

/-- What `refine` does in release builds. -/
theorem refine_eq (hc : Cor f S θ) {s : Sector T} {x y : ℝ} (h : Ok f S θ s x y) {b e : Vec T} {β ε : ℝ}
    (hb : At f (S.vec s.source) b β) (he : At f (S.vec s.source) e ε) :
    refine A false S s b e = .ok (
      if Cyc x y β then
        if (ε < β ∧ β < ε + π) ∨ β < ε - π then
          if (x < ε ∧ ε < x + π) ∨ ε < x - π then [⟨s.source, some (b, (limits S s).2)⟩, ⟨s.source, some ((limits S s).1, e)⟩]
          else [⟨s.source, some (b, (limits S s).2)⟩]
        else if Cyc x y ε then [⟨s.source, some (b, e)⟩]
        else [⟨s.source, some (b, (limits S s).2)⟩]
      else if Cyc x y ε ∧ ε ≠ x then [⟨s.source, some ((limits S s).1, e)⟩]
      else if Cyc β ε x then [s] else []) := by
  have e1 := inSector_at A hc.mono hb h.start h.stop
  have e2 := inSector_at A hc.mono he h.start h.stop
  have e3 := inSector_at A hc.mono h.start hb he
  have e4 := (ccw_at A hc.mono hb.ne hb he).2.1
  have e5 := (ccw_at A hc.mono h.start.ne h.start he).1
  have e6 := same_at A hc.mono h.start he
  unfold refine
  simp only [Bool.false_eq_true, false_and, if_false]
  change (bind (inSector A b (limits S s).1 (limits S s).2) _) = _
  rw [e1]
  change (if (decide (Cyc x y β)) = true then _ else _) = _
  simp only [decide_eq_true_eq]
  by_cases c1 : Cyc x y β
  · rw [if_pos c1, if_pos c1]
    by_cases c2 : (ε < β ∧ β < ε + π) ∨ β < ε - π
    · rw [if_pos c2, if_pos (e4.2 c2)]
      by_cases c3 : (x < ε ∧ ε < x + π) ∨ ε < x - π
      · rw [if_pos c3]
        exact if_pos (e5.2 c3)
      · rw [if_neg c3]
        exact if_neg (fun k => c3 (e5.1 k))
    · rw [if_neg c2, if_neg (fun k => c2 (e4.1 k))]
      change bind (inSector A e (limits S s).1 (limits S s).2) _ = _
      rw [e2]
      change (if (decide (Cyc x y ε)) = true then _ else _) = _
      simp only [decide_eq_true_eq]
      by_cases c3 : Cyc x y ε
      · rw [if_pos c3, if_pos c3]; rfl
      · rw [if_neg c3, if_neg c3]; rfl
  · rw [if_neg c1, if_neg c1]
    change bind (inSector A e (limits S s).1 (limits S s).2) _ = _
    rw [e2]
    change (if (decide (Cyc x y ε) && !(decide (Vec.ccw A e (limits S s).1 = .collinear) &&
      decide (Vec.orientation A e (limits S s).1 = .same))) = true then _ else _) = _
    rw [e6]
    by_cases c2 : Cyc x y ε ∧ ε ≠ x
    · rw [if_pos c2, if_pos (by simpa using c2)]; rfl
    · rw [if_neg c2, if_neg (by simpa using c2)]
      change bind (inSector A (limits S s).1 b e) _ = _
      rw [e3]
      change (if (decide (Cyc β ε x)) = true then _ else _) = _
      simp only [decide_eq_true_eq]
      by_cases c3 : Cyc β ε x
      · rw [if_pos c3, if_pos c3]; rfl
      · rw [if_neg c3, if_neg c3]; rfl

theorem cyc_of_le {x y ρ : ℝ} (h : x ≤ y) : Cyc x y ρ ↔ x ≤ ρ ∧ (ρ < y ∨ ρ = x ∧ x = y) := by
  unfold Cyc
  rcases h.eq_or_lt with rfl | h
  · rw [if_pos rfl]
    constructor
    · rintro rfl
      exact ⟨le_rfl, .inr ⟨rfl, rfl⟩⟩
    · rintro ⟨h1, h2 | h2⟩
      · linarith
      · exact h2.1
  · rw [if_neg h.ne, if_pos h]
    refine and_congr_right fun _ => ⟨.inl, fun k => ?_⟩
    rcases k with k | k
    · exact k
    · linarith [k.2]

theorem cyc_of_gt {x y ρ : ℝ} (h : y < x) : Cyc x y ρ ↔ x ≤ ρ ∨ ρ < y := by
  unfold Cyc
  rw [if_neg h.ne', if_neg h.not_gt]

/-- The sectors after refinement. -/
theorem refine_spec (hc : Cor f S θ) {s : Sector T} {x y : ℝ} (h : Ok f S θ s x y) {b e : Vec T} {β ε : ℝ}
    (hb : At f (S.vec s.source) b β) (he : At f (S.vec s.source) e ε) :
    ∃ l, refine A false S s b e = .ok l ∧ (∀ t ∈ l, t.source = s.source ∧ ∃ x y, Ok f S θ t x y) ∧
      ∀ v ρ, At f (S.vec s.source) v ρ → ρ < θ s.source →
        l.countP (has A (s.source, v)) = if Cyc x y ρ ∧ Cyc β ε ρ then 1 else 0 := by
  refine ⟨_, refine_eq A hc h hb he, ?_⟩
  have hθ := hc.lt _ h.lt
  have a1 := hb.nonneg
  have a2 := hb.lt
  have a3 := he.nonneg
  have a4 := he.lt
  have a5 := h.le
  have a6 := h.lt'
  have a7 := h.le'
  have a8 := h.start.nonneg
  have ok1 : ∀ {p q : Vec T} {x y : ℝ}, At f (S.vec s.source) p x → At f (S.vec s.source) q y → x ≤ y → x < θ s.source →
      y ≤ θ s.source → ∃ x y, Ok f S θ ⟨s.source, some (p, q)⟩ x y := fun hp hq h1 h2 h3 => ⟨_, _, h.lt, hp, hq, h1, h2, h3⟩
  have one : ∀ t : Sector T, ∀ P : Prop, ∀ v, (has A (s.source, v) t = true ↔ P) → ∀ [Decidable P],
      [t].countP (has A (s.source, v)) = if P then 1 else 0 := by
    intro t P v ht _
    rw [List.countP_cons, List.countP_nil, zero_add]
    exact if_congr ht rfl rfl
  have bs := fun {v ρ} (hv : At f (S.vec s.source) v ρ) => has_some A hc.mono hb h.stop hv
  have se := fun {v ρ} (hv : At f (S.vec s.source) v ρ) => has_some A hc.mono h.start he hv
  have be := fun {v ρ} (hv : At f (S.vec s.source) v ρ) => has_some A hc.mono hb he hv
  split_ifs with c1 c2 c3 c3 c2 c3
  · have g : x < ε ∧ ε < β ∧ β < y := by
      rw [cyc_of_le a5] at c1
      grind
    refine ⟨?_, fun v ρ hv hρ => ?_⟩
    · intro t ht
      simp only [List.mem_cons, List.not_mem_nil, or_false] at ht
      rcases ht with rfl | rfl
      · exact ⟨rfl, ok1 hb h.stop (by linarith) (by linarith) (by linarith)⟩
      · exact ⟨rfl, ok1 h.start he (by linarith) (by linarith) (by linarith)⟩
    · rw [List.countP_cons, List.countP_cons, List.countP_nil, bs hv, se hv]
      simp only [decide_eq_true_eq, cyc_of_le (show β ≤ y by linarith), cyc_of_le (show x ≤ ε by linarith),
        cyc_of_le a5, cyc_of_gt g.2.1]
      clear one bs se be ok1 hb he h hc hv
      grind (splits := 40)
  · refine ⟨?_, fun v ρ hv hρ => ?_⟩
    · intro t ht
      rw [List.mem_singleton] at ht
      subst ht
      rw [cyc_of_le a5] at c1
      exact ⟨rfl, ok1 hb h.stop (by grind) (by grind) (by linarith)⟩
    · refine one _ _ v ?_
      rw [bs hv, decide_eq_true_eq]
      clear one bs se be ok1 hb he h hc hv
      grind (splits := 40) [Cyc]
  · refine ⟨?_, fun v ρ hv hρ => ?_⟩
    · intro t ht
      rw [List.mem_singleton] at ht
      subst ht
      rw [cyc_of_le a5] at c1 c3
      exact ⟨rfl, ok1 hb he (by grind) (by grind) (by grind)⟩
    · refine one _ _ v ?_
      rw [be hv, decide_eq_true_eq]
      clear one bs se be ok1 hb he h hc hv
      grind (splits := 40) [Cyc]
  · refine ⟨?_, fun v ρ hv hρ => ?_⟩
    · intro t ht
      rw [List.mem_singleton] at ht
      subst ht
      rw [cyc_of_le a5] at c1
      exact ⟨rfl, ok1 hb h.stop (by grind) (by grind) (by linarith)⟩
    · refine one _ _ v ?_
      rw [bs hv, decide_eq_true_eq]
      clear one bs se be ok1 hb he h hc hv
      grind (splits := 40) [Cyc]
  · refine ⟨?_, fun v ρ hv hρ => ?_⟩
    · intro t ht
      rw [List.mem_singleton] at ht
      subst ht
      rw [cyc_of_le a5] at c2
      exact ⟨rfl, ok1 h.start he (by grind) (by grind) (by grind)⟩
    · refine one _ _ v ?_
      rw [se hv, decide_eq_true_eq]
      clear one bs se be ok1 hb he h hc hv
      grind (splits := 40) [Cyc]
  · refine ⟨?_, fun v ρ hv hρ => ?_⟩
    · intro t ht
      rw [List.mem_singleton] at ht
      subst ht
      exact ⟨rfl, _, _, h⟩
    · refine one _ _ v ?_
      rw [h.has A hc hv hρ, decide_eq_true_eq]
      clear one bs se be ok1 hb he h hc hv
      grind (splits := 40) [Cyc]
  · refine ⟨fun t ht => (by simp at ht), fun v ρ hv hρ => ?_⟩
    rw [List.countP_nil, if_neg]
    clear one bs se be ok1 hb he h hc hv
    grind (splits := 40) [Cyc]

end SaddleConnections

end Verif
