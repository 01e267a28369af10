import Verif.Lemmas.SaddleVisit
import Verif.Lemmas.Bound

set_option linter.unusedSectionVars false

/-!
# What the search across an edge reports
-/

namespace Verif

open Vec Spec FlatTri

variable {T : Type} [CommRing T] [LinearOrder T] [IsStrictOrderedRing T]

namespace SaddleSearch

/-- What is known about the end points of an edge when the search across this edge starts. -/
def settled (R : Option Bound) (q : Vec T) (s t : Option Bool) : Option Bool × Option Bool :=
  match s, t, R with
  | none, none, some r => (none, some (!decide (dot q q < (r.square : T))))
  | _, _, _ => (s, t)

/-- The edge is entirely outside the search radius. -/
def AllOutside (S : FlatTri T) (r : Bound) (x : HE) (q : Vec T) : Prop :=
  let e := S.vec (neg x)
  Quadratic.positive ⟨e.x * e.x + e.y * e.y, 2 * q.x * e.x + 2 * q.y * e.y, q.x * q.x + q.y * q.y - (r.square : T)⟩ = true

/-- Nothing is searched beyond the edge. -/
def Prune (S : FlatTri T) (R : Option Bound) (s t : Option Bool) (x : HE) (q : Vec T) : Prop :=
  (s = some true ∨ t = some true) ∧ ∃ r, R = some r ∧ AllOutside S r x q

/-- Beyond the search radius. -/
def far (R : Option Bound) (a : Vec T) : Bool := match R with
  | some r => decide ((r.square : T) < dot a a)
  | none => false

/-- Not inside the search radius. -/
def notNear (R : Option Bound) (a : Vec T) : Bool := match R with
  | some r => !decide (dot a a < (r.square : T))
  | none => false

/-- The new end of the sector for the clockwise search. -/
def shrinkEnd (b1 : Bd T) (a : Vec T) : Bd T := if b1.1 = true ∨ ¬0 < cross b1.2 a then (true, a) else b1

/-- The new beginning of the sector after a saddle connection has been found there. -/
def touch (b0 : Bd T) (a : Vec T) : Bd T := if b0.1 = false ∧ cross b0.2 a = 0 then (true, a) else b0

/-- The new beginning of the sector for the counterclockwise search. -/
def shrinkBegin (b0 : Bd T) (a : Vec T) : Bd T := if b0.1 = true ∨ ¬cross b0.2 a < 0 then (true, a) else b0

/-- The vertex is in the search sector. -/
def Sad (b0 b1 : Bd T) (a : Vec T) : Prop := cross b0.2 a = 0 ∧ b0.1 = false ∨ 0 < cross b0.2 a ∧ cross b1.2 a < 0

/-- The search across an edge `x` that ends at `q` for a sector between `b0` and `b1`, what it reports and the beginning of
the sector afterwards. -/
inductive Visit (S : FlatTri T) (R : Option Bound) (L : Bound) :
    Option Bool → Option Bool → Bd T → Bd T → HE → Vec T → List (HE × Vec T) → Bd T → Prop
  | prune {s t s' t' b0 b1 x q} : settled R q s t = (s', t') → Prune S R s' t' x q → Visit S R L s t b0 b1 x q [] b0
  | cw {s t s' t' b0 b1 x q l b} : settled R q s t = (s', t') → ¬Prune S R s' t' x q → Cw b0 (apex S x q) →
      Visit S R L (some (notNear R (apex S x q))) t' b0 b1 (S.tri.nextInFace (S.tri.nextInFace (neg x))) q l b →
      Visit S R L s t b0 b1 x q l b
  | ccw {s t s' t' b0 b1 x q l b} : settled R q s t = (s', t') → ¬Prune S R s' t' x q → 0 < cross b0.2 (apex S x q) →
      0 ≤ cross b1.2 (apex S x q) → Visit S R L s' none b0 b1 (S.tri.nextInFace (neg x)) (apex S x q) l b →
      Visit S R L s t b0 b1 x q l b
  | saddle {s t s' t' b0 b1 x q l l' b b'} : settled R q s t = (s', t') → ¬Prune S R s' t' x q → Sad b0 b1 (apex S x q) →
      Visit S R L s' (some (far R (apex S x q))) (touch b0 (apex S x q)) (shrinkEnd b1 (apex S x q))
        (S.tri.nextInFace (neg x)) (apex S x q) l b →
      Visit S R L (some (far R (apex S x q))) t' (shrinkBegin b (apex S x q)) b1
        (S.tri.nextInFace (S.tri.nextInFace (neg x))) q l' b' →
      Visit S R L s t b0 b1 x q ((if far R (apex S x q) = false ∧ (L.square : T) < dot (apex S x q) (apex S x q) then
        [(S.tri.nextInFace (S.tri.nextInFace (neg x)), apex S x q)] else []) ++ (l ++ l')) b

/-- The length is in the bounds of the search. -/
def Within (R : Option Bound) (L : Bound) (v : Vec T) : Prop :=
  (∀ r, R = some r → dot v v ≤ (r.square : T)) ∧ (L.square : T) < dot v v

theorem within_iff {R : Option Bound} {L : Bound} {v : Vec T} :
    Within R L v ↔ far R v = false ∧ (L.square : T) < dot v v := by
  unfold Within far
  cases R <;> simp

variable {S : FlatTri T} {R : Option Bound} {L : Bound}

/-- An edge that is entirely outside the search radius hides everything that is beyond it. -/
theorem allOutside_hides {f : T →+* ℝ} (hf : StrictMono f) (h : S.Shut) {r : Bound} {x : HE} {q : Vec T} (ho : AllOutside S r x q)
    {v : Vec T} {t : HE} (ht : Hits S v x q t) (hx : x < S.tri.size) (hp : 0 < cross (q - S.vec x) q)
    (h1 : 0 < cross (q - S.vec x) v) (h2 : 0 < cross v q) : (r.square : T) < dot v v := by
  have hb := beyond h ht hx hp h1 h2
  have hh : 0 < cross v (S.vec x) := lt_of_lt_of_le hp hb
  have hH : 0 < f (cross v (S.vec x)) := by rw [← map_zero f]; exact hf hh
  have key := (C26.positive_correct f hf _).1 ho (f (cross v q) / f (cross v (S.vec x)))
    (div_nonneg (by rw [← map_zero f]; exact (hf h2).le) hH.le)
    ((div_le_one hH).2 (by
      apply hf.monotone
      rw [half_eq (q := q)]
      linarith))
  rw [h.flat.odd x hx] at key
  by_contra hc
  push Not at hc
  -- The point on the edge is a multiple of `v` that is not longer than `v`.
  have hs : f (dot v v) ≤ f (r.square : T) := hf.monotone hc
  have e1 : ((-S.vec x).x * (-S.vec x).x + (-S.vec x).y * (-S.vec x).y) * cross v q ^ 2 +
      (2 * q.x * (-S.vec x).x + 2 * q.y * (-S.vec x).y) * (cross v q * cross v (S.vec x)) +
      (q.x * q.x + q.y * q.y - (r.square : T)) * cross v (S.vec x) ^ 2 =
      cross (q - S.vec x) q ^ 2 * dot v v - cross v (S.vec x) ^ 2 * (r.square : T) := by
    simp only [cross, dot, Vec.neg_x, Vec.neg_y, Vec.sub_x, Vec.sub_y]
    ring
  have e2 := congrArg f e1
  simp only [map_add, map_mul, map_sub, map_pow] at e2
  unfold C26.value at key
  simp only [map_add, map_mul, map_sub] at key
  have k2 := mul_pos (pow_pos hH 2) key
  have hB : 0 < f (cross (q - S.vec x) q) := by rw [← map_zero f]; exact hf hp
  have hB' : f (cross (q - S.vec x) q) ≤ f (cross v (S.vec x)) := hf.monotone hb
  have hv : 0 ≤ f (dot v v) := by rw [← map_zero f]; exact hf.monotone (dot_self_nonneg v)
  have hlt : 0 < f (cross (q - S.vec x) q) ^ 2 * f (dot v v) - f (cross v (S.vec x)) ^ 2 * f (r.square : T) := by
    rw [← e2]
    refine lt_of_lt_of_eq k2 ?_
    field_simp
  have hsq : f (cross (q - S.vec x) q) ^ 2 ≤ f (cross v (S.vec x)) ^ 2 := pow_le_pow_left₀ hB.le hB' 2
  nlinarith [mul_le_mul_of_nonneg_right hsq hv, mul_le_mul_of_nonneg_left hs (pow_pos hH 2).le]

theorem Visit.void {s t : Option Bool} {b0 b1 : Bd T} {x : HE} {q : Vec T} {l : List (HE × Vec T)} {b : Bd T}
    (hv : Visit S R L s t b0 b1 x q l b) (h : Void b0 b1) : l = [] ∧ b = b0 := by
  induction hv with
  | prune => exact ⟨rfl, rfl⟩
  | cw _ _ _ _ ih => exact ih h
  | ccw _ _ _ _ _ ih => exact ih h
  | saddle _ _ hs =>
    exfalso
    rcases hs with hs | hs
    · rw [h.1] at hs; exact absurd hs.2 (by decide)
    · exact absurd hs.2 (not_lt.2 (h.2 _ hs.1))

/-- Vectors that are collinear and in the same half plane have the same things to their left. -/
theorem void_of_same {u v n : Vec T} {c : Bool} (hu : 0 < cross u n) (hv : 0 < cross v n) (h : cross u v = 0) : Void (true, u) (c, v) := by
  refine ⟨rfl, fun z hz => ?_⟩
  have := cross_trans_eq u v z n
  rw [h, zero_mul, zero_add] at this
  have h1 : 0 < cross v z * cross u n := by rw [← this]; positivity
  exact ((mul_pos_iff_of_pos_right hu).1 h1).le

section

variable {b0 b1 : Bd T} {x : HE} {q : Vec T}

theorem Node.wide_first (h : S.Shut) (hn : Node S b0 b1 x q) (h0 : 0 < cross b0.2 (apex S x q)) (h1 : 0 < cross (apex S x q) b1.2) :
    Node S b0 (true, apex S x q) x q := by
  have hp' : 0 < cross (q - S.vec x) (S.vec x) := by rw [half_p]; exact hn.pos
  have hq' : 0 < cross q (S.vec x) := by rw [half_q]; exact hn.pos
  exact ⟨hn.lt, hn.pos, hn.p0, hn.p0', hn.q0, cross_trans_le_lt hp' hn.half0 (hn.halfa h) hn.p0 h0,
    (cross_trans_lt_le (hn.halfa h) hn.half1 hq' h1 hn.q1).le, Or.inl h0⟩

theorem Node.wide_second (h : S.Shut) (hn : Node S b0 b1 x q) (h0 : 0 ≤ cross b0.2 (apex S x q)) (h1 : 0 < cross (apex S x q) b1.2) :
    Node S (true, apex S x q) b1 x q := by
  have hp' : 0 < cross (q - S.vec x) (S.vec x) := by rw [half_p]; exact hn.pos
  have hq' : 0 < cross q (S.vec x) := by rw [half_q]; exact hn.pos
  exact ⟨hn.lt, hn.pos, cross_trans hp' hn.half0 (hn.halfa h) hn.p0 h0, by simp,
    cross_trans_lt_le (hn.halfa h) hn.half1 hq' h1 hn.q1, hn.p1, hn.q1, Or.inl h1⟩

theorem Node.clockwise_of (h : S.Shut) (hn : Node S b0 b1 x q) (hc : Cw b0 (apex S x q)) {v : Vec T} (hv : InS b0 b1 v) :
    cross v (apex S x q) < 0 := by
  have ha := hn.halfa h
  have hh := (hn.inS hv).1
  rw [cross_comm]
  have h0 : 0 ≤ cross (apex S x q) b0.2 := by
    rw [cross_comm]
    rcases hc with hc | hc <;> linarith
  refine neg_neg_of_pos ?_
  rcases hv with hv | hv
  · rcases hc with hc | hc
    · exact cross_trans_lt_le ha hn.half0 hh (by rw [cross_comm]; linarith) hv.2.1.ge
    · rw [hc.2] at hv; exact absurd hv.1 (by decide)
  · exact cross_trans_le_lt ha hn.half0 hh h0 hv.1

theorem Node.counterclockwise_of (h : S.Shut) (hn : Node S b0 b1 x q) (h0 : 0 < cross b0.2 (apex S x q))
    (h1 : 0 ≤ cross b1.2 (apex S x q)) {v : Vec T} (hv : InS b0 b1 v) : 0 < cross v (apex S x q) := by
  have ha := hn.halfa h
  have hh := (hn.inS hv).1
  rcases hv with hv | hv
  · exact cross_trans_le_lt hh hn.half0 ha (by rw [cross_comm, hv.2.1, neg_zero]) h0
  · exact cross_trans_lt_le hh hn.half1 ha hv.2 h1

end

/-- The search across an edge reports exactly the saddle connections that cross that edge in the search sector, and none of
them twice. -/
theorem Visit.correct {f : T →+* ℝ} (hf : StrictMono f) (h : S.Shut) {s t : Option Bool} {b0 b1 : Bd T} {x : HE} {q : Vec T}
    {l : List (HE × Vec T)} {b : Bd T} (hv : Visit S R L s t b0 b1 x q l b) (hn : Node S b0 b1 x q) :
    (b = b0 ∨ b.1 = true) ∧ (∀ c, c ∈ l ↔ InS b0 b1 c.2 ∧ Hits S c.2 x q c.1 ∧ Within R L c.2) ∧
    l.Pairwise fun c d => cross c.2 d.2 ≠ 0 := by
  induction hv with
  | prune _ hp =>
    refine ⟨Or.inl rfl, fun c => ⟨fun k => absurd k (by simp), ?_⟩, List.Pairwise.nil⟩
    rintro ⟨k1, k2, k3⟩
    obtain ⟨-, r, hr, ho⟩ := hp
    obtain ⟨-, hin⟩ := hn.inS k1
    exact absurd (allOutside_hides hf h ho k2 hn.lt hn.pos hin.1 hin.2) (not_lt.2 (k3.1 r hr))
  | cw _ _ hc _ ih =>
    obtain ⟨i1, i2, i3⟩ := ih (hn.clockwise h hc)
    refine ⟨i1, fun c => ?_, i3⟩
    rw [i2]
    refine and_congr_right fun k => ?_
    rw [hits_left (hn.clockwise_of h hc k)]
  | ccw _ _ h0 h1 _ ih =>
    obtain ⟨i1, i2, i3⟩ := ih (hn.counterclockwise h h0 h1)
    refine ⟨i1, fun c => ?_, i3⟩
    rw [i2]
    refine and_congr_right fun k => ?_
    rw [hits_right (hn.counterclockwise_of h h0 h1 k)]
  | @saddle s t s' t' b0 b1 x q l l' b b' _ _ hs v1 v2 ih1 ih2 =>
    have ha := hn.halfa h
    have hb1 := hn.half1
    have hb0 := hn.half0
    -- The vertex is not before the beginning and not after the end of the sector.
    have h0 : 0 ≤ cross b0.2 (apex S x q) := by
      rcases hs with hs | hs
      · exact hs.1.ge
      · exact hs.1.le
    have h01 : 0 ≤ cross b0.2 b1.2 := by
      rcases hn.b with hb | hb
      · exact hb.le
      · exact hb.2.ge
    have h1 : 0 ≤ cross (apex S x q) b1.2 := by
      rcases hs with hs | hs
      · exact cross_trans ha hb0 hb1 (by rw [cross_comm, hs.1, neg_zero]) h01
      · rw [cross_comm]; linarith
    have hend : shrinkEnd b1 (apex S x q) = (true, apex S x q) := by
      unfold shrinkEnd
      rw [if_pos]
      right
      rw [cross_comm]
      linarith
    rw [hend] at v1 ih1
    -- The first part of the search.
    have first : (b = b0 ∨ b.1 = true) ∧ (∀ c, c ∈ l ↔ (InS b0 b1 c.2 ∧ 0 < cross c.2 (apex S x q)) ∧ Hits S c.2 x q c.1 ∧ Within R L c.2) ∧
        l.Pairwise fun c d => cross c.2 d.2 ≠ 0 := by
      rcases hs with hs | hs
      · have ht : touch b0 (apex S x q) = (true, apex S x q) := by
          unfold touch; rw [if_pos ⟨hs.2, hs.1⟩]
        rw [ht] at v1
        obtain ⟨rfl, rfl⟩ := v1.void (void_of_same ha ha (cross_self _))
        refine ⟨Or.inr rfl, fun c => ⟨fun k => absurd k (by simp), ?_⟩, List.Pairwise.nil⟩
        rintro ⟨⟨k1, k2⟩, -⟩
        exfalso
        have hh := (hn.inS k1).1
        have : 0 ≤ cross b0.2 c.2 := by
          rcases k1 with k1 | k1
          · exact k1.2.1.ge
          · exact k1.1.le
        have := cross_trans_le_lt hb0 hh ha this k2
        rw [hs.1] at this
        exact lt_irrefl _ this
      · have ht : touch b0 (apex S x q) = b0 := by
          unfold touch; rw [if_neg]; rintro ⟨-, k⟩; exact absurd hs.1 (by rw [k]; exact lt_irrefl _)
        rw [ht] at v1 ih1
        have h1' : 0 < cross (apex S x q) b1.2 := by rw [cross_comm]; linarith
        obtain ⟨i1, i2, i3⟩ := ih1 (hn.first h hs.1)
        refine ⟨i1, fun c => ?_, i3⟩
        rw [i2]
        have : InS b0 (true, apex S x q) c.2 ↔ InS b0 b1 c.2 ∧ 0 < cross c.2 (apex S x q) := by
          constructor
          · intro k
            have hh := ((hn.wide_first h hs.1 h1').inS k).1
            rcases k with k | k
            · exact ⟨Or.inl k, cross_trans_le_lt hh hb0 ha (by rw [cross_comm, k.2.1, neg_zero]) hs.1⟩
            · exact ⟨Or.inr ⟨k.1, cross_trans_lt_le hh ha hb1 k.2 h1⟩, k.2⟩
          · rintro ⟨k, k'⟩
            rcases k with k | k
            · exact Or.inl k
            · exact Or.inr ⟨k.1, k'⟩
        rw [this]
        refine and_congr_right fun k => ?_
        rw [hits_right k.2]
    obtain ⟨f1, f2, f3⟩ := first
    -- The second part of the search.
    have hbeg : shrinkBegin b (apex S x q) = (true, apex S x q) := by
      unfold shrinkBegin
      rw [if_pos]
      rcases f1 with f1 | f1
      · right; rw [f1]; linarith
      · left; exact f1
    rw [hbeg] at v2 ih2
    have second : (∀ c, c ∈ l' ↔ (InS b0 b1 c.2 ∧ cross c.2 (apex S x q) < 0) ∧ Hits S c.2 x q c.1 ∧ Within R L c.2) ∧
        l'.Pairwise fun c d => cross c.2 d.2 ≠ 0 := by
      rcases h1.lt_or_eq with h1' | h1'
      · obtain ⟨-, i2, i3⟩ := ih2 (hn.second h h1')
        refine ⟨fun c => ?_, i3⟩
        rw [i2]
        have : InS (true, apex S x q) b1 c.2 ↔ InS b0 b1 c.2 ∧ cross c.2 (apex S x q) < 0 := by
          constructor
          · intro k
            have hh := ((hn.wide_second h h0 h1').inS k).1
            rcases k with k | k
            · exact absurd k.1 (by simp)
            · exact ⟨Or.inr ⟨cross_trans_le_lt hb0 ha hh h0 k.1, k.2⟩, by rw [cross_comm]; linarith [k.1]⟩
          · rintro ⟨k, k'⟩
            have hh := (hn.inS k).1
            have k'' : 0 < cross (apex S x q) c.2 := by rw [cross_comm]; linarith
            rcases k with k | k
            · exfalso
              have := cross_trans_le_lt hb0 ha hh h0 k''
              rw [k.2.1] at this
              exact lt_irrefl _ this
            · exact Or.inr ⟨k'', k.2⟩
        rw [this]
        refine and_congr_right fun k => ?_
        rw [hits_left k.2]
      · obtain ⟨rfl, -⟩ := v2.void (void_of_same ha hb1 h1'.symm)
        refine ⟨fun c => ⟨fun k => absurd k (by simp), ?_⟩, List.Pairwise.nil⟩
        rintro ⟨⟨k1, k2⟩, -⟩
        exfalso
        have hh := (hn.inS k1).1
        have k2' : 0 < cross (apex S x q) c.2 := by rw [cross_comm]; linarith
        rcases k1 with k1 | k1
        · have := cross_trans_le_lt hb0 ha hh h0 k2'
          rw [k1.2.1] at this
          exact lt_irrefl _ this
        · have := cross_trans_lt_le ha hh hb1 k2' k1.2.le
          rw [← h1'] at this
          exact lt_irrefl _ this
    obtain ⟨s2, s3⟩ := second
    refine ⟨?_, fun c => ?_, ?_⟩
    · rcases hs with hs | hs
      · right
        have ht : touch b0 (apex S x q) = (true, apex S x q) := by
          unfold touch; rw [if_pos ⟨hs.2, hs.1⟩]
        rw [ht] at v1
        rw [(v1.void (void_of_same ha ha (cross_self _))).2]
      · exact f1
    · rw [List.mem_append, List.mem_append, f2, s2]
      have ha' : InS b0 b1 (apex S x q) := by
        rcases hs with hs | hs
        · exact Or.inl ⟨hs.2, hs.1, dot_pos_of_half hb0 ha hs.1⟩
        · exact Or.inr ⟨hs.1, by rw [cross_comm]; linarith⟩
      constructor
      · rintro (k | k | k)
        · split_ifs at k with hw
          · rw [List.mem_singleton] at k
            subst k
            exact ⟨ha', .here rfl, within_iff.2 hw⟩
          · exact absurd k (by simp)
        · exact ⟨k.1.1, k.2⟩
        · exact ⟨k.1.1, k.2⟩
      · rintro ⟨k1, k2, k3⟩
        rcases lt_trichotomy (cross c.2 (apex S x q)) 0 with hc | hc | hc
        · exact Or.inr (Or.inr ⟨⟨k1, hc⟩, k2, k3⟩)
        · left
          obtain ⟨e1, e2⟩ := (hits_here hc).1 k2
          rw [if_pos (within_iff.1 (e1 ▸ k3)), List.mem_singleton]
          exact Prod.ext e2 e1
        · exact Or.inr (Or.inl ⟨⟨k1, hc⟩, k2, k3⟩)
    · have pw : ∀ c ∈ l, ∀ d ∈ l', cross c.2 d.2 ≠ 0 := by
        intro c hc d hd
        have k1 := ((f2 c).1 hc).1
        have k2 := ((s2 d).1 hd).1
        exact (cross_trans_lt_le (hn.inS k1.1).1 ha (hn.inS k2.1).1 k1.2 (by rw [cross_comm]; linarith [k2.2])).ne'
      have pa : ∀ d ∈ l ++ l', cross (apex S x q) d.2 ≠ 0 := by
        intro d hd
        rw [cross_comm]
        rcases List.mem_append.1 hd with hd | hd
        · have := ((f2 d).1 hd).1.2; linarith
        · have := ((s2 d).1 hd).1.2; linarith
      rw [List.pairwise_append]
      refine ⟨by split_ifs <;> simp, List.pairwise_append.2 ⟨f3, s3, pw⟩, ?_⟩
      intro c hc d hd
      split_ifs at hc
      · rw [List.mem_singleton] at hc
        subst hc
        exact pa d hd
      · exact absurd hc (by simp)

end SaddleSearch

end Verif
