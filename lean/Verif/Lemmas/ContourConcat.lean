import Verif.Lemmas.ContourCross

/-!
# Perimeters of components of contours of collapsed surfaces
-/

set_option linter.unusedSectionVars false

namespace Verif.Collapsed

open Spec Contour Vertical Flow

variable {T : Type} [CommRing T] [LinearOrder T] [IsStrictOrderedRing T]
variable {K : Type*} [Field K] [LinearOrder K] [IsStrictOrderedRing K]
variable {C : Collapsed T} {A : Option (Approx T K)} {dbg : Bool} {d : Component} {fuel : ℕ}

/-- The connection goes from left to right on the bottom, from right to left on the top. -/
def Heads (C : Collapsed T) (o : Bool) (x : HE) : Prop := if o then 0 < across C (neg x) else 0 < across C x

theorem connection_ok {o : Bool} {x : HE} {l m : List (Vec T)} (hb : Before A dbg C fuel d ⟨x, o⟩ l) (ha : After A dbg C fuel d ⟨x, o⟩ m)
    (hx : Heads C o x) : connectionPerimeter A dbg C fuel d ⟨x, o⟩ = pure (l ++ [stride C ⟨x, o⟩] ++ m) := by
  cases o with
  | false => exact (perimeter_bottom hb ha hx).1
  | true => exact (perimeter_top hb ha hx).1

/-- The sides of the connections are given by the gaps. -/
inductive Chained (A : Option (Approx T K)) (dbg : Bool) (C : Collapsed T) (fuel : ℕ) (d : Component) (o : Bool)
    (c1 c2 : List HE × List HE → List (Vec T)) : List HE → List (List HE × List HE) → Prop
  | single (x) : Chained A dbg C fuel d o c1 c2 [x] []
  | cons {x y t s g} : After A dbg C fuel d ⟨x, o⟩ (c1 s) → Before A dbg C fuel d ⟨y, o⟩ (c2 s) →
      Chained A dbg C fuel d o c1 c2 (y :: t) g → Chained A dbg C fuel d o c1 c2 (x :: y :: t) (s :: g)

theorem Chained.concat_ok {o : Bool} {c1 c2 : List HE × List HE → List (Vec T)} {t : List HE} {g : List (List HE × List HE)}
    (h : Chained A dbg C fuel d o c1 c2 t g) (ht : ∀ x ∈ t, Heads C o x) {x y : HE} {l m : List (Vec T)} (hx : t.head? = some x)
    (hy : t.getLast? = some y) (hl : Before A dbg C fuel d ⟨x, o⟩ l) (hm : After A dbg C fuel d ⟨y, o⟩ m) :
    concat A dbg C fuel d (t.map fun x => ⟨x, o⟩) = pure (l ++ weave (fun x => [stride C ⟨x, o⟩]) (fun s => c1 s ++ c2 s) t g ++ m) ∧
    ∀ z ∈ t, ∃ l m, Before A dbg C fuel d ⟨z, o⟩ l ∧ After A dbg C fuel d ⟨z, o⟩ m := by
  induction h generalizing x l with
  | single z =>
    cases hx
    cases hy
    refine ⟨?_, ?_⟩
    · simp only [List.map_cons, List.map_nil, concat, weave]
      rw [connection_ok hl hm (ht z (by simp))]
      simp
    · intro w hw
      rw [List.mem_singleton.1 hw]
      exact ⟨_, _, hl, hm⟩
  | @cons z w t s g k1 k2 k3 ih =>
    cases hx
    obtain ⟨i1, i2⟩ := ih (fun u hu => ht u (List.mem_cons_of_mem _ hu)) (x := w) rfl (by rwa [List.getLast?_cons_cons] at hy) k2
    refine ⟨?_, ?_⟩
    · rw [List.map_cons, concat, connection_ok hl k1 (ht z (by simp)), i1]
      simp [weave]
    · intro u hu
      rcases List.mem_cons.1 hu with rfl | hu
      · exact ⟨_, _, hl, k1⟩
      · exact i2 u hu

theorem concat_append {l m : List Connection} {u w : List (Vec T)} (hl : concat A dbg C fuel d l = pure u)
    (hm : concat A dbg C fuel d m = pure w) : concat A dbg C fuel d (l ++ m) = pure (u ++ w) := by
  induction l generalizing u with
  | nil =>
    have : u = [] := by
      have h1 : (pure [] : Run (List (Vec T))) = pure u := hl
      have h2 : (some (Except.ok []) : Option (Except Err (List (Vec T)))) = some (.ok u) := h1
      cases h2
      rfl
    rw [this]
    exact hm
  | cons x l ih =>
    rw [concat] at hl
    rw [List.cons_append, concat]
    cases h1 : connectionPerimeter A dbg C fuel d x with
    | none => rw [h1] at hl; cases hl
    | some r =>
      cases r with
      | error e => rw [h1] at hl; cases hl
      | ok p =>
        rw [h1] at hl
        change (do let q ← concat A dbg C fuel d l; pure (p ++ q)) = _ at hl
        change (do let q ← concat A dbg C fuel d (l ++ m); pure (p ++ q)) = _
        cases h2 : concat A dbg C fuel d l with
        | none => rw [h2] at hl; cases hl
        | some r =>
          cases r with
          | error e => rw [h2] at hl; cases hl
          | ok q =>
            rw [h2] at hl
            have h3 : (some (Except.ok (p ++ q)) : Option (Except Err (List (Vec T)))) = some (.ok u) := hl
            cases h3
            rw [ih h2]
            simp

theorem mapM_ok {α β : Type} (F : α → Except Err β) (g : α → β) (l : List α) (h : ∀ x ∈ l, F x = .ok (g x)) : l.mapM F = .ok (l.map g) := by
  induction l with
  | nil => rfl
  | cons x l ih =>
    rw [List.mapM_cons, h x (by simp), ih fun y hy => h y (by simp [hy])]
    rfl

theorem Signs.contour (h : Signs C d) : perimeterContour A dbg C d =
    .ok (d.bottomEdges.map (fun x => ⟨x, false⟩) ++ d.topEdges.map fun x => ⟨x, true⟩) := by
  unfold perimeterContour
  rw [mapM_ok _ (fun x => ⟨x, false⟩) _ fun x hx => makeBottom_ok A dbg (h.bottom x hx),
    mapM_ok _ (fun x => ⟨x, true⟩) _ fun x hx => makeTop_ok A dbg (h.top x hx)]
  rfl

/-- Everything about a component. -/
structure Frame (C : Collapsed T) (d : Component) (mu md a b : List HE) (g : List (List HE × List HE)) (a' b' : List HE)
    (g' : List (List HE × List HE)) : Prop where
  lt : d.large < C.tri.size
  pos : 0 < across C d.large
  large : Large C.tri.nextInFace C.tri.previousInFace (across C) d.large
  up : Spine C.tri.nextInFace C.tri.previousInFace (across C) d.large mu d.topEdges a b g
  down : Spine C.tri.nextInFace C.tri.previousInFace (fun e => -across C e) (neg d.large) md d.bottomEdges a' b' g'
  nodup : d.perimeter.Nodup
  signs : Signs C d
  neg_lt : ∀ x ∈ d.perimeter, x < C.tri.size

theorem Good.frame (h : C.Good) (hu : C.Upright) {mu lu md ld : List HE} (b : Built C.seen C.vertical d mu lu md ld) :
    ∃ a b g a' b' g', Frame C d mu md a b g a' b' g' := by
  have hr := h.ready hu
  have hd := b.down
  rw [perp_neg] at hd
  obtain ⟨x1, x2, x3, k1⟩ := b.up.spine
  obtain ⟨y1, y2, y3, k2⟩ := hd.spine
  rw [← b.top] at k1
  rw [← b.bottom] at k2
  exact ⟨x1, x2, x3, y1, y2, y3, b.lt, b.pos, (hr.flow_large_iff b.lt b.pos).2 b.large, k1, k2, b.nodup hr,
    ⟨b.top_left hr, b.bottom_right hr⟩, fun x hx => b.part.lt x (b.perimeter_sub hr hx)⟩

/-- The order of the connections of a chain of connections. -/
theorem gaps_chained {o : Bool} {n : ℕ} {nx : HE → HE} {p : HE → T} {c1 c2 : List HE × List HE → List (Vec T)} {t : List HE}
    {g : List (List HE × List HE)} (hg : Gaps n nx p t g) (hc : t.IsChain fun x y => d.nextInPerimeter x = .ok y ∧ d.previousInPerimeter y = .ok x)
    (ht : ∀ x y, y ∈ t → ∀ s, Gap n nx p x y s → d.nextInPerimeter x = .ok y → d.previousInPerimeter y = .ok x → x ∈ t →
      After A dbg C fuel d ⟨x, o⟩ (c1 s) ∧ Before A dbg C fuel d ⟨y, o⟩ (c2 s)) : Chained A dbg C fuel d o c1 c2 t g := by
  induction hg with
  | single x => exact .single x
  | @cons x y t s g k1 k2 ih =>
    obtain ⟨h1, h2⟩ := List.isChain_cons_cons.1 hc
    obtain ⟨h3, h4⟩ := ht x y (by simp) s k1 h1.1 h1.2 (by simp)
    exact .cons h3 h4 (ih h2 fun x y hy s hs e1 e2 hx => ht x y (List.mem_cons_of_mem _ hy) s hs e1 e2 (List.mem_cons_of_mem _ hx))

theorem follows_append {b t : List HE} : (b ++ t).IsChain (Follows (b ++ t)) := by
  rw [List.isChain_iff_getElem]
  intro i hi
  exact ⟨i, by omega, List.getElem?_eq_getElem _, by rw [Nat.mod_eq_of_lt hi]; exact List.getElem?_eq_getElem _⟩

theorem follows_wrap {l : List HE} {x y : HE} (hx : l.getLast? = some x) (hy : l.head? = some y) : Follows l x y := by
  have hl : l ≠ [] := by rintro rfl; cases hx
  have h0 := List.length_pos_iff.2 hl
  refine ⟨l.length - 1, by omega, ?_, ?_⟩
  · rw [← hx, List.getLast?_eq_getElem?]
  · rw [Nat.sub_add_cancel h0, Nat.mod_self, ← hy, List.head?_eq_getElem?]

variable (h : C.Good) (hu : C.Upright) (hV : C.tri.VertexesOk) (hf : C.tri.size ≤ fuel)
variable {mu md a b a' b' : List HE} {g g' : List (List HE × List HE)}

include h hu in
theorem Frame.both (F : Frame C d mu md a b g a' b' g') :
    Spined C.tri.size C.tri.nextInFace (across C) d.large d.topEdges a b g ∧
    Spined C.tri.size C.tri.nextInFace (fun e => -across C e) (neg d.large) d.bottomEdges a' b' g' := by
  have hr := (h.ready hu).ok
  refine ⟨F.up.spined hr F.lt F.pos, F.down.spined (OK.reverse hr) (hr.neg_lt _ F.lt) ?_⟩
  have h1 : across C (neg d.large) = -across C d.large := hr.odd _ F.lt
  have := F.pos
  change 0 < -across C (neg d.large)
  rw [h1]
  linarith

theorem _root_.Verif.Flow.Spine.leaf_inv {nx pv : HE → HE} {p : HE → T} {e : HE} {m t a b : List HE} {g : List (List HE × List HE)}
    (hs : Spine nx pv p e m t a b g) (hu : ¬ Up nx pv p e) : m = [] ∧ t = [neg e] ∧ a = [e] ∧ b = [neg e] ∧ g = [] := by
  cases hs with
  | leaf _ => exact ⟨rfl, rfl, rfl, rfl, rfl⟩
  | node k => exact absurd k hu

theorem _root_.Verif.Flow.Spine.ne_nil {nx pv : HE → HE} {p : HE → T} {e : HE} {m t a b : List HE} {g : List (List HE × List HE)}
    (hs : Spine nx pv p e m t a b g) : a ≠ [] ∧ b ≠ [] := by cases hs <;> simp

theorem _root_.Verif.Flow.Spine.node_length {nx pv : HE → HE} {p : HE → T} {e : HE} {m t a b : List HE} {g : List (List HE × List HE)}
    (hs : Spine nx pv p e m t a b g) (hu : Up nx pv p e) : 2 ≤ a.length ∧ 2 ≤ b.length := by
  cases hs with
  | leaf k => exact absurd hu k
  | node k h1 h2 =>
    have := List.length_pos_iff.2 h1.ne_nil.1
    have := List.length_pos_iff.2 h2.ne_nil.2
    simp
    omega

include h hu in
/-- The large edge is a collapsed face or both trees are not trivial. -/
theorem Frame.size_cases (F : Frame C d mu md a b g a' b' g') :
    (C.tri.nextInFace d.large = neg d.large ∧ ¬ Up C.tri.nextInFace C.tri.previousInFace (fun e => -across C e) (neg d.large) ∧
      a = [d.large] ∧ b = [neg d.large] ∧ a' = [neg d.large] ∧ b' = [d.large] ∧ d.topEdges = [neg d.large] ∧ d.bottomEdges = [d.large]) ∨
    (Up C.tri.nextInFace C.tri.previousInFace (fun e => -across C e) (neg d.large) ∧
      2 ≤ a.length ∧ 2 ≤ b.length ∧ 2 ≤ a'.length ∧ 2 ≤ b'.length) := by
  have hr : OK C.tri.size C.tri.nextInFace C.tri.previousInFace (across C) := (h.ready hu).ok
  rcases F.large with k | ⟨k1, k2⟩
  · left
    have n1 : ¬ Up C.tri.nextInFace C.tri.previousInFace (across C) d.large := fun hx => hr.up_nf F.lt hx k
    have n2 : ¬ Up C.tri.nextInFace C.tri.previousInFace (fun e => -across C e) (neg d.large) := fun hx =>
      OK.up_nf hr.reverse (hr.neg_lt _ F.lt) hx ((hr.flat_neg F.lt).2 k)
    obtain ⟨-, u1, u2, u3, -⟩ := F.up.leaf_inv n1
    obtain ⟨-, w1, w2, w3, -⟩ := F.down.leaf_inv n2
    rw [neg_neg'] at w1 w3
    exact ⟨k, n2, u2, u3, w2, w3, u1, w1⟩
  · right
    obtain ⟨u1, u2⟩ := F.up.node_length k1
    obtain ⟨w1, w2⟩ := F.down.node_length k2
    exact ⟨k2, u1, u2, w1, w2⟩

theorem glue {l m : List HE} {e : HE} (hl : l.getLast? = some e) (hm : m.head? = some e) (h2 : 2 ≤ l.length) :
    (l ++ m.tail).tail = l.tail.dropLast ++ m := by
  obtain ⟨l, rfl⟩ := List.getLast?_eq_some_iff.1 hl
  obtain ⟨m, rfl⟩ := List.head?_eq_some_iff.1 hm
  cases l with
  | nil => simp at h2
  | cons x l => simp

theorem tail_getLast {l : List HE} {y : HE} (h : l.getLast? = some y) (h2 : 2 ≤ l.length) : l.tail.getLast? = some y := by
  cases l with
  | nil => simp at h2
  | cons x l =>
    cases l with
    | nil => simp at h2
    | cons z l => rwa [List.getLast?_cons_cons] at h

theorem append_getLast {l m : List HE} {y : HE} (h : m.getLast? = some y) : (l ++ m).getLast? = some y := by
  rw [List.getLast?_append, h]; rfl

theorem append_head {l m : List HE} {y : HE} (h : l.head? = some y) : (l ++ m).head? = some y := by
  rw [List.head?_append, h]; rfl

/-- The part of the perimeter at the bottom. -/
abbrev lower (C : Collapsed T) (d : Component) (g' : List (List HE × List HE)) : List (Vec T) :=
  weave (fun x => [C.vec x]) (fun s => over C (s.1.tail ++ s.2.dropLast)) d.bottomEdges g'

/-- The part of the perimeter at the top. -/
abbrev upper (C : Collapsed T) (d : Component) (g : List (List HE × List HE)) : List (Vec T) :=
  weave (fun x => [-C.vec (neg x)]) (fun s => over C (s.1 ++ s.2)) d.topEdges g

include h hu hV hf in
theorem Frame.perimeter_ok (A : Option (Approx T K)) (dbg : Bool) (F : Frame C d mu md a b g a' b' g') :
    perimeter A dbg C fuel d = pure (lower C d g' ++ over C (a'.tail.dropLast ++ b) ++ (upper C d g ++ over C (a ++ b'.tail.dropLast))) ∧
    (∀ z ∈ d.bottomEdges, ∃ l m, Before A dbg C fuel d ⟨z, false⟩ l ∧ After A dbg C fuel d ⟨z, false⟩ m) ∧
    ∀ z ∈ d.topEdges, ∃ l m, Before A dbg C fuel d ⟨z, true⟩ l ∧ After A dbg C fuel d ⟨z, true⟩ m := by
  have hr : OK C.tri.size C.tri.nextInFace C.tri.previousInFace (across C) := (h.ready hu).ok
  obtain ⟨su, sd⟩ := F.both h hu
  have hb := sd.gaps.ne_nil
  have ht := su.gaps.ne_nil
  have tt : ∀ x ∈ d.topEdges, decide (x ∈ d.topEdges) = true := fun x hx => decide_eq_true hx
  have bb : ∀ x ∈ d.bottomEdges, decide (x ∈ d.topEdges) = false := fun x hx =>
    decide_eq_false fun k => absurd (F.signs.top x k) (F.signs.bottom x hx).not_gt
  have nf : ∀ x y, Follows d.perimeter x y → d.nextInPerimeter x = .ok y ∧ d.previousInPerimeter y = .ok x := fun x y hxy =>
    next_follows F.nodup hb ht hxy
  have hch : d.perimeter.IsChain (Follows d.perimeter) := follows_append
  have hch' := List.isChain_append.1 (show (d.bottomEdges ++ d.topEdges).IsChain (Follows d.perimeter) from hch)
  have un : ∀ a b : List HE, (∀ z ∈ a, z < C.tri.size) → (∀ z ∈ b, z < C.tri.size) → ∀ z ∈ a ++ b, z < C.tri.size := by
    intro a b ha hb z hz
    rcases List.mem_append.1 hz with k | k
    · exact ha z k
    · exact hb z k
  have up' : Rise C.tri.size C.tri.nextInFace (fun e => - -across C e) b := by simpa only [neg_neg] using su.down
  obtain ⟨xb, xb1, xb2⟩ := sd.a_head
  obtain ⟨xt, xt1, xt2⟩ := su.a_head
  obtain ⟨yb, yb1, yb2⟩ := sd.b_last
  obtain ⟨yt, yt1, yt2⟩ := su.b_last
  have mxb := List.mem_of_getLast? xb1
  have mxt := List.mem_of_getLast? xt1
  have myb := List.mem_of_mem_head? yb1
  have myt := List.mem_of_mem_head? yt1
  -- from bottom to top
  obtain ⟨n1, n2⟩ := nf xb yt (hch'.2.2 _ xb1 _ yt1)
  have n1' := F.signs.next_ok A dbg n1
  have n2' := F.signs.previous_ok A dbg n2
  rw [tt _ myt] at n1'
  rw [bb _ mxb] at n2'
  have mem_tail : ∀ {l : List HE} {z : HE}, z ∈ l.tail.dropLast → z ∈ l := fun hz => List.mem_of_mem_tail (List.mem_of_mem_dropLast hz)
  have u1 : AllUp A C (over C (a'.tail.dropLast ++ b)) := by
    refine h.over_up A (un _ _ (fun z hz => sd.up.lt z (mem_tail hz)) su.down.lt) fun z hz => ?_
    rcases List.mem_append.1 hz with k | k
    · have := sd.pos z (mem_tail k)
      linarith
    · exact su.neg z k
  have u2 : AllDown A C (over C (a ++ b'.tail.dropLast)) := by
    refine h.over_down A (un _ _ su.up.lt fun z hz => sd.down.lt z (mem_tail hz)) fun z hz => ?_
    rcases List.mem_append.1 hz with k | k
    · exact su.pos z k
    · have := sd.neg z (mem_tail k)
      linarith
  have t1 : turnTo A dbg C fuel d ⟨xb, false⟩ ⟨yt, true⟩ = pure (over C (a'.tail.dropLast ++ b)) := by
    rcases F.size_cases h hu with ⟨k1, -, k2, k3, k4, k5, k6, k7⟩ | ⟨-, l1, l2, l3, l4⟩
    · rw [k7] at xb1
      rw [k6] at yt1
      cases xb1
      cases yt1
      rw [k3, k4]
      exact turn_right_flat h hV A dbg hf F.lt k1 n1'
    · obtain ⟨p1, p2⟩ := Rise.peak (OK.reverse hr) sd.up up' sd.a_last su.b_head l3
      have g1 := glue sd.a_last su.b_head l3
      rw [← g1]
      refine turn_right h hV A dbg hf p1 (append_head xb2) (append_getLast (tail_getLast yt2 l2))
        (un _ _ sd.up.lt fun z hz => su.down.lt z (List.mem_of_mem_tail hz)) ?_ p2 n1'
      rw [List.length_append, List.length_tail]
      omega
  have c1 := cross_right A dbg t1 u1
  -- from top to bottom
  obtain ⟨m1, m2⟩ := nf xt yb (follows_wrap (append_getLast xt1) (append_head yb1))
  have m1' := F.signs.next_ok A dbg m1
  have m2' := F.signs.previous_ok A dbg m2
  rw [bb _ myb] at m1'
  rw [tt _ mxt] at m2'
  have t2 : turnTo A dbg C fuel d ⟨xt, true⟩ ⟨yb, false⟩ = pure (over C (a ++ b'.tail.dropLast)) := by
    rcases F.size_cases h hu with ⟨k1, -, k2, k3, k4, k5, k6, k7⟩ | ⟨-, l1, l2, l3, l4⟩
    · rw [k6] at xt1
      rw [k7] at yb1
      cases xt1
      cases yb1
      rw [k2, k5]
      refine turn_left_flat h hV A dbg hf F.lt ?_ m1'
      have := (hr.flat_neg F.lt).2 k1
      rwa [neg_neg'] at this
    · have bh := sd.b_head
      rw [neg_neg'] at bh
      obtain ⟨p1, p2⟩ := Rise.peak hr su.up sd.down su.a_last bh l1
      have g1 : (a ++ b'.tail).dropLast = a ++ b'.tail.dropLast := by
        refine List.dropLast_append_of_ne_nil fun k => ?_
        have := congrArg List.length k
        rw [List.length_tail, List.length_nil] at this
        omega
      rw [← g1]
      refine turn_left h hV A dbg hf p1 (append_head xt2) (append_getLast (tail_getLast yb2 l4))
        (un _ _ su.up.lt fun z hz => sd.down.lt z (List.mem_of_mem_tail hz)) ?_ p2 m1'
      rw [List.length_append]
      omega
  have c2 := cross_left A dbg t2 u2
  -- the ends
  have bt : Before A dbg C fuel d ⟨yt, true⟩ [] := ⟨⟨_, _, n2', c1⟩, by intro k hk; cases hk⟩
  have ab : After A dbg C fuel d ⟨xb, false⟩ (over C (a'.tail.dropLast ++ b)) := ⟨⟨_, _, n1', c1⟩, u1⟩
  have bb' : Before A dbg C fuel d ⟨yb, false⟩ [] := ⟨⟨_, _, m2', c2⟩, by intro k hk; cases hk⟩
  have at' : After A dbg C fuel d ⟨xt, true⟩ (over C (a ++ b'.tail.dropLast)) := ⟨⟨_, _, m1', c2⟩, u2⟩
  -- the inner parts
  have chT : Chained A dbg C fuel d true (fun s => over C s.1) (fun s => over C s.2) d.topEdges g := by
    refine gaps_chained su.gaps (hch'.2.1.imp fun x y hxy => nf x y hxy) fun x y hy s hs e1 e2 hx => ?_
    have e1' := F.signs.next_ok A dbg e1
    have e2' := F.signs.previous_ok A dbg e2
    rw [tt _ hy] at e1'
    rw [tt _ hx] at e2'
    have w1 := h.over_down A hs.first.lt hs.pos
    have w2 := h.over_up A hs.second.lt hs.neg
    have := turn_top h hV A dbg hf hs e1'
    rw [over, List.flatMap_append] at this
    have c := cross_top A dbg this w1 w2
    exact ⟨⟨⟨_, _, e1', c⟩, w1⟩, ⟨⟨_, _, e2', c⟩, w2⟩⟩
  have chB : Chained A dbg C fuel d false (fun s => over C s.1.tail) (fun s => over C s.2.dropLast) d.bottomEdges g' := by
    refine gaps_chained sd.gaps (hch'.1.imp fun x y hxy => nf x y hxy) fun x y hy s hs e1 e2 hx => ?_
    have e1' := F.signs.next_ok A dbg e1
    have e2' := F.signs.previous_ok A dbg e2
    rw [bb _ hy] at e1'
    rw [bb _ hx] at e2'
    have w1 := h.over_up A (l := s.1.tail) (fun z hz => hs.first.lt z (List.mem_of_mem_tail hz)) fun z hz => by
      have := hs.pos z (List.mem_of_mem_tail hz)
      linarith
    have w2 := h.over_down A (l := s.2.dropLast) (fun z hz => hs.second.lt z (List.mem_of_mem_dropLast hz)) fun z hz => by
      have := hs.neg z (List.mem_of_mem_dropLast hz)
      linarith
    have := turn_bottom h hV A dbg hf hs e1'
    rw [over, List.flatMap_append] at this
    have c := cross_bottom A dbg this w1 w2
    exact ⟨⟨⟨_, _, e1', c⟩, w1⟩, ⟨⟨_, _, e2', c⟩, w2⟩⟩
  have hT : ∀ x ∈ d.topEdges, Heads C true x := fun x hx =>
    (hr.pos_neg (F.neg_lt x (List.mem_append_right _ hx))).2 (F.signs.top x hx)
  have hB : ∀ x ∈ d.bottomEdges, Heads C false x := fun x hx => F.signs.bottom x hx
  obtain ⟨r1, r2⟩ := chT.concat_ok hT yt1 xt1 bt at'
  obtain ⟨r3, r4⟩ := chB.concat_ok hB yb1 xb1 bb' ab
  refine ⟨?_, r4, r2⟩
  unfold perimeter
  rw [F.signs.contour]
  refine (concat_append r3 r1).trans ?_
  congr 1
  have e1 : ∀ l m : List HE, over C l ++ over C m = over C (l ++ m) := fun l m => List.flatMap_append.symm
  simp only [List.nil_append, e1]
  rfl

end Verif.Collapsed
