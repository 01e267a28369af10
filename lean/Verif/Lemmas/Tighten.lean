import Verif.Lemmas.Path
import Verif.Lemmas.Sectors
import Verif.Lemmas.SaddleSectors
import Verif.Lemmas.CombinatorialDeformation
import Verif.Spec.Tighten

/-!
# Lemmas about tightening paths
-/

set_option linter.unusedSectionVars false

namespace Verif

open Spec Tri FlatTri Vec

variable {T : Type} [CommRing T] [LinearOrder T] [IsStrictOrderedRing T] {K : Type} [Field K] [LinearOrder K] [IsStrictOrderedRing K]

namespace Tighten

theorem andThen_ok {α β : Type} {x : Option (Except Err α)} {f : α → Option (Except Err β)} {b : β} :
    andThen x f = some (.ok b) ↔ ∃ a, x = some (.ok a) ∧ f a = some (.ok b) := by
  unfold andThen
  split
  · simp
  · simp
  · simp

/-- The rays start and end with the given ones. -/
theorem collect_ends (P : SaddleSearch.Params T K) (fuel : ℕ) (b : Saddle) : ∀ (n : ℕ) (m : SaddleSearch.Machine T) (x y : Saddle)
    (l r : List Saddle), collect P fuel b n m (x :: (l ++ [y])) = some (.ok r) → ∃ l', r = x :: (l' ++ [y]) := by
  intro n
  induction n with
  | zero => intro m x y l r h; cases h
  | succ n ih =>
    intro m x y l r h
    unfold collect at h
    split at h
    · simp only [Option.some.injEq, Except.ok.injEq] at h
      exact ⟨l, h.symm⟩
    · obtain ⟨c, -, h⟩ := andThen_ok.1 h
      obtain ⟨isB, -, h⟩ := andThen_ok.1 h
      split at h
      · obtain ⟨m', -, h⟩ := andThen_ok.1 h
        exact ih _ _ _ _ _ h
      · obtain ⟨i, -, h⟩ := andThen_ok.1 h
        split at h
        · rename_i after before h1 h2
          split at h
          · cases h
          · rename_i hi
            obtain ⟨dup, -, h⟩ := andThen_ok.1 h
            obtain ⟨_, -, h⟩ := andThen_ok.1 h
            split at h
            · obtain ⟨m', -, h⟩ := andThen_ok.1 h
              have hlt : i < (x :: (l ++ [y])).length := (List.getElem?_eq_some_iff.1 h2).1
              obtain ⟨i, rfl⟩ : ∃ j, i = j + 1 := ⟨i - 1, by omega⟩
              have hle : i ≤ l.length := by simpa using hlt
              have e : (x :: (l ++ [y])).take (i + 1) ++ c :: (x :: (l ++ [y])).drop (i + 1) = x :: ((l.take i ++ c :: l.drop i) ++ [y]) := by
                rw [List.take_succ_cons, List.drop_succ_cons, List.take_append_of_le_length hle, List.drop_append_of_le_length hle]
                simp
              rw [e] at h
              exact ih _ _ _ _ _ h
            · obtain ⟨m', -, h⟩ := andThen_ok.1 h
              obtain ⟨m'', -, h⟩ := andThen_ok.1 h
              exact ih _ _ _ _ _ h
        · cases h

theorem pop_last (A : Option (Approx T K)) (S : FlatTri T) (ray : Saddle) (x : Saddle) : ∀ l : List Saddle,
    ∃ l', pop A S ray (l ++ [x]) = l' ++ [x] := by
  intro l
  induction l with
  | nil => exact ⟨[], by simp [pop]⟩
  | cons a l ih =>
    cases l with
    | nil =>
      simp only [List.cons_append, List.nil_append]
      unfold pop
      dsimp only
      split
      · exact ⟨[a], rfl⟩
      · exact ⟨[], by simp [pop]⟩
    | cons b l =>
      simp only [List.cons_append] at ih ⊢
      unfold pop
      dsimp only
      split
      · exact ⟨a :: b :: l, rfl⟩
      · exact ih

/-- The hull starts with the first ray and ends with the last ray. -/
theorem hull_ends (A : Option (Approx T K)) (S : FlatTri T) (x y : Saddle) (l : List Saddle) :
    ∃ l', (hull A S (x :: (l ++ [y]))).reverse = x :: (l' ++ [y]) := by
  have key : ∀ (l h : List Saddle), ∃ h', l.foldl (fun hull ray => ray :: pop A S ray hull) (h ++ [x]) = h' ++ [x] := by
    intro l
    induction l with
    | nil => exact fun h => ⟨h, rfl⟩
    | cons a l ih =>
      intro h
      rw [List.foldl_cons]
      obtain ⟨h', e⟩ := pop_last A S a x h
      rw [e]
      exact ih (a :: h')
  unfold hull
  rw [List.foldl_cons, List.foldl_append]
  have : pop A S x [] = [] := by simp [pop]
  rw [this]
  obtain ⟨h', e⟩ := key l []
  rw [List.nil_append] at e
  rw [e, List.foldl_cons, List.foldl_nil]
  obtain ⟨h'', e⟩ := pop_last A S y x h'
  rw [e]
  exact ⟨h''.reverse, by simp⟩

theorem make_ok {dbg : Bool} {size : ℕ} {s t : HE} {c : ℕ → ℤ} {r : Saddle} (h : Saddle.make dbg size s t c = .ok r) : r = ⟨s, t, c⟩ := by
  unfold Saddle.make at h
  split at h
  · cases h
  · cases h; rfl

theorem piece_ok {P : SaddleSearch.Params T K} {fuel : ℕ} {i j p : Saddle} (h : piece P fuel i j = some (.ok p)) :
    P.S.sector P.A fuel i.target .clockwise (P.S.chainVector fun k => j.chain k - i.chain k) false = some (.ok p.source) ∧
      P.S.sector P.A fuel j.target .counterclockwise (-P.S.chainVector fun k => j.chain k - i.chain k) false = some (.ok p.target) ∧
      p.chain = fun k => j.chain k - i.chain k := by
  unfold piece at h
  dsimp only at h
  obtain ⟨s, h1, h⟩ := andThen_ok.1 h
  obtain ⟨t, h2, h⟩ := andThen_ok.1 h
  simp only [Option.some.injEq] at h
  rw [make_ok h]
  exact ⟨h1, h2, rfl⟩

theorem saddleVector_neg (S : FlatTri T) (c : Saddle) : S.saddleVector c.neg = -S.saddleVector c := S.chainVector_neg c.chain

theorem holonomy_cons (S : FlatTri T) (c : Saddle) (p : List Saddle) : holonomy S (c :: p) = S.saddleVector c + holonomy S p := by
  simp [holonomy]

theorem holonomy_append (S : FlatTri T) (p q : List Saddle) : holonomy S (p ++ q) = holonomy S p + holonomy S q := by simp [holonomy]

theorem holonomy_neg (S : FlatTri T) (p : List Saddle) : holonomy S (Path.neg p) = -holonomy S p := by
  rw [Path.neg_eq]
  unfold holonomy
  rw [List.map_reverse, List.sum_reverse, List.map_map, ← Vec.sum_map_neg]
  congr 1
  exact List.map_congr_left fun c _ => saddleVector_neg S c

theorem piece_vector {P : SaddleSearch.Params T K} {fuel : ℕ} {i j p : Saddle} (h : piece P fuel i j = some (.ok p)) :
    P.S.saddleVector p = P.S.saddleVector j - P.S.saddleVector i := by
  have := chainVector_add_mul P.S j.chain i.chain (-1)
  unfold saddleVector
  rw [(piece_ok h).2.2]
  have e : (fun k => j.chain k - i.chain k) = fun k => j.chain k + (-1) * i.chain k := by
    funext k
    ring
  rw [e, this]
  ext <;> simp [sub_eq_add_neg]

/-- The segments add up to the difference of the outer rays. -/
theorem pieces_holonomy (P : SaddleSearch.Params T K) (fuel : ℕ) (y : Saddle) : ∀ (l : List Saddle) (x : Saddle) (p : List Saddle),
    pieces P fuel (x :: (l ++ [y])) = some (.ok p) → holonomy P.S p = P.S.saddleVector y - P.S.saddleVector x := by
  intro l
  induction l with
  | nil =>
    intro x p h
    simp only [List.nil_append, pieces] at h
    obtain ⟨q, h1, h⟩ := andThen_ok.1 h
    obtain ⟨r, h2, h⟩ := andThen_ok.1 h
    simp only [Option.some.injEq, Except.ok.injEq] at h h2
    subst h; subst h2
    rw [holonomy_cons, piece_vector h1]
    simp [holonomy]
  | cons a l ih =>
    intro x p h
    simp only [List.cons_append, pieces] at h
    obtain ⟨q, h1, h⟩ := andThen_ok.1 h
    obtain ⟨r, h2, h⟩ := andThen_ok.1 h
    simp only [Option.some.injEq, Except.ok.injEq] at h
    subst h
    rw [holonomy_cons, ih a r h2, piece_vector h1]
    abel

theorem walk_together {S : FlatTri T} {g : HE → HE} (hg : ∀ e, StartTogether S e (g e)) {c : HE → Bool} : ∀ {fuel : ℕ} {e e' : HE},
    FlatTri.walk g c fuel e = some e' → StartTogether S e e' := by
  intro fuel
  induction fuel with
  | zero => intro e e' h; cases h
  | succ fuel ih =>
    intro e e' h
    unfold FlatTri.walk at h
    split at h
    · exact Perm.Orb.trans (hg e) (ih h)
    · cases h; exact Perm.Orb.refl _ _

theorem next_together (S : FlatTri T) (e : HE) : StartTogether S e (S.tri.nextAtVertex e) := Perm.Orb.step _ e

theorem together_symm {S : FlatTri T} (h : S.Shut) {e e' : HE} (he : StartTogether S e e') : StartTogether S e' e :=
  Perm.Orb.symm h.flat.coh.hv he

theorem prev_together {S : FlatTri T} (h : S.Shut) (e : HE) : StartTogether S e (S.tri.previousAtVertex e) := by
  refine together_symm h ⟨1, ?_⟩
  rw [Function.iterate_one]
  exact next_prev h.flat e

theorem sector_together {S : FlatTri T} (h : S.Shut) {A : Option (Approx T K)} {fuel : ℕ} {e e' : HE} {ccw : CCW} {v : Vec T} {x : Bool}
    (hs : S.sector A fuel e ccw v x = some (.ok e')) : StartTogether S e e' := by
  have hn := next_together S
  have hp := prev_together h
  unfold FlatTri.sector at hs
  dsimp only at hs
  split at hs
  · cases hs
  · split at hs
    · cases hs; exact Perm.Orb.refl _ _
    · have key : StartTogether S e (if Vec.ccw A (S.vec e) v = .collinear ∧ Vec.orientation A (S.vec e) v = .same then
          if ccw = .clockwise then S.tri.previousAtVertex e else S.tri.nextAtVertex e else e) := by
        split
        · split
          · exact hp e
          · exact hn e
        · exact Perm.Orb.refl _ _
      revert hs key
      generalize (if Vec.ccw A (S.vec e) v = .collinear ∧ Vec.orientation A (S.vec e) v = .same then
          if ccw = .clockwise then S.tri.previousAtVertex e else S.tri.nextAtVertex e else e) = s
      intro hs key
      split at hs
      · rw [Option.bind_eq_some_iff] at hs
        obtain ⟨x1, k1, hs⟩ := hs
        rw [Option.map_eq_some_iff] at hs
        obtain ⟨x2, k2, hs⟩ := hs
        cases hs
        exact Perm.Orb.trans (Perm.Orb.trans (Perm.Orb.trans key (walk_together hn k1)) (walk_together hn k2)) (hp x2)
      · rw [Option.bind_eq_some_iff] at hs
        obtain ⟨x1, k1, hs⟩ := hs
        rw [Option.map_eq_some_iff] at hs
        obtain ⟨x2, k2, hs⟩ := hs
        cases hs
        exact Perm.Orb.trans (Perm.Orb.trans (Perm.Orb.trans key (hn s)) (walk_together hp k1)) (walk_together hp k2)

theorem PathFrom.pre {S : FlatTri T} {e e' x : HE} (hx : StartTogether S x e) : ∀ {p : List Saddle}, PathFrom S e p e' → PathFrom S x p e' := by
  intro p h
  cases p with
  | nil => exact Perm.Orb.trans hx h
  | cons c p => exact ⟨Perm.Orb.trans hx h.1, h.2⟩

theorem PathFrom.append {S : FlatTri T} {e' e'' : HE} {q : List Saddle} (hq : PathFrom S e' q e'') : ∀ {p : List Saddle} {e : HE},
    PathFrom S e p e' → PathFrom S e (p ++ q) e'' := by
  intro p
  induction p with
  | nil => intro e h; exact PathFrom.pre h hq
  | cons c p ih => intro e h; exact ⟨h.1, ih h.2⟩

theorem PathFrom.split {S : FlatTri T} {e'' : HE} {q : List Saddle} : ∀ {p : List Saddle} {e : HE}, PathFrom S e (p ++ q) e'' →
    ∃ e', PathFrom S e p e' ∧ PathFrom S e' q e'' := by
  intro p
  induction p with
  | nil => intro e h; exact ⟨e, Perm.Orb.refl _ _, h⟩
  | cons c p ih =>
    intro e h
    obtain ⟨e', h1, h2⟩ := ih h.2
    exact ⟨e', ⟨h.1, h1⟩, h2⟩

theorem PathFrom.neg {S : FlatTri T} (hS : S.Shut) {e' : HE} : ∀ {p : List Saddle} {e : HE}, PathFrom S e p e' → PathFrom S e' (Path.neg p) e := by
  intro p
  induction p with
  | nil => intro e h; exact together_symm hS h
  | cons c p ih =>
    intro e h
    have e1 : Path.neg (c :: p) = Path.neg p ++ [c.neg] := by rw [Path.neg_eq, Path.neg_eq]; simp
    rw [e1]
    refine PathFrom.append ?_ (ih h.2)
    exact ⟨Perm.Orb.refl _ _, together_symm hS h.1⟩

/-- The segments go from the end of the first to the end of the last ray. -/
theorem pieces_leads {P : SaddleSearch.Params T K} (hS : P.S.Shut) (fuel : ℕ) (y : Saddle) : ∀ (l : List Saddle) (x : Saddle)
    (p : List Saddle), pieces P fuel (x :: (l ++ [y])) = some (.ok p) → PathFrom P.S x.target p y.target := by
  intro l
  induction l with
  | nil =>
    intro x p h
    simp only [List.nil_append, pieces] at h
    obtain ⟨q, h1, h⟩ := andThen_ok.1 h
    obtain ⟨r, h2, h⟩ := andThen_ok.1 h
    simp only [Option.some.injEq, Except.ok.injEq] at h h2
    subst h; subst h2
    have hp := piece_ok h1
    exact ⟨sector_together hS hp.1, together_symm hS (sector_together hS hp.2.1)⟩
  | cons a l ih =>
    intro x p h
    simp only [List.cons_append, pieces] at h
    obtain ⟨q, h1, h⟩ := andThen_ok.1 h
    obtain ⟨r, h2, h⟩ := andThen_ok.1 h
    simp only [Option.some.injEq, Except.ok.injEq] at h
    subst h
    have hp := piece_ok h1
    exact ⟨sector_together hS hp.1, PathFrom.pre (together_symm hS (sector_together hS hp.2.1)) (ih a r h2)⟩

theorem makePath_ok {dbg : Bool} {S : FlatTri T} {p q : List Saddle} (h : S.makePath dbg p = .ok q) : q = p := by
  unfold makePath at h
  split at h
  · cases h
  · cases h; rfl

/-- What is known about the path that replaces two segments. -/
theorem clockwise_ok {A : Option (Approx T K)} {dbg : Bool} {upper : Vec T → Bound} {fuel : ℕ} {S : FlatTri T} {a b : Saddle} {r : List Saddle}
    (h : clockwise A dbg upper fuel S a b = some (.ok r)) :
    ∃ (P : SaddleSearch.Params T K) (l p : List Saddle), P.S = S ∧ pieces P fuel (b :: (l ++ [a.neg])) = some (.ok p) ∧ r = Path.neg p := by
  unfold clockwise at h
  dsimp only at h
  obtain ⟨ccw, -, h⟩ := andThen_ok.1 h
  obtain ⟨_, -, h⟩ := andThen_ok.1 h
  obtain ⟨st, -, h⟩ := andThen_ok.1 h
  obtain ⟨m, -, h⟩ := andThen_ok.1 h
  obtain ⟨rays, h1, h⟩ := andThen_ok.1 h
  obtain ⟨p, h2, h⟩ := andThen_ok.1 h
  obtain ⟨p', h3, h⟩ := andThen_ok.1 h
  simp only [Option.some.injEq, Except.ok.injEq] at h h3
  rw [makePath_ok h3] at h
  obtain ⟨l, e⟩ := collect_ends _ _ _ _ _ b a.neg [] _ h1
  obtain ⟨l', e'⟩ := hull_ends A S b a.neg l
  rw [e, e'] at h2
  exact ⟨_, l', p, rfl, h2, h.symm⟩

theorem clockwise_holonomy {A : Option (Approx T K)} {dbg : Bool} {upper : Vec T → Bound} {fuel : ℕ} {S : FlatTri T} {a b : Saddle}
    {r : List Saddle} (h : clockwise A dbg upper fuel S a b = some (.ok r)) :
    holonomy S r = S.saddleVector a + S.saddleVector b := by
  obtain ⟨P, l, p, rfl, h1, rfl⟩ := clockwise_ok h
  rw [holonomy_neg, pieces_holonomy P fuel _ _ _ _ h1, saddleVector_neg]
  abel

theorem clockwise_leads {A : Option (Approx T K)} {dbg : Bool} {upper : Vec T → Bound} {fuel : ℕ} {S : FlatTri T} (hS : S.Shut) {a b : Saddle}
    {r : List Saddle} (h : clockwise A dbg upper fuel S a b = some (.ok r)) : PathFrom S a.source r b.target := by
  obtain ⟨P, l, p, rfl, h1, rfl⟩ := clockwise_ok h
  exact PathFrom.neg hS (pieces_leads hS fuel _ _ _ _ h1)

/-- A replacement is nothing, or it comes from tightening. -/
theorem replacement_ok {A : Option (Approx T K)} {dbg : Bool} {upper : Vec T → Bound} {fuel : ℕ} {S : FlatTri T} {a b : Saddle}
    {r : List Saddle} (h : replacement A dbg upper fuel S a b = some (.ok (some r))) :
    (r = [] ∧ S.saddleEq a b.neg = true) ∨ clockwise A dbg upper fuel S a b = some (.ok r) ∨
      ∃ q, clockwise A dbg upper fuel S b.neg a.neg = some (.ok q) ∧ r = Path.neg q := by
  unfold replacement at h
  obtain ⟨opp, h1, h⟩ := andThen_ok.1 h
  split at h
  · rename_i ho
    simp only [Option.some.injEq, Except.ok.injEq] at h h1
    left
    refine ⟨h.symm, ?_⟩
    unfold SaddleSearch.equal at h1
    split at h1
    · cases h1
    · injection h1 with h1
      exact h1.trans ho
  · right
    obtain ⟨t, -, h⟩ := andThen_ok.1 h
    split at h
    · simp at h
    · obtain ⟨q, h2, h⟩ := andThen_ok.1 h
      simp only [Option.some.injEq, Except.ok.injEq] at h
      subst h
      exact .inl h2
    · obtain ⟨q, h2, h⟩ := andThen_ok.1 h
      simp only [Option.some.injEq, Except.ok.injEq] at h
      exact .inr ⟨q, h2, h.symm⟩

theorem replacement_holonomy {A : Option (Approx T K)} {dbg : Bool} {upper : Vec T → Bound} {fuel : ℕ} {S : FlatTri T} {a b : Saddle}
    {r : List Saddle} (h : replacement A dbg upper fuel S a b = some (.ok (some r))) :
    holonomy S r = S.saddleVector a + S.saddleVector b := by
  rcases replacement_ok h with ⟨rfl, h1⟩ | h1 | ⟨q, h1, rfl⟩
  · unfold saddleEq at h1
    simp only [Bool.and_eq_true, decide_eq_true_eq] at h1
    rw [h1.1, saddleVector_neg]
    simp [holonomy]
  · exact clockwise_holonomy h1
  · rw [holonomy_neg, clockwise_holonomy h1, saddleVector_neg, saddleVector_neg]
    abel

theorem replacement_leads {A : Option (Approx T K)} {dbg : Bool} {upper : Vec T → Bound} {fuel : ℕ} {S : FlatTri T} (hS : S.Shut)
    {a b : Saddle} {r : List Saddle} (h : replacement A dbg upper fuel S a b = some (.ok (some r))) : PathFrom S a.source r b.target := by
  rcases replacement_ok h with ⟨rfl, h1⟩ | h1 | ⟨q, h1, rfl⟩
  · unfold saddleEq at h1
    simp only [Bool.and_eq_true, decide_eq_true_eq] at h1
    show StartTogether S a.source b.target
    rw [h1.2]
    exact Perm.Orb.refl _ _
  · exact clockwise_leads hS h1
  · exact PathFrom.neg hS (clockwise_leads hS h1)

/-- What holds for a path and does not change when segments are replaced, holds for the tightened path. -/
theorem loop_invariant {A : Option (Approx T K)} {dbg : Bool} {upper : Vec T → Bound} {n : ℕ} {S : FlatTri T} (Q : List Saddle → Prop)
    (hQ : ∀ x a b y r, replacement A dbg upper n S a b = some (.ok (some r)) → Q (x ++ a :: b :: y) → Q (x ++ (r ++ y))) :
    ∀ (fuel : ℕ) (before rest q : List Saddle), loop A dbg upper n S fuel before rest = some (.ok q) → Q (before.reverse ++ rest) → Q q := by
  intro fuel
  induction fuel with
  | zero => intro before rest q h; cases h
  | succ fuel ih =>
    intro before rest q h hq
    match rest, h, hq with
    | [], h, hq =>
      simp only [loop, Option.some.injEq, Except.ok.injEq] at h
      rwa [← h]
    | [a], h, hq =>
      simp only [loop, Option.some.injEq, Except.ok.injEq] at h
      rwa [← h]
    | a :: b :: path, h, hq =>
      unfold loop at h
      obtain ⟨_, -, h⟩ := andThen_ok.1 h
      obtain ⟨r, hr, h⟩ := andThen_ok.1 h
      cases r with
      | none =>
        refine ih _ _ _ h ?_
        rwa [List.reverse_cons, List.append_assoc]
      | some r =>
        have hq' := hQ before.reverse a b path r hr hq
        cases before with
        | nil => exact ih _ _ _ h hq'
        | cons d before =>
          refine ih _ _ _ h ?_
          rwa [List.reverse_cons, List.append_assoc] at hq'

/-- Two consecutive segments that are left as they are. -/
def Settled (A : Option (Approx T K)) (dbg : Bool) (upper : Vec T → Bound) (n : ℕ) (S : FlatTri T) (a b : Saddle) : Prop :=
  assert dbg (S.connected a b) = some (.ok ()) ∧ replacement A dbg upper n S a b = some (.ok none)

theorem loop_settled {A : Option (Approx T K)} {dbg : Bool} {upper : Vec T → Bound} {n : ℕ} {S : FlatTri T} :
    ∀ (fuel : ℕ) (before rest q : List Saddle), loop A dbg upper n S fuel before rest = some (.ok q) →
      (before.reverse ++ rest.head?.toList).IsChain (Settled A dbg upper n S) → (rest = [] → before = []) →
      q.IsChain (Settled A dbg upper n S) ∧ q.length ≤ before.length + fuel := by
  intro fuel
  induction fuel with
  | zero => intro before rest q h; cases h
  | succ fuel ih =>
    intro before rest q h hc hn
    match rest, h, hc, hn with
    | [], h, hc, hn =>
      simp only [loop, Option.some.injEq, Except.ok.injEq] at h
      subst h
      refine ⟨by simpa using hc, by simp⟩
    | [a], h, hc, hn =>
      simp only [loop, Option.some.injEq, Except.ok.injEq] at h
      subst h
      refine ⟨by simpa using hc, by simp⟩
    | a :: b :: path, h, hc, hn =>
      unfold loop at h
      obtain ⟨_, ha, h⟩ := andThen_ok.1 h
      obtain ⟨r, hr, h⟩ := andThen_ok.1 h
      cases r with
      | none =>
        have := ih _ _ _ h ?_ (by simp)
        · simp only [List.length_cons] at this
          exact ⟨this.1, by omega⟩
        · rw [List.reverse_cons]
          refine List.IsChain.append (by simpa using hc) (by simp) ?_
          intro x hx y hy
          have hx : x = a := by simpa using hx.symm
          have hy : y = b := by simpa using hy.symm
          subst hx; subst hy
          exact ⟨ha, hr⟩
      | some r =>
        cases before with
        | nil =>
          have := ih [] _ _ h ?_ (by simp)
          · exact ⟨this.1, by omega⟩
          · cases r ++ path <;> simp
        | cons d before =>
          have := ih _ _ _ h ?_ (by simp)
          · exact ⟨this.1, by simp only [List.length_cons]; omega⟩
          · have h1 : ((d :: before).reverse).IsChain (Settled A dbg upper n S) := List.IsChain.left_of_append hc
            simpa using h1

/-- The loop goes on to the next segment as long as nothing has to be replaced. -/
theorem loop_walk {A : Option (Approx T K)} {dbg : Bool} {upper : Vec T → Bound} {n : ℕ} {S : FlatTri T} (rest : List Saddle) (c : Saddle) :
    ∀ (p : List Saddle) (a : Saddle) (before : List Saddle) (fuel : ℕ), (a :: (p ++ [c])).IsChain (Settled A dbg upper n S) →
      loop A dbg upper n S (fuel + (p.length + 1)) before (a :: (p ++ c :: rest)) =
        loop A dbg upper n S fuel (p.reverse ++ a :: before) (c :: rest) := by
  intro p
  induction p with
  | nil =>
    intro a before fuel h
    obtain ⟨h1, h2⟩ : Settled A dbg upper n S a c := by simpa using h
    show loop A dbg upper n S (fuel + 1) before (a :: c :: rest) = _
    rw [loop, h1, h2]
    rfl
  | cons b p ih =>
    intro a before fuel h
    rw [List.cons_append, List.isChain_cons_cons] at h
    obtain ⟨⟨h1, h2⟩, h3⟩ := h
    have := ih b (a :: before) fuel h3
    show loop A dbg upper n S ((fuel + (p.length + 1)) + 1) before (a :: b :: (p ++ c :: rest)) = _
    rw [loop, h1, h2]
    show loop A dbg upper n S (fuel + (p.length + 1)) (a :: before) (b :: (p ++ c :: rest)) = _
    rw [this]
    simp

end Tighten

end Verif
