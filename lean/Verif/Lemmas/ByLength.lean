import Verif.Model.ByLength
import Verif.Lemmas.SaddleEnumerate
import Verif.Spec.ByLength

set_option linter.unusedSectionVars false

/-!
# Saddle connections by length
-/

namespace Verif

open Vec Spec FlatTri Real

variable {T : Type} [CommRing T] [LinearOrder T] [IsStrictOrderedRing T]
variable {K : Type} [Field K] [LinearOrder K] [IsStrictOrderedRing K]

namespace ByLength

open SaddleConnections SaddleSearch

variable {f : T →+* ℝ} {S : FlatTri T} {θ : HE → ℝ} {P : Params T K}

/-- What should be reported when only the saddle connections with `Q` are admitted. -/
structure Reported (S : FlatTri T) (Q : Vec T → Prop) (A : Option (Approx T K)) (st : State T) (L : List Saddle) : Prop where
  valid : ∀ c ∈ L, IsSaddleConnection S c.source (S.saddleVector c) c.target
  once : L.Pairwise fun c d => (c.source, S.saddleVector c) ≠ (d.source, S.saddleVector d)
  sorted : L.Pairwise fun c d => dot (S.saddleVector c) (S.saddleVector c) ≤ dot (S.saddleVector d) (S.saddleVector d)
  iff : ∀ e v, (∃ c ∈ L, c.source = e ∧ S.saddleVector c = v) ↔
    e < S.tri.size ∧ (∃ t, IsSaddleConnection S e v t) ∧ Searched A st (e, v) ∧ Q v

theorem searched_annulus (A : Option (Approx T K)) (st : State T) (l u : Bound) (c : HE × Vec T) :
    Searched A (lowerBound (bound st u) l) c ↔ Searched A st c ∧ (l.square : T) < dot c.2 c.2 ∧ dot c.2 c.2 ≤ (u.square : T) := by
  unfold Searched lowerBound bound
  simp only [gtBound_eq, decide_eq_true_eq, decide_eq_false_iff_not, not_lt, Option.some.injEq, forall_eq']
  have h1 : dot c.2 c.2 ≤ (((match st.searchRadius with
      | some r => if u.lt r then u else r
      | none => u) : Bound).square : T) ↔ (∀ r, st.searchRadius = some r → dot c.2 c.2 ≤ (r.square : T)) ∧ dot c.2 c.2 ≤ (u.square : T) := by
    cases st.searchRadius with
    | none => simp
    | some r =>
      simp only [Option.some.injEq, forall_eq']
      unfold Bound.lt
      simp only [decide_eq_true_eq]
      split_ifs with k
      · have : (u.square : T) < r.square := by exact_mod_cast k
        exact ⟨fun k' => ⟨k'.trans this.le, k'⟩, fun k' => k'.2⟩
      · have : (r.square : T) ≤ u.square := by exact_mod_cast not_lt.1 k
        exact ⟨fun k' => ⟨k', k'.trans this⟩, fun k' => k'.1⟩
  have h2 : (((if st.lowerBound.lt l then l else st.lowerBound) : Bound).square : T) < dot c.2 c.2 ↔
      (st.lowerBound.square : T) < dot c.2 c.2 ∧ (l.square : T) < dot c.2 c.2 := by
    unfold Bound.lt
    simp only [decide_eq_true_eq]
    split_ifs with k
    · have : (st.lowerBound.square : T) < l.square := by exact_mod_cast k
      exact ⟨fun k' => ⟨this.trans k', k'⟩, fun k' => k'.2⟩
    · have : (l.square : T) ≤ st.lowerBound.square := by exact_mod_cast not_lt.1 k
      exact ⟨fun k' => ⟨k', this.trans_lt k'⟩, fun k' => k'.1⟩
  rw [h2]
  refine (and_congr_right fun _ => and_congr_left fun _ => h1).trans ?_
  tauto

/-- The saddle connections in an annulus. -/
theorem annulus (h : P.S.Shut) (hf : StrictMono f) (hθ : AllCorners f P.S θ) {Q : HE × Vec T → Prop}
    (hi : Inv P.A f P.S θ P.connections.sectors Q) (hs : SortsByLength P.S P.A P.sort) (l u : Bound) :
    ∃ L N, (∀ fuel ≥ N, SaddleSearch.enumerate P.A P.dbg P.S (lowerBound (bound P.connections u) l) fuel = some (.ok L)) ∧
      Reported P.S (fun v => (l.square : T) < dot v v ∧ dot v v ≤ (u.square : T)) P.A P.connections (P.sort L) := by
  obtain ⟨L, N, h1, h2, h3, h4⟩ := enumerate_spec h hf hθ P.A (st := lowerBound (bound P.connections u) l) hi rfl P.dbg
  obtain ⟨s1, s2⟩ := hs L
  refine ⟨L, N, h1, fun c hc => h2 c (s1.mem_iff.1 hc), ?_, ?_, fun e v => ?_⟩
  · exact (s1.pairwise_iff (fun k => Ne.symm k)).2 h3
  · refine s2.imp fun k => ?_
    rw [compareLength_eq, decide_eq_false_iff_not, not_lt] at k
    exact k
  · rw [← searched_annulus P.A P.connections l u (e, v), ← h4]
    exact ⟨fun ⟨c, k1, k2⟩ => ⟨c, s1.mem_iff.1 k1, k2⟩, fun ⟨c, k1, k2⟩ => ⟨c, s1.mem_iff.2 k1, k2⟩⟩

theorem Reported.append {Q Q' : Vec T → Prop} {A : Option (Approx T K)} {st : State T} {L L' : List Saddle}
    (h : Reported S Q A st L) (h' : Reported S Q' A st L') (hlt : ∀ v w, Q v → Q' w → dot v v < dot w w) :
    Reported S (fun v => Q v ∨ Q' v) A st (L ++ L') := by
  have q : ∀ c ∈ L, Q (S.saddleVector c) := fun c hc => ((h.iff _ _).1 ⟨c, hc, rfl, rfl⟩).2.2.2
  have q' : ∀ c ∈ L', Q' (S.saddleVector c) := fun c hc => ((h'.iff _ _).1 ⟨c, hc, rfl, rfl⟩).2.2.2
  refine ⟨fun c hc => ?_, ?_, ?_, fun e v => ?_⟩
  · rcases List.mem_append.1 hc with hc | hc
    · exact h.valid c hc
    · exact h'.valid c hc
  · refine List.pairwise_append.2 ⟨h.once, h'.once, fun c hc d hd k => ?_⟩
    have := hlt _ _ (q c hc) (q' d hd)
    have e : S.saddleVector c = S.saddleVector d := (Prod.ext_iff.1 k).2
    rw [e] at this
    exact lt_irrefl _ this
  · exact List.pairwise_append.2 ⟨h.sorted, h'.sorted, fun c hc d hd => (hlt _ _ (q c hc) (q' d hd)).le⟩
  · have e1 : (∃ c ∈ L ++ L', c.source = e ∧ S.saddleVector c = v) ↔
        (∃ c ∈ L, c.source = e ∧ S.saddleVector c = v) ∨ ∃ c ∈ L', c.source = e ∧ S.saddleVector c = v := by
      simp only [List.mem_append, or_and_right, exists_or]
    rw [e1, h.iff, h'.iff]
    tauto

theorem Reported.congr {Q Q' : Vec T → Prop} {A : Option (Approx T K)} {st : State T} {L : List Saddle} (h : Reported S Q A st L)
    (hq : ∀ e v t, IsSaddleConnection S e v t → Searched A st (e, v) → e < S.tri.size → (Q v ↔ Q' v)) : Reported S Q' A st L := by
  refine ⟨h.valid, h.once, h.sorted, fun e v => ?_⟩
  rw [h.iff]
  constructor
  · rintro ⟨k1, ⟨t, k2⟩, k3, k4⟩
    exact ⟨k1, ⟨t, k2⟩, k3, (hq e v t k2 k3 k1).1 k4⟩
  · rintro ⟨k1, ⟨t, k2⟩, k3, k4⟩
    exact ⟨k1, ⟨t, k2⟩, k3, (hq e v t k2 k3 k1).2 k4⟩

theorem Reported.nil {A : Option (Approx T K)} {st : State T} {Q : Vec T → Prop}
    (hq : ∀ e v t, IsSaddleConnection S e v t → Searched A st (e, v) → e < S.tri.size → ¬Q v) : Reported S Q A st [] := by
  refine ⟨fun c hc => absurd hc (by simp), .nil, .nil, fun e v => ⟨fun ⟨c, hc, _⟩ => absurd hc (by simp), ?_⟩⟩
  rintro ⟨k1, ⟨t, k2⟩, k3, k4⟩
  exact absurd k4 (hq e v t k2 k3 k1)

/-- The iterator is ready to be dereferenced or it is at the end. -/
def Ready (it : Iterator) : Prop := ∀ c l, it.connectionsWithinBounds = c :: l → ∃ l', it.currents = c :: l'

/-- What follows once there are no connections left in an iterator. -/
def Then (P : Params T K) (fuel n : ℕ) (it : Iterator) (R : List Saddle) : Prop :=
  ∃ it', fill P fuel fuel it = some (.ok it') ∧ ∀ it'', Ready it'' → it''.lowerBoundExclusive = it'.lowerBoundExclusive →
    it''.upperBoundInclusive = it'.upperBoundInclusive → it''.connectionsWithinBounds = it'.connectionsWithinBounds →
    collect P fuel n it'' = some (.ok R)

theorem increment_ready {fuel : ℕ} {it : Iterator} (c : Saddle) (l : List Saddle) (hl : it.connectionsWithinBounds = c :: l) {it' : Iterator}
    (h : (if l.isEmpty then fill P fuel fuel { it with connectionsWithinBounds := l } else some (.ok { it with connectionsWithinBounds := l })) = some (.ok it')) :
    ∃ it'', increment P fuel it = some (.ok it'') ∧ Ready it'' ∧ it''.lowerBoundExclusive = it'.lowerBoundExclusive ∧
      it''.upperBoundInclusive = it'.upperBoundInclusive ∧ it''.connectionsWithinBounds = it'.connectionsWithinBounds := by
  unfold increment
  rw [hl]
  simp only [h, Option.map_some, Except.map]
  refine ⟨_, rfl, ?_, ?_, ?_, ?_⟩
  · cases hw : it'.connectionsWithinBounds with
    | nil =>
      intro c l k
      exfalso
      split_ifs at k
      · simp only at k; rw [hw] at k; cases k
      · simp only at k; rw [hw] at k; cases k
    | cons d w =>
      intro c l k
      simp only at k ⊢
      split_ifs at k ⊢ with k'
      · injection k with k
        subst k
        obtain ⟨a, b, hc⟩ : ∃ a b, it'.currents = a :: b := by
          cases hcur : it'.currents with
          | nil => rw [hcur] at k'; simp at k'
          | cons a b => exact ⟨a, b, rfl⟩
        rw [hc]
        exact ⟨_, rfl⟩
      · injection k with k
        subst k
        exact ⟨_, rfl⟩
  all_goals
    cases hw : it'.connectionsWithinBounds with
    | nil => simp only; split_ifs <;> simp [hw]
    | cons d w => simp only; split_ifs <;> simp [hw]

/-- Draining the connections of an iterator. -/
theorem drain {fuel n : ℕ} {R : List Saddle} {u : Bound} (hu : u.square ≠ 0) (lo : Bound)
    (hR : ∀ it : Iterator, it.connectionsWithinBounds = [] → it.upperBoundInclusive = u → it.lowerBoundExclusive = lo → Then P fuel n it R) :
    ∀ (W : List Saddle) (it : Iterator), W ≠ [] → it.connectionsWithinBounds = W → it.upperBoundInclusive = u → it.lowerBoundExclusive = lo →
      Ready it → collect P fuel (n + W.length) it = some (.ok (W ++ R)) := by
  intro W
  induction W with
  | nil => intro it h; exact absurd rfl h
  | cons c W ih =>
    intro it _ hw hup hlo hready
    obtain ⟨cur, hcur⟩ := hready c W hw
    have key : ∃ it', (if W.isEmpty then fill P fuel fuel { it with connectionsWithinBounds := W } else some (.ok { it with connectionsWithinBounds := W })) = some (.ok it') ∧
        ∀ it'', Ready it'' → it''.lowerBoundExclusive = it'.lowerBoundExclusive → it''.upperBoundInclusive = it'.upperBoundInclusive →
          it''.connectionsWithinBounds = it'.connectionsWithinBounds → collect P fuel (n + W.length) it'' = some (.ok (W ++ R)) := by
      by_cases hW : W = []
      · subst hW
        obtain ⟨it', k1, k2⟩ := hR { it with connectionsWithinBounds := [] } rfl hup hlo
        refine ⟨it', by rw [if_pos (by rfl)]; exact k1, fun it'' a1 a2 a3 a4 => k2 it'' a1 a2 a3 a4⟩
      · refine ⟨{ it with connectionsWithinBounds := W }, by rw [if_neg (by simpa using hW)], fun it'' a1 a2 a3 a4 => ?_⟩
        exact ih it'' hW a4 (a3.trans hup) (a2.trans hlo) a1
    obtain ⟨it', k1, k2⟩ := key
    obtain ⟨it'', i1, i2, i3, i4, i5⟩ := increment_ready c W hw k1
    rw [List.length_cons, ← Nat.add_assoc]
    unfold collect
    rw [if_neg, show dereference P it = .ok c by unfold dereference; rw [if_neg (by rw [hw]; simp), hcur]]
    · simp only [i1, Option.bind_some]
      rw [k2 it'' i2 i3 i4 i5]
      rfl
    · unfold atEnd
      rw [hw]
      simp [Iterator.end]

/-- The iterator that has come to the end. -/
theorem collect_end {fuel n : ℕ} {it : Iterator} (h1 : it.lowerBoundExclusive = .ofInt 0) (h2 : it.upperBoundInclusive = .ofInt 0)
    (h3 : it.connectionsWithinBounds = []) : collect P fuel (n + 1) it = some (.ok []) := by
  unfold collect
  rw [if_pos]
  unfold atEnd
  rw [h1, h2, h3]
  rfl

/-- The next step in the loop. -/
theorem fill_step {search fuel : ℕ} {it : Iterator} (hw : it.connectionsWithinBounds = []) {lo up : Bound}
    (hb : (if it.upperBoundInclusive.beq (.ofInt 0) then P.S.shortest.map fun v => (Bound.ofInt 0, P.upper v)
        else some (it.upperBoundInclusive, it.upperBoundInclusive.scale 2)) = some (lo, up)) {r : Bound} (hr : P.connections.searchRadius = some r) :
    (r.square ≤ lo.square → fill P search (fuel + 1) it = some (.ok { it with lowerBoundExclusive := .ofInt 0, upperBoundInclusive := .ofInt 0 })) ∧
    (lo.square < r.square → ∀ l, SaddleSearch.enumerate P.A P.dbg P.S (lowerBound (bound P.connections up) lo) search = some (.ok l) →
      fill P search (fuel + 1) it = fill P search fuel ⟨lo, up, P.sort l, it.currents⟩) := by
  refine ⟨fun k => ?_, fun k l hl => ?_⟩
  · conv_lhs => unfold fill
    rw [if_neg (by rw [hw]; simp)]
    simp only [hb, hr]
    rw [if_pos]
    unfold Bound.lt
    simpa using k
  · conv_lhs => unfold fill
    rw [if_neg (by rw [hw]; simp)]
    simp only [hb, hr]
    rw [if_neg, hl]
    · rfl
    · unfold Bound.lt
      simpa using k

theorem fill_full {search fuel : ℕ} {it : Iterator} (hw : it.connectionsWithinBounds ≠ []) :
    fill P search (fuel + 1) it = some (.ok it) := by
  unfold fill
  rw [if_pos (by simpa using hw)]

/-- What is left after everything up to a bound has been reported. -/
theorem rest (h : P.S.Shut) (hf : StrictMono f) (hθ : AllCorners f P.S θ) {Q : HE × Vec T → Prop}
    (hi : Inv P.A f P.S θ P.connections.sectors Q) (hs : SortsByLength P.S P.A P.sort) {r : Bound} (hr : P.connections.searchRadius = some r) :
    ∀ (k : ℕ) (lo up : Bound), 0 < up.square → r.square ≤ up.square * 4 ^ k →
      ∃ R N, Reported P.S (fun v => (up.square : T) < dot v v) P.A P.connections R ∧
        ∀ search ≥ N, ∀ fuel ≥ N, ∀ n ≥ N, ∀ it : Iterator, it.connectionsWithinBounds = [] → it.upperBoundInclusive = up →
          it.lowerBoundExclusive = lo → ∃ it', fill P search fuel it = some (.ok it') ∧ ∀ it'', Ready it'' → it''.lowerBoundExclusive = it'.lowerBoundExclusive →
            it''.upperBoundInclusive = it'.upperBoundInclusive → it''.connectionsWithinBounds = it'.connectionsWithinBounds →
            collect P search n it'' = some (.ok R) := by
  have stop : ∀ (lo up : Bound), 0 < up.square → r.square ≤ up.square → ∃ R N, Reported P.S (fun v => (up.square : T) < dot v v) P.A P.connections R ∧
        ∀ search ≥ N, ∀ fuel ≥ N, ∀ n ≥ N, ∀ it : Iterator, it.connectionsWithinBounds = [] → it.upperBoundInclusive = up →
          it.lowerBoundExclusive = lo → ∃ it', fill P search fuel it = some (.ok it') ∧ ∀ it'', Ready it'' → it''.lowerBoundExclusive = it'.lowerBoundExclusive →
            it''.upperBoundInclusive = it'.upperBoundInclusive → it''.connectionsWithinBounds = it'.connectionsWithinBounds →
            collect P search n it'' = some (.ok R) := by
    intro lo up hup hle
    refine ⟨[], 1, .nil fun e v t _ hsr _ hv => ?_, fun search _ fuel hfuel n hn it hw hu hl => ?_⟩
    · have := hsr.2.1 r hr
      rw [gtBound_eq, decide_eq_false_iff_not, not_lt] at this
      have h2 : (r.square : T) ≤ up.square := by exact_mod_cast hle
      exact absurd hv (not_lt.2 (this.trans h2))
    · obtain ⟨g, rfl⟩ : ∃ g, fuel = g + 1 := ⟨fuel - 1, by omega⟩
      obtain ⟨m, rfl⟩ : ∃ g, n = g + 1 := ⟨n - 1, by omega⟩
      refine ⟨_, (fill_step hw (lo := up) (up := up.scale 2) (by
        rw [if_neg (by rw [hu]; unfold Bound.beq Bound.ofInt; simp; omega), hu]) hr).1 hle, fun it'' a1 a2 a3 a4 => ?_⟩
      exact collect_end a2 a3 (a4.trans hw)
  intro k
  induction k with
  | zero =>
    intro lo up hup hle
    exact stop lo up hup (by simpa using hle)
  | succ k ih =>
    intro lo up hup hle
    by_cases hle' : r.square ≤ up.square
    · exact stop lo up hup hle'
    · rw [not_le] at hle'
      have hsc : (up.scale 2).square = up.square * 4 := by unfold Bound.scale; norm_num
      obtain ⟨L, M, e1, e2⟩ := annulus h hf hθ hi hs up (up.scale 2)
      obtain ⟨R, N, f1, f2⟩ := ih up (up.scale 2) (by rw [hsc]; omega) (by rw [hsc]; rw [pow_succ] at hle; linarith)
      have hrep : Reported P.S (fun v => (up.square : T) < dot v v) P.A P.connections (P.sort L ++ R) := by
        refine (e2.append f1 fun v w hv hw => hv.2.trans_lt hw).congr fun e v t _ _ _ => ?_
        have hsq : (up.square : T) ≤ (up.scale 2).square := by
          rw [hsc]
          exact_mod_cast (by omega : up.square ≤ up.square * 4)
        constructor
        · rintro (k | k)
          · exact k.1
          · exact hsq.trans_lt k
        · intro k
          rcases le_or_gt (dot v v) ((up.scale 2).square : T) with k' | k'
          · exact .inl ⟨k, k'⟩
          · exact .inr k'
      refine ⟨P.sort L ++ R, M + N + 2 + (P.sort L).length, hrep, fun search hsearch fuel hfuel n hn it hw hu hl => ?_⟩
      obtain ⟨g, rfl⟩ : ∃ g, fuel = g + 1 := ⟨fuel - 1, by omega⟩
      rw [(fill_step hw (lo := up) (up := up.scale 2) (by
        rw [if_neg (by rw [hu]; unfold Bound.beq Bound.ofInt; simp; omega), hu]) hr).2 hle' L (e1 search (by omega))]
      by_cases hW : P.sort L = []
      · rw [hW, List.nil_append]
        exact f2 search (by omega) g (by omega) n (by omega) ⟨up, up.scale 2, [], it.currents⟩ rfl rfl rfl
      · obtain ⟨g, rfl⟩ : ∃ g', g = g' + 1 := ⟨g - 1, by omega⟩
        refine ⟨_, fill_full (it := ⟨up, up.scale 2, P.sort L, it.currents⟩) hW, fun it'' a1 a2 a3 a4 => ?_⟩
        have := drain (P := P) (fuel := search) (n := n - (P.sort L).length) (R := R) (u := up.scale 2) (by rw [hsc]; omega) up
          (fun it3 b1 b2 b3 => f2 search (by omega) search (by omega) _ (by omega) it3 b1 b2 b3) (P.sort L) it'' hW a4 a3 a2 a1
        rw [Nat.sub_add_cancel (by omega)] at this
        exact this

theorem shortest_some (h : 0 < S.tri.size / 2) : ∃ i < S.tri.size / 2, S.shortest = some (S.vec (2 * i)) := by
  unfold FlatTri.shortest
  have key : ∀ (l : List (Vec T)) (b : Option (Vec T)), (b = none → l ≠ []) → ∃ v, (v ∈ l ∨ b = some v) ∧ l.foldl
      (fun best v => match best with
      | none => some v
      | some w => if Vec.dot v v < Vec.dot w w then some v else some w) b = some v := by
    intro l
    induction l with
    | nil =>
      intro b hb
      cases b with
      | none => exact absurd rfl (hb rfl)
      | some v => exact ⟨v, .inr rfl, rfl⟩
    | cons v l ih =>
      intro b _
      rw [List.foldl_cons]
      cases b with
      | none =>
        obtain ⟨w, h1, h2⟩ := ih (some v) (by simp)
        refine ⟨w, .inl ?_, h2⟩
        rcases h1 with h1 | h1
        · exact List.mem_cons_of_mem _ h1
        · injection h1 with h1; subst h1; exact List.mem_cons_self
      | some w =>
        simp only
        split_ifs
        · obtain ⟨w, h1, h2⟩ := ih (some v) (by simp)
          refine ⟨w, .inl ?_, h2⟩
          rcases h1 with h1 | h1
          · exact List.mem_cons_of_mem _ h1
          · injection h1 with h1; subst h1; exact List.mem_cons_self
        · obtain ⟨w', h1, h2⟩ := ih (some w) (by simp)
          refine ⟨w', ?_, h2⟩
          rcases h1 with h1 | h1
          · exact .inl (List.mem_cons_of_mem _ h1)
          · exact .inr h1
  obtain ⟨v, h1, h2⟩ := key ((List.range (S.tri.size / 2)).map fun i => S.vec (2 * i)) none (fun _ => by simp; omega)
  rcases h1 with h1 | h1
  · obtain ⟨i, hi, rfl⟩ := List.mem_map.1 h1
    exact ⟨i, List.mem_range.1 hi, h2⟩
  · cases h1

theorem fill_step_none {search fuel : ℕ} {it : Iterator} (hw : it.connectionsWithinBounds = []) {lo up : Bound}
    (hb : (if it.upperBoundInclusive.beq (.ofInt 0) then P.S.shortest.map fun v => (Bound.ofInt 0, P.upper v)
        else some (it.upperBoundInclusive, it.upperBoundInclusive.scale 2)) = some (lo, up)) (hr : P.connections.searchRadius = none)
    {l : List Saddle} (hl : SaddleSearch.enumerate P.A P.dbg P.S (lowerBound (bound P.connections up) lo) search = some (.ok l)) :
    fill P search (fuel + 1) it = fill P search fuel ⟨lo, up, P.sort l, it.currents⟩ := by
  conv_lhs => unfold fill
  rw [if_neg (by rw [hw]; simp)]
  simp only [hb, hr]
  rw [if_neg (by simp), hl]
  rfl

/-- Draining the connections of an iterator when only some connections are needed. -/
theorem drain_firsts {fuel : ℕ} {R : List Saddle} {u : Bound} (lo : Bound)
    (hR : ∀ m, 0 < m → m ≤ R.length → ∀ it : Iterator, it.connectionsWithinBounds = [] → it.upperBoundInclusive = u → it.lowerBoundExclusive = lo →
      ∃ it', fill P fuel fuel it = some (.ok it') ∧ ∀ it'', Ready it'' → it''.lowerBoundExclusive = it'.lowerBoundExclusive →
        it''.upperBoundInclusive = it'.upperBoundInclusive → it''.connectionsWithinBounds = it'.connectionsWithinBounds →
        firsts P fuel m it'' = some (.ok (R.take m))) :
    ∀ (W : List Saddle) (n : ℕ) (it : Iterator), 0 < n → n ≤ (W ++ R).length → W ≠ [] → it.connectionsWithinBounds = W →
      it.upperBoundInclusive = u → it.lowerBoundExclusive = lo → Ready it → firsts P fuel n it = some (.ok ((W ++ R).take n)) := by
  intro W
  induction W with
  | nil => intro n it _ _ h; exact absurd rfl h
  | cons c W ih =>
    intro n it hn hle _ hw hup hlo hready
    obtain ⟨m, rfl⟩ : ∃ m, n = m + 1 := ⟨n - 1, by omega⟩
    rw [List.cons_append, List.length_cons] at hle
    obtain ⟨cur, hcur⟩ := hready c W hw
    unfold firsts
    rw [if_neg (by unfold atEnd; rw [hw]; simp [Iterator.end]), show dereference P it = .ok c by unfold dereference; rw [if_neg (by rw [hw]; simp), hcur]]
    simp only
    by_cases hm : m = 0
    · subst hm
      rfl
    · rw [if_neg hm]
      have key : ∃ it', (if W.isEmpty then fill P fuel fuel { it with connectionsWithinBounds := W } else some (.ok { it with connectionsWithinBounds := W })) = some (.ok it') ∧
          ∀ it'', Ready it'' → it''.lowerBoundExclusive = it'.lowerBoundExclusive → it''.upperBoundInclusive = it'.upperBoundInclusive →
            it''.connectionsWithinBounds = it'.connectionsWithinBounds → firsts P fuel m it'' = some (.ok ((W ++ R).take m)) := by
        by_cases hW : W = []
        · subst hW
          obtain ⟨it', k1, k2⟩ := hR m (by omega) (by simpa using hle) { it with connectionsWithinBounds := [] } rfl hup hlo
          exact ⟨it', by rw [if_pos (by rfl)]; exact k1, k2⟩
        · refine ⟨{ it with connectionsWithinBounds := W }, by rw [if_neg (by simpa using hW)], fun it'' a1 a2 a3 a4 => ?_⟩
          exact ih m it'' (by omega) (by omega) hW a4 (a3.trans hup) (a2.trans hlo) a1
      obtain ⟨it', k1, k2⟩ := key
      obtain ⟨it'', i1, i2, i3, i4, i5⟩ := increment_ready c W hw k1
      simp only [i1, Option.bind_some]
      rw [k2 it'' i2 i3 i4 i5]
      rfl

/-- What comes next when there is no bound. -/
theorem rest_firsts (h : P.S.Shut) (hf : StrictMono f) (hθ : AllCorners f P.S θ) {Q : HE × Vec T → Prop}
    (hi : Inv P.A f P.S θ P.connections.sectors Q) (hs : SortsByLength P.S P.A P.sort) (hr : P.connections.searchRadius = none) :
    ∀ (k : ℕ) (lo up : Bound), 0 < up.square →
      ∃ R N, Reported P.S (fun v => (up.square : T) < dot v v ∧ dot v v ≤ ((up.square * 4 ^ k : ℤ) : T)) P.A P.connections R ∧
        ∀ m, 0 < m → m ≤ R.length → ∀ search ≥ N, ∀ fuel ≥ N, ∀ it : Iterator, it.connectionsWithinBounds = [] → it.upperBoundInclusive = up →
          it.lowerBoundExclusive = lo → ∃ it', fill P search fuel it = some (.ok it') ∧ ∀ it'', Ready it'' → it''.lowerBoundExclusive = it'.lowerBoundExclusive →
            it''.upperBoundInclusive = it'.upperBoundInclusive → it''.connectionsWithinBounds = it'.connectionsWithinBounds →
            firsts P search m it'' = some (.ok (R.take m)) := by
  intro k
  induction k with
  | zero =>
    intro lo up hup
    refine ⟨[], 0, .nil fun e v t _ _ _ hv => ?_, fun m hm hm' => ?_⟩
    · simp only [pow_zero, mul_one] at hv
      exact absurd hv.1 (not_lt.2 hv.2)
    · simp at hm'; omega
  | succ k ih =>
    intro lo up hup
    have hsc : (up.scale 2).square = up.square * 4 := by unfold Bound.scale; norm_num
    obtain ⟨L, M, e1, e2⟩ := annulus h hf hθ hi hs up (up.scale 2)
    obtain ⟨R, N, f1, f2⟩ := ih up (up.scale 2) (by rw [hsc]; omega)
    have h4 : (up.scale 2).square * 4 ^ k = up.square * 4 ^ (k + 1) := by rw [hsc, pow_succ]; ring
    rw [h4] at f1
    have hrep : Reported P.S (fun v => (up.square : T) < dot v v ∧ dot v v ≤ ((up.square * 4 ^ (k + 1) : ℤ) : T)) P.A P.connections (P.sort L ++ R) := by
      refine (e2.append f1 fun v w hv hw => hv.2.trans_lt hw.1).congr fun e v t _ _ _ => ?_
      have hsq : (up.square : T) ≤ (up.scale 2).square := by
        rw [hsc]
        exact_mod_cast (by omega : up.square ≤ up.square * 4)
      have hsq' : ((up.scale 2).square : T) ≤ ((up.square * 4 ^ (k + 1) : ℤ) : T) := by
        rw [← h4]
        have : (1 : ℤ) ≤ 4 ^ k := one_le_pow₀ (by norm_num)
        have h0 : 0 < (up.scale 2).square := by rw [hsc]; omega
        exact_mod_cast (by nlinarith : (up.scale 2).square ≤ (up.scale 2).square * 4 ^ k)
      constructor
      · rintro (k | k)
        · exact ⟨k.1, k.2.trans hsq'⟩
        · exact ⟨hsq.trans_lt k.1, k.2⟩
      · intro k
        rcases le_or_gt (dot v v) ((up.scale 2).square : T) with k' | k'
        · exact .inl ⟨k.1, k'⟩
        · exact .inr ⟨k', k.2⟩
    refine ⟨P.sort L ++ R, M + N + 2, hrep, fun m hm hm' search hsearch fuel hfuel it hw hu hl => ?_⟩
    obtain ⟨g, rfl⟩ : ∃ g, fuel = g + 1 := ⟨fuel - 1, by omega⟩
    rw [fill_step_none hw (lo := up) (up := up.scale 2) (by
      rw [if_neg (by rw [hu]; unfold Bound.beq Bound.ofInt; simp; omega), hu]) hr (e1 search (by omega))]
    by_cases hW : P.sort L = []
    · rw [hW, List.nil_append] at hm' ⊢
      exact f2 m hm hm' search (by omega) g (by omega) ⟨up, up.scale 2, [], it.currents⟩ rfl rfl rfl
    · obtain ⟨g, rfl⟩ : ∃ g', g = g' + 1 := ⟨g - 1, by omega⟩
      refine ⟨_, fill_full (it := ⟨up, up.scale 2, P.sort L, it.currents⟩) hW, fun it'' a1 a2 a3 a4 => ?_⟩
      exact drain_firsts (P := P) (fuel := search) (R := R) (u := up.scale 2) up
        (fun m hm hm' it3 b1 b2 b3 => f2 m hm hm' search (by omega) search (by omega) it3 b1 b2 b3) (P.sort L) m it'' hm hm' hW a4 a3 a2 a1

theorem saddle_pos (h : S.Shut) (hf : StrictMono f) (hθ : AllCorners f S θ) {e t : HE} {v : Vec T} (hv : IsSaddleConnection S e v t) (he : e < S.tri.size) :
    0 < dot v v := by
  apply dot_self_pos
  rintro rfl
  rcases hv with ⟨k, -⟩ | ⟨k, -, -⟩
  · exact (cor h hf hθ).ne e he k.symm
  · simp at k

/-- The first connections that are reported by length when there is no bound. -/
theorem firsts_spec (h : P.S.Shut) (hf : StrictMono f) (hθ : AllCorners f P.S θ) {Q : HE × Vec T → Prop}
    (hi : Inv P.A f P.S θ P.connections.sectors Q) (hs : SortsByLength P.S P.A P.sort) (hr : P.connections.searchRadius = none)
    (hne : 0 < P.S.tri.size) (hup : ∀ v, dot v v ≤ ((P.upper v).square : T)) (k : ℕ) :
    ∃ (u : ℤ) (R : List Saddle) (N : ℕ), 4 ^ k ≤ u ∧ Reported P.S (fun v => dot v v ≤ (u : T)) P.A P.connections R ∧
      ∀ m, 0 < m → m ≤ R.length → ∀ fuel ≥ N, enumerateFirsts P fuel m = some (.ok (R.take m)) := by
  have heven := h.even
  obtain ⟨i, hi', hsh⟩ := shortest_some (S := P.S) (by omega)
  obtain ⟨U, hU⟩ : ∃ U, U = P.upper (P.S.vec (2 * i)) := ⟨_, rfl⟩
  have hU0 : 0 < U.square := by
    have h1 := hup (P.S.vec (2 * i))
    have h2 := dot_self_pos ((cor h hf hθ).ne (2 * i) (by omega))
    rw [← hU] at h1
    exact_mod_cast h2.trans_le h1
  have hb : (if Iterator.end.upperBoundInclusive.beq (.ofInt 0) then P.S.shortest.map fun v => (Bound.ofInt 0, P.upper v)
        else some (Iterator.end.upperBoundInclusive, Iterator.end.upperBoundInclusive.scale 2)) = some (.ofInt 0, U) := by
    rw [if_pos (by rfl), hsh, hU]
    rfl
  obtain ⟨L, M, e1, e2⟩ := annulus h hf hθ hi hs (.ofInt 0) U
  obtain ⟨R, N, f1, f2⟩ := rest_firsts h hf hθ hi hs hr k (.ofInt 0) U hU0
  have h4 : (1 : ℤ) ≤ 4 ^ k := one_le_pow₀ (by norm_num)
  refine ⟨U.square * 4 ^ k, P.sort L ++ R, M + N + 2, by nlinarith, ?_, fun m hm hm' fuel hfuel => ?_⟩
  · refine (e2.append f1 fun v w hv hw => hv.2.trans_lt hw.1).congr fun e v t hv _ he => ?_
    have hsq : (U.square : T) ≤ ((U.square * 4 ^ k : ℤ) : T) := by
      exact_mod_cast (by nlinarith : U.square ≤ U.square * 4 ^ k)
    constructor
    · rintro (k | k)
      · exact k.2.trans hsq
      · exact k.2
    · intro k
      rcases le_or_gt (dot v v) (U.square : T) with k' | k'
      · refine .inl ⟨?_, k'⟩
        have := saddle_pos h hf hθ hv he
        unfold Bound.ofInt
        simpa using this
      · exact .inr ⟨k', k⟩
  · have key : ∃ it', fill P fuel fuel .end = some (.ok it') ∧
        ∀ it'', Ready it'' → it''.lowerBoundExclusive = it'.lowerBoundExclusive →
            it''.upperBoundInclusive = it'.upperBoundInclusive → it''.connectionsWithinBounds = it'.connectionsWithinBounds →
            firsts P fuel m it'' = some (.ok ((P.sort L ++ R).take m)) := by
      obtain ⟨g, rfl⟩ : ∃ g, fuel = g + 1 := ⟨fuel - 1, by omega⟩
      rw [fill_step_none (search := g + 1) (fuel := g) (it := .end) rfl hb hr (e1 _ (by omega))]
      by_cases hW : P.sort L = []
      · rw [hW, List.nil_append] at hm' ⊢
        exact f2 m hm hm' (g + 1) (by omega) g (by omega) ⟨.ofInt 0, U, [], Iterator.end.currents⟩ rfl rfl rfl
      · obtain ⟨g, rfl⟩ : ∃ g', g = g' + 1 := ⟨g - 1, by omega⟩
        refine ⟨_, fill_full (it := ⟨.ofInt 0, U, P.sort L, Iterator.end.currents⟩) hW, fun it'' a1 a2 a3 a4 => ?_⟩
        exact drain_firsts (P := P) (fuel := g + 1 + 1) (R := R) (u := U) (.ofInt 0)
          (fun m hm hm' it3 b1 b2 b3 => f2 m hm hm' _ (by omega) _ (by omega) it3 b1 b2 b3) (P.sort L) m it'' hm hm' hW a4 a3 a2 a1
    obtain ⟨it', k1, k2⟩ := key
    unfold enumerateFirsts begin
    rw [k1]
    simp only [Option.map_some, Except.map, Option.bind_some]
    cases hw : it'.connectionsWithinBounds with
    | nil => exact k2 it' (fun c l k => by rw [hw] at k; cases k) rfl rfl rfl
    | cons d w =>
      refine k2 _ (fun c l k => ?_) rfl rfl hw.symm
      injection k with k
      subst k
      exact ⟨_, rfl⟩

theorem exists_pow (hf : StrictMono f) : ∀ X : List (HE × Vec T), ∃ k : ℕ, ∀ x ∈ X, dot x.2 x.2 ≤ ((4 ^ k : ℤ) : T) := by
  intro X
  induction X with
  | nil => exact ⟨0, fun x hx => absurd hx (by simp)⟩
  | cons a X ih =>
    obtain ⟨k, hk⟩ := ih
    obtain ⟨j, hj⟩ := exists_nat_ge (f (dot a.2 a.2))
    have hj' : dot a.2 a.2 ≤ (j : T) := by
      rw [← hf.le_iff_le, map_natCast]
      exact hj
    refine ⟨k + j, fun x hx => ?_⟩
    rcases List.mem_cons.1 hx with rfl | hx
    · refine hj'.trans ?_
      have h1 : j ≤ 4 ^ (k + j) := (Nat.lt_pow_self (by norm_num : 1 < 4)).le.trans (Nat.pow_le_pow_right (by norm_num) (by omega))
      exact_mod_cast h1
    · refine (hk x hx).trans ?_
      have h1 : 4 ^ k ≤ 4 ^ (k + j) := Nat.pow_le_pow_right (by norm_num) (by omega)
      exact_mod_cast h1

/-- The first connections that are reported by length are the shortest ones. -/
theorem nearest_spec (h : P.S.Shut) (hf : StrictMono f) (hθ : AllCorners f P.S θ) {Q : HE × Vec T → Prop}
    (hi : Inv P.A f P.S θ P.connections.sectors Q) (hs : SortsByLength P.S P.A P.sort) (hr : P.connections.searchRadius = none)
    (hne : 0 < P.S.tri.size) (hup : ∀ v, dot v v ≤ ((P.upper v).square : T)) {X : List (HE × Vec T)} (hX : X.Nodup)
    (hX' : ∀ x ∈ X, x.1 < P.S.tri.size ∧ (∃ t, IsSaddleConnection P.S x.1 x.2 t) ∧ Searched P.A P.connections x) (hpos : X ≠ []) :
    ∃ L N, (∀ fuel ≥ N, enumerateFirsts P fuel X.length = some (.ok L)) ∧ L.length = X.length ∧
      (∀ c ∈ L, c.source < P.S.tri.size ∧ IsSaddleConnection P.S c.source (P.S.saddleVector c) c.target ∧ Searched P.A P.connections (c.source, P.S.saddleVector c)) ∧
      (L.Pairwise fun c d => (c.source, P.S.saddleVector c) ≠ (d.source, P.S.saddleVector d)) ∧
      (L.Pairwise fun c d => dot (P.S.saddleVector c) (P.S.saddleVector c) ≤ dot (P.S.saddleVector d) (P.S.saddleVector d)) ∧
      ∀ e v, e < P.S.tri.size → (∃ t, IsSaddleConnection P.S e v t) → Searched P.A P.connections (e, v) →
        (∃ c ∈ L, c.source = e ∧ P.S.saddleVector c = v) ∨ ∀ c ∈ L, dot (P.S.saddleVector c) (P.S.saddleVector c) ≤ dot v v := by
  obtain ⟨k, hk⟩ := exists_pow hf X
  obtain ⟨u, R, N, h1, h2, h3⟩ := firsts_spec h hf hθ hi hs hr hne hup k
  have h1' : ((4 ^ k : ℤ) : T) ≤ (u : T) := by exact_mod_cast h1
  have hlen : X.length ≤ R.length := by
    have hsub : X ⊆ R.map fun c => (c.source, P.S.saddleVector c) := by
      intro x hx
      obtain ⟨a1, a2, a3⟩ := hX' x hx
      obtain ⟨c, hc, b1, b2⟩ := (h2.iff x.1 x.2).2 ⟨a1, a2, a3, (hk x hx).trans h1'⟩
      exact List.mem_map.2 ⟨c, hc, Prod.ext b1 b2⟩
    simpa using (List.subperm_of_subset hX hsub).length_le
  have htk : R.take X.length ++ R.drop X.length = R := List.take_append_drop _ _
  have hin : ∀ c ∈ R.take X.length, c ∈ R := fun c hc => List.mem_of_mem_take hc
  refine ⟨R.take X.length, N, h3 X.length (List.length_pos_iff.2 hpos) hlen, by simpa using hlen, fun c hc => ?_, ?_, ?_, fun e v he ht hse => ?_⟩
  · obtain ⟨a1, a2, a3, a4⟩ := (h2.iff c.source (P.S.saddleVector c)).1 ⟨c, hin c hc, rfl, rfl⟩
    exact ⟨a1, h2.valid c (hin c hc), a3⟩
  · exact h2.once.sublist (List.take_sublist _ _)
  · exact h2.sorted.sublist (List.take_sublist _ _)
  · rcases le_or_gt (dot v v) (u : T) with k' | k'
    · obtain ⟨c, hc, b1, b2⟩ := (h2.iff e v).2 ⟨he, ht, hse, k'⟩
      rw [← htk] at hc
      rcases List.mem_append.1 hc with hc | hc
      · exact .inl ⟨c, hc, b1, b2⟩
      · refine .inr fun d hd => ?_
        have hp := h2.sorted
        rw [← htk] at hp
        have := (List.pairwise_append.1 hp).2.2 d hd c hc
        rwa [b2] at this
    · refine .inr fun c hc => ?_
      obtain ⟨a1, a2, a3, a4⟩ := (h2.iff c.source (P.S.saddleVector c)).1 ⟨c, hin c hc, rfl, rfl⟩
      exact a4.trans k'.le

/-- What is reported by length. -/
theorem enumerate_spec (h : P.S.Shut) (hf : StrictMono f) (hθ : AllCorners f P.S θ) {Q : HE × Vec T → Prop}
    (hi : Inv P.A f P.S θ P.connections.sectors Q) (hs : SortsByLength P.S P.A P.sort) (hr : P.connections.searchRadius.isSome)
    (hne : 0 < P.S.tri.size) (hup : ∀ v, dot v v ≤ ((P.upper v).square : T)) :
    ∃ L N, (∀ fuel ≥ N, enumerate P fuel = some (.ok L)) ∧ Reported P.S (fun _ => True) P.A P.connections L := by
  obtain ⟨r, hr⟩ := Option.isSome_iff_exists.1 hr
  have hpos : ∀ e v t, IsSaddleConnection P.S e v t → e < P.S.tri.size → 0 < dot v v := by
    intro e v t hv he
    apply dot_self_pos
    rintro rfl
    rcases hv with ⟨k, -⟩ | ⟨k, -, -⟩
    · exact (cor h hf hθ).ne e he k.symm
    · simp at k
  have heven := h.even
  obtain ⟨i, hi', hsh⟩ := shortest_some (S := P.S) (by omega)
  obtain ⟨U, hU⟩ : ∃ U, U = P.upper (P.S.vec (2 * i)) := ⟨_, rfl⟩
  have hU0 : 0 < U.square := by
    have h1 := hup (P.S.vec (2 * i))
    have h2 := dot_self_pos ((cor h hf hθ).ne (2 * i) (by omega))
    rw [← hU] at h1
    exact_mod_cast h2.trans_le h1
  have hb : (if Iterator.end.upperBoundInclusive.beq (.ofInt 0) then P.S.shortest.map fun v => (Bound.ofInt 0, P.upper v)
        else some (Iterator.end.upperBoundInclusive, Iterator.end.upperBoundInclusive.scale 2)) = some (.ofInt 0, U) := by
    rw [if_pos (by rfl), hsh, hU]
    rfl
  -- from the first iterator
  have fin : ∀ {L : List Saddle} {N : ℕ}, (∀ fuel ≥ N, ∃ it', fill P fuel fuel .end = some (.ok it') ∧
      ∀ it'', Ready it'' → it''.lowerBoundExclusive = it'.lowerBoundExclusive →
            it''.upperBoundInclusive = it'.upperBoundInclusive → it''.connectionsWithinBounds = it'.connectionsWithinBounds →
            collect P fuel fuel it'' = some (.ok L)) → ∀ fuel ≥ N, enumerate P fuel = some (.ok L) := by
    intro L N hN fuel hfuel
    obtain ⟨it', k1, k2⟩ := hN fuel hfuel
    unfold enumerate begin
    rw [k1]
    simp only [Option.map_some, Except.map, Option.bind_some]
    cases hw : it'.connectionsWithinBounds with
    | nil => exact k2 it' (fun c l k => by rw [hw] at k; cases k) rfl rfl rfl
    | cons d w =>
      refine k2 _ (fun c l k => ?_) rfl rfl hw.symm
      injection k with k
      subst k
      exact ⟨_, rfl⟩
  by_cases hr0 : r.square ≤ 0
  · refine ⟨[], 1, fin fun fuel hfuel => ?_, .nil fun e v t hv hsr he _ => ?_⟩
    · obtain ⟨g, rfl⟩ : ∃ g, fuel = g + 1 := ⟨fuel - 1, by omega⟩
      refine ⟨_, (fill_step (search := g + 1) (fuel := g) (it := .end) rfl hb hr).1 (by unfold Bound.ofInt; simpa using hr0), fun it'' a1 a2 a3 a4 => ?_⟩
      exact collect_end a2 a3 a4
    · have := hsr.2.1 r hr
      rw [gtBound_eq, decide_eq_false_iff_not, not_lt] at this
      have h2 : (r.square : T) ≤ 0 := by exact_mod_cast hr0
      exact absurd (hpos e v t hv he) (not_lt.2 (this.trans h2))
  · rw [not_le] at hr0
    obtain ⟨L, M, e1, e2⟩ := annulus h hf hθ hi hs (.ofInt 0) U
    obtain ⟨k, hk⟩ : ∃ k : ℕ, r.square ≤ U.square * 4 ^ k := by
      refine ⟨r.square.toNat, ?_⟩
      have h1 : (r.square.toNat : ℤ) < 4 ^ r.square.toNat := by exact_mod_cast Nat.lt_pow_self (by norm_num)
      have h2 : (r.square.toNat : ℤ) = r.square := Int.toNat_of_nonneg hr0.le
      nlinarith
    obtain ⟨R, N, f1, f2⟩ := rest h hf hθ hi hs hr k (.ofInt 0) U hU0 hk
    refine ⟨P.sort L ++ R, M + N + 2 + (P.sort L).length, fin fun fuel hfuel => ?_, ?_⟩
    · obtain ⟨g, rfl⟩ : ∃ g, fuel = g + 1 := ⟨fuel - 1, by omega⟩
      rw [(fill_step (search := g + 1) (fuel := g) (it := .end) rfl hb hr).2 (by unfold Bound.ofInt; simpa using hr0) L (e1 _ (by omega))]
      by_cases hW : P.sort L = []
      · rw [hW, List.nil_append]
        exact f2 (g + 1) (by omega) g (by omega) (g + 1) (by omega) ⟨.ofInt 0, U, [], Iterator.end.currents⟩ rfl rfl rfl
      · obtain ⟨g, rfl⟩ : ∃ g', g = g' + 1 := ⟨g - 1, by omega⟩
        refine ⟨_, fill_full (it := ⟨.ofInt 0, U, P.sort L, Iterator.end.currents⟩) hW, fun it'' a1 a2 a3 a4 => ?_⟩
        have := drain (P := P) (fuel := g + 1 + 1) (n := g + 1 + 1 - (P.sort L).length) (R := R) (u := U) (by omega) (.ofInt 0)
          (fun it3 b1 b2 b3 => f2 _ (by omega) _ (by omega) _ (by omega) it3 b1 b2 b3) (P.sort L) it'' hW a4 a3 a2 a1
        rw [Nat.sub_add_cancel (by omega)] at this
        exact this
    · refine (e2.append f1 fun v w hv hw => hv.2.trans_lt hw).congr fun e v t hv _ he => ?_
      refine ⟨fun _ => trivial, fun _ => ?_⟩
      rcases le_or_gt (dot v v) (U.square : T) with k' | k'
      · refine .inl ⟨?_, k'⟩
        have := hpos e v t hv he
        unfold Bound.ofInt
        simpa using this
      · exact .inr k'

theorem run_none (A : Option (Approx T K)) {dbg : Bool} {fuel : ℕ} (fs : List (Restriction T)) : ∀ {st st' : State T},
    run A dbg S fuel st fs = some (.ok st') → st.searchRadius = none → (∀ b, .bound b ∉ fs) → st'.searchRadius = none := by
  induction fs with
  | nil =>
    intro st st' h hb _
    unfold run at h
    injection h with h
    injection h with h
    subst h
    exact hb
  | cons g fs ih =>
    intro st st' h hb hfs
    unfold run at h
    have key : ∀ st1, step A dbg S fuel st g = some (.ok st1) → st1.searchRadius = none := by
      intro st1 h1
      cases g with
      | bound b => exact absurd List.mem_cons_self (hfs b)
      | lowerBound b => injection h1 with h1; injection h1 with h1; subst h1; exact hb
      | source b => injection h1 with h1; injection h1 with h1; subst h1; exact hb
      | halfEdge b => injection h1 with h1; injection h1 with h1; subst h1; exact hb
      | vectors b e =>
        unfold step sectorVectors at h1
        rw [Option.map_eq_some_iff] at h1
        obtain ⟨r, -, h1⟩ := h1
        cases r with
        | error err => cases h1
        | ok l => injection h1 with h1; subst h1; exact hb
      | connections b e =>
        change sectorConnections A dbg S st b e fuel = _ at h1
        unfold sectorConnections at h1
        split at h1
        · simp only at h1
          rw [Option.map_eq_some_iff] at h1
          obtain ⟨r, -, h1⟩ := h1
          cases r with
          | error err => cases h1
          | ok l => injection h1 with h1; subst h1; exact hb
        · injection h1 with h1
          cases h1
    cases hs : step A dbg S fuel st g with
    | none => rw [hs] at h; cases h
    | some r =>
      rw [hs] at h
      cases r with
      | error err => injection h with h; cases h
      | ok st1 => exact ih h (key st1 hs) fun b hb' => hfs b (List.mem_cons_of_mem _ hb')

/-- The bounds grow forever if there are no connections. -/
theorem fill_stuck (hr : P.connections.searchRadius = none) (search : ℕ)
    (he : ∀ lo up, SaddleSearch.enumerate P.A P.dbg P.S (lowerBound (bound P.connections up) lo) search = none ∨
      SaddleSearch.enumerate P.A P.dbg P.S (lowerBound (bound P.connections up) lo) search = some (.ok []))
    (hs : P.sort [] = []) (hsh : P.S.shortest.isSome) : ∀ (fuel : ℕ) (it : Iterator), it.connectionsWithinBounds = [] → fill P search fuel it = none := by
  intro fuel
  induction fuel with
  | zero => intro it _; rfl
  | succ n ih =>
    intro it hw
    obtain ⟨w, hsh'⟩ := Option.isSome_iff_exists.1 hsh
    obtain ⟨lo, up, hb⟩ : ∃ lo up, (if it.upperBoundInclusive.beq (.ofInt 0) then P.S.shortest.map fun v => (Bound.ofInt 0, P.upper v)
        else some (it.upperBoundInclusive, it.upperBoundInclusive.scale 2)) = some (lo, up) := by
      split_ifs
      · rw [hsh']; exact ⟨_, _, rfl⟩
      · exact ⟨_, _, rfl⟩
    rcases he lo up with h | h
    · unfold fill
      rw [if_neg (by rw [hw]; simp)]
      simp only [hb, hr]
      rw [if_neg (by simp), h]
      rfl
    · rw [fill_step_none hw hb hr h, hs]
      exact ih _ rfl

end ByLength

end Verif
