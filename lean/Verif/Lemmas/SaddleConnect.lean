import Verif.Model.SaddleConnect
import Verif.Lemmas.ByLength

/-!
# Lemmas: the search for a single saddle connection
-/

namespace Verif

open Spec Vec Real SaddleConnections FlatTri

variable {T : Type} [CommRing T] [LinearOrder T] [IsStrictOrderedRing T]
variable {K : Type} [Field K] [LinearOrder K] [IsStrictOrderedRing K]

/-- A sector that starts and ends in the same direction is that direction. -/
theorem between_self {f : T →+* ℝ} (hf : StrictMono f) {v w : Vec T} (hv : v ≠ 0) : Between f v v w ↔ SameDirection v w := by
  have hne := map_ne_zero f hf hv
  have hpos : 0 < dot (v.map f) (v.map f) := dot_self_pos hne
  constructor
  · rintro ⟨α, β, h1, h2, h3, h4, h5, h6⟩
    have hα : α = 0 := Turns.unique hne ⟨h3, h4⟩ ⟨le_rfl, by linarith [pi_pos]⟩ h1 (turns_self _)
    have hβ : β = 0 := by
      rcases h6 with h6 | h6
      · linarith
      · exact h6.2
    subst hβ
    obtain ⟨r, hr, hw⟩ := h2
    have hrot : rotate 0 (v.map f) = v.map f := by
      unfold rotate
      simp
    rw [hrot] at hw
    refine ⟨hf.injective ?_, ?_⟩
    · rw [← cross_map, hw, map_zero]
      simp only [cross, Vec.smul_x, Vec.smul_y]
      ring
    · rw [← hf.lt_iff_lt, map_zero, ← dot_map, hw]
      have : dot (v.map f) (r • v.map f) = r * dot (v.map f) (v.map f) := by
        simp only [dot, Vec.smul_x, Vec.smul_y]
        ring
      rw [this]
      positivity
  · rintro ⟨h1, h2⟩
    refine ⟨0, 0, turns_self _, ?_, le_rfl, by linarith [pi_pos], le_rfl, .inr ⟨rfl, rfl⟩⟩
    have hc : cross (v.map f) (w.map f) = 0 := by rw [cross_map, h1, map_zero]
    have hd : 0 < dot (v.map f) (w.map f) := by rw [dot_map, ← map_zero f]; exact hf h2
    refine ⟨dot (v.map f) (w.map f) / dot (v.map f) (v.map f), by positivity, ?_⟩
    have hrot : rotate 0 (v.map f) = v.map f := by
      unfold rotate
      simp
    rw [hrot]
    generalize v.map f = a at *
    generalize w.map f = b at *
    ext
    · simp only [Vec.smul_x]
      rw [div_mul_eq_mul_div, eq_div_iff hpos.ne']
      unfold cross at hc
      unfold dot
      linear_combination (-a.y) * hc
    · simp only [Vec.smul_y]
      rw [div_mul_eq_mul_div, eq_div_iff hpos.ne']
      unfold cross at hc
      unfold dot
      linear_combination a.x * hc

theorem cross_sameDirection {v w : Vec T} (h : SameDirection v w) (a : Vec T) : (0 < cross a v ↔ 0 < cross a w) ∧ (cross a v < 0 ↔ cross a w < 0) := by
  obtain ⟨h1, h2⟩ := h
  have hw : 0 < dot w w := by
    apply dot_self_pos
    rintro rfl
    simp [dot] at h2
  have key : cross a v * dot w w = dot v w * cross a w := by
    unfold cross at *
    unfold dot at *
    linear_combination (-(a.x * w.x + a.y * w.y)) * h1
  constructor
  · rw [← mul_pos_iff_of_pos_right hw, key, mul_pos_iff_of_pos_left h2]
  · constructor
    · intro h
      have : dot v w * cross a w < 0 := by rw [← key]; exact mul_neg_of_neg_of_pos h hw
      exact (pos_iff_neg_of_mul_neg this).1 h2
    · intro h
      have : cross a v * dot w w < 0 := by rw [key]; exact mul_neg_of_pos_of_neg h2 h
      exact (neg_iff_pos_of_mul_neg this).2 hw

theorem Vec.SameDirection.common {v a b : Vec T} (ha : SameDirection v a) (hv : v ≠ 0) (hb : SameDirection v b) : SameDirection a b := by
  have hvv := dot_self_pos hv
  obtain ⟨i1, i3⟩ := ha
  obtain ⟨i2, i4⟩ := hb
  constructor
  · have key : cross a b * dot v v = 0 := by
      unfold cross at *
      unfold dot at *
      linear_combination (v.x * b.x + v.y * b.y) * (-i1) + (a.x * v.x + a.y * v.y) * i2
    exact (mul_eq_zero.1 key).resolve_right hvv.ne'
  · have key : dot a b * dot v v = dot v a * dot v b := by
      unfold cross at *
      unfold dot at *
      linear_combination (v.x * b.y - v.y * b.x) * i1
    have : 0 < dot a b * dot v v := by
      rw [key]
      exact mul_pos i3 i4
    exact (mul_pos_iff_of_pos_right hvv).1 this

theorem inSector_sameDirection (A : Option (Approx T K)) {S : FlatTri T} {e : HE} {v w : Vec T} (h : SameDirection v w) :
    S.inSector A e v = S.inSector A e w := by
  unfold FlatTri.inSector
  simp only [ccw_eq]
  have h1 := (cross_sameDirection h (S.vec e)).2
  have h2 := (cross_sameDirection h (S.vec (S.tri.nextAtVertex e))).2
  simp only [ne_eq, ccwExact_clockwise, h1, h2]

/-- The first saddle connection of an enumeration. -/
theorem begin_of_enumerate {A : Option (Approx T K)} {dbg : Bool} {S : FlatTri T} {st : State T} {fuel : ℕ} {L : List Saddle}
    (h : SaddleSearch.enumerate A dbg S st fuel = some (.ok L)) :
    ∃ m, SaddleSearch.start ⟨A, dbg, S, st.searchRadius, st.lowerBound⟩ fuel st.sectors = some (.ok m) ∧
      ((m.sectors.isEmpty = true ∧ L = []) ∨
        m.sectors.isEmpty = false ∧ ∃ c l, L = c :: l ∧ SaddleSearch.dereference ⟨A, dbg, S, st.searchRadius, st.lowerBound⟩ m = .ok c) := by
  unfold SaddleSearch.enumerate at h
  dsimp only at h
  cases hs : SaddleSearch.start (K := K) ⟨A, dbg, S, st.searchRadius, st.lowerBound⟩ fuel st.sectors with
  | none => rw [hs] at h; cases h
  | some r =>
    rw [hs] at h
    cases r with
    | error err => injection h with h; cases h
    | ok m =>
      refine ⟨m, rfl, ?_⟩
      simp only [Option.bind_some] at h
      cases fuel with
      | zero => cases h
      | succ n =>
        unfold SaddleSearch.collect at h
        split_ifs at h with he
        · injection h with h
          injection h with h
          exact .inl ⟨he, h.symm⟩
        · refine .inr ⟨by simpa using he, ?_⟩
          split at h
          · injection h with h; cases h
          · rename_i c hc
            cases ha : SaddleSearch.advance (K := K) ⟨A, dbg, S, st.searchRadius, st.lowerBound⟩ (n + 1) m with
            | none => rw [ha] at h; cases h
            | some r =>
              rw [ha] at h
              cases r with
              | error err => injection h with h; cases h
              | ok m' =>
                simp only [Option.bind_some] at h
                cases hcl : SaddleSearch.collect (K := K) ⟨A, dbg, S, st.searchRadius, st.lowerBound⟩ (n + 1) n m' with
                | none => rw [hcl] at h; cases h
                | some r =>
                  rw [hcl] at h
                  cases r with
                  | error err => injection h with h; cases h
                  | ok l =>
                    injection h with h
                    injection h with h
                    exact ⟨c, l, h.symm, hc⟩

/-! ### More steps do not change the outcome -/

theorem advance_mono {P : SaddleSearch.Params T K} : ∀ {n n' : ℕ} {m : SaddleSearch.Machine T} {r}, n ≤ n' →
    SaddleSearch.advance P n m = some r → SaddleSearch.advance P n' m = some r := by
  intro n
  induction n with
  | zero => intro n' m r _ h; cases h
  | succ n ih =>
    intro n' m r hn h
    obtain ⟨n', rfl⟩ : ∃ k, n' = k + 1 := ⟨n' - 1, by omega⟩
    unfold SaddleSearch.advance at h ⊢
    split at h
    · exact h
    · exact h
    · exact ih (by omega) h

theorem start_mono {P : SaddleSearch.Params T K} {n n' : ℕ} {s : List (Sector T)} {r} (hn : n ≤ n')
    (h : SaddleSearch.start P n s = some r) : SaddleSearch.start P n' s = some r := by
  unfold SaddleSearch.start at h ⊢
  split at h
  · exact h
  · exact h
  · exact advance_mono hn h

theorem collect_mono {P : SaddleSearch.Params T K} {f f' : ℕ} (hf : f ≤ f') : ∀ {n n' : ℕ} {m : SaddleSearch.Machine T} {r}, n ≤ n' →
    SaddleSearch.collect P f n m = some r → SaddleSearch.collect P f' n' m = some r := by
  intro n
  induction n with
  | zero => intro n' m r _ h; cases h
  | succ n ih =>
    intro n' m r hn h
    obtain ⟨n', rfl⟩ : ∃ k, n' = k + 1 := ⟨n' - 1, by omega⟩
    unfold SaddleSearch.collect at h ⊢
    split_ifs at h ⊢ with he
    · exact h
    · split at h
      · exact h
      · cases ha : SaddleSearch.advance P f m with
        | none => rw [ha] at h; cases h
        | some s =>
          rw [advance_mono hf ha]
          rw [ha] at h
          cases s with
          | error err => exact h
          | ok m' =>
            simp only [Option.bind_some] at h ⊢
            cases hc : SaddleSearch.collect P f n m' with
            | none => rw [hc] at h; cases h
            | some s =>
              rw [ih (by omega) hc]
              rw [hc] at h
              exact h

theorem enumerate_mono {A : Option (Approx T K)} {dbg : Bool} {S : FlatTri T} {st : State T} {n n' : ℕ} {r} (hn : n ≤ n')
    (h : SaddleSearch.enumerate A dbg S st n = some r) : SaddleSearch.enumerate A dbg S st n' = some r := by
  unfold SaddleSearch.enumerate at h ⊢
  dsimp only at h ⊢
  cases hs : SaddleSearch.start (K := K) ⟨A, dbg, S, st.searchRadius, st.lowerBound⟩ n st.sectors with
  | none => rw [hs] at h; cases h
  | some s =>
    rw [start_mono hn hs]
    rw [hs] at h
    cases s with
    | error err => exact h
    | ok m => exact collect_mono hn hn h

end Verif
