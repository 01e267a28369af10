import Verif.Model.VertexWalk
import Mathlib.Data.List.Nodup
import Mathlib.Data.Finset.Card

/-!
# C158: the image of a vertex in a retriangulation is found when it can be reached
-/

namespace Verif.C158

open Verif VertexWalk

variable {P : Type}

/-- Vertices that can be reached. -/
inductive Reach (X : Setup P) : ℕ → Prop
  | start : Reach X X.start
  | step {v : ℕ} {e : HE} : Reach X v → e ∈ X.outgoing v → Reach X (X.target e)

/-- The surfaces make sense: whether a vertex survives does not depend on how it is reached, and there is a relation between vertices and
their images such that surviving vertices have an image, and images can be moved along half edges. -/
structure Sound (X : Setup P) (vertices : Finset ℕ) (alive : ℕ → Prop) (IsImage : ℕ → P → Prop) : Prop where
  start_mem : X.start ∈ vertices
  target_mem : ∀ v ∈ vertices, ∀ e ∈ X.outgoing v, X.target e ∈ vertices
  alive_start : (X.survives none).isSome ↔ alive X.start
  alive_step : ∀ v, ∀ e ∈ X.outgoing v, (X.survives (some e)).isSome ↔ alive (X.target e)
  image_start : ∀ p, X.survives none = some p → IsImage X.start p
  image_step : ∀ v, ∀ e ∈ X.outgoing v, ∀ p, X.survives (some e) = some p → IsImage v p
  image_back : ∀ v, ∀ e ∈ X.outgoing v, ∀ p, IsImage (X.target e) p → IsImage v (X.back p e)

variable {X : Setup P} {vertices : Finset ℕ} {alive : ℕ → Prop} {IsImage : ℕ → P → Prop}

/-- The vertex at which a step starts. -/
def From (X : Setup P) (v : ℕ) : Option HE → Prop
  | none => v = X.start
  | some e => e ∈ X.outgoing v

theorem alive_iff (hX : Sound X vertices alive IsImage) {v : ℕ} {step : Option HE} (h : From X v step) :
    (X.survives step).isSome ↔ alive (X.vertex step) := by
  cases step with
  | none => exact hX.alive_start
  | some e => exact hX.alive_step v e h

/-- What is known when nothing has been found. -/
structure Explored (X : Setup P) (alive : ℕ → Prop) (seen seen' : List ℕ) : Prop where
  subset : seen ⊆ seen'
  dead : ∀ v ∈ seen', v ∉ seen → ¬alive v
  closed : ∀ v ∈ seen', v ∉ seen → ∀ e ∈ X.outgoing v, X.target e ∈ seen'

theorem Explored.trans {a b c : List ℕ} (h : Explored X alive a b) (k : Explored X alive b c) : Explored X alive a c := by
  refine ⟨fun v hv => k.subset (h.subset hv), fun v hv ha => ?_, fun v hv ha e he => ?_⟩
  · by_cases hb : v ∈ b
    · exact h.dead v hb ha
    · exact k.dead v hv hb
  · by_cases hb : v ∈ b
    · exact k.subset (h.closed v hb ha e he)
    · exact k.closed v hv hb e he

theorem tryAll_none {step : Option HE} {walk : List ℕ → HE → Option (Option P × List ℕ)} : ∀ {es : List HE} {seen seen' : List ℕ},
    (∀ e ∈ es, ∀ s s', walk s e = some (none, s') → Explored X alive s s' ∧ X.target e ∈ s') →
    X.tryAll step walk es seen = some (none, seen') → Explored X alive seen seen' ∧ ∀ e ∈ es, X.target e ∈ seen'
  | [], seen, seen', _, h => by
    cases h
    exact ⟨⟨fun _ h => h, fun v h1 h2 => absurd h1 h2, fun v h1 h2 => absurd h1 h2⟩, fun e he => by cases he⟩
  | e :: es, seen, seen', hw, h => by
    unfold Setup.tryAll at h
    split at h
    · cases h
    · cases h
    · rename_i s hs
      obtain ⟨g1, g2⟩ := hw e (by simp) _ _ hs
      obtain ⟨k1, k2⟩ := tryAll_none (fun e he => hw e (List.mem_cons_of_mem _ he)) h
      refine ⟨g1.trans k1, fun f hf => ?_⟩
      rcases List.mem_cons.1 hf with rfl | hf
      · exact k1.subset g2
      · exact k2 f hf

theorem walk_none (hX : Sound X vertices alive IsImage) : ∀ {fuel : ℕ} {seen seen' : List ℕ} {step : Option HE} {v : ℕ}, From X v step →
    X.walk fuel seen step = some (none, seen') → Explored X alive seen seen' ∧ X.vertex step ∈ seen'
  | 0, _, _, _, _, _, h => by cases h
  | fuel + 1, seen, seen', step, v, hv, h => by
    unfold Setup.walk at h
    split at h
    · rename_i hm
      cases h
      exact ⟨⟨fun _ h => h, fun v h1 h2 => absurd h1 h2, fun v h1 h2 => absurd h1 h2⟩, hm⟩
    · split at h
      · cases h
      · rename_i hm hs
        obtain ⟨k1, k2⟩ := tryAll_none (X := X) (alive := alive) (fun e he s s' hw => walk_none hX (v := X.vertex step) he hw) h
        have hmem : X.vertex step ∈ seen' := k1.subset (by simp)
        refine ⟨⟨fun w hw => k1.subset (List.mem_cons_of_mem _ hw), fun w hw hn => ?_, fun w hw hn e he => ?_⟩, hmem⟩
        · by_cases e : w = X.vertex step
          · rw [e, ← alive_iff hX hv, hs]
            simp
          · exact k1.dead w hw (by simp [e, hn])
        · by_cases k : w = X.vertex step
          · exact k2 e (k ▸ he)
          · exact k1.closed w hw (by simp [k, hn]) e he

theorem tryAll_some {step : Option HE} {walk : List ℕ → HE → Option (Option P × List ℕ)} {p : P} : ∀ {es : List HE} {seen seen' : List ℕ},
    X.tryAll step walk es seen = some (some p, seen') → ∃ e ∈ es, ∃ s s' q, walk s e = some (some q, s') ∧ p = X.move step q
  | [], _, _, h => by cases h
  | e :: es, seen, seen', h => by
    unfold Setup.tryAll at h
    split at h
    · cases h
    · rename_i q s hs
      cases h
      exact ⟨e, by simp, _, _, q, hs, rfl⟩
    · obtain ⟨f, hf, k⟩ := tryAll_some h
      exact ⟨f, List.mem_cons_of_mem _ hf, k⟩

theorem walk_some (hX : Sound X vertices alive IsImage) : ∀ {fuel : ℕ} {seen seen' : List ℕ} {step : Option HE} {v : ℕ} {p : P},
    From X v step → X.walk fuel seen step = some (some p, seen') → IsImage v p
  | 0, _, _, _, _, _, _, h => by cases h
  | fuel + 1, seen, seen', step, v, p, hv, h => by
    unfold Setup.walk at h
    split at h
    · cases h
    · split at h
      · rename_i hs
        cases h
        cases step with
        | none =>
          cases hv
          exact hX.image_start p hs
        | some e => exact hX.image_step v e hv p hs
      · obtain ⟨e, he, s, s', q, h1, rfl⟩ := tryAll_some h
        have := walk_some hX (v := X.vertex step) (step := some e) he h1
        cases step with
        | none =>
          cases hv
          exact this
        | some f => exact hX.image_back v f hv q this

theorem tryAll_total {step : Option HE} {walk : List ℕ → HE → Option (Option P × List ℕ)} : ∀ {es : List HE} {seen : List ℕ},
    (∀ e ∈ es, ∀ s, seen ⊆ s → ∃ r s', walk s e = some (r, s') ∧ s ⊆ s') →
    ∃ r s', X.tryAll step walk es seen = some (r, s') ∧ seen ⊆ s'
  | [], seen, _ => ⟨none, seen, rfl, fun _ h => h⟩
  | e :: es, seen, hw => by
    obtain ⟨r, s, h1, h2⟩ := hw e (by simp) seen fun _ h => h
    unfold Setup.tryAll
    rw [h1]
    cases r with
    | some q => exact ⟨_, _, rfl, h2⟩
    | none =>
      obtain ⟨r, s', k1, k2⟩ := tryAll_total (step := step) (walk := walk) (es := es) (seen := s)
        fun f hf t ht => hw f (List.mem_cons_of_mem _ hf) t fun _ h => ht (h2 h)
      exact ⟨r, s', k1, fun _ h => k2 (h2 h)⟩

theorem walk_total (hX : Sound X vertices alive IsImage) : ∀ {fuel : ℕ} {seen : List ℕ} {step : Option HE}, X.vertex step ∈ vertices →
    (vertices.filter (· ∉ seen)).card < fuel → ∃ r s', X.walk fuel seen step = some (r, s') ∧ seen ⊆ s'
  | 0, _, _, _, h => by omega
  | fuel + 1, seen, step, hv, h => by
    unfold Setup.walk
    split
    · exact ⟨_, _, rfl, fun _ h => h⟩
    · rename_i hm
      split
      · exact ⟨_, _, rfl, List.subset_cons_self _ _⟩
      · obtain ⟨r, s', h1, h2⟩ := tryAll_total (X := X) (step := step) (walk := fun seen e => X.walk fuel seen (some e))
          (es := X.outgoing (X.vertex step)) (seen := X.vertex step :: seen) fun e he s hs => by
            refine walk_total hX (step := some e) (hX.target_mem _ hv e he) ?_
            refine lt_of_lt_of_le (Finset.card_lt_card ?_) (Nat.lt_succ_iff.1 h)
            refine Finset.ssubset_iff_subset_ne.2 ⟨fun w hw => ?_, fun k => ?_⟩
            · rw [Finset.mem_filter] at hw ⊢
              exact ⟨hw.1, fun hn => hw.2 (hs (List.mem_cons_of_mem _ hn))⟩
            · have : X.vertex step ∈ vertices.filter (· ∉ seen) := Finset.mem_filter.2 ⟨hv, hm⟩
              rw [← k, Finset.mem_filter] at this
              exact this.2 (hs (by simp))
        exact ⟨r, s', h1, fun _ h => h2 (List.mem_cons_of_mem _ h)⟩

/-- The walk comes to an end. It finds an image of the vertex if and only if a vertex that survives can be reached. -/
theorem image_found (hX : Sound X vertices alive IsImage) : ∃ r seen, (X.walk (vertices.card + 1) [] none = some (r, seen)) ∧
    (∀ p, r = some p → IsImage X.start p) ∧ (r = none → ∀ v, Reach X v → ¬alive v) := by
  obtain ⟨r, seen, h, -⟩ := walk_total hX (fuel := vertices.card + 1) (seen := []) (step := none) hX.start_mem
    (by simp)
  refine ⟨r, seen, h, ?_, ?_⟩
  · rintro p rfl
    exact walk_some hX (v := X.start) (step := none) rfl h
  · rintro rfl
    obtain ⟨k1, k2⟩ := walk_none hX (v := X.start) (step := none) rfl h
    have hr : ∀ v, Reach X v → v ∈ seen := by
      intro v hv
      induction hv with
      | start => exact k2
      | step _ he ih => exact k1.closed _ ih (by simp) _ he
    exact fun v hv => k1.dead v (hr v hv) (by simp)

/-- Three vertices on a line, only the last one survives; points are numbers. -/
def line : Setup ℤ where
  start := 0
  outgoing := fun v => if v = 0 then [0] else if v = 1 then [1, 2] else if v = 2 then [3] else []
  target := fun e => if e = 0 then 1 else if e = 1 then 0 else if e = 2 then 2 else 1
  survives := fun step => if step = some 2 then some 1 else none
  back := fun p e => if e = 0 ∨ e = 2 then p - 1 else p + 1

example : line.walk 4 [] none = some (some 0, [2, 1, 0]) := by rfl

example : Sound line {0, 1, 2} (· = 2) (fun v p => p = v) := by
  refine ⟨by decide, ?_, by simp [line], ?_, by simp [line], ?_, ?_⟩
  · intro v hv e he
    simp only [line] at he ⊢
    split at he <;> [skip; split at he <;> [skip; split at he]] <;> simp_all <;> (rcases he with rfl | rfl <;> simp)
  all_goals
    intro v e he
    simp only [line] at he ⊢
    split at he <;> [skip; split at he <;> [skip; split at he]] <;> simp_all <;> first | omega | (rcases he with rfl | rfl <;> simp_all)

end Verif.C158
