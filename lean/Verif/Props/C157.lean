import Verif.Model.InjectNames
import Verif.Lemmas.HalfEdge
import Mathlib.Data.List.Nodup

/-!
# C157: vertical connections are named consistently
-/

namespace Verif.C157

open Verif InjectNames

/-- The name of the connection at position `i` among the connections at a label, when `k` connections have been named before:
connections are attached to each other, starting at the label. -/
def nameAt (label : ℕ) (top : Bool) (k i : ℕ) : ℕ × ℕ :=
  let source := if i = 0 then label else fresh (k + i - 1)
  let target := fresh (k + i)
  if top then (target, source) else (source, target)

theorem filter_of_none {names : Names} {v : HE} (h : lookup names v = none) : (names.filter fun p => decide (p.1 ≠ v)) = names := by
  unfold lookup at h
  rw [Option.map_eq_none_iff, List.find?_eq_none] at h
  rw [List.filter_eq_self]
  intro p hp
  simpa using h p hp

theorem lookup_cons (v : HE) (n : ℕ × ℕ) (names : Names) (w : HE) :
    lookup ((v, n) :: names) w = if v = w then some n else lookup names w := by
  unfold lookup
  by_cases h : v = w <;> simp [h]

theorem nameRights_correct (dbg top : Bool) : ∀ {vs : List HE} {label : ℕ} {names : Names}, vs.Nodup → (∀ v ∈ vs, lookup names v = none) →
    ∃ names', nameRights dbg top label vs names = .ok names' ∧ names'.length = names.length + vs.length ∧
      (∀ w, w ∉ vs → lookup names' w = lookup names w) ∧
      ∀ i v, vs[i]? = some v → lookup names' v = some (nameAt label top names.length i)
  | [], label, names, _, _ => ⟨names, rfl, rfl, fun _ _ => rfl, fun i v h => by simp at h⟩
  | v :: vs, label, names, hn, h => by
    have h0 := h v (by simp)
    rw [List.nodup_cons] at hn
    have hvs : ∀ w ∈ vs, lookup ((v, orient top label (fresh names.length)) :: names) w = none := by
      intro w hw
      rw [lookup_cons, if_neg (fun e : v = w => hn.1 (by rw [e]; exact hw))]
      exact h w (List.mem_cons_of_mem _ hw)
    obtain ⟨names', h1, h2, h3, h4⟩ := nameRights_correct dbg top (label := fresh names.length) hn.2 hvs
    refine ⟨names', ?_, ?_, ?_, ?_⟩
    · unfold nameRights
      rw [h0, filter_of_none h0, if_neg (by simp)]
      exact h1
    · rw [h2, List.length_cons, List.length_cons]
      omega
    · intro w hw
      rw [List.mem_cons, not_or] at hw
      rw [h3 w hw.2, lookup_cons, if_neg fun e => hw.1 e.symm]
    · intro i w hw
      cases i with
      | zero =>
        simp only [List.getElem?_cons_zero, Option.some.injEq] at hw
        subst hw
        rw [h3 _ hn.1, lookup_cons, if_pos rfl]
        rfl
      | succ i =>
        rw [List.getElem?_cons_succ] at hw
        rw [h4 i w hw]
        unfold nameAt
        rw [List.length_cons]
        have e1 : names.length + 1 + i = names.length + (i + 1) := by omega
        rw [e1]
        cases i with
        | zero => simp
        | succ i => simp

theorem ordered_perm (b : Block) : b.ordered.Perm b.rights := by
  unfold Block.ordered
  split
  · exact List.reverse_perm _
  · exact List.Perm.refl _

/-- The number of connections. -/
def size (blocks : List Block) : ℕ := (blocks.flatMap Block.rights).length

theorem rightPass_correct (dbg : Bool) : ∀ {blocks : List Block} {names : Names}, (blocks.flatMap Block.rights).Nodup →
    (∀ v ∈ blocks.flatMap Block.rights, lookup names v = none) →
    ∃ names', rightPass dbg blocks names = .ok names' ∧ (∀ w, w ∉ blocks.flatMap Block.rights → lookup names' w = lookup names w) ∧
      ∀ before b after, blocks = before ++ b :: after → ∀ i v, b.ordered[i]? = some v →
        lookup names' v = some (nameAt b.label b.top (names.length + size before) i)
  | [], names, _, _ => ⟨names, rfl, fun _ _ => rfl, fun before b after h => by simp at h⟩
  | b :: blocks, names, hn, h => by
    rw [List.flatMap_cons, List.nodup_append] at hn
    obtain ⟨hn1, hn2, hn3⟩ := hn
    simp only [List.flatMap_cons, List.mem_append] at h
    obtain ⟨names1, h1, h2, h3, h4⟩ := nameRights_correct dbg b.top (vs := b.ordered) (label := b.label) (names := names)
      ((ordered_perm b).nodup_iff.2 hn1) fun v hv => h v (.inl ((ordered_perm b).subset hv))
    have hnot : ∀ v ∈ blocks.flatMap Block.rights, v ∉ b.ordered := fun v hv hb => hn3 v ((ordered_perm b).subset hb) v hv rfl
    obtain ⟨names', g1, g2, g3⟩ := rightPass_correct dbg (blocks := blocks) (names := names1) hn2 fun v hv => by
      rw [h3 v (hnot v hv)]
      exact h v (.inr hv)
    refine ⟨names', ?_, ?_, ?_⟩
    · unfold rightPass
      rw [h1]
      exact g1
    · intro w hw
      rw [List.flatMap_cons, List.mem_append, not_or] at hw
      rw [g2 w hw.2, h3 w fun k => hw.1 ((ordered_perm b).subset k)]
    · intro before c after hc i v hv
      cases before with
      | nil =>
        simp only [List.nil_append, List.cons.injEq] at hc
        obtain ⟨rfl, rfl⟩ := hc
        have hm : v ∈ b.ordered := List.mem_of_getElem? hv
        rw [g2 v fun k => hnot v k hm, h4 i v hv]
        rfl
      | cons d before =>
        simp only [List.cons_append, List.cons.injEq] at hc
        obtain ⟨rfl, hc⟩ := hc
        rw [g3 before c after hc i v hv, h2, (ordered_perm b).length_eq]
        have : size (b :: before) = b.rights.length + size before := by simp [size, List.flatMap_cons]
        rw [this, Nat.add_assoc]

/-- All the connections on the right are named: the connections at a label form a chain that starts at the label and in which each
connection is attached to the previous one, in the order of the connections at the bottom and in the opposite order at the top; the
label at the end of each connection is new, it is determined by the number of
connections that have been named before. -/
theorem rights_named (dbg : Bool) {blocks : List Block} (h : (blocks.flatMap Block.rights).Nodup) :
    ∃ names, rightPass dbg blocks [] = .ok names ∧ ∀ before b after, blocks = before ++ b :: after → ∀ i v,
      (b.top = false → b.rights[i]? = some v) → (b.top = true → b.rights.reverse[i]? = some v) →
      lookup names v = some (nameAt b.label b.top (size before) i) := by
  obtain ⟨names, h1, -, h3⟩ := rightPass_correct dbg (names := []) h fun v _ => rfl
  refine ⟨names, h1, fun before b after e i v hv hv' => ?_⟩
  have hv : b.ordered[i]? = some v := by
    unfold Block.ordered
    cases k : b.top
    · exact hv k
    · exact hv' k
  simpa using h3 before b after e i v hv

/-- The new labels are all different, and they are different from the labels of half edges. -/
theorem fresh_distinct {j k : ℕ} (hj : j < 2 ^ 63) (hk : k < 2 ^ 63) (h : fresh j = fresh k) : j = k := by
  unfold fresh at h
  omega

theorem fresh_not_label {k label : ℕ} (hk : k < 2 ^ 63) (hl : label < 2 ^ 63) : fresh k ≠ label := by
  unfold fresh
  omega

/-- Connections on the left get the name of their negative with the labels swapped. -/
theorem lefts_named (dbg : Bool) (names : Names) : ∀ {vs : List HE}, (∀ v ∈ vs, (lookup names (neg v)).isSome) →
    ∃ ns, nameLefts dbg names vs = .ok ns ∧ ns.map (fun n => some (n.2, n.1)) = vs.map fun v => lookup names (neg v)
  | [], _ => ⟨[], rfl, rfl⟩
  | v :: vs, h => by
    obtain ⟨ns, h1, h2⟩ := lefts_named dbg names (vs := vs) fun w hw => h w (List.mem_cons_of_mem _ hw)
    obtain ⟨n, hn⟩ := Option.isSome_iff_exists.1 (h v (by simp))
    refine ⟨(n.2, n.1) :: ns, ?_, ?_⟩
    · unfold nameLefts
      rw [hn, h1]
    · rw [List.map_cons, List.map_cons, h2, hn]

/-- A connection on the left that is not the negative of a connection on the right is reported. -/
theorem lefts_unknown (names : Names) : ∀ {vs : List HE}, (∃ v ∈ vs, lookup names (neg v) = none) →
    nameLefts true names vs = .error .logicError
  | [], h => by simp at h
  | v :: vs, h => by
    unfold nameLefts
    cases hv : lookup names (neg v) with
    | none => rfl
    | some n =>
      obtain ⟨w, hw, hn⟩ := h
      rcases List.mem_cons.1 hw with rfl | hw
      · rw [hv] at hn
        cases hn
      · dsimp only
        rw [lefts_unknown names ⟨w, hw, hn⟩]

/-- A connection that is on the right twice is reported. -/
theorem rights_repeated (top : Bool) {label : ℕ} {v : HE} {vs : List HE} {names : Names} (h : (lookup names v).isSome) :
    nameRights true top label (v :: vs) names = .error .logicError := by
  unfold nameRights
  rw [h]
  rfl

/-- Two connections at the bottom, and one at the top. -/
def sample : List Block := [⟨3, false, [0, 2]⟩, ⟨5, true, [4]⟩]

example : (sample.flatMap Block.rights).Nodup ∧ rightPass true sample [] =
    .ok [(4, (2 ^ 64 - 3, 5)), (2, (2 ^ 64 - 1, 2 ^ 64 - 2)), (0, (3, 2 ^ 64 - 1))] := by
  refine ⟨by decide, by decide +kernel⟩

example : nameLefts true [(4, (2 ^ 64 - 3, 5)), (2, (2 ^ 64 - 1, 2 ^ 64 - 2)), (0, (3, 2 ^ 64 - 1))] [3, 5] =
    .ok [(2 ^ 64 - 2, 2 ^ 64 - 1), (5, 2 ^ 64 - 3)] := by decide +kernel

end Verif.C157
