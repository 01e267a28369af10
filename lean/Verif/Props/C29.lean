import Verif.Lemmas.UnionFind

/-!
# C29: Union-find computes the generated equivalence relation
-/

namespace Verif.C29

open UnionFind

/-- The nodes are connected by the joins in a history: the equivalence relation generated by the joins. -/
def Connected (ops : List Op) : ℕ → ℕ → Prop := Relation.EqvGen fun a b => Op.join a b ∈ ops

/-- After any history of operations, `==` tells exactly whether nodes have been connected by joins. All recursions
terminate and the assertion in `join` holds. -/
theorem same_correct (dbg : Bool) (ops : List Op) :
    ∃ N, ∀ fuel ≥ N, ∃ s, run dbg fuel ops init = some (.ok s) ∧
      ∀ i j, ∃ b s', same fuel s i j = some (b, s') ∧ (b = true ↔ Connected ops i j) := by
  obtain ⟨N, hN⟩ := run_represents dbg ops (fun _ _ => False) 1
  refine ⟨N, fun fuel hf => ?_⟩
  obtain ⟨s, h1, h2⟩ := hN fuel hf init represents_init
  refine ⟨s, h1, fun i j => ?_⟩
  obtain ⟨b, s', h3, _, h4⟩ := same_represents (h2.congr (R' := fun a b => Op.join a b ∈ ops) (by simp)) hf i j
  exact ⟨b, s', h3, h4⟩

/-- After any history of operations, the representative is connected to the node, and nodes have the same representative
exactly when they are connected. -/
theorem representative_correct (dbg : Bool) (ops : List Op) :
    ∃ N, ∀ fuel ≥ N, ∃ s, run dbg fuel ops init = some (.ok s) ∧ ∃ rep : ℕ → ℕ,
      (∀ i, ∃ s', representative fuel s i = some (rep i, s')) ∧ (∀ i, Connected ops i (rep i)) ∧
      ∀ i j, rep i = rep j ↔ Connected ops i j := by
  obtain ⟨N, hN⟩ := run_represents dbg ops (fun _ _ => False) 1
  refine ⟨N, fun fuel hf => ?_⟩
  obtain ⟨s, h1, h2⟩ := hN fuel hf init represents_init
  obtain ⟨root, rank, h3, h4, h5⟩ := h2.congr (R' := fun a b => Op.join a b ∈ ops) (by simp)
  refine ⟨s, h1, root, fun i => ?_, fun i => (h5 _ _).1 (h3.root_root i).2.1.symm, h5⟩
  obtain ⟨s', h6, _⟩ := top_spec h3 fuel i ((h4 i).trans_le hf)
  exact ⟨s', h6⟩

example : (run true 3 [.join 0 1, .join 2 3, .same 0 3, .join 1 3, .representative 0] init).map
    (fun r => r.toOption.map fun s => ((same 3 s 0 2).map (·.1), (same 3 s 0 4).map (·.1))) =
    some (some (some true, some false)) := by decide

end Verif.C29
