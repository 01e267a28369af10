import Verif.Props.C42

/-!
# C71: equal saddle connections have equal hashes

Saddle connections are compared by their source and their vector, but the hash depends on the chain. Homologous chains have
the same vector. Therefore, `simple()` can miss that a path repeats a segment.
-/

namespace Verif.C71

open Verif Spec Tri FlatTri Examples

set_option linter.unusedSectionVars false

variable {T : Type} [CommRing T] [LinearOrder T] [IsStrictOrderedRing T]

/-- Saddle connections that are equal have the same hash. -/
def HashCorrect (S : FlatTri T) : Prop := ∀ c d, S.saddleEq c d = true → S.saddleHash c = S.saddleHash d

/-- A path is simple if no two of its segments are equal. -/
def SimpleCorrect (S : FlatTri T) : Prop :=
  ∀ p, S.pathSimple p = true ↔ p.Pairwise fun c d => S.saddleEq c d = false

/-- The diagonal of the torus as the sum of two sides of the square. -/
def diagonal : Saddle := ⟨4, 5, Chain.bump (Chain.bump (fun _ => 0) 0) 2⟩

/-- The diagonal of the torus has different hashes when its chain is given by the half edge and when it is given by the
other two sides of a face. -/
theorem not_hashCorrect : ¬ HashCorrect flatTorus := by
  intro h
  have h1 : flatTorus.saddleEq (.ofHalfEdge 4) diagonal = true := by decide
  have h2 : flatTorus.saddleHash (.ofHalfEdge 4) ≠ flatTorus.saddleHash diagonal := by decide +kernel
  exact h2 (h _ _ h1)

/-- The constructor accepts both. -/
theorem diagonal_valid : Saddle.make true flatTorus.tri.size 4 5 (Saddle.ofHalfEdge 4).chain = .ok (.ofHalfEdge 4) ∧
    Saddle.make true flatTorus.tri.size 4 5 diagonal.chain = .ok diagonal := ⟨rfl, rfl⟩

/-- A path which repeats a segment but is considered to be simple. -/
theorem not_simpleCorrect : ¬ SimpleCorrect flatTorus := by
  intro h
  have h1 : flatTorus.pathSimple [.ofHalfEdge 4, diagonal] = true := by decide +kernel
  have h2 := (h _).1 h1
  rw [List.pairwise_pair] at h2
  exact absurd h2 (by decide)

/-- If saddle connections are equal and their chains are equal and they have the same target, then the hash is the same. -/
theorem hash_partial (S : FlatTri T) {c d : Saddle} (h : S.saddleEq c d = true) (ht : c.target = d.target)
    (hc : ∀ i < S.tri.size / 2, c.chain i = d.chain i) (h0 : 0 < S.tri.size / 2) : S.saddleHash c = S.saddleHash d := by
  unfold saddleEq at h
  rw [Bool.and_eq_true, decide_eq_true_iff, decide_eq_true_iff] at h
  unfold saddleHash chainHash
  rw [h.2, ht, hc 0 h0]
  refine congrArg (hashCombine _) (List.foldl_ext _ _ _ fun r i hi => ?_)
  rw [hc (i + 1) (by rw [List.mem_range] at hi; omega)]

theorem hashSet_length {S : FlatTri T} {p : List Saddle}
    (hp : ∀ c ∈ p, ∀ d ∈ p, S.saddleEq c d = true → S.saddleHash c = S.saddleHash d) :
    (S.hashSet p).length = p.length ↔ p.Pairwise fun c d => S.saddleEq c d = false := by
  have heq : ∀ c d, S.saddleEq c d = S.saddleEq d c := by
    intro c d
    unfold saddleEq
    simp only [eq_comm]
  unfold hashSet
  generalize hstep : (fun (set : List Saddle) c =>
    if set.any (fun d => decide (S.saddleHash c = S.saddleHash d) && S.saddleEq c d) then set else c :: set) = step
  have hle : ∀ (q s : List Saddle), (q.foldl step s).length ≤ s.length + q.length := by
    intro q
    induction q with
    | nil => simp
    | cons c q ih =>
      intro s
      rw [List.foldl_cons]
      refine (ih _).trans ?_
      rw [← hstep]
      simp only
      split_ifs <;> simp <;> omega
  have key : ∀ (q s : List Saddle), (∀ c ∈ q ++ s, ∀ d ∈ q ++ s, S.saddleEq c d = true → S.saddleHash c = S.saddleHash d) →
      ((q.foldl step s).length = s.length + q.length ↔
        q.Pairwise (fun c d => S.saddleEq c d = false) ∧ ∀ c ∈ q, ∀ d ∈ s, S.saddleEq c d = false) := by
    intro q
    induction q with
    | nil => simp
    | cons c q ih =>
      intro s hqs
      rw [List.foldl_cons, List.pairwise_cons]
      have hstep' : step s c = if s.any (fun d => decide (S.saddleHash c = S.saddleHash d) && S.saddleEq c d) then s else c :: s := by
        rw [← hstep]
      by_cases hany : s.any (fun d => decide (S.saddleHash c = S.saddleHash d) && S.saddleEq c d) = true
      · rw [hstep', if_pos hany]
        constructor
        · intro hl
          have := hle q s
          rw [List.length_cons] at hl
          omega
        · rintro ⟨-, h2⟩
          rw [List.any_eq_true] at hany
          obtain ⟨d, hd, hcd⟩ := hany
          rw [Bool.and_eq_true] at hcd
          rw [h2 c List.mem_cons_self d hd] at hcd
          exact absurd hcd.2 (by simp)
      · rw [hstep', if_neg hany]
        have h1 : ∀ d ∈ s, S.saddleEq c d = false := by
          intro d hd
          by_contra hcd
          rw [Bool.not_eq_false] at hcd
          apply hany
          rw [List.any_eq_true]
          refine ⟨d, hd, ?_⟩
          rw [Bool.and_eq_true, decide_eq_true_iff]
          exact ⟨hqs c (by simp) d (by simp [hd]) hcd, hcd⟩
        have := ih (c :: s) (fun a ha b hb => hqs a (by
          simp only [List.mem_append, List.mem_cons] at ha ⊢; tauto) b (by
          simp only [List.mem_append, List.mem_cons] at hb ⊢; tauto))
        rw [List.length_cons] at this ⊢
        rw [show s.length + (q.length + 1) = s.length + 1 + q.length by omega, this]
        constructor
        · rintro ⟨h2, h3⟩
          refine ⟨⟨fun d hd => ?_, h2⟩, fun a ha d hd => ?_⟩
          · rw [heq]; exact h3 d hd c List.mem_cons_self
          · rcases List.mem_cons.1 ha with rfl | ha
            · exact h1 d hd
            · exact h3 a ha d (List.mem_cons_of_mem _ hd)
        · rintro ⟨⟨h2, h3⟩, h4⟩
          refine ⟨h3, fun a ha d hd => ?_⟩
          rcases List.mem_cons.1 hd with rfl | hd
          · rw [heq]; exact h2 a ha
          · exact h4 a (List.mem_cons_of_mem _ ha) d hd
  have := key p [] (by simpa using hp)
  simpa using this

/-- `simple()` is correct for paths whose equal segments have equal hashes. -/
theorem simple_partial (S : FlatTri T) {p : List Saddle}
    (hp : ∀ c ∈ p, ∀ d ∈ p, S.saddleEq c d = true → S.saddleHash c = S.saddleHash d) :
    S.pathSimple p = true ↔ p.Pairwise fun c d => S.saddleEq c d = false := by
  unfold pathSimple
  rw [decide_eq_true_iff, hashSet_length hp]

/-- The hypotheses are met by the boundary of a face, visited twice. -/
example : ∀ c ∈ [Saddle.ofHalfEdge 0, .ofHalfEdge 2, .ofHalfEdge 5, .ofHalfEdge 0],
    ∀ d ∈ [Saddle.ofHalfEdge 0, .ofHalfEdge 2, .ofHalfEdge 5, .ofHalfEdge 0],
      flatTorus.saddleEq c d = true → flatTorus.saddleHash c = flatTorus.saddleHash d := by
  decide +kernel

end Verif.C71
