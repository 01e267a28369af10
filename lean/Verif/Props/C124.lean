import Verif.Lemmas.ShiftPath
import Verif.Props.C123

/-!
# C124: mapping paths through a shift
-/

namespace Verif.C124

open Verif Spec Tri FlatTri Examples Vec ShiftRelation

set_option linter.unusedSectionVars false

variable {T : Type} [CommRing T] [LinearOrder T] [IsStrictOrderedRing T]
variable {K : Type} [Field K] [LinearOrder K] [IsStrictOrderedRing K]
variable {dbg : Bool} {S S' : FlatTri T}

/-- A saddle connection is mapped to the half edges of a path that is homotopic to it. -/
theorem segment_correct {f : T →+* ℝ} (hf : StrictMono f) (A : Option (Approx T K)) (h : Closed dbg S) {c : Saddle}
    (he : c.source < S.tri.size) (hc : IsSaddleConnection S c.source (S.saddleVector c) c.target) :
    ∃ l N, Homotopic S c l ∧ l ≠ [] ∧ (∀ h ∈ l, h ∈ S.tri.halfEdges) ∧ ∀ fuel ≥ N, ∀ image,
      segment A dbg (ofShift S S') fuel c image = some (push dbg S' image (l.map Saddle.ofHalfEdge)) := by
  obtain ⟨i, N, h1, h2, -⟩ := C93.path_exact hf A h dbg he hc
  obtain ⟨l, g1, g2, g3, g4⟩ := walk_crossings (dbg := dbg) (S' := S') h.shut he hc h2
  refine ⟨l, N, g1, g2, fun x hx => mem_halfEdges.2 (g3 x hx), fun fuel hfuel image => ?_⟩
  have h3 := h1 fuel hfuel
  unfold segment
  rw [show (ofShift S S').domain = S from rfl, h3, Option.map_some]
  congr 1
  have := g4 image
  rw [List.map_map] at this
  exact this

/-- The image of a path consists of the half edges of paths that are homotopic to its saddle connections. It is connected, and it starts
and ends at the vertices at which the path starts and ends. -/
theorem path_correct {f : T →+* ℝ} (hf : StrictMono f) (A : Option (Approx T K)) (h : Closed dbg S) (h' : Closed dbg S')
    (hs : Same S.tri S'.tri) {p : List Saddle}
    (hp : ∀ c ∈ p, c.source ∈ S.tri.halfEdges ∧ c.target ∈ S.tri.halfEdges ∧ IsSaddleConnection S c.source (S.saddleVector c) c.target)
    (hconn : Spec.Connected S p) :
    ∃ ls N, List.Forall₂ (Homotopic S) p ls ∧ (∀ l ∈ ls, ∀ h ∈ l, h ∈ S.tri.halfEdges) ∧
      (∀ c ∈ p.head?, ∀ d ∈ p.getLast?, Leads S c.source ls.flatten d.target) ∧
      Spec.Connected S' (ls.flatten.map Saddle.ofHalfEdge) ∧
      ∀ fuel ≥ N, path A dbg (ofShift S S') fuel p [] = some (.ok (ls.flatten.map Saddle.ofHalfEdge)) := by
  have hS := h.shut
  have key : ∀ p : List Saddle, (∀ c ∈ p, c.source ∈ S.tri.halfEdges ∧ c.target ∈ S.tri.halfEdges ∧
      IsSaddleConnection S c.source (S.saddleVector c) c.target) → Spec.Connected S p →
      ∃ ls N, List.Forall₂ (Homotopic S) p ls ∧ (∀ l ∈ ls, ∀ h ∈ l, h ∈ S.tri.halfEdges) ∧
      (∀ c ∈ p.head?, ∀ d ∈ p.getLast?, Leads S c.source ls.flatten d.target) ∧
      ∀ fuel ≥ N, ∀ image, path A dbg (ofShift S S') fuel p image = some (push dbg S' image (ls.flatten.map Saddle.ofHalfEdge)) := by
    intro p
    induction p with
    | nil => exact fun _ _ => ⟨[], 0, .nil, by simp, by simp, fun _ _ image => by simp [path, push]⟩
    | cons c p ih =>
      intro hp hconn
      obtain ⟨l, N, g1, g2, g3, g4⟩ := segment_correct (S' := S') hf A h (mem_halfEdges.1 (hp c (by simp)).1) (hp c (by simp)).2.2
      obtain ⟨ls, M, k1, k2, k3, k4⟩ := ih (fun d hd => hp d (by simp [hd])) (List.IsChain.tail hconn)
      refine ⟨l :: ls, max N M, .cons g1 k1, ?_, ?_, fun fuel hfuel image => ?_⟩
      · intro m hm
        rcases List.mem_cons.1 hm with rfl | hm
        · exact g3
        · exact k2 m hm
      · intro c' hc' d hd
        rw [List.head?_cons, Option.mem_some_iff] at hc'
        subst hc'
        rw [List.flatten_cons]
        cases p with
        | nil =>
          cases k1
          rw [List.getLast?_singleton, Option.mem_some_iff] at hd
          subst hd
          rw [List.flatten_nil, List.append_nil]
          exact g1.1
        | cons c' p =>
          rw [List.getLast?_cons_cons] at hd
          refine Leads.append g1.1 (Leads.of_same ?_ (k3 c' rfl d hd))
          have hcc := (connected_chain.1 hconn)
          rw [List.isChain_cons_cons, hS.connected_iff (mem_halfEdges.1 (hp c (by simp)).2.1) (mem_halfEdges.1 (hp c' (by simp)).1)] at hcc
          exact hcc.1
      · rw [path, g4 fuel (le_of_max_le_left hfuel), Option.bind_some, List.flatten_cons, List.map_append, push_append]
        cases push dbg S' image (l.map Saddle.ofHalfEdge) with
        | error err => rfl
        | ok image => exact k4 fuel (le_of_max_le_right hfuel) image
  obtain ⟨ls, N, k1, k2, k3, k4⟩ := key p hp hconn
  have hsize : ∀ x ∈ ls.flatten, x < S'.tri.size := by
    intro x hx
    obtain ⟨l, hl, hx⟩ := List.mem_flatten.1 hx
    rw [← mem_halfEdges, hs.halfEdges]
    exact k2 l hl x hx
  have hchain : (ls.flatten.map Saddle.ofHalfEdge).IsChain fun c d => S'.connected c d = true := by
    cases p with
    | nil => cases k1; simp
    | cons c p =>
      obtain ⟨d, hd⟩ : ∃ d, d ∈ (c :: p).getLast? := ⟨(c :: p).getLast (by simp), List.getLast?_eq_some_getLast (by simp)⟩
      exact Leads.chain h'.shut hs (k3 c rfl d hd) hsize
  refine ⟨ls, N, k1, k2, k3, connected_chain.2 hchain, fun fuel hfuel => ?_⟩
  rw [k4 fuel hfuel, push_ok]
  · rfl
  · exact hchain

/-- The vector of the image of a saddle connection: the vector of the saddle connection and the shifts of the half edges that are used to
get from one end of it to the other. -/
theorem vector_correct {shift : HE → Vec T} (hv : ∀ e, S'.vec e = S.vec e + shift e) (h' : Closed dbg S') (hs : Same S.tri S'.tri) {c : Saddle}
    {l : List HE} (hl : Homotopic S c l) (hlt : ∀ h ∈ l, h ∈ S.tri.halfEdges) :
    ((l.map Saddle.ofHalfEdge).map S'.saddleVector).sum = S.saddleVector c + (l.map shift).sum := by
  have key : ∀ {e k} {p q : Vec T} {l : List HE}, FollowsEdge S e k p l q → p + (l.map S.vec).sum = q := by
    intro e k p q l h
    induction h with
    | done => simp
    | step _ _ ih => rw [List.map_cons, List.sum_cons, ← add_assoc, ih]
  obtain ⟨-, k, -, hr⟩ := hl
  have h1 := key hr
  rw [zero_add] at h1
  rw [← h1]
  clear h1 hr
  induction l with
  | nil => simp
  | cons x l ih =>
    rw [List.map_cons, List.map_cons, List.sum_cons, ih fun y hy => hlt y (by simp [hy]), List.map_cons, List.sum_cons, List.map_cons,
      List.sum_cons, SaddleSearch.saddleVector_ofHalfEdge h'.shut (by rw [← mem_halfEdges, hs.halfEdges]; exact hlt x (by simp)), hv]
    abel

/-- Points cannot be mapped and the deformation has no section. -/
theorem refuses (R : ShiftRelation T) : (∀ p, R.point p = .error .logicError) ∧ R.inverse = .error .logicError := ⟨fun _ => rfl, rfl⟩

/-- A saddle connection that crosses three half edges. -/
theorem slope_connection : IsSaddleConnection flatTorus C93.slope.source (flatTorus.saddleVector C93.slope) C93.slope.target := by
  have key : ∀ {v : Vec ℤ} {x t : HE} {q : Vec ℤ}, v = apex flatTorus x q →
      t = flatTorus.tri.nextInFace (flatTorus.tri.nextInFace (neg x)) → Hits flatTorus v x q t := by
    rintro v x t q h rfl
    exact .here h
  have hv : flatTorus.saddleVector C93.slope = ⟨3, 2⟩ := by decide +kernel
  rw [hv]
  exact .crossing (by decide) (by decide) (.left (by decide) (.right (by decide) (key (by decide) (by decide))))

/-- The hypotheses of `path_correct` are met by a sheared torus and a path of two saddle connections. -/
example : ∃ S' : FlatTri ℤ, Closed true flatTorus ∧ Closed true S' ∧ Same flatTorus.tri S'.tri ∧ (∀ e, S'.vec e = flatTorus.vec e + C123.shear e) ∧
    (∀ c ∈ [C93.slope, Saddle.ofHalfEdge 2], c.source ∈ flatTorus.tri.halfEdges ∧ c.target ∈ flatTorus.tri.halfEdges ∧
      IsSaddleConnection flatTorus c.source (flatTorus.saddleVector c) c.target) ∧
    Spec.Connected flatTorus [C93.slope, Saddle.ofHalfEdge 2] := by
  obtain ⟨S', -, h1, h2, h3⟩ := C123.shifts C123.torus_closed C123.shear_isShift Int.cast_strictMono C123.shear_positive C123.zero_exact
    C123.exactReal (fun _ => C123.exactReal) C123.exactRoot 0
  refine ⟨S', C123.torus_closed, h1, h2, h3, ?_, ?_⟩
  · intro c hc
    simp only [List.mem_cons, List.not_mem_nil, or_false] at hc
    rcases hc with rfl | rfl
    · exact ⟨by decide +kernel, by decide +kernel, slope_connection⟩
    · exact ⟨by decide +kernel, by decide +kernel, .halfEdge (by decide +kernel) rfl⟩
  · rw [connected_chain]
    decide +kernel

/-- The image of that path. -/
example : (path (none : Option (Approx ℤ ℚ)) true (ofShift flatTorus flatTorus) 30 [C93.slope, Saddle.ofHalfEdge 2] []).map
    (fun r => r.toOption.map fun p => p.map fun c => c.source) = some (some [0, 2, 0, 2, 0, 2]) := by
  decide +kernel

end Verif.C124
