import Verif.Model.Serialization
import Verif.Lemmas.TriOps
import Verif.Props.C01
import Verif.Lemmas.TriSlit
import Verif.Lemmas.Flat
import Verif.Model.Chain
import Verif.Lemmas.PermReachable

/-!
# Serialization
-/

namespace Verif.Cereal

open Spec Tri

theorem loadHalfEdge_save {e : HE} (h : e < 2 ^ 31) : loadHalfEdge (saveHalfEdge e) = .ok e := C01.ofId_id h

theorem mapM_ok {α β : Type} {f : α → Except Err β} {g : β → α} {l : List β} (h : ∀ x ∈ l, f (g x) = .ok x) :
    (l.map g).mapM f = .ok l := by
  induction l with
  | nil => rfl
  | cons x l ih =>
    rw [List.map_cons, List.mapM_cons, h x (by simp), ih fun y hy => h y (by simp [hy])]
    rfl

theorem perm_roundtrip {p : Perm} (hp : p.WF) (hs : p.size ≤ 2 ^ 31) :
    ∃ a, savePerm p = .ok a ∧ loadPerm a = .ok p := by
  obtain ⟨cs, h1, h2, h3⟩ := Perm.cycles_spec hp
  refine ⟨cs.map (List.map saveHalfEdge), by unfold savePerm; rw [h1], ?_⟩
  unfold loadPerm
  rw [mapM_ok (g := List.map saveHalfEdge)]
  · exact Perm.ofCycles_cycles hp h2 h3
  · intro c hc
    refine mapM_ok fun x hx => loadHalfEdge_save ?_
    have : x ∈ List.range p.size := h3.mem_iff.1 (List.mem_flatten.2 ⟨c, hc, hx⟩)
    rw [List.mem_range] at this
    omega

theorem ofPairs_graph {p : Perm} (hp : p.WF) : Perm.ofPairs ((List.range p.size).map fun e => (e, p.fwd e)) = .ok p := by
  obtain ⟨q, h1, h2, h3, h4⟩ := Tri.ofPairs_range (n := p.size) (fun _ _ h => hp.inj h) (fun k hk => hp.fwd_lt.2 hk) fun k hk => hp.out k hk
  rw [h1]
  congr 1
  exact h2.ext hp h3 fun k _ => h4 k

theorem boundaries_nil {T : Tri} (h : T.Coherent) (hb : T.hasBoundary = false) : T.boundaries = [] := by
  rw [hasBoundary_false] at hb
  rw [List.eq_nil_iff_forall_not_mem]
  intro x hx
  rw [h.mem_boundaries] at hx
  exact hb x hx.1 hx.2

theorem tri_roundtrip {dbg : Bool} {T : Tri} (h : T.Reachable dbg) (hb : T.hasBoundary = false) (hs : T.size ≤ 2 ^ 31)
    (dbg' : Bool) :
    ∃ a T', saveTri dbg' T = .ok a ∧ loadTri dbg' a = .ok T' ∧ T'.vertices = T.vertices ∧ T'.faces = T.faces ∧
      T'.Reachable dbg' := by
  have hc := h.inv.1
  obtain ⟨a, h1, h2⟩ := perm_roundtrip hc.hv hs
  obtain ⟨T', h3, h4, h5⟩ := hc.clone dbg'
  refine ⟨⟨a, a⟩, T', ?_, ?_, h4, h5, ?_⟩
  · unfold saveTri
    have hn : ¬ (dbg' = true ∧ ∃ e ∈ T.halfEdges, T.boundary e = true) := by
      rintro ⟨-, e, he, h⟩
      rw [hasBoundary_false] at hb
      exact hb e (mem_halfEdges.1 he) (boundary_true.1 h)
    rw [if_neg hn]
    have : Perm.ofPairs (T.halfEdges.map fun e => (e, T.nextAtVertex e)) = .ok T.vertices := ofPairs_graph hc.hv
    simp only [bind, Except.bind, pure, Except.pure, this, h1]
  · unfold loadTri
    rw [h2]
    unfold Tri.clone at h3
    rw [boundaries_nil hc hb] at h3
    exact h3
  · unfold Tri.clone at h3
    exact ofMake hc.hv h3

section

variable {T : Type} [CommRing T] [LinearOrder T]
variable {K : Type*} [Field K] [LinearOrder K] [IsStrictOrderedRing K]

theorem isFlat_congr {S : FlatTri T} (h : IsFlat S) {dbg : Bool} {C : Tri} (hC : C.Reachable dbg) (hs : Same S.tri C)
    {f : HE → Vec T} (hf : ∀ e ∈ S.tri.halfEdges, f e = S.vec e) : IsFlat ⟨C, f⟩ := by
  have t := h.triangulation
  refine ⟨hC.inv.1.isTriangulation, fun e he => ?_, fun e he hb => ?_, fun e he hb => ?_⟩
  · simp only [hs.halfEdges] at he
    show f (neg e) = -f e
    rw [hf e he, hf _ (t.paired e he), h.odd e he]
  · simp only [hs.halfEdges, hs.boundary] at he hb
    simp only [hs.nextInFace]
    have h1 := (t.closed e he).1
    have h2 := (t.closed _ h1).1
    rw [hf e he, hf _ h1, hf _ h2, h.closed e he hb]
  · simp only [hs.halfEdges, hs.boundary] at he hb
    simp only [hs.nextInFace]
    rw [hf e he, hf _ (t.closed e he).1]
    exact h.oriented e he hb

theorem lookup_graph {α : Type} (f : HE → α) {l : List HE} {e : HE} (he : e ∈ l) :
    (l.map fun e => (e, f e)).lookup e = some (f e) := by
  induction l with
  | nil => simp at he
  | cons x l ih =>
    rw [List.map_cons, List.lookup_cons]
    by_cases hx : e = x
    · subst hx
      simp
    · have : (e == x) = false := by simpa using hx
      rw [this]
      exact ih (by simpa [hx] using he)

/-! ### Chains -/

open Chain

/-- Nothing is cached. -/
def Uncached (c : ChainObj T K) : Prop := c.vector = .empty ∧ c.approximateVector = .empty

theorem loadOps_run (κ : Cost) (S : ChainSurface T K) (k : ℕ) (a : List ℤ) (i : ℕ) (h : Heap T K) (hn : h.n = k + 1 + i)
    (hu : Uncached (h.get k)) (hi : i + a.length ≤ S.size) :
    ∃ h', Chain.run κ S (loadChainOps k i a) h = .ok h' ∧ k < h'.n ∧ Uncached (h'.get k) ∧
      (∀ j, (h'.get k).coefficients j = (h.get k).coefficients j + if i ≤ j then a.getD (j - i) 0 else 0) ∧
      ∀ j < k, h'.get j = h.get j := by
  induction a generalizing i h with
  | nil =>
    refine ⟨h, rfl, by omega, hu, fun j => by simp, fun _ _ => rfl⟩
  | cons c a ih =>
    simp only [List.length_cons] at hi
    set h1 : Heap T K := h.push ⟨fun _ => 0, .empty, .empty⟩ with e1
    have g1 : h1.get (k + 1 + i) = ⟨fun _ => 0, .empty, .empty⟩ := by simp [e1, Heap.push, hn]
    have n1 : h1.n = k + 1 + i + 1 := by simp [e1, Heap.push, hn]
    set h2 : Heap T K := h1.set (k + 1 + i) ⟨bump (fun _ => 0) (2 * i), .empty, .empty⟩ with e2
    have g2 : h2.get (k + 1 + i) = ⟨bump (fun _ => 0) (2 * i), .empty, .empty⟩ := by simp [e2, Heap.set]
    have n2 : h2.n = k + 1 + i + 1 := n1
    set h3 : Heap T K := h2.set (k + 1 + i) ⟨fun j => bump (fun _ => 0) (2 * i) j * c, .empty, .empty⟩ with e3
    have g3 : h3.get (k + 1 + i) = ⟨fun j => bump (fun _ => 0) (2 * i) j * c, .empty, .empty⟩ := by simp [e3, Heap.set]
    have n3 : h3.n = k + 1 + i + 1 := n2
    have o3 : ∀ j < k + 1, h3.get j = h.get j := by
      intro j hj
      have hne : j ≠ k + 1 + i := by omega
      simp [e3, e2, e1, Heap.set, Heap.push, hn, hne]
    set h4 : Heap T K := h3.set k ⟨fun j => (h.get k).coefficients j + bump (fun _ => 0) (2 * i) j * c, .empty, .empty⟩ with e4
    have n4 : h4.n = k + 1 + (i + 1) := n3
    have g4 : h4.get k = ⟨fun j => (h.get k).coefficients j + bump (fun _ => 0) (2 * i) j * c, .empty, .empty⟩ := by
      simp [e4, Heap.set]
    have o4 : ∀ j < k, h4.get j = h.get j := by
      intro j hj
      have hne : j ≠ k := by omega
      rw [← o3 j (by omega)]
      simp [e4, Heap.set, hne]
    have s1 : Chain.step κ S h .zero = .ok h1 := rfl
    have s2 : Chain.step κ S h1 (.addHalfEdge (k + 1 + i) (2 * i)) = .ok h2 := by
      simp only [Chain.step]
      rw [if_pos ⟨by omega, by omega⟩, g1]
      rfl
    have s3 : Chain.step κ S h2 (.mul (k + 1 + i) c) = .ok h3 := by
      simp only [Chain.step]
      rw [if_pos (by omega), g2]
    have s4 : Chain.step κ S h3 (.add k (k + 1 + i)) = .ok h4 := by
      simp only [Chain.step]
      rw [if_pos ⟨by omega, by omega⟩, g3, o3 k (by omega)]
      obtain ⟨u1, u2⟩ := hu
      have : h3.set k { h.get k with coefficients := fun j => (h.get k).coefficients j + bump (fun _ => 0) (2 * i) j * c } = h4 := by
        rw [e4]
        congr 1
        rcases hk : h.get k with ⟨x, y, z⟩
        rw [hk] at u1 u2
        simp only at u1 u2
        rw [u1, u2]
      simp only [this]
      have v1 : vectorRecord κ S .add k (k + 1 + i) h4 = h4 := by
        unfold vectorRecord
        rw [g4]
        rfl
      rw [v1]
      unfold approximateRecord
      rw [g4]
      rfl
    obtain ⟨h', r1, r2, r3, r4, r5⟩ := ih (i + 1) h4 n4 (by rw [g4]; exact ⟨rfl, rfl⟩) (by omega)
    refine ⟨h', ?_, r2, r3, ?_, fun j hj => by rw [r5 j hj, o4 j hj]⟩
    · unfold loadChainOps
      simp only [List.cons_append, List.nil_append, Chain.run, s1, s2, s3, s4, Except.bind]
      exact r1
    · intro j
      rw [r4, g4]
      simp only
      have hb : bump (fun _ => 0) (2 * i) j = if j = i then 1 else 0 := by
        unfold bump
        have : 2 * i / 2 = i := by omega
        simp [Function.update_apply, this]
      rw [hb]
      rcases lt_trichotomy j i with hj | hj | hj
      · rw [if_neg (by omega), if_neg (by omega), if_neg (by omega)]; ring
      · subst hj
        rw [if_pos rfl, if_neg (by omega), if_pos le_rfl]
        simp
      · obtain ⟨m, rfl⟩ : ∃ m, j = i + 1 + m := ⟨j - i - 1, by omega⟩
        rw [if_neg (by omega), if_pos (by omega), if_pos (by omega)]
        have x1 : i + 1 + m - (i + 1) = m := by omega
        have x2 : i + 1 + m - i = m + 1 := by omega
        rw [x1, x2]
        simp

end

end Verif.Cereal
