import Verif.Spec.CombinatorialDeformation
import Verif.Lemmas.LinearPath
import Verif.Props.C22

/-!
# Lemmas about deformations that rename half edges
-/

namespace Verif

open Spec Tri FlatTri Vec

set_option linter.unusedSectionVars false

variable {T : Type} [CommRing T] [LinearOrder T] [IsStrictOrderedRing T]
variable {K : Type*} [Field K] [LinearOrder K] [IsStrictOrderedRing K]

namespace HalfEdgeTable

theorem insert_fresh {m : HalfEdgeTable} {e x : HE} (h : ∀ p ∈ m, p.1 ≠ e) : insert m e x = (e, x) :: m := by
  unfold insert
  rw [List.filter_eq_self.2 fun p hp => decide_eq_true (h p hp)]

theorem foldl_insert (f : α → HE × HE) : ∀ (l : List α) (m : HalfEdgeTable), (l.map fun a => (f a).1).Nodup →
    (∀ a ∈ l, ∀ p ∈ m, p.1 ≠ (f a).1) → l.foldl (fun m a => insert m (f a).1 (f a).2) m = (l.map f).reverse ++ m
  | [], m, _, _ => rfl
  | a :: l, m, hn, hm => by
    rw [List.map_cons, List.nodup_cons] at hn
    rw [List.foldl_cons, insert_fresh (hm a (by simp)), foldl_insert f l _ hn.2]
    · simp
    · intro b hb p hp
      rcases List.mem_cons.1 hp with rfl | hp
      · intro hx
        exact hn.1 (hx ▸ List.mem_map_of_mem hb)
      · exact hm b (by simp [hb]) p hp

theorem find_of_mem {m : HalfEdgeTable} (hn : (m.map Prod.fst).Nodup) {e x : HE} (h : (e, x) ∈ m) : m.find e = some x := by
  unfold find
  induction m with
  | nil => cases h
  | cons p m ih =>
    rw [List.map_cons, List.nodup_cons] at hn
    rcases List.mem_cons.1 h with rfl | h
    · simp
    · have : p.1 ≠ e := by
        intro hx
        exact hn.1 (hx ▸ List.mem_map_of_mem (f := Prod.fst) h)
      rw [List.find?_cons_of_neg (by simpa using this)]
      exact ih hn.2 h

theorem find_none {m : HalfEdgeTable} {e : HE} (h : ∀ p ∈ m, p.1 ≠ e) : m.find e = none := by
  unfold find
  rw [List.find?_eq_none.2 fun p hp => by simpa using h p hp]
  rfl

end HalfEdgeTable

open HalfEdgeTable

section Table

variable {S S' : FlatTri T} {σ : HE → HE} {m : HalfEdgeTable}

theorem Spec.TableOf.keys (h : TableOf S σ m) : (List.map Prod.fst m).Nodup := by
  have := h.map Prod.fst
  rw [List.map_map] at this
  rw [this.nodup_iff]
  rw [show (Prod.fst ∘ fun e : HE => (e, σ e)) = id from rfl, List.map_id]
  exact List.nodup_range

theorem Spec.TableOf.find (h : TableOf S σ m) {e : HE} (he : e < S.tri.size) : m.find e = some (σ e) :=
  find_of_mem (Spec.TableOf.keys h) (h.mem_iff.2 (List.mem_map_of_mem (mem_halfEdges.2 he)))

theorem Spec.TableOf.get (h : TableOf S σ m) {e : HE} (he : e < S.tri.size) : m.get e = .ok (σ e) := by
  unfold HalfEdgeTable.get
  rw [Spec.TableOf.find h he]

theorem Spec.TableOf.length (h : TableOf S σ m) : List.length m = S.tri.size := by
  rw [List.Perm.length_eq h]
  simp [Tri.halfEdges]

/-- A permutation of the half edges is turned into a table. -/
theorem ofPerm_table {r : Perm} (hs : r.size = S.tri.size) : TableOf S r.fwd (.ofPerm r) := by
  unfold TableOf HalfEdgeTable.ofPerm
  rw [foldl_insert (fun e => (e, r.fwd e)) _ [] (by simpa using List.nodup_range) (by simp), List.append_nil, hs]
  exact List.reverse_perm _

/-- The inverse of a table. -/
theorem inverse_table (hb : (S.tri.halfEdges.map σ).Perm S'.tri.halfEdges) {τ : HE → HE} (hτ : ∀ e < S.tri.size, τ (σ e) = e)
    (h : TableOf S σ m) : TableOf S' τ m.inverse := by
  have hp : (List.map (fun p : HE × HE => (p.2, p.1)) m).Perm (S.tri.halfEdges.map fun e => (σ e, e)) := by
    have := h.map fun p : HE × HE => (p.2, p.1)
    rwa [List.map_map] at this
  unfold TableOf HalfEdgeTable.inverse
  rw [foldl_insert (fun p : HE × HE => (p.2, p.1)) _ [] ?_ (by simp), List.append_nil]
  · refine (List.reverse_perm _).trans (hp.trans ?_)
    have := hb.map fun e => (e, τ e)
    rw [List.map_map] at this
    refine (List.Perm.of_eq (List.map_congr_left fun e he => ?_)).trans this
    simp [hτ e (mem_halfEdges.1 he)]
  · have := hp.map Prod.fst
    rw [List.map_map, List.map_map] at this
    exact this.nodup_iff.2 (hb.nodup_iff.2 List.nodup_range)

end Table

namespace Spec.Renaming

variable {S S' : FlatTri T} {σ : HE → HE}

theorem size (h : Renaming S S' σ) : S'.tri.size = S.tri.size := by
  have := h.bijective.length_eq
  simpa [Tri.halfEdges] using this.symm

theorem lt (h : Renaming S S' σ) {e : HE} (he : e < S.tri.size) : σ e < S'.tri.size :=
  mem_halfEdges.1 (h.bijective.mem_iff.1 (List.mem_map_of_mem (mem_halfEdges.2 he)))

theorem inj (h : Renaming S S' σ) {e f : HE} (he : e < S.tri.size) (hf : f < S.tri.size) (hx : σ e = σ f) : e = f :=
  List.inj_on_of_nodup_map (h.bijective.nodup_iff.2 List.nodup_range) (mem_halfEdges.2 he) (mem_halfEdges.2 hf) hx

/-- There is an inverse. -/
theorem exists_inverse (h : Renaming S S' σ) : ∃ τ : HE → HE, ∀ e < S.tri.size, τ (σ e) = e := by
  classical
  refine ⟨fun x => if hx : ∃ e < S.tri.size, σ e = x then hx.choose else x, fun e he => ?_⟩
  have hx : ∃ f < S.tri.size, σ f = σ e := ⟨e, he, rfl⟩
  show (if hx : ∃ f < S.tri.size, σ f = σ e then hx.choose else σ e) = e
  rw [dif_pos hx]
  exact h.inj hx.choose_spec.1 he hx.choose_spec.2

theorem surj (h : Renaming S S' σ) {x : HE} (hx : x < S'.tri.size) : ∃ e < S.tri.size, σ e = x := by
  obtain ⟨e, he, hx⟩ := List.mem_map.1 (h.bijective.mem_iff.2 (mem_halfEdges.2 hx))
  exact ⟨e, mem_halfEdges.1 he, hx⟩

/-- The inverse renames half edges back. -/
theorem back (h : Renaming S S' σ) (hS : S.Shut) {τ : HE → HE} (hτ : ∀ e < S.tri.size, τ (σ e) = e) : Renaming S' S τ := by
  refine ⟨?_, ?_, ?_, ?_⟩
  · have := h.bijective.symm.map τ
    rw [List.map_map] at this
    refine this.trans (List.Perm.of_eq ?_)
    conv_rhs => rw [← List.map_id S.tri.halfEdges]
    exact List.map_congr_left fun e he => hτ e (mem_halfEdges.1 he)
  · intro x hx
    obtain ⟨e, he, rfl⟩ := h.surj (mem_halfEdges.1 hx)
    rw [← h.opposite e (mem_halfEdges.2 he), hτ _ (hS.neg_lt he), hτ _ he]
  · intro x hx
    obtain ⟨e, he, rfl⟩ := h.surj (mem_halfEdges.1 hx)
    rw [h.faces e (mem_halfEdges.2 he), show τ (σ (S.tri.nextInFace e)) = S.tri.nextInFace e from hτ _ (hS.next_lt he), hτ _ he]
  · intro x hx
    obtain ⟨e, he, rfl⟩ := h.surj (mem_halfEdges.1 hx)
    rw [h.vectors e (mem_halfEdges.2 he), hτ _ he]

/-- Half edges at a vertex. -/
theorem vertices (h : Renaming S S' σ) (hS : S.Shut) (hS' : S'.Shut) {e : HE} (he : e < S.tri.size) :
    S'.tri.vertices.fwd (σ e) = σ (S.tri.vertices.fwd e) := by
  have h1 := hS.flat.coh.link e (hS.nb e he)
  have h2 := hS'.flat.coh.link (σ e) (hS'.nb _ (h.lt he))
  have hv : S.tri.vertices.fwd e < S.tri.size := hS.flat.coh.hv.fwd_lt.2 he
  have h3 := h.faces _ (mem_halfEdges.2 (hS.neg_lt hv))
  unfold Tri.nextInFace at h3
  rw [h1, h.opposite _ (mem_halfEdges.2 hv)] at h3
  exact neg_inj'.1 (hS'.flat.coh.hf.inj (h2.trans h3.symm))

/-- Half edges start at the same vertex. -/
theorem orb (h : Renaming S S' σ) (hS : S.Shut) (hS' : S'.Shut) {e f : HE} (he : e < S.tri.size) (ho : S.tri.vertices.Orb e f) :
    S'.tri.vertices.Orb (σ e) (σ f) := by
  obtain ⟨n, rfl⟩ := ho
  refine ⟨n, ?_⟩
  induction n generalizing e with
  | zero => rfl
  | succ n ih =>
    rw [Function.iterate_succ_apply, Function.iterate_succ_apply, h.vertices hS hS' he]
    exact ih (hS.flat.coh.hv.fwd_lt.2 he)

/-- Descriptions of the same position. -/
theorem same (h : Renaming S S' σ) (hS : S.Shut) {p q : Point T} (hs : SamePosition S p q) :
    (p.face < S.tri.size ↔ q.face < S.tri.size) ∧
      (p.face < S.tri.size → SamePosition S' (renamedPoint σ p) (renamedPoint σ q)) := by
  induction hs with
  | scale l hl => exact ⟨Iff.rfl, fun _ => .scale l hl⟩
  | @rotate e x y z =>
    have k : S.tri.faces.fwd e < S.tri.faces.size ↔ e < S.tri.faces.size := hS.flat.coh.hf.fwd_lt
    rw [hS.flat.coh.hs] at k
    refine ⟨k.symm, fun he => ?_⟩
    have := SamePosition.rotate (S := S') (e := σ e) (a := x) (b := y) (c := z)
    rw [h.faces e (mem_halfEdges.2 he)] at this
    exact this
  | @glue e x y =>
    refine ⟨(neg_lt' hS.flat.coh.even e).symm, fun he => ?_⟩
    unfold renamedPoint
    dsimp only
    rw [h.opposite e (mem_halfEdges.2 he)]
    exact .glue
  | refl p => exact ⟨Iff.rfl, fun _ => .refl _⟩
  | symm _ ih => exact ⟨ih.1.symm, fun hq => (ih.2 (ih.1.2 hq)).symm⟩
  | trans _ _ ih1 ih2 => exact ⟨ih1.1.trans ih2.1, fun hp => (ih1.2 hp).trans (ih2.2 (ih1.1.1 hp))⟩

end Spec.Renaming

theorem chainVector_add_mul (S : FlatTri T) (c d : ℕ → ℤ) (k : ℤ) :
    S.chainVector (fun j => c j + k * d j) = S.chainVector c + (k : T) • S.chainVector d := by
  rw [chainVector_eq, chainVector_eq, chainVector_eq]
  generalize List.range (S.tri.size / 2) = l
  induction l with
  | nil => simp
  | cons i l ih =>
    rw [List.map_cons, List.sum_cons, ih, List.map_cons, List.sum_cons, List.map_cons, List.sum_cons, Int.cast_add, Int.cast_mul, add_smul,
      mul_smul, smul_add]
    abel

theorem occurrences_bump (r : ℕ → ℤ) (k : ℤ) (x y : HE) :
    occurrences (fun j => r j + k * Chain.bump (fun _ => 0) x j) y =
      occurrences r y + if y = x then k else if y = neg x then -k else 0 := by
  unfold occurrences Chain.bump
  have hn := neg_def x
  by_cases h1 : y / 2 = x / 2
  · simp only [h1, Function.update_self]
    split_ifs at hn ⊢ <;> first | omega | (push_cast; ring)
  · simp only [Function.update_of_ne h1]
    have a1 : y ≠ x := fun hx => h1 (by rw [hx])
    have a2 : y ≠ neg x := by
      intro hx
      apply h1
      rw [hx, hn]
      split_ifs <;> omega
    simp only [a1, a2, if_false]
    split_ifs <;> ring

namespace Combinatorial

variable {S S' : FlatTri T} {σ : HE → HE} {m : HalfEdgeTable}

/-- The image of a chain. -/
theorem chain_spec (hS : S.Shut) (hS' : S'.Shut) (h : Renaming S S' σ) (hm : TableOf S σ m) (c : ℕ → ℤ) :
    ∀ (l : List ℕ) (r : ℕ → ℤ), l.Nodup → (∀ i ∈ l, 2 * i < S.tri.size) →
      ∃ r', chain m c l r = .ok r' ∧
        S'.chainVector r' = S'.chainVector r + (l.map fun i => ((c i : ℤ) : T) • S.vec (2 * i)).sum ∧
        ∀ e < S.tri.size, occurrences r' (σ e) = occurrences r (σ e) + if e / 2 ∈ l then occurrences c e else 0
  | [], r, _, _ => ⟨r, rfl, by simp, by simp⟩
  | i :: l, r, hn, hl => by
    rw [List.nodup_cons] at hn
    have hi := hl i (by simp)
    by_cases h0 : c i = 0
    · obtain ⟨r', h1, h2, h3⟩ := chain_spec hS hS' h hm c l r hn.2 fun j hj => hl j (by simp [hj])
      refine ⟨r', by rw [chain, if_pos h0]; exact h1, by rw [h2]; simp [h0], fun e he => ?_⟩
      rw [h3 e he]
      congr 1
      by_cases hx : e / 2 = i
      · rw [if_neg (hx ▸ hn.1), if_pos (by simp [hx])]
        unfold occurrences
        rw [hx, h0]
        simp
      · simp only [List.mem_cons, hx, false_or]
    · obtain ⟨r', h1, h2, h3⟩ := chain_spec hS hS' h hm c l (fun j => r j + c i * Chain.bump (fun _ => 0) (σ (2 * i)) j) hn.2
        fun j hj => hl j (by simp [hj])
      have hσ := h.lt hi
      refine ⟨r', ?_, ?_, fun e he => ?_⟩
      · rw [chain, if_neg h0, Spec.TableOf.get hm hi]
        exact h1
      · rw [h2, chainVector_add_mul, chainVector_bump hS'.flat.coh.even hS'.flat.odd _ hσ, chainVector_zero, zero_add,
          h.vectors _ (mem_halfEdges.2 hi), List.map_cons, List.sum_cons, add_assoc]
      · rw [h3 e he, occurrences_bump]
        have hi' : neg (2 * i) < S.tri.size := hS.neg_lt hi
        have e1 : σ e = σ (2 * i) ↔ e = 2 * i := ⟨h.inj he hi, fun hx => by rw [hx]⟩
        have e2 : σ e = neg (σ (2 * i)) ↔ e = neg (2 * i) := by
          rw [← h.opposite _ (mem_halfEdges.2 hi)]
          exact ⟨h.inj he hi', fun hx => by rw [hx]⟩
        simp only [e1, e2, List.mem_cons]
        have hd := neg_def (2 * i)
        rw [if_pos (by omega)] at hd
        rw [hd]
        unfold occurrences
        by_cases hx : e / 2 = i
        · have := hn.1
          subst hx
          rw [if_neg this]
          simp only [true_or, if_true]
          split_ifs <;> omega
        · have a1 : e ≠ 2 * i := by omega
          have a2 : e ≠ 2 * i + 1 := by omega
          simp only [hx, a1, a2, false_or, if_false]
          ring

/-- The image of a segment. -/
theorem segment_spec (dbg : Bool) (hS : S.Shut) (hS' : S'.Shut) (h : Renaming S S' σ) (hm : TableOf S σ m) {s : Saddle} (b : Bool)
    (hs : IsSegment S s) :
    ∃ s', segment dbg ⟨S, S', m, b⟩ s = .ok s' ∧ RenamedSegment S S' σ s s' ∧ IsSegment S' s' := by
  have hev : S.tri.size % 2 = 0 := hS.flat.coh.even
  obtain ⟨r, h1, h2, h3⟩ := chain_spec hS hS' h hm s.chain (List.range (S.tri.size / 2)) (fun _ => 0) List.nodup_range
    (fun i hi => by have := List.mem_range.1 hi; omega)
  rw [chainVector_zero, zero_add, ← chainVector_eq] at h2
  have hv : S'.saddleVector ⟨σ s.source, σ s.target, r⟩ = S.saddleVector s := h2
  have hseg : IsSegment S' ⟨σ s.source, σ s.target, r⟩ := by
    have key : ∀ {e : HE} {v : Vec T}, LeavesCorner S e v → LeavesCorner S' (σ e) v := by
      intro e v hl
      refine ⟨h.lt hl.1, by rw [h.vectors _ (mem_halfEdges.2 hl.1)]; exact hl.2.1, ?_⟩
      rw [show S'.tri.nextAtVertex (σ e) = σ (S.tri.nextAtVertex e) from h.vertices hS hS' hl.1,
        h.vectors (S.tri.nextAtVertex e) (mem_halfEdges.2 (hS.flat.coh.hv.fwd_lt.2 hl.1))]
      exact hl.2.2
    unfold IsSegment
    rw [hv]
    exact ⟨key hs.1, key hs.2⟩
  refine ⟨⟨σ s.source, σ s.target, r⟩, ?_, ⟨rfl, rfl, fun e he => ?_, hv⟩, hseg⟩
  · unfold segment
    dsimp only
    rw [h1, Spec.TableOf.get hm hs.1.1, Spec.TableOf.get hm hs.2.1]
    show Saddle.make dbg S'.tri.size (σ s.source) (σ s.target) r = _
    unfold Saddle.make
    rw [if_neg]
    rw [Bool.and_eq_true]
    rintro ⟨-, h0⟩
    have h4 : S'.chainVector r = 0 := by
      rw [chainVector_congr S' (c' := fun _ => 0), chainVector_zero]
      intro i hi
      simpa using List.all_eq_true.1 h0 i (List.mem_range.2 hi)
    have h5 := hseg.1.2.2
    rw [hv, ← show _ = S.saddleVector s from h2, h4, cross_zero_right] at h5
    exact lt_irrefl _ h5
  · have he' := mem_halfEdges.1 he
    rw [h3 e he', if_pos (List.mem_range.2 (by omega))]
    simp [occurrences]

/-- The image of the segments of a path. -/
theorem segments_spec (dbg : Bool) (hS : S.Shut) (hS' : S'.Shut) (h : Renaming S S' σ) (hm : TableOf S σ m) (b : Bool) :
    ∀ (p : List Saddle), (∀ s ∈ p, IsSegment S s) →
      ∃ p', segments dbg ⟨S, S', m, b⟩ p = .ok p' ∧ List.Forall₂ (RenamedSegment S S' σ) p p' ∧ ∀ s ∈ p', IsSegment S' s
  | [], _ => ⟨[], rfl, .nil, by simp⟩
  | s :: p, hp => by
    obtain ⟨s', h1, h2, h3⟩ := segment_spec dbg hS hS' h hm b (hp s (by simp))
    obtain ⟨p', g1, g2, g3⟩ := segments_spec dbg hS hS' h hm b p fun t ht => hp t (by simp [ht])
    refine ⟨s' :: p', ?_, .cons h2 g2, by simpa using ⟨h3, g3⟩⟩
    rw [segments, h1]
    show (do let l ← segments dbg ⟨S, S', m, b⟩ p; return s' :: l) = _
    rw [g1]
    rfl

theorem connected_image (hS : S.Shut) (hS' : S'.Shut) (h : Renaming S S' σ) :
    ∀ {p p' : List Saddle}, List.Forall₂ (RenamedSegment S S' σ) p p' → (∀ s ∈ p, IsSegment S s) →
      p.IsChain (fun s t => S.connected s t = true) → p'.IsChain (fun s t => S'.connected s t = true)
  | _, _, .nil, _, _ => .nil
  | _, _, .cons _ .nil, _, _ => .singleton _
  | s :: t :: p, s' :: t' :: p', .cons h1 (.cons h2 h3), hp, hc => by
    rw [List.isChain_cons_cons] at hc ⊢
    have s1 := (hp s (by simp)).2.1
    have t1 := (hp t (by simp)).1.1
    refine ⟨?_, connected_image hS hS' h (.cons h2 h3) (fun u hu => hp u (by simp at hu ⊢; tauto)) hc.2⟩
    have := hc.1
    rw [hS.connected_iff s1 t1] at this
    rw [hS'.connected_iff (by rw [h1.target]; exact h.lt s1) (by rw [h2.source]; exact h.lt t1), h1.target, h2.source]
    exact h.orb hS hS' s1 this

theorem makePath_ok (dbg : Bool) {S : FlatTri T} {p : List Saddle} (h : p.IsChain (fun s t => S.connected s t = true)) :
    S.makePath dbg p = .ok p := by
  unfold FlatTri.makePath
  rw [if_neg]
  rw [Bool.and_eq_true, Bool.not_eq_true', not_and, Bool.not_eq_false]
  intro _
  induction p with
  | nil => rfl
  | cons s p ih =>
    cases p with
    | nil => rfl
    | cons t p =>
      rw [List.isChain_cons_cons] at h
      have := ih h.2
      simp only [List.tail_cons, List.zip_cons_cons, List.all_cons, Bool.and_eq_true] at this ⊢
      exact ⟨h.1, this⟩

/-- The constructor. -/
theorem scan_spec (dbg : Bool) (hS : S.Shut) (hm : TableOf S σ m) (ho : ∀ e ∈ S.tri.halfEdges, σ (neg e) = neg (σ e))
    (C : FlatTri T) : ∀ l : List HE, (∀ e ∈ l, e < S.tri.size) →
      scan dbg S C m l = .ok (decide (∀ e ∈ l, C.vec (σ e) = S.vec e))
  | [], _ => by simp [scan]
  | e :: l, hl => by
    have he := hl e (by simp)
    have ih := scan_spec dbg hS hm ho C l fun f hf => hl f (by simp [hf])
    rw [scan, Spec.TableOf.find hm he, Spec.TableOf.find hm (hS.neg_lt he), if_neg (by simp)]
    dsimp only
    rw [if_neg (by simp [ho e (mem_halfEdges.2 he)])]
    by_cases hx : S.vec e = C.vec (σ e)
    · rw [if_neg (by simpa using hx), ih]
      simp [hx.symm]
    · rw [if_pos hx]
      simp only [List.mem_cons, forall_eq_or_imp]
      rw [decide_eq_false]
      exact fun k => hx k.1.symm

theorem make_spec (dbg : Bool) (hS : S.Shut) (hm : TableOf S σ m) (ho : ∀ e ∈ S.tri.halfEdges, σ (neg e) = neg (σ e))
    {C : FlatTri T} (hC : ∀ e ∈ S.tri.halfEdges, C.vec (neg (σ e)) = -C.vec (σ e)) :
    make dbg S C m = .ok ⟨S, C, m, decide (∀ e ∈ S.tri.halfEdges, C.vec (σ e) = S.vec e)⟩ := by
  have hev : S.tri.size % 2 = 0 := hS.flat.coh.even
  unfold make
  rw [Spec.TableOf.length hm, if_neg (by rintro ⟨-, hx⟩; omega), scan_spec dbg hS hm ho C _ (by
    intro e he
    obtain ⟨i, hi, rfl⟩ := List.mem_map.1 he
    have := List.mem_range.1 hi
    omega)]
  show Except.ok (Combinatorial.mk S C m (decide _)) = _
  congr 2
  rw [decide_eq_decide]
  constructor
  · intro hx e he
    have he' := mem_halfEdges.1 he
    have hmem : ∀ i, 2 * i < S.tri.size → 2 * i ∈ (List.range (S.tri.size / 2)).map (2 * ·) := by
      intro i hi
      exact List.mem_map.2 ⟨i, List.mem_range.2 (by omega), rfl⟩
    by_cases hp : e % 2 = 0
    · have := hx (2 * (e / 2)) (hmem _ (by omega))
      rwa [show 2 * (e / 2) = e by omega] at this
    · have := hx (2 * (e / 2)) (hmem _ (by omega))
      have hd := neg_def e
      rw [if_neg hp] at hd
      rw [show 2 * (e / 2) = neg e by omega, ho e he, hC e he, hS.flat.odd e he'] at this
      exact _root_.neg_injective this
  · intro hx e he
    obtain ⟨i, hi, rfl⟩ := List.mem_map.1 he
    have := List.mem_range.1 hi
    exact hx _ (mem_halfEdges.2 (by omega))

theorem fixes_spec (hm : TableOf S σ m) : ∀ l : List HE, (∀ e ∈ l, e < S.tri.size) →
    fixes m l = .ok (decide (∀ e ∈ l, σ e = e))
  | [], _ => by simp [fixes]
  | e :: l, hl => by
    have ih := fixes_spec hm l fun f hf => hl f (by simp [hf])
    rw [fixes, Spec.TableOf.get hm (hl e (by simp))]
    by_cases hx : σ e = e
    · simp only [bind, Except.bind, hx, ne_eq, not_true_eq_false, if_false, ih, List.mem_cons, forall_eq_or_imp, true_and]
    · simp only [bind, Except.bind, ne_eq, hx, not_false_eq_true, if_true, List.mem_cons, forall_eq_or_imp, false_and]
      rfl

end Combinatorial

end Verif
