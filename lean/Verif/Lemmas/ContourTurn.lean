import Verif.Lemmas.ContourSpine
import Verif.Lemmas.CollapsedReady

/-!
# Turning along chains of half edges
-/

set_option linter.unusedSectionVars false

namespace Verif

namespace Flow

variable {T : Type} [CommRing T] [LinearOrder T] [IsStrictOrderedRing T]
variable {n : ℕ} {nx pv : HE → HE} {p : HE → T}

theorem chain_iterate {q : HE → HE} {l : List HE} {x : HE} (h : l.IsChain fun x y => q x = y) (hx : l.head? = some x) :
    l = (List.range l.length).map fun i => q^[i] x := by
  induction l generalizing x with
  | nil => cases hx
  | cons y l ih =>
    cases hx
    rw [List.length_cons, List.range_succ_eq_map, List.map_cons, List.map_map]
    congr 1
    cases l with
    | nil => rfl
    | cons z l =>
      rw [List.isChain_cons_cons] at h
      conv_lhs => rw [ih h.2 rfl]
      refine List.map_congr_left fun i _ => ?_
      rw [Function.comp_apply, Function.iterate_succ_apply, h.1]

/-- Up and down again: what one meets is different, except possibly for the ends. -/
theorem Rise.peak (h : OK n nx pv p) {a b : List HE} {e : HE} (ha : Rise n nx p a) (hb : Rise n nx (fun x => -p x) b)
    (hae : a.getLast? = some e) (hbe : b.head? = some e) (h2 : 2 ≤ a.length) :
    (a ++ b.tail).IsChain (fun x y => nx (neg x) = y) ∧ (a ++ b.tail).tail.Nodup := by
  obtain ⟨a', rfl⟩ := List.getLast?_eq_some_iff.1 hae
  obtain ⟨b', rfl⟩ := List.head?_eq_some_iff.1 hbe
  have hc : (a' ++ [e] ++ b').IsChain (fun x y => nx (neg x) = y) := by
    have h1 := ha.chain
    have h3 := hb.chain
    rw [List.append_assoc]
    rw [List.isChain_append] at h1 ⊢
    refine ⟨h1.1, h3, fun u hu w hw => ?_⟩
    exact h1.2.2 u hu w hw
  refine ⟨hc, ?_⟩
  change (a' ++ [e] ++ b').tail.Nodup
  have hlt : ∀ x ∈ a' ++ [e] ++ b', x < n := by
    intro x hx
    rcases List.mem_append.1 hx with k | k
    · exact ha.lt x k
    · exact hb.lt x (by simp [k])
  obtain ⟨x, hx⟩ : ∃ x, (a' ++ [e] ++ b').head? = some x := by
    cases a' with
    | nil => exact ⟨e, rfl⟩
    | cons z l => exact ⟨z, rfl⟩
  have hM := chain_iterate (q := fun x => nx (neg x)) hc hx
  generalize hu : (fun i => (fun x => nx (neg x))^[i] x) = u at hM
  have hu' : ∀ i, u (i + 1) = nx (neg (u i)) := by
    intro i
    rw [← hu]
    exact Function.iterate_succ_apply' _ _ _
  generalize hlen : (a' ++ [e] ++ b').length = len at hM
  have hget : ∀ i (hi : i < len), (a' ++ [e] ++ b')[i]? = some (u i) := by
    intro i hi
    rw [hM]
    simp [hi]
  have hn : ∀ i < len, u i < n := fun i hi => hlt _ (List.mem_of_getElem? (hget i hi))
  have hlen' : len = a'.length + 1 + b'.length := by rw [← hlen]; simp; omega
  have up : ∀ i j, i < j → j ≤ a'.length → p (u i) < p (u j) := by
    intro i j hij hj
    have k1 := hget i (by omega)
    have k2 := hget j (by omega)
    rw [List.getElem?_append_left (by simp; omega)] at k1 k2
    obtain ⟨g1, k1⟩ := List.getElem?_eq_some_iff.1 k1
    obtain ⟨g2, k2⟩ := List.getElem?_eq_some_iff.1 k2
    rw [← k1, ← k2]
    exact List.pairwise_iff_getElem.1 ha.sorted i j g1 g2 hij
  have down : ∀ i j, a'.length ≤ i → i < j → j < len → p (u j) < p (u i) := by
    intro i j hi hij hj
    have k1 := hget i (by omega)
    have k2 := hget j (by omega)
    rw [List.append_assoc, List.getElem?_append_right (by omega)] at k1 k2
    obtain ⟨g1, k1⟩ := List.getElem?_eq_some_iff.1 k1
    obtain ⟨g2, k2⟩ := List.getElem?_eq_some_iff.1 k2
    rw [← k1, ← k2]
    have := List.pairwise_iff_getElem.1 hb.sorted (i - a'.length) (j - a'.length) g1 g2 (by omega)
    simp only [neg_lt_neg_iff] at this
    exact this
  have inj : ∀ i j, i < len → j < len → u (i + 1) = u (j + 1) → u i = u j := by
    intro i j hi hj hij
    rw [hu', hu'] at hij
    have := congrArg pv hij
    rw [h.pv_nx _ (h.neg_lt _ (hn i hi)), h.pv_nx _ (h.neg_lt _ (hn j hj))] at this
    exact neg_inj'.1 this
  have h3 : 1 ≤ a'.length := by
    rw [List.length_append] at h2
    simp at h2
    omega
  have back : ∀ i k, i + k < len → u i = u (i + k) → u 0 = u k := by
    intro i k
    induction i with
    | zero => intro _ hi; rwa [Nat.zero_add] at hi
    | succ i ih =>
      intro hi hk
      refine ih (by omega) (inj _ _ (by omega) (by omega) ?_)
      rw [hk]
      congr 1
      omega
  have key : ∀ i k, 1 ≤ i → 1 ≤ k → i + k < len → u i ≠ u (i + k) := by
    intro i k hi hk hik hx
    have e0 := back i k hik hx
    have e1 : u 1 = u (k + 1) := by rw [hu', hu', ← e0]
    rcases le_or_gt k a'.length with g | g
    · have := up 0 k (by omega) g
      rw [e0] at this
      exact lt_irrefl _ this
    · have g1 := down k (k + 1) (by omega) (by omega) (by omega)
      have g2 := up 0 1 (by omega) (by omega)
      rw [e0, e1] at g2
      exact absurd g1 g2.not_gt
  rw [hM]
  have hr : ((List.range len).map u).tail = (List.range (len - 1)).map fun i => u (i + 1) := by
    obtain ⟨m, rfl⟩ : ∃ m, len = m + 1 := ⟨len - 1, by omega⟩
    rw [List.range_succ_eq_map]
    simp [List.map_map, Function.comp_def]
  rw [hr]
  refine List.Nodup.map_on (fun i hi j hj hij => ?_) List.nodup_range
  rw [List.mem_range] at hi hj
  rcases lt_trichotomy i j with g | g | g
  · exact absurd hij (by
      have := key (i + 1) (j - i) (by omega) (by omega) (by omega)
      rwa [show i + 1 + (j - i) = j + 1 by omega] at this)
  · exact g
  · exact absurd hij.symm (by
      have := key (j + 1) (i - j) (by omega) (by omega) (by omega)
      rwa [show j + 1 + (i - j) = i + 1 by omega] at this)

end Flow

namespace Collapsed

open Flow

variable {T : Type} [CommRing T] [LinearOrder T] [IsStrictOrderedRing T]
variable {C : Collapsed T}

theorem Good.previous_lt' (h : C.Good) {z : HE} (hz : z < C.tri.size) : C.tri.previousAtVertex z < C.tri.size := by
  unfold Tri.previousAtVertex
  rw [← h.linked.hv.right z] at hz
  exact h.linked.hv.fwd_lt.1 hz

/-- Turning clockwise. -/
theorem Good.previousAtVertex_eq (h : C.Good) {z : HE} (hz : z < C.tri.size) :
    C.tri.previousAtVertex z = C.tri.nextInFace (neg z) := by
  have h1 := h.previous_lt' hz
  have h2 := h.linked.link (C.tri.previousAtVertex z) (Tri.Inv.ne_fix h.inv (mem_net.2 h1))
  rw [← h2]
  unfold Tri.previousAtVertex Tri.nextInFace
  rw [h.linked.hv.right]

/-- What is crossed when turning along a chain. -/
theorem Good.turn_chain (h : C.Good) (hV : C.tri.VertexesOk) {l : List HE} {x z : HE}
    (hc : (l ++ [z]).IsChain fun x y => C.tri.nextInFace (neg x) = y) (hx : (l ++ [z]).head? = some x) (hl : ∀ y ∈ l, y < C.tri.size)
    (hz : z ∉ l) (hz' : z < C.tri.size) {fuel : ℕ} (hf : C.tri.size ≤ fuel) : C.turn fuel x z = some (.ok (l.flatMap C.cross)) := by
  have hlt : ∀ y ∈ l ++ [z], y < C.tri.size := by
    intro y hy
    rcases List.mem_append.1 hy with k | k
    · exact hl y k
    · rw [List.mem_singleton.1 k]; exact hz'
  have hx' : x < C.tri.size := hlt x (List.mem_of_mem_head? hx)
  have hc' : (l ++ [z]).IsChain fun x y => C.tri.previousAtVertex x = y := by
    rw [List.isChain_iff_getElem] at hc ⊢
    intro i hi
    rw [h.previousAtVertex_eq (hlt _ (List.getElem_mem _))]
    exact hc i hi
  have hM := chain_iterate hc' hx
  rw [List.length_append, List.length_singleton, List.range_succ, List.map_append] at hM
  obtain ⟨h1, h2⟩ := List.append_inj' hM (by simp)
  simp only [List.map_cons, List.map_nil, List.cons.injEq, and_true] at h2
  have hmin : ∀ i < l.length, C.tri.previousAtVertex^[i] x ≠ z := by
    intro i hi hk
    refine hz ?_
    rw [h1, List.mem_map]
    exact ⟨i, by simpa using hi, hk⟩
  obtain ⟨s, t, k1, k2, k3⟩ := same_iff h.linked.hv hV hx' hz'
  have hlen : l.length < C.tri.size := by
    obtain ⟨m, m1, m2, m3⟩ := first_time (fun y hy => h.previous_lt' hy) hx' ⟨l.length, h2.symm⟩
    rcases lt_trichotomy m l.length with g | g | g
    · exact absurd m2 (hmin m g)
    · omega
    · exact absurd h2.symm (m3 _ g)
  unfold turn
  rw [k1, k2]
  dsimp only
  rw [if_pos (k3.2 ⟨_, h2.symm⟩), turnLoop_spec l.length h2.symm hmin (by omega)]
  conv_rhs => rw [h1]
  rw [List.flatMap_map]
  rfl

/-- What is crossed when turning beyond the end of a chain. -/
theorem Good.turn_beyond (h : C.Good) (hV : C.tri.VertexesOk) {l : List HE} {x y : HE}
    (hc : (x :: l ++ [y]).IsChain fun x y => C.tri.nextInFace (neg x) = y) (hl : ∀ z ∈ x :: l ++ [y], z < C.tri.size)
    (hn : (x :: l ++ [y]).Nodup) {fuel : ℕ} (hf : C.tri.size ≤ fuel) :
    C.turn fuel (C.tri.previousAtVertex x) (C.tri.nextInFace (neg y)) = some (.ok ((l ++ [y]).flatMap C.cross)) := by
  have hx : x < C.tri.size := hl x (by simp)
  have hy : y < C.tri.size := hl y (by simp)
  have hnl : ∀ z ∈ l, z < C.tri.size := fun z hz => hl z (by simp [hz])
  have inj : ∀ u < C.tri.size, ∀ w < C.tri.size, C.tri.nextInFace (neg u) = C.tri.nextInFace (neg w) → u = w := by
    intro u _ w _ huw
    have := congrArg C.tri.previousInFace huw
    rw [show C.tri.previousInFace (C.tri.nextInFace (neg u)) = neg u from h.linked.hf.left _,
      show C.tri.previousInFace (C.tri.nextInFace (neg w)) = neg w from h.linked.hf.left _] at this
    exact neg_inj'.1 this
  have hc2 : (l ++ [y]).IsChain fun x y => C.tri.nextInFace (neg x) = y := hc.tail
  refine h.turn_chain hV ?_ ?_ ?_ ?_ (h.next_lt (h.neg_lt hy)) hf
  · rw [List.isChain_append]
    refine ⟨hc2, .singleton _, fun u hu w hw => ?_⟩
    simp at hu hw
    rw [← hu, ← hw]
  · rw [h.previousAtVertex_eq hx]
    cases l with
    | nil =>
      rw [List.isChain_append] at hc
      have := hc.2.2 x (by simp) y (by simp)
      rw [this]
      rfl
    | cons z l =>
      have := (List.isChain_cons_cons.1 hc).1
      rw [this]
      rfl
  · intro z hz
    rcases List.mem_append.1 hz with k | k
    · exact hnl z k
    · rw [List.mem_singleton.1 k]; exact hy
  · intro hm
    obtain ⟨i, hi, hm⟩ := List.mem_iff_getElem.1 hm
    have k := List.isChain_iff_getElem.1 hc i (by simpa using hi)
    have hm' : (x :: l ++ [y])[i + 1]'(by simpa using hi) = C.tri.nextInFace (neg y) := by
      rw [← hm]; rfl
    rw [hm'] at k
    have := inj _ (hl _ (List.getElem_mem _)) _ hy k
    have hlast : (x :: l ++ [y])[l.length + 1]'(by simp) = y := by simp
    have hii : i < (x :: l ++ [y]).length := by simp at hi ⊢; omega
    have := (List.Nodup.getElem_inj_iff hn (hi := hii) (hj := by simp)).1 (this.trans hlast.symm)
    simp at hi
    omega

end Collapsed

end Verif
