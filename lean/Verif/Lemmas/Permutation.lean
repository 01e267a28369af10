import Verif.Model.Permutation
import Mathlib.GroupTheory.Perm.List
import Mathlib.Data.List.Perm.Basic
import Mathlib.Data.List.Count
import Mathlib.Data.List.GetD
import Mathlib.Data.List.NodupEquivFin
import Mathlib.Data.List.Iterate

namespace Verif.Perm

open Function

/-- The two arrays of a permutation are mutually inverse and the cells outside of it are the identity. -/
structure WF (p : Perm) : Prop where
  left : ∀ i, p.inv (p.fwd i) = i
  right : ∀ i, p.fwd (p.inv i) = i
  out : ∀ i, p.size ≤ i → p.fwd i = i

/-- The bijection described by a permutation. -/
def toEquiv (p : Perm) (h : p.WF) : Equiv.Perm ℕ := ⟨p.fwd, p.inv, h.left, h.right⟩

@[simp] theorem toEquiv_apply (p : Perm) (h : p.WF) (i : HE) : p.toEquiv h i = p.fwd i := rfl

@[simp] theorem toEquiv_symm_apply (p : Perm) (h : p.WF) (i : HE) : (p.toEquiv h).symm i = p.inv i := rfl

theorem WF.inj {p : Perm} (h : p.WF) {i j : HE} (hij : p.fwd i = p.fwd j) : i = j := by
  rw [← h.left i, hij, h.left]

theorem WF.inv_inj {p : Perm} (h : p.WF) {i j : HE} (hij : p.inv i = p.inv j) : i = j := by
  rw [← h.right i, hij, h.right]

theorem WF.inv_out {p : Perm} (h : p.WF) {i : HE} (hi : p.size ≤ i) : p.inv i = i := by
  conv_lhs => rw [← h.out i hi]
  exact h.left i

theorem WF.fwd_lt {p : Perm} (h : p.WF) {i : HE} : p.fwd i < p.size ↔ i < p.size := by
  constructor
  · intro hi
    by_contra hc
    rw [h.out i (by omega)] at hi
    exact hc hi
  · intro hi
    by_contra hc
    have h1 := h.out (p.fwd i) (by omega)
    have := h.inj h1
    omega

theorem WF.inv_lt {p : Perm} (h : p.WF) {i : HE} : p.inv i < p.size ↔ i < p.size := by
  rw [← h.fwd_lt, h.right]

/-- Equality of well-formed permutations. -/
theorem WF.ext {p q : Perm} (hp : p.WF) (hq : q.WF) (hs : p.size = q.size)
    (hf : ∀ i < p.size, p.fwd i = q.fwd i) : p = q := by
  have h1 : p.fwd = q.fwd := by
    funext i
    by_cases hi : i < p.size
    · exact hf i hi
    · rw [hp.out i (by omega), hq.out i (by omega)]
  have h2 : p.inv = q.inv := by
    funext i
    apply hp.inj
    rw [hp.right, h1, hq.right]
  cases p; cases q; simp_all

theorem WF.ext_equiv {p q : Perm} (hp : p.WF) (hq : q.WF) (hs : p.size = q.size)
    (hf : p.toEquiv hp = q.toEquiv hq) : p = q :=
  hp.ext hq hs fun i _ => by rw [← toEquiv_apply p hp, hf, toEquiv_apply]

/-! ### Construction from a vector of images -/

theorem foldl_update_of_not {k : HE → HE} {x : HE} (l : List HE) (f : HE → HE) (h : ∀ v ∈ l, k v ≠ x) :
    l.foldl (fun inv v => update inv (k v) v) f x = f x := by
  induction l generalizing f with
  | nil => rfl
  | cons a l ih =>
    rw [List.foldl_cons, ih _ fun v hv => h v (List.mem_cons_of_mem _ hv),
      update_of_ne (h a List.mem_cons_self).symm]

theorem foldl_update_of_mem {k : HE → HE} {v : HE} (l : List HE) (f : HE → HE) (hv : v ∈ l)
    (hk : ∀ w ∈ l, k w = k v → w = v) :
    l.foldl (fun inv v => update inv (k v) v) f (k v) = v := by
  induction l generalizing f with
  | nil => cases hv
  | cons a l ih =>
    rw [List.foldl_cons]
    by_cases h : v ∈ l
    · exact ih _ h fun w hw => hk w (List.mem_cons_of_mem _ hw)
    · have hav : a = v := by
        rcases List.mem_cons.1 hv with h' | h'
        · exact h'.symm
        · exact absurd h' h
      subst hav
      rw [foldl_update_of_not, update_self]
      intro w hw hkw
      exact h (hk w (List.mem_cons_of_mem _ hw) hkw ▸ hw)

/-- What the vector constructor accepts, and what it builds. -/
theorem ofImages_ok_of_perm {l : List HE} (h : l.Perm (List.range l.length)) :
    ∃ p, ofImages l = .ok p ∧ p.WF ∧ p.size = l.length ∧ ∀ i, p.fwd i = l.getD i i := by
  have hnd : l.Nodup := h.nodup_iff.2 List.nodup_range
  have hmem : ∀ v, v ∈ l ↔ v < l.length := fun v => by rw [h.mem_iff, List.mem_range]
  have hcount : ∀ i ∈ List.range l.length, l.count i = 1 := by
    intro i hi
    exact List.count_eq_one_of_mem hnd ((hmem i).2 (List.mem_range.1 hi))
  have hinj : ∀ v w, v < l.length → w < l.length → l.getD v v = l.getD w w → v = w := by
    intro v w hv hw hvw
    rw [List.getD_eq_getElem _ _ hv, List.getD_eq_getElem _ _ hw] at hvw
    exact (List.Nodup.getElem_inj_iff hnd).1 hvw
  have hlt : ∀ v, v < l.length → l.getD v v < l.length := by
    intro v hv
    rw [List.getD_eq_getElem _ _ hv]
    exact (hmem _).1 (List.getElem_mem hv)
  have hout : ∀ v, l.length ≤ v → l.getD v v = v := fun v hv => List.getD_eq_default _ _ hv
  refine ⟨⟨l.length, fun i => l.getD i i,
    l.foldl (fun inv v => update inv (l.getD v v) v) fun i => l.getD i i⟩, ?_, ⟨?_, ?_, ?_⟩, rfl, fun _ => rfl⟩
  · unfold ofImages
    simp only
    rw [if_pos (fun v hv => (hmem v).1 hv), if_neg, if_neg]
    · rintro ⟨i, hi, h1⟩; exact h1 (hcount i hi)
    · rintro ⟨i, hi, h1⟩; rw [hcount i hi] at h1; cases h1
  · intro i
    simp only
    by_cases hi : i < l.length
    · exact foldl_update_of_mem (k := fun v => l.getD v v) l _ ((hmem i).2 hi)
        fun w hw hk => hinj w i ((hmem w).1 hw) hi hk
    · rw [hout i (by omega), foldl_update_of_not (k := fun v => l.getD v v)]
      · exact hout i (by omega)
      · intro v hv hc
        have := hlt v ((hmem v).1 hv)
        omega
  · intro i
    simp only
    by_cases hi : i < l.length
    · obtain ⟨j, hj, hji⟩ := List.getElem_of_mem ((hmem i).2 hi)
      have hji' : l.getD j j = i := by rw [List.getD_eq_getElem _ _ hj]; exact hji
      have := foldl_update_of_mem (k := fun v => l.getD v v) l (fun i => l.getD i i) ((hmem j).2 hj)
        fun w hw hk => hinj w j ((hmem w).1 hw) hj hk
      rw [hji'] at this
      rw [this, hji']
    · have : ∀ v ∈ l, l.getD v v ≠ i := by
        intro v hv hc
        have := hlt v ((hmem v).1 hv)
        omega
      rw [foldl_update_of_not (k := fun v => l.getD v v) _ _ this, hout i (by omega), hout i (by omega)]
  · intro i hi
    exact hout i hi

theorem perm_of_ofImages_ok {l : List HE} {p : Perm} (h : ofImages l = .ok p) : l.Perm (List.range l.length) := by
  unfold ofImages at h
  simp only at h
  split_ifs at h with h1 h2 h3
  push Not at h2 h3
  rw [List.perm_iff_count]
  intro a
  by_cases ha : a < l.length
  · rw [h3 a (List.mem_range.2 ha), List.count_eq_one_of_mem List.nodup_range (List.mem_range.2 ha)]
  · rw [List.count_eq_zero_of_not_mem fun hc => ha (h1 a hc),
      List.count_eq_zero_of_not_mem fun hc => ha (List.mem_range.1 hc)]

theorem ofImages_ok {l : List HE} {p : Perm} (h : ofImages l = .ok p) :
    p.WF ∧ p.size = l.length ∧ ∀ i, p.fwd i = l.getD i i := by
  obtain ⟨q, hq, hw⟩ := ofImages_ok_of_perm (perm_of_ofImages_ok h)
  rw [h] at hq
  cases hq
  exact hw

/-! ### Assignments -/

/-- `data[k] = v` together with `inverse[v] = k`. -/
def set (p : Perm) (k v : HE) : Perm := ⟨p.size, update p.fwd k v, update p.inv v k⟩

def setAll (p : Perm) (l : List (HE × HE)) : Perm := l.foldl (fun p kv => p.set kv.1 kv.2) p

@[simp] theorem setAll_nil (p : Perm) : p.setAll [] = p := rfl

@[simp] theorem setAll_cons (p : Perm) (kv : HE × HE) (l : List (HE × HE)) :
    p.setAll (kv :: l) = (p.set kv.1 kv.2).setAll l := rfl

@[simp] theorem setAll_size (p : Perm) (l : List (HE × HE)) : (p.setAll l).size = p.size := by
  induction l generalizing p with
  | nil => rfl
  | cons a l ih => rw [setAll_cons, ih]; rfl

theorem setAll_fwd_of_not (p : Perm) (l : List (HE × HE)) {x : HE} (h : x ∉ l.map Prod.fst) :
    (p.setAll l).fwd x = p.fwd x := by
  induction l generalizing p with
  | nil => rfl
  | cons a l ih =>
    simp only [List.map_cons, List.mem_cons, not_or] at h
    rw [setAll_cons, ih _ h.2]
    exact update_of_ne h.1 _ _

theorem setAll_inv_of_not (p : Perm) (l : List (HE × HE)) {x : HE} (h : x ∉ l.map Prod.snd) :
    (p.setAll l).inv x = p.inv x := by
  induction l generalizing p with
  | nil => rfl
  | cons a l ih =>
    simp only [List.map_cons, List.mem_cons, not_or] at h
    rw [setAll_cons, ih _ h.2]
    exact update_of_ne h.1 _ _

theorem setAll_fwd_of_mem (p : Perm) (l : List (HE × HE)) (hk : (l.map Prod.fst).Nodup) {k v : HE}
    (h : (k, v) ∈ l) : (p.setAll l).fwd k = v := by
  induction l generalizing p with
  | nil => cases h
  | cons a l ih =>
    simp only [List.map_cons, List.nodup_cons] at hk
    rw [setAll_cons]
    rcases List.mem_cons.1 h with h | h
    · subst h
      rw [setAll_fwd_of_not _ _ hk.1]
      exact update_self _ _ _
    · exact ih _ hk.2 h

theorem setAll_inv_of_mem (p : Perm) (l : List (HE × HE)) (hk : (l.map Prod.snd).Nodup) {k v : HE}
    (h : (k, v) ∈ l) : (p.setAll l).inv v = k := by
  induction l generalizing p with
  | nil => cases h
  | cons a l ih =>
    simp only [List.map_cons, List.nodup_cons] at hk
    rw [setAll_cons]
    rcases List.mem_cons.1 h with h | h
    · subst h
      rw [setAll_inv_of_not _ _ hk.1]
      exact update_self _ _ _
    · exact ih _ hk.2 h

/-- If the assignments permute the values of the keys, the result is a permutation. -/
theorem setAll_wf {p : Perm} (hp : p.WF) (l : List (HE × HE)) (hk : (l.map Prod.fst).Nodup)
    (hv : (l.map Prod.snd).Perm ((l.map Prod.fst).map p.fwd)) (hlt : ∀ k ∈ l.map Prod.fst, k < p.size) :
    (p.setAll l).WF := by
  have hvn : (l.map Prod.snd).Nodup := hv.nodup_iff.2 (hk.map fun _ _ h => hp.inj h)
  refine ⟨?_, ?_, ?_⟩
  · intro i
    by_cases hi : i ∈ l.map Prod.fst
    · obtain ⟨⟨k, v⟩, hkv, rfl⟩ := List.mem_map.1 hi
      rw [setAll_fwd_of_mem p l hk hkv, setAll_inv_of_mem p l hvn hkv]
    · rw [setAll_fwd_of_not p l hi, setAll_inv_of_not, hp.left]
      rw [hv.mem_iff, List.mem_map]
      rintro ⟨j, hj, hji⟩
      exact hi (hp.inj hji ▸ hj)
  · intro i
    by_cases hi : i ∈ l.map Prod.snd
    · obtain ⟨⟨k, v⟩, hkv, rfl⟩ := List.mem_map.1 hi
      rw [setAll_inv_of_mem p l hvn hkv, setAll_fwd_of_mem p l hk hkv]
    · rw [setAll_inv_of_not p l hi, setAll_fwd_of_not, hp.right]
      intro hc
      apply hi
      rw [hv.mem_iff, List.mem_map]
      exact ⟨_, hc, hp.right i⟩
  · intro i hi
    rw [setAll_size] at hi
    rw [setAll_fwd_of_not, hp.out i hi]
    intro hc
    have := hlt i hc
    omega

/-! ### Multiplication with a cycle from the right -/

theorem mulCycleLoop_eq (tmp : HE) (p : Perm) (x : HE) (c : List HE) (h : (x :: c).Nodup) :
    mulCycleLoop tmp p (x :: c) = p.setAll ((x :: c).zip (c.map p.fwd ++ [tmp])) := by
  induction c generalizing p x with
  | nil => rfl
  | cons y c ih =>
    have hxy : y ≠ x := by
      intro hc; subst hc; simp at h
    have hx : ∀ z ∈ y :: c, z ≠ x := by
      intro z hz hc; subst hc; exact (List.nodup_cons.1 h).1 hz
    have hs : assignRight p x y = p.set x (p.fwd y) := by
      unfold assignRight set
      simp only
      rw [update_of_ne hxy]
    rw [mulCycleLoop, ih _ _ (List.nodup_cons.1 h).2, hs]
    simp only [List.map_cons, List.cons_append, List.zip_cons_cons, setAll_cons]
    congr 3
    apply List.map_congr_left
    intro z hz
    exact update_of_ne (hx z (List.mem_cons_of_mem _ hz)) _ _

theorem map_fst_zip_tail (x : HE) (c : List HE) (f : HE → HE) (t : HE) :
    ((x :: c).zip (c.map f ++ [t])).map Prod.fst = x :: c := by
  rw [List.map_fst_zip]; simp

theorem map_snd_zip_tail (x : HE) (c : List HE) (f : HE → HE) (t : HE) :
    ((x :: c).zip (c.map f ++ [t])).map Prod.snd = c.map f ++ [t] := by
  rw [List.map_snd_zip]; simp

theorem formPerm_mem_zip (x : HE) (c : List HE) (h : (x :: c).Nodup) (f : HE → HE) (z : HE) (hz : z ∈ x :: c) :
    (z, f ((x :: c).formPerm z)) ∈ (x :: c).zip (c.map f ++ [f x]) := by
  obtain ⟨i, hi, rfl⟩ := List.getElem_of_mem hz
  rw [List.formPerm_apply_getElem _ h]
  rw [List.mem_iff_getElem]
  refine ⟨i, by simpa using hi, ?_⟩
  rw [List.getElem_zip]
  congr 1
  simp only [List.length_cons] at hi
  rcases Nat.lt_or_ge i c.length with h1 | h1
  · rw [List.getElem_append_left (by simpa using h1), List.getElem_map]
    congr 1
    have : (i + 1) % (x :: c).length = i + 1 := Nat.mod_eq_of_lt (by simp; omega)
    simp only [this, List.getElem_cons_succ]
  · have hic : i = c.length := by omega
    rw [List.getElem_append_right (by simpa using h1)]
    subst hic
    simp

theorem mulCycle_wf {p : Perm} (hp : p.WF) {x : HE} {c : List HE} (hn : (x :: c).Nodup)
    (hlt : ∀ z ∈ x :: c, z < p.size) : (mulCycleLoop (p.fwd x) p (x :: c)).WF := by
  rw [mulCycleLoop_eq _ _ _ _ hn]
  apply setAll_wf hp
  · rw [map_fst_zip_tail]; exact hn
  · rw [map_fst_zip_tail, map_snd_zip_tail]
    rw [List.map_cons]
    exact (List.perm_append_singleton _ _)
  · rw [map_fst_zip_tail]; exact hlt

theorem mulCycle_fwd {p : Perm} {x : HE} {c : List HE} (hn : (x :: c).Nodup) (z : HE) :
    (mulCycleLoop (p.fwd x) p (x :: c)).fwd z = p.fwd ((x :: c).formPerm z) := by
  rw [mulCycleLoop_eq _ _ _ _ hn]
  by_cases hz : z ∈ x :: c
  · rw [setAll_fwd_of_mem _ _ _ (formPerm_mem_zip x c hn p.fwd z hz)]
    rw [map_fst_zip_tail]; exact hn
  · rw [setAll_fwd_of_not _ _ (by rw [map_fst_zip_tail]; exact hz), List.formPerm_apply_of_notMem hz]

@[simp] theorem mulCycleLoop_size (tmp : HE) (p : Perm) (c : List HE) :
    (mulCycleLoop tmp p c).size = p.size := by
  induction c generalizing p with
  | nil => rfl
  | cons x c ih =>
    cases c with
    | nil => rfl
    | cons y c => rw [mulCycleLoop, ih]; rfl

/-- The formPerm of a list without two distinct entries is trivial. -/
theorem formPerm_of_dedup_le_one {c : List HE} (h : c.dedup.length ≤ 1) : c.formPerm = 1 := by
  have hall : ∀ x ∈ c, ∀ y ∈ c, x = y := by
    intro x hx y hy
    rw [← List.mem_dedup] at hx hy
    rcases hd : c.dedup with _ | ⟨a, _ | ⟨b, t⟩⟩
    · rw [hd] at hx; cases hx
    · rw [hd] at hx hy; simp at hx hy; rw [hx, hy]
    · rw [hd] at h; simp at h
  exact aux hall
where
  aux {c : List HE} (hall : ∀ x ∈ c, ∀ y ∈ c, x = y) : c.formPerm = 1 := by
    induction c with
    | nil => rfl
    | cons a c ih =>
      cases c with
      | nil => rfl
      | cons b c =>
        rw [List.formPerm_cons_cons,
          ih fun x hx y hy => hall x (List.mem_cons_of_mem _ hx) y (List.mem_cons_of_mem _ hy),
          hall a (by simp) b (by simp), Equiv.swap_self]
        rfl

/-- `p *= cycle` in terms of bijections. -/
theorem mulCycle_spec {p p' : Perm} (hp : p.WF) {c : List HE} (h : p.mulCycle c = .ok p') :
    ∃ hp' : p'.WF, p'.size = p.size ∧ p'.toEquiv hp' = p.toEquiv hp * c.formPerm := by
  unfold mulCycle at h
  split_ifs at h with h1 h2 h3
  · cases h
    exact ⟨hp, rfl, by rw [formPerm_of_dedup_le_one h1, mul_one]⟩
  · push Not at h2 h3
    have hn : c.Nodup := by
      rw [← List.dedup_eq_self]
      exact (List.dedup_sublist c).eq_of_length h2
    cases c with
    | nil => simp at h1
    | cons x c =>
      simp only [Except.ok.injEq] at h
      subst h
      exact ⟨mulCycle_wf hp hn h3, by simp, by ext z; exact mulCycle_fwd hn z⟩

theorem mulCycle_ok {p : Perm} {c : List HE} (hn : c.Nodup) (hlt : ∀ z ∈ c, z < p.size) :
    ∃ p', p.mulCycle c = .ok p' := by
  unfold mulCycle
  split_ifs with h1 h2 h3
  · exact ⟨_, rfl⟩
  · exact absurd (by rw [hn.dedup]) h2
  · obtain ⟨x, hx, hxs⟩ := h3
    have := hlt x hx
    omega
  · cases c with
    | nil => exact ⟨_, rfl⟩
    | cons x c => exact ⟨_, rfl⟩

/-! ### Multiplication with a cycle from the left -/

/-- Exchange the two arrays. -/
def flipArrays (p : Perm) : Perm := ⟨p.size, p.inv, p.fwd⟩

theorem flipArrays_wf {p : Perm} (hp : p.WF) : p.flipArrays.WF :=
  ⟨hp.right, hp.left, fun _ hi => hp.inv_out hi⟩

theorem cycleMulLoop_eq (tmp : HE) (p : Perm) (c : List HE) :
    cycleMulLoop tmp p c = (mulCycleLoop tmp p.flipArrays c).flipArrays := by
  induction c generalizing p with
  | nil => rfl
  | cons x c ih =>
    cases c with
    | nil => rfl
    | cons y c => rw [cycleMulLoop, ih]; rfl

/-- `cycle *= p` in terms of bijections. -/
theorem cycleMul_spec {p p' : Perm} (hp : p.WF) {c : List HE} (h : cycleMul c p = .ok p') :
    ∃ hp' : p'.WF, p'.size = p.size ∧ p'.toEquiv hp' = c.formPerm⁻¹ * p.toEquiv hp := by
  unfold cycleMul at h
  split_ifs at h with h1 h2 h3
  · cases h
    exact ⟨hp, rfl, by rw [formPerm_of_dedup_le_one h1, inv_one, one_mul]⟩
  · push Not at h2 h3
    have hn : c.Nodup := by
      rw [← List.dedup_eq_self]
      exact (List.dedup_sublist c).eq_of_length h2
    cases c with
    | nil => simp at h1
    | cons x c =>
      simp only [Except.ok.injEq] at h
      subst h
      have hw := mulCycle_wf (flipArrays_wf hp) hn h3
      rw [cycleMulLoop_eq]
      refine ⟨flipArrays_wf hw, by simp [flipArrays], ?_⟩
      have h4 : (mulCycleLoop (p.inv x) p.flipArrays (x :: c)).toEquiv hw
          = p.flipArrays.toEquiv (flipArrays_wf hp) * (x :: c).formPerm := by
        ext z; exact mulCycle_fwd (p := p.flipArrays) hn z
      have h5 : ∀ {q : Perm} (hq : q.WF), q.flipArrays.toEquiv (flipArrays_wf hq) = (q.toEquiv hq)⁻¹ :=
        fun hq => rfl
      refine (h5 hw).trans ?_
      change ((mulCycleLoop (p.inv x) p.flipArrays (x :: c)).toEquiv hw)⁻¹ = _
      rw [h4, h5 hp, mul_inv_rev, inv_inv]

theorem cycleMul_ok {p : Perm} {c : List HE} (hn : c.Nodup) (hlt : ∀ z ∈ c, z < p.size) :
    ∃ p', cycleMul c p = .ok p' := by
  unfold cycleMul
  split_ifs with h1 h2 h3
  · exact ⟨_, rfl⟩
  · exact absurd (by rw [hn.dedup]) h2
  · obtain ⟨x, hx, hxs⟩ := h3
    have := hlt x hx
    omega
  · cases c with
    | nil => exact ⟨_, rfl⟩
    | cons x c => exact ⟨_, rfl⟩

/-! ### Inverse and product -/

theorem map_range_perm {p : Perm} (f : HE → HE) (hf : Injective f) (hlt : ∀ i < p.size, f i < p.size) :
    ((List.range p.size).map f).Perm (List.range ((List.range p.size).map f).length) := by
  rw [List.length_map, List.length_range]
  have hn : ((List.range p.size).map f).Nodup := List.nodup_range.map hf
  have hs : (List.range p.size).map f ⊆ List.range p.size := by
    intro x hx
    obtain ⟨y, hy, rfl⟩ := List.mem_map.1 hx
    exact List.mem_range.2 (hlt y (List.mem_range.1 hy))
  exact (hn.subperm hs).perm_of_length_le (by simp)

theorem ofImages_map_range {p : Perm} {f : HE → HE} (hf : Injective f) (hlt : ∀ i < p.size, f i < p.size)
    (hout : ∀ i, p.size ≤ i → f i = i) :
    ∃ q, ofImages ((List.range p.size).map f) = .ok q ∧ q.WF ∧ q.size = p.size ∧ ∀ i, q.fwd i = f i := by
  obtain ⟨q, hq, hw, hs, hf'⟩ := ofImages_ok_of_perm (map_range_perm f hf hlt)
  refine ⟨q, hq, hw, by simpa using hs, fun i => ?_⟩
  rw [hf']
  by_cases hi : i < p.size
  · rw [List.getD_eq_getElem _ _ (by simpa using hi)]; simp
  · rw [List.getD_eq_default _ _ (by simpa using hi), hout i (by omega)]

theorem inverse_spec {p : Perm} (hp : p.WF) :
    ∃ q, p.inverse = .ok q ∧ ∃ hq : q.WF, q.size = p.size ∧ q.toEquiv hq = (p.toEquiv hp)⁻¹ := by
  obtain ⟨q, h1, h2, h3, h4⟩ := ofImages_map_range (p := p) (f := p.inv) (fun i j h => hp.inv_inj h)
    (fun i hi => hp.inv_lt.2 hi) (fun i hi => hp.inv_out hi)
  exact ⟨q, h1, h2, h3, Equiv.ext h4⟩

theorem mul_spec {p q : Perm} (hp : p.WF) (hq : q.WF) (hs : p.size = q.size) :
    ∃ r, p.mul q = .ok r ∧ ∃ hr : r.WF, r.size = p.size ∧ r.toEquiv hr = p.toEquiv hp * q.toEquiv hq := by
  unfold mul domain
  rw [if_neg (by simpa using hs), ← hs, List.map_map]
  obtain ⟨r, h1, h2, h3, h4⟩ := ofImages_map_range (p := p) (f := p.fwd ∘ q.fwd)
    (fun i j h => hq.inj (hp.inj h)) (fun i hi => by
      simp only [comp]; rw [hp.fwd_lt, hs, hq.fwd_lt]; omega)
    (fun i hi => by simp only [comp]; rw [hq.out i (by omega), hp.out i (by omega)])
  exact ⟨r, h1, h2, h3, Equiv.ext h4⟩

/-! ### Construction from pairs -/

theorem fill_aux (n : ℕ) (l : List (HE × HE)) (hlt : ∀ ab ∈ l, ab.1 < n ∧ ab.2 < n) (d0 : List (Option HE))
    (hd0 : d0.length = n) :
    ∃ d, l.foldlM (fun data ab =>
      if ab.1 < n ∧ ab.2 < n then (.ok (data.set ab.1 (some ab.2)) : Except Err _) else .error .undefined) d0 = .ok d ∧
    d.length = n ∧ (∀ k, k ∉ l.map Prod.fst → d[k]? = d0[k]?) ∧
    ((l.map Prod.fst).Nodup → ∀ kv ∈ l, d[kv.1]? = some (some kv.2)) := by
  induction l generalizing d0 with
  | nil => exact ⟨d0, rfl, hd0, fun _ _ => rfl, by simp⟩
  | cons ab l ih =>
    have hab := hlt ab List.mem_cons_self
    obtain ⟨d, h1, h2, h3, h4⟩ := ih (fun x hx => hlt x (List.mem_cons_of_mem _ hx))
      (d0.set ab.1 (some ab.2)) (by simpa using hd0)
    refine ⟨d, ?_, h2, ?_, ?_⟩
    · rw [List.foldlM_cons, if_pos hab]; exact h1
    · intro k hk
      simp only [List.map_cons, List.mem_cons, not_or] at hk
      rw [h3 k hk.2, List.getElem?_set_ne (Ne.symm hk.1)]
    · intro hn kv hkv
      simp only [List.map_cons, List.nodup_cons] at hn
      rcases List.mem_cons.1 hkv with rfl | hkv
      · rw [h3 _ hn.1, List.getElem?_set_self (by rw [hd0]; exact hab.1)]
      · exact h4 hn.2 kv hkv

theorem fill_ok {n : ℕ} {l : List (HE × HE)} (hlt : ∀ ab ∈ l, ab.1 < n ∧ ab.2 < n) :
    ∃ d, fill n l = .ok d ∧ d.length = n ∧ (∀ k < n, k ∉ l.map Prod.fst → d[k]? = some none) ∧
    ((l.map Prod.fst).Nodup → ∀ kv ∈ l, d[kv.1]? = some (some kv.2)) := by
  obtain ⟨d, h1, h2, h3, h4⟩ := fill_aux n l hlt (List.replicate n none) (by simp)
  refine ⟨d, h1, h2, fun k hk hk' => ?_, h4⟩
  rw [h3 k hk', List.getElem?_replicate, if_pos hk]

theorem fill_error {n : ℕ} {l : List (HE × HE)} (h : ¬ ∀ ab ∈ l, ab.1 < n ∧ ab.2 < n) :
    fill n l = .error .undefined := by
  unfold fill
  generalize List.replicate n none = d
  induction l generalizing d with
  | nil => simp at h
  | cons ab l ih =>
    rw [List.foldlM_cons]
    by_cases hab : ab.1 < n ∧ ab.2 < n
    · rw [if_pos hab]
      refine ih (fun hc => h fun x hx => ?_) _
      rcases List.mem_cons.1 hx with rfl | hx
      exacts [hab, hc x hx]
    · rw [if_neg hab]; rfl

theorem mapM_id_eq_some {l : List (Option HE)} {l' : List HE} : l.mapM id = some l' ↔ l = l'.map some := by
  induction l generalizing l' with
  | nil => cases l' <;> simp
  | cons a l ih =>
    cases a with
    | none => cases l' <;> simp
    | some a =>
      cases hm : l.mapM id with
      | none =>
        have : ∀ l'' : List HE, l ≠ l''.map some := fun l'' hc => by simpa [hm] using (ih (l' := l'')).2 hc
        cases l' with
        | nil => simp [hm]
        | cons b l' => simpa [hm] using fun _ => this l'
      | some m =>
        have hl := ih.1 hm
        cases l' with
        | nil => simp [hm]
        | cons b l' =>
          have : List.map some m = List.map some l' ↔ m = l' :=
            List.map_inj_right (f := (some : HE → Option HE)) (fun _ _ h => Option.some.inj h)
          rw [List.mapM_cons, hm, hl]
          simp [this]

/-- The constructor from pairs succeeds exactly for bijections. -/
theorem ofPairs_ok_of_perm {l : List (HE × HE)} (h1 : (l.map Prod.fst).Perm (List.range l.length))
    (h2 : (l.map Prod.snd).Perm (List.range l.length)) :
    ∃ p, ofPairs l = .ok p ∧ p.WF ∧ p.size = l.length ∧ ∀ kv ∈ l, p.fwd kv.1 = kv.2 := by
  have hlt : ∀ ab ∈ l, ab.1 < l.length ∧ ab.2 < l.length := by
    intro ab hab
    exact ⟨List.mem_range.1 (h1.mem_iff.1 (List.mem_map_of_mem hab)),
      List.mem_range.1 (h2.mem_iff.1 (List.mem_map_of_mem hab))⟩
  have hn : (l.map Prod.fst).Nodup := h1.nodup_iff.2 List.nodup_range
  have hn2 : (l.map Prod.snd).Nodup := h2.nodup_iff.2 List.nodup_range
  obtain ⟨d, hd, hdl, -, hd2⟩ := fill_ok hlt
  replace hd2 := hd2 hn
  have hex : ∀ k < l.length, ∃ v, (k, v) ∈ l := by
    intro k hk
    have := h1.mem_iff.2 (List.mem_range.2 hk)
    obtain ⟨⟨k', v⟩, hkv, rfl⟩ := List.mem_map.1 this
    exact ⟨v, hkv⟩
  choose! f hf using hex
  have hdeq : d = ((List.range l.length).map f).map some := by
    apply List.ext_getElem?
    intro k
    by_cases hk : k < l.length
    · rw [hd2 _ (hf k hk)]
      simp [hk]
    · rw [List.getElem?_eq_none (by omega), List.getElem?_eq_none (by simp; omega)]
  have himg : ((List.range l.length).map f).Perm (List.range l.length) := by
    have hnd : ((List.range l.length).map f).Nodup := by
      refine List.Nodup.map_on ?_ List.nodup_range
      intro x hx y hy hxy
      rw [List.mem_range] at hx hy
      have a := hf x hx
      have b := hf y hy
      rw [hxy] at a
      have := List.inj_on_of_nodup_map hn2 a b rfl
      exact congrArg Prod.fst this
    refine (hnd.subperm ?_).perm_of_length_le (by simp)
    intro x hx
    obtain ⟨y, hy, rfl⟩ := List.mem_map.1 hx
    exact List.mem_range.2 (hlt _ (hf y (List.mem_range.1 hy))).2
  obtain ⟨p, hp, hw, hs, hpf⟩ := ofImages_ok_of_perm (l := (List.range l.length).map f) (by simpa using himg)
  refine ⟨p, ?_, hw, by simpa using hs, ?_⟩
  · unfold ofPairs
    rw [hd]
    change ofVector d = _
    unfold ofVector
    rw [mapM_id_eq_some.2 hdeq]
    exact hp
  · intro kv hkv
    have hk := (hlt kv hkv).1
    rw [hpf, List.getD_eq_getElem _ _ (by simpa using hk)]
    simp only [List.getElem_map, List.getElem_range]
    have := List.inj_on_of_nodup_map hn (hf _ hk) hkv rfl
    exact congrArg Prod.snd this

theorem perm_of_ofPairs_ok {l : List (HE × HE)} {p : Perm} (h : ofPairs l = .ok p) :
    (l.map Prod.fst).Perm (List.range l.length) ∧ (l.map Prod.snd).Perm (List.range l.length) := by
  by_cases hlt : ∀ ab ∈ l, ab.1 < l.length ∧ ab.2 < l.length
  · obtain ⟨d, hd, hdl, hd1, hd2⟩ := fill_ok hlt
    unfold ofPairs at h
    rw [hd] at h
    change ofVector d = _ at h
    unfold ofVector at h
    cases hm : d.mapM id with
    | none => rw [hm] at h; cases h
    | some l' =>
      rw [hm] at h
      simp only at h
      have hl' := mapM_id_eq_some.1 hm
      have hlen : l'.length = l.length := by rw [← hdl, hl']; simp
      have hsub : List.range l.length ⊆ l.map Prod.fst := by
        intro k hk
        by_contra hc
        have := hd1 k (List.mem_range.1 hk) hc
        rw [hl', List.getElem?_map] at this
        simp at this
      have hfst : (l.map Prod.fst).Perm (List.range l.length) :=
        ((List.nodup_range.subperm hsub).perm_of_length_le (by simp)).symm
      refine ⟨hfst, ?_⟩
      have hn := hfst.nodup_iff.2 List.nodup_range
      have himg := perm_of_ofImages_ok h
      rw [hlen] at himg
      have hsub2 : List.range l.length ⊆ l.map Prod.snd := by
        intro v hv
        obtain ⟨k, hk, hkv⟩ := List.getElem_of_mem (himg.mem_iff.2 hv)
        have hk' : k ∈ l.map Prod.fst := hsub (List.mem_range.2 (by omega))
        obtain ⟨⟨k', w⟩, hkw, rfl⟩ := List.mem_map.1 hk'
        have := hd2 hn _ hkw
        rw [hl', List.getElem?_map, List.getElem?_eq_getElem hk, hkv] at this
        simp at this
        rw [this]
        exact List.mem_map_of_mem hkw
      exact ((List.nodup_range.subperm hsub2).perm_of_length_le (by simp)).symm
  · unfold ofPairs at h
    rw [fill_error hlt] at h
    cases h

theorem ofPairs_ok {l : List (HE × HE)} {p : Perm} (h : ofPairs l = .ok p) :
    p.WF ∧ p.size = l.length ∧ ∀ kv ∈ l, p.fwd kv.1 = kv.2 := by
  obtain ⟨h1, h2⟩ := perm_of_ofPairs_ok h
  obtain ⟨q, hq, hw⟩ := ofPairs_ok_of_perm h1 h2
  rw [h] at hq
  cases hq
  exact hw

/-- A permutation of the sources with targets in range which are not all distinct is rejected properly. -/
theorem ofPairs_invalid {l : List (HE × HE)} (h1 : (l.map Prod.fst).Perm (List.range l.length))
    (h2 : ∀ v ∈ l.map Prod.snd, v < l.length) (h3 : ¬ (l.map Prod.snd).Nodup) :
    ofPairs l = .error .invalidArgument := by
  have hlt : ∀ ab ∈ l, ab.1 < l.length ∧ ab.2 < l.length := by
    intro ab hab
    exact ⟨List.mem_range.1 (h1.mem_iff.1 (List.mem_map_of_mem hab)), h2 _ (List.mem_map_of_mem hab)⟩
  have hn : (l.map Prod.fst).Nodup := h1.nodup_iff.2 List.nodup_range
  obtain ⟨d, hd, hdl, -, hd2⟩ := fill_ok hlt
  replace hd2 := hd2 hn
  have hex : ∀ k < l.length, ∃ v, (k, v) ∈ l := by
    intro k hk
    have := h1.mem_iff.2 (List.mem_range.2 hk)
    obtain ⟨⟨k', v⟩, hkv, rfl⟩ := List.mem_map.1 this
    exact ⟨v, hkv⟩
  choose! f hf using hex
  have hdeq : d = ((List.range l.length).map f).map some := by
    apply List.ext_getElem?
    intro k
    by_cases hk : k < l.length
    · rw [hd2 _ (hf k hk)]
      simp [hk]
    · rw [List.getElem?_eq_none (by omega), List.getElem?_eq_none (by simp; omega)]
  cases hp : ofPairs l with
  | ok p => exact absurd ((perm_of_ofPairs_ok hp).2.nodup_iff.2 List.nodup_range) h3
  | error e =>
    unfold ofPairs at hp
    rw [hd] at hp
    change ofVector d = _ at hp
    unfold ofVector at hp
    rw [mapM_id_eq_some.2 hdeq] at hp
    simp only at hp
    unfold ofImages at hp
    simp only at hp
    split_ifs at hp with g1 g2 g3
    · rw [← hp]
    · rw [← hp]
    · exfalso
      apply g1
      intro v hv
      obtain ⟨y, hy, rfl⟩ := List.mem_map.1 hv
      simpa using (hlt _ (hf y (List.mem_range.1 hy))).2

/-! ### Construction from cycles -/

theorem length_cyclePairs (c : List HE) : (cyclePairs c).length = c.length := by
  simp [cyclePairs]

theorem fst_cyclePairs (c : List HE) : (cyclePairs c).map Prod.fst = c := by
  unfold cyclePairs; rw [List.map_fst_zip]; simp

theorem snd_cyclePairs (c : List HE) : (cyclePairs c).map Prod.snd = c.rotate 1 := by
  unfold cyclePairs; rw [List.map_snd_zip]; simp

theorem length_flatMap_cyclePairs (cs : List (List HE)) :
    (cs.flatMap cyclePairs).length = (cs.map List.length).sum := by
  simp only [List.length_flatMap, length_cyclePairs]

theorem ofCycles_eq (cs : List (List HE)) : ofCycles cs = ofPairs (cs.flatMap cyclePairs) := by
  unfold ofCycles ofPairs
  simp only [length_flatMap_cyclePairs]

theorem fst_flatMap_cyclePairs (cs : List (List HE)) : (cs.flatMap cyclePairs).map Prod.fst = cs.flatten := by
  induction cs with
  | nil => rfl
  | cons c cs ih => simp [fst_cyclePairs, ih]

theorem snd_flatMap_cyclePairs (cs : List (List HE)) :
    ((cs.flatMap cyclePairs).map Prod.snd).Perm cs.flatten := by
  induction cs with
  | nil => rfl
  | cons c cs ih =>
    simp only [List.flatMap_cons, List.map_append, snd_cyclePairs, List.flatten_cons]
    exact (List.rotate_perm c 1).append ih

theorem ofCycles_ok_iff {cs : List (List HE)} :
    (∃ p, ofCycles cs = .ok p) ↔ cs.flatten.Perm (List.range cs.flatten.length) := by
  have hl : (cs.flatMap cyclePairs).length = cs.flatten.length := by
    rw [length_flatMap_cyclePairs, List.length_flatten]
  rw [ofCycles_eq]
  constructor
  · rintro ⟨p, hp⟩
    have := (perm_of_ofPairs_ok hp).1
    rwa [fst_flatMap_cyclePairs, hl] at this
  · intro h
    obtain ⟨p, hp, -⟩ := ofPairs_ok_of_perm (l := cs.flatMap cyclePairs)
      (by rw [fst_flatMap_cyclePairs, hl]; exact h)
      (by rw [hl]; exact (snd_flatMap_cyclePairs cs).trans h)
    exact ⟨p, hp⟩

theorem ofCycles_ok {cs : List (List HE)} {p : Perm} (h : ofCycles cs = .ok p) :
    p.WF ∧ p.size = cs.flatten.length ∧ ∀ c ∈ cs, ∀ i (hi : i < c.length),
      p.fwd c[i] = c[(i + 1) % c.length]'(Nat.mod_lt _ (by omega)) := by
  rw [ofCycles_eq] at h
  obtain ⟨h1, h2, h3⟩ := ofPairs_ok h
  refine ⟨h1, by rw [h2, length_flatMap_cyclePairs, List.length_flatten], ?_⟩
  intro c hc i hi
  refine h3 (c[i], c[(i + 1) % c.length]'(Nat.mod_lt _ (by omega))) ?_
  rw [List.mem_flatMap]
  refine ⟨c, hc, ?_⟩
  unfold cyclePairs
  rw [List.mem_iff_getElem]
  exact ⟨i, by simpa using hi, by simp [List.getElem_rotate]⟩

/-! ### Cycles -/

theorem WF.iterate_lt {p : Perm} (hp : p.WF) {s : HE} (hs : s < p.size) (k : ℕ) : p.fwd^[k] s < p.size := by
  induction k with
  | zero => exact hs
  | succ k ih => rw [iterate_succ_apply', hp.fwd_lt]; exact ih

theorem WF.iterate_inj {p : Perm} (hp : p.WF) (k : ℕ) : Injective (p.fwd^[k]) :=
  Injective.iterate (fun _ _ h => hp.inj h) k

/-- Every element returns to itself after at most `size` steps. -/
theorem WF.exists_period {p : Perm} (hp : p.WF) {s : HE} (hs : s < p.size) :
    ∃ k, 0 < k ∧ k ≤ p.size ∧ p.fwd^[k] s = s := by
  have : ∃ i ∈ Finset.range (p.size + 1), ∃ j ∈ Finset.range (p.size + 1), i ≠ j ∧ p.fwd^[i] s = p.fwd^[j] s := by
    apply Finset.exists_ne_map_eq_of_card_lt_of_maps_to (t := Finset.range p.size)
    · simp
    · intro i _
      simpa using hp.iterate_lt hs i
  obtain ⟨i, hi, j, hj, hij, h⟩ := this
  rw [Finset.mem_range] at hi hj
  have key : ∀ i j, i < j → j < p.size + 1 → p.fwd^[i] s = p.fwd^[j] s →
      ∃ k, 0 < k ∧ k ≤ p.size ∧ p.fwd^[k] s = s := by
    intro i j hij hj h
    refine ⟨j - i, by omega, by omega, ?_⟩
    apply hp.iterate_inj i
    rw [← iterate_add_apply, h]
    congr 2
    omega
  rcases Nat.lt_or_gt_of_ne hij with hl | hl
  · exact key i j hl hj h
  · exact key j i hl hi h.symm

theorem walk_eq {p : Perm} {t : HE} (k n : ℕ) (s : HE) (hk : 0 < k) (hkn : k ≤ n) (h : p.fwd^[k] s = t)
    (hmin : ∀ j, 0 < j → j < k → p.fwd^[j] s ≠ t) : walk p t n s = some (List.iterate p.fwd s k) := by
  induction n generalizing k s with
  | zero => omega
  | succ n ih =>
    obtain ⟨k, rfl⟩ : ∃ k', k = k' + 1 := ⟨k - 1, by omega⟩
    rw [walk]
    by_cases hk0 : k = 0
    · subst hk0
      rw [if_pos (by simpa using h)]
      rfl
    · rw [if_neg (by have := hmin 1 (by omega) (by omega); simpa using this)]
      rw [ih k (p.fwd s) (by omega) (by omega) (by simpa using h)]
      · rfl
      · intro j hj hjk
        have := hmin (j + 1) (by omega) (by omega)
        simpa using this

theorem cycle_eq {p : Perm} (hp : p.WF) {s : HE} (hs : s < p.size) :
    ∃ k, 0 < k ∧ p.fwd^[k] s = s ∧ (∀ j, 0 < j → j < k → p.fwd^[j] s ≠ s) ∧
      cycle p s = some (List.iterate p.fwd s k) := by
  classical
  have hex := hp.exists_period hs
  have hex' : ∃ k, 0 < k ∧ p.fwd^[k] s = s := ⟨hex.choose, hex.choose_spec.1, hex.choose_spec.2.2⟩
  refine ⟨Nat.find hex', (Nat.find_spec hex').1, (Nat.find_spec hex').2, ?_, ?_⟩
  · intro j hj hjk hc
    exact Nat.find_min hex' hjk ⟨hj, hc⟩
  · apply walk_eq
    · exact (Nat.find_spec hex').1
    · obtain ⟨k, h1, h2, h3⟩ := hex
      exact (Nat.find_min' hex' ⟨h1, h3⟩).trans h2
    · exact (Nat.find_spec hex').2
    · intro j hj hjk hc
      exact Nat.find_min hex' hjk ⟨hj, hc⟩

/-- A list which follows the permutation and closes up. -/
def IsCycle (p : Perm) (c : List HE) : Prop :=
  c ≠ [] ∧ c.Nodup ∧ ∀ i (hi : i < c.length), p.fwd c[i] = c[(i + 1) % c.length]'(Nat.mod_lt _ (by omega))

theorem cycle_spec {p : Perm} (hp : p.WF) {s : HE} (hs : s < p.size) :
    ∃ c, cycle p s = some c ∧ IsCycle p c ∧ c.head? = some s ∧
      (∀ x, x ∈ c ↔ ∃ k, p.fwd^[k] s = x) := by
  obtain ⟨k, hk, hks, hmin, hc⟩ := cycle_eq hp hs
  have hg : ∀ i (hi : i < (List.iterate p.fwd s k).length), (List.iterate p.fwd s k)[i] = p.fwd^[i] s := by
    intro i hi; simp
  refine ⟨_, hc, ⟨?_, ?_, ?_⟩, ?_, ?_⟩
  · intro h
    have := congrArg List.length h
    simp at this; omega
  · rw [List.nodup_iff_injective_getElem]
    intro i j hij
    simp only [hg] at hij
    have hi := i.2; have hj := j.2
    simp only [List.length_iterate] at hi hj
    ext
    rcases Nat.lt_trichotomy i.1 j.1 with h | h | h
    · exfalso
      refine hmin (j.1 - i.1) (by omega) (by omega) ?_
      apply hp.iterate_inj i.1
      rw [← iterate_add_apply, hij]; congr 2; omega
    · exact h
    · exfalso
      refine hmin (i.1 - j.1) (by omega) (by omega) ?_
      apply hp.iterate_inj j.1
      rw [← iterate_add_apply, ← hij]; congr 2; omega
  · intro i hi
    rw [hg, hg, ← iterate_succ_apply' p.fwd]
    simp only [List.length_iterate] at hi ⊢
    rcases Nat.lt_or_ge (i + 1) k with h | h
    · rw [Nat.mod_eq_of_lt h]
    · have : i + 1 = k := by omega
      rw [Nat.succ_eq_add_one, this, Nat.mod_self, hks]; rfl
  · obtain ⟨k, rfl⟩ : ∃ k', k = k' + 1 := ⟨k - 1, by omega⟩
    rfl
  · intro x
    rw [List.mem_iterate]
    constructor
    · rintro ⟨m, -, rfl⟩; exact ⟨m, rfl⟩
    · rintro ⟨m, rfl⟩
      refine ⟨m % k, Nat.mod_lt _ hk, ?_⟩
      have hper : ∀ q, p.fwd^[k * q] s = s := by
        intro q
        rw [iterate_mul]
        exact iterate_fixed hks q
      have h2 := congrArg (fun j => p.fwd^[j] s) (Nat.mod_add_div m k)
      rw [iterate_add_apply, hper] at h2
      exact h2.symm

theorem IsCycle.fwd_mem {p : Perm} (hp : p.WF) {c : List HE} (hc : IsCycle p c) (x : HE) :
    p.fwd x ∈ c ↔ x ∈ c := by
  constructor
  · intro h
    obtain ⟨j, hj, hjx⟩ := List.getElem_of_mem h
    have hlt : (j + (c.length - 1)) % c.length < c.length := Nat.mod_lt _ (by omega)
    have := hc.2.2 ((j + (c.length - 1)) % c.length) hlt
    have h2 : ((j + (c.length - 1)) % c.length + 1) % c.length = j := by
      rw [Nat.mod_add_mod]
      have : j + (c.length - 1) + 1 = j + c.length := by omega
      rw [this, Nat.add_mod_right, Nat.mod_eq_of_lt hj]
    simp only [h2] at this
    rw [hjx] at this
    rw [← hp.inj this]
    exact List.getElem_mem _
  · intro h
    obtain ⟨j, hj, rfl⟩ := List.getElem_of_mem h
    rw [hc.2.2 j hj]
    exact List.getElem_mem _

theorem cyclesLoop_spec {p : Perm} (hp : p.WF) (ts seen : List HE) (hts : ∀ t ∈ ts, t < p.size)
    (hseen : ∀ x, p.fwd x ∈ seen ↔ x ∈ seen) :
    ∃ cs, cyclesLoop p seen ts = some cs ∧ (∀ c ∈ cs, IsCycle p c) ∧ cs.flatten.Nodup ∧
      (∀ x ∈ cs.flatten, x < p.size ∧ x ∉ seen) ∧ ∀ t ∈ ts, t ∈ seen ∨ t ∈ cs.flatten := by
  induction ts generalizing seen with
  | nil => exact ⟨[], rfl, by simp, by simp, by simp, by simp⟩
  | cons t ts ih =>
    have hts' : ∀ t ∈ ts, t < p.size := fun x hx => hts x (List.mem_cons_of_mem _ hx)
    rw [cyclesLoop]
    by_cases ht : t ∈ seen
    · obtain ⟨cs, h1, h2, h3, h4, h5⟩ := ih seen hts' hseen
      rw [if_pos ht]
      refine ⟨cs, h1, h2, h3, h4, ?_⟩
      intro x hx
      rcases List.mem_cons.1 hx with rfl | hx
      exacts [Or.inl ht, h5 x hx]
    · rw [if_neg ht]
      have htp := hts t List.mem_cons_self
      obtain ⟨c, hc, hcc, hch, hcm⟩ := cycle_spec hp htp
      obtain ⟨cs, h1, h2, h3, h4, h5⟩ := ih (c ++ seen) hts' (fun x => by
        rw [List.mem_append, List.mem_append, hcc.fwd_mem hp, hseen])
      refine ⟨c :: cs, ?_, ?_, ?_, ?_, ?_⟩
      · rw [hc]; simp [h1]
      · intro d hd
        rcases List.mem_cons.1 hd with rfl | hd
        exacts [hcc, h2 d hd]
      · rw [List.flatten_cons, List.nodup_append]
        refine ⟨hcc.2.1, h3, ?_⟩
        intro a ha b hb hab
        subst hab
        exact (h4 a hb).2 (List.mem_append_left _ ha)
      · intro x hx
        rw [List.flatten_cons, List.mem_append] at hx
        rcases hx with hx | hx
        · obtain ⟨k, rfl⟩ := (hcm x).1 hx
          refine ⟨hp.iterate_lt htp k, ?_⟩
          have : ∀ k, p.fwd^[k] t ∉ seen := by
            intro k
            induction k with
            | zero => exact ht
            | succ k ihk => rw [iterate_succ_apply', hseen]; exact ihk
          exact this k
        · exact ⟨(h4 x hx).1, fun hc => (h4 x hx).2 (List.mem_append_right _ hc)⟩
      · intro x hx
        rw [List.flatten_cons, List.mem_append]
        rcases List.mem_cons.1 hx with rfl | hx
        · exact Or.inr (Or.inl ((hcm x).2 ⟨0, rfl⟩))
        · rcases h5 x hx with h | h
          · rcases List.mem_append.1 h with h | h
            exacts [Or.inr (Or.inl h), Or.inl h]
          · exact Or.inr (Or.inr h)

theorem mem_domain {p : Perm} (hp : p.WF) (x : HE) : x ∈ p.domain ↔ x < p.size := by
  unfold domain
  rw [List.mem_map]
  constructor
  · rintro ⟨y, hy, rfl⟩
    exact hp.fwd_lt.2 (List.mem_range.1 hy)
  · intro hx
    exact ⟨p.inv x, List.mem_range.2 (hp.inv_lt.2 hx), hp.right x⟩

theorem cycles_spec {p : Perm} (hp : p.WF) :
    ∃ cs, p.cycles = some cs ∧ (∀ c ∈ cs, IsCycle p c) ∧ cs.flatten.Perm (List.range p.size) := by
  obtain ⟨cs, h1, h2, h3, h4, h5⟩ := cyclesLoop_spec hp p.domain [] (fun t ht => (mem_domain hp t).1 ht) (by simp)
  refine ⟨cs, h1, h2, ?_⟩
  rw [List.perm_ext_iff_of_nodup h3 List.nodup_range]
  intro x
  rw [List.mem_range]
  constructor
  · exact fun hx => (h4 x hx).1
  · intro hx
    rcases h5 x ((mem_domain hp x).2 hx) with h | h
    · cases h
    · exact h

theorem ofCycles_cycles {p : Perm} (hp : p.WF) {cs : List (List HE)} (hc : ∀ c ∈ cs, IsCycle p c)
    (hf : cs.flatten.Perm (List.range p.size)) : ofCycles cs = .ok p := by
  have hlen : cs.flatten.length = p.size := by rw [hf.length_eq]; simp
  obtain ⟨q, hq⟩ := ofCycles_ok_iff.2 (by rw [hlen]; exact hf)
  obtain ⟨h1, h2, h3⟩ := ofCycles_ok hq
  rw [hq]
  congr 1
  refine h1.ext hp (h2.trans hlen) fun i hi => ?_
  have : i ∈ cs.flatten := hf.mem_iff.2 (List.mem_range.2 (by omega))
  obtain ⟨c, hcs, hic⟩ := List.mem_flatten.1 this
  obtain ⟨j, hj, rfl⟩ := List.getElem_of_mem hic
  rw [h3 c hcs j hj, (hc c hcs).2.2 j hj]

/-- Equality of permutations compares the arrays of images. -/
theorem beq_iff {p q : Perm} (hp : p.WF) (hq : q.WF) : p.beq q = true ↔ p = q := by
  unfold beq domain
  rw [beq_iff_eq]
  constructor
  · intro h
    have hs : p.size = q.size := by simpa using congrArg List.length h
    refine hp.ext hq hs fun i hi => ?_
    have := congrArg (fun l => l[i]?) h
    simp only [List.getElem?_map] at this
    rw [List.getElem?_range hi, List.getElem?_range (by omega)] at this
    simpa using this
  · rintro rfl; rfl

theorem trivial_iff {p : Perm} (hp : p.WF) : p.trivial = true ↔ ∀ i < p.size, p.fwd i = i := by
  unfold trivial
  rw [List.all_eq_true]
  simp only [beq_iff_eq]
  exact forall_congr' fun i => by rw [mem_domain hp]

/-! ### Removing elements -/

theorem drop_spec {p q : Perm} (hp : p.WF) {items : List HE} (hn : items.Nodup) (h : p.drop items = .ok q) :
    q.WF ∧ q.size + items.length = p.size ∧ (∀ x, x ∈ items ↔ q.size ≤ x ∧ x < p.size) ∧
      ∀ i < q.size, q.fwd i = p.fwd i := by
  unfold drop at h
  split_ifs at h with h1 h2 h3
  push Not at h1 h2 h3
  cases h
  simp only
  have hle : items.length ≤ p.size := by
    have : items ⊆ List.range p.size := fun x hx => List.mem_range.2 (h1 x hx)
    simpa using (hn.subperm this).length_le
  have hmem : ∀ x, x ∈ items ↔ p.size - items.length ≤ x ∧ x < p.size := by
    intro x
    have hsub : items ⊆ (List.range' (p.size - items.length) items.length) := by
      intro y hy
      rw [List.mem_range'_1]
      have := h1 y hy
      have := h3 y hy
      omega
    have hperm := (hn.subperm hsub).perm_of_length_le (by simp)
    rw [hperm.mem_iff, List.mem_range'_1]
    omega
  have hfwd : ∀ i, i < p.size - items.length → p.fwd i < p.size - items.length := by
    intro i hi
    by_contra hc
    have hlt : p.fwd i < p.size := hp.fwd_lt.2 (by omega)
    have hin : p.fwd i ∈ items := (hmem _).2 ⟨by omega, hlt⟩
    -- the items are closed under the permutation, hence it permutes them
    have hcl : (items.map p.fwd).Perm items :=
      ((hn.map fun _ _ h => hp.inj h).subperm (fun y hy => by
        obtain ⟨z, hz, rfl⟩ := List.mem_map.1 hy
        exact h2 z hz)).perm_of_length_le (by simp)
    obtain ⟨z, hz, hzi⟩ := List.mem_map.1 (hcl.mem_iff.2 hin)
    rw [hp.inj hzi] at hz
    have := (hmem _).1 hz
    omega
  have hinv : ∀ i, i < p.size - items.length → p.inv i < p.size - items.length := by
    intro i hi
    by_contra hc
    have hlt : p.inv i < p.size := hp.inv_lt.2 (by omega)
    have := h2 (p.inv i) ((hmem _).2 ⟨by omega, hlt⟩)
    rw [hp.right, hmem] at this
    omega
  refine ⟨⟨?_, ?_, ?_⟩, by omega, hmem, ?_⟩
  · intro i
    simp only
    split_ifs with g1 g2
    · exact hp.left i
    · exact absurd (hfwd i g1) g2
    · rfl
  · intro i
    simp only
    split_ifs with g1 g2
    · exact hp.right i
    · exact absurd (hinv i g1) g2
    · rfl
  · intro i hi
    simp only at hi ⊢
    rw [if_neg (by omega)]
  · intro i hi
    rw [if_pos hi]

end Verif.Perm
