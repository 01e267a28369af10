import Verif.Model.Slit
import Verif.Lemmas.TriInsert
import Mathlib.Logic.Equiv.Basic

/-!
# Slitting an edge
-/

namespace Verif.Tri

open Verif Spec Function Equiv

/-- The permutation at the vertices before any vertex is split. -/
def slitBase (T : Tri) (e h ee : HE) (x : HE) : HE := T.vertices.fwd (swap e ee (swap h (neg ee) x))

theorem slit_fold {T : Tri} {n e h ee : HE} (hn : T.size = n) (hee : ee = n) (hne : neg ee = n + 1)
    (he : e < n) (hh : h < n) (hhe : h ≠ e) (hvh : T.vertices.fwd h = neg e)
    (hu : ∀ x, T.vertices.fwd x = neg e → x = h) (hout : ∀ x, n ≤ x → T.vertices.fwd x = x) :
    ∀ k < n + 2, T.halfEdges.foldl (slitStep T e ee) (fun _ => none) k = some (slitBase T e h ee k) := by
  have b1 : slitBase T e h ee e = ee := by
    unfold slitBase
    rw [swap_apply_of_ne_of_ne hhe.symm (by omega), swap_apply_left, hout _ (by omega)]
  have b2 : slitBase T e h ee ee = T.vertices.fwd e := by
    unfold slitBase
    rw [swap_apply_of_ne_of_ne (a := h) (by omega) (by omega), swap_apply_right]
  have b3 : slitBase T e h ee h = neg ee := by
    unfold slitBase
    rw [swap_apply_left, swap_apply_of_ne_of_ne (by omega) (by omega), hout _ (by omega)]
  have b4 : slitBase T e h ee (neg ee) = neg e := by
    unfold slitBase
    rw [swap_apply_right, swap_apply_of_ne_of_ne hhe (by omega), hvh]
  have b5 : ∀ x < n, x ≠ e → x ≠ h → slitBase T e h ee x = T.vertices.fwd x := by
    intro x hx h1 h2
    unfold slitBase
    rw [swap_apply_of_ne_of_ne h2 (by omega), swap_apply_of_ne_of_ne h1 (by omega)]
  have key : ∀ m ≤ n, (∀ k < m, (List.range m).foldl (slitStep T e ee) (fun _ => none) k = some (slitBase T e h ee k)) ∧
      (e < m → (List.range m).foldl (slitStep T e ee) (fun _ => none) ee = some (slitBase T e h ee ee)) ∧
      (h < m → (List.range m).foldl (slitStep T e ee) (fun _ => none) (neg ee) = some (slitBase T e h ee (neg ee))) := by
    intro m
    induction m with
    | zero => intro _; exact ⟨fun k hk => absurd hk (Nat.not_lt_zero _), fun hk => absurd hk (Nat.not_lt_zero _),
        fun hk => absurd hk (Nat.not_lt_zero _)⟩
    | succ m ih =>
      intro hm
      obtain ⟨i1, i2, i3⟩ := ih (by omega)
      rw [List.range_succ, List.foldl_append, List.foldl_cons, List.foldl_nil]
      set M := (List.range m).foldl (slitStep T e ee) (fun _ => none)
      unfold slitStep
      by_cases c1 : m = e
      · rw [if_pos c1]
        refine ⟨fun k hk => ?_, fun hk => ?_, fun hk => ?_⟩
        · rw [update_of_ne (by omega)]
          by_cases hke : k = e
          · rw [hke, update_self, b1]
          · rw [update_of_ne hke]; exact i1 k (by omega)
        · rw [update_self, b2]
        · rw [update_of_ne (by omega), update_of_ne (by omega)]
          exact i3 (by omega)
      · rw [if_neg c1]
        by_cases c2 : T.vertices.fwd m = neg e
        · rw [if_pos c2]
          have hmh := hu m c2
          refine ⟨fun k hk => ?_, fun hk => ?_, fun hk => ?_⟩
          · rw [update_of_ne (by omega)]
            by_cases hke : k = m
            · rw [hke, update_self, hmh, b3]
            · rw [update_of_ne hke]; exact i1 k (by omega)
          · rw [update_of_ne (by omega), update_of_ne (by omega)]
            exact i2 (by omega)
          · rw [update_self, b4]
        · rw [if_neg c2]
          have hmh : m ≠ h := fun hc => c2 (by rw [hc]; exact hvh)
          refine ⟨fun k hk => ?_, fun hk => ?_, fun hk => ?_⟩
          · by_cases hke : k = m
            · rw [hke, update_self, b5 m (by omega) c1 hmh]
            · rw [update_of_ne hke]; exact i1 k (by omega)
          · rw [update_of_ne (by omega)]
            exact i2 (by omega)
          · rw [update_of_ne (by omega)]
            exact i3 (by omega)
  obtain ⟨k1, k2, k3⟩ := key n le_rfl
  unfold halfEdges
  rw [hn]
  intro k hk
  by_cases c1 : k = ee
  · rw [c1]; exact k2 he
  by_cases c2 : k = neg ee
  · rw [c2]; exact k3 hh
  exact k1 k (by omega)

theorem findBoundary_some {T : Tri} {stop c b : HE} {k : ℕ} (h : findBoundary T stop k c = some (some b)) :
    T.faces.fwd b = b ∧ ∃ l, T.vertices.fwd^[l] c = b ∧ ∀ j ≤ l, T.vertices.fwd^[j] c ≠ stop := by
  induction k generalizing c with
  | zero => cases h
  | succ k ih =>
    unfold findBoundary at h
    split_ifs at h with h1 h2
    · cases h
    · cases h
      refine ⟨(boundary_true).1 h2, 0, rfl, ?_⟩
      intro j hj
      rw [Nat.le_zero.1 hj]
      exact h1
    · obtain ⟨i1, l, i2, i3⟩ := ih h
      refine ⟨i1, l + 1, i2, ?_⟩
      intro j hj
      rcases j with _ | j
      · exact h1
      · exact i3 j (by omega)

theorem findBoundary_none {T : Tri} {stop c : HE} {k : ℕ} (h : findBoundary T stop k c = some none) :
    ∃ l, T.vertices.fwd^[l] c = stop ∧ ∀ j < l, T.faces.fwd (T.vertices.fwd^[j] c) ≠ T.vertices.fwd^[j] c := by
  induction k generalizing c with
  | zero => cases h
  | succ k ih =>
    unfold findBoundary at h
    split_ifs at h with h1 h2
    · exact ⟨0, h1, fun j hj => absurd hj (Nat.not_lt_zero _)⟩
    · cases h
    · obtain ⟨l, i2, i3⟩ := ih h
      refine ⟨l + 1, i2, ?_⟩
      intro j hj
      rcases j with _ | j
      · exact fun hc => h2 (boundary_true.2 hc)
      · exact i3 j (by omega)

theorem findBoundary_ne_none {T : Tri} {stop c : HE} {k l : ℕ} (hl : T.vertices.fwd^[l] c = stop) (hk : l < k) :
    ∃ b, findBoundary T stop k c = some b := by
  induction k generalizing c l with
  | zero => omega
  | succ k ih =>
    unfold findBoundary
    split_ifs with h1 h2
    · exact ⟨_, rfl⟩
    · exact ⟨_, rfl⟩
    · rcases l with _ | l
      · exact absurd hl h1
      · exact ih (l := l) hl (by omega)

/-- There is no boundary half edge at the source of `e` other than possibly `e` itself. -/
theorem no_boundary {T : Tri} {e : HE} {k : ℕ}
    (hf : findBoundary T e k (T.vertices.fwd e) = some none) {b : HE} (hb : T.faces.fwd b = b)
    (ho : T.vertices.Orb e b) : b = e := by
  obtain ⟨l, h1, h2⟩ := findBoundary_none hf
  rw [← iterate_succ_apply] at h1
  obtain ⟨j, hj⟩ := ho
  have hp : ∀ q, T.vertices.fwd^[(l + 1) * q] e = e := by
    intro q
    induction q with
    | zero => rfl
    | succ q ih => rw [Nat.mul_succ, iterate_add_apply, h1, ih]
  have hj' : T.vertices.fwd^[j % (l + 1)] e = b := by
    rw [← hj]
    conv_rhs => rw [← Nat.mod_add_div j (l + 1), iterate_add_apply, hp]
  rcases hq : j % (l + 1) with _ | q
  · rw [hq] at hj'; exact hj'.symm
  · have hlt : j % (l + 1) < l + 1 := Nat.mod_lt j (Nat.succ_pos l)
    have := h2 q (by omega)
    rw [← iterate_succ_apply] at this
    rw [hq] at hj'
    exact absurd (by rw [hj', hb]) this

theorem mapEntries_ok {m : HE → Option HE} {n : ℕ} {f : HE → HE} (hm : ∀ k < n, m k = some (f k)) :
    mapEntries m n = (List.range n).map fun k => (k, f k) := by
  unfold mapEntries
  rw [← List.filterMap_eq_map]
  apply List.filterMap_congr
  intro k hk
  rw [hm k (List.mem_range.1 hk)]
  rfl

theorem ofPairs_range {n : ℕ} {f : HE → HE} (hi : Injective f) (hlt : ∀ k < n, f k < n) (hout : ∀ k, n ≤ k → f k = k) :
    ∃ p, Perm.ofPairs ((List.range n).map fun k => (k, f k)) = .ok p ∧ p.WF ∧ p.size = n ∧ ∀ k, p.fwd k = f k := by
  have hsnd : ((List.range n).map f).Perm (List.range n) := by
    have := Perm.map_range_perm (p := ⟨n, id, id⟩) f hi hlt
    simpa using this
  obtain ⟨p, h1, h2, h3, h4⟩ := Perm.ofPairs_ok_of_perm (l := (List.range n).map fun k => (k, f k))
    (by simp [Function.comp_def]) (by simpa [Function.comp_def] using hsnd)
  simp only [List.length_map, List.length_range] at h3
  refine ⟨p, h1, h2, h3, fun k => ?_⟩
  by_cases hk : k < n
  · exact h4 (k, f k) (List.mem_map.2 ⟨k, List.mem_range.2 hk, rfl⟩)
  · rw [h2.out k (by omega), hout k (by omega)]

/-- The surface after `e` has been slit; `b` and `c` are the half edges at which the vertices have been split (or `e`
and `-ee` if there was nothing to split). -/
structure Slitted (T T' : Tri) (e h b c : HE) : Prop where
  vsize : T'.size = T.size + 2
  v : ∀ x, T'.vertices.fwd x = slitBase T e h T.size (swap b e (swap c (T.size + 1) x))
  f : ∀ x, T'.faces.fwd x = swap e T.size (T.faces.fwd (swap e T.size x))

theorem slit_make (dbg : Bool) {T : Tri} (hc : T.Coherent) {n e h b c : HE} (hn : T.size = n)
    (nb : T.faces.fwd e ≠ e) (nb' : T.faces.fwd (neg e) ≠ neg e) (hvh : T.vertices.fwd h = neg e)
    (hb : b = e ∨ (b < n ∧ T.faces.fwd b = b)) (hcb : c = n + 1 ∨ (c < n ∧ T.faces.fwd c = c)) (hbc : b ≠ c)
    {p : Perm} (hw : p.WF)
    (hs : p.size = n + 2) (hp : ∀ x, p.fwd x = slitBase T e h n (swap b e (swap c (n + 1) x))) :
    ∃ T', make dbg p (p.domain.filter fun x => x = e ∨ x = neg n ∨ (x ≠ n ∧ T.boundary x)) = .ok T' ∧
      T'.vertices = p ∧ ∀ x, T'.faces.fwd x = swap e n (T.faces.fwd (swap e n x)) := by
  have hev : n % 2 = 0 := by rw [← hn]; exact hc.even
  obtain ⟨n0, n1, -⟩ := neg_new hev
  have hes : e < n := by rw [← hn]; exact hc.lt_of_not_boundary nb
  have hvlt : ∀ x, T.vertices.fwd x < n ↔ x < n := fun x => by rw [← hn]; exact hc.hv.fwd_lt
  have hneg : ∀ x, neg x < n ↔ x < n := fun x => by rw [← hn]; exact hc.neg_lt x
  have hhs : h < n := by rw [← hvlt, hvh, hneg]; exact hes
  have hhe : h ≠ e := by
    rintro rfl
    have := hc.link h nb
    rw [hvh, neg_neg'] at this
    exact nb this
  have hvout : ∀ x, n ≤ x → T.vertices.fwd x = x := fun x hx => hc.hv.out x (by rw [← hn] at hx; exact hx)
  have hfout : ∀ x, n ≤ x → T.faces.fwd x = x := fun x hx => hc.hf.out x (by rw [hc.hs]; rw [← hn] at hx; exact hx)
  have hhb : T.faces.fwd h ≠ h := by
    intro hx
    have := hc.bdry hx
    rw [hvh, neg_neg'] at this
    exact nb this
  have hfe : T.faces.fwd e = h := by
    have := hc.link h hhb
    rwa [hvh, neg_neg'] at this
  have hB : ∀ x, x ∈ p.domain.filter (fun x => x = e ∨ x = neg n ∨ (x ≠ n ∧ T.boundary x)) ↔
      x < n + 2 ∧ (x = e ∨ x = n + 1 ∨ (x ≠ n ∧ T.faces.fwd x = x)) := by
    intro x
    rw [List.mem_filter, Perm.mem_domain hw, hs, decide_eq_true_iff, boundary_true, n0]
  set B := p.domain.filter (fun x => x = e ∨ x = neg n ∨ (x ≠ n ∧ T.boundary x)) with hBdef
  have s1 : ∀ x, x ≠ e → x ≠ n → swap e n x = x := fun x h1 h2 => swap_apply_of_ne_of_ne h1 h2
  have hbn : b < n := by rcases hb with rfl | hb; exacts [hes, hb.1]
  have hout : ∀ x < p.size, x ∉ B → (fun x => swap e n (T.faces.fwd (swap e n x))) (neg (p.fwd x)) = x ∧
      swap e n (T.faces.fwd (swap e n x)) ≠ x := by
    intro x hx hxB
    rw [hs] at hx
    have hxB' : ¬ (x = e ∨ x = n + 1 ∨ (x ≠ n ∧ T.faces.fwd x = x)) := fun h' => hxB ((hB x).2 ⟨hx, h'⟩)
    push Not at hxB'
    obtain ⟨x1, x2, x3⟩ := hxB'
    have xc : x ≠ c := by
      rcases hcb with rfl | hcb
      · exact x2
      · rintro rfl; exact x3 (by have := hcb.1; clear * - this; omega) hcb.2
    have xb : x ≠ b := by
      rcases hb with rfl | hb
      · exact x1
      · rintro rfl; exact x3 (by have := hb.1; clear * - this; omega) hb.2
    have hpx : p.fwd x = slitBase T e h n x := by
      rw [hp, swap_apply_of_ne_of_ne xc x2, swap_apply_of_ne_of_ne xb x1]
    have hpx' : p.fwd x = T.vertices.fwd (swap e n (swap h (n + 1) x)) := by
      rw [hpx]; unfold slitBase; rw [n0]
    dsimp only
    by_cases c1 : x = n
    · subst c1
      rw [swap_apply_of_ne_of_ne (a := h) (by clear * - hhs; omega) (by clear * -; omega), swap_apply_right] at hpx'
      rw [hpx', s1 (neg (T.vertices.fwd e)), hc.link e nb, swap_apply_left]
      · refine ⟨rfl, ?_⟩
        rw [swap_apply_right, hfe, s1 h hhe (by clear * - hhs; omega)]
        clear * - hhs; omega
      · intro hx
        have := hc.link e nb
        rw [hx] at this
        exact nb this
      · have := (hneg _).2 ((hvlt e).2 hes)
        clear * - this; omega
    have hxn : x < n := by clear * - hx c1 x2; omega
    have hxb : T.faces.fwd x ≠ x := x3 c1
    refine ⟨?_, ?_⟩
    · by_cases c2 : x = h
      · rw [c2, swap_apply_left, s1 _ (by clear * - hes; omega) (by clear * -; omega), hvout _ (by clear * -; omega)] at hpx'
        rw [c2, hpx', n1, swap_apply_right, hfe, s1 h hhe (by clear * - hhs; omega)]
      · rw [swap_apply_of_ne_of_ne c2 x2, s1 x x1 c1] at hpx'
        rw [hpx', s1 (neg (T.vertices.fwd x)) ?_ ?_, hc.link x hxb, s1 x x1 c1]
        · intro hx'
          have := hc.link x hxb
          rw [hx', hfe] at this
          exact c2 this.symm
        · have := (hneg _).2 ((hvlt x).2 hxn)
          clear * - this; omega
    · rw [s1 x x1 c1]
      intro hx'
      have := congrArg (swap e n) hx'
      rw [swap_apply_self] at this
      rw [s1 x x1 c1] at this
      exact hxb this
  have hfix : ∀ x, (x = e ∨ x = n + 1 ∨ (x ≠ n ∧ T.faces.fwd x = x)) → swap e n (T.faces.fwd (swap e n x)) = x := by
    rintro x (rfl | rfl | ⟨h1, h2⟩)
    · rw [swap_apply_left, hfout n le_rfl, swap_apply_right]
    · rw [s1 (n + 1) (by clear * - hes; omega) (by clear * -; omega), hfout (n + 1) (by clear * -; omega),
        s1 (n + 1) (by clear * - hes; omega) (by clear * -; omega)]
    · have h3 : x ≠ e := by rintro rfl; exact nb h2
      rw [s1 x h3 h1, h2, s1 x h3 h1]
  have hneg2 : ∀ x, x < n + 2 → neg x < n + 2 := fun x hx => (neg_lt' (by clear * - hev; omega) x).2 hx
  -- images of boundary half edges
  have hbv : ∀ x, x < n → T.faces.fwd x = x → neg (T.vertices.fwd x) ∈ B ∧ x ≠ h ∧ x ≠ e := by
    intro x hx hxb
    have h1 := (hneg _).2 ((hvlt x).2 hx)
    refine ⟨(hB _).2 ⟨by clear * - h1; omega, .inr (.inr ⟨by clear * - h1; omega, hc.bdry hxb⟩)⟩, ?_, ?_⟩
    · rintro rfl; exact hhb hxb
    · rintro rfl; exact nb hxb
  have eB : neg (n : HE) ∈ B := (hB _).2 (by rw [n0]; exact ⟨by clear * -; omega, .inr (.inl rfl)⟩)
  have eB' : neg (neg e) ∈ B := (hB _).2 (by rw [neg_neg']; exact ⟨by clear * - hes; omega, .inl rfl⟩)
  have base_e : slitBase T e h n e = n := by
    unfold slitBase
    rw [swap_apply_of_ne_of_ne hhe.symm (by rw [n0]; clear * - hes; omega), swap_apply_left, hvout _ le_rfl]
  have base_n : slitBase T e h n (n + 1) = neg e := by
    unfold slitBase
    rw [n0, swap_apply_right, s1 h hhe (by clear * - hhs; omega), hvh]
  have base_x : ∀ x < n, x ≠ h → x ≠ e → slitBase T e h n x = T.vertices.fwd x := by
    intro x hx h1 h2
    unfold slitBase
    rw [n0, swap_apply_of_ne_of_ne h1 (by clear * - hx; omega), s1 x h2 (by clear * - hx; omega)]
  have hinB : ∀ x, x ∈ B → neg (p.fwd x) ∈ B := by
    intro x hx
    obtain ⟨h1, h2⟩ := (hB x).1 hx
    rw [hp]
    by_cases c1 : x = c
    · rw [c1, swap_apply_left]
      rw [swap_apply_of_ne_of_ne (by clear * - hbn; omega) (by clear * - hes; omega), base_n]
      exact eB'
    by_cases c2 : x = n + 1
    · rw [c2, swap_apply_right]
      have hcn : c ≠ n + 1 := fun h => c1 (by rw [c2, h])
      have hcb' := hcb.resolve_left hcn
      obtain ⟨k1, k2, k3⟩ := hbv c hcb'.1 hcb'.2
      rw [swap_apply_of_ne_of_ne hbc.symm k3, base_x c hcb'.1 k2 k3]
      exact k1
    rw [swap_apply_of_ne_of_ne c1 c2]
    by_cases c3 : x = b
    · rw [c3, swap_apply_left, base_e]; exact eB
    by_cases c4 : x = e
    · rw [c4, swap_apply_right]
      have hbe : b ≠ e := fun h => c3 (by rw [c4, h])
      have hb' := hb.resolve_left hbe
      obtain ⟨k1, k2, k3⟩ := hbv b hb'.1 hb'.2
      rw [base_x b hb'.1 k2 k3]
      exact k1
    rw [swap_apply_of_ne_of_ne c3 c4]
    have h3 := (h2.resolve_left c4).resolve_left c2
    have hxn : x < n := by have := h3.1; clear * - this h1 c2; omega
    obtain ⟨k1, k2, k3⟩ := hbv x hxn h3.2
    rw [base_x x hxn k2 k3]
    exact k1
  obtain ⟨T', h1, h2, h3⟩ := make_of_faces dbg hw (by rw [hs]; clear * - hev; omega) (B := B)
    (fun x => swap e n (T.faces.fwd (swap e n x))) (by
      intro x hx
      refine ⟨fun hm => ?_, fun hm => hinB x hm⟩
      by_contra hxB
      have := (hout x hx hxB).1
      dsimp only at this
      rw [hfix _ ((hB _).1 hm).2] at this
      rw [this] at hm
      exact hxB hm)
    (fun x hx hxB => hfix x ((hB x).1 hxB).2)
    (fun x hx hxB => ⟨(hout x hx hxB).1, by simp only [swap_apply_self, hc.tri], (hout x hx hxB).2⟩)
  refine ⟨T', h1, h2, fun x => ?_⟩
  by_cases hx : x < p.size
  · exact h3 x hx
  · have hT' := (make_spec hw h1).1
    rw [hs] at hx
    rw [hT'.hf.out x (by rw [hT'.hs, h2, hs]; clear * - hx; omega), s1 x (by clear * - hx hes; omega) (by clear * - hx; omega),
      hfout x (by clear * - hx; omega), s1 x (by clear * - hx hes; omega) (by clear * - hx; omega)]

theorem Slitted.coherent_aux {T : Tri} (hc : T.Coherent) {e : HE} (he : e < T.size) :
    ∃ b, findBoundary T e T.size (T.vertices.fwd e) = some b := by
  obtain ⟨k, h1, h2, h3⟩ := hc.hv.exists_period he
  obtain ⟨l, rfl⟩ : ∃ l, k = l + 1 := ⟨k - 1, by omega⟩
  rw [iterate_succ_apply] at h3
  exact findBoundary_ne_none h3 h2

/-- The half edge at which the vertex of `e` is split, or `e` if there is none. -/
theorem split_spec {T : Tri} (hc : T.Coherent) {e : HE} (he : e < T.size) (nb : T.faces.fwd e ≠ e) {o : Option HE}
    (h : findBoundary T e T.size (T.vertices.fwd e) = some o) :
    (o = none ∧ ∀ b, T.faces.fwd b = b → ¬ T.vertices.Orb e b) ∨
    (∃ b l, o = some b ∧ b < T.size ∧ T.faces.fwd b = b ∧ T.vertices.fwd^[l] (T.vertices.fwd e) = b ∧
      ∀ j ≤ l, T.vertices.fwd^[j] (T.vertices.fwd e) ≠ e) := by
  rcases o with _ | b
  · refine .inl ⟨rfl, fun b hb ho => ?_⟩
    rw [no_boundary h hb ho] at hb
    exact nb hb
  · obtain ⟨h1, l, h2, h3⟩ := findBoundary_some h
    refine .inr ⟨b, l, rfl, ?_, h1, h2, h3⟩
    rw [← h2]
    exact hc.hv.iterate_lt (hc.hv.fwd_lt.2 he) l

theorem slitSplit_spec {T : Tri} {n : ℕ} {e ee : HE} {m : HE → Option HE} {V : HE → HE} {b : HE} (hm : ∀ k < n, m k = some (V k))
    (he : V e = ee) (hb : V b = T.vertices.fwd b) : ∀ k < n, slitSplit T e ee m (some b) k = some (V (swap b e k)) := by
  intro k hk
  unfold slitSplit
  dsimp only
  by_cases h1 : k = e
  · rw [h1, update_self, swap_apply_right, hb]
  rw [update_of_ne h1]
  by_cases h2 : k = b
  · rw [h2, update_self, swap_apply_left, he]
  rw [update_of_ne h2, swap_apply_of_ne_of_ne h2 h1]
  exact hm k hk

/-- How slit works: `b` and `c` are where the vertices are split. -/
theorem Coherent.slit {T : Tri} (hc : T.Coherent) {e : HE} (dbg : Bool)
    (nb : T.faces.fwd e ≠ e) (nb' : T.faces.fwd (neg e) ≠ neg e) (hd : dbg = true → T.hasBoundary = false)
    (hl : T.vertices.Orb e (neg e) → ∀ x, T.faces.fwd x = x → ¬ T.vertices.Orb e x) :
    ∃ T' h b c, T.slit dbg e = .ok T' ∧ T'.Reachable dbg ∧ Slitted T T' e h b c ∧ T.vertices.fwd h = neg e ∧
      h ≠ e ∧ h < T.size ∧
      ((b = e ∧ ∀ x, T.faces.fwd x = x → ¬ T.vertices.Orb e x) ∨
        (b < T.size ∧ T.faces.fwd b = b ∧ ∃ l, T.vertices.fwd^[l] (T.vertices.fwd e) = b ∧
          ∀ j ≤ l, T.vertices.fwd^[j] (T.vertices.fwd e) ≠ e)) ∧
      ((c = T.size + 1 ∧ ∀ x, T.faces.fwd x = x → ¬ T.vertices.Orb (neg e) x) ∨
        (c < T.size ∧ T.faces.fwd c = c ∧ ∃ l, T.vertices.fwd^[l] (T.vertices.fwd (neg e)) = c ∧
          ∀ j ≤ l, T.vertices.fwd^[j] (T.vertices.fwd (neg e)) ≠ neg e)) := by
  have hev := hc.even
  obtain ⟨n0, n1, -⟩ := neg_new hev
  have hes : e < T.size := hc.lt_of_not_boundary nb
  have hes' : neg e < T.size := hc.lt_of_not_boundary nb'
  obtain ⟨h, hvh⟩ : ∃ h, T.vertices.fwd h = neg e := ⟨T.vertices.inv (neg e), hc.hv.right _⟩
  have hhs : h < T.size := by
    have := hc.hv.fwd_lt (i := h)
    rw [hvh] at this
    exact this.1 hes'
  have hhe : h ≠ e := by
    rintro rfl
    have := hc.link h nb
    rw [hvh, neg_neg'] at this
    exact nb this
  have hhb : T.faces.fwd h ≠ h := by
    intro hx
    have := hc.bdry hx
    rw [hvh, neg_neg'] at this
    exact nb this
  have hvout : ∀ x, T.size ≤ x → T.vertices.fwd x = x := fun x hx => hc.hv.out x hx
  have hfold := slit_fold (T := T) (e := e) (h := h) (ee := T.size) rfl rfl n0 hes hhs hhe hvh
    (fun x hx => hc.hv.inj (hx.trans hvh.symm)) hvout
  have base_e : slitBase T e h T.size e = T.size := by
    unfold slitBase
    rw [swap_apply_of_ne_of_ne hhe.symm (by rw [n0]; unfold size at *; omega), swap_apply_left, hvout _ le_rfl]
  have base_n : slitBase T e h T.size (T.size + 1) = neg e := by
    unfold slitBase
    rw [n0, swap_apply_right, swap_apply_of_ne_of_ne hhe (by omega), hvh]
  have base_x : ∀ x < T.size, x ≠ h → x ≠ e → slitBase T e h T.size x = T.vertices.fwd x := by
    intro x hx h1 h2
    unfold slitBase
    rw [n0, swap_apply_of_ne_of_ne h1 (by unfold size at *; omega), swap_apply_of_ne_of_ne h2 (by omega)]
  have hbx : ∀ x, T.faces.fwd x = x → x ≠ h ∧ x ≠ e := by
    intro x hx
    exact ⟨fun hc => hhb (hc ▸ hx), fun hc => nb (hc ▸ hx)⟩
  obtain ⟨o1, ho1⟩ := Slitted.coherent_aux hc hes
  obtain ⟨o2, ho2⟩ := Slitted.coherent_aux hc hes'
  -- the first split
  obtain ⟨b, hb, hm1⟩ : ∃ b, ((b = e ∧ ∀ x, T.faces.fwd x = x → ¬ T.vertices.Orb e x) ∨
        (b < T.size ∧ T.faces.fwd b = b ∧ ∃ l, T.vertices.fwd^[l] (T.vertices.fwd e) = b ∧
          ∀ j ≤ l, T.vertices.fwd^[j] (T.vertices.fwd e) ≠ e)) ∧
      ∀ k < T.size + 2, slitSplit T e T.size (T.halfEdges.foldl (slitStep T e T.size) fun _ => none) o1 k =
        some (slitBase T e h T.size (swap b e k)) := by
    rcases split_spec hc hes nb ho1 with ⟨rfl, h1⟩ | ⟨b, l, rfl, h1, h2, h3, h4⟩
    · refine ⟨e, .inl ⟨rfl, h1⟩, fun k hk => ?_⟩
      rw [swap_self]
      exact hfold k hk
    · refine ⟨b, .inr ⟨h1, h2, l, h3, h4⟩, ?_⟩
      exact slitSplit_spec hfold base_e (base_x b h1 (hbx b h2).1 (hbx b h2).2)
  obtain ⟨c, hcc, hm2⟩ : ∃ c, ((c = T.size + 1 ∧ ∀ x, T.faces.fwd x = x → ¬ T.vertices.Orb (neg e) x) ∨
        (c < T.size ∧ T.faces.fwd c = c ∧ ∃ l, T.vertices.fwd^[l] (T.vertices.fwd (neg e)) = c ∧
          ∀ j ≤ l, T.vertices.fwd^[j] (T.vertices.fwd (neg e)) ≠ neg e)) ∧ b ≠ c ∧
      ∀ k < T.size + 2, slitSplit T (neg T.size) (neg e)
        (slitSplit T e T.size (T.halfEdges.foldl (slitStep T e T.size) fun _ => none) o1) o2 k =
        some (slitBase T e h T.size (swap b e (swap c (T.size + 1) k))) := by
    have hbs : b < T.size := by
      rcases hb with ⟨rfl, -⟩ | ⟨hb, -⟩
      exacts [hes, hb]
    rcases split_spec hc hes' nb' ho2 with ⟨rfl, h1⟩ | ⟨c, l, rfl, h1, h2, h3, h4⟩
    · refine ⟨T.size + 1, .inl ⟨rfl, h1⟩, by omega, fun k hk => ?_⟩
      rw [swap_self]
      exact hm1 k hk
    · have hce : T.vertices.Orb (neg e) c := ⟨l + 1, by rw [iterate_succ_apply]; exact h3⟩
      have hbc : b ≠ c := by
        rcases hb with ⟨rfl, -⟩ | ⟨hb1, hb2, l', hb3, -⟩
        · exact (hbx c h2).2.symm
        · rintro rfl
          have hbe : T.vertices.Orb e b := ⟨l' + 1, by rw [iterate_succ_apply]; exact hb3⟩
          exact hl (hbe.trans (hce.symm hc.hv)) b hb2 hbe
      refine ⟨c, .inr ⟨h1, h2, l, h3, h4⟩, hbc, ?_⟩
      rw [show neg T.size = T.size + 1 from n0]
      refine slitSplit_spec (V := fun x => slitBase T e h T.size (swap b e x)) hm1 ?_ ?_
      · rw [swap_apply_of_ne_of_ne (by omega) (by omega), base_n]
      · rw [swap_apply_of_ne_of_ne hbc.symm (hbx c h2).2]
        exact base_x c h1 (hbx c h2).1 (hbx c h2).2
  obtain ⟨hbc, hm2⟩ := hm2
  have hb' : b = e ∨ (b < T.size ∧ T.faces.fwd b = b) := by
    rcases hb with hb | hb
    exacts [.inl hb.1, .inr ⟨hb.1, hb.2.1⟩]
  have hcc' : c = T.size + 1 ∨ (c < T.size ∧ T.faces.fwd c = c) := by
    rcases hcc with hb | hb
    exacts [.inl hb.1, .inr ⟨hb.1, hb.2.1⟩]
  -- the permutation
  have hlt1 : ∀ x y z, x < T.size + 2 → y < T.size + 2 → z < T.size + 2 → swap x y z < T.size + 2 := by
    intro x y z hx hy hz
    rw [swap_apply_def]
    split_ifs <;> assumption
  have hout1 : ∀ x y z, x < T.size + 2 → y < T.size + 2 → T.size + 2 ≤ z → swap x y z = z := by
    intro x y z hx hy hz
    exact swap_apply_of_ne_of_ne (by omega) (by omega)
  have hb2 : b < T.size + 2 := by rcases hb' with rfl | hb' <;> omega
  have hc2 : c < T.size + 2 := by rcases hcc' with rfl | hb' <;> omega
  have hn2 : neg T.size < T.size + 2 := by rw [show neg T.size = T.size + 1 from n0]; omega
  obtain ⟨p, p1, p2, p3, p4⟩ := ofPairs_range (n := T.size + 2)
    (f := fun x => slitBase T e h T.size (swap b e (swap c (T.size + 1) x)))
    (by
      intro x y hxy
      unfold slitBase at hxy
      exact (swap c (T.size + 1)).injective ((swap b e).injective ((swap h (neg T.size)).injective
        ((swap e T.size).injective (hc.hv.inj hxy)))))
    (by
      intro x hx
      unfold slitBase
      have h3 : swap e T.size (swap h (neg T.size) (swap b e (swap c (T.size + 1) x))) < T.size + 2 := by
        refine hlt1 _ _ _ (by omega) (by omega) (hlt1 _ _ _ (by omega) hn2 (hlt1 _ _ _ hb2 (by omega)
          (hlt1 _ _ _ hc2 (by omega) hx)))
      generalize swap e T.size (swap h (neg T.size) (swap b e (swap c (T.size + 1) x))) = y at *
      by_cases hy : y < T.size
      · have := hc.hv.fwd_lt.2 hy
        unfold size at *
        omega
      · rw [hvout y (by omega)]; exact h3)
    (by
      intro x hx
      unfold slitBase
      rw [hout1 c _ x hc2 (by omega) hx, hout1 b _ x hb2 (by omega) hx, hout1 h _ x (by omega) hn2 hx,
        hout1 e _ x (by omega) (by omega) hx, hvout x (by omega)])
  obtain ⟨T', t1, t2, t3⟩ := slit_make dbg hc rfl nb nb' hvh hb' hcc' hbc p2 p3 p4
  refine ⟨T', h, b, c, ?_, ofMake p2 t1, ⟨by unfold size; rw [t2]; exact p3, fun x => by rw [t2]; exact p4 x, t3⟩,
    hvh, hhe, hhs, hb, hcc⟩
  unfold Tri.slit
  have hsz : 2 * (T.size / 2) = T.size := by unfold size; omega
  simp only [bind, Except.bind, pure, Except.pure, throw, throwThe, MonadExceptOf.throw, hsz, ho1, ho2,
    mapEntries_ok hm2, p1]
  rw [if_neg (by omega), if_neg (by simp only [boundary_true]; exact not_or.2 ⟨nb, nb'⟩),
    if_neg (by rintro ⟨h1, h2⟩; rw [hd h1] at h2; cases h2)]
  exact t1

theorem closed_iterate {p : HE → HE} {A : HE → Prop} (h : ∀ x, A x → A (p x)) {x : HE} (hx : A x) (k : ℕ) :
    A (p^[k] x) := by
  induction k with
  | zero => exact hx
  | succ k ih => rw [iterate_succ_apply']; exact h _ ih

theorem Slitted.simple {T T' : Tri} (hc : T.Coherent) {e h b c : HE} (s : Slitted T T' e h b c)
    (nb : T.faces.fwd e ≠ e) (nb' : T.faces.fwd (neg e) ≠ neg e) (hvh : T.vertices.fwd h = neg e) (hhe : h ≠ e)
    (hhs : h < T.size)
    (hb : (b = e ∧ ∀ x, T.faces.fwd x = x → ¬ T.vertices.Orb e x) ∨
        (b < T.size ∧ T.faces.fwd b = b ∧ ∃ l, T.vertices.fwd^[l] (T.vertices.fwd e) = b ∧
          ∀ j ≤ l, T.vertices.fwd^[j] (T.vertices.fwd e) ≠ e))
    (hcc : (c = T.size + 1 ∧ ∀ x, T.faces.fwd x = x → ¬ T.vertices.Orb (neg e) x) ∨
        (c < T.size ∧ T.faces.fwd c = c ∧ ∃ l, T.vertices.fwd^[l] (T.vertices.fwd (neg e)) = c ∧
          ∀ j ≤ l, T.vertices.fwd^[j] (T.vertices.fwd (neg e)) ≠ neg e))
    (hl : ¬ T.vertices.Orb e (neg e))
    (hs : ∀ x < T.size, ∀ y < T.size, T.faces.fwd x = x → T.faces.fwd y = y → T.vertices.Orb x y → x = y)
    {x y : HE} (hx : x < T.size + 2) (hy : y < T.size + 2) (hxb : T'.faces.fwd x = x) (hyb : T'.faces.fwd y = y)
    (ho : T'.vertices.Orb x y) (hw : T'.vertices.WF) : x = y := by
  have hev := hc.even
  obtain ⟨n0, n1, -⟩ := neg_new hev
  have hes : e < T.size := hc.lt_of_not_boundary nb
  have hes' : neg e < T.size := hc.lt_of_not_boundary nb'
  have n0' : neg T.size = T.size + 1 := n0
  generalize hn : T.size = n at *
  have hvout : ∀ x, n ≤ x → T.vertices.fwd x = x := fun x hx => hc.hv.out x (by rw [← hn] at hx; exact hx)
  have hfout : ∀ x, n ≤ x → T.faces.fwd x = x := fun x hx => hc.hf.out x (by rw [hc.hs]; rw [← hn] at hx; exact hx)
  have hvlt : ∀ x, T.vertices.fwd x < n ↔ x < n := fun x => by rw [← hn]; exact hc.hv.fwd_lt
  have hvs : ∀ x, T'.vertices.fwd x = slitBase T e h n (swap b e (swap c (n + 1) x)) := fun x => by rw [s.v, hn]
  have hfs : ∀ x, T'.faces.fwd x = swap e n (T.faces.fwd (swap e n x)) := fun x => by rw [s.f, hn]
  clear s
  have hhb : T.faces.fwd h ≠ h := by
    intro hx
    have := hc.bdry hx
    rw [hvh, neg_neg'] at this
    exact nb this
  have base_e : slitBase T e h n e = n := by
    unfold slitBase
    rw [swap_apply_of_ne_of_ne hhe.symm (by rw [n0']; clear * - hes; omega), swap_apply_left, hvout _ le_rfl]
  have base_n : slitBase T e h n (n + 1) = neg e := by
    unfold slitBase
    rw [n0', swap_apply_right, swap_apply_of_ne_of_ne hhe (by clear * - hhs; omega), hvh]
  have base_h : slitBase T e h n h = n + 1 := by
    unfold slitBase
    rw [swap_apply_left, n0', swap_apply_of_ne_of_ne (by clear * - hes; omega) (by clear * -; omega),
      hvout _ (by clear * -; omega)]
  have base_0 : slitBase T e h n n = T.vertices.fwd e := by
    unfold slitBase
    rw [swap_apply_of_ne_of_ne (a := h) (by clear * - hhs; omega) (by rw [n0']; clear * -; omega), swap_apply_right]
  have base_x : ∀ x, x ≠ n + 1 → x ≠ n → x ≠ h → x ≠ e → slitBase T e h n x = T.vertices.fwd x := by
    intro x h3 h4 h1 h2
    unfold slitBase
    rw [n0', swap_apply_of_ne_of_ne h1 h3, swap_apply_of_ne_of_ne h2 h4]
  -- every half edge is still at the vertex it was at
  let π : HE → HE := fun x => if x = n then e else if x = n + 1 then neg e else x
  have π0 : π n = e := if_pos rfl
  have π1 : π (n + 1) = neg e := by simp [π]
  have πx : ∀ x, x ≠ n → x ≠ n + 1 → π x = x := by intro x h1 h2; simp [π, h1, h2]
  have hbo : T.vertices.Orb e b := by
    rcases hb with ⟨rfl, -⟩ | ⟨-, -, l, hl, -⟩
    · exact .refl _ _
    · exact ⟨l + 1, by rw [iterate_succ_apply]; exact hl⟩
  have hco : T.vertices.Orb (neg e) (π c) := by
    rcases hcc with ⟨rfl, -⟩ | ⟨h1, -, l, hl, -⟩
    · rw [π1]; exact .refl _ _
    · rw [πx c (by clear * - h1; omega) (by clear * - h1; omega)]
      exact ⟨l + 1, by rw [iterate_succ_apply]; exact hl⟩
  have hbase : ∀ x, T.vertices.Orb (π x) (π (slitBase T e h n x)) := by
    intro x
    by_cases h1 : x = e
    · rw [h1, base_e, π0, πx e (by clear * - hes; omega) (by clear * - hes; omega)]; exact .refl _ _
    by_cases h2 : x = n + 1
    · rw [h2, base_n, π1, πx _ (by clear * - hes'; omega) (by clear * - hes'; omega)]; exact .refl _ _
    by_cases h3 : x = h
    · rw [h3, base_h, π1, πx h (by clear * - hhs; omega) (by clear * - hhs; omega)]; exact ⟨1, hvh⟩
    by_cases h4 : x = n
    · have := (hvlt e).2 hes
      rw [h4, base_0, π0, πx _ (by clear * - this; omega) (by clear * - this; omega)]; exact .step _ _
    · rw [base_x x h2 h4 h3 h1, πx x h4 h2]
      have : T.vertices.fwd x ≠ n ∧ T.vertices.fwd x ≠ n + 1 := by
        by_cases hxn : x < n
        · have := (hvlt x).2 hxn; clear * - this; omega
        · rw [hvout x (by clear * - hxn; omega)]; exact ⟨h4, h2⟩
      rw [πx _ this.1 this.2]
      exact .step _ _
  have hsw1 : ∀ x, T.vertices.Orb (π x) (π (swap b e x)) := by
    intro x
    have πe : π e = e := πx e (by clear * - hes; omega) (by clear * - hes; omega)
    have πb : π b = b := by
      rcases hb with ⟨rfl, -⟩ | ⟨h1, -⟩
      · exact πe
      · exact πx b (by clear * - h1; omega) (by clear * - h1; omega)
    by_cases h1 : x = b
    · rw [h1, swap_apply_left, πe, πb]; exact hbo.symm hc.hv
    by_cases h2 : x = e
    · rw [h2, swap_apply_right, πe, πb]; exact hbo
    rw [swap_apply_of_ne_of_ne h1 h2]; exact .refl _ _
  have hsw2 : ∀ x, T.vertices.Orb (π x) (π (swap c (n + 1) x)) := by
    intro x
    by_cases h1 : x = c
    · rw [h1, swap_apply_left, π1]; exact hco.symm hc.hv
    by_cases h2 : x = n + 1
    · rw [h2, swap_apply_right, π1]; exact hco
    rw [swap_apply_of_ne_of_ne h1 h2]; exact .refl _ _
  have hπ : T.vertices.Orb (π x) (π y) := by
    refine Perm.Orb.map (fun z => ?_) ho
    rw [hvs]
    exact ((hsw2 z).trans (hsw1 _)).trans (hbase _)
  -- the boundary half edges
  have hbd : ∀ z < n + 2, T'.faces.fwd z = z → z = e ∨ z = n + 1 ∨ (z < n ∧ T.faces.fwd z = z) := by
    intro z hz hzb
    by_cases h1 : z = e
    · exact .inl h1
    by_cases h2 : z = n + 1
    · exact .inr (.inl h2)
    have hfz : T.faces.fwd (swap e n z) = swap e n z := by
      rw [hfs] at hzb
      have := congrArg (swap e n) hzb
      rwa [swap_apply_self] at this
    by_cases h3 : z = n
    · rw [h3, swap_apply_right] at hfz; exact absurd hfz nb
    · rw [swap_apply_of_ne_of_ne h1 h3] at hfz
      exact .inr (.inr ⟨by clear * - hz h2 h3; omega, hfz⟩)
  have πe : π e = e := πx e (by clear * - hes; omega) (by clear * - hes; omega)
  have πl : ∀ z, z < n → π z = z := fun z hz => πx z (by clear * - hz; omega) (by clear * - hz; omega)
  -- the two parts of a vertex that has been split are not connected anymore
  have hsplit1 : ∀ z, z < n → T.faces.fwd z = z → T.vertices.Orb e z → ¬ T'.vertices.Orb z e := by
    intro z hz hzb hez hze
    rcases hb with ⟨-, hb⟩ | ⟨b1, b2, l, b3, b4⟩
    · exact hb z hzb hez
    have hzb' : z = b := hs z hz b b1 hzb b2 ((hez.symm hc.hv).trans hbo)
    rw [hzb'] at hze
    obtain ⟨k, hk⟩ := hze
    refine absurd (closed_iterate (p := T'.vertices.fwd) (A := fun x => x = n ∨ ∃ j ≤ l, x =
      T.vertices.fwd^[j] (T.vertices.fwd e)) ?_ (.inr ⟨l, le_rfl, b3.symm⟩) k) ?_
    · have horb : ∀ j, T.vertices.Orb e (T.vertices.fwd^[j] (T.vertices.fwd e)) := fun j =>
        ⟨j + 1, by rw [iterate_succ_apply]⟩
      have hlt : ∀ j, T.vertices.fwd^[j] (T.vertices.fwd e) < n := fun j =>
        lt_of_lt_of_eq ((horb j).lt hc.hv (lt_of_lt_of_eq hes hn.symm)) hn
      have hcn : c ≠ n := by rcases hcc with ⟨rfl, -⟩ | ⟨h1, -⟩ <;> [clear * -; clear * - h1] <;> omega
      rintro z (rfl | ⟨j, hj, rfl⟩)
      · right
        refine ⟨0, Nat.zero_le _, ?_⟩
        rw [hvs, swap_apply_of_ne_of_ne hcn.symm (by clear * -; omega),
          swap_apply_of_ne_of_ne (by clear * - b1; omega) (by clear * - hes; omega), base_0]
        rfl
      · have h1 := hlt j
        have h2 := horb j
        have h3 := b4 j hj
        have hzc : T.vertices.fwd^[j] (T.vertices.fwd e) ≠ c := by
          intro hcon
          rw [hcon] at h1 h2
          rw [πl c h1] at hco
          exact hl (h2.trans (hco.symm hc.hv))
        rw [hvs, swap_apply_of_ne_of_ne hzc (by clear * - h1; omega)]
        by_cases hzb : T.vertices.fwd^[j] (T.vertices.fwd e) = b
        · rw [hzb, swap_apply_left, base_e]; exact .inl rfl
        · rw [swap_apply_of_ne_of_ne hzb h3, base_x _ (by clear * - h1; omega) (by clear * - h1; omega) ?_ h3]
          · right
            have : j ≠ l := fun hcon => hzb (by rw [hcon, b3])
            exact ⟨j + 1, by clear * - hj this; omega, (iterate_succ_apply' _ _ _).symm⟩
          · intro hcon
            rw [hcon] at h2
            exact hl (h2.trans ⟨1, hvh⟩)
    · rw [hk]
      rintro (h1 | ⟨j, hj, h1⟩)
      · clear * - h1 hes; omega
      · exact b4 j hj h1.symm
  have hsplit2 : ∀ z, z < n → T.faces.fwd z = z → T.vertices.Orb (neg e) z → ¬ T'.vertices.Orb z (n + 1) := by
    intro z hz hzb hez hze
    rcases hcc with ⟨-, hcc⟩ | ⟨b1, b2, l, b3, b4⟩
    · exact hcc z hzb hez
    rw [πl c b1] at hco
    have hzb' : z = c := hs z hz c b1 hzb b2 ((hez.symm hc.hv).trans hco)
    rw [hzb'] at hze
    obtain ⟨k, hk⟩ := hze
    have horb : ∀ j, T.vertices.Orb (neg e) (T.vertices.fwd^[j] (T.vertices.fwd (neg e))) := fun j =>
      ⟨j + 1, by rw [iterate_succ_apply]⟩
    have hlt : ∀ j, T.vertices.fwd^[j] (T.vertices.fwd (neg e)) < n := fun j =>
      lt_of_lt_of_eq ((horb j).lt hc.hv (lt_of_lt_of_eq hes' hn.symm)) hn
    have hne : ∀ z, T.vertices.Orb (neg e) z → z ≠ b ∧ z ≠ e := by
      intro z hz
      constructor
      · rintro rfl; exact hl (hbo.trans (hz.symm hc.hv))
      · rintro rfl; exact hl (hz.symm hc.hv)
    refine absurd (closed_iterate (p := T'.vertices.fwd) (A := fun x => x = neg e ∨ ∃ j ≤ l, x =
      T.vertices.fwd^[j] (T.vertices.fwd (neg e))) ?_ (.inr ⟨l, le_rfl, b3.symm⟩) k) ?_
    · rintro z (rfl | ⟨j, hj, rfl⟩)
      · right
        refine ⟨0, Nat.zero_le _, ?_⟩
        obtain ⟨k1, k2⟩ := hne (neg e) (.refl _ _)
        have hcne : neg e ≠ c := by rw [← b3]; exact (b4 l le_rfl).symm
        rw [hvs, swap_apply_of_ne_of_ne hcne (by clear * - hes'; omega), swap_apply_of_ne_of_ne k1 k2,
          base_x _ (by clear * - hes'; omega) (by clear * - hes'; omega) ?_ k2]
        · rfl
        · intro hcon
          rw [← hcon] at hvh
          exact b4 0 (Nat.zero_le _) hvh
      · have h1 := hlt j
        have h3 := b4 j hj
        obtain ⟨k1, k2⟩ := hne _ (horb j)
        by_cases hzc : T.vertices.fwd^[j] (T.vertices.fwd (neg e)) = c
        · rw [hvs, hzc, swap_apply_left, swap_apply_of_ne_of_ne (by rw [hzc] at k1; rcases hb with ⟨rfl, -⟩ | ⟨hb, -⟩ <;> [clear * - hes; clear * - hb] <;> omega)
            (by clear * - hes; omega), base_n]
          exact .inl rfl
        · have : j ≠ l := fun hcon => hzc (by rw [hcon, b3])
          rw [hvs, swap_apply_of_ne_of_ne hzc (by clear * - h1; omega), swap_apply_of_ne_of_ne k1 k2,
            base_x _ (by clear * - h1; omega) (by clear * - h1; omega) ?_ k2]
          · exact .inr ⟨j + 1, by clear * - hj this; omega, (iterate_succ_apply' _ _ _).symm⟩
          · intro hcon
            rw [← hcon, ← iterate_succ_apply' T.vertices.fwd] at hvh
            exact b4 (j + 1) (by clear * - hj this; omega) hvh
    · rw [hk]
      rintro (h1 | ⟨j, hj, h1⟩)
      · clear * - h1 hes'; omega
      · have := hlt j; clear * - h1 this; omega
  rcases hbd x hx hxb with rfl | rfl | ⟨hxn, hxb'⟩ <;> rcases hbd y hy hyb with rfl | rfl | ⟨hyn, hyb'⟩
  · rfl
  · rw [πe, π1] at hπ; exact absurd hπ hl
  · rw [πe, πl y hyn] at hπ; exact absurd (ho.symm hw) (hsplit1 y hyn hyb' hπ)
  · rw [πe, π1] at hπ; exact absurd (hπ.symm hc.hv) hl
  · rfl
  · rw [π1, πl y hyn] at hπ; exact absurd (ho.symm hw) (hsplit2 y hyn hyb' hπ)
  · rw [πe, πl x hxn] at hπ; exact absurd ho (hsplit1 x hxn hxb' (hπ.symm hc.hv))
  · rw [π1, πl x hxn] at hπ; exact absurd ho (hsplit2 x hxn hxb' (hπ.symm hc.hv))
  · rw [πl x hxn, πl y hyn] at hπ
    exact hs x hxn y hyn hxb' hyb' hπ

end Verif.Tri
