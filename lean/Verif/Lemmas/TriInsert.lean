import Verif.Lemmas.TriOps
import Mathlib.Data.List.Chain

/-!
# Inserting a vertex in a face
-/

namespace Verif.Tri

open Verif Spec Function

theorem chain_of_cycle {p : HE → HE} {x : HE} {t : List HE}
    (h : ∀ i (hi : i < (x :: t).length), p (x :: t)[i] = (x :: t)[(i + 1) % (x :: t).length]'(Nat.mod_lt _ (by omega))) :
    List.IsChain (fun a b => p a = b) (x :: t ++ [x]) := by
  rw [List.isChain_iff_getElem]
  intro i hi
  have hi' : i < (x :: t).length := by simpa using hi
  rw [List.getElem_append_left hi', h i hi']
  by_cases hl : i + 1 < (x :: t).length
  · rw [List.getElem_append_left hl]
    congr 1
    exact Nat.mod_eq_of_lt hl
  · have hl' : i + 1 = (x :: t).length := by omega
    rw [List.getElem_append_right (by omega)]
    simp [hl']

/-- If each entry of a cycle is replaced by a list that starts with it, the last entry of each list is mapped to what
came next. -/
theorem flatMap_cycle {p v : HE → HE} {c : List HE} {g : HE → List HE} (hg : ∀ x, (g x).head? = some x)
    (h : ∀ i (hi : i < (c.flatMap g).length),
      p (c.flatMap g)[i] = (c.flatMap g)[(i + 1) % (c.flatMap g).length]'(Nat.mod_lt _ (by omega)))
    (hv : ∀ i (hi : i < c.length), v c[i] = c[(i + 1) % c.length]'(Nat.mod_lt _ (by omega))) :
    ∀ x ∈ c, List.IsChain (fun a b => p a = b) (g x) ∧ ∀ y ∈ (g x).getLast?, p y = v x := by
  rcases c with _ | ⟨x, t⟩
  · simp
  have hx : ∃ s, g x = x :: s := by
    have := hg x
    rcases hgx : g x with _ | ⟨a, s⟩
    · rw [hgx] at this; cases this
    · rw [hgx] at this; simp at this; exact ⟨s, by rw [this]⟩
  obtain ⟨s, hs⟩ := hx
  have hne : ∀ y, g y ≠ [] := fun y hy => by have := hg y; rw [hy] at this; cases this
  have h1 : List.IsChain (fun a b => p a = b) ((x :: t).flatMap g ++ [x]) := by
    have he : (x :: t).flatMap g = x :: (s ++ t.flatMap g) := by
      rw [List.flatMap_cons, hs]; rfl
    simp only [he] at h ⊢
    exact chain_of_cycle h
  have h2 : (x :: t).flatMap g ++ [x] = (((x :: t).map g) ++ [[x]]).flatten := by
    rw [List.flatten_append, List.flatMap_def]; rfl
  rw [h2, List.isChain_flatten (by simp [hne])] at h1
  obtain ⟨h3, h4⟩ := h1
  rw [List.isChain_iff_getElem] at h4
  intro y hy
  refine ⟨h3 (g y) (List.mem_append_left _ (List.mem_map_of_mem hy)), ?_⟩
  intro z hz
  obtain ⟨i, hi, rfl⟩ := List.getElem_of_mem hy
  have hi2 : i < t.length + 1 := hi
  have h5 := h4 i (by simp only [List.length_append, List.length_map, List.length_cons, List.length_nil]; omega)
  have h6 : (List.map g (x :: t) ++ [[x]])[i]'(by
      simp only [List.length_append, List.length_map, List.length_cons, List.length_nil]; omega) =
      g (x :: t)[i] := by
    rw [List.getElem_append_left (by simpa using hi), List.getElem_map]
  rw [h6] at h5
  refine h5 z hz _ ?_
  rw [hv i hi]
  by_cases hl : i + 1 < (x :: t).length
  · rw [List.getElem_append_left (by simpa using hl), List.getElem_map, hg]
    simp only [Option.mem_def, Option.some_inj]
    congr 1
    exact (Nat.mod_eq_of_lt hl).symm
  · have hl' : i + 1 = (x :: t).length := by omega
    rw [List.getElem_append_right (by simp; simpa using hl'.ge)]
    simp [hl']

/-- The vertices of the surface with a vertex inserted. -/
theorem insert_vertices {T : Tri} (h : T.Coherent) {e : HE} (hb : T.faces.fwd e ≠ e) {cs : List (List HE)}
    (hcs : T.vertices.cycles = some cs) :
    let n := T.size
    let f := T.faces.fwd e
    let g := T.faces.fwd f
    ∃ p, Perm.ofCycles (cs.map (insertInCycle e f g n (n + 2) (n + 4)) ++ [[n, n + 2, n + 4]]) = .ok p ∧ p.WF ∧
      p.size = n + 6 ∧ p.fwd e = n + 1 ∧ p.fwd (n + 1) = T.vertices.fwd e ∧ p.fwd f = n + 3 ∧
      p.fwd (n + 3) = T.vertices.fwd f ∧ p.fwd g = n + 5 ∧ p.fwd (n + 5) = T.vertices.fwd g ∧
      p.fwd n = n + 2 ∧ p.fwd (n + 2) = n + 4 ∧ p.fwd (n + 4) = n ∧
      ∀ x < n, x ≠ e → x ≠ f → x ≠ g → p.fwd x = T.vertices.fwd x := by
  intro n f g
  have hev := h.even
  have hn : neg n = n + 1 := by rw [neg_def, if_pos h.even]
  have hn2 : neg (n + 2) = n + 3 := by rw [neg_def, if_pos (by unfold n size; omega)]
  have hn4 : neg (n + 4) = n + 5 := by rw [neg_def, if_pos (by unfold n size; omega)]
  obtain ⟨cs', h1, h2, h3⟩ := Perm.cycles_spec h.hv
  rw [hcs] at h1
  cases h1
  have hfe : f ≠ e := hb
  have hgf : g ≠ f := fun hc => hb (h.fwd_fixed.1 hc)
  have hge : g ≠ e := by
    intro hc
    have := h.tri e
    change T.faces.fwd g = e at this
    rw [hc] at this
    exact hb this
  have hes : e < n := h.lt_of_not_boundary hb
  have hfs : f < n := h.lt_of_not_boundary (x := f) (fun hc => hb (h.fwd_fixed.1 hc))
  have hgs : g < n := h.lt_of_not_boundary (x := g) (fun hc => hb (h.fwd_fixed.1 (h.fwd_fixed.1 hc)))
  let blk : HE → List HE := fun x =>
    if x = e then [x, neg n] else if x = f then [x, neg (n + 2)] else if x = g then [x, neg (n + 4)] else [x]
  have hins : ∀ c, insertInCycle e f g n (n + 2) (n + 4) c = c.flatMap blk := fun c => rfl
  have hblk : ∀ x, (blk x).head? = some x := by
    intro x
    simp only [blk]
    split_ifs <;> rfl
  have be : blk e = [e, n + 1] := by simp [blk, hn]
  have bf : blk f = [f, n + 3] := by simp [blk, hn2, hfe]
  have bg : blk g = [g, n + 5] := by simp [blk, hn4, hge, hgf]
  have bx : ∀ x, x ≠ e → x ≠ f → x ≠ g → blk x = [x] := by intro x h1 h2 h3; simp [blk, h1, h2, h3]
  have hmap : cs.map (insertInCycle e f g n (n + 2) (n + 4)) = cs.map (fun c => c.flatMap blk) := by
    exact List.map_congr_left fun c _ => hins c
  have hflat : (cs.map (fun c => c.flatMap blk)).flatten = cs.flatten.flatMap blk := by
    rw [← List.flatMap_def, ← List.flatMap_id, List.flatMap_assoc]; rfl
  have hmem : ∀ x y, y ∈ blk x → x < n → (y = x ∨ (x = e ∧ y = n + 1) ∨ (x = f ∧ y = n + 3) ∨ (x = g ∧ y = n + 5)) := by
    intro x y hy hx
    by_cases h1 : x = e
    · rw [h1, be] at hy; simp at hy; rcases hy with hy | hy <;> simp [hy, h1]
    by_cases h2 : x = f
    · rw [h2, bf] at hy; simp at hy; rcases hy with hy | hy <;> simp [hy, h2]
    by_cases h3 : x = g
    · rw [h3, bg] at hy; simp at hy; rcases hy with hy | hy <;> simp [hy, h3]
    rw [bx x h1 h2 h3] at hy; simp at hy; simp [hy]
  have hnd : (cs.flatten.flatMap blk).Nodup := by
    rw [(h3.flatMap_right blk).nodup_iff, List.nodup_flatMap]
    refine ⟨fun x hx => ?_, ?_⟩
    · rw [List.mem_range] at hx
      change x < n at hx
      simp only [blk]
      split_ifs <;> simp [hn, hn2, hn4] <;> omega
    · refine List.Pairwise.imp_of_mem ?_ (List.nodup_range (n := T.size))
      intro x y hx hy hxy z hzx hzy
      rw [List.mem_range] at hx hy
      have h5 := hmem x z hzx hx
      have h6 := hmem y z hzy hy
      change x < n at hx
      change y < n at hy
      omega
  have hperm : (cs.map (insertInCycle e f g n (n + 2) (n + 4)) ++ [[n, n + 2, n + 4]]).flatten.Perm
      (List.range (n + 6)) := by
    rw [List.flatten_append, hmap, hflat]
    simp only [List.flatten_cons, List.flatten_nil, List.append_nil]
    have hm' : ∀ y ∈ cs.flatten.flatMap blk, y < n ∨ y = n + 1 ∨ y = n + 3 ∨ y = n + 5 := by
      intro y hy
      rw [List.mem_flatMap] at hy
      obtain ⟨x, hx, hy⟩ := hy
      have hx' : x < n := List.mem_range.1 (h3.mem_iff.1 hx)
      have := hmem x y hy hx'
      omega
    rw [List.perm_ext_iff_of_nodup _ List.nodup_range]
    · intro y
      simp only [List.mem_append, List.mem_range, List.mem_cons, List.not_mem_nil, or_false]
      constructor
      · rintro (hy | hy)
        · have := hm' y hy; omega
        · omega
      · intro hy
        by_cases hyn : y = n ∨ y = n + 2 ∨ y = n + 4
        · exact .inr hyn
        · left
          rw [List.mem_flatMap]
          have hin : ∀ x < n, x ∈ cs.flatten := fun x hx => h3.mem_iff.2 (List.mem_range.2 hx)
          by_cases hy1 : y < n
          · refine ⟨y, hin y hy1, ?_⟩
            have := hblk y
            rcases hby : blk y with _ | ⟨a, s⟩
            · rw [hby] at this; cases this
            · rw [hby] at this; simp at this; simp [this]
          · have : y = n + 1 ∨ y = n + 3 ∨ y = n + 5 := by omega
            rcases this with rfl | rfl | rfl
            · exact ⟨e, hin e hes, by simp [be]⟩
            · exact ⟨f, hin f hfs, by simp [bf]⟩
            · exact ⟨g, hin g hgs, by simp [bg]⟩
    · rw [List.nodup_append]
      refine ⟨hnd, by simp, ?_⟩
      intro y hy z hz hyz
      have := hm' y hy
      simp only [List.mem_cons, List.not_mem_nil, or_false] at hz
      omega
  have hlen := hperm.length_eq
  rw [List.length_range] at hlen
  obtain ⟨p, hp⟩ := Perm.ofCycles_ok_iff.2 (by rw [hlen]; exact hperm)
  obtain ⟨hw, hs, hc⟩ := Perm.ofCycles_ok hp
  have key : ∀ x < n, List.IsChain (fun a b => p.fwd a = b) (blk x) ∧ ∀ y ∈ (blk x).getLast?, p.fwd y =
      T.vertices.fwd x := by
    intro x hx
    have hxm : x ∈ cs.flatten := h3.mem_iff.2 (List.mem_range.2 hx)
    obtain ⟨c, hcm, hxc⟩ := List.mem_flatten.1 hxm
    have := hc (c.flatMap blk) (List.mem_append_left _ (by rw [hmap]; exact List.mem_map_of_mem hcm))
    exact flatMap_cycle hblk this (h2 c hcm).2.2 x hxc
  have hnew := hc [n, n + 2, n + 4] (List.mem_append_right _ (List.mem_singleton.2 rfl))
  refine ⟨p, hp, hw, hs.trans hlen, ?_, ?_, ?_, ?_, ?_, ?_, hnew 0 (by simp), hnew 1 (by simp), by simpa using hnew 2 (by simp), ?_⟩
  · have := (key e hes).1; rw [be] at this; simpa using this
  · have := (key e hes).2; rw [be] at this; exact this _ rfl
  · have := (key f hfs).1; rw [bf] at this; simpa using this
  · have := (key f hfs).2; rw [bf] at this; exact this _ rfl
  · have := (key g hgs).1; rw [bg] at this; simpa using this
  · have := (key g hgs).2; rw [bg] at this; exact this _ rfl
  · intro x hx h1 h2 h3
    have := (key x hx).2; rw [bx x h1 h2 h3] at this; exact this _ rfl

/-- The surface with a vertex inserted in the face of `e`. -/
structure Inserted (T T' : Tri) (e f g : HE) : Prop where
  vsize : T'.size = T.size + 6
  ve : T'.vertices.fwd e = T.size + 1
  ve' : T'.vertices.fwd (T.size + 1) = T.vertices.fwd e
  vf : T'.vertices.fwd f = T.size + 3
  vf' : T'.vertices.fwd (T.size + 3) = T.vertices.fwd f
  vg : T'.vertices.fwd g = T.size + 5
  vg' : T'.vertices.fwd (T.size + 5) = T.vertices.fwd g
  va : T'.vertices.fwd T.size = T.size + 2
  vb : T'.vertices.fwd (T.size + 2) = T.size + 4
  vc : T'.vertices.fwd (T.size + 4) = T.size
  vx : ∀ x < T.size, x ≠ e → x ≠ f → x ≠ g → T'.vertices.fwd x = T.vertices.fwd x
  fe : T'.faces.fwd e = T.size + 3
  ff : T'.faces.fwd f = T.size + 5
  fg : T'.faces.fwd g = T.size + 1
  fa : T'.faces.fwd T.size = e
  fb : T'.faces.fwd (T.size + 2) = f
  fc : T'.faces.fwd (T.size + 4) = g
  fa' : T'.faces.fwd (T.size + 1) = T.size + 4
  fb' : T'.faces.fwd (T.size + 3) = T.size
  fc' : T'.faces.fwd (T.size + 5) = T.size + 2
  fx : ∀ x < T.size, x ≠ e → x ≠ f → x ≠ g → T'.faces.fwd x = T.faces.fwd x

theorem exists_faces (φ : HE → HE) {n e f g : HE} (he : e < n) (hf : f < n) (hg : g < n) (hfe : f ≠ e) (hge : g ≠ e)
    (hgf : g ≠ f) : ∃ F : HE → HE, F e = n + 3 ∧ F f = n + 5 ∧ F g = n + 1 ∧ F n = e ∧ F (n + 2) = f ∧ F (n + 4) = g ∧
      F (n + 1) = n + 4 ∧ F (n + 3) = n ∧ F (n + 5) = n + 2 ∧
      ∀ x < n, x ≠ e → x ≠ f → x ≠ g → F x = φ x := by
  let F : HE → HE := fun x =>
    if x = e then n + 3 else if x = f then n + 5 else if x = g then n + 1
    else if x = n then e else if x = n + 2 then f else if x = n + 4 then g
    else if x = n + 1 then n + 4 else if x = n + 3 then n else if x = n + 5 then n + 2
    else φ x
  have Fn : ∀ k, F (n + k) = if k = 0 then e else if k = 2 then f else if k = 4 then g
    else if k = 1 then n + 4 else if k = 3 then n else if k = 5 then n + 2
    else φ (n + k) := by
    intro k
    simp only [F]
    rw [if_neg (by omega), if_neg (by omega), if_neg (by omega)]
    simp
  refine ⟨F, by simp [F], by simp [F, hfe], by simp [F, hge, hgf], Fn 0, Fn 2, Fn 4, Fn 1, Fn 3, Fn 5, ?_⟩
  intro x hx h1 h2 h3
  simp only [F]
  rw [if_neg h1, if_neg h2, if_neg h3, if_neg (by omega), if_neg (by omega), if_neg (by omega), if_neg (by omega),
    if_neg (by omega), if_neg (by omega)]

theorem neg_new {n : ℕ} (hn : n % 2 = 0) : neg n = n + 1 ∧ neg (n + 1) = n ∧ neg (n + 2) = n + 3 ∧
    neg (n + 3) = n + 2 ∧ neg (n + 4) = n + 5 ∧ neg (n + 5) = n + 4 := by
  simp only [neg_def]
  refine ⟨?_, ?_, ?_, ?_, ?_, ?_⟩ <;> split_ifs <;> omega

theorem insert_make (dbg : Bool) {T : Tri} (h : T.Coherent) {n e f g : HE} (hn : T.size = n) (hb : f ≠ e)
    (hF : T.faces.fwd e = f) (hG : T.faces.fwd f = g) (fg : T.faces.fwd g = e) {p : Perm} (hw : p.WF)
    (hs : p.size = n + 6) (pe : p.fwd e = n + 1) (pe' : p.fwd (n + 1) = T.vertices.fwd e) (pf : p.fwd f = n + 3)
    (pf' : p.fwd (n + 3) = T.vertices.fwd f) (pg : p.fwd g = n + 5) (pg' : p.fwd (n + 5) = T.vertices.fwd g)
    (pa : p.fwd n = n + 2) (pb : p.fwd (n + 2) = n + 4) (pc : p.fwd (n + 4) = n)
    (px : ∀ x < n, x ≠ e → x ≠ f → x ≠ g → p.fwd x = T.vertices.fwd x) {F : HE → HE}
    (Fe : F e = n + 3) (Ff : F f = n + 5) (Fg : F g = n + 1) (Fa : F n = e) (Fb : F (n + 2) = f) (Fc : F (n + 4) = g)
    (Fa' : F (n + 1) = n + 4) (Fb' : F (n + 3) = n) (Fc' : F (n + 5) = n + 2)
    (Fx : ∀ x < n, x ≠ e → x ≠ f → x ≠ g → F x = T.faces.fwd x)
    (hes : e < n) (hfs : f < n) (hgs : g < n) (hgf : g ≠ f) (hge : g ≠ e) :
    ∃ T', make dbg p T.boundaries = .ok T' ∧ T'.vertices = p ∧ ∀ x < p.size, T'.faces.fwd x = F x := by
  have hev : n % 2 = 0 := by rw [← hn]; exact h.even
  obtain ⟨n0, n1, n2, n3, n4, n5⟩ := neg_new hev
  have ve : T.vertices.fwd e = neg g := by
    rw [h.link' (by rw [hF]; exact hb), ← fg, h.hf.left]
  have vf : T.vertices.fwd f = neg e := by
    rw [h.link' (by rw [hG]; exact hgf), ← hF, h.hf.left]
  have vg : T.vertices.fwd g = neg f := by
    rw [h.link' (by rw [fg]; exact hge.symm), ← hG, h.hf.left]
  have hfout : ∀ x, x ≠ e → x ≠ f → x ≠ g → T.faces.fwd x ≠ e ∧ T.faces.fwd x ≠ f ∧ T.faces.fwd x ≠ g := by
    intro x h1 h2 h3
    exact ⟨fun hc => h3 (h.hf.inj (hc.trans fg.symm)), fun hc => h1 (h.hf.inj (hc.trans hF.symm)),
      fun hc => h2 (h.hf.inj (hc.trans hG.symm))⟩
  have hflt : ∀ x, x < n → T.faces.fwd x < n := fun x hx => by
    have := h.hf.fwd_lt (i := x)
    have hn' : T.vertices.size = n := hn
    rw [h.hs, hn'] at this
    exact this.2 hx
  have hcases : ∀ x < n + 6, x = e ∨ x = f ∨ x = g ∨ (x < n ∧ x ≠ e ∧ x ≠ f ∧ x ≠ g) ∨ x = n ∨
      x = n + 1 ∨ x = n + 2 ∨ x = n + 3 ∨ x = n + 4 ∨ x = n + 5 := by
    clear * -; intro x hx; omega
  have hmB : ∀ x, x ∈ T.boundaries ↔ x < n ∧ T.faces.fwd x = x := fun x => by rw [h.mem_boundaries, hn]
  have b0 : n ∉ T.boundaries := fun hc => by have := ((hmB _).1 hc).1; clear * - this; omega
  have bk : ∀ k, n + k ∉ T.boundaries := fun k hc => by have := ((hmB _).1 hc).1; clear * - this; omega
  have be : e ∉ T.boundaries := fun hc => by have := ((hmB _).1 hc).2; rw [hF] at this; exact hb this
  have bf : f ∉ T.boundaries := fun hc => by have := ((hmB _).1 hc).2; rw [hG] at this; exact hgf this
  have bg : g ∉ T.boundaries := fun hc => by have := ((hmB _).1 hc).2; rw [fg] at this; exact hge this.symm
  have hneg : ∀ x, neg x < n ↔ x < n := fun x => by rw [← hn]; exact h.neg_lt x
  have hvlt : ∀ x, T.vertices.fwd x < n ↔ x < n := fun x => by rw [← hn]; exact h.hv.fwd_lt
  refine make_of_faces dbg hw (by clear * - hs hev; omega) (B := T.boundaries) F ?_ ?_ ?_
  · intro x hx
    rw [hs] at hx
    rcases hcases x hx with hx | hx | hx | ⟨hx, h1, h2, h3⟩ | hx | hx | hx | hx | hx | hx
    · rw [hx, pe, n1, iff_false_intro b0, iff_false_intro be]
    · rw [hx, pf, n3, iff_false_intro (bk 2), iff_false_intro bf]
    · rw [hx, pg, n5, iff_false_intro (bk 4), iff_false_intro bg]
    · rw [px x hx h1 h2 h3, hmB, hmB, h.boundary_iff, hneg, hvlt]
    · rw [hx, pa, n2, iff_false_intro (bk 3), iff_false_intro b0]
    · rw [hx, pe', ve, neg_neg', iff_false_intro bg, iff_false_intro (bk 1)]
    · rw [hx, pb, n4, iff_false_intro (bk 5), iff_false_intro (bk 2)]
    · rw [hx, pf', vf, neg_neg', iff_false_intro be, iff_false_intro (bk 3)]
    · rw [hx, pc, n0, iff_false_intro (bk 1), iff_false_intro (bk 4)]
    · rw [hx, pg', vg, neg_neg', iff_false_intro bf, iff_false_intro (bk 5)]
  · intro x hx hxB
    have hx' := (hmB x).1 hxB
    rw [Fx x hx'.1 (fun hc => be (hc ▸ hxB)) (fun hc => bf (hc ▸ hxB)) (fun hc => bg (hc ▸ hxB))]
    exact hx'.2
  · intro x hx hxB
    rw [hs] at hx
    rcases hcases x hx with hx | hx | hx | ⟨hx, h1, h2, h3⟩ | hx | hx | hx | hx | hx | hx
    · rw [hx, pe, n1, Fa, Fe, Fb', Fa]; exact ⟨rfl, rfl, by clear * - hes hfs hgs; omega⟩
    · rw [hx, pf, n3, Fb, Ff, Fc', Fb]; exact ⟨rfl, rfl, by clear * - hes hfs hgs; omega⟩
    · rw [hx, pg, n5, Fc, Fg, Fa', Fc]; exact ⟨rfl, rfl, by clear * - hes hfs hgs; omega⟩
    · have hxb : T.faces.fwd x ≠ x := fun hc => hxB ((hmB x).2 ⟨hx, hc⟩)
      have e1 := h.link x hxb
      obtain ⟨k1, k2, k3⟩ := hfout x h1 h2 h3
      obtain ⟨l1, l2, l3⟩ := hfout _ k1 k2 k3
      have hy : neg (T.vertices.fwd x) < n := (hneg _).2 ((hvlt x).2 hx)
      rw [px x hx h1 h2 h3, Fx _ hy ?_ ?_ ?_, e1, Fx x hx h1 h2 h3, Fx _ (hflt x hx) k1 k2 k3,
        Fx _ (hflt _ (hflt x hx)) l1 l2 l3]
      · exact ⟨rfl, h.tri x, hxb⟩
      · intro hc; rw [hc, hF] at e1; exact h2 e1.symm
      · intro hc; rw [hc, hG] at e1; exact h3 e1.symm
      · intro hc; rw [hc, fg] at e1; exact h1 e1.symm
    · rw [hx, pa, n2, Fb', Fa, Fe, Fb']; exact ⟨rfl, rfl, by clear * - hes hfs hgs; omega⟩
    · rw [hx, pe', ve, neg_neg', Fg, Fa', Fc, Fg]; exact ⟨rfl, rfl, by clear * - hes hfs hgs; omega⟩
    · rw [hx, pb, n4, Fc', Fb, Ff, Fc']; exact ⟨rfl, rfl, by clear * - hes hfs hgs; omega⟩
    · rw [hx, pf', vf, neg_neg', Fe, Fb', Fa, Fe]; exact ⟨rfl, rfl, by clear * - hes hfs hgs; omega⟩
    · rw [hx, pc, n0, Fa', Fc, Fg, Fa']; exact ⟨rfl, rfl, by clear * - hes hfs hgs; omega⟩
    · rw [hx, pg', vg, neg_neg', Ff, Fc', Fb, Ff]; exact ⟨rfl, rfl, by clear * - hes hfs hgs; omega⟩

theorem Coherent.insertAt {T : Tri} (h : T.Coherent) {e : HE} (hb : T.faces.fwd e ≠ e) (dbg : Bool) :
    ∃ T', T.insertAt dbg e = .ok T' ∧ T'.Reachable dbg ∧
      Inserted T T' e (T.faces.fwd e) (T.faces.fwd (T.faces.fwd e)) := by
  obtain ⟨cs, hcs, -⟩ := Perm.cycles_spec h.hv
  have hes : e < T.size := h.lt_of_not_boundary hb
  obtain ⟨p, hp, hw, hs, pe, pe', pf, pf', pg, pg', pa, pb, pc, px⟩ := insert_vertices h hb hcs
  have hgf : T.faces.fwd (T.faces.fwd e) ≠ T.faces.fwd e := fun hc => hb (h.fwd_fixed.1 hc)
  have hge : T.faces.fwd (T.faces.fwd e) ≠ e := by
    intro hc
    have := h.tri e
    rw [hc] at this
    exact hb this
  have hfs := h.lt_of_not_boundary hgf
  have hgs := h.lt_of_not_boundary (fun hc => hgf (h.fwd_fixed.1 hc))
  obtain ⟨F, Fe, Ff, Fg, Fa, Fb, Fc, Fa', Fb', Fc', Fx⟩ :=
    exists_faces T.faces.fwd hes hfs hgs hb hge hgf
  obtain ⟨T', h1, h2, h3⟩ := insert_make dbg h rfl hb rfl rfl (h.tri e) hw hs pe pe' pf pf' pg pg' pa pb pc px Fe Ff Fg
    Fa Fb Fc Fa' Fb' Fc' Fx hes hfs hgs hgf hge
  refine ⟨T', ?_, ofMake hw h1, ?_⟩
  · unfold Tri.insertAt
    have hsz : 2 * (T.size / 2) = T.size := by have := h.even; clear * - this; unfold size; omega
    simp only [bind, Except.bind, pure, Except.pure, throw, throwThe, MonadExceptOf.throw, hcs, hsz, nextInFace,
      hp, if_neg (show ¬ T.size ≤ e from Nat.not_le.2 hes)]
    rw [if_neg (by rw [boundary_true]; exact hb)]
    exact h1
  · rw [hs] at h3
    exact ⟨by unfold size; rw [h2]; exact hs, by rw [h2]; exact pe, by rw [h2]; exact pe', by rw [h2]; exact pf,
      by rw [h2]; exact pf', by rw [h2]; exact pg, by rw [h2]; exact pg', by rw [h2]; exact pa, by rw [h2]; exact pb,
      by rw [h2]; exact pc, by rw [h2]; exact px,
      by rw [h3 _ (by clear * - hes hfs hgs; omega)]; exact Fe, by rw [h3 _ (by clear * - hes hfs hgs; omega)]; exact Ff, by rw [h3 _ (by clear * - hes hfs hgs; omega)]; exact Fg,
      by rw [h3 _ (by clear * - hes hfs hgs; omega)]; exact Fa, by rw [h3 _ (by clear * - hes hfs hgs; omega)]; exact Fb, by rw [h3 _ (by clear * - hes hfs hgs; omega)]; exact Fc,
      by rw [h3 _ (by clear * - hes hfs hgs; omega)]; exact Fa', by rw [h3 _ (by clear * - hes hfs hgs; omega)]; exact Fb', by rw [h3 _ (by clear * - hes hfs hgs; omega)]; exact Fc',
      fun x hx k1 k2 k3 => by rw [h3 x (by clear * - hx; omega), Fx x hx k1 k2 k3]⟩

/-- Old half edges have the same source after the insertion if they had before. -/
theorem Inserted.orb {T T' : Tri} (h : T.Coherent) {e f g : HE} (i : Inserted T T' e f g) (he : e < T.size)
    (hf : f < T.size) (hg : g < T.size) (h' : T'.Coherent) {x y : HE}
    (hx : x < T.size) (hy : y < T.size) : T'.vertices.Orb x y ↔ T.vertices.Orb x y := by
  constructor
  · intro hxy
    let π : HE → HE := fun x => if x < T.size then x else if x = T.size + 1 then e else if x = T.size + 3 then f
      else if x = T.size + 5 then g else T.size
    have πx : ∀ x < T.size, π x = x := fun x hx => if_pos hx
    have π1 : π (T.size + 1) = e := by simp [π]
    have π3 : π (T.size + 3) = f := by simp [π]
    have π5 : π (T.size + 5) = g := by simp [π]
    have πn : ∀ x, T.size ≤ x → x ≠ T.size + 1 → x ≠ T.size + 3 → x ≠ T.size + 5 → π x = T.size := by
      intro x h0 h1 h2 h3
      simp only [π]
      rw [if_neg (Nat.not_lt.2 h0), if_neg h1, if_neg h2, if_neg h3]
    have hvl : ∀ x, x < T.size → T.vertices.fwd x < T.size := fun x hx => h.hv.fwd_lt.2 hx
    have key : ∀ x, T.vertices.Orb (π x) (π (T'.vertices.fwd x)) := by
      intro x
      by_cases hx : x < T.size
      · rw [πx x hx]
        by_cases h1 : x = e
        · rw [h1, i.ve, π1]; exact .refl _ _
        by_cases h2 : x = f
        · rw [h2, i.vf, π3]; exact .refl _ _
        by_cases h3 : x = g
        · rw [h3, i.vg, π5]; exact .refl _ _
        rw [i.vx x hx h1 h2 h3, πx _ (hvl x hx)]
        exact .step _ _
      · by_cases h1 : x = T.size + 1
        · rw [h1, π1, i.ve', πx _ (hvl e he)]; exact .step _ _
        by_cases h3 : x = T.size + 3
        · rw [h3, π3, i.vf', πx _ (hvl f hf)]; exact .step _ _
        by_cases h5 : x = T.size + 5
        · rw [h5, π5, i.vg', πx _ (hvl g hg)]; exact .step _ _
        rw [πn x (Nat.not_lt.1 hx) h1 h3 h5]
        suffices hs : π (T'.vertices.fwd x) = T.size by rw [hs]; exact .refl _ _
        by_cases h0 : x = T.size
        · rw [h0, i.va]; apply πn <;> omega
        by_cases h2 : x = T.size + 2
        · rw [h2, i.vb]; apply πn <;> omega
        by_cases h4 : x = T.size + 4
        · rw [h4, i.vc]; apply πn <;> omega
        have hs := i.vsize
        rw [h'.hv.out x (by unfold size at *; omega)]
        apply πn <;> omega
    have := Perm.Orb.map key hxy
    rwa [πx x hx, πx y hy] at this
  · intro hxy
    refine Perm.Orb.map (π := id) (fun x => ?_) hxy
    by_cases h1 : x = e
    · refine (Perm.Orb.step _ _).trans ?_
      rw [h1, id, i.ve]
      exact ⟨1, i.ve'⟩
    by_cases h2 : x = f
    · refine (Perm.Orb.step _ _).trans ?_
      rw [h2, id, i.vf]
      exact ⟨1, i.vf'⟩
    by_cases h3 : x = g
    · refine (Perm.Orb.step _ _).trans ?_
      rw [h3, id, i.vg]
      exact ⟨1, i.vg'⟩
    by_cases hx : x < T.size
    · exact ⟨1, i.vx x hx h1 h2 h3⟩
    · rw [h.hv.out x (Nat.not_lt.1 hx)]; exact .refl _ _

end Verif.Tri
