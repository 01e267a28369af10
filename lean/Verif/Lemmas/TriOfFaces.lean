import Verif.Model.OfFaces
import Verif.Lemmas.TriSlit
import Mathlib.Logic.Relation

/-!
# Construction from faces
-/

namespace Verif.Tri

open Verif Spec Function

/-- There is a path along the recorded links. -/
def Reach (L : List (HE × HE)) : HE → HE → Prop := Relation.ReflTransGen fun x y => (x, y) ∈ L

theorem Reach.mono {L L' : List (HE × HE)} (h : L ⊆ L') {x y : HE} (hr : Reach L x y) : Reach L' x y :=
  Relation.ReflTransGen.mono (fun _ _ hab => h hab) _ _ hr

/-- What is known after the links `L` have been recorded. -/
structure Rec.Inv (L : List (HE × HE)) (r : Rec) : Prop where
  vp : ∀ a b, r.vertexPermutation a = some b ↔ (a, b) ∈ L
  nb : r.nonboundary = L.map Prod.fst
  fst : ∀ t, t ∉ L.map Prod.fst → t ∈ L.map Prod.snd →
    ∃ s, r.initial t = some s ∧ r.final s = some t ∧ s ∉ L.map Prod.snd ∧ Reach L s t
  snd : ∀ s, s ∉ L.map Prod.snd → s ∈ L.map Prod.fst →
    ∃ t, r.final s = some t ∧ r.initial t = some s ∧ t ∉ L.map Prod.fst ∧ Reach L s t
  ui : ∀ x, x ∉ L.map Prod.fst → x ∉ L.map Prod.snd → r.initial x = none
  uf : ∀ x, x ∉ L.map Prod.fst → x ∉ L.map Prod.snd → r.final x = none

theorem Rec.Inv.record {L : List (HE × HE)} {r : Rec} (i : Rec.Inv L r) (dbg : Bool) {a b : HE}
    (ha : a ∉ L.map Prod.fst) (hb : b ∉ L.map Prod.snd) :
    ∃ r', r.record dbg a b = .ok r' ∧ Rec.Inv (L ++ [(a, b)]) r' := by
  have hva : r.vertexPermutation a = none := by
    cases h : r.vertexPermutation a with
    | none => rfl
    | some y => exact absurd (List.mem_map_of_mem ((i.vp a y).1 h)) ha
  -- the start of the path that ends in a
  obtain ⟨ini, hini⟩ : ∃ ini, ini = if (r.initial a).isSome then r.initial else update r.initial a (some a) := ⟨_, rfl⟩
  obtain ⟨fin, hfin⟩ : ∃ fin, fin = if (r.final b).isSome then r.final else update r.final b (some b) := ⟨_, rfl⟩
  have ini_ne : ∀ x, x ≠ a → ini x = r.initial x := by
    intro x hx
    rw [hini]
    split_ifs
    · rfl
    · rw [update_of_ne hx]
  have fin_ne : ∀ x, x ≠ b → fin x = r.final x := by
    intro x hx
    rw [hfin]
    split_ifs
    · rfl
    · rw [update_of_ne hx]
  obtain ⟨s0, hs0, s0n, s0r, s0u, s0a⟩ : ∃ s0, ini a = some s0 ∧ s0 ∉ L.map Prod.snd ∧ Reach L s0 a ∧
      (∀ z, r.final s0 = some z → z = a) ∧ ((a ∈ L.map Prod.snd ∧ r.final s0 = some a) ∨ (s0 = a ∧ a ∉ L.map Prod.snd)) := by
    by_cases hs : a ∈ L.map Prod.snd
    · obtain ⟨s, h1, h2, h3, h4⟩ := i.fst a ha hs
      refine ⟨s, ?_, h3, h4, ?_, .inl ⟨hs, h2⟩⟩
      · rw [hini, h1]; simpa using h1
      · intro z hz; rw [h2] at hz; cases hz; rfl
    · refine ⟨a, ?_, hs, .refl, ?_, .inr ⟨rfl, hs⟩⟩
      · rw [hini, i.ui a ha hs]; simp
      · intro z hz; rw [i.uf a ha hs] at hz; cases hz
  obtain ⟨t0, ht0, t0n, t0r, t0u, t0b⟩ : ∃ t0, fin b = some t0 ∧ t0 ∉ L.map Prod.fst ∧ Reach L b t0 ∧
      (∀ z, r.initial t0 = some z → z = b) ∧ ((b ∈ L.map Prod.fst ∧ r.initial t0 = some b) ∨ (t0 = b ∧ b ∉ L.map Prod.fst)) := by
    by_cases hs : b ∈ L.map Prod.fst
    · obtain ⟨s, h1, h2, h3, h4⟩ := i.snd b hb hs
      refine ⟨s, ?_, h3, h4, ?_, .inl ⟨hs, h2⟩⟩
      · rw [hfin, h1]; simpa using h1
      · intro z hz; rw [h2] at hz; cases hz; rfl
    · refine ⟨b, ?_, hs, .refl, ?_, .inr ⟨rfl, hs⟩⟩
      · rw [hfin, i.uf b hs hb]; simp
      · intro z hz; rw [i.ui b hs hb] at hz; cases hz
  have hloop : s0 = b → t0 = a := by
    intro h
    rcases s0a with ⟨h1, h2⟩ | ⟨h1, h2⟩
    · rw [h] at h2
      have : fin b = some a := by rw [hfin, h2]; simpa using h2
      rw [ht0] at this; cases this; rfl
    · have hba : b = a := h.symm.trans h1
      rcases t0b with ⟨h3, -⟩ | ⟨h3, -⟩
      · rw [hba] at h3; exact absurd h3 ha
      · exact h3.trans hba
  have hloop' : t0 = a → s0 = b := by
    intro h
    rcases t0b with ⟨h1, h2⟩ | ⟨h1, h2⟩
    · rw [h] at h2
      have : ini a = some b := by rw [hini, h2]; simpa using h2
      rw [hs0] at this; cases this; rfl
    · have hba : b = a := h1.symm.trans h
      rcases s0a with ⟨h3, -⟩ | ⟨h3, -⟩
      · rw [← hba] at h3; exact absurd h3 hb
      · exact h3.trans hba.symm
  have ht : (update fin s0 (fin b) b).getD b = t0 := by
    by_cases h : b = s0
    · rw [h, update_self, ← h, ht0]; rfl
    · rw [update_of_ne h, ht0]; rfl
  have hsub : L ⊆ L ++ [(a, b)] := List.subset_append_left _ _
  have hreach : Reach (L ++ [(a, b)]) s0 t0 :=
    ((s0r.mono hsub).tail (by simp)).trans (t0r.mono hsub)
  refine ⟨⟨update ini t0 (some s0), update fin s0 (some t0), update r.vertexPermutation a (some b),
    r.nonboundary ++ [a]⟩, ?_, ?_, ?_, ?_, ?_, ?_, ?_⟩
  · unfold Rec.record
    rw [if_neg (by rw [hva]; simp)]
    simp only [← hini, ← hfin, hs0, Option.getD_some, ht]
    rw [ht0]
  · intro x y
    dsimp only
    rw [List.mem_append, List.mem_singleton, ← i.vp]
    by_cases h : x = a
    · rw [h, update_self, hva]
      constructor
      · intro h'; cases h'; exact .inr rfl
      · rintro (h' | h')
        · cases h'
        · cases h'; rfl
    · rw [update_of_ne h]
      simp [h]
  · rw [i.nb, List.map_append]; rfl
  · intro t h1 h2
    simp only [List.map_append, List.map_cons, List.map_nil, List.mem_append, List.mem_singleton, not_or] at h1 h2 ⊢
    by_cases c : t = t0
    · refine ⟨s0, by rw [c, update_self], by rw [c, update_self], ⟨s0n, ?_⟩, by rw [c]; exact hreach⟩
      intro h; exact h1.2 (c.trans (hloop h))
    · have htb : t ≠ b := by
        rintro rfl
        rcases t0b with ⟨h3, -⟩ | ⟨h3, -⟩
        · exact h1.1 h3
        · exact c h3.symm
      obtain ⟨s, h3, h4, h5, h6⟩ := i.fst t h1.1 (h2.resolve_right htb)
      have hsb : s ≠ b := by
        rintro rfl
        have : fin s = some t := by rw [hfin, h4]; simpa using h4
        rw [ht0] at this; cases this; exact c rfl
      have hss : s ≠ s0 := by
        rintro rfl
        exact h1.2 (s0u t h4)
      refine ⟨s, ?_, ?_, ⟨h5, hsb⟩, h6.mono hsub⟩
      · rw [update_of_ne c, ini_ne t h1.2, h3]
      · rw [update_of_ne hss, fin_ne s hsb, h4]
  · intro s h1 h2
    simp only [List.map_append, List.map_cons, List.map_nil, List.mem_append, List.mem_singleton, not_or] at h1 h2 ⊢
    by_cases c : s = s0
    · refine ⟨t0, by rw [c, update_self], by rw [c, update_self], ⟨t0n, ?_⟩, by rw [c]; exact hreach⟩
      intro h; exact h1.2 (c.trans (hloop' h))
    · have hsa : s ≠ a := by
        rintro rfl
        rcases s0a with ⟨h3, -⟩ | ⟨h3, -⟩
        · exact h1.1 h3
        · exact c h3.symm
      obtain ⟨t, h3, h4, h5, h6⟩ := i.snd s h1.1 (h2.resolve_right hsa)
      have hta : t ≠ a := by
        rintro rfl
        have : ini t = some s := by rw [hini, h4]; simpa using h4
        rw [hs0] at this; cases this; exact c rfl
      have htt : t ≠ t0 := by
        rintro rfl
        exact h1.2 (t0u s h4)
      refine ⟨t, ?_, ?_, ⟨h5, hta⟩, h6.mono hsub⟩
      · rw [update_of_ne c, fin_ne s h1.2, h3]
      · rw [update_of_ne htt, ini_ne t hta, h4]
  · intro x h1 h2
    simp only [List.map_append, List.map_cons, List.map_nil, List.mem_append, List.mem_singleton, not_or] at h1 h2
    have : x ≠ t0 := by
      rintro rfl
      rcases t0b with ⟨h3, h4⟩ | ⟨h3, -⟩
      · rw [i.ui x h1.1 h2.1] at h4; cases h4
      · exact h2.2 h3
    dsimp only
    rw [update_of_ne this, ini_ne x h1.2, i.ui x h1.1 h2.1]
  · intro x h1 h2
    simp only [List.map_append, List.map_cons, List.map_nil, List.mem_append, List.mem_singleton, not_or] at h1 h2
    have : x ≠ s0 := by
      rintro rfl
      rcases s0a with ⟨h3, h4⟩ | ⟨h3, -⟩
      · rw [i.uf x h1.1 h2.1] at h4; cases h4
      · exact h1.2 h3
    dsimp only
    rw [update_of_ne this, fin_ne x h2.2, i.uf x h1.1 h2.1]

/-- The links that are recorded for a list of faces. -/
def links (l : List (HE × HE × HE)) : List (HE × HE) :=
  l.flatMap fun f => [(f.1, neg f.2.2), (f.2.1, neg f.1), (f.2.2, neg f.2.1)]

/-- The half edges used in a list of faces. -/
def used (l : List (HE × HE × HE)) : List HE := l.flatMap fun f => [f.1, f.2.1, f.2.2]

theorem links_fst (l : List (HE × HE × HE)) : (links l).map Prod.fst = used l := by
  unfold links used
  induction l with
  | nil => rfl
  | cons f l ih => simp only [List.flatMap_cons, List.map_append, ih]; rfl

theorem mem_links_snd (l : List (HE × HE × HE)) (x : HE) : x ∈ (links l).map Prod.snd ↔ neg x ∈ used l := by
  unfold links used
  induction l with
  | nil => simp
  | cons f l ih =>
    simp only [List.flatMap_cons, List.map_append, List.mem_append, ih]
    apply or_congr_left
    simp only [List.map_cons, List.map_nil, List.mem_cons, List.not_mem_nil, or_false]
    have : ∀ y, x = neg y ↔ neg x = y := fun y => ⟨fun h => by rw [h, neg_neg'], fun h => by rw [← h, neg_neg']⟩
    rw [this, this, this]
    tauto

theorem links_snd_nodup {l : List (HE × HE × HE)} (h : (used l).Nodup) : ((links l).map Prod.snd).Nodup := by
  have hp : ((links l).map Prod.snd).Perm ((used l).map neg) := by
    unfold links used
    clear h
    induction l with
    | nil => simp
    | cons f l ih =>
      simp only [List.flatMap_cons, List.map_append]
      refine List.Perm.append ?_ ih
      simp only [List.map_cons, List.map_nil]
      exact (List.Perm.swap _ _ _).trans (List.Perm.cons _ (List.Perm.swap _ _ _))
  rw [hp.nodup_iff]
  exact h.map fun x y hxy => neg_inj'.1 hxy

theorem foldlM_recordFace (dbg : Bool) (l : List (HE × HE × HE)) (r : Rec) :
    l.foldlM (Rec.recordFace dbg) r = (links l).foldlM (fun r ab => r.record dbg ab.1 ab.2) r := by
  induction l generalizing r with
  | nil => rfl
  | cons f l ih =>
    unfold links
    rw [List.flatMap_cons, List.foldlM_append, List.foldlM_cons]
    have : Rec.recordFace dbg r f = List.foldlM (fun r ab => Rec.record dbg r ab.1 ab.2) r
        [(f.1, neg f.2.2), (f.2.1, neg f.1), (f.2.2, neg f.2.1)] := by
      simp only [Rec.recordFace, List.foldlM_cons, List.foldlM_nil, bind_pure]
    rw [this]
    congr 1
    funext r
    exact ih r

theorem Rec.Inv.foldlM (dbg : Bool) {L0 L : List (HE × HE)} {r : Rec} (i : Rec.Inv L0 r)
    (h1 : ((L0 ++ L).map Prod.fst).Nodup) (h2 : ((L0 ++ L).map Prod.snd).Nodup) :
    ∃ r', L.foldlM (fun r ab => r.record dbg ab.1 ab.2) r = .ok r' ∧ Rec.Inv (L0 ++ L) r' := by
  induction L generalizing L0 r with
  | nil => exact ⟨r, rfl, by rwa [List.append_nil]⟩
  | cons ab L ih =>
    obtain ⟨a, b⟩ := ab
    have e : L0 ++ (a, b) :: L = (L0 ++ [(a, b)]) ++ L := by simp
    obtain ⟨r1, hr1, i1⟩ := i.record dbg (a := a) (b := b)
      (by
        intro hm
        rw [List.map_append, List.nodup_append] at h1
        exact h1.2.2 a hm a (by simp) rfl)
      (by
        intro hm
        rw [List.map_append, List.nodup_append] at h2
        exact h2.2.2 b hm b (by simp) rfl)
    rw [e] at h1 h2 ⊢
    obtain ⟨r2, hr2, i2⟩ := ih i1 h1 h2
    refine ⟨r2, ?_, i2⟩
    rw [List.foldlM_cons, hr1]
    exact hr2

theorem Rec.Inv.start : Rec.Inv [] ⟨fun _ => none, fun _ => none, fun _ => none, []⟩ where
  vp := by simp
  nb := rfl
  fst := by simp
  snd := by simp
  ui := by simp
  uf := by simp

theorem foldlM_close (r : Rec) (B : List HE) (v : HE → Option HE) (h : ∀ x ∈ B, ∃ s, r.initial x = some s) :
    ∃ v', B.foldlM r.close v = .ok v' ∧ ∀ x, v' x = if x ∈ B then r.initial x else v x := by
  induction B generalizing v with
  | nil => exact ⟨v, rfl, by simp⟩
  | cons b B ih =>
    obtain ⟨s, hs⟩ := h b List.mem_cons_self
    obtain ⟨v', h1, h2⟩ := ih (update v b (some s)) (fun x hx => h x (List.mem_cons_of_mem _ hx))
    refine ⟨v', ?_, ?_⟩
    · rw [List.foldlM_cons]
      unfold Rec.close
      rw [hs]
      exact h1
    · intro x
      rw [h2]
      by_cases c1 : x ∈ B
      · rw [if_pos c1, if_pos (List.mem_cons_of_mem _ c1)]
      · rw [if_neg c1]
        by_cases c2 : x = b
        · rw [c2, update_self, if_pos List.mem_cons_self, hs]
        · rw [update_of_ne c2, if_neg (by simp [c1, c2])]

theorem le_keyBound {l : List (HE × HE × HE)} {x : HE} (hx : x ∈ used l) : x + 2 ≤ keyBound l := by
  unfold used at hx
  unfold keyBound
  induction l with
  | nil => simp at hx
  | cons f l ih =>
    simp only [List.flatMap_cons, List.mem_append, List.mem_cons, List.not_mem_nil, or_false] at hx
    simp only [List.map_cons, List.foldr_cons]
    rcases hx with hx | hx
    · omega
    · have := ih hx
      omega

theorem mapEntries_ok' {m : HE → Option HE} {n N : ℕ} {f : HE → HE} (hN : n ≤ N) (hm : ∀ k < n, m k = some (f k))
    (hm' : ∀ k, n ≤ k → m k = none) : mapEntries m N = (List.range n).map fun k => (k, f k) := by
  rw [← mapEntries_ok hm]
  unfold mapEntries
  obtain ⟨d, rfl⟩ := Nat.exists_eq_add_of_le hN
  rw [List.range_add, List.filterMap_append]
  have : ((List.range d).map fun x => n + x).filterMap (fun k => (m k).map fun v => (k, v)) = [] := by
    rw [List.filterMap_eq_nil_iff]
    intro k hk
    obtain ⟨j, -, rfl⟩ := List.mem_map.1 hk
    rw [hm' _ (by omega)]
    rfl
  rw [this, List.append_nil]

/-- The result of the construction from faces. -/
theorem ofFaces_spec (dbg : Bool) {l : List (HE × HE × HE)} {n : ℕ} (hn : n % 2 = 0) (hu : (used l).Nodup)
    (hc : ∀ x, (x ∈ used l ∨ neg x ∈ used l) ↔ x < n) :
    ∃ T, ofFaces dbg l = .ok T ∧ T.Reachable dbg ∧ T.size = n ∧
      (∀ f ∈ l, T.faces.fwd f.1 = f.2.1 ∧ T.faces.fwd f.2.1 = f.2.2 ∧ T.faces.fwd f.2.2 = f.1) ∧
      (∀ x < n, T.faces.fwd x = x ↔ x ∉ used l) ∧
      (∀ x < n, T.faces.fwd x = x → Reach (links l) (T.vertices.fwd x) x) ∧
      (∀ a b, (a, b) ∈ links l → T.vertices.fwd a = b) := by
  obtain ⟨r, hr, i⟩ := Rec.Inv.start.foldlM dbg (L := links l) (by rw [List.nil_append, links_fst]; exact hu)
    (by rw [List.nil_append]; exact links_snd_nodup hu)
  rw [List.nil_append] at i
  have hneg : ∀ x, neg x < n ↔ x < n := fun x => neg_lt' hn x
  have hB : ∀ x, x ∈ r.boundary ↔ neg x ∈ used l ∧ x ∉ used l := by
    intro x
    unfold Rec.boundary
    rw [i.nb, links_fst]
    simp only [List.mem_map, List.mem_filter, decide_eq_true_iff]
    constructor
    · rintro ⟨y, ⟨h1, h2⟩, rfl⟩
      rw [neg_neg']
      exact ⟨h1, h2⟩
    · rintro ⟨h1, h2⟩
      exact ⟨neg x, ⟨h1, by rwa [neg_neg']⟩, neg_neg' x⟩
  have hBd : ∀ x ∈ r.boundary, ∃ s, r.initial x = some s ∧ r.final s = some x ∧ s ∉ (links l).map Prod.snd ∧
      Reach (links l) s x := by
    intro x hx
    rw [hB] at hx
    exact i.fst x (by rw [links_fst]; exact hx.2) ((mem_links_snd l x).2 hx.1)
  obtain ⟨v, hv, hvx⟩ := foldlM_close r r.boundary r.vertexPermutation
    (fun x hx => let ⟨s, h, _⟩ := hBd x hx; ⟨s, h⟩)
  have hU : ∀ a b, (a, b) ∈ links l → v a = some b := by
    intro a b hab
    have ha : a ∈ used l := by rw [← links_fst]; exact List.mem_map_of_mem hab
    rw [hvx, if_neg (by rw [hB]; exact fun h => h.2 ha)]
    exact (i.vp a b).2 hab
  have hU' : ∀ a ∈ used l, ∃ b, (a, b) ∈ links l ∧ v a = some b ∧ neg b ∈ used l := by
    intro a ha
    rw [← links_fst] at ha
    obtain ⟨⟨a', b⟩, hab, rfl⟩ := List.mem_map.1 ha
    exact ⟨b, hab, hU _ b hab, (mem_links_snd l b).1 (List.mem_map_of_mem hab)⟩
  have hUn : ∀ x ∈ used l, x < n := fun x hx => (hc x).1 (.inl hx)
  have hBv : ∀ x ∈ r.boundary, ∃ s, v x = some s ∧ r.final s = some x ∧ neg s ∉ used l ∧ s < n ∧ Reach (links l) s x := by
    intro x hx
    obtain ⟨s, h1, h2, h3, h4⟩ := hBd x hx
    refine ⟨s, by rw [hvx, if_pos hx, h1], h2, fun h => h3 ((mem_links_snd l s).2 h), ?_, h4⟩
    rcases Relation.ReflTransGen.cases_head h4 with rfl | ⟨y, h5, -⟩
    · exact (hc s).1 (.inr ((hB s).1 hx).1)
    · refine hUn s ?_
      rw [← links_fst]
      exact List.mem_map_of_mem h5
  have hcases : ∀ x < n, x ∈ used l ∨ x ∈ r.boundary := by
    intro x hx
    rcases (hc x).2 hx with h | h
    · exact .inl h
    · by_cases h' : x ∈ used l
      · exact .inl h'
      · exact .inr ((hB x).2 ⟨h, h'⟩)
  have hvn : ∀ k < n, v k = some ((v k).getD k) := by
    intro k hk
    rcases hcases k hk with h | h
    · obtain ⟨b, -, h2, -⟩ := hU' k h; rw [h2]; rfl
    · obtain ⟨b, h2, -⟩ := hBv k h; rw [h2]; rfl
  have hvo : ∀ k, n ≤ k → v k = none := by
    intro k hk
    have hnk : ¬ (k ∈ used l ∨ neg k ∈ used l) := by rw [hc]; omega
    rw [not_or] at hnk
    rw [hvx, if_neg (by rw [hB]; exact fun h => hnk.2 h.1)]
    cases h : r.vertexPermutation k with
    | none => rfl
    | some y =>
      have := List.mem_map_of_mem (f := Prod.fst) ((i.vp k y).1 h)
      rw [links_fst] at this
      exact absurd this hnk.1
  have hlt : ∀ k < n, (v k).getD k < n := by
    intro k hk
    rcases hcases k hk with h | h
    · obtain ⟨b, -, h2, h3⟩ := hU' k h
      rw [h2]
      exact (hneg b).1 (hUn _ h3)
    · obtain ⟨b, h2, -, -, h3, -⟩ := hBv k h
      rw [h2]
      exact h3
  have hinj : Injective fun k => (v k).getD k := by
    intro x y hxy
    dsimp only at hxy
    by_cases hx : x < n
    · by_cases hy : y < n
      · rcases hcases x hx with h | h <;> rcases hcases y hy with h' | h'
        · obtain ⟨b, h1, h2, h3⟩ := hU' x h
          obtain ⟨b', h1', h2', h3'⟩ := hU' y h'
          rw [h2, h2'] at hxy
          simp only [Option.getD_some] at hxy
          subst hxy
          have := List.inj_on_of_nodup_map (links_snd_nodup hu) h1 h1' rfl
          exact congrArg Prod.fst this
        · obtain ⟨b, h1, h2, h3⟩ := hU' x h
          obtain ⟨s, h1', h2', h3', -⟩ := hBv y h'
          rw [h2, h1'] at hxy
          simp only [Option.getD_some] at hxy
          rw [hxy] at h3
          exact absurd h3 h3'
        · obtain ⟨b, h1, h2, h3⟩ := hU' y h'
          obtain ⟨s, h1', h2', h3', -⟩ := hBv x h
          rw [h2, h1'] at hxy
          simp only [Option.getD_some] at hxy
          rw [← hxy] at h3
          exact absurd h3 h3'
        · obtain ⟨s, h1, h2, -⟩ := hBv x h
          obtain ⟨s', h1', h2', -⟩ := hBv y h'
          rw [h1, h1'] at hxy
          simp only [Option.getD_some] at hxy
          rw [hxy, h2'] at h2
          cases h2
          rfl
      · have := hlt x hx
        rw [hxy, hvo y (by omega)] at this
        simp only [Option.getD_none] at this
        omega
    · by_cases hy : y < n
      · have := hlt y hy
        rw [← hxy, hvo x (by omega)] at this
        simp only [Option.getD_none] at this
        omega
      · rw [hvo x (by omega), hvo y (by omega)] at hxy
        exact hxy
  have hNle : n ≤ keyBound l := by
    by_cases h0 : n = 0
    · omega
    · rcases (hc (n - 1)).2 (by omega) with h | h
      · have := le_keyBound h; omega
      · have := le_keyBound h
        have h2 : neg (n - 1) = n - 2 := by rw [neg_def, if_neg (by omega)]; omega
        omega
  obtain ⟨p, p1, p2, p3, p4⟩ := ofPairs_range hinj hlt (fun k hk => by
    rw [hvo k hk]; rfl)
  have hpU : ∀ a b, (a, b) ∈ links l → p.fwd a = b := by
    intro a b hab
    rw [p4, hU a b hab]; rfl
  have hface : ∀ f ∈ l, p.fwd f.1 = neg f.2.2 ∧ p.fwd f.2.1 = neg f.1 ∧ p.fwd f.2.2 = neg f.2.1 := by
    intro f hf
    refine ⟨hpU _ _ ?_, hpU _ _ ?_, hpU _ _ ?_⟩ <;> unfold links <;> rw [List.mem_flatMap] <;>
      exact ⟨f, hf, by simp⟩
  have hfaceOf : ∀ x ∈ used l, ∃ f ∈ l, x = f.1 ∨ x = f.2.1 ∨ x = f.2.2 := by
    intro x hx
    unfold used at hx
    obtain ⟨f, hf, hx⟩ := List.mem_flatMap.1 hx
    exact ⟨f, hf, by simpa using hx⟩
  have hfmem : ∀ f ∈ l, f.1 ∈ used l ∧ f.2.1 ∈ used l ∧ f.2.2 ∈ used l := by
    intro f hf
    unfold used
    refine ⟨?_, ?_, ?_⟩ <;> exact List.mem_flatMap.2 ⟨f, hf, by simp⟩
  have hfne : ∀ f ∈ l, f.1 ≠ f.2.1 ∧ f.1 ≠ f.2.2 ∧ f.2.1 ≠ f.2.2 := by
    intro f hf
    have := (List.nodup_flatMap.1 hu).1 f hf
    simp only [List.nodup_cons, List.mem_cons, List.not_mem_nil, or_false, not_or, not_false_eq_true,
      List.nodup_nil, and_true] at this
    exact ⟨this.1.1, this.1.2, this.2⟩
  have hnotB : ∀ x, x ∈ used l → x ∉ r.boundary := fun x hx h => ((hB x).1 h).2 hx
  obtain ⟨T, hT⟩ := make_ok (dbg := dbg) (B := r.boundary) p2 (by rw [p3]; exact hn)
    (by
      intro x hx
      rw [p3] at hx
      rcases hcases x hx with h | h
      · obtain ⟨b, h1, h2, h3⟩ := hU' x h
        rw [hpU x b h1]
        exact iff_of_false (hnotB _ h3) (hnotB _ h)
      · obtain ⟨s, h1, h2, h3, h4, -⟩ := hBv x h
        refine iff_of_true ?_ h
        rw [p4, h1, hB]
        simp only [Option.getD_some, neg_neg']
        exact ⟨((hc s).2 h4).resolve_right h3, h3⟩)
    (by
      intro x hx hxB
      rw [p3] at hx
      obtain ⟨f, hf, h⟩ := hfaceOf x ((hcases x hx).resolve_right hxB)
      obtain ⟨h1, h2, h3⟩ := hface f hf
      obtain ⟨n1, n2, n3⟩ := hfne f hf
      rcases h with rfl | rfl | rfl
      · rw [h1, neg_neg', h3, neg_neg', h2, neg_neg']; exact ⟨rfl, fun _ => n2.symm⟩
      · rw [h2, neg_neg', h1, neg_neg', h3, neg_neg']; exact ⟨rfl, fun _ => n1⟩
      · rw [h3, neg_neg', h2, neg_neg', h1, neg_neg']; exact ⟨rfl, fun _ => n3⟩)
  obtain ⟨s1, s2, s3, s4, s5, s6⟩ := make_spec p2 hT
  rw [p3] at s4 s5 s6
  have hfaces : ∀ f ∈ l, T.faces.fwd f.1 = f.2.1 ∧ T.faces.fwd f.2.1 = f.2.2 ∧ T.faces.fwd f.2.2 = f.1 := by
    intro f hf
    obtain ⟨h1, h2, h3⟩ := hface f hf
    obtain ⟨m1, m2, m3⟩ := hfmem f hf
    have e1 := s5 f.1 (hUn _ m1) (hnotB _ m1)
    have e2 := s5 f.2.1 (hUn _ m2) (hnotB _ m2)
    have e3 := s5 f.2.2 (hUn _ m3) (hnotB _ m3)
    rw [h1, neg_neg'] at e1
    rw [h2, neg_neg'] at e2
    rw [h3, neg_neg'] at e3
    exact ⟨e2, e3, e1⟩
  have hbd : ∀ x < n, T.faces.fwd x = x ↔ x ∉ used l := by
    intro x hx
    constructor
    · intro hfx hxu
      obtain ⟨f, hf, h⟩ := hfaceOf x hxu
      obtain ⟨e1, e2, e3⟩ := hfaces f hf
      obtain ⟨n1, n2, n3⟩ := hfne f hf
      rcases h with rfl | rfl | rfl
      · exact n1 (hfx.symm.trans e1)
      · exact n3 (hfx.symm.trans e2)
      · exact n2 (e3.symm.trans hfx)
    · intro h
      exact s4 x hx ((hcases x hx).resolve_left h)
  refine ⟨T, ?_, ofMake p2 hT, by unfold size; rw [s3, p3], hfaces, hbd, ?_, ?_⟩
  · unfold ofFaces
    rw [foldlM_recordFace]
    simp only [bind, Except.bind, pure, Except.pure, throw, throwThe, MonadExceptOf.throw] at hr hv ⊢
    rw [hr]
    simp only [hv, mapEntries_ok' hNle hvn hvo, p1, hT]
    rw [if_neg]
    rintro ⟨-, f, hf, h⟩
    exact h (hfaces f hf)
  · intro x hx hxb
    obtain ⟨s, h1, h2, h3, h4, h5⟩ := hBv x ((hcases x hx).resolve_left ((hbd x hx).1 hxb))
    rw [s3, p4, h1]
    exact h5
  · intro a b hab
    rw [s3]
    exact hpU a b hab

theorem Reach.orb {l : List (HE × HE × HE)} {p : Perm} (h : ∀ a b, (a, b) ∈ links l → p.fwd a = b) {x y : HE}
    (hr : Reach (links l) x y) : p.Orb x y := by
  induction hr with
  | refl => exact .refl _ _
  | tail _ h2 ih => exact ih.trans ⟨1, h _ _ h2⟩

/-- There is no other boundary half edge at the vertex of a boundary half edge. -/
theorem ofFaces_simple {l : List (HE × HE × HE)} {T : Tri} (hT : T.Coherent)
    (hbd : ∀ x < T.size, T.faces.fwd x = x ↔ x ∉ used l)
    (hr : ∀ x < T.size, T.faces.fwd x = x → Reach (links l) (T.vertices.fwd x) x)
    (hl : ∀ a b, (a, b) ∈ links l → T.vertices.fwd a = b) {x y : HE} (hx : x < T.size)
    (hxb : T.faces.fwd x = x) (hyb : T.faces.fwd y = y) (ho : T.vertices.Orb x y) : x = y := by
  have hy : y < T.size := ho.lt hT.hv hx
  obtain ⟨k, rfl⟩ := ho
  have key := closed_iterate (p := T.vertices.fwd) (A := fun z => Reach (links l) (T.vertices.fwd x) z ∧
    Reach (links l) z x) (by
      rintro z ⟨h1, h2⟩
      rcases Relation.ReflTransGen.cases_head h2 with rfl | ⟨y, h3, h4⟩
      · exact ⟨.refl, hr z hx hxb⟩
      · rw [hl _ _ h3]
        exact ⟨h1.tail h3, h4⟩) ⟨hr x hx hxb, .refl⟩ k
  rcases Relation.ReflTransGen.cases_head key.2 with h | ⟨z, h3, -⟩
  · exact h.symm
  · have : T.vertices.fwd^[k] x ∈ used l := by rw [← links_fst]; exact List.mem_map_of_mem h3
    exact absurd this ((hbd _ hy).1 hyb)

/-- Building a surface from its faces. -/
theorem ofFaces_facesList (dbg : Bool) {T : Tri} (h : T.Coherent)
    (hb : ∀ x < T.size, T.faces.fwd x = x → T.faces.fwd (neg x) ≠ neg x)
    (hs : ∀ x y, x < T.size → T.faces.fwd x = x → T.faces.fwd y = y → T.vertices.Orb x y → x = y) :
    ∃ l T', T.facesList = some l ∧ ofFaces dbg l = .ok T' ∧ T'.Reachable dbg ∧ T'.vertices = T.vertices ∧
      T'.faces = T.faces := by
  obtain ⟨l, h1, h2, h3⟩ := facesList_spec h
  have hmem : ∀ x, x ∈ used l ↔ x < T.size ∧ T.faces.fwd x ≠ x := by
    intro x
    unfold used
    rw [h3.mem_iff, List.mem_filter, List.mem_range]
    simp [boundary]
  obtain ⟨T', t1, t2, t3, t4, t5, t6, t7⟩ := ofFaces_spec dbg h.even (l := l)
    (by unfold used; rw [h3.nodup_iff]; exact List.nodup_range.filter _)
    (by
      intro x
      rw [hmem, hmem]
      constructor
      · rintro (hx | hx)
        · exact hx.1
        · exact (h.neg_lt x).1 hx.1
      · intro hx
        by_cases hxb : T.faces.fwd x = x
        · exact .inr ⟨(h.neg_lt x).2 hx, hb x hx hxb⟩
        · exact .inl ⟨hx, hxb⟩)
  have hc' := t2.inv.1
  have hf : ∀ x, T'.faces.fwd x = T.faces.fwd x := by
    intro x
    by_cases hx : x < T.size
    · by_cases hxu : x ∈ used l
      · have hxu' := hxu
        unfold used at hxu'
        obtain ⟨f, hf, hx⟩ := List.mem_flatMap.1 hxu'
        obtain ⟨e1, e2, e3⟩ := t4 f hf
        obtain ⟨g1, g2, g3, -⟩ := h2 f hf
        simp only [List.mem_cons, List.not_mem_nil, or_false] at hx
        rcases hx with rfl | rfl | rfl
        · rw [e1, g1]
        · rw [e2, g2]
        · rw [e3, g3]
      · rw [(t5 x hx).2 hxu]
        by_contra hne
        exact hxu ((hmem x).2 ⟨hx, Ne.symm hne⟩)
    · rw [h.hf.out x (by rw [h.hs]; exact Nat.not_lt.1 hx),
        hc'.hf.out x (by rw [hc'.hs]; exact t3.le.trans (Nat.not_lt.1 hx))]
  have hfe : T'.faces = T.faces := hc'.hf.ext h.hf (by rw [hc'.hs, h.hs]; exact t3) fun x _ => hf x
  have hvn : ∀ x, T.faces.fwd x ≠ x → T'.vertices.fwd x = T.vertices.fwd x := by
    intro x hx
    rw [hc'.link' (by rw [hfe]; exact hx), h.link' hx, hfe]
  have hlT : ∀ a b, (a, b) ∈ links l → T.vertices.fwd a = b := by
    intro a b hab
    have ha : a ∈ used l := by rw [← links_fst]; exact List.mem_map_of_mem hab
    rw [← hvn a ((hmem a).1 ha).2]
    exact t7 a b hab
  refine ⟨l, T', h1, t1, t2, hc'.hv.ext h.hv t3 fun x hx => ?_, hfe⟩
  by_cases hxb : T.faces.fwd x = x
  · have hxs : x < T.size := lt_of_lt_of_eq hx t3
    have hr := t6 x hxs (by rw [hf]; exact hxb)
    have hz := h.hv.right (T'.vertices.fwd x)
    generalize T.vertices.inv (T'.vertices.fwd x) = z at hz
    have hzb : T.faces.fwd z = z := by
      by_contra hzb
      have := hvn z hzb
      rw [hz] at this
      have := hc'.hv.inj this
      exact hzb (by rw [this]; exact hxb)
    have ho : T.vertices.Orb z x := (Perm.Orb.step _ _).trans (by rw [hz]; exact hr.orb hlT)
    have hzx : x = z := hs x z hxs hxb hzb (ho.symm h.hv)
    rw [← hz, ← hzx]
  · exact hvn x hxb

end Verif.Tri
