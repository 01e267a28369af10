import Verif.Lemmas.Walker

/-!
Code words and isomorphisms: isomorphic surfaces have the same words, and from equal words an isomorphism can be built.
-/

namespace Verif

/-- A bijection of the half edges which respects edges and faces. -/
structure CellIso (n : ℕ) (nxt : HE → HE) (n' : ℕ) (nxt' : HE → HE) (φ : HE → HE) : Prop where
  lt : ∀ x < n, φ x < n'
  inj : ∀ x < n, ∀ y < n, φ x = φ y → x = y
  surj : ∀ y < n', ∃ x < n, φ x = y
  neg : ∀ x < n, φ (neg x) = neg (φ x)
  next : ∀ x < n, φ (nxt x) = nxt' (φ x)

namespace Walker

variable {n n' : ℕ} {nxt nxt' φ : HE → HE} {s : HE}

/-- Two walkers are in corresponding states. -/
structure Rel (n : ℕ) (φ : HE → HE) (w w' : Walker) : Prop where
  labels : ∀ x < n, w'.labels (φ x) = w.labels x
  count : w'.count = w.count
  labeled : w'.labeled = w.labeled.map φ
  steps : w'.steps = w.steps
  lt : ∀ x ∈ w.labeled, x < n

theorem Rel.label (hn : n % 2 = 0) (hφ : CellIso n nxt n' nxt' φ) {w w' : Walker} (h : Rel n φ w w') {e : HE} (he : e < n) :
    (w'.label (φ e)).1 = (w.label e).1 ∧ Rel n φ (w.label e).2 (w'.label (φ e)).2 := by
  have hhead : w'.labeled.head? = some (φ e) ↔ w.labeled.head? = some e := by
    rw [h.labeled, List.head?_map]
    cases hh : w.labeled.head? with
    | none => simp
    | some x =>
      have hx : x < n := h.lt x (List.mem_of_mem_head? hh)
      simp only [Option.map_some, Option.some.injEq]
      exact ⟨hφ.inj x hx e he, fun h => by rw [h]⟩
  simp only [Walker.label]
  by_cases h0 : w.labeled.head? = some e
  · rw [if_pos h0, if_pos (hhead.2 h0)]
    exact ⟨rfl, h⟩
  · rw [if_neg h0, if_neg (fun hc => h0 (hhead.1 hc)), h.labels e he, ← hφ.neg e he, h.labels _ (neg_lt_of_even hn he)]
    cases h1 : w.labels e with
    | some l => exact ⟨rfl, h⟩
    | none =>
      cases h2 : w.labels (Verif.neg e) with
      | some l => exact ⟨rfl, h⟩
      | none =>
        refine ⟨by simp only [h.count], ?_, by simp only [h.count], ?_, h.steps, ?_⟩
        · intro x hx
          simp only [h.count, h.labels x hx]
          by_cases hxe : x = e
          · rw [if_pos hxe, if_pos (by rw [hxe])]
          · rw [if_neg hxe, if_neg (fun hc => hxe (hφ.inj x hx e he hc))]
        · simp [h.labeled]
        · intro x hx
          simp only [List.mem_append, List.mem_singleton] at hx
          rcases hx with hx | rfl
          · exact h.lt x hx
          · exact he

theorem Rel.walk (hn : n % 2 = 0) (hlt : ∀ x < n, nxt x < n) (hφ : CellIso n nxt n' nxt' φ) {a : HE} (ha : a < n) (fuel : ℕ) :
    ∀ {w w' : Walker}, Rel n φ w w' → ∀ {p : HE}, p < n → ∀ {cs : List ℤ} {r : List ℤ × Walker},
      Walker.walk nxt a fuel w p cs = some r →
      ∃ r', Walker.walk nxt' (φ a) fuel w' (φ p) cs = some r' ∧ r'.1 = r.1 ∧ Rel n φ r.2 r'.2 := by
  induction fuel with
  | zero => intro w w' _ p _ cs r hr; cases hr
  | succ fuel ih =>
    intro w w' h p hp cs r hr
    simp only [Walker.walk] at hr ⊢
    rw [← hφ.next p hp]
    by_cases h0 : nxt p = a
    · rw [if_pos h0] at hr
      rw [if_pos (by rw [h0])]
      cases hr
      exact ⟨_, rfl, rfl, h⟩
    · rw [if_neg h0] at hr
      rw [if_neg (fun hc => h0 (hφ.inj _ (hlt p hp) a ha hc))]
      obtain ⟨h1, h2⟩ := h.label hn hφ (hlt p hp)
      rw [h1, h2.steps]
      split_ifs at hr ⊢
      · cases hr; exact ⟨_, rfl, rfl, h2⟩
      · cases hr; exact ⟨_, rfl, rfl, h2⟩
      · exact ih h2 (hlt p hp) hr

theorem Rel.step (hn : n % 2 = 0) (hlt : ∀ x < n, nxt x < n) (hφ : CellIso n nxt n' nxt' φ) {fuel : ℕ} {w w' : Walker}
    (h : Rel n φ w w') {r : Option (List ℤ) × Walker} (hr : Walker.step nxt fuel w = some r) :
    ∃ r', Walker.step nxt' fuel w' = some r' ∧ r'.1 = r.1 ∧ Rel n φ r.2 r'.2 := by
  simp only [Walker.step] at hr ⊢
  rw [h.labeled, List.getElem?_map, h.steps]
  cases hc : w.labeled[w.steps]? with
  | none =>
    rw [hc] at hr
    cases hr
    exact ⟨_, rfl, rfl, h⟩
  | some x =>
    have hx : x < n := h.lt x (List.mem_of_getElem? hc)
    have hnx := neg_lt_of_even hn hx
    rw [hc] at hr
    simp only [Option.map_some] at hr ⊢
    rw [← hφ.neg x hx, h.labels _ hnx]
    have h' : Rel n φ { w with steps := w.steps + 1 } { w' with steps := w.steps + 1 } :=
      ⟨h.labels, h.count, h.labeled, rfl, h.lt⟩
    by_cases h0 : (w.labels (Verif.neg x)).isSome
    · rw [if_pos h0] at hr ⊢
      cases hr
      exact ⟨_, rfl, rfl, ⟨h.labels, h.count, rfl, rfl, h.lt⟩⟩
    · rw [if_neg h0] at hr ⊢
      rw [Option.map_eq_some_iff] at hr
      obtain ⟨q, hq, rfl⟩ := hr
      obtain ⟨q', hq', h1, h2⟩ := Rel.walk hn hlt hφ hnx fuel h' hnx hq
      rw [h.labeled] at hq'
      refine ⟨_, by rw [hq']; rfl, ?_, h2⟩
      simp only [h1]

theorem Rel.run (hn : n % 2 = 0) (hlt : ∀ x < n, nxt x < n) (hφ : CellIso n nxt n' nxt' φ) {fuel : ℕ} {w f : Walker}
    {word : List (List ℤ)} (hr : Run (Walker.step nxt fuel) w word f) {w' : Walker} (h : Rel n φ w w') :
    ∃ f', Run (Walker.step nxt' fuel) w' word f' ∧ Rel n φ f f' := by
  induction hr generalizing w' with
  | done h1 =>
    obtain ⟨r', h2, h3, h4⟩ := h.step hn hlt hφ h1
    rename_i w
    refine ⟨w', .done ?_, h⟩
    rw [h2]
    obtain ⟨c, v⟩ := r'
    simp only at h3
    subst h3
    -- a walker which is done is left unchanged
    simp only [Walker.step] at h2
    cases hc : w'.labeled[w'.steps]? with
    | none => rw [hc] at h2; cases h2; rfl
    | some x =>
      rw [hc] at h2
      simp only at h2
      split_ifs at h2
      · cases h2
      · rw [Option.map_eq_some_iff] at h2
        obtain ⟨q, -, hq⟩ := h2
        cases hq
  | cons h1 _ ih =>
    obtain ⟨r', h2, h3, h4⟩ := h.step hn hlt hφ h1
    obtain ⟨f', h5, h6⟩ := ih h4
    refine ⟨f', .cons ?_ h5, h6⟩
    rw [h2]
    obtain ⟨c, v⟩ := r'
    simp only at h3
    rw [h3]

theorem Rel.make (hn : n % 2 = 0) (hφ : CellIso n nxt n' nxt' φ) (hs : s < n) : Rel n φ (make s) (make (φ s)) := by
  refine ⟨?_, rfl, ?_, rfl, ?_⟩
  · intro x hx
    simp only [Walker.make, ← hφ.neg s hs]
    by_cases h : x = Verif.neg s
    · rw [if_pos h, if_pos (by rw [h])]
    · rw [if_neg h, if_neg (fun hc => h (hφ.inj x hx _ (neg_lt_of_even hn hs) hc))]
  · simp [Walker.make, hφ.neg s hs]
  · intro x hx
    simp only [Walker.make, List.mem_singleton] at hx
    rw [hx]
    exact neg_lt_of_even hn hs

/-- The final state of a walk on a connected surface. -/
structure Final (n : ℕ) (nxt : HE → HE) (s : HE) (word : List (List ℤ)) (f : Walker) : Prop where
  inv : Inv n nxt s f
  steps : f.steps = f.labeled.length
  len : f.labeled.length = word.length
  cover : ∀ x < n, x ∈ f.labeled ∨ neg x ∈ f.labeled
  proc : ∀ x < n, Proc nxt f.labeled f.steps x
  char : ∀ (i : ℕ) (c : List ℤ), word[i]? = some c → Char nxt f.labeled i c

theorem exists_run (hc : Cells n nxt) (hconn : Conn n nxt) (hs : s < n) {fuel : ℕ} (hf : 3 ≤ fuel) :
    ∃ word f, Run (Walker.step nxt fuel) (make s) word f ∧ Final n nxt s word f := by
  obtain ⟨word, f, hr, hi, -, hst, hl, hch⟩ := Inv.run hc hs hf _ (Inv.make hc hs)
  refine ⟨word, f, hr, hi, hst, ?_, fun x hx => (hi.cover hc hs hconn hst hx).2, fun x hx => (hi.cover hc hs hconn hst hx).1, ?_⟩
  · rw [← hst, hl]
    simp [Walker.make]
  · intro i c hic
    have := hch i c hic
    rwa [show (Walker.make s).steps + i = i from by simp [Walker.make]] at this

/-- Words on connected surfaces have as many characters as there are edges. -/
theorem Final.length {word : List (List ℤ)} {f : Walker} (hn : n % 2 = 0) (h : Final n nxt s word f) : 2 * word.length = n := by
  classical
  rw [← h.len]
  have h1 : (Finset.range n) = f.labeled.toFinset ∪ (f.labeled.map neg).toFinset := by
    ext x
    simp only [Finset.mem_range, Finset.mem_union, List.mem_toFinset, List.mem_map]
    constructor
    · intro hx
      rcases h.cover x hx with hm | hm
      · exact .inl hm
      · exact .inr ⟨_, hm, neg_neg' x⟩
    · rintro (hm | ⟨y, hm, rfl⟩)
      · exact h.inv.lt x hm
      · exact neg_lt_of_even hn (h.inv.lt y hm)
  have h2 : Disjoint f.labeled.toFinset (f.labeled.map neg).toFinset := by
    rw [Finset.disjoint_left]
    intro x hx hx'
    simp only [List.mem_toFinset, List.mem_map] at hx hx'
    obtain ⟨y, hy, rfl⟩ := hx'
    exact h.inv.both y hy hx
  have h3 := congrArg Finset.card h1
  rw [Finset.card_range, Finset.card_union_of_disjoint h2, List.toFinset_card_of_nodup h.inv.nodup,
    List.toFinset_card_of_nodup (h.inv.nodup.map (fun a b hab => neg_inj'.1 hab)), List.length_map] at h3
  omega

/-- The half edges with the same labels correspond. -/
def match' (L L' : List HE) (x : HE) : HE :=
  if x ∈ L then L'.getD (L.idxOf x) 0 else neg (L'.getD (L.idxOf (neg x)) 0)

theorem match_pos {w : Walker} (h : Core n s w) {L' : List HE} {k : ℕ} {x y : HE} (hx : w.labeled[k]? = some x)
    (hy : L'[k]? = some y) : match' w.labeled L' x = y := by
  unfold match'
  rw [if_pos (List.mem_of_getElem? hx)]
  have : w.labeled.idxOf x = k := by
    apply h.index (x := x) _ hx
    rw [List.getElem?_eq_getElem (List.idxOf_lt_length_of_mem (List.mem_of_getElem? hx)), List.getElem_idxOf]
  rw [this, List.getD_eq_getElem?_getD, hy]
  rfl

theorem match_neg {w : Walker} (h : Core n s w) {L' : List HE} {k : ℕ} {x y : HE} (hx : w.labeled[k]? = some (neg x))
    (hy : L'[k]? = some (neg y)) : match' w.labeled L' x = y := by
  have hn : x ∉ w.labeled := by
    have := h.both _ (List.mem_of_getElem? hx)
    rwa [neg_neg'] at this
  have := match_pos h hx hy
  unfold match' at this ⊢
  rw [if_pos (List.mem_of_getElem? hx)] at this
  rw [if_neg hn, this, neg_neg']

theorem match_lab {w : Walker} (h : Core n s w) {L' : List HE} {l : ℤ} {x y : HE} (hx : Lab w.labeled x l)
    (hy : Lab L' y l) : match' w.labeled L' x = y := by
  rcases hx with ⟨h1, hx⟩ | ⟨h1, hx⟩
  · rcases hy with ⟨h2, hy⟩ | ⟨h2, hy⟩
    · exact match_pos h hx hy
    · omega
  · rcases hy with ⟨h2, hy⟩ | ⟨h2, hy⟩
    · omega
    · exact match_neg h hx hy

theorem _root_.Verif.Face.trans (hc : Cells n nxt) {d a x : HE} (hd : d < n) (h1 : Face nxt d a) (h2 : Face nxt a x) : Face nxt d x := by
  have h3 := hc.cube d hd
  unfold Face at *
  rcases h1 with rfl | rfl | rfl <;> rcases h2 with rfl | rfl | rfl <;> simp [h3]

/-- Every face is described by one of the characters. -/
theorem Final.face (hc : Cells n nxt) {word : List (List ℤ)} {f : Walker} (h : Final n nxt s word f) {x : HE} (hx : x < n) :
    ∃ (i : ℕ) (a : HE) (l₁ l₂ : ℤ), word[i]? = some [l₁, l₂] ∧ f.labeled[i]? = some (neg a) ∧ Lab f.labeled (nxt a) l₁ ∧
      Lab f.labeled (nxt (nxt a)) l₂ ∧ Face nxt a x := by
  classical
  have hex : ∃ j : ℕ, ∃ a, f.labeled[j]? = some (neg a) ∧ Face nxt a x := by
    obtain ⟨j, a, -, h1, h2⟩ := h.proc x hx
    exact ⟨j, a, h1, h2⟩
  obtain ⟨a, h1, h2⟩ := Nat.find_spec hex
  have hmin := fun m hm => Nat.find_min hex (m := m) hm
  set j := Nat.find hex
  have hj : j < word.length := by
    rw [← h.len]
    exact (List.getElem?_eq_some_iff.1 h1).1
  obtain ⟨b, hb, hch⟩ := h.char j _ (List.getElem?_eq_getElem hj)
  rw [h1] at hb
  obtain rfl := neg_inj'.1 (Option.some.inj hb)
  rcases hch with ⟨-, i, d, hi, hd, hda⟩ | ⟨l₁, l₂, hw, -, lab₁, lab₂⟩
  · exact absurd ⟨d, hd, hda.trans hc (h.inv.lt_of_neg hc hd) h2⟩ (hmin i hi)
  · exact ⟨j, a, l₁, l₂, by rw [← hw]; exact List.getElem?_eq_getElem hj, h1, lab₁, lab₂, h2⟩

/-- If the words of two walkers agree, then the surfaces are isomorphic. -/
theorem Final.iso (hc : Cells n nxt) (hc' : Cells n' nxt') {word : List (List ℤ)} {s' : HE} {f f' : Walker}
    (h : Final n nxt s word f) (h' : Final n' nxt' s' word f') :
    CellIso n nxt n' nxt' (match' f.labeled f'.labeled) ∧ match' f.labeled f'.labeled s = s' := by
  have hlen : f.labeled.length = f'.labeled.length := by rw [h.len, h'.len]
  have hget : ∀ {k : ℕ} {x : HE}, f.labeled[k]? = some x → ∃ y, f'.labeled[k]? = some y := by
    intro k x hk
    have := (List.getElem?_eq_some_iff.1 hk).1
    exact ⟨_, List.getElem?_eq_getElem (by omega)⟩
  have hget' : ∀ {k : ℕ} {x : HE}, f'.labeled[k]? = some x → ∃ y, f.labeled[k]? = some y := by
    intro k x hk
    have := (List.getElem?_eq_some_iff.1 hk).1
    exact ⟨_, List.getElem?_eq_getElem (by omega)⟩
  -- two half edges correspond
  have hcor : ∀ x < n, ∃ (k : ℕ) (y : HE), match' f.labeled f'.labeled x = y ∧
      ((f.labeled[k]? = some x ∧ f'.labeled[k]? = some y) ∨
        (f.labeled[k]? = some (Verif.neg x) ∧ f'.labeled[k]? = some (Verif.neg y))) := by
    intro x hx
    rcases h.cover x hx with hm | hm
    · obtain ⟨k, hk⟩ := List.getElem?_of_mem hm
      obtain ⟨y, hy⟩ := hget hk
      exact ⟨k, y, match_pos h.inv.toCore hk hy, .inl ⟨hk, hy⟩⟩
    · obtain ⟨k, hk⟩ := List.getElem?_of_mem hm
      obtain ⟨y, hy⟩ := hget hk
      rw [← neg_neg' y] at hy
      exact ⟨k, _, match_neg h.inv.toCore hk hy, .inr ⟨hk, hy⟩⟩
  refine ⟨⟨?_, ?_, ?_, ?_, ?_⟩, ?_⟩
  · intro x hx
    obtain ⟨k, y, hy, hk⟩ := hcor x hx
    rw [hy]
    rcases hk with ⟨-, hk⟩ | ⟨-, hk⟩
    · exact h'.inv.lt _ (List.mem_of_getElem? hk)
    · exact h'.inv.lt_of_neg hc' hk
  · intro x hx y hy hxy
    obtain ⟨k, z, hz, hk⟩ := hcor x hx
    obtain ⟨l, v, hv, hl⟩ := hcor y hy
    obtain rfl : z = v := by rw [← hz, ← hv, hxy]
    rcases hk with ⟨hk, hk'⟩ | ⟨hk, hk'⟩ <;> rcases hl with ⟨hl, hl'⟩ | ⟨hl, hl'⟩
    · cases h'.inv.index hk' hl'
      rw [hk] at hl
      exact Option.some.inj hl
    · exact absurd (List.mem_of_getElem? hl') (h'.inv.both _ (List.mem_of_getElem? hk'))
    · exact absurd (List.mem_of_getElem? hk') (h'.inv.both _ (List.mem_of_getElem? hl'))
    · cases h'.inv.index hk' hl'
      rw [hk] at hl
      exact neg_inj'.1 (Option.some.inj hl)
  · intro y hy
    rcases h'.cover y hy with hm | hm
    · obtain ⟨k, hk⟩ := List.getElem?_of_mem hm
      obtain ⟨x, hx⟩ := hget' hk
      exact ⟨x, h.inv.lt _ (List.mem_of_getElem? hx), match_pos h.inv.toCore hx hk⟩
    · obtain ⟨k, hk⟩ := List.getElem?_of_mem hm
      obtain ⟨x, hx⟩ := hget' hk
      rw [← neg_neg' x] at hx
      exact ⟨_, h.inv.lt_of_neg hc hx, match_neg h.inv.toCore hx hk⟩
  · intro x hx
    obtain ⟨k, y, hy, hk⟩ := hcor x hx
    rw [hy]
    rcases hk with ⟨hk, hk'⟩ | ⟨hk, hk'⟩
    · exact match_neg h.inv.toCore (by rwa [neg_neg']) (by rwa [neg_neg'])
    · exact match_pos h.inv.toCore hk hk'
  · intro x hx
    obtain ⟨i, a, l₁, l₂, hw, ha, lab₁, lab₂, hx'⟩ := h.face hc hx
    have han := h.inv.lt_of_neg hc ha
    obtain ⟨a', ha', hch⟩ := h'.char i _ hw
    have han' := h'.inv.lt_of_neg hc' ha'
    rcases hch with ⟨hcon, -⟩ | ⟨l₁', l₂', hw', -, lab₁', lab₂'⟩
    · cases hcon
    · cases hw'
      have e0 := match_neg h.inv.toCore ha ha'
      have e1 := match_lab h.inv.toCore lab₁ lab₁'
      have e2 := match_lab h.inv.toCore lab₂ lab₂'
      rcases hx' with rfl | rfl | rfl
      · rw [e1, e0]
      · rw [e2, e1]
      · rw [e2, hc.cube a han, hc'.cube a' han', e0]
  · exact match_neg h.inv.toCore h.inv.head h'.inv.head

/-- An isomorphism of a connected surface is determined by the image of a half edge. -/
theorem _root_.Verif.CellIso.rigid (hc : Cells n nxt) (hconn : Conn n nxt) {φ ψ : HE → HE} (h : CellIso n nxt n' nxt' φ) (h' : CellIso n nxt n' nxt' ψ)
    (hs : s < n) (hst : φ s = ψ s) : ∀ x < n, φ x = ψ x := by
  intro x hx
  have := hconn ((Finset.range n).filter fun x => φ x = ψ x) (fun x hx => by simpa using (Finset.mem_filter.1 hx).1)
    (fun x hx => by
      simp only [Finset.mem_filter, Finset.mem_range] at hx ⊢
      exact ⟨hc.lt x hx.1, by rw [h.next x hx.1, h'.next x hx.1, hx.2]⟩)
    (fun x hx => by
      simp only [Finset.mem_filter, Finset.mem_range] at hx ⊢
      exact ⟨hc.neg_lt hx.1, by rw [h.neg x hx.1, h'.neg x hx.1, hx.2]⟩)
    ⟨s, by simp [hs, hst]⟩ x hx
  exact (Finset.mem_filter.1 this).2

end Walker

end Verif
