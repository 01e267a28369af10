import Verif.Lemmas.FlowClip

/-!
# Numbering the half edges on the perimeter
-/

namespace Verif.FlowTriangulation

open Verif Vec

variable {T : Type} [CommRing T] [LinearOrder T] [IsStrictOrderedRing T]

omit [IsStrictOrderedRing T] in
theorem Vectors.ext' {V W : Vectors T} (h1 : ∀ e, V.entry e = W.entry e) (h2 : V.size = W.size) : V = W := by
  cases V; cases W
  simp only [Vectors.mk.injEq]
  exact ⟨funext h1, h2⟩

omit [IsStrictOrderedRing T] in
theorem Vectors.set_eq {V : Vectors T} {e : HE} {w : Vec T} (h : V.entry e = some w) : V.set e w = V := by
  refine Vectors.ext' (fun x => ?_) ?_
  · unfold Vectors.set
    simp only [Function.update_apply]
    split_ifs with hx
    · rw [hx, h]
    · rfl
  · unfold Vectors.set
    simp only [h, Option.isSome_some, if_true]

omit [IsStrictOrderedRing T] in
theorem Vectors.OK.set_size {V : Vectors T} (h : V.OK) (w : Vec T) :
    (V.set V.size w).set (neg V.size) (-(V.set V.size w).get V.size) = V.push (-w) := by
  have hn := neg_size h.even
  have n1 : (V.entry (V.size + 1)).isSome = false := by
    rw [← Bool.not_eq_true, h.known]; omega
  have n2 : (V.entry V.size).isSome = false := by
    rw [← Bool.not_eq_true, h.known]; omega
  refine Vectors.ext' (fun x => ?_) ?_
  · unfold Vectors.push Vectors.set Vectors.get
    simp only [hn, Function.update_self, Option.getD_some, Function.update_apply, neg_neg]
    split_ifs <;> first | rfl | omega
  · simp [Vectors.push, Vectors.set, hn, n1, n2]

/-- What the numbering is after some connections have been processed. -/
structure Numbered (vec : HE → Vec T) (P : List HE) (N : Numbering T) : Prop where
  ok : N.vectors.OK
  known : ∀ c, (N.toHalfEdge c).isSome ↔ c ∈ P
  lt : ∀ c h, N.toHalfEdge c = some h → h < N.vectors.size
  get : ∀ c h, N.toHalfEdge c = some h → N.vectors.get h = vec c
  inj : ∀ c c' h, N.toHalfEdge c = some h → N.toHalfEdge c' = some h → c = c'
  neg : ∀ c c' h, N.toHalfEdge c = some h → N.toHalfEdge c' = some (neg h) → c' = neg c
  back : ∀ c h h', N.toHalfEdge c = some h → N.toHalfEdge (Verif.neg c) = some h' → h' = Verif.neg h
  cover : ∀ x < N.vectors.size, ∃ c, N.toHalfEdge c = some x ∨ N.toHalfEdge c = some (Verif.neg x)
  inverse : ∀ c h, N.toConnection h = some c ↔ N.toHalfEdge c = some h

omit [IsStrictOrderedRing T] in
theorem Numbered.nil (vec : HE → Vec T) : Numbered vec [] ⟨fun _ => none, fun _ => none, ⟨fun _ => none, 0⟩⟩ where
  ok := ⟨fun e => by simp, rfl, fun e => by simp [Vectors.get]⟩
  known := by simp
  lt := by simp
  get := by simp
  inj := by simp
  neg := by simp
  back := by simp
  cover := by simp
  inverse := by simp

theorem neg_ne_self (c : HE) : Verif.neg c ≠ c := by
  rw [neg_def]
  split_ifs <;> omega

theorem Numbered.add (dbg : Bool) {vec : HE → Vec T} (hodd : ∀ c, vec (Verif.neg c) = -vec c) {P : List HE} {N : Numbering T}
    (hN : Numbered vec P N) {c : HE} (hc : c ∉ P) :
    ∃ N', N.add dbg vec c = .ok N' ∧ Numbered vec (P ++ [c]) N' := by
  have hnone : N.toHalfEdge c = none := by
    have := (hN.known c).not.2 hc
    simpa using this
  have hne := neg_ne_self c
  cases hneg : N.toHalfEdge (Verif.neg c) with
  | none =>
    obtain ⟨p1, p2, p3, p4, p5⟩ := hN.ok.push (-vec c)
    have hsz := neg_size hN.ok.even
    have hent : (N.vectors.entry N.vectors.size).isSome = false := by
      rw [← Bool.not_eq_true, hN.ok.known]; omega
    have hcon : N.toConnection N.vectors.size = none := by
      cases hx : N.toConnection N.vectors.size with
      | none => rfl
      | some d => exact absurd (hN.lt d _ ((hN.inverse d _).1 hx)) (lt_irrefl _)
    refine ⟨⟨Function.update N.toHalfEdge c (some N.vectors.size), Function.update N.toConnection N.vectors.size (some c),
      N.vectors.push (-vec c)⟩, ?_, ?_⟩
    · unfold Numbering.add
      rw [if_neg (by simp [hnone])]
      simp only [hneg, hN.ok.fresh]
      rw [if_neg (by simp [hent]), hN.ok.set_size]
      simp [hcon]
    · refine ⟨p1, fun d => ?_, fun d h hd => ?_, fun d h hd => ?_, fun d d' h hd hd' => ?_, fun d d' h hd hd' => ?_,
        fun d h h' hd hd' => ?_, fun x hx => ?_, fun d h => ?_⟩
      · simp only [Function.update_apply, List.mem_append, List.mem_singleton]
        split_ifs with hx
        · simp [hx]
        · rw [hN.known]; tauto
      · simp only [Function.update_apply] at hd
        rw [p2]
        split_ifs at hd with hx
        · cases hd; omega
        · have := hN.lt d h hd; omega
      · simp only [Function.update_apply] at hd
        split_ifs at hd with hx
        · cases hd; rw [p3, hx, neg_neg]
        · rw [p5 _ (hN.lt d h hd), hN.get d h hd]
      · simp only [Function.update_apply] at hd hd'
        split_ifs at hd hd' with h1 h2 h2
        · rw [h1, h2]
        · cases hd; exact absurd (hN.lt d' _ hd') (lt_irrefl _)
        · cases hd'; exact absurd (hN.lt d _ hd) (lt_irrefl _)
        · exact hN.inj d d' h hd hd'
      · simp only [Function.update_apply] at hd hd'
        split_ifs at hd hd' with h1 h2 h2
        · cases hd
          exact absurd (Option.some.inj hd').symm (neg_ne_self _)
        · cases hd
          have := hN.lt d' _ hd'
          omega
        · have e := Option.some.inj hd'
          have := hN.lt d _ hd
          have h3 : h = Verif.neg N.vectors.size := by rw [e, neg_neg']
          omega
        · exact hN.neg d d' h hd hd'
      · simp only [Function.update_apply] at hd hd'
        split_ifs at hd hd' with h1 h2 h2
        · exact absurd (h2.trans h1.symm) (neg_ne_self _)
        · rw [h1, hneg] at hd'; cases hd'
        · rw [← h2, neg_neg', hd] at hneg; cases hneg
        · exact hN.back d h h' hd hd'
      · dsimp only at hx
        rw [p2] at hx
        by_cases hl : x < N.vectors.size
        · obtain ⟨d, hd⟩ := hN.cover x hl
          have hdc : d ≠ c := by rintro rfl; rw [hnone] at hd; simp at hd
          refine ⟨d, ?_⟩
          simp only [Function.update_apply, if_neg hdc]
          exact hd
        · refine ⟨c, ?_⟩
          simp only [Function.update_self]
          have : x = N.vectors.size ∨ x = Verif.neg N.vectors.size := by omega
          rcases this with rfl | rfl
          · exact .inl rfl
          · exact .inr (by rw [neg_neg'])
      · simp only [Function.update_apply]
        split_ifs with h1 h2 h2
        · simp [h1, h2]
        · simp only [Option.some.injEq]
          constructor
          · intro hx; exact absurd hx.symm h2
          · intro hx; rw [h1] at hx; exact absurd (hN.lt d _ hx) (lt_irrefl _)
        · rw [h2]
          constructor
          · intro hx; rw [(hN.inverse c h).1 hx] at hnone; cases hnone
          · intro hx; exact absurd (Option.some.inj hx).symm h1
        · exact hN.inverse d h
  | some g =>
    have hg := hN.lt _ g hneg
    have hgv : N.vectors.get (Verif.neg g) = vec c := by
      rw [hN.ok.odd, hN.get _ g hneg, hodd, neg_neg]
    have hlt : Verif.neg g < N.vectors.size := (neg_lt' hN.ok.even g).2 hg
    have hent : N.vectors.entry (Verif.neg g) = some (vec c) := by
      obtain ⟨w, hw⟩ := Option.isSome_iff_exists.1 ((hN.ok.known _).2 hlt)
      rw [hw]
      unfold Vectors.get at hgv
      rw [hw] at hgv
      exact congrArg some hgv
    have hent' : N.vectors.entry (Verif.neg (Verif.neg g)) = some (-vec c) := by
      rw [neg_neg']
      obtain ⟨w, hw⟩ := Option.isSome_iff_exists.1 ((hN.ok.known _).2 hg)
      have h1 := hN.get _ g hneg
      rw [hodd] at h1
      rw [hw]
      unfold Vectors.get at h1
      rw [hw] at h1
      exact congrArg some h1
    have hcon : N.toConnection (Verif.neg g) = none := by
      cases hx : N.toConnection (Verif.neg g) with
      | none => rfl
      | some d =>
        have h1 := (hN.inverse d _).1 hx
        have h2 := hN.neg _ d g hneg h1
        rw [neg_neg'] at h2
        rw [h2, hnone] at h1; cases h1
    refine ⟨⟨Function.update N.toHalfEdge c (some (Verif.neg g)), Function.update N.toConnection (Verif.neg g) (some c),
      N.vectors⟩, ?_, ?_⟩
    · unfold Numbering.add
      rw [if_neg (by simp [hnone])]
      simp only [hneg]
      rw [if_neg (by simp [hgv])]
      simp only [Vectors.set_eq hent, hgv, Vectors.set_eq hent', hcon]
      simp
    · refine ⟨hN.ok, fun d => ?_, fun d h hd => ?_, fun d h hd => ?_, fun d d' h hd hd' => ?_, fun d d' h hd hd' => ?_,
        fun d h h' hd hd' => ?_, fun x hx => ?_, fun d h => ?_⟩
      · simp only [Function.update_apply, List.mem_append, List.mem_singleton]
        split_ifs with hx
        · simp [hx]
        · rw [hN.known]; tauto
      · simp only [Function.update_apply] at hd
        split_ifs at hd with hx
        · cases hd; exact hlt
        · exact hN.lt d h hd
      · simp only [Function.update_apply] at hd
        split_ifs at hd with hx
        · cases hd; rw [hgv, hx]
        · exact hN.get d h hd
      · simp only [Function.update_apply] at hd hd'
        split_ifs at hd hd' with h1 h2 h2
        · rw [h1, h2]
        · cases hd; rw [(hN.inverse _ _).2 hd'] at hcon; cases hcon
        · cases hd'; rw [(hN.inverse _ _).2 hd] at hcon; cases hcon
        · exact hN.inj d d' h hd hd'
      · simp only [Function.update_apply] at hd hd'
        split_ifs at hd hd' with h1 h2 h2
        · cases hd
          exact absurd (Option.some.inj hd').symm (neg_ne_self _)
        · cases hd
          rw [neg_neg'] at hd'
          rw [h1]
          exact hN.inj _ _ g hd' hneg
        · have e := Option.some.inj hd'
          have h3 : h = g := (neg_inj'.1 e).symm
          rw [h3] at hd
          rw [h2, hN.inj d _ g hd hneg, neg_neg']
        · exact hN.neg d d' h hd hd'
      · simp only [Function.update_apply] at hd hd'
        split_ifs at hd hd' with h1 h2 h2
        · exact absurd (h2.trans h1.symm) (neg_ne_self _)
        · cases hd
          rw [h1, hneg] at hd'
          cases hd'
          rw [neg_neg']
        · cases hd'
          have h3 : d = Verif.neg c := by rw [← h2, neg_neg']
          rw [h3, hneg] at hd
          cases hd; rfl
        · exact hN.back d h h' hd hd'
      · obtain ⟨d, hd⟩ := hN.cover x hx
        have hdc : d ≠ c := by rintro rfl; rw [hnone] at hd; simp at hd
        refine ⟨d, ?_⟩
        simp only [Function.update_apply, if_neg hdc]
        exact hd
      · simp only [Function.update_apply]
        split_ifs with h1 h2 h2
        · simp [h1, h2]
        · simp only [Option.some.injEq]
          constructor
          · intro hx; exact absurd hx.symm h2
          · intro hx; rw [h1] at hx; rw [(hN.inverse _ _).2 hx] at hcon; cases hcon
        · rw [h2]
          constructor
          · intro hx; rw [(hN.inverse c h).1 hx] at hnone; cases hnone
          · intro hx; exact absurd (Option.some.inj hx).symm h1
        · exact hN.inverse d h

theorem numbering_spec (dbg : Bool) {vec : HE → Vec T} (hodd : ∀ c, vec (Verif.neg c) = -vec c) {perimeter : List Connection}
    (hnd : (perimeter.map Connection.key).Nodup) :
    ∃ N, numbering dbg vec perimeter = .ok N ∧ Numbered vec (perimeter.map Connection.key) N := by
  suffices h : ∀ (l : List Connection) (P : List HE) (N : Numbering T), Numbered vec P N → (P ++ l.map Connection.key).Nodup →
      ∃ N', l.foldlM (fun N c => N.add dbg vec c.key) N = Except.ok N' ∧ Numbered vec (P ++ l.map Connection.key) N' by
    exact h perimeter [] _ (Numbered.nil vec) hnd
  intro l
  induction l with
  | nil => intro P N hN _; exact ⟨N, rfl, by simpa using hN⟩
  | cons c l ih =>
    intro P N hN hP
    have hc : c.key ∉ P := fun hm => (List.nodup_append.1 hP).2.2 _ hm _ (by simp) rfl
    obtain ⟨N1, h1, h2⟩ := hN.add dbg hodd hc
    rw [List.map_cons, List.append_cons] at hP ⊢
    obtain ⟨N2, h3, h4⟩ := ih _ N1 h2 hP
    refine ⟨N2, ?_, h4⟩
    rw [List.foldlM_cons, h1]
    exact h3

end Verif.FlowTriangulation
