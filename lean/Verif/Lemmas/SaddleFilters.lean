import Verif.Lemmas.SaddleSectors

/-!
# Sequences of restrictions
-/

set_option linter.unusedSectionVars false

namespace Verif

open Verif Spec Tri FlatTri Vec Real Function

variable {T : Type} [CommRing T] [LinearOrder T] [IsStrictOrderedRing T]
variable {K : Type} [Field K] [LinearOrder K] [IsStrictOrderedRing K] (A : Option (Approx T K))
variable {f : T →+* ℝ} {S : FlatTri T} {V : Finset HE} {θ : HE → ℝ}

theorem FlatTri.Shut.lt_of_orb (h : S.Shut) {x y : HE} (hx : x < S.tri.size) (ho : S.tri.vertices.Orb x y) : y < S.tri.size := by
  obtain ⟨k, rfl⟩ := ho
  induction k with
  | zero => exact hx
  | succ k ih =>
    rw [iterate_succ_apply']
    exact h.flat.coh.hv.fwd_lt.2 ih

theorem FlatTri.Shut.aroundVertex (h : S.Shut) (hf : StrictMono f) (hθ : AllCorners f S θ) {x : HE} (hx : x < S.tri.size)
    (hV : ∀ y, y ∈ V ↔ S.tri.vertices.Orb x y) : Around f S V θ where
  flat := h.flat
  mono := hf
  orbit := ⟨x, hV⟩
  nb e he := h.nb e (h.lt_of_orb hx ((hV e).1 he))
  corners e he := hθ e (Finset.mem_range.2 (h.lt_of_orb hx ((hV e).1 he)))

namespace SaddleConnections

theorem cor (h : S.Shut) (hf : StrictMono f) (hθ : AllCorners f S θ) : Cor f S θ := by
  have hne : ∀ e < S.tri.size, S.vec e ≠ 0 := fun e he => h.flat.vec_ne (h.nb e he)
  have hlt : ∀ e < S.tri.size, S.tri.nextAtVertex e < S.tri.size := fun e he => h.flat.coh.hv.fwd_lt.2 he
  have hpos : ∀ e < S.tri.size, 0 < θ e ∧ θ e < π := by
    intro e he
    obtain ⟨v, -, hv⟩ := h.source he
    exact (h.aroundVertex hf hθ he hv).pos ((hv e).2 (Perm.Orb.refl _ _))
  refine ⟨hf, hne, fun e he => ?_, fun e he => (hpos e he).1, fun e he => (hpos e he).2⟩
  obtain ⟨h0, h1, h2⟩ := hθ e (Finset.mem_range.2 he)
  exact ⟨hne _ (hlt e he), h0, h1, h2⟩

theorem InCorner.ne_zero (hc : Cor f S θ) {e : HE} (he : e < S.tri.size) {σ : ℝ} {v : Vec T} (h : InCorner f S θ e σ v) :
    v ≠ 0 := by
  rintro rfl
  obtain ⟨r, hr, k⟩ := h.2.2
  have := dot_rotate ((S.vec e).map f) σ σ r r
  rw [← k, sub_self, cos_zero] at this
  have h1 := dot_self_pos (map_ne_zero f hc.mono (hc.ne e he))
  have h2 : 0 < r * r * dot ((S.vec e).map f) ((S.vec e).map f) * 1 := by positivity
  rw [← this] at h2
  simp [dot, Vec.map] at h2

theorem InCorner.at (hc : Cor f S θ) {e : HE} (he : e < S.tri.size) {σ : ℝ} {v : Vec T} (h : InCorner f S θ e σ v) :
    At f (S.vec e) v σ :=
  ⟨InCorner.ne_zero hc he h, h.1, by linarith [h.2.1, hc.lt e he, pi_pos], h.2.2⟩

/-- All sectors are fine, and a direction is in at most one of them, depending on `Q`. -/
structure Inv (A : Option (Approx T K)) (f : T →+* ℝ) (S : FlatTri T) (θ : HE → ℝ) (L : List (Sector T))
    (Q : HE × Vec T → Prop) : Prop where
  ok : ∀ s ∈ L, ∃ x y, Ok f S θ s x y
  once : ∀ c, IsDirection f S θ c → Q c → L.countP (has A c) = 1
  never : ∀ c, IsDirection f S θ c → ¬ Q c → L.countP (has A c) = 0

open Classical in
theorem forSectors_spec {g : Sector T → Option (Except Err (List (Sector T)))} {B : HE × Vec T → Prop} {L : List (Sector T)}
    (h : ∀ s ∈ L, ∃ l, g s = some (.ok l) ∧ (∀ t ∈ l, t.source = s.source ∧ ∃ x y, Ok f S θ t x y) ∧
      ∀ v ρ, InCorner f S θ s.source ρ v →
        l.countP (has A (s.source, v)) = if has A (s.source, v) s = true ∧ B (s.source, v) then 1 else 0) :
    ∃ l, forSectors g L = some (.ok l) ∧ (∀ t ∈ l, ∃ x y, Ok f S θ t x y) ∧
      ∀ c, IsDirection f S θ c → l.countP (has A c) = if B c then L.countP (has A c) else 0 := by
  induction L with
  | nil => exact ⟨[], rfl, fun t ht => (by simp at ht), fun c _ => by simp⟩
  | cons s L ih =>
    obtain ⟨l', i1, i2, i3⟩ := ih fun t ht => h t (List.mem_cons_of_mem _ ht)
    obtain ⟨l, j1, j2, j3⟩ := h s List.mem_cons_self
    refine ⟨l ++ l', ?_, ?_, ?_⟩
    · unfold forSectors
      rw [j1, i1]
      rfl
    · intro t ht
      rcases List.mem_append.1 ht with k | k
      · exact (j2 t k).2
      · exact i2 t k
    · intro c hcd
      rw [List.countP_append, i3 c hcd, List.countP_cons]
      by_cases hcs : c.1 = s.source
      · obtain ⟨-, ρ, hρ⟩ := hcd
        obtain ⟨e, v⟩ := c
        dsimp only at hcs hρ
        subst hcs
        rw [j3 v ρ hρ]
        by_cases hB : B (s.source, v)
        · simp only [hB, and_true, if_true]
          omega
        · simp [hB]
      · rw [has_source A hcs]
        have : l.countP (has A c) = 0 := by
          rw [List.countP_eq_zero]
          intro t ht
          rw [has_source A (by rw [(j2 t ht).1]; exact hcs)]
          simp
        rw [this]
        simp

theorem Inv.forSectors {L : List (Sector T)} {Q B : HE × Vec T → Prop} (hi : Inv A f S θ L Q)
    {g : Sector T → Option (Except Err (List (Sector T)))}
    (h : ∃ l, forSectors g L = some (.ok l) ∧ (∀ t ∈ l, ∃ x y, Ok f S θ t x y) ∧
      ∀ c, IsDirection f S θ c → l.countP (has A c) = (open Classical in if B c then L.countP (has A c) else 0)) :
    ∃ l, forSectors g L = some (.ok l) ∧ Inv A f S θ l fun c => Q c ∧ B c := by
  obtain ⟨l, h1, h2, h3⟩ := h
  refine ⟨l, h1, h2, fun c hc hq => ?_, fun c hc hq => ?_⟩
  · rw [h3 c hc, if_pos hq.2, hi.once c hc hq.1]
  · rw [h3 c hc]
    split_ifs with hB
    · exact hi.never c hc fun k => hq ⟨k, hB⟩
    · rfl

theorem between_iff (hf : StrictMono f) {u v b e : Vec T} {x β ε : ℝ} (hv : At f u v x) (hb : At f u b β)
    (he : At f u e ε) : Between f b e v ↔ Cyc β ε x := by
  have h1 := inSector_at (none : Option (Approx T ℚ)) hf hv hb he
  have v1 := hb.sub hv
  have e1 := hb.sub he
  rw [inSector_angle f hf none hv.ne hb.ne he.ne ⟨v1.nonneg, v1.lt⟩ ⟨e1.nonneg, e1.lt⟩ v1.turns e1.turns] at h1
  injection h1 with h1
  rw [decide_eq_decide] at h1
  rw [← h1]
  constructor
  · rintro ⟨α, γ, h2, h3, h4, h5, h6, h7⟩
    have ha := At.unique hf hb.ne e1 ⟨he.ne, h4, h5, h2⟩
    have hg := At.unique hf hb.ne v1 ⟨hv.ne, h6, by rcases h7 with k | k <;> [linarith; linarith [pi_pos, k.2]], h3⟩
    rw [ha, hg]
    split_ifs with k
    · rcases h7 with h7 | h7
      · linarith
      · exact h7.2
    · rcases h7 with h7 | h7
      · exact h7
      · exact absurd h7.1 k
  · intro k
    refine ⟨_, _, e1.turns, v1.turns, e1.nonneg, e1.lt, v1.nonneg, ?_⟩
    by_cases k' : (if β ≤ ε then ε - β else ε - β + 2 * π) = 0
    · rw [if_pos k'] at k
      exact .inr ⟨k', k⟩
    · rw [if_neg k'] at k
      exact .inl k

open Classical in
/-- Restricting to the directions between two vectors. -/
theorem Inv.vectors (hc : Cor f S θ) {L : List (Sector T)} {Q : HE × Vec T → Prop} (hi : Inv A f S θ L Q) {b e : Vec T}
    (hb : b ≠ 0) (he : e ≠ 0) : ∃ l, SaddleConnections.forSectors (fun t => some (refine A false S t b e)) L = some (.ok l) ∧
      Inv A f S θ l fun c => Q c ∧ Between f b e c.2 := by
  refine hi.forSectors A (B := fun c => Between f b e c.2) (forSectors_spec A fun s hs => ?_)
  obtain ⟨x, y, hok⟩ := hi.ok s hs
  have hu := hc.ne _ hok.lt
  obtain ⟨β, hβ⟩ := exists_at hc.mono hu hb
  obtain ⟨ε, hε⟩ := exists_at hc.mono hu he
  obtain ⟨l, h1, h2, h3⟩ := refine_spec A hc hok hβ hε
  refine ⟨l, by rw [h1], h2, fun v ρ hρ => ?_⟩
  have hv := InCorner.at hc hok.lt hρ
  rw [h3 v ρ hv hρ.2.1]
  refine if_congr ?_ rfl rfl
  rw [hok.has A hc hv hρ.2.1, decide_eq_true_eq, between_iff hc.mono hv hβ hε]

theorem Inv.filter {L : List (Sector T)} {Q : HE × Vec T → Prop} (hi : Inv A f S θ L Q) (p : HE → Bool) :
    Inv A f S θ (L.filter fun t => p t.source) fun c => Q c ∧ p c.1 = true := by
  have key : ∀ c, (L.filter fun t => p t.source).countP (has A c) = if p c.1 then L.countP (has A c) else 0 := by
    intro c
    rw [List.countP_filter]
    split_ifs with k
    · refine List.countP_congr fun t _ => ?_
      by_cases h : c.1 = t.source
      · simp [← h, k]
      · simp [has_source A h]
    · rw [List.countP_eq_zero]
      intro t _
      by_cases h : c.1 = t.source
      · simp [← h, k]
      · simp [has_source A h]
  refine ⟨fun s hs => hi.ok s (List.mem_of_mem_filter hs), fun c hc hq => ?_, fun c hc hq => ?_⟩
  · rw [key, if_pos hq.2, hi.once c hc hq.1]
  · rw [key]
    split_ifs with k
    · exact hi.never c hc fun h => hq ⟨h, k⟩
    · rfl

theorem Inv.source (h : S.Shut) {st : State T} {Q : HE × Vec T → Prop} (hi : Inv A f S θ st.sectors Q) {x : HE}
    (hV : ∀ y, y ∈ V ↔ S.tri.vertices.Orb x y) :
    Inv A f S θ (SaddleConnections.source S st V).sectors fun c => Q c ∧ c.1 ∈ V := by
  have := hi.filter A fun e => match S.tri.source e with
    | some w => FlatTri.sameVertex w V
    | none => false
  refine ⟨this.ok, fun c hc hq => this.once c hc ⟨hq.1, ?_⟩, fun c hc hq => this.never c hc fun k => hq ⟨k.1, ?_⟩⟩
  · obtain ⟨w, hw, hwo⟩ := h.source hc.1
    rw [hw]
    exact (h.sameVertex hwo hV).2 (((hV _).1 hq.2).symm h.flat.coh.hv)
  · obtain ⟨w, hw, hwo⟩ := h.source hc.1
    have k2 := k.2
    rw [hw] at k2
    exact (hV _).2 (((h.sameVertex hwo hV).1 k2).symm h.flat.coh.hv)

/-- Restricting to the directions between two directions at a vertex. -/
theorem Inv.connections (h : S.Shut) (hf : StrictMono f) (hθ : AllCorners f S θ) {st : State T} {Q : HE × Vec T → Prop}
    (hi : Inv A f S θ st.sectors Q) {b e : HE × Vec T} (hb : IsDirection f S θ b) (he : IsDirection f S θ e) :
    ∀ fuel ≥ degree S b.1 + 1, ∃ l, sectorConnections A false S st b e fuel = some (.ok { st with sectors := l }) ∧
      Inv A f S θ l fun c => Q c ∧ BetweenAround f S θ b e c := by
  intro fuel hfuel
  have hc := cor h hf hθ
  obtain ⟨v, hv, hvo⟩ := h.source hb.1
  obtain ⟨w, hw, hwo⟩ := h.source he.1
  have hbv : b.1 ∈ v := (hvo _).2 (Perm.Orb.refl _ _)
  have hew : e.1 ∈ w := (hwo _).2 (Perm.Orb.refl _ _)
  have har := h.aroundVertex hf hθ hb.1 hvo
  have i1 := Inv.source A h hi hvo
  have i2 := Inv.source A h (st := SaddleConnections.source S st v) i1 hwo
  obtain ⟨σ, hσ⟩ := hb.2
  obtain ⟨τ, hτ⟩ := he.2
  have reach : ∀ {c}, BetweenAround f S θ b e c → c.1 ∈ v ∧ e.1 ∈ v := by
    rintro c ⟨_, _, _, -, -, -, ⟨α, -, n, hn, -⟩, β, ⟨-, m, hm, -⟩, -⟩
    exact ⟨(hvo _).2 ⟨m, hm⟩, (hvo _).2 ⟨n, hn⟩⟩
  have same : e.1 ∈ v → ∀ z, z ∈ w ↔ z ∈ v := by
    intro hev z
    rw [hwo, hvo]
    have := (hvo _).1 hev
    exact ⟨fun k => this.trans k, fun k => (this.symm h.flat.coh.hv).trans k⟩
  unfold sectorConnections
  rw [hv, hw]
  obtain ⟨l, h1, h2⟩ := i2.forSectors A (B := BetweenAround f S θ b e) (g := between A false S b e fuel)
    (forSectors_spec A fun s hs => by
      obtain ⟨x, y, hok⟩ := i2.ok s hs
      have hsw : s.source ∈ w ∧ s.source ∈ v := by
        unfold SaddleConnections.source at hs
        have k1 := (List.mem_filter.1 hs).2
        have k2 := (List.mem_filter.1 (List.mem_filter.1 hs).1).2
        obtain ⟨u, hu, huo⟩ := h.source hok.lt
        simp only [hu] at k1 k2
        exact ⟨(hwo _).2 (((h.sameVertex huo hwo).1 k1).symm h.flat.coh.hv),
          (hvo _).2 (((h.sameVertex huo hvo).1 k2).symm h.flat.coh.hv)⟩
      have hev : e.1 ∈ v := by
        have k1 := (hwo _).1 hsw.1
        have k2 := (hvo _).1 hsw.2
        exact (hvo _).2 (k2.trans (k1.symm h.flat.coh.hv))
      obtain ⟨l, h1, h2, h3⟩ := between_spec A hc har hok hsw.2 hbv hev hσ hτ hb.1 (InCorner.ne_zero hc hb.1 hσ)
        (InCorner.ne_zero hc he.1 hτ) fuel hfuel
      exact ⟨l, h1, h2, fun v ρ hρ => h3 v ρ hρ (InCorner.ne_zero hc hok.lt hρ)⟩)
  refine ⟨l, ?_, h2.ok, fun c hcd hq => ?_, fun c hcd hq => h2.never c hcd fun k => hq ⟨k.1.1.1, k.2⟩⟩
  · simp only
    rw [h1]
    rfl
  · obtain ⟨r1, r2⟩ := reach hq.2
    exact h2.once c hcd ⟨⟨⟨hq.1, r1⟩, (same r2 _).2 r1⟩, hq.2⟩

/-- The part of the restriction that is about sectors. -/
def AdmitsSector (f : T →+* ℝ) (S : FlatTri T) (θ : HE → ℝ) (c : HE × Vec T) : Restriction T → Prop
  | .bound _ => True
  | .lowerBound _ => True
  | g => Admits f S θ c g

/-- The part of the restriction that is about lengths. -/
def AdmitsLength (f : T →+* ℝ) (S : FlatTri T) (θ : HE → ℝ) (c : HE × Vec T) : Restriction T → Prop
  | .bound b => Admits f S θ c (.bound b)
  | .lowerBound b => Admits f S θ c (.lowerBound b)
  | _ => True

theorem admits_iff (c : HE × Vec T) (g : Restriction T) : Admits f S θ c g ↔ AdmitsSector f S θ c g ∧ AdmitsLength f S θ c g := by
  cases g <;> simp [AdmitsSector, AdmitsLength]

/-- The lengths that are searched. -/
def Length (A : Option (Approx T K)) (st : State T) (c : HE × Vec T) : Prop :=
  (∀ r, st.searchRadius = some r → Vec.gtBound A c.2 r = false) ∧ Vec.gtBound A c.2 st.lowerBound = true

/-- The number of steps that the loop in a call can take. -/
noncomputable def need (S : FlatTri T) : Restriction T → ℕ
  | .connections b _ => degree S b.1 + 1
  | _ => 0

/-- Each call makes the restriction that it should make. -/
theorem step_spec (h : S.Shut) (hf : StrictMono f) (hθ : AllCorners f S θ) {st : State T} {Q : HE × Vec T → Prop}
    (hi : Inv A f S θ st.sectors Q) {g : Restriction T} (hg : ValidRestriction f S θ g) :
    ∀ fuel ≥ need S g, ∃ st', step A false S fuel st g = some (.ok st') ∧
      Inv A f S θ st'.sectors (fun c => Q c ∧ AdmitsSector f S θ c g) ∧
      ∀ c, Length A st' c ↔ Length A st c ∧ AdmitsLength f S θ c g := by
  intro fuel hfuel
  have hT : Inv A f S θ st.sectors (fun c => Q c ∧ True) := by simpa using hi
  cases g with
  | bound b =>
    refine ⟨_, rfl, hT, fun c => ?_⟩
    unfold Length AdmitsLength Admits SaddleConnections.bound
    simp only [gtBound_eq, decide_eq_false_iff_not, not_lt, Option.some.injEq, forall_eq', decide_eq_true_eq]
    cases hr : st.searchRadius with
    | none =>
      simp only [reduceCtorEq, false_implies, implies_true, true_and]
      tauto
    | some r =>
      simp only [Option.some.injEq, forall_eq']
      unfold Bound.lt
      by_cases k : b.square < r.square
      · have : (b.square : T) < r.square := by exact_mod_cast k
        simp only [k, decide_true, if_true]
        exact ⟨fun ⟨k1, k2⟩ => ⟨⟨k1.trans this.le, k2⟩, k1⟩, fun ⟨⟨_, k2⟩, k1⟩ => ⟨k1, k2⟩⟩
      · have : (r.square : T) ≤ b.square := by exact_mod_cast not_lt.1 k
        simp only [k, decide_false, Bool.false_eq_true, if_false]
        exact ⟨fun ⟨k1, k2⟩ => ⟨⟨k1, k2⟩, k1.trans this⟩, fun ⟨k, _⟩ => k⟩
  | lowerBound b =>
    refine ⟨_, rfl, hT, fun c => ?_⟩
    unfold Length AdmitsLength Admits SaddleConnections.lowerBound
    simp only [gtBound_eq, decide_eq_true_eq]
    unfold Bound.lt
    by_cases k : st.lowerBound.square < b.square
    · have : (st.lowerBound.square : T) < b.square := by exact_mod_cast k
      simp only [k, decide_true, if_true]
      exact ⟨fun ⟨k1, k2⟩ => ⟨⟨k1, this.trans k2⟩, k2⟩, fun ⟨⟨k1, _⟩, k2⟩ => ⟨k1, k2⟩⟩
    · have : (b.square : T) ≤ st.lowerBound.square := by exact_mod_cast not_lt.1 k
      simp only [k, decide_false, Bool.false_eq_true, if_false]
      exact ⟨fun ⟨k1, k2⟩ => ⟨⟨k1, k2⟩, this.trans_lt k2⟩, fun ⟨k, _⟩ => k⟩
  | source v =>
    obtain ⟨x, hx, hv⟩ := h.flat.ver.orbit v hg
    exact ⟨_, rfl, Inv.source A h hi hv, fun c => (and_iff_left trivial).symm⟩
  | halfEdge e =>
    refine ⟨_, rfl, ?_, fun c => (and_iff_left trivial).symm⟩
    have := hi.filter A fun x => decide (x = e)
    simp only [decide_eq_true_eq] at this
    exact this
  | vectors b e =>
    obtain ⟨l, h1, h2⟩ := hi.vectors A (cor h hf hθ) hg.1 hg.2
    refine ⟨{ st with sectors := l }, ?_, h2, fun c => (and_iff_left trivial).symm⟩
    unfold step sectorVectors
    simp only
    rw [h1]
    rfl
  | connections b e =>
    obtain ⟨l, h1, h2⟩ := Inv.connections A h hf hθ hi hg.1 hg.2 fuel hfuel
    exact ⟨_, h1, h2, fun c => (and_iff_left trivial).symm⟩

theorem run_spec (h : S.Shut) (hf : StrictMono f) (hθ : AllCorners f S θ) (fs : List (Restriction T)) {fuel : ℕ}
    (hfuel : ∀ g ∈ fs, need S g ≤ fuel) (hg : ∀ g ∈ fs, ValidRestriction f S θ g) : ∀ {st : State T} {Q : HE × Vec T → Prop},
    Inv A f S θ st.sectors Q → ∃ st', run A false S fuel st fs = some (.ok st') ∧
      Inv A f S θ st'.sectors (fun c => Q c ∧ ∀ g ∈ fs, AdmitsSector f S θ c g) ∧
      ∀ c, Length A st' c ↔ Length A st c ∧ ∀ g ∈ fs, AdmitsLength f S θ c g := by
  induction fs with
  | nil =>
    intro st Q hi
    exact ⟨st, rfl, by simpa using hi, by simp⟩
  | cons g fs ih =>
    intro st Q hi
    obtain ⟨st1, h1, h2, h3⟩ := step_spec A h hf hθ hi (hg g List.mem_cons_self) fuel (hfuel g List.mem_cons_self)
    obtain ⟨st2, j1, j2, j3⟩ := ih (fun g hg => hfuel g (List.mem_cons_of_mem _ hg))
      (fun g k => hg g (List.mem_cons_of_mem _ k)) h2
    refine ⟨st2, ?_, ?_, fun c => ?_⟩
    · unfold run
      rw [h1]
      exact j1
    · simpa only [List.forall_mem_cons, and_assoc] using j2
    · rw [j3, h3, List.forall_mem_cons, and_assoc]

theorem exists_fuel (fs : List (Restriction T)) : ∃ N, ∀ fuel ≥ N, ∀ g ∈ fs, need S g ≤ fuel :=
  ⟨(fs.map (need S)).sum, fun _ hN _ hg => (List.single_le_sum (fun _ _ => Nat.zero_le _) _ (List.mem_map_of_mem hg)).trans hN⟩

/-- At first, all directions are searched. -/
theorem make_inv (hc : Cor f S θ) (hlt : ∀ e < S.tri.size, θ e < 2 * π) :
    Inv A f S θ (make S).sectors fun _ => True := by
  have hok : ∀ e < S.tri.size, Ok f S θ ⟨e, none⟩ 0 (θ e) := fun e he =>
    ⟨he, at_self (hc.ne e he), hc.next e he, (hc.pos e he).le, hc.pos e he, le_rfl⟩
  have hm : ∀ s ∈ (make S).sectors, s.source < S.tri.size ∧ s = ⟨s.source, none⟩ := by
    intro s hs
    obtain ⟨e, he, rfl⟩ := List.mem_map.1 hs
    exact ⟨List.mem_range.1 he, rfl⟩
  refine ⟨fun s hs => ?_, fun c hcd _ => ?_, fun c _ k => absurd trivial k⟩
  · obtain ⟨h1, h2⟩ := hm s hs
    rw [h2]
    exact ⟨_, _, hok _ h1⟩
  · unfold make
    rw [List.countP_map]
    have : ∀ e ∈ S.tri.halfEdges, (has A c ∘ fun e => (⟨e, none⟩ : Sector T)) e = true ↔ (e == c.1) = true := by
      intro e _
      rw [comp_apply, beq_iff_eq]
      unfold has contains
      by_cases k : c.1 = e
      · rw [if_neg (by simpa using k)]
        simp [k]
      · rw [if_pos (by simpa using k)]
        simp [Ne.symm k]
    rw [List.countP_congr this]
    exact List.count_eq_one_of_mem List.nodup_range (List.mem_range.2 hcd.1)

theorem has_iff {c : HE × Vec T} {s : Sector T} : has A c s = true ↔ contains A s c.1 c.2 = .ok true := by
  unfold has
  cases contains A s c.1 c.2 with
  | error e => simp
  | ok r => simp

theorem Inv.searched {st : State T} {Q : HE × Vec T → Prop} (hi : Inv A f S θ st.sectors Q) {c : HE × Vec T}
    (hc : IsDirection f S θ c) : Searched A st c ↔ Q c ∧ Length A st c := by
  unfold Searched Length
  refine and_congr_left fun _ => ?_
  constructor
  · rintro ⟨t, ht, hk⟩
    by_contra hq
    exact List.countP_eq_zero.1 (hi.never c hc hq) t ht ((has_iff A).2 hk)
  · intro hq
    have := hi.once c hc hq
    obtain ⟨t, ht, hk⟩ := List.countP_pos_iff.1 (by rw [this]; exact one_pos)
    exact ⟨t, ht, (has_iff A).1 hk⟩

/-! ### Debug builds -/

/-- In debug builds, something can fail that does not fail in release builds. -/
def Debug {α : Type} (r r' : Option (Except Err α)) : Prop := r = some (.error .logicError) ∨ r = r'

theorem refine_debug (s : Sector T) (b e : Vec T) : Debug (some (refine A true S s b e)) (some (refine A false S s b e)) := by
  unfold Debug refine
  simp only [Bool.false_eq_true, false_and, if_false, true_and]
  by_cases h1 : Vec.ccw A (s.sector.getD (S.vec s.source, S.vec (S.tri.nextAtVertex s.source))).1 (S.vec s.source) = .clockwise
  · left
    rw [if_pos h1]
    rfl
  · rw [if_neg h1]
    by_cases h2 : Vec.ccw A (s.sector.getD (S.vec s.source, S.vec (S.tri.nextAtVertex s.source))).2 (S.vec s.source) = .counterclockwise
    · left
      rw [if_pos h2]
      rfl
    · right
      rw [if_neg h2]

theorem forSectors_debug {g g' : Sector T → Option (Except Err (List (Sector T)))} (h : ∀ s, Debug (g s) (g' s)) :
    ∀ L, Debug (forSectors g L) (forSectors g' L)
  | [] => .inr rfl
  | s :: L => by
    unfold forSectors
    rcases h s with h1 | h1
    · rw [h1]
      exact .inl rfl
    · rw [h1]
      cases g' s with
      | none => exact .inr rfl
      | some r =>
        cases r with
        | error e => exact .inr rfl
        | ok l =>
          rcases forSectors_debug h L with h2 | h2
          · left
            simp only [Option.bind_some]
            rw [h2]
            rfl
          · right
            simp only [Option.bind_some]
            rw [h2]

theorem Debug.map {α β : Type} {r r' : Option (Except Err α)} (h : Debug r r') (k : α → β) :
    Debug (r.map (·.map k)) (r'.map (·.map k)) := by
  rcases h with rfl | rfl
  · exact .inl rfl
  · exact .inr rfl

theorem between_debug (b e : HE × Vec T) (fuel : ℕ) (s : Sector T) :
    Debug (between A true S b e fuel s) (between A false S b e fuel s) := by
  unfold between
  split_ifs
  all_goals first | exact refine_debug A s _ _ | exact .inr rfl

theorem step_debug (fuel : ℕ) (st : State T) (g : Restriction T) : Debug (step A true S fuel st g) (step A false S fuel st g) := by
  cases g with
  | vectors b e => exact (forSectors_debug (fun s => refine_debug A s b e) _).map _
  | connections b e =>
    change Debug (sectorConnections A true S st b e fuel) (sectorConnections A false S st b e fuel)
    unfold sectorConnections
    rcases S.tri.source b.1 with _ | v
    · exact .inr rfl
    · rcases S.tri.source e.1 with _ | w
      · exact .inr rfl
      · exact (forSectors_debug (between_debug A b e fuel) _).map _
  | _ => exact .inr rfl

theorem run_debug (fuel : ℕ) (fs : List (Restriction T)) : ∀ st : State T, Debug (run A true S fuel st fs) (run A false S fuel st fs) := by
  induction fs with
  | nil => exact fun st => .inr rfl
  | cons g fs ih =>
    intro st
    unfold run
    rcases step_debug A (S := S) fuel st g with h1 | h1
    · rw [h1]
      exact .inl rfl
    · rw [h1]
      cases step A false S fuel st g with
      | none => exact .inr rfl
      | some r => cases r with
        | error e => exact .inr rfl
        | ok st => exact ih st

/-- The calls that look at the limits of sectors. -/
def directional : Restriction T → Bool
  | .vectors _ _ => true
  | .connections _ _ => true
  | _ => false

theorem refine_whole (hc : Cor f S θ) {s : Sector T} (hs : s.source < S.tri.size) (hn : s.sector = none) (b e : Vec T) :
    refine A true S s b e = refine A false S s b e := by
  unfold refine
  simp only [hn, Bool.false_eq_true, false_and, if_false, true_and, Option.getD_none]
  have hself : At f (S.vec s.source) (S.vec s.source) 0 := at_self (hc.ne _ hs)
  have hp := hc.pos _ hs
  have hl := hc.lt _ hs
  rw [if_neg, if_neg]
  · rw [(ccw_at A hc.mono (hc.next _ hs).ne (hc.next _ hs) hself).1]
    rintro (k | k) <;> linarith
  · rw [(ccw_at A hc.mono hself.ne hself hself).2.1]
    rintro (k | k) <;> linarith [pi_pos]

theorem forSectors_congr {g g' : Sector T → Option (Except Err (List (Sector T)))} {L : List (Sector T)}
    (h : ∀ s ∈ L, g s = g' s) : forSectors g L = forSectors g' L := by
  induction L with
  | nil => rfl
  | cons s L ih =>
    unfold forSectors
    rw [h s List.mem_cons_self, ih fun t ht => h t (List.mem_cons_of_mem _ ht)]

/-- No sector has been restricted to a part of its corner. -/
def Whole (S : FlatTri T) (st : State T) : Prop := ∀ s ∈ st.sectors, s.source < S.tri.size ∧ s.sector = none

theorem step_whole (hc : Cor f S θ) {st : State T} (h : Whole S st) (fuel : ℕ) (g : Restriction T) :
    step A true S fuel st g = step A false S fuel st g := by
  cases g with
  | vectors b e =>
    change sectorVectors A true S st b e = sectorVectors A false S st b e
    unfold sectorVectors
    rw [forSectors_congr fun s hs => by rw [refine_whole A hc (h s hs).1 (h s hs).2]]
  | connections b e =>
    change sectorConnections A true S st b e fuel = sectorConnections A false S st b e fuel
    unfold sectorConnections
    rcases S.tri.source b.1 with _ | v
    · rfl
    · rcases S.tri.source e.1 with _ | w
      · rfl
      · simp only
        rw [forSectors_congr fun s hs => ?_]
        have hs' : s ∈ st.sectors := List.mem_of_mem_filter (List.mem_of_mem_filter hs)
        unfold between
        rw [refine_whole A hc (h s hs').1 (h s hs').2, refine_whole A hc (h s hs').1 (h s hs').2,
          refine_whole A hc (h s hs').1 (h s hs').2]
  | _ => rfl

theorem step_direct {st : State T} (fuel : ℕ) {g : Restriction T} (hg : directional g = false) :
    step A true S fuel st g = step A false S fuel st g := by
  cases g with
  | vectors b e => cases hg
  | connections b e => cases hg
  | _ => rfl

theorem step_whole_ok {st st' : State T} {fuel : ℕ} (h : Whole S st) {g : Restriction T} (hg : directional g = false)
    (hs : step A false S fuel st g = some (.ok st')) : Whole S st' := by
  cases g with
  | vectors b e => cases hg
  | connections b e => cases hg
  | bound b =>
    obtain rfl : SaddleConnections.bound st b = st' := by injection hs with hs; injection hs
    exact h
  | lowerBound b =>
    obtain rfl : SaddleConnections.lowerBound st b = st' := by injection hs with hs; injection hs
    exact h
  | source v =>
    obtain rfl : SaddleConnections.source S st v = st' := by injection hs with hs; injection hs
    exact fun s k => h s (List.mem_of_mem_filter k)
  | halfEdge v =>
    obtain rfl : sectorHalfEdge st v = st' := by injection hs with hs; injection hs
    exact fun s k => h s (List.mem_of_mem_filter k)

theorem run_direct {fuel : ℕ} {fs : List (Restriction T)} (hg : ∀ g ∈ fs, directional g = false) : ∀ st : State T,
    run A true S fuel st fs = run A false S fuel st fs := by
  induction fs with
  | nil => exact fun st => rfl
  | cons g fs ih =>
    intro st
    unfold run
    rw [step_direct A fuel (hg g List.mem_cons_self)]
    congr 1
    funext r
    cases r with
    | error e => rfl
    | ok st => exact ih (fun g k => hg g (List.mem_cons_of_mem _ k)) st

theorem run_whole (hc : Cor f S θ) {fuel : ℕ} {fs : List (Restriction T)} (hg : fs.countP directional ≤ 1) : ∀ {st : State T}, Whole S st →
    run A true S fuel st fs = run A false S fuel st fs := by
  induction fs with
  | nil => exact fun _ => rfl
  | cons g fs ih =>
    intro st hw
    rw [List.countP_cons] at hg
    unfold run
    rw [step_whole A hc hw]
    cases hs : step A false S fuel st g with
    | none => rfl
    | some r => cases r with
      | error e => rfl
      | ok st' =>
        change run A true S fuel st' fs = run A false S fuel st' fs
        by_cases hd : directional g = true
        · rw [if_pos hd] at hg
          refine run_direct A (fun g hg' => ?_) st'
          have := List.countP_eq_zero.1 (show fs.countP directional = 0 by omega) g hg'
          simpa using this
        · exact ih (by omega) (step_whole_ok A hw (by simpa using hd) hs)

/-! ### Zero vectors -/

theorem refine_zero (hc : Cor f S θ) {s : Sector T} {x y : ℝ} (h : Ok f S θ s x y) {b e : Vec T} (h0 : b = 0 ∨ e = 0)
    (hz : ∀ v p q : Vec T, v = 0 → Vec.inSector A v p q = .error .invalidArgument) :
    refine A false S s b e = .error .invalidArgument := by
  unfold refine
  simp only [Bool.false_eq_true, false_and, if_false]
  change (bind (inSector A b (limits S s).1 (limits S s).2) _) = _
  by_cases hb : b = 0
  · rw [hz _ _ _ hb]
    rfl
  · have he := h0.resolve_left hb
    obtain ⟨β, hβ⟩ := exists_at hc.mono (hc.ne _ h.lt) hb
    rw [inSector_at A hc.mono hβ h.start h.stop]
    change (if (decide (Cyc x y β)) = true then _ else _) = _
    by_cases k : decide (Cyc x y β) = true
    · rw [if_pos k]
      have hcl : Vec.ccw A b e ≠ .clockwise := by
        rw [he, ccw_eq, ne_eq, ccwExact_clockwise]
        simp [cross]
      rw [if_neg hcl, hz _ _ _ he]
      rfl
    · rw [if_neg k, hz _ _ _ he]
      rfl

theorem forSectors_zero {g : Sector T → Option (Except Err (List (Sector T)))} {L : List (Sector T)} (hL : L ≠ []) {err : Err}
    (h : ∀ s ∈ L, g s = some (.error err)) : forSectors g L = some (.error err) := by
  cases L with
  | nil => exact absurd rfl hL
  | cons s L =>
    unfold forSectors
    rw [h s List.mem_cons_self]
    rfl

end SaddleConnections

end Verif
