import Verif.Lemmas.SaddleSector

set_option linter.unusedSectionVars false

/-!
# The search for saddle connections
-/

namespace Verif

open Vec Spec FlatTri Real

variable {T : Type} [CommRing T] [LinearOrder T] [IsStrictOrderedRing T]
variable {K : Type} [Field K] [LinearOrder K] [IsStrictOrderedRing K]

/-- A ray hits at most one vertex. -/
theorem Spec.Hits.unique {S : FlatTri T} {v w : Vec T} {x : HE} {q : Vec T} {t u : HE} (h : Hits S v x q t) (h' : Hits S w x q u)
    (hc : cross v w = 0) (hd : 0 < dot v w) : v = w ∧ t = u := by
  have key : ∀ {v w : Vec T}, cross v w = 0 → 0 < dot v w → ∀ {z : Vec T}, 0 < cross v z → 0 < cross w z := by
    intro v w hc hd z hz
    have e : dot v v * cross w z = dot v w * cross v z := by
      have : dot v v * cross w z - dot v w * cross v z = -(cross v w * dot v z) := by simp only [cross, dot]; ring
      rw [hc] at this
      linear_combination this
    have hu : 0 < dot v v := dot_self_pos (by rintro rfl; simp [dot] at hd)
    have : 0 < dot v v * cross w z := by rw [e]; positivity
    exact (mul_pos_iff_of_pos_left hu).1 this
  have key' : ∀ {v w : Vec T}, cross v w = 0 → 0 < dot v w → ∀ {z : Vec T}, cross v z < 0 → cross w z < 0 := by
    intro v w hc hd z hz
    have := key hc hd (z := -z) (by rw [cross_neg_right]; linarith)
    rw [cross_neg_right] at this
    linarith
  have hc' : cross w v = 0 := by rw [cross_comm, hc, neg_zero]
  have hd' : 0 < dot w v := by rw [dot_comm]; exact hd
  induction h with
  | @here x q k =>
    cases h' with
    | here k' => exact ⟨k.trans k'.symm, rfl⟩
    | right k' _ => have := key hc' hd' k'; rw [k, cross_self] at this; exact absurd this (lt_irrefl _)
    | left k' _ => have := key' hc' hd' k'; rw [k, cross_self] at this; exact absurd this (lt_irrefl _)
  | right k _ ih =>
    cases h' with
    | here k' => have := key hc hd k; rw [k', cross_self] at this; exact absurd this (lt_irrefl _)
    | right k' h' => exact ih h'
    | left k' _ => exact absurd (key hc hd k) (not_lt.2 k'.le)
  | left k _ ih =>
    cases h' with
    | here k' => have := key' hc hd k; rw [k', cross_self] at this; exact absurd this (lt_irrefl _)
    | right k' h' => exact absurd (key' hc hd k) (not_lt.2 k'.le)
    | left k' h' => exact ih h'

namespace SaddleSearch

open SaddleConnections

variable {f : T →+* ℝ} {S : FlatTri T} {θ : HE → ℝ}

theorem collect_of_goes {P : Params T K} {r : Except Err (Machine T × Bool)} {l : List Saddle} (h : Goes P r l) :
    ∃ N, ∀ fuel ≥ N, ((match r with
      | .error err => some (.error err)
      | .ok (m, true) => some (.ok m)
      | .ok (m, false) => advance P fuel m : Option (Except Err (Machine T))).bind fun
      | .error err => some (.error err)
      | .ok m => collect P fuel fuel m) = some (.ok l) := by
  obtain ⟨m, b, rfl, h⟩ := h
  cases b
  · rw [if_neg (by simp)] at h
    obtain ⟨N, hN⟩ := advance_collect h
    exact ⟨N, fun fuel hf => hN fuel hf fuel hf fuel hf⟩
  · rw [if_pos rfl] at h
    rcases h with ⟨h, rfl⟩ | ⟨h, c, l', rfl, h2, h3⟩
    · refine ⟨1, fun fuel hfuel => ?_⟩
      obtain ⟨n, rfl⟩ : ∃ g, fuel = g + 1 := ⟨fuel - 1, by omega⟩
      simp only [Option.bind_some]
      unfold collect
      rw [if_pos (by simpa using h)]
    · obtain ⟨N, hN⟩ := advance_collect h3
      refine ⟨N + 1, fun fuel hfuel => ?_⟩
      obtain ⟨n, rfl⟩ : ∃ g, fuel = g + 1 := ⟨fuel - 1, by omega⟩
      simp only [Option.bind_some]
      unfold collect
      rw [if_neg (by simpa using h), h2]
      simp only
      have := hN (n + 1) (by omega) (n + 1) (by omega) n (by omega)
      revert this
      rcases advance P (n + 1) m with _ | _ | m''
      · simp
      · simp
      · simp only [Option.bind_some]
        intro k
        rw [k]
        rfl

theorem forall₂_mem {α β : Type} {R : α → β → Prop} {l : List α} {L : List β} (h : List.Forall₂ R l L) :
    (∀ a ∈ l, ∃ b ∈ L, R a b) ∧ ∀ b ∈ L, ∃ a ∈ l, R a b := by
  induction h with
  | nil => simp
  | @cons a b l L hab _ ih =>
    refine ⟨fun x hx => ?_, fun x hx => ?_⟩
    · rcases List.mem_cons.1 hx with rfl | hx
      · exact ⟨b, List.mem_cons_self, hab⟩
      · obtain ⟨y, y1, y2⟩ := ih.1 x hx
        exact ⟨y, List.mem_cons_of_mem _ y1, y2⟩
    · rcases List.mem_cons.1 hx with rfl | hx
      · exact ⟨a, List.mem_cons_self, hab⟩
      · obtain ⟨y, y1, y2⟩ := ih.2 x hx
        exact ⟨y, List.mem_cons_of_mem _ y1, y2⟩

theorem found_pairwise (h : S.Shut) (hc : Cor f S θ) {P : Params T K} (hP : P.S = S) {ss : List (Sector T)} {L : List (List Saddle)}
    (hL : List.Forall₂ (Found P) ss L) (hlt : ∀ s ∈ ss, s.source < S.tri.size)
    (hle : ∀ c, IsDirection f S θ c → ss.countP (has P.A c) ≤ 1) :
    L.flatten.Pairwise fun c d => (c.source, S.saddleVector c) ≠ (d.source, S.saddleVector d) := by
  subst hP
  induction hL with
  | nil => exact List.Pairwise.nil
  | @cons s l ss L hl hL ih =>
    rw [List.flatten_cons, List.pairwise_append]
    refine ⟨hl.once.imp fun k k' => k (congrArg Prod.snd k'), ih (fun s hs => hlt s (List.mem_cons_of_mem _ hs)) fun c hcd => ?_, ?_⟩
    · have := hle c hcd
      rw [List.countP_cons] at this
      omega
    · intro c hcl d hd hcd
      obtain ⟨l', hl', hdl⟩ := List.mem_flatten.1 hd
      obtain ⟨s', hs', hf'⟩ := (forall₂_mem hL).2 l' hl'
      have k1 := (hl.iff (c.target, P.S.saddleVector c)).1 (List.mem_map_of_mem hcl)
      have k2 := (hf'.iff (d.target, P.S.saddleVector d)).1 (List.mem_map_of_mem hdl)
      have e1 := hl.source c hcl
      have e2 := hf'.source d hdl
      have hdir := isDirection h hc (hlt s List.mem_cons_self) k1.1
      have := hle _ hdir
      rw [List.countP_cons, if_pos k1.2.1] at this
      have k3 := k2.2.1
      rw [← e2] at k3
      simp only at k3
      rw [← hcd, e1] at k3
      have := List.countP_pos_iff.2 ⟨s', hs', k3⟩
      simp only at *
      omega

theorem found_iff {P : Params T K} (hP : P.S = S) {ss : List (Sector T)} {L : List (List Saddle)}
    (hL : List.Forall₂ (Found P) ss L) :
    (∀ c ∈ L.flatten, ∃ s ∈ ss, c.source = s.source ∧ IsSaddleConnection S c.source (S.saddleVector c) c.target ∧
      has P.A (c.source, S.saddleVector c) s = true ∧ Within P.radius P.lower (S.saddleVector c)) ∧
    ∀ e v t s, s ∈ ss → IsSaddleConnection S e v t → has P.A (e, v) s = true → Within P.radius P.lower v →
      ∃ c ∈ L.flatten, c.source = e ∧ S.saddleVector c = v ∧ c.target = t := by
  subst hP
  refine ⟨fun c hcm => ?_, fun e v t s hs hi hh hw => ?_⟩
  · obtain ⟨l', hl', hdl⟩ := List.mem_flatten.1 hcm
    obtain ⟨s', hs', hf'⟩ := (forall₂_mem hL).2 l' hl'
    have k2 := (hf'.iff (c.target, P.S.saddleVector c)).1 (List.mem_map_of_mem hdl)
    have e2 := hf'.source c hdl
    rw [← e2] at k2
    exact ⟨s', hs', e2, k2⟩
  · obtain ⟨l, hl, hf'⟩ := (forall₂_mem hL).1 s hs
    have he : e = s.source := by
      by_contra hne
      rw [has_source P.A (c := (e, v)) hne] at hh
      cases hh
    subst he
    obtain ⟨c, c1, c2⟩ := List.mem_map.1 ((hf'.iff (t, v)).2 ⟨hi, hh, hw⟩)
    exact ⟨c, List.mem_flatten.2 ⟨l, hl, c1⟩, hf'.source c c1, congrArg Prod.snd c2, congrArg Prod.fst c2⟩

theorem run_radius (A : Option (Approx T K)) {dbg : Bool} {fuel : ℕ} (fs : List (Restriction T)) : ∀ {st st' : State T},
    run A dbg S fuel st fs = some (.ok st') → (st.searchRadius.isSome ∨ ∃ b, .bound b ∈ fs) → st'.searchRadius.isSome := by
  induction fs with
  | nil =>
    intro st st' h hb
    unfold run at h
    injection h with h
    injection h with h
    subst h
    rcases hb with hb | ⟨b, hb⟩
    · exact hb
    · simp at hb
  | cons g fs ih =>
    intro st st' h hb
    unfold run at h
    have key : ∀ st1, step A dbg S fuel st g = some (.ok st1) → st1.searchRadius.isSome ∨ ∃ b, .bound b ∈ fs := by
      intro st1 h1
      have mono : st.searchRadius.isSome → st1.searchRadius.isSome := by
        intro k
        cases g with
        | bound b => injection h1 with h1; injection h1 with h1; subst h1; rfl
        | lowerBound b => injection h1 with h1; injection h1 with h1; subst h1; exact k
        | source b => injection h1 with h1; injection h1 with h1; subst h1; exact k
        | halfEdge b => injection h1 with h1; injection h1 with h1; subst h1; exact k
        | vectors b e =>
          unfold step sectorVectors at h1
          rw [Option.map_eq_some_iff] at h1
          obtain ⟨r, -, h1⟩ := h1
          cases r with
          | error err => cases h1
          | ok l => injection h1 with h1; subst h1; exact k
        | connections b e =>
          change sectorConnections A dbg S st b e fuel = _ at h1
          unfold sectorConnections at h1
          split at h1
          · simp only at h1
            rw [Option.map_eq_some_iff] at h1
            obtain ⟨r, -, h1⟩ := h1
            cases r with
            | error err => cases h1
            | ok l => injection h1 with h1; subst h1; exact k
          · injection h1 with h1
            cases h1
      rcases hb with hb | ⟨b, hb⟩
      · exact .inl (mono hb)
      · rcases List.mem_cons.1 hb with rfl | hb
        · injection h1 with h1; injection h1 with h1; subst h1; exact .inl rfl
        · exact .inr ⟨b, hb⟩
    cases hs : step A dbg S fuel st g with
    | none => rw [hs] at h; cases h
    | some r =>
      rw [hs] at h
      cases r with
      | error err => injection h with h; cases h
      | ok st1 => exact ih h (key st1 hs)

/-- What the search reports. -/
theorem enumerate_spec (h : S.Shut) (hf : StrictMono f) (hθ : AllCorners f S θ) (A : Option (Approx T K)) {st : State T}
    {Q : HE × Vec T → Prop} (hi : Inv A f S θ st.sectors Q) (hr : st.searchRadius.isSome) (dbg : Bool) :
    ∃ L N, (∀ fuel ≥ N, enumerate A dbg S st fuel = some (.ok L)) ∧
      (∀ c ∈ L, IsSaddleConnection S c.source (S.saddleVector c) c.target) ∧
      (L.Pairwise fun c d => (c.source, S.saddleVector c) ≠ (d.source, S.saddleVector d)) ∧
      ∀ e v, (∃ c ∈ L, c.source = e ∧ S.saddleVector c = v) ↔ e < S.tri.size ∧ (∃ t, IsSaddleConnection S e v t) ∧ Searched A st (e, v) := by
  obtain ⟨r, hr⟩ := Option.isSome_iff_exists.1 hr
  have hc := cor h hf hθ
  obtain ⟨L, hL, hgo⟩ := sectors_go (P := ⟨A, dbg, S, st.searchRadius, st.lowerBound⟩) h hf hc hr st.sectors hi.ok
    (m := ⟨[], .chain fun _ => 0, .chain fun _ => 0, 0, fun _ => 0, [], [], []⟩) ⟨rfl, rfl, rfl⟩
  obtain ⟨N, hN⟩ := collect_of_goes hgo
  have hlt : ∀ s ∈ st.sectors, s.source < S.tri.size := fun s hs => by
    obtain ⟨x, y, hok⟩ := hi.ok s hs
    exact hok.lt
  obtain ⟨f1, f2⟩ := found_iff (S := S) rfl hL
  have hwithin : ∀ v, Within st.searchRadius st.lowerBound v ↔
      (∀ r, st.searchRadius = some r → Vec.gtBound A v r = false) ∧ Vec.gtBound A v st.lowerBound = true := by
    intro v
    unfold Within
    simp only [gtBound_eq, decide_eq_true_eq, decide_eq_false_iff_not, not_lt]
  refine ⟨L.flatten, N, fun fuel hfuel => ?_, fun c hcm => ?_, ?_, fun e v => ⟨?_, ?_⟩⟩
  · rw [← hN fuel hfuel]
    rfl
  · obtain ⟨s, -, -, k, -⟩ := f1 c hcm
    exact k
  · refine found_pairwise h hc rfl hL hlt fun c hcd => ?_
    by_cases k : Q c
    · exact (hi.once c hcd k).le
    · rw [hi.never c hcd k]
      exact zero_le_one
  · rintro ⟨c, hcm, rfl, rfl⟩
    obtain ⟨s, k1, k2, k3, k4, k5⟩ := f1 c hcm
    refine ⟨by rw [k2]; exact hlt s k1, ⟨_, k3⟩, ⟨s, k1, ?_⟩, ?_⟩
    · exact (has_iff A).1 k4
    · exact (hwithin _).1 k5
  · rintro ⟨-, ⟨t, ht⟩, ⟨s, hs, k1⟩, k2⟩
    obtain ⟨c, c1, c2, c3, -⟩ := f2 e v t s hs ht ((has_iff A).2 k1) ((hwithin _).2 k2)
    exact ⟨c, c1, c2, c3⟩

end SaddleSearch

end Verif
