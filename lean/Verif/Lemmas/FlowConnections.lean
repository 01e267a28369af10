import Verif.Lemmas.FlowResult

/-!
# Numbering the connections of all flow components
-/

namespace Verif.FlowTriangulation

open Verif

/-- The body of the loop in `halfEdge` without stopping. -/
def record (s : (HE → Option HE) × ℕ) (other : HE) : (HE → Option HE) × ℕ :=
  if (s.1 other).isSome then s
  else (Function.update (Function.update s.1 other (some (2 * (s.2 / 2)))) (neg other) (some (neg (2 * (s.2 / 2)))), s.2 + 2)

/-- The numbers of the connections. -/
def recordAll (keys : List HE) : (HE → Option HE) × ℕ := keys.foldl record (fun _ => none, 0)

/-- What the numbers are after some connections have been processed. -/
structure Counted (P : List HE) (s : (HE → Option HE) × ℕ) : Prop where
  even : s.2 % 2 = 0
  known : ∀ c, (s.1 c).isSome ↔ c ∈ P ∨ neg c ∈ P
  neg : ∀ c x, s.1 c = some x → s.1 (neg c) = some (neg x)
  inj : ∀ c d x, s.1 c = some x → s.1 d = some x → c = d
  lt : ∀ c x, s.1 c = some x → x < s.2
  cover : ∀ x < s.2, ∃ c, s.1 c = some x

theorem Counted.nil : Counted [] ((fun _ => none, 0) : (HE → Option HE) × ℕ) := by
  constructor <;> simp

theorem Counted.add {P : List HE} {s : (HE → Option HE) × ℕ} (h : Counted P s) (c : HE) : Counted (P ++ [c]) (record s c) := by
  unfold record
  split_ifs with hc
  · have hm : ∀ d, (d ∈ P ++ [c] ∨ Verif.neg d ∈ P ++ [c]) ↔ d ∈ P ∨ Verif.neg d ∈ P := by
      intro d
      have h1 := (h.known c).1 hc
      simp only [List.mem_append, List.mem_singleton]
      constructor
      · rintro ((h2 | rfl) | (h2 | h2))
        · exact .inl h2
        · exact h1
        · exact .inr h2
        · have : d = Verif.neg c := by rw [← h2, neg_neg']
          subst this
          rw [neg_neg']
          exact h1.symm
      · rintro (h2 | h2)
        · exact .inl (.inl h2)
        · exact .inr (.inl h2)
    exact ⟨h.even, fun d => by rw [h.known, hm], h.neg, h.inj, h.lt, h.cover⟩
  · have he := h.even
    have hs : 2 * (s.2 / 2) = s.2 := by omega
    have hn : Verif.neg s.2 = s.2 + 1 := by rw [neg_def, if_pos he]
    have hn' : Verif.neg (s.2 + 1) = s.2 := by rw [← hn, neg_neg']
    have hne := neg_ne_self c
    have hval : ∀ d, (Function.update (Function.update s.1 c (some (2 * (s.2 / 2)))) (Verif.neg c)
        (some (Verif.neg (2 * (s.2 / 2))))) d = if d = Verif.neg c then some (s.2 + 1) else if d = c then some s.2 else s.1 d := by
      intro d
      rw [hs, hn]
      simp only [Function.update_apply]
    have hc1 : s.1 c = none := by simpa using hc
    have hc2 : s.1 (Verif.neg c) = none := by
      rcases hq : s.1 (Verif.neg c) with _ | x
      · rfl
      · have := h.neg _ _ hq
        rw [neg_neg', hc1] at this
        cases this
    refine ⟨by dsimp only; omega, ?_, ?_, ?_, ?_, ?_⟩
    · intro d
      dsimp only
      rw [hval]
      simp only [List.mem_append, List.mem_singleton]
      split_ifs with h1 h2
      · subst h1; simp [neg_neg']
      · subst h2; simp
      · rw [h.known]
        constructor
        · rintro (h3 | h3)
          · exact .inl (.inl h3)
          · exact .inr (.inl h3)
        · rintro ((h3 | h3) | (h3 | h3))
          · exact .inl h3
          · exact absurd h3 h2
          · exact .inr h3
          · exact absurd (by rw [← h3, neg_neg']) h1
    · intro d x
      dsimp only
      rw [hval, hval]
      intro hx
      have e1 : Verif.neg d = Verif.neg c ↔ d = c := neg_inj'
      have e2 : Verif.neg d = c ↔ d = Verif.neg c := neg_eq_comm'
      rw [if_congr e1 rfl rfl, if_congr e2 rfl rfl]
      split_ifs at hx ⊢ with h1 h2 h3 <;> first
        | (cases hx; rw [hn']; done) | (cases hx; rw [hn]; done) | exact h.neg d x hx
        | (subst h1; exact absurd h2 hne) | (subst h1; exact absurd h2 hne.symm) | (subst h1; exact absurd h2.symm hne)
    · intro d d' x
      dsimp only
      rw [hval, hval]
      intro h1 h2
      split_ifs at h1 h2 with a1 a2 a3 a4 a5 a6 <;> first
        | (rw [a1, a2]; done) | (rw [a1, a3]; done) | (cases h1; cases h2; done) | skip
      all_goals first
        | exact h.inj _ _ _ h1 h2
        | (exfalso; have := h.lt _ _ h1; cases h2; omega)
        | (exfalso; have := h.lt _ _ h2; cases h1; omega)
        | (exfalso; cases h1; injection h2 with h2; omega)
        | simp_all
    · intro d x
      dsimp only
      rw [hval]
      intro hx
      split_ifs at hx with h1 h2
      · cases hx; omega
      · cases hx; omega
      · have := h.lt _ _ hx; omega
    · intro x hx
      dsimp only at hx ⊢
      by_cases hx1 : x < s.2
      · obtain ⟨d, hd⟩ := h.cover x hx1
        refine ⟨d, ?_⟩
        rw [hval, if_neg, if_neg]
        · exact hd
        · rintro rfl; rw [hc1] at hd; cases hd
        · rintro rfl; rw [hc2] at hd; cases hd
      · by_cases hx2 : x = s.2
        · exact ⟨c, by rw [hval, if_neg hne.symm, if_pos rfl, hx2]⟩
        · exact ⟨Verif.neg c, by rw [hval, if_pos rfl]; congr 1; omega⟩

theorem Counted.foldl {P : List HE} {s : (HE → Option HE) × ℕ} (h : Counted P s) (l : List HE) :
    Counted (P ++ l) (l.foldl record s) := by
  induction l generalizing P s with
  | nil => simpa using h
  | cons c l ih =>
    have := ih (h.add c)
    rwa [List.append_assoc] at this

theorem counted (keys : List HE) : Counted keys (recordAll keys) := Counted.nil.foldl keys

theorem Counted.keep {P : List HE} {s : (HE → Option HE) × ℕ} (h : Counted P s) (l : List HE) {c x : HE} (hc : s.1 c = some x) :
    (l.foldl record s).1 c = some x := by
  induction l generalizing P s with
  | nil => exact hc
  | cons d l ih =>
    refine ih (h.add d) ?_
    unfold record
    split_ifs with hd
    · exact hc
    · have h1 : c ≠ d := by rintro rfl; rw [hc] at hd; simp at hd
      have h2 : c ≠ Verif.neg d := by
        rintro rfl
        have := h.neg _ _ hc
        rw [neg_neg'] at this
        rw [this] at hd; simp at hd
      dsimp only
      rw [Function.update_of_ne h2, Function.update_of_ne h1]
      exact hc

theorem visit_done (c : HE) (l : List HE) {s : Search} (h : s.result.isSome) : l.foldl (Search.visit c) s = s := by
  induction l with
  | nil => rfl
  | cons d l ih =>
    rw [List.foldl_cons]
    have : Search.visit c s d = s := by unfold Search.visit; rw [if_pos h]
    rw [this, ih]

theorem visit_spec {c : HE} {P l : List HE} {m : HE → Option HE} {n : ℕ} (h : Counted P (m, n)) (hc : c ∈ l ∨ neg c ∈ l) :
    (l.foldl (Search.visit c) ⟨m, n, none⟩).result = (l.foldl record (m, n)).1 c := by
  induction l generalizing P m n with
  | nil => simp at hc
  | cons d l ih =>
    rw [List.foldl_cons, List.foldl_cons]
    have h1 := h.add d
    have hv : Search.visit c ⟨m, n, none⟩ d = ⟨(record (m, n) d).1, (record (m, n) d).2,
        if d = c ∨ d = neg c then (record (m, n) d).1 c else none⟩ := by
      unfold Search.visit record
      dsimp only
      rw [if_neg (by simp)]
      split_ifs <;> rfl
    rw [hv]
    by_cases hd : d = c ∨ d = neg c
    · have hk : ((record (m, n) d).1 c).isSome := by
        rw [h1.known]
        rcases hd with rfl | rfl
        · simp
        · simp
      obtain ⟨x, hx⟩ := Option.isSome_iff_exists.1 hk
      rw [if_pos hd, visit_done _ _ (by exact hk)]
      dsimp only
      rw [hx, h1.keep l hx]
    · rw [if_neg hd]
      refine ih h1 ?_
      rcases hc with hc | hc
      · rcases List.mem_cons.1 hc with rfl | hc
        · exact absurd (.inl rfl) hd
        · exact .inl hc
      · rcases List.mem_cons.1 hc with hc | hc
        · exact absurd (.inr hc.symm) hd
        · exact .inr hc

/-- The half edge in the triangulation of the decomposition. -/
def globalHE (keys : List HE) (c : HE) : HE := ((recordAll keys).1 c).getD 0

theorem halfEdge_eq (dbg : Bool) {components : List (List Connection)} {c : HE}
    (hc : c ∈ components.flatten.map Connection.key) :
    halfEdge dbg components c = .ok (globalHE (components.flatten.map Connection.key) c) := by
  unfold halfEdge globalHE
  rw [visit_spec Counted.nil (.inl hc)]
  obtain ⟨x, hx⟩ := Option.isSome_iff_exists.1 (((counted _).known c).2 (.inl hc))
  unfold recordAll at hx ⊢
  rw [hx]; rfl

theorem globalHE_some {keys : List HE} {c : HE} (hc : c ∈ keys) : (recordAll keys).1 c = some (globalHE keys c) := by
  obtain ⟨x, hx⟩ := Option.isSome_iff_exists.1 (((counted keys).known c).2 (.inl hc))
  unfold globalHE
  rw [hx]; rfl

theorem globalHE_neg {keys : List HE} {c : HE} (hc : c ∈ keys) : globalHE keys (neg c) = neg (globalHE keys c) := by
  have := (counted keys).neg _ _ (globalHE_some hc)
  conv_lhs => unfold globalHE
  rw [this]; rfl

theorem globalHE_perm {keys : List HE} (hnd : keys.Nodup) (hneg : ∀ c ∈ keys, neg c ∈ keys) :
    (keys.map (globalHE keys)).Perm (List.range keys.length) ∧ keys.length % 2 = 0 := by
  have hC := counted keys
  have h1 : (keys.map (globalHE keys)).Nodup :=
    hnd.map_on fun c hc d hd h => hC.inj c d _ (globalHE_some hc) (by rw [h]; exact globalHE_some hd)
  have h2 : (keys.map (globalHE keys)).Perm (List.range (recordAll keys).2) := by
    refine (List.perm_ext_iff_of_nodup h1 List.nodup_range).2 fun x => ?_
    rw [List.mem_range, List.mem_map]
    constructor
    · rintro ⟨c, hc, rfl⟩
      exact hC.lt c _ (globalHE_some hc)
    · intro hx
      obtain ⟨c, hc⟩ := hC.cover x hx
      have hm : c ∈ keys := by
        rcases (hC.known c).1 (by rw [hc]; rfl) with h | h
        · exact h
        · have := hneg _ h; rwa [neg_neg'] at this
      refine ⟨c, hm, ?_⟩
      unfold globalHE
      rw [hc]; rfl
  have h3 := h2.length_eq
  rw [List.length_map, List.length_range] at h3
  rw [h3]
  exact ⟨h2, hC.even⟩

end Verif.FlowTriangulation
