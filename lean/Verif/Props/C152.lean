import Verif.Spec.FlowConnection
import Verif.Lemmas.HalfEdge

/-!
# C152: the connections of a flow decomposition can be walked
-/

namespace Verif.C152

open Verif Spec FlowTriangulation

theorem vertical_iff {k : Kind} : k.vertical = true ↔ VerticalKind k := by
  cases k <;> simp [Kind.vertical, VerticalKind]

theorem opposite_iff {k k' : Kind} : k' = k.opposite ↔ OppositeKinds k k' := by
  cases k <;> cases k' <;> simp [Kind.opposite, OppositeKinds]

theorem findIn_some {k : HE} {p : List Connection} {c : Connection} (h : findIn k p = some c) : c ∈ p ∧ c.key = k :=
  ⟨List.mem_of_find?_eq_some h, by simpa using List.find?_some h⟩

theorem findIn_none {k : HE} {p : List Connection} (h : findIn k p = none) : ∀ c ∈ p, c.key ≠ k := by
  unfold findIn at h
  simpa using h

theorem findAny_some {k : HE} : ∀ {P : List (List Connection)} {n : ℕ} {d : ℕ × Connection}, findAny k n P = some d →
    ∃ i, d.1 = n + i ∧ OnPerimeter P i d.2 ∧ d.2.key = k
  | [], _, _, h => by cases h
  | p :: P, n, d, h => by
    unfold findAny at h
    split at h
    · rename_i c hc
      cases h
      obtain ⟨h1, h2⟩ := findIn_some hc
      exact ⟨0, rfl, ⟨p, rfl, h1⟩, h2⟩
    · obtain ⟨i, h1, ⟨q, h2, h3⟩, h4⟩ := findAny_some h
      exact ⟨i + 1, by omega, ⟨q, by simpa using h2, h3⟩, h4⟩

theorem findAny_none {k : HE} : ∀ {P : List (List Connection)} {n : ℕ}, findAny k n P = none → ∀ p ∈ P, ∀ c ∈ p, c.key ≠ k
  | [], _, _, p, hp => by cases hp
  | q :: P, n, h, p, hp => by
    unfold findAny at h
    split at h
    · cases h
    · rename_i hc
      rcases List.mem_cons.1 hp with rfl | hp
      · exact findIn_none hc
      · exact findAny_none h p hp

/-- The negative of a connection is the connection with the opposite orientation, on the opposite side. -/
theorem negative_correct {P : List (List Connection)} (hP : Perimeters P) (dbg : Bool) {i : ℕ} {c : Connection}
    (hc : OnPerimeter P i c) : ∃ j d, negative dbg P i c = .ok (j, d) ∧ OnPerimeter P j d ∧ d.key = neg c.key ∧
      OppositeKinds c.kind d.kind ∧ (¬VerticalKind c.kind → j = i) := by
  obtain ⟨j, d, h1, h2, h3', h4'⟩ := hP.paired i c hc
  have h3 := opposite_iff.2 h3'
  have h4 : c.kind.vertical = false → j = i := fun k => h4' fun h => by simp [vertical_iff.2 h] at k
  refine ⟨j, d, ?_, h1, h2, h3', h4'⟩
  unfold negative
  have found : findNegative P i c = some (j, d) := by
    unfold findNegative
    split
    · cases h : findAny (neg c.key) 0 P with
      | none =>
        obtain ⟨p, hp, hd⟩ := h1
        exact absurd h2 (findAny_none h p (List.mem_of_getElem? hp) d hd)
      | some e =>
        obtain ⟨n, e1, e2, e3⟩ := findAny_some h
        obtain ⟨rfl, e4⟩ := hP.once n j e.2 d e2 h1 (e3.trans h2.symm)
        rw [zero_add] at e1
        exact congrArg some (Prod.ext e1 e4)
    · rename_i hv
      have hj := h4 (by simpa using hv)
      subst hj
      obtain ⟨p, hp, hd⟩ := h1
      simp only [hp]
      cases h : findIn (neg c.key) p with
      | none => exact absurd h2 (findIn_none h d hd)
      | some e =>
        obtain ⟨e1, e2⟩ := findIn_some h
        obtain ⟨-, rfl⟩ := hP.once j j e d ⟨p, hp, e1⟩ ⟨p, hp, hd⟩ (e2.trans h2.symm)
        rfl
  rw [found]
  simp [h3]

/-- The negative of the negative is the connection itself. -/
theorem negative_involutive {P : List (List Connection)} (hP : Perimeters P) (dbg : Bool) {i : ℕ} {c : Connection}
    (hc : OnPerimeter P i c) : (negative dbg P i c).bind (fun d => negative dbg P d.1 d.2) = .ok (i, c) := by
  obtain ⟨j, d, h1, h2, h3, -⟩ := negative_correct hP dbg hc
  obtain ⟨k, e, g1, g2, g3, -⟩ := negative_correct hP dbg h2
  rw [h1]
  change negative dbg P j d = _
  rw [g1]
  rw [h3, neg_neg'] at g3
  obtain ⟨rfl, rfl⟩ := hP.once k i e c g2 hc g3
  rfl

/-- A connection is on the boundary if and only if it is vertical and its negative is on the perimeter of another component. -/
theorem boundary_correct {P : List (List Connection)} (hP : Perimeters P) (dbg : Bool) {i : ℕ} {c : Connection}
    (hc : OnPerimeter P i c) : ∃ b, boundary dbg P i c = .ok b ∧
      (b = true ↔ VerticalKind c.kind ∧ ∃ j d, OnPerimeter P j d ∧ d.key = neg c.key ∧ j ≠ i) := by
  unfold boundary
  split
  · rename_i hv
    obtain ⟨j, d, h1, h2, h3, -⟩ := negative_correct hP dbg hc
    rw [h1]
    refine ⟨_, rfl, ?_⟩
    rw [decide_eq_true_eq]
    constructor
    · exact fun h => ⟨vertical_iff.1 hv, j, d, h2, h3, h⟩
    · rintro ⟨-, k, e, g1, g2, g3⟩
      obtain ⟨rfl, -⟩ := hP.once k j e d g1 h2 (g2.trans h3.symm)
      exact g3
  · rename_i hv
    exact ⟨false, rfl, by simp [← vertical_iff, hv]⟩

theorem nextFrom_correct (dbg : Bool) (first : Connection) : ∀ {p : List Connection} {n : ℕ} (hn : n < p.length),
    (p.map Connection.key).Nodup → nextFrom dbg p[n] first p = .ok (p[n + 1]?.getD first)
  | [], _, hn, _ => by simp at hn
  | x :: p, 0, _, _ => by
    unfold nextFrom
    rw [if_pos (by rfl)]
    cases p <;> rfl
  | x :: p, n + 1, hn, h => by
    rw [List.map_cons, List.nodup_cons] at h
    unfold nextFrom
    have hn' : n < p.length := by simpa using hn
    rw [if_neg, List.getElem_cons_succ, nextFrom_correct dbg first hn' h.2]
    · rfl
    · intro k
      exact h.1 (List.mem_map.2 ⟨p[n], List.getElem_mem hn', k.symm⟩)

theorem previousFrom_correct (dbg : Bool) : ∀ {previous : Connection} {p : List Connection} {n : ℕ} (hn : n < p.length),
    (p.map Connection.key).Nodup → previousFrom dbg p[n] previous p = .ok ((previous :: p)[n]'(by simp; omega))
  | _, [], _, hn, _ => by simp at hn
  | _, x :: p, 0, _, _ => by
    unfold previousFrom
    rw [if_pos (by rfl)]
    rfl
  | _, x :: p, n + 1, hn, h => by
    rw [List.map_cons, List.nodup_cons] at h
    unfold previousFrom
    have hn' : n < p.length := by simpa using hn
    rw [if_neg, List.getElem_cons_succ, previousFrom_correct dbg hn' h.2]
    · rfl
    · intro k
      exact h.1 (List.mem_map.2 ⟨p[n], List.getElem_mem hn', k.symm⟩)

/-- Connections are followed by the next connection on the perimeter, cyclically. -/
theorem next_correct (dbg : Bool) {p : List Connection} (hp : (p.map Connection.key).Nodup) {n : ℕ} (hn : n < p.length) :
    nextInPerimeter dbg p p[n] = .ok (p[(n + 1) % p.length]'(Nat.mod_lt _ (by omega))) := by
  cases p with
  | nil => simp at hn
  | cons x p =>
    unfold nextInPerimeter
    dsimp only
    rw [nextFrom_correct dbg x hn hp]
    congr 1
    by_cases h : n + 1 < (x :: p).length
    · simp only [Nat.mod_eq_of_lt h, List.getElem?_eq_getElem h, Option.getD_some]
    · have h' : n + 1 = (x :: p).length := by omega
      simp only [h', Nat.mod_self, List.getElem?_length, Option.getD_none, List.getElem_cons_zero]

/-- Connections are preceded by the previous connection on the perimeter, cyclically. -/
theorem previous_correct (dbg : Bool) {p : List Connection} (hp : (p.map Connection.key).Nodup) {n : ℕ} (hn : n < p.length) :
    previousInPerimeter dbg p p[n] = .ok (p[(n + (p.length - 1)) % p.length]'(Nat.mod_lt _ (by omega))) := by
  have hne : p ≠ [] := fun h => by simp [h] at hn
  unfold previousInPerimeter
  rw [List.getLast?_eq_getLast_of_ne_nil hne]
  dsimp only
  rw [previousFrom_correct dbg hn hp]
  congr 1
  cases n with
  | zero =>
    simp only [List.getElem_cons_zero, zero_add, Nat.mod_eq_of_lt (show p.length - 1 < p.length by omega), List.getLast_eq_getElem]
  | succ n =>
    have : (n + 1 + (p.length - 1)) % p.length = n := by
      rw [show n + 1 + (p.length - 1) = n + p.length by omega, Nat.add_mod_right, Nat.mod_eq_of_lt (by omega)]
    simp only [this, List.getElem_cons_succ]

/-- The previous connection of the next connection is the connection itself, and vice versa. -/
theorem next_previous (dbg : Bool) {p : List Connection} (hp : (p.map Connection.key).Nodup) {c : Connection} (hc : c ∈ p) :
    (nextInPerimeter dbg p c).bind (previousInPerimeter dbg p) = .ok c ∧
    (previousInPerimeter dbg p c).bind (nextInPerimeter dbg p) = .ok c := by
  obtain ⟨n, hn, rfl⟩ := List.getElem_of_mem hc
  rw [next_correct dbg hp hn, previous_correct dbg hp hn]
  refine ⟨?_, ?_⟩
  · change previousInPerimeter dbg p _ = _
    rw [previous_correct dbg hp]
    congr 2
    by_cases h : n + 1 < p.length
    · rw [Nat.mod_eq_of_lt h, show n + 1 + (p.length - 1) = n + p.length by omega, Nat.add_mod_right, Nat.mod_eq_of_lt hn]
    · rw [show n + 1 = p.length by omega, Nat.mod_self, zero_add, Nat.mod_eq_of_lt (by omega)]
      omega
  · change nextInPerimeter dbg p _ = _
    rw [next_correct dbg hp]
    congr 2
    rw [Nat.mod_add_mod, show n + (p.length - 1) + 1 = n + p.length by omega, Nat.add_mod_right, Nat.mod_eq_of_lt hn]

/-- A connection that is not on the perimeter has no successor. -/
theorem next_foreign (dbg : Bool) {p : List Connection} {c : Connection} (hc : ∀ d ∈ p, d.key ≠ c.key) :
    nextInPerimeter dbg p c = .error (if dbg then .logicError else .undefined) ∧
    previousInPerimeter dbg p c = .error (if dbg then .logicError else .undefined) := by
  have h1 : ∀ first, nextFrom dbg c first p = .error (if dbg then .logicError else .undefined) := by
    intro first
    induction p with
    | nil => rfl
    | cons x p ih =>
      unfold nextFrom
      rw [if_neg (hc x (by simp))]
      exact ih fun d hd => hc d (by simp [hd])
  have h2 : ∀ previous, previousFrom dbg c previous p = .error (if dbg then .logicError else .undefined) := by
    clear h1
    induction p with
    | nil => intro _; rfl
    | cons x p ih =>
      intro _
      unfold previousFrom
      rw [if_neg (hc x (by simp))]
      exact ih (fun d hd => hc d (by simp [hd])) x
  constructor
  · unfold nextInPerimeter
    split
    · rfl
    · exact h1 _
  · unfold previousInPerimeter
    split
    · rfl
    · exact h2 _

/-! ### Two cylinders -/

/-- The perimeters of two cylinders that are glued along their vertical boundaries; the first cylinder has two more vertical
connections that are glued to each other. -/
def cylinders : List (List Connection) :=
  [[⟨0, .bottom⟩, ⟨2, .parallel⟩, ⟨4, .parallel⟩, ⟨1, .top⟩, ⟨7, .antiparallel⟩, ⟨5, .antiparallel⟩],
    [⟨8, .bottom⟩, ⟨6, .parallel⟩, ⟨9, .top⟩, ⟨3, .antiparallel⟩]]

theorem cylinders_iff {i : ℕ} {c : Connection} : OnPerimeter cylinders i c ↔
    (i, c) ∈ ([(0, ⟨0, .bottom⟩), (0, ⟨2, .parallel⟩), (0, ⟨4, .parallel⟩), (0, ⟨1, .top⟩), (0, ⟨7, .antiparallel⟩), (0, ⟨5, .antiparallel⟩),
      (1, ⟨8, .bottom⟩), (1, ⟨6, .parallel⟩), (1, ⟨9, .top⟩), (1, ⟨3, .antiparallel⟩)] : List (ℕ × Connection)) := by
  unfold OnPerimeter cylinders
  rcases i with _ | _ | i <;> simp

theorem cylinders_perimeters : Perimeters cylinders := by
  refine ⟨by decide, ?_, ?_⟩
  · intro i j c d hc hd h
    rw [cylinders_iff] at hc hd
    have : ∀ x ∈ ([(0, ⟨0, .bottom⟩), (0, ⟨2, .parallel⟩), (0, ⟨4, .parallel⟩), (0, ⟨1, .top⟩), (0, ⟨7, .antiparallel⟩), (0, ⟨5, .antiparallel⟩),
      (1, ⟨8, .bottom⟩), (1, ⟨6, .parallel⟩), (1, ⟨9, .top⟩), (1, ⟨3, .antiparallel⟩)] : List (ℕ × Connection)),
      ∀ y ∈ ([(0, ⟨0, .bottom⟩), (0, ⟨2, .parallel⟩), (0, ⟨4, .parallel⟩), (0, ⟨1, .top⟩), (0, ⟨7, .antiparallel⟩), (0, ⟨5, .antiparallel⟩),
      (1, ⟨8, .bottom⟩), (1, ⟨6, .parallel⟩), (1, ⟨9, .top⟩), (1, ⟨3, .antiparallel⟩)] : List (ℕ × Connection)),
      x.2.key = y.2.key → x.1 = y.1 ∧ x.2 = y.2 := by decide +kernel
    exact this _ hc _ hd h
  · intro i c hc
    rw [cylinders_iff] at hc
    have : ∀ x ∈ ([(0, ⟨0, .bottom⟩), (0, ⟨2, .parallel⟩), (0, ⟨4, .parallel⟩), (0, ⟨1, .top⟩), (0, ⟨7, .antiparallel⟩), (0, ⟨5, .antiparallel⟩),
      (1, ⟨8, .bottom⟩), (1, ⟨6, .parallel⟩), (1, ⟨9, .top⟩), (1, ⟨3, .antiparallel⟩)] : List (ℕ × Connection)),
      ∃ y ∈ ([(0, ⟨0, .bottom⟩), (0, ⟨2, .parallel⟩), (0, ⟨4, .parallel⟩), (0, ⟨1, .top⟩), (0, ⟨7, .antiparallel⟩), (0, ⟨5, .antiparallel⟩),
      (1, ⟨8, .bottom⟩), (1, ⟨6, .parallel⟩), (1, ⟨9, .top⟩), (1, ⟨3, .antiparallel⟩)] : List (ℕ × Connection)),
      y.2.key = neg x.2.key ∧ OppositeKinds x.2.kind y.2.kind ∧ (¬VerticalKind x.2.kind → y.1 = x.1) := by decide +kernel
    obtain ⟨y, h1, h2⟩ := this _ hc
    exact ⟨y.1, y.2, cylinders_iff.2 h1, h2⟩

example : OnPerimeter cylinders 0 ⟨2, .parallel⟩ ∧ OnPerimeter cylinders 1 ⟨3, .antiparallel⟩ :=
  ⟨cylinders_iff.2 (by decide), cylinders_iff.2 (by decide)⟩

example : (match negative true cylinders 0 ⟨2, .parallel⟩ with | .ok d => d = (1, ⟨3, .antiparallel⟩) | .error _ => False) ∧
    (match boundary true cylinders 0 ⟨2, .parallel⟩ with | .ok b => b = true | .error _ => False) ∧
    (match boundary true cylinders 0 ⟨4, .parallel⟩ with | .ok b => b = false | .error _ => False) := by
  refine ⟨?_, ?_, ?_⟩ <;> rfl

end Verif.C152
