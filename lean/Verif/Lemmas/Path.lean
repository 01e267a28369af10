import Verif.Spec.Path
import Verif.Spec.FlatTriangulation
import Verif.Lemmas.PointCode
import Mathlib.Algebra.BigOperators.Group.Finset.Basic
import Mathlib.Algebra.BigOperators.Group.List.Basic

/-!
# Lemmas about saddle connections and paths
-/

namespace Verif

open Spec

variable {T : Type} [CommRing T] [LinearOrder T] [IsStrictOrderedRing T]

namespace FlatTri

theorem _root_.Verif.Vec.sum_map_neg {α : Type} (f : α → Vec T) (l : List α) : (l.map fun i => -f i).sum = -(l.map f).sum := by
  induction l with
  | nil => simp
  | cons x l ih => rw [List.map_cons, List.map_cons, List.sum_cons, List.sum_cons, ih, neg_add]

theorem chainVector_eq (S : FlatTri T) (c : ℕ → ℤ) :
    S.chainVector c = ((List.range (S.tri.size / 2)).map fun i => ((c i : ℤ) : T) • S.vec (2 * i)).sum := by
  unfold chainVector
  rw [List.sum_eq_foldl, List.foldl_map]

theorem chainVector_neg (S : FlatTri T) (c : ℕ → ℤ) : S.chainVector (fun i => -c i) = -S.chainVector c := by
  rw [chainVector_eq, chainVector_eq, ← Vec.sum_map_neg]
  congr 1
  apply List.map_congr_left
  intro i _
  rw [Int.cast_neg, neg_smul]

theorem chainVector_bump {S : FlatTri T} (hev : S.tri.size % 2 = 0) (hodd : ∀ e < S.tri.size, S.vec (neg e) = -S.vec e)
    (c : ℕ → ℤ) {e : HE} (he : e < S.tri.size) : S.chainVector (Chain.bump c e) = S.chainVector c + S.vec e := by
  have hmem : e / 2 < S.tri.size / 2 := by omega
  rw [chainVector_eq, chainVector_eq]
  have key : ∀ n, ((List.range n).map fun i => ((Chain.bump c e i : ℤ) : T) • S.vec (2 * i)).sum =
      ((List.range n).map fun i => ((c i : ℤ) : T) • S.vec (2 * i)).sum + if e / 2 < n then S.vec e else 0 := by
    intro n
    induction n with
    | zero => simp
    | succ n ih =>
      rw [List.range_succ, List.map_append, List.map_append, List.sum_append, List.sum_append, ih]
      simp only [List.map_cons, List.map_nil, List.sum_cons, List.sum_nil, add_zero]
      unfold Chain.bump
      by_cases hn : e / 2 = n
      · subst hn
        rw [Function.update_self, if_neg (lt_irrefl _), if_pos (Nat.lt_succ_self _)]
        by_cases h2 : e = 2 * (e / 2)
        · rw [if_pos h2]
          have : S.vec (2 * (e / 2)) = S.vec e := by rw [← h2]
          rw [this]
          push_cast
          rw [add_smul, one_smul]
          abel
        · rw [if_neg h2]
          have h3 : 2 * (e / 2) = neg e := by
            have := neg_def e
            have h4 : e % 2 = 1 := by omega
            rw [this]
            split_ifs <;> omega
          have : S.vec (2 * (e / 2)) = -S.vec e := by rw [h3, hodd e he]
          rw [this]
          push_cast
          rw [add_smul, neg_smul, one_smul]
          abel
      · rw [Function.update_of_ne (Ne.symm hn)]
        by_cases hlt : e / 2 < n
        · rw [if_pos hlt, if_pos (by omega)]
          abel
        · rw [if_neg hlt, if_neg (by omega)]
          abel
  rw [key, if_pos hmem]

theorem chainVector_zero (S : FlatTri T) : S.chainVector (fun _ => 0) = 0 := by
  rw [chainVector_eq]
  simp

end FlatTri

theorem connected_iff {S : FlatTri T} {c d : Saddle} : S.connected c d = true ↔
    ∃ v w, S.tri.source c.target = some v ∧ S.tri.source d.source = some w ∧ v.min = w.min := by
  unfold FlatTri.connected FlatTri.isSource FlatTri.sameVertex
  cases h1 : S.tri.source c.target with
  | none => simp
  | some v =>
    cases h2 : S.tri.source d.source with
    | none => simp
    | some w => simp

theorem connected_neg {S : FlatTri T} {c d : Saddle} : S.connected d.neg c.neg = S.connected c d := by
  rw [Bool.eq_iff_iff, connected_iff, connected_iff]
  constructor
  · rintro ⟨v, w, h1, h2, h3⟩
    exact ⟨w, v, h2, h1, h3.symm⟩
  · rintro ⟨v, w, h1, h2, h3⟩
    exact ⟨w, v, h2, h1, h3.symm⟩

theorem all_zip {α : Type} (r : α → α → Bool) (l : List α) :
    (l.zip l.tail).all (fun cd => r cd.1 cd.2) = true ↔ l.IsChain fun c d => r c d = true := by
  induction l with
  | nil => simp
  | cons x l ih =>
    cases l with
    | nil => simp
    | cons y l =>
      rw [List.isChain_cons_cons, ← ih]
      simp

theorem makePath_iff {dbg : Bool} {S : FlatTri T} {p : List Saddle} :
    S.makePath dbg p = .ok p ↔ (dbg = true → Connected S p) := by
  unfold FlatTri.makePath Connected
  cases dbg with
  | false => simp
  | true =>
    have := all_zip S.connected p
    simp only [connected_iff] at this
    rw [← this]
    by_cases h : (p.zip p.tail).all (fun cd => S.connected cd.1 cd.2) = true
    · simp [h]
    · simp [h]

theorem Spec.Connected.neg {S : FlatTri T} {p : List Saddle} (h : Connected S p) : Connected S (Path.neg p) := by
  unfold Connected Path.neg at *
  have key : ∀ (q r : List Saddle), q.foldl (fun r c => r ++ [c.neg]) r = r ++ q.map Saddle.neg := by
    intro q
    induction q with
    | nil => simp
    | cons c q ih => intro r; rw [List.foldl_cons, ih]; simp
  rw [key, List.nil_append, List.isChain_map, List.isChain_reverse]
  refine h.imp fun c d hcd => ?_
  obtain ⟨v, w, h1, h2, h3⟩ := hcd
  exact ⟨w, v, h2, h1, h3.symm⟩

namespace Path

theorem neg_eq (p : List Saddle) : neg p = (p.map Saddle.neg).reverse := by
  unfold neg
  have key : ∀ (q r : List Saddle), q.foldl (fun r c => r ++ [c.neg]) r = r ++ q.map Saddle.neg := by
    intro q
    induction q with
    | nil => simp
    | cons c q ih => intro r; rw [List.foldl_cons, ih]; simp
  rw [key, List.nil_append, List.map_reverse]

end Path

namespace Vec

theorem shoelace_cons (o v : Vec T) (l : List (Vec T)) :
    shoelace o (v :: l) = cross o (o + v) + shoelace (o + v) l := rfl

theorem area2_eq (l : List (Vec T)) : area2 l = shoelace 0 l := by
  have key : ∀ (l : List (Vec T)) (o : Vec T) (s : T), (l.foldl (fun (s : Vec T × T) v =>
      let next := s.1 + v
      (next, s.2 + (s.1.x * next.y - s.1.y * next.x))) (o, s)).2 = s + shoelace o l := by
    intro l
    induction l with
    | nil => intro o s; simp [shoelace]
    | cons v l ih =>
      intro o s
      rw [List.foldl_cons, ih]
      rw [shoelace_cons, cross]
      ring
  unfold area2
  rw [key, zero_add]

theorem shoelace_shift (o p : Vec T) (l : List (Vec T)) : shoelace (o + p) l = shoelace p l + cross o l.sum := by
  induction l generalizing p with
  | nil => simp [shoelace]
  | cons v l ih =>
    rw [shoelace_cons, shoelace_cons, show o + p + v = o + (p + v) by abel, ih, List.sum_cons]
    simp only [cross, add_x, add_y]
    ring

theorem shoelace_append (o : Vec T) (l m : List (Vec T)) : shoelace o (l ++ m) = shoelace o l + shoelace (o + l.sum) m := by
  induction l generalizing o with
  | nil => simp [shoelace]
  | cons v l ih =>
    rw [List.cons_append]
    rw [shoelace_cons, shoelace_cons, ih, List.sum_cons, show o + v + l.sum = o + (v + l.sum) by abel]
    ring

theorem shoelace_reverse (l : List (Vec T)) : shoelace 0 (l.map (-·)).reverse = -shoelace 0 l := by
  induction l with
  | nil => simp [shoelace]
  | cons v l ih =>
    rw [List.map_cons, List.reverse_cons, shoelace_append, ih]
    have h1 : ((l.map (-·)).reverse).sum = -l.sum := by
      rw [List.sum_reverse]
      have := Vec.sum_map_neg (fun v : Vec T => v) l
      rwa [List.map_id'] at this
    rw [h1]
    have h2 : shoelace 0 (v :: l) = shoelace 0 l + cross v l.sum := by
      show cross 0 (0 + v) + shoelace (0 + v) l = _
      rw [show (0 : Vec T) + v = v + 0 by abel, shoelace_shift]
      simp [cross]
    rw [h2]
    simp only [shoelace, zero_add, cross, add_x, add_y, neg_x, neg_y]
    ring

end Vec

end Verif
