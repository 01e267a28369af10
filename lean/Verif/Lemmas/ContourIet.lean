import Verif.Lemmas.ContourPerimeter

/-!
# Interval exchange transformations from contours
-/

set_option linter.unusedSectionVars false

namespace Verif.Contour

open Spec Tri FlatTri Vec Vertical Flow

variable {T : Type} [CommRing T] [LinearOrder T] [IsStrictOrderedRing T]
variable {K : Type*} [Field K] [LinearOrder K] [IsStrictOrderedRing K]
variable {S : FlatTri T} {v : Vec T}

/-- The contours of a large half edge. -/
theorem built_of_large (h : S.Shut) (hv : NoVertical S v) {c : List HE} (hc : Part S c) {e : HE} (he : e ∈ c) (hl : IsLarge S v e)
    (hp : 0 < perp S v e) : ∃ mu lu md ld, Built S v ⟨c, e, (lu.map neg).reverse, (ld.map neg).reverse⟩ mu lu md ld := by
  have ht := transverse h hv
  have k4 := hc.lt e he
  have k6 : 0 < perp S (-v) (neg e) := by
    rw [perp_neg]
    simp only
    rw [ht.odd e k4]
    linarith
  obtain ⟨mu, lu, hu⟩ := ht.exists_tree e k4 hp
  obtain ⟨md, ld, hd⟩ := OK.exists_tree ht.reverse (neg e) (h.neg_lt k4) k6
  exact ⟨mu, lu, md, ld, hc, he, hl, hp, hu, hd, rfl, rfl⟩

theorem iet_ok (h : S.Shut) (hv : NoVertical S v) (A : Option (Approx T K)) (dbg : Bool) {d : Component} {mu lu md ld : List HE}
    (b : Built S v d mu lu md ld) (hu : UniqueLarge S v d.halfEdges) :
    lu.Perm d.bottomEdges ∧ ∃ N, ∀ n ≥ N, iet S A dbg v n d.large = some (.ok (lu, d.bottomEdges)) := by
  have ht := transverse h hv
  have n1 := (ht.nodup_tree b.up b.lt).2
  have n2 := (OK.nodup_tree ht.reverse b.down (h.neg_lt b.lt)).2
  have inj : Function.Injective Verif.neg := fun x y hxy => neg_inj'.1 hxy
  have r1 := tree_runs h b.up b.lt
  have r2 := (b.bottom_runs h hv).1
  have nb : d.bottomEdges.Nodup := by rw [b.bottom]; exact List.nodup_reverse.2 (n2.map inj)
  have hperm : lu.Perm d.bottomEdges := by
    rw [List.perm_ext_iff_of_nodup n1 nb]
    intro x
    rw [b.bottom, List.mem_reverse, List.mem_map, ← b.mem_iff (ready h hv) hu x]
    exact ⟨fun hx => ⟨_, hx, neg_neg' x⟩, fun ⟨y, hy, hx⟩ => by rw [← hx, neg_neg']; exact hy⟩
  refine ⟨hperm, ?_⟩
  obtain ⟨N, hN⟩ := makeContour_tree ht A dbg b.up b.lt b.pos
  obtain ⟨N', hN'⟩ := makeContour_tree ht.reverse A dbg b.down (h.neg_lt b.lt) (b.pos' (ready h hv))
  refine ⟨max N N', fun n hn => ?_⟩
  have eb : ld.reverse.map neg = d.bottomEdges := by rw [b.bottom, List.map_reverse]
  have ne : lu ≠ [] := by
    obtain ⟨a, ha, -⟩ := r1.start
    intro hx
    rw [hx] at ha
    cases ha
  unfold iet
  rw [(large_iff h.flat b.lt).2 b.large, hN n (by omega)]
  simp only [Bool.not_true, Bool.false_eq_true, if_false]
  rw [hN' n (by omega)]
  simp only
  rw [eb, if_neg (by rw [not_and_or]; exact .inr (not_not.2 (List.toFinset_eq_of_perm _ _ hperm.symm))), if_neg (not_not.2 hperm),
    if_neg ne, chained_ok h.flat.ver (fun x hx => b.part.lt x (b.mem_up (ready h hv) hx).1) r1.joins,
    chained_ok h.flat.ver (fun x hx => b.part.lt x (b.perimeter_sub (ready h hv) (List.mem_append_left _ hx))) r2.joins]

end Verif.Contour
