import Verif.Abstract.DiscretizeDualProps
import Verif.Abstract.DiscretizeTermProps
import Verif.Abstract.TsProps
import Verif.Abstract.FeasibleProps
import Verif.Abstract.ParallelProps
import Verif.Abstract.Prop2partProps

/-!
# Concrete uses of the theorems on abstractions

Each `example` applies a theorem of the folder `Verif/Abstract` to the concrete systems of the
examples there, with a proof of every hypothesis. Where a result of the function is a hypothesis, the
`example`s of the other modules show that there is one.
-/

namespace Tulip
namespace Abs

/-! ## The strip of integers -/

example := fun fuel S (h : discretizeBi stripOps stripPart stripAdj [] fuel = some (.ok S)) =>
  discretizeBi_sound strip_lawful stripOps_sound stripPart_preserving (fun h => nomatch h) h

example := fun fuel S (h : discretizeBi stripOps stripPart stripAdj [] fuel = some (.ok S)) =>
  discretizeBi_complete stripOps_touch (fun _ _ => rfl) (fun _ _ _ _ _ => rfl) (fun _ _ _ _ _ _ _ => rfl) h

example := discretizeBi_terminates stripOps_volume (by norm_num [stripOps]) stripPart stripAdj []

example := fun fuel S (h : discretizeBi stripOps stripPart stripAdj [] fuel = some (.ok S)) =>
  discretizeBi_ts strip_lawful stripOps_sound stripPart_preserving (fun h => nomatch h) h

example := fun fuel S (h : discretizeDual stripOps stripPart stripAdj [] fuel = some (.ok S)) =>
  discretizeDual_sound strip_lawful stripOps_sound stripOps_dual (fun h => nomatch h) h

example := ppp2ts_spec 2 stripAdj stripPart ["a", "b"] (by decide) (by decide)
example := partToTs_spec (name := fun i => i * 2) (fun i j h => by omega) 2 stripAdj stripPart ["a", "b"] (by decide)
  (by decide)

/-! ## The walk on the integers -/

example := (solveFixed_sound walkSolver_sound [0, 1, 2, 3] [4, 5] 0 3 (some [2, 3])).2 (by decide)
example := (attractor_sound walkSolver_sound [0, 1, 2, 3] [4, 5] 0 3 none).2 (by decide)
example := solveBounded_sound walkSolver_sound [0, 1, 2, 3] [4, 5] 0 3
example := fun h => isFeasible_sound walkSolver_sound (p1 := [4, 5]) (p2 := [6, 7]) (sys := 0) (N := 3)
  (closedLoop := true) (useAll := false) (trans := none) (by decide) h
example := solveFixed_exact walkSolver_exact (fun _ => ⟨(), trivial⟩) [0, 1, 2, 3] [4, 5] 0 3 none (by decide)
example := volumes_spec walkSolver_sound.sorted_perm [0, 1] 3
example := solveOpenLoop_exact (S := walkSolver) (den := fun l => {x | x ∈ l}) (fun a b => by ext x; simp [walkSolver])
  (by simp [walkSolver]) [0, 1, 2, 3] [4, 5] 0 1 none 1 (by decide) (by decide)

/-! ## The line with two modes -/

/-- What holds of both modes holds of both entries. -/
theorem parPairs {Q : (Act × Act) × ModeAbs (List (Int × Bool)) → Prop} (h : ∀ m ∈ [parM1, parM2], Q (m, parAb m)) :
    ∀ q ∈ (parM1, parAb parM1) :: [(parM2, parAb parM2)], Q q := by
  intro q hq
  simp only [List.mem_cons, List.not_mem_nil, or_false] at hq
  rcases hq with rfl | rfl
  · exact h _ (by simp)
  · exact h _ (by simp)

example := mergePartitions_spec cells_lawful lineMerge_sound (m0 := parM1) (ab0 := parAb parM1)
  (rest := [(parM2, parAb parM2)]) (by unfold Dict.Wf; decide +kernel)
  (parPairs fun m hm => parAb_good.preserving m hm) (parPairs fun m hm => parAb_good.labeled m hm)
  (parPairs fun m hm => parPairs fun m' hm' => parAb_good.same m hm m' hm') (List.Perm.refl _)

example := mergePartitions_rejects lineMerge [(parM1, lineMode 1), (parM2, { lineMode 1 with
    ppp := ⟨line 0 3, [⟨line 0 3, []⟩], []⟩ })] [parM2]
  ⟨(parM1, lineMode 1), by simp, _, List.mem_cons_of_mem _ (List.mem_singleton_self _), .inl (by decide +kernel)⟩

end Abs
end Tulip
