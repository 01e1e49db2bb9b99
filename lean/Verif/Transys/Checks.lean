import Verif.Transys.GraphProps
import Verif.Transys.GraphQueryProps
import Verif.Transys.ShortestPathProps
import Verif.Transys.CostProps
import Verif.Transys.MachineRunProps
import Verif.Transys.MachineConvProps
import Verif.Transys.MachineSimProps
import Verif.Transys.DumpsmachProps
import Verif.Transys.ProductsProps
import Verif.Transys.BaTsProductProps
import Verif.Transys.CompositionsProps
import Verif.Transys.SimuProps
import Verif.Transys.AutomataProps
import Verif.Transys.ConstructProps

/-!
# Concrete uses of the theorems on transition systems and machines

Each `example` applies a theorem of the folder `Verif/Transys` to a concrete system, with a proof of
every hypothesis: no theorem here holds only because its hypotheses are never met.
-/

namespace Tulip

/-! ## Graphs -/
section Graphs
open LGraph

/-- A graph with two labels on its transitions and three states. -/
def checkOps : List (GOp Nat Nat) :=
  [.addNodesFrom [(0, []), (1, []), (2, [])] true, .addEdge 0 1 [("a", 1)] true, .addEdge 0 1 [("a", 2)] true,
    .addEdge 1 2 [("a", 3)] true, .addEdge 1 0 [("a", 4)] true, .addInitialFrom [0, 2]]

def checkTypes : Dict String (LabelType Nat) := [("a", ⟨fun x => x < 5, some fun v w => decide (v ≤ w)⟩)]

def checkGraph : LGraph Nat Nat := run [] [] checkTypes [] checkOps

theorem checkOps_wf : ∀ op ∈ checkOps, op.Wf := by
  intro op hop; fin_cases hop <;> simp [GOp.Wf, Dict.Wf, Dict.keys]

theorem checkOps_checked : ∀ op ∈ checkOps, op.Checked := by
  intro op hop; fin_cases hop <;> simp [GOp.Checked]

theorem checkGraph_ok : checkGraph.Ok ∧ checkGraph.KeysTyped :=
  run_keysTyped _ _ _ _ _ checkOps_wf checkOps_checked

example : checkGraph.edges.length = 4 ∧ checkGraph.initial = [0, 2] := by decide +kernel

example := graph_invariant [] [] checkTypes [] checkOps checkOps_wf
example := initial_states [] [] checkTypes [] checkOps checkOps_wf

theorem checkGraph_types : checkGraph.edgeTypes = checkTypes ∧ checkGraph.edgeDefaults = [] := ⟨rfl, rfl⟩

example := addEdge_spec checkGraph 0 1 [("a", 3)] (by rw [checkGraph_types.2]; simp [Typed])
  (by rw [checkGraph_types.2]; simp [Dict.has])
example := findEdges_spec checkGraph_ok.1 checkGraph_ok.2 (some [0]) (some [1, 2]) [("a", 2)]
example := findStates_spec checkGraph_ok.1 checkGraph_ok.2 (some [0]) []
example := post_pre_dual checkGraph 0 1 (by decide +kernel) (by decide +kernel)
example := removeDeadends_spec checkGraph_ok.1 (order := List.reverse) List.reverse_perm
example := (removeState_spec checkGraph_ok.1 2).1 (by decide +kernel)
example := addAdj_rejects checkGraph 2 2 [(0, 1)] [0, 7] [] (.inr ⟨7, by simp, by decide +kernel⟩)

example := addAdj_spec (g := checkGraph) checkGraph_ok.1 (by rw [checkGraph_types.2]; simp [Dict.Wf, Dict.keys])
  (by rw [checkGraph_types.2]; simp [Typed]) (by rw [checkGraph_types.2]; simp [Dict.has])
  (n := 2) (entries := [(0, 1), (1, 1)]) (states := [2, 1]) (attr := [("a", 4)]) (by decide +kernel) (by decide)
  (by decide) (by decide) (by simp [Dict.Wf, Dict.keys])
  (by
    rw [checkGraph_types.1]
    intro p hp t ht
    obtain rfl : p = ("a", 4) := by simpa using hp
    cases ht; decide)
  (by
    rw [checkGraph_types.1]
    intro k hk
    simpa [Dict.has, checkTypes] using hk)
  (by decide +kernel) (a := [("a", 4)]) (by intro k; rw [checkGraph_types.2]; simp [Dict.get?])

end Graphs

/-! ## Shortest paths -/

theorem sampleEdges_nonneg : ∀ e ∈ sampleEdges, 0 ≤ e.2.2 := fun _ _ => Nat.zero_le _

example := fun s t => dijkstra_correct sampleEdges s t (· == 0) firstLeast heapPop_firstLeast sampleEdges_nonneg
example := fun s t =>
  dijkstraMany_correct sampleEdges s t (· == 0) firstLeast heapPop_firstLeast sampleEdges_nonneg
example := dijkstra_vector (α := Int) (n := 2) [(0, 1, ⟨[1, -4], rfl⟩), (0, 2, ⟨[0, 3], rfl⟩), (2, 1, ⟨[0, 3], rfl⟩)]
  [0] (· == 1) (fun _ => false) firstLeast heapPop_firstLeast
  (by intro e he; fin_cases he <;> rfl)
example := VectorCost.lt_linear (α := Int) 2 [0, 1] [0, 3] [1, -5] rfl rfl rfl
example := VectorCost.comparison_correct (α := Int) [0, 1] (.num 3) rfl
example := VectorCost.comparison_equal (α := Int) [0, 1] (.vec [2, 3]) rfl
example := VectorCost.length_mismatch (α := Int) [0, 1] [2] (by decide)
example := VectorCost.add_correct (α := Int) [0, 1] (.vec [2, 3]) rfl

/-! ## Machines -/
section Machines
open Mach

theorem delay'_same : delay'.graph.edges = delay.graph.edges ∧ delay'.graph.nodes = delay.graph.nodes ∧
    delay'.inputs = delay.inputs ∧ delay'.outputs = delay.outputs := by decide +kernel

theorem delay'_det : Det delay' := by
  have h := delay_ok.2.1
  unfold Det at h ⊢
  rw [delay'_same.1, delay'_same.2.2.1]; exact h

theorem delay'_out : OutComplete delay' := by
  have h := delay_ok.2.2.1
  unfold OutComplete at h ⊢
  rw [delay'_same.1, delay'_same.2.2.2]; exact h

theorem delay'_in : InComplete delay' := by
  have h := delay_ok.2.2.2
  unfold InComplete Step LGraph.hasNode at h ⊢
  rw [delay'_same.1, delay'_same.2.1, delay'_same.2.2.1, delay'_same.2.2.2]; exact h

theorem delay_ports (k : String) : delay.inputs.has k = Dict.has [("in", [1, 0])] k := by simp [delay, Dict.has]

/-- Two steps of the machine. -/
theorem delay_exec : Exec delay "a"
    [(restrict delay.inputs [("in", 1), ("out", 0)], restrict delay.outputs [("in", 1), ("out", 0)]),
      (restrict delay.inputs [("in", 0), ("out", 1)], restrict delay.outputs [("in", 0), ("out", 1)])] ["b", "a"] :=
  .cons ⟨_, by decide +kernel, rfl, rfl⟩ (.cons ⟨_, by decide +kernel, rfl, rfl⟩ (.nil _))

theorem delay_inputs (x y : Nat) :
    restrict delay.inputs [("in", x), ("out", y)] = fun k => if k = "in" then some x else none := by
  funext k
  by_cases hk : k = "in"
  · subst hk; rfl
  · simp [restrict, delay, Dict.has, hk, Ne.symm hk]

example := reaction_spec delay_ok.1 "a" [("in", 1)] true
example := step_reaction delay_ok.1 delay_ok.2.1 (s := "a") (t := "b") (ins := [("in", 1)])
  (o := restrict delay.outputs [("in", 1), ("out", 0)])
  ⟨[("in", 1), ("out", 0)], by decide +kernel, by
    rw [delay_inputs]; funext k; simp only [Dict.get?, List.find?]; by_cases hk : k = "in"
    · subst hk; rfl
    · simp [hk, beq_false_of_ne (Ne.symm hk)], rfl⟩
example := guidedRun_complete delay_ok.1 delay_ok.2.1 delay_ok.2.2.1 none [("in", [1, 0])] (s := "a") (n := 2)
  (.inr ⟨rfl, by decide +kernel⟩) (fun k hk => by rw [← delay_ports]; exact hk) (by simp) (by simp) delay_exec
  (by
    simp only [List.map_cons, List.map_nil, delay_inputs]
    congr 1
    · funext k; by_cases hk : k = "in"
      · subst hk; rfl
      · simp [valAt, Dict.get?, hk, beq_false_of_ne (Ne.symm hk)]
    · congr 1
      funext k; by_cases hk : k = "in"
      · subst hk; rfl
      · simp [valAt, Dict.get?, hk, beq_false_of_ne (Ne.symm hk)])
example := guidedRun_total (m := delay') delay'_ok.1.graph rfl delay'_det delay'_out delay'_in none [("in", [1, 0])]
  (s := "a") (n := 2) (.inr ⟨rfl, by decide +kernel⟩) (by decide +kernel) (by simp) (by simp [Dict.Wf, Dict.keys])
  (by rw [delay'_same.2.2.1]; exact delay_ports)
  (by
    intro k l vs h1 h2
    by_cases hk : k = "in"
    · subst hk; cases h1; cases h2; decide
    · simp [Dict.get?, beq_false_of_ne (Ne.symm hk)] at h1)
  (by simp)
example := mealy2moore_spec delay'_ok.1 delay'_ok.2.1 (by decide +kernel) delay'_ok.2.2.2.2 (pick := fun Q => Q.headD 0)
  (by intro Q hQ; cases Q with
    | nil => exact absurd rfl hQ
    | cons a l => simp)
example := stripPorts_spec delay'_ok.1 ["out"] delay'_ok.2.2.1

/-- A machine with two transitions between the same states. -/
def flip : Machine String Nat where
  graph := LGraph.run [] [] (Dict.update (Dict.update [] (typesOf [("in", [0, 1])])) (typesOf [("out", [0, 1])])) []
    [.addNodesFrom [("a", [])] true, .addInitialFrom ["a"],
     .addEdge "a" "a" [("in", 0), ("out", 1)] true, .addEdge "a" "a" [("in", 1), ("out", 0)] true]
  inputs := [("in", [0, 1])]
  outputs := [("out", [0, 1])]

theorem flip_ok : MealyOk flip := by
  obtain ⟨h1, h2, h3, h4⟩ := LGraph.run_ok (ν := String) (V := Nat) []
    [] (Dict.update (Dict.update [] (typesOf [("in", [0, 1])])) (typesOf [("out", [0, 1])])) []
    (ops := [.addNodesFrom [("a", [])] true, .addInitialFrom ["a"],
     .addEdge "a" "a" [("in", 0), ("out", 1)] true, .addEdge "a" "a" [("in", 1), ("out", 0)] true])
    (by simp [LGraph.GOp.Wf, Dict.Wf, Dict.keys])
  have hkeys : ∀ k, (flip.inputs.has k = true ↔ k = "in") ∧ (flip.outputs.has k = true ↔ k = "out") := by
    intro k
    constructor <;> rw [← LGraph.mem_keys_iff_has] <;> simp [flip, Dict.keys]
  refine ⟨h4, h2, h3, by unfold Dict.Wf; decide +kernel, by unfold Dict.Wf; decide +kernel, fun k hk => ?_,
    fun e he k hk => ?_⟩
  · rw [(hkeys k).1] at hk; subst hk; decide +kernel
  · rw [(hkeys k).1, (hkeys k).2]
    have : ∀ e ∈ flip.graph.edges, e.2.2.keys = ["in", "out"] := by decide +kernel
    rw [← LGraph.mem_keys_iff_has, this e he] at hk
    simpa using hk

example := stripPorts_raises flip_ok ["in", "out"] (by unfold NoMix; decide +kernel)
example (p : Prog Nat) (hp : pythonCase delay' "a" = .ok p) :=
  move_spec delay'_ok.1.graph delay'_ok.2.1 delay'_det hp (s := "b") (by decide +kernel) (args := [("in", 1)])
    (by intro k; rw [delay'_same.2.2.1, delay_ports]; simp [Dict.has])
example := pythonCase_error (m := delay') (start := "c") (by decide +kernel)

end Machines

/-! ## Products and compositions -/
section Products

theorem headD_mem {α : Type} (d : α) (Q : List α) (h : Q ≠ []) : Q.headD d ∈ Q := by
  cases Q with
  | nil => exact absurd rfl h
  | cons a l => simp

open Prod' in
example := tsBaSyncProd_spec exampleArgs_ok (headD_mem (0, 0))
open Prod' in
example (st) (h : tsBaSyncProd exampleArgs (fun Q => Q.headD (0, 0)) = .ok st) :=
  tsBaSyncProd_language exampleArgs_ok (headD_mem (0, 0)) h (fun i => i % 2)

open Prod' in
theorem exampleNamed_letters : ∀ s v t, Label exampleNamed s v →
    exampleNamed.ba.edgeTypes.get? "letter" = some t → t.contains v = true := by
  intro s v t _ ht
  have : exampleBa.edgeTypes.get? "letter" = some { contains := fun _ => true } := rfl
  rw [show exampleNamed.ba = exampleBa from rfl, this] at ht
  cases ht; rfl

open Prod' in
example := baTsSyncProd_spec exampleNamed_ok exampleNamed_apart (by decide +kernel) exampleNamed_letters
  (headD_mem ("", 0))
open Prod' in
example (g acc) (h : baTsSyncProd exampleNamed (fun Q => Q.headD ("", 0)) = .ok (g, acc)) :=
  baTsSyncProd_language exampleNamed_ok exampleNamed_apart (by decide +kernel) exampleNamed_letters
    (headD_mem ("", 0)) h (fun i => if i % 2 = 0 then 2 else 1)

open Comp in
example := sync_spec (ms := [coin, robot]) (by simp) (by simp [coin_ok.1, robot_ok.1])
  (by simp [coin_ok.2.1, robot_ok.2.1]) (.inr (by simp [coin, robot]))

open Simu in
example := simuAbstract_bi exampleTs_ok
open Simu in
example := simuAbstract_dual exampleTs_ok
open Simu in
example := simuAbstract_paths exampleTs_ok true

end Products

/-! ## Automata -/
section Automata
open Aut

theorem sample_reach : Reach [] [] [] [] sample :=
  .call _ (.call _ (.call _ .new (by simp [FOp.Ok, Plain, LGraph.GOp.Wf])) (by simp [FOp.Ok, Plain, LGraph.GOp.Wf])) trivial

example := reach_inv sample_reach
example := removeState_accepting (reach_inv sample_reach) (n := 1) (by decide +kernel)
example := removeState_other (a := sample) (n := 0) (by decide +kernel)

theorem rabinSample_reach : RReach [] [] [] [] rabinSample :=
  .call _ (.call _ (.call _ .new (by simp [Plain, LGraph.GOp.Wf])) (by simp)) (by simp)

example := rabin_inv rabinSample_reach
example := pairRemove_spec rabinSample [1, 3] [] (by rintro n (h | h) <;> fin_cases h <;> decide +kernel)
example := pairAddStates_spec rabinSample (-1) 1 (by decide +kernel) [2] [1]
  (by rintro n (h | h) <;> fin_cases h <;> decide +kernel)
example := pairAddStates_index rabinSample 2 (by decide +kernel) [2] [1]
example := goodRemove_spec rabinSample (-1) 1 ([3, 1], []) (by decide +kernel) (by decide +kernel) 3
example := badRemove_spec rabinSample 0 0 ([1], [2]) (by decide +kernel) (by decide +kernel) 2

end Automata

end Tulip
