import Verif.Abstract.PlotArrows
import Verif.Spec.Compose

/-!
# Model of the pictures of an abstraction of a switched system

`AbstractSwitched.plot`, `AbstractPwa.plot`, `_plot_abstraction` and `plot_mode_partitions` of
`tulip/abstract/discretization.py`. A picture is what is asked to be drawn on one pair of axes: how polytope draws a
partition, and the sizes of fonts, are not modelled.
-/

namespace Tulip
namespace Plot

variable {ν V P : Type} [DecidableEq ν] [DecidableEq V]

/-- A partition: its regions and the matrix `adj`, if there is one. -/
structure Parts (P : Type) where
  regions : List P
  adj : Option (Nat → Nat → Bool)

/-- The attributes `ppp`, `ts` and `ppp2ts` of an abstraction, `discretization.py:119-140`, `:307-332`. -/
structure Abs (ν V P : Type) where
  ppp : Option (Parts P)
  ts : Option (LGraph ν V)
  ppp2ts : List ν

/-- The attributes of `AbstractSwitched` that are drawn; modes are pairs of an action of the environment and an action of
the system, `discretization.py:119-140`. -/
structure Switched (ν V P : Type) where
  common : Abs ν V P
  modes : Dict (V × V) (Abs ν V P)

/-- What is drawn on one pair of axes: a partition, the transition system handed to polytope with it, whether only
transitions between adjacent regions are drawn, the arrows added afterwards, the mode in the title, and whether the axes were
annotated. -/
structure Picture (ν V P : Type) where
  part : Parts P
  trans : Option (LGraph ν V × List ν)
  only : Bool
  arrows : List (P × P) := []
  title : Option (V × V) := none
  annotated : Bool := false

/-- `_plot_abstraction`, `discretization.py:508-535`. -/
def plotAbstraction (ab : Abs ν V P) (showTs only : Bool) : Option (Picture ν V P) :=
  match ab.ppp, ab.ts with
  | some ppp, some ts => some { part := ppp, trans := if showTs then some (ts, ab.ppp2ts) else none, only := only }
  | _, _ => none

/-- `edge_label`, `discretization.py:219-221`. -/
def modeLabel (m : V × V) : Attr V := [("env_actions", m.1), ("sys_actions", m.2)]

/-- The picture of the merged partition for a mode, `discretization.py:217-230`. Without a transition system the method
`transitions.find` is looked up on `None`. -/
def plotMerged (common : Abs ν V P) (ppp : Parts P) (only : Bool) (m : V × V) : Except PyErr (Picture ν V P) :=
  match common.ts, plotAbstraction common false false with
  | some ts, some pic => do
    let as ← plotTs ppp.regions ppp.adj ts common.ppp2ts (modeLabel m) only
    .ok { pic with arrows := as }
  | _, _ => .error .attribute

/-- The picture of the partition of a mode, `discretization.py:232-237`; `ax.set_title` of `None`. -/
def plotMode (showTs only : Bool) (p : (V × V) × Abs ν V P) : Except PyErr (Picture ν V P) :=
  match plotAbstraction p.2 showTs only with
  | some pic => .ok { pic with title := some p.1 }
  | none => .error .attribute

/-- `AbstractSwitched.plot`, `discretization.py:202-242`. -/
def plotSwitched (sw : Switched ν V P) (showTs only : Bool) : Except PyErr (List (Picture ν V P)) := do
  let merged ← match sw.common.ppp with
    | some ppp => sw.modes.keys.mapM (plotMerged sw.common ppp only)
    | none => .ok []
  let parts ← sw.modes.mapM (plotMode showTs only)
  .ok (merged ++ parts)

/-- `merged_{mode}.pdf`, `discretization.py:1960`, with the text of the mode. -/
def mergedName (render : V × V → List Char) (m : V × V) : List Char := c!"merged_" ++ render m ++ c!".pdf"

/-- `part_{mode}.pdf`, `discretization.py:1964`. -/
def partName (render : V × V → List Char) (m : V × V) : List Char := c!"part_" ++ render m ++ c!".pdf"

/-- `for ax, mode in zip(axs, swab.modes): ax.figure.savefig(name(mode))`, `discretization.py:1959-1965`. A file that exists
is overwritten. -/
def saveAll (name : V × V → List Char) (axs : List (Picture ν V P)) (modes : List (V × V))
    (files : Dict (List Char) (Picture ν V P)) : Dict (List Char) (Picture ν V P) :=
  (axs.zip modes).foldl (fun d p => d.set (name p.2) p.1) files

/-- `plot_mode_partitions`, `discretization.py:1940-1965`: the files after the call. -/
def plotModePartitions (render : V × V → List Char) (sw : Switched ν V P) (showTs only : Bool)
    (files : Dict (List Char) (Picture ν V P)) : Except PyErr (Dict (List Char) (Picture ν V P)) := do
  let axs ← plotSwitched sw showTs only
  if axs.isEmpty then .ok files
  else
    let n := sw.modes.length
    if axs.length ≠ 2 * n then .error .assertion
    else
      let axs := axs.map fun p => { p with annotated := true }
      .ok (saveAll (partName render) (axs.drop n) sw.modes.keys
        (saveAll (mergedName render) (axs.take n) sw.modes.keys files))

end Plot
end Tulip
