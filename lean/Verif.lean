import Verif.Spec.Ast
import Verif.Spec.Semantics
import Verif.Spec.Parser
import Verif.Spec.ParserLemmas
import Verif.Spec.ParserProps
import Verif.Basic
import Verif.Spec.Compose
import Verif.Spec.GRSpec
import Verif.Spec.GRSpecProps
import Verif.Spec.Gr1Fragment
import Verif.Spec.Gr1FragmentProps
import Verif.Spec.Gr1SplitProps
import Verif.Spec.Transform
import Verif.Spec.TransformProps
import Verif.Spec.TranslateProps
import Verif.Spec.Gr1cProps
import Verif.Transys.MathSet
import Verif.Transys.MathSetProps
import Verif.Transys.Graph
import Verif.Transys.GraphProps
import Verif.Transys.GraphQueryProps
import Verif.Transys.ShortestPath
import Verif.Transys.ShortestPathProps
import Verif.Transys.Cost
import Verif.Transys.CostProps
import Verif.Transys.MathFunc
import Verif.Transys.MathFuncProps
import Verif.Spec.Prioritized
import Verif.Spec.PrioritizedProps
import Verif.Mvp
import Verif.MvpProps
import Verif.Transys.Compositions
import Verif.Transys.CompositionsProps
import Verif.Transys.Machines
import Verif.Transys.MachineRunProps
import Verif.Transys.MachineConvProps
import Verif.Transys.Dumpsmach
import Verif.Transys.DumpsmachProps
import Verif.Transys.Products
import Verif.Transys.ProductsProps
import Verif.Transys.Simu
import Verif.Transys.SimuProps
import Verif.Synth.Formulas
import Verif.Synth.FormulasProps
import Verif.Synth.EncodingProps
import Verif.Synth.ToSpec
import Verif.Synth.ToSpecProps
import Verif.Synth.ToSpecExamples
import Verif.Synth.Strategy
import Verif.Synth.StrategyProps
import Verif.Synth.DeterminizeProps
import Verif.Abstract.Geometry
import Verif.Abstract.Prop2part
import Verif.Abstract.Prop2partProps
import Verif.Abstract.Grid
import Verif.Abstract.GridProps
import Verif.Abstract.Feasible
import Verif.Abstract.FeasibleProps
import Verif.Abstract.Discretize
import Verif.Abstract.DiscretizeProps
import Verif.Abstract.DiscretizeTermProps
import Verif.Abstract.DiscretizeDualProps
import Verif.Abstract.Ts
import Verif.Abstract.TsProps
import Verif.Abstract.Merge
import Verif.Abstract.MergeProps
import Verif.Abstract.SwitchedProps
import Verif.Parity
import Verif.ParityProps
import Verif.Abstract.FindController
import Verif.Abstract.FindControllerProps
import Verif.Hybrid
import Verif.HybridProps
import Verif.Gridworld.World
import Verif.Gridworld.ReachProps
import Verif.Gridworld.DumpProps
import Verif.Gridworld.WorldProps
import Verif.Gridworld.Spec
import Verif.Gridworld.SpecProps
import Verif.Gridworld.TrollProps
import Verif.Spec.LtlFile
import Verif.Spec.LtlFileProps
import Verif.Interfaces.Gr1c
import Verif.Interfaces.Gr1cProps
import Verif.Interfaces.SessionProps
import Verif.Interfaces.Slugs
import Verif.Interfaces.SlugsProps
import Verif.Synth.Synthesize
import Verif.Synth.SynthesizeProps
import Verif.Synth.SynthesizeExamples
import Verif.Spec.Reparse
import Verif.Synth.Dependent
import Verif.Synth.DependentProps
import Verif.Transys.BaTsProduct
import Verif.Transys.BaTsProductProps
import Verif.Spec.Cache
import Verif.Spec.CacheProps
import Verif.Interfaces.Omega
import Verif.Interfaces.OmegaProps
import Verif.Spec.Translate
import Verif.Spec.TransProps
import Verif.Spec.TransRead
import Verif.Spec.TransOutProps
import Verif.Spec.TransJtlvProps
import Verif.Spec.TransWringProps
import Verif.Transys.Construct
import Verif.Transys.ConstructProps
import Verif.Transys.Automata
import Verif.Transys.AutomataProps
import Verif.Abstract.Mat
import Verif.Abstract.CreateLM
import Verif.Abstract.CreateLMLemmas
import Verif.Abstract.CreateLMLoop
import Verif.Abstract.CreateLMProps
import Verif.Abstract.CreateLMErrProps
import Verif.Abstract.GetInput
import Verif.Abstract.GetInputLemmas
import Verif.Abstract.Lp
import Verif.Abstract.GetInputProps
import Verif.Abstract.GetInputTop
import Verif.Abstract.GetInputMain
import Verif.Abstract.GetInputEx
import Verif.LtiCtor
import Verif.LtiCtorProps
import Verif.Interfaces.Storm
import Verif.Interfaces.Prism
import Verif.Interfaces.PrismLemmas
import Verif.Interfaces.StormProps
import Verif.Interfaces.StormImportProps
import Verif.Interfaces.StormCheckProps
import Verif.Interfaces.Gr1cXml
import Verif.Interfaces.Gr1cXmlProps
import Verif.Interfaces.Calls
import Verif.Interfaces.CallsProps
import Verif.Interfaces.RealizableProps
import Verif.Interfaces.Ltl2ba
import Verif.Interfaces.Ltl2baProps
import Verif.Gridworld.Random
import Verif.Gridworld.RandomProps
import Verif.Transys.MachineSim
import Verif.Transys.MachineSimProps
import Verif.Transys.Promela
import Verif.Transys.PromelaProps
import Verif.Abstract.Parallel
import Verif.Abstract.ParallelProps
import Verif.Transys.Checks
import Verif.Abstract.Checks
import Verif.Gridworld.Partition
import Verif.Gridworld.PartitionProps
import Verif.Gridworld.Picture
import Verif.Gridworld.PictureProps
import Verif.Abstract.ClosedLoopProps
import Verif.Abstract.ClosedLoopEx
import Verif.Abstract.Simulate
import Verif.Abstract.SimulateProps
import Verif.Abstract.DiscTop
import Verif.Abstract.DiscTopProps
import Verif.Abstract.DiscTopEx
import Verif.Interfaces.Lily
import Verif.Interfaces.LilyProps
import Verif.Spec.FullNames
import Verif.Spec.FullNamesProps
import Verif.Transys.LabelTypes
import Verif.Transys.LabelTypesProps
import Verif.Transys.Dot
import Verif.Transys.DotProps
import Verif.Transys.Scxml
import Verif.Transys.ScxmlProps
import Verif.Transys.MathSetMore
import Verif.Transys.MathSetMoreProps
import Verif.Interfaces.SessionRun
import Verif.Interfaces.SessionRunProps
import Verif.Transys.MathFuncJson
import Verif.Transys.MathFuncJsonProps
import Verif.Abstract.DiscReachProps
import Verif.Abstract.DiscReachEx
import Verif.Spec.GRSpecFile
import Verif.Spec.GRSpecFileProps
import Verif.Synth.StrategyReturnsProps
import Verif.Spec.TreeGraph
import Verif.Spec.TreeGraphProps
import Verif.Spec.TreeSubProps
import Verif.Spec.TreeGraphEx
import Verif.Interfaces.LilyMoreProps
import Verif.Abstract.PlotArrows
import Verif.Abstract.PlotArrowsProps
import Verif.Abstract.PlotGrid
import Verif.Abstract.PlotGridProps
import Verif.Interfaces.Gr1cVersion
import Verif.Interfaces.Gr1cVersionProps
import Verif.Synth.ToSpecReturnsProps
import Verif.Abstract.DiscretizeReturnsProps
import Verif.Synth.SpecPlusReturnsProps
import Verif.Interfaces.CallReturnsProps
import Verif.Spec.Pretty
import Verif.Spec.PrettyProps
import Verif.Abstract.PlotModes
import Verif.Abstract.PlotModesProps
import Verif.Gridworld.Plot
import Verif.Gridworld.PlotProps
import Verif.Gridworld.Animate
import Verif.Gridworld.AnimateProps
import Verif.Interfaces.Lbt
import Verif.Interfaces.LbtProps
import Verif.Spec.SpinDstar
import Verif.Spec.SpinDstarProps
import Verif.Transys.Fmu
import Verif.Transys.FmuProps
import Verif.Transys.Matlab
import Verif.Transys.MatlabProps
import Verif.Transys.FmuCtl
import Verif.Transys.FmuCtlProps
import Verif.Transys.FmuMpc
import Verif.Transys.FmuMpcProps
import Verif.Transys.FmuHybridProps
import Verif.Transys.FmuAbsProps
import Verif.Transys.FmuSlave
import Verif.Transys.FmuSlaveProps
import Verif.Interfaces.Dstar
import Verif.Interfaces.DstarProps
import Verif.Transys.FmuCosimProps
import Verif.Interfaces.XmlIo
import Verif.Interfaces.XmlIoProps
import Verif.Interfaces.OmegaBounds
