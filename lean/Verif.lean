import Verif.Quad.Props
import Verif.LinObj.Props
import Verif.Oa.Props
import Verif.Oa.ExtractProps
import Verif.Oa.BendersProps
import Verif.Strengthen.Props
import Verif.Fp.Props
import Verif.Fp.Modes
import Verif.Itf.Random
import Verif.Itf.StatusProps
import Verif.Itf.StatusExact
import Verif.Itf.TnlpProps
import Verif.Div.ProbedProps
import Verif.Div.DfsProps
import Verif.Div.BoundProps
import Verif.Bab.NodeStatusProps
import Verif.Bab.Options
import Verif.Bab.Objects
import Verif.Bab.Copies
import Verif.Div.Compare
import Verif.Bab.FinalProps
import Verif.Branch.SetupProps
import Verif.Branch.Second
import Verif.Branch.Random
import Verif.Branch.Pseudo
import Verif.Branch.Choose
import Verif.Dec.Manip
import Verif.Dec.Checker
import Verif.Slv.Warm
import Verif.Slv.Packed
import Verif.Slv.Tqp
import Verif.Slv.Sos
import Verif.Slv.Reader
import Verif.Slv.Copies
import Verif.Slv.CInterface
import Verif.Heur.SelectProps
import Verif.Heur.PumpLoop
import Verif.Heur.Exact
import Verif.Heur.MilpProps
import Verif.Heur.Local
import Verif.Oa.Exact
import Verif.Branch.LpSolver
import Verif.Dec.Ecp
import Verif.Dec.FpMinlp
import Verif.Dec.Hybrid
import Verif.Ampl.Vars
import Verif.Ampl.Suffix
import Verif.Ampl.Output
import Verif.Slv.FilterRun
import Verif.Slv.BqpdRun
import Verif.Branch.Curv
import Verif.Itf.TnCopies
import Verif.Itf.ItfCopies
import Verif.Itf.Params
import Verif.Slv.Starts
import Verif.Slv.Interior
import Verif.Slv.Diff
import Verif.Bab.AltObj
import Verif.Bab.AuxNlp
import Verif.Slv.Names
import Verif.Ampl.SolFile
import Verif.Dec.MilpChoice
import Verif.Itf.RegOpts
import Verif.Dec.SubMipCpx
import Verif.Itf.Rows
import Verif.Itf.VarTypes
import Verif.Itf.OsiParams
import Verif.Itf.SolQueries
import Verif.Bab.Launch
import Verif.Quad.Cut
import Verif.Oa.ObjRow
import Verif.Heur.LocalSearch
import Verif.Bab.Params
import Verif.Bab.Init
import Verif.Strengthen.Nlp
import Verif.Strengthen.Compute
import Verif.Quad.Wrap
import Verif.Nway.Object
import Verif.Nway.Choose
import Verif.Nway.Setup
import Verif.Nway.List
import Verif.Nway.Useful
import Verif.Sepa.Inner
import Verif.Sepa.Bon
import Verif.Sepa.Outer
import Verif.Sepa.Sample
import Verif.Bcp.Wire
import Verif.Bcp.Sort
import Verif.Bcp.Strong
import Verif.Bcp.Process
import Verif.Bcp.Select
import Verif.Bcp.Node
import Verif.Quad.Mat
import Verif.Bcp.Setup
import Verif.Slv.IpoptState
import Verif.Itf.Others
import Verif.Heur.DiveMip
import Verif.Heur.Rounding
import Verif.Bab.Programs
import Verif.Slv.BqpdWarm
import Verif.Bab.Forced
import Verif.Itf.Make
import Verif.Itf.ObjCoef
import Verif.Branch.Debug
import Verif.Bab.Search
import Verif.Bab.SearchProps
import Verif.Dec.Quesada
import Verif.Dec.QuesadaProps
import Verif.Bcp.Search
import Verif.Bcp.SearchProps
import Verif.Dec.Convex
import Verif.Dec.HybConvex
import Verif.Dec.BoaConvex
import Verif.Dec.Shipped
import Verif.Dec.Degenerate
import Verif.Slv.Output
import Verif.Dec.IfpConvex
import Verif.Dec.SubOptions
import Verif.Dec.Relaxed
import Verif.Dec.RelaxedQg
import Verif.Dec.RelaxedHyb
import Verif.Dec.RelaxedBoa
import Verif.Itf.OptDoc
import Verif.Sepa.Setup
