import Verif.Model.Np
import Verif.Model.MaxCliques
import Verif.Model.Graph
import Verif.Model.Ecc
import Verif.Model.Heuristic
import Verif.Spec
import Verif.Props.MaxCliques
import Verif.Props.Heuristic
import Verif.Proofs.Graph
import Verif.Proofs.Reduce
import Verif.Proofs.Ecc
import Verif.Proofs.Search
import Verif.Proofs.Opc
import Verif.Proofs.Rule2Min
import Verif.Props.Ecc
import Verif.Model.Nde
import Verif.Proofs.Nde
import Verif.Props.Graph
import Verif.Model.Evaluate
import Verif.Spec.Evaluate
import Verif.Proofs.Evaluate
import Verif.Props.Evaluate
import Verif.Model.Sample
import Verif.Spec.Sample
import Verif.Proofs.Sample
import Verif.Props.Sample
import Verif.Model.Indep
import Verif.Spec.Indep
import Verif.Proofs.Indep
import Verif.Props.Indep
import Verif.Model.Gaussian
import Verif.Spec.Gaussian
import Verif.Proofs.Gaussian
import Verif.Props.Gaussian
import Verif.Model.Session
import Verif.Props.Session
import Verif.Model.Dev
import Verif.Spec.Dev
import Verif.Props.Dev
import Verif.Model.Vae
import Verif.Spec.Vae
import Verif.Props.Vae
import Verif.Model.Ncfa
import Verif.Model.AdamW
import Verif.Spec.Ncfa
import Verif.Proofs.Ncfa
import Verif.Proofs.NcfaFit
import Verif.Props.Ncfa
import Verif.Props.NcfaData
import Verif.Props.NcfaLoss
import Verif.Props.NcfaWorld
import Verif.Model.Visualize
import Verif.Props.Visualize
import Verif.Spec.Cover
import Verif.Proofs.Priv
import Verif.Props.Recover
import Verif.Props.VaeNet
import Verif.Model.Examples
import Verif.Proofs.AllOrders
import Verif.Props.Examples
import Verif.Proofs.Bounds
import Verif.Props.Bounds
import Verif.Spec.Prob
import Verif.Proofs.NormalRows
import Verif.Props.SampleLaw
import Verif.Proofs.Likelihood
import Verif.Spec.Nuclear
import Verif.Proofs.Nuclear
import Verif.Props.DevLoss
import Verif.Props.DevLatents
import Verif.Proofs.XiVar
import Verif.Proofs.XiRange
import Verif.Props.XiTest
import Verif.Proofs.Dcov
import Verif.Props.Dcov
import Verif.Props.Identify
import Verif.Props.Metrics
import Verif.Props.DcovConsistent
import Verif.Model.NcfaStructure
import Verif.Props.NcfaStructure
import Verif.Proofs.Consistency
import Verif.Proofs.Chebyshev
import Verif.Props.Consistency
import Verif.Proofs.Stable
import Verif.Props.ConsistentParams
import Verif.Model.ScriptSim
import Verif.Model.ScriptGrid
import Verif.Props.ScriptOrder
import Verif.Props.ScriptSim
import Verif.Props.ScriptGrid
import Verif.Model.EccTrace
import Verif.Proofs.BranchMin
import Verif.Props.EccMin
import Verif.Model.Dtypes
import Verif.Props.Dtypes
import Verif.Model.Float64
import Verif.Props.Float64
import Verif.Model.SampleReal
import Verif.Proofs.MoonMoser
import Verif.Props.Cost
import Verif.Props.RoundTrip
import Verif.Model.ScriptBench
import Verif.Props.ScriptBench
import Verif.Spec.AdamW
import Verif.Proofs.AdamW
import Verif.Props.AdamW
import Verif.Model.EccCost
import Verif.Props.EccCost
import Verif.Model.Interrupt
import Verif.Props.Interrupt
import Verif.Model.InterruptGaussian
import Verif.Props.InterruptGaussian
import Verif.Model.ScriptKernel
import Verif.Props.ScriptKernel
import Verif.Props.DevMore
import Verif.Model.DevInit
import Verif.Props.DevInit
import Verif.Props.Shapes
import Verif.Proofs.DcovPower
import Verif.Proofs.PermAvg
import Verif.Proofs.DcovNull
import Verif.Props.DcovPower
import Verif.Props.DcovNull
import Verif.Props.XiNull
import Verif.Props.XiPower
import Verif.Props.NcfaPower
import Verif.Proofs.Resample
import Verif.Proofs.StepApprox
import Verif.Proofs.AdjExcess
import Verif.Proofs.RankLimit
import Verif.Proofs.RankDep
import Verif.Props.XiConsist
import Verif.Props.NcfaXicor
import Verif.Proofs.UnifPair
import Verif.Proofs.UnifRow
import Verif.Proofs.UnifRank
import Verif.Proofs.UnifProj
import Verif.Proofs.UnifBlocks
import Verif.Proofs.UnifLimit
import Verif.Proofs.UnifLevel
import Verif.Props.XiLimit
import Verif.Proofs.PermCount
import Verif.Proofs.SampleCount
import Verif.Proofs.SampleUdg
import Verif.Spec.StructureLaw
import Verif.Props.StructureLaw
import Verif.Model.GaussianAny
import Verif.Props.GaussianAny
import Verif.Props.ParamLaw
import Verif.Spec.LeastSquares
import Verif.Props.LeastSquares
import Verif.Props.RowOrder
import Verif.Props.ColumnOrder
import Verif.Props.Units
import Verif.Props.Invariance
import Verif.Spec.Bic
import Verif.Props.Bic
import Verif.Model.HeuristicCost
import Verif.Props.HeuristicCost
import Verif.Model.InterruptDev
import Verif.Props.InterruptDev
import Verif.Model.Pool
import Verif.Props.Pool
import Verif.Props.Chordal
import Verif.Props.Rounded
import Verif.Props.RoundedXi
import Verif.Model.HeapSearch
import Verif.Model.HeapGraph
import Verif.Proofs.HeapSearch
import Verif.Proofs.HeapGraph
import Verif.Props.Heap
import Verif.Model.HeapCliques
import Verif.Proofs.HeapCliques
import Verif.Props.HeapCliques
import Verif.Props.FloatGraph
import Verif.Props.IntWidth
import Verif.Props.NcfaOpt
import Verif.Props.FloatMinPerm
import Verif.Props.Nan
import Verif.Props.Diagonal
import Verif.Props.DcovError
import Verif.Props.Asymmetric
import Verif.Props.Density
import Verif.Model.HeapGaussian
import Verif.Props.HeapGaussian
import Verif.Model.Levels
import Verif.Props.Levels
import Verif.Proofs.Chi2
import Verif.Props.Default
import Verif.Spec.InfLaws
import Verif.Props.Ieee
import Verif.Props.NonFinite
import Verif.Model.Device
import Verif.Props.Device
import Verif.Model.HeapNcfa
import Verif.Props.HeapNcfa
import Verif.Model.PvalArray
import Verif.Props.PvalArray
import Verif.Model.Threads
import Verif.Props.Threads
import Verif.Model.Processes
import Verif.Props.Processes
import Verif.Props.XiSmall
import Verif.Model.VisualizeMat
import Verif.Props.VisualizeMat
import Verif.Model.ParamText
import Verif.Props.ParamText
import Verif.Props.FewRows
import Verif.Props.ThreadsLearn
import Verif.Props.ThreadsSample
import Verif.Props.ThreadsRefit
import Verif.Props.ThreadsMixed
