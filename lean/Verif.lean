import Verif.Props.Coord
import Verif.Props.Container
import Verif.Props.Queue
import Verif.Props.Controller
import Verif.Props.Restart
import Verif.Props.Refinement
import Verif.Lemmas.Flood
import Verif.Props.Centres
import Verif.Props.Limits
import Verif.Props.SaveFile
import Verif.Props.NelderMead
import Verif.Props.EndToEnd
import Verif.Props.Mesh
import Verif.Props.Cluster
import Verif.Props.Dimension
import Verif.Props.ShortestPath
import Verif.Props.DominatingSet
import Verif.Props.Identify
import Verif.Props.PlotPaths
import Verif.Props.RunWrapper
import Verif.Props.Determinism
import Verif.Props.Setup
import Verif.Props.Exploration
import Verif.Props.Volume
import Verif.Props.Float
import Verif.Props.Textbook
import Verif.Props.Hdf5
import Verif.Spec.Isolated
import Verif.Props.Isolated
import Verif.Spec.Frame
import Verif.Lemmas.Frame
import Verif.Lemmas.Units
import Verif.Lemmas.UnitsInv
import Verif.Props.Frame
import Verif.Model.Plot
import Verif.Spec.Plot
import Verif.Props.Plot
import Verif.Lemmas.GraphMap
import Verif.Lemmas.SimilarSP
import Verif.Lemmas.SimilarDS
import Verif.Lemmas.Similar
import Verif.Spec.Moved
import Verif.Lemmas.SimilarRun
import Verif.Lemmas.SimilarMoves
import Verif.Props.Moved
import Verif.Spec.Valley
import Verif.Lemmas.OneDim
import Verif.Lemmas.OneDimRun
import Verif.Props.OneDim
import Verif.Spec.Live
import Verif.Spec.Region
import Verif.Lemmas.Live
import Verif.Props.Live
import Verif.Props.Recover
import Verif.Spec.Exact
import Verif.Props.Exact
import Verif.Spec.McKinnon
import Verif.Props.McKinnon
import Verif.Spec.Curve
import Verif.Spec.OpenLines
import Verif.Lemmas.PathGraph
import Verif.Lemmas.OpenLine
import Verif.Lemmas.Straight
import Verif.Props.Curve
import Verif.Spec.Circle
import Verif.Spec.Loops
import Verif.Lemmas.CircleGraph
import Verif.Lemmas.Around
import Verif.Lemmas.Round
import Verif.Lemmas.Winding
import Verif.Lemmas.Ring
import Verif.Lemmas.RingRound
import Verif.Props.Loop
import Verif.Lemmas.Weights
import Verif.Lemmas.ShortestLine
import Verif.Lemmas.ShortestLineRun
import Verif.Lemmas.ShortestLineInv
import Verif.Spec.LineAlong
import Verif.Props.ShortestLine
import Verif.Props.SmallLoop
import Verif.Lemmas.RingCut
import Verif.Lemmas.RingArc
import Verif.Lemmas.RingClose
import Verif.Lemmas.RingJoin
import Verif.Lemmas.RingShut
import Verif.Lemmas.RingInv
import Verif.Lemmas.RingStep
import Verif.Lemmas.RingLoop
import Verif.Props.BigLoop
import Verif.Props.FloatDistance
import Verif.Props.Chance
import Verif.Spec.Axes
import Verif.Props.Axes
import Verif.Spec.Components
import Verif.Props.Components
import Verif.Spec.Local
import Verif.Props.Local
import Verif.Model.FloatNM
import Verif.Lemmas.FloatNM
import Verif.Spec.FloatNM
import Verif.Props.FloatNM
import Verif.Props.FloatSearch
import Verif.Model.FloatController
import Verif.Spec.FloatController
import Verif.Lemmas.FloatController
import Verif.Lemmas.FloatElem
import Verif.Lemmas.FloatGeom
import Verif.Lemmas.FloatCover
import Verif.Lemmas.FloatWork
import Verif.Lemmas.FloatExact
import Verif.Lemmas.FloatFrom
import Verif.Props.FloatController
import Verif.Model.FloatSetup
import Verif.Spec.FloatSetup
import Verif.Lemmas.FloatSetup
import Verif.Lemmas.FloatStencil
import Verif.Props.FloatSetup
import Verif.Spec.NoisyValley
import Verif.Lemmas.NoisyLine
import Verif.Lemmas.NoisyBudget
import Verif.Lemmas.NoisyRun
import Verif.Props.NoisyValley
import Verif.Model.FloatFake
import Verif.Spec.FloatLive
import Verif.Lemmas.FloatLive
import Verif.Lemmas.FloatNormalize
import Verif.Props.FloatLive
import Verif.Lemmas.FloatRecover
import Verif.Props.FloatRecover
import Verif.Model.FloatAverage
import Verif.Props.FloatAverage
import Verif.Spec.Evaluations
import Verif.Props.Evaluations
import Verif.Spec.Stability
import Verif.Props.Stability
import Verif.Model.FloatIdentify
import Verif.Spec.FloatIdentify
import Verif.Props.FloatIdentify
import Verif.Lemmas.FloatCutoff
import Verif.Spec.FloatFind
import Verif.Props.FloatFind
import Verif.Model.FloatBallistic
import Verif.Spec.FloatBallistic
import Verif.Lemmas.FloatBallistic
import Verif.Props.FloatBallistic
import Verif.Model.FloatShortestPath
import Verif.Spec.FloatShortestPath
import Verif.Lemmas.FloatShortestPath
import Verif.Props.FloatShortestPath
import Verif.Model.FloatDominatingSet
import Verif.Model.FloatRun
import Verif.Spec.FloatRun
import Verif.Lemmas.FloatRun
import Verif.Props.FloatRun
import Verif.Props.FloatLines
import Verif.Props.FloatUnits
import Verif.Spec.FloatDominating
import Verif.Lemmas.FloatDominating
import Verif.Props.FloatDominating
import Verif.Props.FloatUnitsDim
import Verif.Props.FloatUnitsRun
