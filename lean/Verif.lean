import Verif.Props.LargeIntAdd
import Verif.Props.LargeIntMul
import Verif.Props.LargeIntShift
import Verif.Props.LargeIntDiv
import Verif.Props.LargeIntConv
import Verif.Props.Geom
import Verif.Props.GeomCross
import Verif.Props.GeomParallel
import Verif.Props.GeomChecked
import Verif.Props.Balance
import Verif.Props.Events
import Verif.Props.Sweep
import Verif.Props.SweepScan
import Verif.Props.SweepCmp
import Verif.Props.PointSink
import Verif.Props.Loops
import Verif.Props.LoopsVertex
import Verif.Props.LoopsOrigins
import Verif.Props.Hierarchy
import Verif.Props.Strided
import Verif.Props.PointMap
import Verif.Props.MiniSet
import Verif.Props.Offset
import Verif.Props.RasterFrac
import Verif.Props.RasterSpans
import Verif.Props.RasterQueue
import Verif.Props.Raster
import Verif.Props.RasterWind
import Verif.Props.RasterFind
import Verif.Props.Clipper
import Verif.Props.RbTree
import Verif.Props.Region
import Verif.Props.Planar
import Verif.Props.Ends
import Verif.Props.Execute
import Verif.Lemmas.Lam
import Verif.Lemmas.Turn
import Verif.Lemmas.LoopsBest
import Verif.Lemmas.LoopsTurn
import Verif.Lemmas.LoopsParts
import Verif.Lemmas.LoopsAnchor
import Verif.Lemmas.LoopsTree
import Verif.Lemmas.LoopsNeat
import Verif.Lemmas.LoopsTrack
import Verif.Lemmas.LoopsForest
import Verif.Lemmas.Hits
import Verif.Lemmas.OutTree
import Verif.Lemmas.Nested
import Verif.Lemmas.OutParts
import Verif.Props.Nesting
import Verif.Props.TreeOut
import Verif.Props.Area
import Verif.Props.Same
import Verif.Lemmas.Shift
import Verif.Props.Shift
import Verif.Props.ShiftOffset
import Verif.Props.ComposeDouble
import Verif.Lemmas.RasterGeo
import Verif.Lemmas.RasterOrder
import Verif.Lemmas.RasterStep
import Verif.Lemmas.RasterRow
import Verif.Lemmas.RasterEnds
import Verif.Props.RasterExact
import Verif.Lemmas.WindRays
import Verif.Lemmas.WindNear
import Verif.Props.Compose
import Verif.Model.Double
import Verif.Lemmas.NearRange
import Verif.Lemmas.DoubleRnd
import Verif.Props.Double
import Verif.Lemmas.Bent
import Verif.Lemmas.Deform
import Verif.Props.Far
import Verif.Lemmas.Shadow
import Verif.Model.OffsetClip
import Verif.Props.OffsetFar
import Verif.Lemmas.Grow
import Verif.Props.Grow
import Verif.Lemmas.Cover
import Verif.Props.Cover
import Verif.Model.Iter
import Verif.Lemmas.Origins
import Verif.Lemmas.Tracker
import Verif.Lemmas.NewMarks
import Verif.Lemmas.OutMerges
import Verif.Lemmas.Numbers
import Verif.Lemmas.Reported
import Verif.Props.Origins
import Verif.Lemmas.Recolor
import Verif.Props.Recolor
import Verif.Lemmas.Area
import Verif.Props.Areas
import Verif.Lemmas.AreaPos
import Verif.Props.Signs
import Verif.Lemmas.WindLinear
import Verif.Props.Linear
import Verif.Lemmas.Fuel
import Verif.Props.Steps
import Verif.Model.PyClipper
import Verif.Props.PyClipper
import Verif.Model.NpyIter
import Verif.Props.NpyIter
import Verif.Props.Sides
import Verif.Model.PyFuncs
import Verif.Props.PyFuncs
import Verif.Props.Vertices
import Verif.Model.PyOffset
import Verif.Props.PyOffset
import Verif.Model.TreeWalk
import Verif.Props.TreeWalk
import Verif.Props.TreeDouble
import Verif.Props.Inner
import Verif.Props.Odd
import Verif.Lemmas.TreeMerges
import Verif.Props.TreeOrigins
import Verif.Props.Pieces
import Verif.Props.Perimeter
import Verif.Props.Together
