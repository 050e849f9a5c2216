import Verif.Model.Base
import Verif.Model.Tree
import Verif.Model.Geometry
import Verif.Model.Dcel
import Verif.Model.Algorithm
import Verif.Proof.Wp
import Verif.Proof.TreeRep
import Verif.Proof.TreeOps
import Verif.Proof.TreeNav
import Verif.Proof.Beach
import Verif.Proof.Steps
import Verif.Proof.StepsD
import Verif.Proof.SiteStep
import Verif.Proof.CircStep
import Verif.Proof.Events
import Verif.Proof.EventsStep
import Verif.Proof.DcelInv
import Verif.Proof.DcelCirc
import Verif.Proof.Inv
import Verif.Proof.Sweep
import Verif.Proof.SweepInv
import Verif.Model.Heapq
import Verif.Proof.Heapq
import Verif.Proof.Run
import Verif.Spec.Sweep
import Verif.Proof.Bridge
import Verif.Proof.Borders
import Verif.Props.Sweep
import Verif.Model.Rat
import Verif.Proof.Force
import Verif.Spec.Tree
import Verif.Props.Queue
import Verif.Props.Tree
import Verif.Props.SweepExamples
import Verif.Model.Real
import Verif.Proof.Circle
import Verif.Proof.Parabola
import Verif.Proof.Breakpoint
import Verif.Proof.Envelope
import Verif.Proof.Advance
import Verif.Proof.EnvStep
import Verif.Proof.GeoBase
import Verif.Proof.GeoStep
import Verif.Proof.GeoCirc
import Verif.Proof.Geo
import Verif.Spec.Voronoi
import Verif.Props.Voronoi
import Verif.Spec.Formulas
import Verif.Props.Formulas
import Verif.Proof.Clip
import Verif.Proof.ClipLoop
import Verif.Proof.Border
import Verif.Proof.Polygon
import Verif.Proof.CleanUp
import Verif.Proof.Create
import Verif.Spec.Clip
import Verif.Props.Clip
import Verif.Props.Single
import Verif.Props.ClipExamples
import Verif.Spec.Poly
import Verif.Proof.PolyReal
import Verif.Proof.Convex
import Verif.Props.Poly
import Verif.Proof.Ray
import Verif.Proof.Exit
import Verif.Props.Cut
import Verif.Spec.Area
import Verif.Props.Area
import Verif.Model.Avl
import Verif.Spec.Avl
import Verif.Proof.AvlFun
import Verif.Proof.AvlPtr
import Verif.Proof.AvlOps
import Verif.Proof.AvlDel
import Verif.Props.Avl
import Verif.Model.BoundingCircle
import Verif.Props.BoundingCircle
import Verif.Model.Observers
import Verif.Props.Observers
import Verif.Props.CreateReal
import Verif.Proof.Complete
import Verif.Proof.Trace
import Verif.Proof.CompleteRun
import Verif.Props.Complete
import Verif.Spec.Edges
import Verif.Props.Whole
import Verif.Props.CircleSweep
import Verif.Spec.Clipping
import Verif.Proof.Clipped
import Verif.Props.Clipped
import Verif.Model.Voronoi
import Verif.Props.Reuse
import Verif.Props.Row
import Verif.Proof.Unique
import Verif.Props.Unique
import Verif.Proof.BorderGeo
import Verif.Proof.Links
import Verif.Proof.Nearby
import Verif.Proof.BorderCells
import Verif.Proof.BorderLabels
import Verif.Props.BorderCells
import Verif.Proof.CellNext
import Verif.Proof.Winding
import Verif.Proof.SweepCycle
import Verif.Proof.CellCycle
import Verif.Proof.CellWhole
import Verif.Proof.CellFirst
import Verif.Spec.Cells
import Verif.Proof.CellDone
import Verif.Props.Cells
import Verif.Proof.Volume
import Verif.Proof.PolyArea
import Verif.Props.CellArea
import Verif.Proof.ZeroEdges
import Verif.Proof.CleanTotal
import Verif.Props.CleanTotal
import Verif.Model.Visualizer
import Verif.Proof.ArcSet
import Verif.Spec.Picture
import Verif.Props.VisBeach
import Verif.Props.VisExamples
import Verif.Props.VisEdges
import Verif.Props.VisFinal
import Verif.Proof.Place
import Verif.Props.FinalVertices
import Verif.Props.SiteVertices
import Verif.Props.Connected
import Verif.Proof.Loop
import Verif.Props.Euler
import Verif.Props.VisEdgeExamples
import Verif.Props.TreeText
import Verif.Spec.Moved
import Verif.Proof.Corners
import Verif.Props.Corners
import Verif.Props.Diagonal
import Verif.Props.SameCorners
import Verif.Props.Ties
import Verif.Spec.Rounding
import Verif.Model.Decimal
import Verif.Proof.Decimal
import Verif.Props.Decimal
import Verif.Props.DecimalExamples
import Verif.Spec.Disc
import Verif.Props.CircleTrim
import Verif.Props.NewEvents
import Verif.Props.NewEventsExample
import Verif.Model.Recursion
import Verif.Proof.Recursion
import Verif.Props.Recursion
import Verif.Model.Notify
import Verif.Props.Notify
import Verif.Props.LostVertex
import Verif.Props.VisArrows
import Verif.Props.VisEvent
import Verif.Model.VisCircle
import Verif.Props.VisCircle
import Verif.Props.InsideBorder
import Verif.Props.BorderVertex
import Verif.Tests.Unit
import Verif.Props.Previous
import Verif.Props.Twice
import Verif.Proof.Along
import Verif.Props.Outside
import Verif.Proof.CellAny
import Verif.Props.AnySites
import Verif.Model.VisArgs
import Verif.Props.PlotAll
import Verif.Props.VisArgs
import Verif.Props.AnyMoved
import Verif.Props.Floats
import Verif.Props.Heights
import Verif.Props.Symmetry
import Verif.Props.Neighbours
import Verif.Props.AreaDigits
import Verif.Props.Checkable
import Verif.Props.TestInputs
import Verif.Props.FinalLabels
import Verif.Props.Motion
import Verif.Props.VisPointers
import Verif.Props.SubPolygon
import Verif.Props.Continuous
import Verif.Props.Stable
import Verif.Props.CircleRay
import Verif.Props.VoronoiExamples
import Verif.Props.Call
import Verif.Props.CircleError
import Verif.Props.Planar
import Verif.Props.Hull
import Verif.Props.ExactSize
import Verif.Props.HullOrder
import Verif.Props.NearestSite
