import Verif.Props.BinaryPow
import Verif.Props.Modular
import Verif.Props.Random
import Verif.Props.Literals
import Verif.Props.Bits
import Verif.Props.Compare
import Verif.Props.Text
import Verif.Props.IntWrite
import Verif.Props.Parser
import Verif.Props.IntParse
import Verif.Props.Escaped
import Verif.Props.Adjusted
import Verif.Props.SplitTrim
import Verif.Props.Devices
import Verif.Props.Buffered
import Verif.Props.BufferedParse
import Verif.Props.Till
import Verif.Props.Binary
import Verif.Props.Containers
import Verif.Props.Tensor
import Verif.Props.Maps
import Verif.Props.Ranges
import Verif.Props.DfsRecursive
import Verif.Props.Dfs
import Verif.Props.Bfs
import Verif.Props.Components
import Verif.Props.Scc
import Verif.Props.Bridges
import Verif.Props.Articulation
import Verif.Props.Ids
import Verif.Props.EdgeList
import Verif.Props.Adjacency
import Verif.Props.Area
import Verif.Props.WithinTriangle
import Verif.Props.WithinLine
import Verif.Props.Project
import Verif.Props.Intersect
import Verif.Props.Hull
import Verif.Props.Decorators
import Verif.Props.Winding
import Verif.Props.WindingAngle
import Verif.Props.Monotone
import Verif.Props.ToMonotone
import Verif.Props.Distance
import Verif.Props.Crosses
import Verif.Props.Circles
import Verif.Props.TangentAngles
import Verif.Props.TypeArray
import Verif.Props.Iterators
import Verif.Props.Indented
import Verif.Props.FunctionTraits
import Verif.Props.Convert
import Verif.Props.Expression
import Verif.Props.LineBuffered
import Verif.Props.SortAngle
import Verif.Props.ClosestPair
import Verif.Props.Antipodal
import Verif.Props.Extreme
import Verif.Props.RealWrite
import Verif.Props.RealParse
import Verif.Props.LinePolygon
import Verif.Props.LineSimple
import Verif.Props.VertexEdgeList
import Verif.Props.Angle
import Verif.Props.Match
import Verif.Props.Span
import Verif.Props.Manipulators
import Verif.Props.Equality
import Verif.Props.Edges
import Verif.Props.PredecessorEdges
import Verif.Props.Algebra
import Verif.Props.OutParam
import Verif.Props.CommonType
import Verif.Props.Adaptor
import Verif.Props.Built
import Verif.Props.BuiltN
import Verif.Props.Composite
import Verif.Props.TextTree
import Verif.Props.FileDevice
import Verif.Props.BinaryAssoc
import Verif.Props.Biconnected
import Verif.Props.StepsNearest
import Verif.Props.IntGeometry
import Verif.Props.TensorAccess
import Verif.Props.RingElement
import Verif.Props.ArticulationExact
import Verif.Props.SccExact
import Verif.Props.XoroPeriod
import Verif.Props.MapTree
import Verif.Props.TextDevice
import Verif.Props.BinaryDevice
import Verif.Props.Inorder
import Verif.Props.MixedGraph
import Verif.Props.Terminator
import Verif.Props.Linear
import Verif.Props.Counters
import Verif.Props.MonotoneSimple
import Verif.Props.IntPolygon
import Verif.Props.Rebind
import Verif.Props.Lifetime
import Verif.Props.TextAssoc
import Verif.Props.Jordan
import Verif.Props.JordanLine
import Verif.Props.PolyOrientation
import Verif.Props.PointOps
import Verif.Props.IteratorsUnsigned
import Verif.Props.TensorObjects
import Verif.Props.RealRound
import Verif.Props.BiconnectedExact
import Verif.Props.RealTree
import Verif.Props.FloatGeometry
import Verif.Props.FloatAngle
import Verif.Props.Numbers
import Verif.Props.FloatLines
import Verif.Props.FloatClosest
import Verif.Props.FloatPolygon
import Verif.Props.IntLines
import Verif.Props.FloatProject
import Verif.Props.FloatLinePolygon
import Verif.Props.IntLinePolygon
import Verif.Props.IntClosest
import Verif.Props.HullQueries
import Verif.Props.IntHullQueries
import Verif.Props.Bundles
import Verif.Props.MixedEdges
import Verif.Props.LineObjects
import Verif.Props.MixedWrites
import Verif.Props.FindMixed
import Verif.Props.SearchPeak
import Verif.Props.Details
import Verif.Props.MixedSearches
import Verif.Props.GeoText
import Verif.Props.HashKeys
import Verif.Props.Filtered
import Verif.Props.CopyFiltered
import Verif.Props.UnitFlush
import Verif.Props.FailingDevice
import Verif.Props.BufferedOver
import Verif.Props.ReadProgress
import Verif.Props.BinaryTotal
import Verif.Props.AssocValid
import Verif.Props.TextAssocValid
import Verif.Props.GraphAgree
import Verif.Props.TopoAny
import Verif.Props.BridgeCount
import Verif.Props.BfsMetric
import Verif.Props.HullMerge
import Verif.Props.BinaryPrefix
import Verif.Props.StampEdges
import Verif.Props.TextUnique
import Verif.Props.TextPrefix
import Verif.Props.TextAssocPrefix
