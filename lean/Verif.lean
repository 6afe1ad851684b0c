import Verif.Geom
import Verif.Metric
import Verif.Outcome
import Verif.Par.SplitProps
import Verif.KdTree.BuildProps
import Verif.KdTree.RangeProps
import Verif.KdTree.KnnBufProps
import Verif.KdTree.KnnProps
import Verif.KdTree.BccpProps
import Verif.KdTree.WspdProps
import Verif.Par.ParBufProps
import Verif.Atomic.Props
import Verif.UnionFind.Props
import Verif.Mst.KruskalProps
import Verif.SpatialGraph.SpannerProps
import Verif.SpatialGraph.KnnGraphProps
import Verif.Mst.Bottleneck
import Verif.Emst.MarkProps
import Verif.Emst.Props
import Verif.BatchKd.SplitPointsProps
import Verif.BatchKd.BloomProps
import Verif.Seb.PrefixProps
import Verif.Seb.BallProps
import Verif.Seb.WelzlProps
import Verif.Seb.ScanProps
import Verif.Seb.FarProps
import Verif.Seb.SamplingUb
import Verif.Hull2d.QuickProps
import Verif.Hull2d.DcProps
import Verif.Hull3d.LinkProps
import Verif.Hull3d.BruteProps
import Verif.Hull3d.DcProps
import Verif.Morton.Props
import Verif.BatchKd.Props
import Verif.BatchKd.KnnProps
import Verif.IO.Props
import Verif.Hash.Props
import Verif.TriEdges.Props
import Verif.Reserve.Loop
import Verif.LogTree.Model
import Verif.LogTree.SimLemmas
import Verif.LogTree.MoveLemmas
import Verif.LogTree.InsertLemmas
import Verif.LogTree.EraseLemmas
import Verif.LogTree.KnnLemmas
import Verif.LogTree.Props
import Verif.DynKd.Model
import Verif.DynKd.Lemmas
import Verif.DynKd.KnnLemmas
import Verif.DynKd.Props
import Verif.DynKd.SiblinModel
import Verif.DynKd.SiblinProps
import Verif.ClosestPair.Model
import Verif.ClosestPair.Lemmas
import Verif.ClosestPair.RaceModel
import Verif.ClosestPair.Props
import Verif.SpatialGraph.LuneModel
import Verif.SpatialGraph.LuneProps
import Verif.Delaunay.MeshModel
import Verif.Delaunay.MeshLemmas
import Verif.Delaunay.MeshProps
import Verif.Delaunay.GeomModel
import Verif.Delaunay.GeomLemmas
import Verif.Delaunay.Planar
import Verif.Delaunay.InsertModel
import Verif.Delaunay.InsertLemmas
import Verif.Delaunay.DelaunayLemmas
import Verif.Delaunay.LimitLemmas
import Verif.Delaunay.FindLemmas
import Verif.Delaunay.InsertProps
import Verif.Par.Prog
import Verif.Delaunay.ProgModel
import Verif.Delaunay.RoundModel
import Verif.Delaunay.RoundLemmas
import Verif.Delaunay.ProgLemmas
import Verif.Delaunay.ParLemmas
import Verif.Reserve.Fair
import Verif.Delaunay.RoundProps
import Verif.Delaunay.LoopModel
import Verif.Delaunay.LoopLemmas
import Verif.Delaunay.BoundaryModel
import Verif.Delaunay.BoundaryLemmas
import Verif.Delaunay.DelaunayProps
import Verif.OctTree.Model
import Verif.OctTree.Lemmas
import Verif.OctTree.BuildLemmas
import Verif.OctTree.Props
import Verif.SampleHull.Model
import Verif.SampleHull.SpatialModel
import Verif.SampleHull.Lemmas
import Verif.SampleHull.Props
import Verif.SampleHull.GridProps
import Verif.SampleHull.SpatialProps
import Verif.SampleHull.SpatialWitness
import Verif.QHull.Model
import Verif.QHull.Geom
import Verif.QHull.Dfs
import Verif.QHull.DfsMain
import Verif.QHull.Mesh
import Verif.QHull.MeshGeo
import Verif.QHull.Frontier
import Verif.QHull.LinkStep
import Verif.QHull.Place
import Verif.QHull.Round
import Verif.QHull.RoundMain
import Verif.QHull.Loop
import Verif.QHull.Init
import Verif.QHull.Output
import Verif.QHull.Extreme
import Verif.QHull.VertexModel
import Verif.QHull.Props
import Verif.QHull.Witness
import Verif.QHull.ParModel
import Verif.QHull.ParProg
import Verif.QHull.ParIndep
import Verif.QHull.ParCommit
import Verif.QHull.ParRound
import Verif.QHull.ParLoop
import Verif.QHull.ParProps
import Verif.QHull.ParWitness
import Verif.QHull.DcWhole
import Verif.QHull.DcWitness
import Verif.LogTree.DualModel
import Verif.LogTree.DualLemmas
import Verif.LogTree.DualProps
import Verif.Hull2d.BruteModel
import Verif.Hull2d.BruteLemmas
import Verif.Hull2d.BruteProps
import Verif.BatchKd.CoModel
import Verif.BatchKd.CoTrees
import Verif.BatchKd.CoSplit
import Verif.BatchKd.CoRun
import Verif.BatchKd.CoLemmas
import Verif.BatchKd.CoProps
import Verif.QHull.PseudoModel
import Verif.QHull.PseudoLemmas
import Verif.QHull.PseudoTop
import Verif.QHull.PseudoProps
import Verif.BatchKd.CoDynModel
import Verif.BatchKd.CoDynProps
import Verif.Dataset.UniformModel
import Verif.Dataset.UniformLemmas
import Verif.Dataset.UniformProps
import Verif.Dataset.SpreaderModel
import Verif.Dataset.SpreaderProps
import Verif.BatchKd.EraseOneModel
import Verif.BatchKd.EraseOneLemmas
import Verif.BatchKd.EraseOneProps
import Verif.Mst.FineModel
import Verif.Mst.FineReserve
import Verif.Mst.FineCommit
import Verif.Mst.FineProps
import Verif.Gift.Model
import Verif.Gift.Geo
import Verif.Gift.Facets
import Verif.Gift.Loop
import Verif.Gift.Final
import Verif.Gift.Props
import Verif.RandInc.Model
import Verif.RandInc.Lemmas
import Verif.RandInc.Reserve
import Verif.RandInc.Ring
import Verif.RandInc.Process
import Verif.RandInc.Step
import Verif.RandInc.Rounds
import Verif.RandInc.Start
import Verif.RandInc.Geo
import Verif.RandInc.Conv
import Verif.RandInc.ConvStep
import Verif.RandInc.Final
import Verif.RandInc.Props
import Verif.LogTree.BufProps
import Verif.Brute.Props
import Verif.Hash.SeqProps
import Verif.IO.CmdProps
import Verif.Emst.Fine
import Verif.Hull3d.CheckModel
import Verif.Hull3d.CheckProps
import Verif.Par.ForkJoin
import Verif.Emst.ConcProps
import Verif.Par.RaceFree
import Verif.BatchKd.DualConcModel
import Verif.BatchKd.DualConcLemmas
import Verif.LogTree.DualConcModel
import Verif.LogTree.DualConcLemmas
import Verif.LogTree.DualConcProps
import Verif.Par.Local
import Verif.KdTree.ConcModel
import Verif.KdTree.ConcLemmas
import Verif.KdTree.ConcProps
import Verif.Emst.BufProps
import Verif.BatchKd.VerifyProps
import Verif.IO.EdgeProps
import Verif.Delaunay.CheckProps
import Verif.Float.Round
import Verif.KdTree.FloatModel
import Verif.KdTree.FloatLemmas
import Verif.KdTree.FloatProps
import Verif.KdTree.BccpFloatModel
import Verif.KdTree.BccpFloatLemmas
import Verif.KdTree.BccpFloatProps
import Verif.KdTree.KnnFloatModel
import Verif.KdTree.KnnFloatLemmas
import Verif.KdTree.KnnFloatProps
import Verif.KdTree.WspdFloatModel
import Verif.KdTree.WspdFloatLemmas
import Verif.KdTree.WspdFloatProps
import Verif.Emst.FloatModel
import Verif.Emst.FloatFilter
import Verif.Emst.FloatLemmas
import Verif.Emst.FloatRound
import Verif.Emst.FloatProps
import Verif.SpatialGraph.SpannerFloatModel
import Verif.SpatialGraph.SpannerFloatProps
import Verif.Delaunay.DriverModel
import Verif.Delaunay.DriverProps
import Verif.Delaunay.ShapeModel
import Verif.Delaunay.ShapeProps
import Verif.Hull2d.FloatModel
import Verif.Hull2d.FloatProps
import Verif.Float.Sqrt
import Verif.BatchKd.KnnFloatModel
import Verif.BatchKd.KnnFloatLemmas
import Verif.BatchKd.KnnFloatProps
import Verif.BatchKd.SplitFloatModel
import Verif.BatchKd.SplitFloatLemmas
import Verif.BatchKd.SplitFloatProps
import Verif.BatchKd.CoFloatModel
import Verif.BatchKd.CoFloatProps
import Verif.DynKd.FloatModel
import Verif.DynKd.FloatLemmas
import Verif.DynKd.FloatProps
import Verif.OctTree.FloatModel
import Verif.OctTree.FloatLemmas
import Verif.OctTree.FloatProps
import Verif.Morton.FloatModel
import Verif.Morton.FloatProps
import Verif.IO.TwoSeq
import Verif.Hash.CheckModel
import Verif.Hash.CheckProps
import Verif.SampleHull.Grid2Model
import Verif.SampleHull.Grid2Props
import Verif.Hull3d.StatsModel
import Verif.Hull3d.StatsProps
import Verif.Hash.FoldProps
import Verif.Hash.ReadModel
import Verif.Hash.ReadProps
