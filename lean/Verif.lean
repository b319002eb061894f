import Verif.NC.Props
import Verif.CSR.Props
import Verif.SA.Props
import Verif.DataStruct.Props
import Verif.Tools.Props
import Verif.Graph.Props
import Verif.Graph.RandomProps
import Verif.Graph.Matrix
import Verif.BFS.Props
import Verif.BFS.Clusters
import Verif.BFS.Weak
import Verif.BFS.Indices
import Verif.Group.SAProps
import Verif.Roles.Props
import Verif.Missing.Score
import Verif.Missing.Gibbs
import Verif.KState.Score
import Verif.Bipart.Props
import Verif.Recommend.Score
import Verif.Compare.Mutual
import Verif.Compare.Classified
import Verif.IO.EdgeList
import Verif.IO.Partition
import Verif.IO.Clustering
import Verif.Project.Props
import Verif.Btw.Props
import Verif.Btw.LinkProps
import Verif.Models.Model
import Verif.Models.Lemmas
import Verif.Models.Props
import Verif.Models.PA
import Verif.Bipart.ModModel
import Verif.Bipart.ModProps
import Verif.Group.RoleModel
import Verif.Group.RoleProps
import Verif.Block.Model
import Verif.Block.Spec
import Verif.Block.Props
import Verif.Block.SparseModel
import Verif.Block.SparseProps
import Verif.Graph.SumModel
import Verif.Graph.SumProps
import Verif.Graph.CompareProps
import Verif.Graph.ThinModel
import Verif.Graph.ThinProps
import Verif.BFS.CorrModel
import Verif.BFS.CorrSpec
import Verif.BFS.AssortProps
import Verif.BFS.Trans
import Verif.BFS.Square
import Verif.BFS.StrongModel
import Verif.BFS.Strong
import Verif.Graph.SetsModel
import Verif.Graph.Sets
import Verif.Group.CopyModel
import Verif.Group.CopyProps
import Verif.Graph.Groups
import Verif.Bipart.BuildModel
import Verif.Bipart.Build
import Verif.Bipart.TeamsModel
import Verif.Bipart.Teams
import Verif.Bipart.PartModel
import Verif.Bipart.Part
import Verif.Layout.Model
import Verif.Layout.Boxes
import Verif.Layout.Forces
import Verif.Layout.Dynamics
import Verif.Layout.ArrangeModel
import Verif.Layout.Arrange
import Verif.Missing.NetScoreModel
import Verif.Missing.NetScore
import Verif.Missing.ReconstructModel
import Verif.Missing.Reconstruct
import Verif.Search.Model
import Verif.Search.Spec
import Verif.Search.Insert
import Verif.Search.DeleteModel
import Verif.Search.Delete
import Verif.Search.DictModel
import Verif.Search.Dict
import Verif.Recommend.GibbsModel
import Verif.Recommend.Gibbs
import Verif.Recommend.GibbsStep
import Verif.Recommend.GibbsScore
import Verif.Recommend.Conflict
import Verif.Print.Model
import Verif.Print.Adjacency
import Verif.Print.BiModel
import Verif.Print.Pajek
import Verif.Group.FastModel
import Verif.Group.Fast
import Verif.Group.BlockMatModel
import Verif.Group.BlockMat
import Verif.Group.SoftModel
import Verif.Group.Soft
import Verif.Graph.IsoModel
import Verif.Graph.Iso
import Verif.BFS.HistModel
import Verif.BFS.Hist
import Verif.Btw.BigModel
import Verif.Btw.Big
import Verif.Btw.Stats
import Verif.Recommend.QueryModel
import Verif.Recommend.Query
import Verif.Warm.Model
import Verif.Warm.Thermal
import Verif.Warm.Decor
import Verif.Warm.RefineModel
import Verif.Warm.Refine
import Verif.Heap.Model
import Verif.Heap.Lemmas
import Verif.Heap.Rep
import Verif.Heap.Props
import Verif.Heap.CopyModel
import Verif.Heap.CopyLemmas
import Verif.Heap.CopyProps
import Verif.Netcarto.Model
import Verif.Netcarto.Spec
import Verif.Netcarto.Lemmas
import Verif.Netcarto.Load
import Verif.Netcarto.Props
import Verif.Netcarto.File
import Verif.Netcarto.Roles
import Verif.BFS.WeakAll
import Verif.Graph.Giant
import Verif.Spectrum.Model
import Verif.Spectrum.Props
import Verif.Utils.Spec
import Verif.Utils.Model
import Verif.Utils.Load
import Verif.Utils.Count
import Verif.Utils.Paths
import Verif.Utils.Output
import Verif.Utils.NetPropModel
import Verif.Utils.NetPropSpec
import Verif.Utils.NetPropLemmas
import Verif.Utils.NetProp
import Verif.Programs.Model
import Verif.Programs.Spec
import Verif.Programs.Counts
import Verif.Programs.Scores
import Verif.Programs.PartModel
import Verif.Programs.PartSpec
import Verif.Programs.Groups
import Verif.Programs.BiMod
import Verif.KState.Average
import Verif.Programs.KModel
import Verif.Programs.KSpec
import Verif.Programs.KScores
import Verif.Programs.RecModel
import Verif.Programs.RecSpec
import Verif.Programs.Reconstruct
import Verif.Programs.RatingModel
import Verif.Programs.RatingSpec
import Verif.Programs.Ratings
import Verif.Layout.SpaceModel
import Verif.Layout.Space
import Verif.Layout.SpaceRun
import Verif.Layout.Trace
import Verif.Layout.ArrangeBound
import Verif.Graph.SumOrder
import Verif.Layout.Rest
import Verif.Layout.EnergyModel
import Verif.Layout.Energy
import Verif.Layout.ArrangeMoves
import Verif.Programs.DrawModel
import Verif.Programs.DrawSpec
import Verif.Programs.DrawSum
import Verif.Programs.Draw
import Verif.Programs.LegacySpec
import Verif.Programs.LegacyModel
import Verif.Programs.Legacy
import Verif.Programs.LegacyRun
import Verif.Programs.Struct
import Verif.Programs.Forever
import Verif.Bipart.Tab
import Verif.Group.LookupModel
import Verif.Group.Lookup
import Verif.Search.FreeModel
import Verif.Search.Free
import Verif.Group.RemoveModel
import Verif.Group.Remove
import Verif.Basic.Balance
import Verif.Missing.Balance
import Verif.Block.Balance
import Verif.KState.Balance
import Verif.Recommend.Balance
import Verif.Basic.HeatBath
import Verif.Missing.GibbsBalance
import Verif.Block.GibbsBalance
import Verif.Recommend.GibbsBalance
import Verif.Basic.Sweep
import Verif.Convergence
import Verif.Missing.Posterior
import Verif.Recommend.Posterior
import Verif.KState.Posterior
import Verif.Block.Posterior
import Verif.Basic.Sample
import Verif.Accuracy
import Verif.Rounded
import Verif.RoundedSweep
import Verif.RoundedAccuracy
import Verif.RoundedLists
