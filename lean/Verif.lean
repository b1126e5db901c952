import Verif.Props.Codec
import Verif.Props.Order
import Verif.Props.LeafPage
import Verif.Props.InvTsquery
import Verif.Props.Positions
import Verif.Props.TsQuery
import Verif.Props.ArrayOps
import Verif.Props.BtreeOps
import Verif.Props.DataPage
import Verif.Props.Split
import Verif.Props.ScanPage
import Verif.Props.EntryScan
import Verif.Props.EntryPage
import Verif.Props.Extract
import Verif.Props.TidBitmap
import Verif.Props.Sort
import Verif.Props.Options
import Verif.Props.Validate
import Verif.Props.ScanRegular
import Verif.FastScan
import Verif.FastLemmas
import Verif.Props.FastScan
import Verif.Tree
import Verif.TreeInv
import Verif.TreeSteps
import Verif.TreeInsert
import Verif.TreeKeeps
import Verif.TreeRecords
import Verif.TreeLeaf
import Verif.TreeRun
import Verif.Conc
import Verif.PostingTree
import Verif.PostingTreeLemmas
import Verif.TreeEval
import Verif.Props.PostingTree
import Verif.TreeVacuum
import Verif.TreeDelete
import Verif.TreeVacLemmas
import Verif.Props.VacuumTree
import Verif.ConcInv
import Verif.ConcStep
import Verif.ConcSys
import Verif.ConcRead
import Verif.ConcFree
import Verif.PostingScan
import Verif.Props.Conc
import Verif.BackScan
import Verif.Props.BackScan
import Verif.EntryTree
import Verif.EntryTreeLemmas
import Verif.EntryTreeInv
import Verif.EntryTreeInsert
import Verif.RowInsert
import Verif.Props.Index
import Verif.Bulk
import Verif.BulkLemmas
import Verif.Props.Bulk
import Verif.Natural
import Verif.FullScan
import Verif.ScanKeys
import Verif.Props.ScanKeys
import Verif.Props.FullScan
import Verif.Props.Natural
import Verif.OrderVals
import Verif.Props.OrderVals
import Verif.IndexVacuum
import Verif.IndexVacuumLemmas
import Verif.IndexVacuumRun
import Verif.Props.IndexVacuum
import Verif.Query
import Verif.QueryLemmas
import Verif.FullText
import Verif.Props.Query
import Verif.Props.FullText
import Verif.Props.FullTextHash
import Verif.Rank
import Verif.RankNorm
import Verif.PageRefs
import Verif.TapeBytes
import Verif.Props.Rank
import Verif.Props.BackQuiet
import Verif.Collect
import Verif.CollectLemmas
import Verif.Props.Collect
import Verif.Scalar
import Verif.Props.Scalar
import Verif.Props.Plain
import Verif.ArraySearch
import Verif.Props.ArraySearch
import Verif.TextSearch
import Verif.Props.SearchAnswer
import Verif.Props.TextSearch
import Verif.Props.TextTable
import Verif.MixedSearch
import Verif.Props.MixedSearch
import Verif.Props.RankCovers
import Verif.Props.RankNorm
import Verif.Props.RankIndexSign
import Verif.DebugEntry
import Verif.Props.DebugEntry
import Verif.Props.PageRefs
import Verif.Props.TapeBytes
import Verif.Props.ScanDirection
import Verif.VacConc
import Verif.VacRead
import Verif.Props.VacConc
import Verif.IndexConc
import Verif.IndexConcStep
import Verif.IndexConcInv
import Verif.IndexConcRun
import Verif.Props.IndexConc
import Verif.Props.IndexVacConc
import Verif.Props.QueryConc
import Verif.IndexVacConc
import Verif.IndexVacTree
import Verif.IndexVacInv
import Verif.IndexVacRunConc
import Verif.IndexVacStart
import Verif.IndexVacStep
import Verif.IndexWalk
import Verif.IndexWalkLemmas
import Verif.IndexWalkStep
import Verif.Props.IndexWalk
import Verif.InvSearch
import Verif.Props.InvSearch
import Verif.Debug
import Verif.Props.Debug
import Verif.TupleBytes
import Verif.Props.TupleBytes
import Verif.Props.QueryWalk
import Verif.QSort
import Verif.Props.QSort
import Verif.TapeSort
import Verif.Props.TapeSort
import Verif.Props.BalSort
import Verif.Props.OrderSort
