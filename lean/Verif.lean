import Verif.Props.BitIo
import Verif.Props.Xor
import Verif.Props.Rle
import Verif.Props.Sprintz
import Verif.Props.Query
import Verif.Props.Format
import Verif.Props.File
import Verif.Props.FileQuery
import Verif.Props.LargeFile
import Verif.Props.Buff
import Verif.Props.BuffQuery
import Verif.Props.Elf
import Verif.Props.ChunkReader
import Verif.Props.Registry
import Verif.Api
import Verif.Props.Knn
import Verif.Props.KnnAny
import Verif.Props.Matmul
import Verif.Props.MatmulAny
import Verif.Props.Expr
import Verif.Props.Aggregation
import Verif.InSituLemmas
import Verif.Props.InSitu
import Verif.Output
import Verif.OutputLemmas
import Verif.Props.Output
import Verif.Props.Trailing
import Verif.QueryOutput
import Verif.Props.QueryOutput
import Verif.SizeLemmas
import Verif.Props.Size
import Verif.Props.Damage
import Verif.Props.Memory
import Verif.Alp
import Verif.Props.Alp
import Verif.Props.Cut
import Verif.Props.Failed
import Verif.Props.Truncated
import Verif.Props.Tpch
import Verif.Props.Cuda
import Verif.Props.Decimal
import Verif.Props.DecimalFile
import Verif.Ucr
import Verif.Props.Ucr
import Verif.Driver
import Verif.DriverLemmas
import Verif.Props.Driver
import Verif.Props.Check
import Verif.Table
import Verif.Props.Table
import Verif.Props.Text
import Verif.Props.Precision
import Verif.Props.Parse
import Verif.Matrix
import Verif.MatrixLemmas
import Verif.Props.Matrix
import Verif.SumLemmas
import Verif.Props.Independent
import Verif.IeeeLemmas
import Verif.Props.Ieee
import Verif.Props.Short
import Verif.Stats
import Verif.StatsLemmas
import Verif.Props.Stats
import Verif.Embedding
import Verif.Props.Embedding
import Verif.Saving
import Verif.Props.Saving
import Verif.Props.Counters
import Verif.Transpose
import Verif.Props.Transpose
import Verif.Props.PrecisionFilter
import Verif.Timing
import Verif.Props.Timing
import Verif.Commands
import Verif.Props.Commands
import Verif.Props.ByChunk
import Verif.Props.Compose
import Verif.Props.Edges
import Verif.Defaults
import Verif.Props.Defaults
