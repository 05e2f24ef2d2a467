import Verif.Wal.RoundTrip
import Verif.Wal.Props
import Verif.Extents.Props
import Verif.Extents.Drain
import Verif.SeqBuf.Props
import Verif.S3Queue.Props
import Verif.Ucm.Props
import Verif.PagePool.LocalProps
import Verif.PageState.Bits
import Verif.PageState.Props
import Verif.KeyBitmap.Props
import Verif.KeyBitmap.PkProps
import Verif.Tuple.Props
import Verif.LogicalXid.Props
import Verif.LogicalXid.DecodeProps
import Verif.OBuffers.Violations
import Verif.OBuffers.CleanupProps
import Verif.Relnode.Props
import Verif.OxidMap.Violations
import Verif.OxidMap.Checkpoint
import Verif.Snapshots.Props
import Verif.UndoLog.Props
import Verif.UndoStack.Props
import Verif.RowLocks.Props
import Verif.UndoFlush.Props
import Verif.PageSplit.Props
import Verif.Fastpath.Props
import Verif.PageChunks.Props
import Verif.Visible.Props
import Verif.Visible.ScanProps
import Verif.IndexAm.Props
import Verif.Toast.Props
import Verif.Replay.Props
import Verif.Image.Props
import Verif.Workers.Props
import Verif.Cic.Props
import Verif.SeqScan.Props
import Verif.S3Parts.Props
import Verif.Rewind.Props
import Verif.S3Backup.Props
import Verif.CatRecords.Props
import Verif.S3Lock.Props
import Verif.S3Headers.Props
import Verif.SysCache.Props
import Verif.ArrayScan.Props
import Verif.ArrayScan.SkipProps
import Verif.EnumCache.Props
import Verif.CheckExtents.Props
import Verif.BridgeVacuum.Props
import Verif.Ctid.Props
import Verif.BridgeVacuum.PagesProps
