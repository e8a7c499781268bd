import Verif.Model.TreeIter
import Verif.Model.Tree
import Verif.Model.Rib
import Verif.Proofs.Wp
import Verif.Proofs.Bits
import Verif.Proofs.Chain
import Verif.Proofs.NodeBits
import Verif.Proofs.NodeInv
import Verif.Proofs.NodeEval
import Verif.Proofs.TreeInsert
import Verif.Proofs.TreeSeq
import Verif.Proofs.TreeRead
import Verif.Proofs.IterBits
import Verif.Proofs.TreeIter
import Verif.Proofs.PrefixWalk
import Verif.Model.History
import Verif.Spec.History
import Verif.Proofs.PrefixSeq
import Verif.Proofs.RibSeq
import Verif.Proofs.RecSpec
import Verif.Proofs.LsmBytes
import Verif.Proofs.LsmSpec
import Verif.Proofs.QuerySeq
import Verif.Props.Demo
import Verif.Props.Lookup
import Verif.Props.Iterate
import Verif.Props.Records
import Verif.Props.Commute
import Verif.Proofs.ReadOnly
import Verif.Proofs.Always
import Verif.Proofs.NodeCount
import Verif.Props.Queries
import Verif.Props.Counts
import Verif.Spec.PathSel
import Verif.Proofs.PathSel
import Verif.Props.Encoding
import Verif.Props.PathSelection
import Verif.Spec.Persist
import Verif.Proofs.Persist
import Verif.Props.Persist
import Verif.Props.ContainsMui
import Verif.Props.FromQueries
import Verif.Props.Safety
import Verif.Model.StarCast
import Verif.Model.Conc
import Verif.Proofs.ConcSound
import Verif.Proofs.ConcRib
import Verif.Proofs.ConcIter
import Verif.Proofs.ConcCalls
import Verif.Proofs.ConcRead
import Verif.Proofs.ConcQueries
import Verif.Props.RecordSets
import Verif.Props.Families
import Verif.Props.Public
import Verif.Spec.Conc
import Verif.Proofs.ConcAll
import Verif.Proofs.ConcRun
import Verif.Props.ConcDemo
import Verif.Props.Concurrent
import Verif.Proofs.Ghost
import Verif.Proofs.Silent
import Verif.Proofs.Lin
import Verif.Proofs.LinCalls
import Verif.Proofs.Starts
import Verif.Proofs.LinRun
import Verif.Proofs.WdRace
import Verif.Proofs.LinUse
import Verif.Props.Linear
import Verif.Spec.OnceBox
import Verif.Model.OnceBox
import Verif.Proofs.OnceBox
import Verif.Proofs.OnceBoxRun
import Verif.Proofs.OnceBoxRefine
import Verif.Props.OnceBox
import Verif.Proofs.Along
import Verif.Proofs.CountCalls
import Verif.Proofs.CountRun
import Verif.Props.ConcCounts
import Verif.Model.StarConc
import Verif.Spec.StarConc
import Verif.Proofs.StarConc
import Verif.Proofs.StarBridge
import Verif.Props.StarConc
import Verif.Spec.StarQueries
import Verif.Proofs.StarView
import Verif.Proofs.StarLift
import Verif.Props.StarQueries
import Verif.Model.Take
import Verif.Spec.Take
import Verif.Proofs.Take
import Verif.Props.Take
import Verif.Model.Lock
import Verif.Proofs.Lock
import Verif.Proofs.LockActs
import Verif.Proofs.LockCalls
import Verif.Props.Lock
import Verif.Props.Marks
import Verif.Proofs.LinPersist
import Verif.Props.ConcPersist
import Verif.Spec.Walks
import Verif.Proofs.Reads
import Verif.Proofs.ReadsQueries
import Verif.Props.ConcWalks
import Verif.Props.Epoch
import Verif.Model.WeakCell
import Verif.Spec.Weak
import Verif.Model.Weak
import Verif.Model.WeakTree
import Verif.Proofs.Weak
import Verif.Proofs.WeakTree
import Verif.Proofs.WeakTable
import Verif.Proofs.WeakRace
import Verif.Proofs.WeakThreads
import Verif.Proofs.WeakCell
import Verif.Proofs.WeakCellSim
import Verif.Props.Weak
import Verif.Props.WeakTree
import Verif.Props.WeakCell
import Verif.Proofs.CountSteps
import Verif.Props.CountReads
import Verif.Proofs.Timed
import Verif.Spec.ConcSel
import Verif.Proofs.TimedSel
import Verif.Props.ConcSelect
import Verif.Model.Disk
import Verif.Spec.Disk
import Verif.Proofs.Disk
import Verif.Proofs.DiskQuery
import Verif.Proofs.DiskWrites
import Verif.Props.Disk
import Verif.Model.Setup
import Verif.Spec.Setup
import Verif.Proofs.Setup
import Verif.Props.Setup
import Verif.Model.MetaFrom
import Verif.Props.MetaFrom
import Verif.Model.WeakCount
import Verif.Spec.WeakCount
import Verif.Proofs.WeakCount
import Verif.Props.WeakCount
import Verif.Model.Poison
import Verif.Proofs.Poison
import Verif.Proofs.PoisonCalls
import Verif.Props.Poison
import Verif.Model.Scan
import Verif.Spec.Scan
import Verif.Proofs.Scan
import Verif.Proofs.GvWalks
import Verif.Proofs.ScanRun
import Verif.Proofs.ScanEnds
import Verif.Props.Scan
import Verif.Props.ScanWalks
import Verif.Model.Options
import Verif.Spec.Options
import Verif.Props.Options
import Verif.Model.TableHeap
import Verif.Spec.TableHeap
import Verif.Proofs.TableHeap
import Verif.Proofs.TableHeapPc
import Verif.Proofs.TableHeapInv
import Verif.Proofs.TableHeapRun
import Verif.Props.TableHeap
import Verif.Model.Values
import Verif.Spec.Values
import Verif.Proofs.Values
import Verif.Props.Values
import Verif.Model.Pointers
import Verif.Spec.Pointers
import Verif.Proofs.PtrPaths
import Verif.Proofs.PtrOps
import Verif.Proofs.PtrStep
import Verif.Proofs.PtrRun
import Verif.Proofs.PtrThreads
import Verif.Proofs.PtrTab
import Verif.Proofs.PtrCalls
import Verif.Proofs.PtrHist
import Verif.Props.Pointers
import Verif.Model.Retries
import Verif.Spec.Retries
import Verif.Proofs.Retries
import Verif.Props.Retries
import Verif.Spec.Turns
import Verif.Proofs.Turns
import Verif.Proofs.TurnsRib
import Verif.Props.Turns
import Verif.Props.Merge
import Verif.Spec.Space
import Verif.Proofs.Space
import Verif.Props.Space
import Verif.Model.Client
import Verif.Spec.Client
import Verif.Proofs.Client
import Verif.Proofs.Report
import Verif.Props.Client
import Verif.Model.Loader
import Verif.Model.LoadFiles
import Verif.Model.Shell
import Verif.Spec.LoadFiles
import Verif.Spec.Shell
import Verif.Spec.Loader
import Verif.Proofs.Loader
import Verif.Props.Loader
import Verif.Spec.Quiet
import Verif.Proofs.Quiet
import Verif.Props.Quiet
import Verif.Props.StarQuiet
import Verif.Props.LoadFiles
import Verif.Props.Shell
import Verif.Props.LoadVerify
