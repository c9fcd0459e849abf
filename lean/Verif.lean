import Verif.Props.Format
import Verif.Props.DirParser
import Verif.Props.Compress
import Verif.Props.LLDecompress
import Verif.Props.Session
import Verif.Props.Walk
import Verif.Props.HL
import Verif.Props.HLFail
import Verif.Props.HLConfine
import Verif.Props.HLSafe
import Verif.Props.HLRound
import Verif.Props.Resources
import Verif.Props.Args
import Verif.Props.Tools
import Verif.Props.Accept
import Verif.Props.Stream
import Verif.Props.Repro
import Verif.Props.HLExtra
import Verif.Props.FileRead
import Verif.Props.Compressdir
import Verif.Props.Installer
import Verif.Props.Layout
import Verif.Props.LayoutRead
import Verif.Props.HLConfineLink
import Verif.Props.Interrupt
import Verif.Props.InterruptLink
import Verif.Props.Concurrent
import Verif.Props.ConcurrentLink
import Verif.Props.Copy
import Verif.Props.Lossy
import Verif.Props.DeflateErr
import Verif.Props.HLTest
import Verif.Props.SameCopy
import Verif.Model.Destroy
import Verif.Spec.Destroy
import Verif.Proofs.Destroy
import Verif.Props.Destroy
import Verif.Model.Stack
import Verif.Spec.Stack
import Verif.Proofs.Stack
import Verif.Props.Stack
import Verif.Spec.Relink
import Verif.Proofs.Relink
import Verif.Proofs.FirstBlock
import Verif.Proofs.BigSample
import Verif.Props.HLRelink
import Verif.Model.LLTest
import Verif.Spec.LLTest
import Verif.Proofs.LLTest
import Verif.Proofs.LLTestRun
import Verif.Props.LLTest
import Verif.Props.CopyLoose
import Verif.Props.HLTestLoose
import Verif.Model.SelfDisk
import Verif.Spec.SelfDisk
import Verif.Proofs.SelfDisk
import Verif.Props.SelfDisk
import Verif.Props.SelfStart
import Verif.Proofs.MkdirDeep
import Verif.Props.MkdirDeep
import Verif.Proofs.MkdirSlash
import Verif.Props.MkdirSlash
import Verif.Spec.Live
import Verif.Model.Live
import Verif.Proofs.Live
import Verif.Props.Live
import Verif.Model.Icon
import Verif.Spec.Icon
import Verif.Props.Icon
import Verif.Proofs.SelfLoose
import Verif.Props.SelfLoose
import Verif.Model.Remove
import Verif.Spec.Remove
import Verif.Proofs.Remove
import Verif.Props.Remove
import Verif.Props.SelfClean
import Verif.Props.Current
import Verif.Props.Dest
import Verif.Props.WalkDepth
import Verif.Props.Merge
import Verif.Props.End
import Verif.Props.End
import Verif.Props.Win
import Verif.Props.SelfCopy
import Verif.Props.WinSuccess
import Verif.Props.Rfc
import Verif.Proofs.FileArchive
import Verif.Proofs.WinFile
import Verif.Props.WinFile
import Verif.Spec.Held
import Verif.Proofs.LedgerRun
import Verif.Props.Held
import Verif.Proofs.WinGrow
import Verif.Props.WinBounds
import Verif.Spec.Faults
import Verif.Proofs.Faults
import Verif.Proofs.WinFaults
import Verif.Props.Faults
import Verif.Props.WinFaults
import Verif.Proofs.CopyAgain
import Verif.Props.Again
import Verif.Model.WinWalk
import Verif.Spec.WinDisk
import Verif.Proofs.WinWalk
import Verif.Proofs.WinDisk
import Verif.Props.WinCopy
import Verif.Proofs.WinExtra
import Verif.Props.WinExtra
import Verif.Spec.WinUnix
import Verif.Props.WinUnix
import Verif.Model.SelfWin
import Verif.Spec.SelfWin
import Verif.Proofs.SelfWin
import Verif.Props.SelfWin
import Verif.Spec.WinLossy
import Verif.Proofs.WinLossy
import Verif.Props.WinLossy
import Verif.Spec.UnixWin
import Verif.Props.UnixWin
import Verif.Proofs.Trip
import Verif.Props.Trip
import Verif.Proofs.WinHalt
import Verif.Proofs.WinStop
import Verif.Props.WinStop
import Verif.Proofs.WinAgain
import Verif.Props.WinAgain
import Verif.Props.Beginning
import Verif.Spec.WinPart
import Verif.Props.WinBeginning
import Verif.Spec.Begun
import Verif.Proofs.Begun
import Verif.Proofs.BegunLog
import Verif.Proofs.BegunRun
import Verif.Props.Recover
import Verif.Proofs.WinBegun
import Verif.Props.WinRecover
import Verif.Proofs.Retry
import Verif.Props.Retry
import Verif.Proofs.WinRetry
import Verif.Props.WinRetry
import Verif.Spec.Later
import Verif.Spec.WinLater
import Verif.Proofs.Later
import Verif.Proofs.WinLater
import Verif.Props.Later
import Verif.Props.WinLater
import Verif.Proofs.FullDisk
import Verif.Props.FullDisk
import Verif.Model.ToolDisk
import Verif.Props.ToolDisk
import Verif.Props.ToolCopy
