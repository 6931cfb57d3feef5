import Verif.Props.Resolver
import Verif.Props.Lockfile
import Verif.Props.Specs
import Verif.Props.Tarball
import Verif.Props.Scripts
import Verif.Props.AtPath
import Verif.Props.Hoisted
import Verif.Props.Cli
import Verif.Props.PrettyJson
import Verif.Props.Auth
import Verif.Props.Config
import Verif.Props.Mkdirp
import Verif.Props.Npm
import Verif.Props.Metadata
import Verif.Props.ScriptPath
import Verif.Props.Shim
import Verif.Props.Startup
import Verif.Props.Isolated
import Verif.Proofs.IsolatedBins
import Verif.Props.IsolatedBins
import Verif.Props.Order
import Verif.Props.Forms
import Verif.Props.LockPackage
import Verif.Props.Fetch
import Verif.Props.KdlConfig
import Verif.Props.UseCreds
import Verif.Props.Login
import Verif.Props.Requests
import Verif.Props.Setup
import Verif.Props.Proxy
import Verif.Props.Bins
import Verif.Props.Rebuild
import Verif.Model.Add
import Verif.Spec.Add
import Verif.Props.Add
import Verif.Spec.Relock
import Verif.Proofs.Relock
import Verif.Proofs.Relocked
import Verif.Props.Relock
import Verif.Props.Relocked
import Verif.Props.SameTree
import Verif.Spec.Agree
import Verif.Proofs.Agree
import Verif.Proofs.Bound
import Verif.Props.Agree
import Verif.Props.Endless
import Verif.Spec.Acyclic
import Verif.Proofs.Acyclic
import Verif.Props.Acyclic
import Verif.Model.Spelled
import Verif.Spec.Named
import Verif.Props.Named
import Verif.Model.Documents
import Verif.Spec.Documents
import Verif.Props.Documents
import Verif.Spec.Works
import Verif.Proofs.Works
import Verif.Props.Works
import Verif.Props.WorksEx
import Verif.Model.Extract
import Verif.Spec.Extract
import Verif.Props.Extract
import Verif.Model.LinkBins
import Verif.Spec.LinkBins
import Verif.Props.LinkBins
import Verif.Model.ExtractIso
import Verif.Spec.ExtractIso
import Verif.Props.ExtractIso
import Verif.Spec.Again
import Verif.Proofs.Again
import Verif.Proofs.AgainIso
import Verif.Props.Again
import Verif.Props.AgainEx
import Verif.Model.Whole
import Verif.Spec.Whole
import Verif.Proofs.Whole
import Verif.Props.Whole
import Verif.Props.WholeEx
import Verif.Model.View
import Verif.Spec.View
import Verif.Props.View
import Verif.Model.Ping
import Verif.Props.Ping
import Verif.Model.LogFile
import Verif.Props.LogFile
import Verif.Spec.Life
import Verif.Props.Life
import Verif.Props.LifeAgreed
import Verif.Props.LifeEx
import Verif.Props.FailedScripts
import Verif.Model.Stack
import Verif.Spec.Stack
import Verif.Proofs.Closed
import Verif.Props.Stack
import Verif.Props.StackEx
import Verif.Spec.Modes
import Verif.Proofs.TarModes
import Verif.Props.Modes
import Verif.Spec.StackWorks
import Verif.Proofs.Restrict
import Verif.Props.StackWorks
import Verif.Props.StackEnds
import Verif.Props.StackWorksEx
import Verif.Model.Command
import Verif.Props.StackCommand
import Verif.Props.StackAgain
import Verif.Props.StackCommandEx
import Verif.Model.TarRun
import Verif.Spec.TarRun
import Verif.Proofs.TarRun
import Verif.Props.TarRun
import Verif.Proofs.TarFine
import Verif.Props.TarFine
import Verif.Model.InstallRun
import Verif.Spec.InstallRun
import Verif.Proofs.TarHoused
import Verif.Proofs.InstallRun
import Verif.Props.InstallRun
import Verif.Props.InstallRunEx
import Verif.Model.StoreRun
import Verif.Spec.StoreRun
import Verif.Proofs.StoreRun
import Verif.Props.StoreRun
import Verif.Props.StoreRunEx
import Verif.Spec.Private
import Verif.Proofs.TarPrivate
import Verif.Props.Private
import Verif.Spec.Further
import Verif.Proofs.Further
import Verif.Proofs.FurtherRun
import Verif.Props.Further
import Verif.Props.FurtherPruned
import Verif.Props.FurtherEx
import Verif.Props.StoreOutcomes
import Verif.Model.FileLife
import Verif.Spec.FileLife
import Verif.Proofs.Proper
import Verif.Proofs.FileLife
import Verif.Props.FileLife
import Verif.Props.FileLifeEx
import Verif.Spec.Offline
import Verif.Proofs.TarFiled
import Verif.Props.Offline
import Verif.Props.OfflineEx
import Verif.Props.OfflineLife
import Verif.Props.OfflineLifeEx
import Verif.Proofs.Tried
import Verif.Props.Tried
import Verif.Props.TriedEx
import Verif.Model.BinModes
import Verif.Spec.BinModes
import Verif.Props.BinModes
import Verif.Props.BinModesEx
import Verif.Model.IsoBinModes
import Verif.Props.IsoBinModes
import Verif.Props.IsoBinModesEx
import Verif.Props.LinkEnds
import Verif.Props.BinLife
import Verif.Props.BinLifeEx
import Verif.Model.Entries
import Verif.Spec.Entries
import Verif.Props.Entries
import Verif.Props.EntriesEx
import Verif.Props.FirstLinks
import Verif.Props.FirstLinksEx
import Verif.Spec.Torn
import Verif.Props.Torn
import Verif.Props.TornEx
import Verif.Props.TornMeta
import Verif.Props.TornConfig
import Verif.Props.TornSetup
import Verif.Spec.TornJson
import Verif.Props.TornJson
import Verif.Props.TornAdd
import Verif.Props.NameFromPath
import Verif.Props.LockProps
