import Verif.Props.Creation
import Verif.Props.History
import Verif.Props.Walk
import Verif.Props.Mount
import Verif.Props.Mount2
import Verif.Props.Extract2
import Verif.Props.Extract3
import Verif.Props.Extract4
import Verif.Props.Calls
import Verif.Props.Adder4
import Verif.Props.Seen
import Verif.Props.Trip
import Verif.Props.Steps
import Verif.Props.TripConv
import Verif.Props.Main
import Verif.Props.ConvertEx
import Verif.Props.Zip
import Verif.Props.Mount3
import Verif.Props.Cmd2
import Verif.Props.CmdUtils
import Verif.Props.Python
import Verif.Props.Python2
import Verif.Props.Create2
import Verif.Props.RoundTrip
import Verif.Props.Dedup
import Verif.Props.Hostile
import Verif.Props.Output
import Verif.Props.HostileExtract
import Verif.Props.Exact
import Verif.Props.Exact2
import Verif.Props.Exact3
import Verif.Props.ConvertIff
import Verif.Props.Resume
import Verif.Props.Partway
import Verif.Model.ConvertMain
import Verif.Model.MountCmd
import Verif.Props.ConvertMain
import Verif.Props.FileName
import Verif.Props.MountCmd
import Verif.Model.Container
import Verif.Spec.Container
import Verif.Props.Container
import Verif.Spec.Client
import Verif.Props.Client
import Verif.Props.Filter
import Verif.Spec.HostileMount
import Verif.Props.HostileMount
import Verif.Props.Success
import Verif.Spec.Views
import Verif.Props.Views
import Verif.Spec.CreateOk
import Verif.Proof.AddIff
import Verif.Props.CreateOk
import Verif.Spec.CreateCrash
import Verif.Proof.AddPanic
import Verif.Props.CreateCrash
import Verif.Spec.TripMount
import Verif.Props.TripMount
import Verif.Spec.PyCreate
import Verif.Props.PyCreate
import Verif.Props.PyAfter
import Verif.Props.PyEntry
import Verif.Props.ConvCrash
import Verif.Spec.Inside
import Verif.Proof.Inside
import Verif.Props.Inside
import Verif.Spec.Ends
import Verif.Proof.Ends
import Verif.Props.Ends
import Verif.Spec.SameItems
import Verif.Props.SameItems
import Verif.Spec.Words
import Verif.Proof.WordsProof
import Verif.Props.Words
import Verif.Props.PySame
import Verif.Model.CmdLine
import Verif.Spec.CmdLine
import Verif.Proof.CmdLineProof
import Verif.Props.CmdLine
import Verif.Spec.Readme
import Verif.Props.Readme
import Verif.Props.ListFile
import Verif.Props.Upgrade
import Verif.Props.PyReadme
import Verif.Props.ToolReadme
import Verif.Props.Migrate
import Verif.Props.ConvMount
import Verif.Spec.Reproduce
import Verif.Proof.FirstMade
import Verif.Proof.FirstInput
import Verif.Props.Reproduce
import Verif.Spec.SameCommand
import Verif.Proof.ResolveTwice
import Verif.Props.SameCommand
import Verif.Props.PartWhole
import Verif.Model.Stats
import Verif.Props.Stats
import Verif.Spec.ListText
import Verif.Props.ListText
import Verif.Props.ShowDirs
import Verif.Props.Packing
import Verif.Props.Memory
import Verif.Props.Rows
import Verif.Props.Packs
import Verif.Props.Schedule
import Verif.Props.Inodes
import Verif.Props.StableList
import Verif.Props.ContentRead
import Verif.Props.Escape
import Verif.Props.OutputLost
import Verif.Props.EscapeTar
import Verif.Props.SameItemsPy
