import Verif.Props.Markers
import Verif.Props.Comments
import Verif.Props.Merge
import Verif.Props.Edits
import Verif.Props.Delete
import Verif.Props.Combine
import Verif.Props.Apply
import Verif.Props.Order
import Verif.Props.Lexer
import Verif.Props.Builder
import Verif.Props.Inject
import Verif.Props.InjectMany
import Verif.Props.Safety
import Verif.Props.Errors
import Verif.Props.Crash
import Verif.Props.Commute
import Verif.Lemmas.Accept
import Verif.Props.Files
import Verif.Props.Paths
import Verif.Props.RelPaths
import Verif.Props.Dirs
import Verif.Props.Output
import Verif.Props.Config
import Verif.Props.Execute
import Verif.Props.Heap
import Verif.Props.HeapApply
import Verif.Props.Pipeline
import Verif.Props.Decode
import Verif.Props.Nulls
import Verif.Props.AdHoc
import Verif.Props.FromFile
import Verif.Props.Process
import Verif.Props.Startup
import Verif.Props.Anchors
import Verif.Props.Schedules
import Verif.Props.Scoping
import Verif.Props.Split
import Verif.Props.Concern
import Verif.Props.Cwd
import Verif.Props.Whence
import Verif.Props.Steps
import Verif.Props.Inputs
import Verif.Props.JsonPath
import Verif.Props.Args
import Verif.Props.Valid
import Verif.Props.Commands
import Verif.Props.Graph
import Verif.Props.GraphText
import Verif.Props.Search
import Verif.Props.Missing
import Verif.Props.Keys
import Verif.Props.Fill
import Verif.Props.Again
import Verif.Props.Log
import Verif.Props.LogSearch
import Verif.Props.Local
import Verif.Props.LastWord
import Verif.Check.RepoTests
import Verif.Check.DocExamples
import Verif.Props.HeapFile
import Verif.Props.Arrays
import Verif.Lemmas.Sources
import Verif.Spec.Sources
import Verif.Props.Sources
import Verif.Spec.Overlap
import Verif.Lemmas.Overlap
import Verif.Props.Overlap
import Verif.Model.Compare
import Verif.Spec.Compare
import Verif.Lemmas.Compare
import Verif.Props.Compare
import Verif.Spec.Layers
import Verif.Lemmas.Layers
import Verif.Props.Layers
