import Verif.Graph.Model
import Verif.Graph.Spec
import Verif.Graph.Lemmas
import Verif.Graph.Theorems
import Verif.TaskList.Model
import Verif.TaskList.Spec
import Verif.TaskList.Lemmas
import Verif.TaskList.Lemmas2
import Verif.TaskList.Lemmas3
import Verif.TaskList.Theorems
import Verif.TaskList.Threads
import Verif.TaskList.ThreadLemmas
import Verif.TaskList.ThreadSim
import Verif.TaskList.ThreadInv
import Verif.TaskList.ThreadTheorems
import Verif.Db.Map
import Verif.Db.Model
import Verif.Db.Spec
import Verif.Db.Lemmas
import Verif.Fs.Path
import Verif.Db.Theorems
import Verif.Db.Load
import Verif.Db.Tasks
import Verif.Build.Model
import Verif.Build.Spec
import Verif.Build.Theorems
import Verif.Build.Lemmas
import Verif.Build.History
import Verif.Build.Load
import Verif.Sched.CondVar
import Verif.Sched.ThreadPool
import Verif.Sched.ThreadStart
import Verif.Io.Fifo
import Verif.Io.Buffers
import Verif.Loaders.Model
import Verif.Loaders.Spec
import Verif.Loaders.Ext
import Verif.Loaders.Cxx
import Verif.Loaders.Inc
import Verif.Text.Enums
import Verif.Text.BuildId
import Verif.Text.Shell
import Verif.Text.Numbers
import Verif.Text.Date
import Verif.Kvs.Model
import Verif.Kvs.Spec
import Verif.Kvs.Lemmas
import Verif.Kvs.Theorems
import Verif.Kvs.Compiler
import Verif.Kvs.Config
import Verif.Cli.Model
import Verif.Cli.Theorems
import Verif.Paths.Ext
import Verif.Paths.Normal
import Verif.Paths.Relative
import Verif.Tree.Model
import Verif.Tree.Names
import Verif.Tree.Tags
import Verif.Tree.Scanner
import Verif.Tree.ScanTheorems
import Verif.Tree.ScanMoving
import Verif.Tree.ScanMovingExamples
import Verif.Tree.ScanThreads
import Verif.Tree.ScanThreadLemmas
import Verif.Tree.ScanThreadSim
import Verif.Tree.ScanThreadInv
import Verif.Tree.ScanThreadTheorems
import Verif.Build.Dry
import Verif.Exec.Status
import Verif.Exec.Launch
import Verif.Exec.Descriptors
import Verif.Tree.Commands
import Verif.Build.Log
import Verif.Utils.UniqueFunction
import Verif.Utils.ScopeExit
import Verif.Utils.LoaderHandle
import Verif.Build.Several
import Verif.Build.Origin
import Verif.Main.Run
import Verif.Main.RunExamples
import Verif.Main.Targets
import Verif.Kvs.JsonLoad
import Verif.Kvs.RecipeOutput
import Verif.Main.Source
import Verif.Main.DepGraph
import Verif.Main.Program
import Verif.Main.ProgramExamples
import Verif.Exec.Transfer
import Verif.Build.Edges
import Verif.Graph.Sim
import Verif.Build.Content
import Verif.Build.Determined
import Verif.Main.Request
import Verif.Main.RequestExamples
import Verif.Build.Retry
import Verif.Main.Retry
import Verif.Main.RetryExamples
import Verif.Recipes.Model
import Verif.Recipes.Link
import Verif.Main.Linked
import Verif.Main.LinkedExamples
import Verif.Main.Library
import Verif.Recipes.Script
import Verif.Recipes.Archive
import Verif.Recipes.Status
import Verif.Recipes.StatusExamples
import Verif.Recipes.Documents
import Verif.Recipes.Revision
import Verif.Recipes.RevisionExamples
import Verif.Recipes.Compile
import Verif.Main.Compiled
import Verif.Main.CompiledExamples
import Verif.Main.Incremental
import Verif.Main.IncrementalExamples
import Verif.Build.Necessary
import Verif.Main.Necessary
import Verif.Main.NecessaryExamples
import Verif.Build.Ends
import Verif.Main.Ends
import Verif.Main.EndsExamples
import Verif.Build.Processes
import Verif.Build.Promises
import Verif.Main.Processes
import Verif.Main.ProcessesExamples
import Verif.Recipes.Report
import Verif.Main.Reports
import Verif.Main.ReportsExamples
import Verif.Build.Settings
import Verif.Main.Settings
import Verif.Main.SettingsExamples
import Verif.Cli.Help
import Verif.Main.Queries
import Verif.Build.Serial
import Verif.Build.Reads
import Verif.Build.SerialExamples
import Verif.Main.Serial
import Verif.Main.SerialExamples
import Verif.Build.Histories
import Verif.Build.HistoriesExamples
import Verif.Main.Histories
import Verif.Main.HistoriesExamples
import Verif.Kvs.JsonText
import Verif.Kvs.JsonTextUses
import Verif.Kvs.Heap
import Verif.Kvs.Ownership
import Verif.Kvs.OwnershipTheorems
import Verif.Kvs.Names
import Verif.Kvs.JsonDecode
import Verif.Kvs.ConfigDump
import Verif.Main.Dump
import Verif.Build.Accept
import Verif.Main.Accept
import Verif.Main.AcceptExamples
import Verif.Build.Reasons
import Verif.Main.Messages
import Verif.Main.MessagesExamples
import Verif.Text.Script
import Verif.Build.Logged
import Verif.Build.LogTells
import Verif.Kvs.JsonPlain
import Verif.Main.Bootstrap
import Verif.Main.BootstrapExamples
import Verif.Main.LogTells
import Verif.Main.LogTellsExamples
import Verif.Main.BootstrapNamed
import Verif.Main.BootstrapNamedExamples
import Verif.TaskList.ThreadComplete
import Verif.Build.Threads
import Verif.Build.ThreadsComplete
import Verif.Build.ThreadTheorems
import Verif.Build.ThreadsEnd
import Verif.Main.Threads
import Verif.Main.ThreadStart
import Verif.Main.ThreadsExamples
import Verif.Text.Template
import Verif.Text.About
import Verif.Text.AboutTheorems
import Verif.Tree.Regex
import Verif.Main.Filters
import Verif.Build.Edits
import Verif.Main.Edits
import Verif.Main.EditsExamples
import Verif.Tree.Links
import Verif.Main.Links
import Verif.Main.LinksExamples
import Verif.Recipes.Generators
import Verif.Recipes.OwnScripts
import Verif.Main.Generators
import Verif.Build.Fleet
import Verif.Build.FleetIdle
import Verif.Build.FleetExamples
import Verif.Main.Fleet
import Verif.Main.ScanMoving
import Verif.Main.ScanMovingExamples
import Verif.Build.Separate
import Verif.Build.SeparateExamples
import Verif.Build.SeparatePieces
import Verif.Build.SeparatePiecesExamples
import Verif.Main.Separate
import Verif.Main.SeparateExamples
