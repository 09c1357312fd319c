import Verif.Model.Str
import Verif.Model.Ast
import Verif.Model.Registry
import Verif.Model.Load
import Verif.Model.Wrap
import Verif.Model.Strconv
import Verif.Model.Nodes
import Verif.Model.Options
import Verif.Model.Meta
import Verif.Model.Paths
import Verif.Spec.Resolve
import Verif.Spec.History
import Verif.Spec.Types
import Verif.Spec.Protoc
import Verif.Spec.Imports
import Verif.Spec.Names
import Verif.Spec.Identity
import Verif.Spec.Attr
import Verif.Spec.Iter
import Verif.Spec.Options
import Verif.Proof.Resolve
import Verif.Proof.ReadOnly
import Verif.Proof.Inv
import Verif.Proof.InvLoad
import Verif.Proof.InvQuery
import Verif.Proof.Types
import Verif.Proof.Acts
import Verif.Proof.Load
import Verif.Proof.Later
import Verif.Proof.Names
import Verif.Proof.NamesInv
import Verif.Proof.NewFiles
import Verif.Proof.Stable
import Verif.Proof.Iter
import Verif.Proof.Options
import Verif.Examples
import Verif.Props.Resolve
import Verif.Props.Load
import Verif.Props.Names
import Verif.Props.Names2
import Verif.Props.Identity
import Verif.Props.Stable
import Verif.Props.Iter
import Verif.Props.Parents
import Verif.Props.Types
import Verif.Props.Options
import Verif.Spec.Values
import Verif.Proof.Strconv
import Verif.Proof.ValueSpec
import Verif.Proof.Shows
import Verif.Props.Values
import Verif.Spec.Meta
import Verif.Props.Meta
import Verif.Spec.Paths
import Verif.Proof.Paths
import Verif.Props.Paths
import Verif.Model.Conc
import Verif.Props.Conc
import Verif.Props.Outcome
import Verif.Props.FileIndex
import Verif.Spec.Program
import Verif.Props.Protoc
import Verif.Proof.Keep
import Verif.Props.Unknown
import Verif.Props.Exact
import Verif.Props.FieldType
import Verif.Proof.Induct
import Verif.Props.InForce
import Verif.Props.OptionsExact
import Verif.Props.ValueNodes
import Verif.Spec.Panics
import Verif.Proof.Sane
import Verif.Props.Panics
import Verif.Props.Everything
import Verif.Spec.Navigate
import Verif.Props.Navigate
import Verif.Props.Files
import Verif.Spec.Answer
import Verif.Proof.Rename
import Verif.Proof.Rename2
import Verif.Proof.Rename3
import Verif.Proof.Rename4
import Verif.Proof.Rename5
import Verif.Props.LoadOrder
import Verif.Props.Quiet
import Verif.Props.Shared
import Verif.Conformance
import Verif.Model.Readme
import Verif.Spec.Linter
import Verif.Props.LintSteps
import Verif.Props.Linter
import Verif.Props.LinterExamples
import Verif.Props.Changes
import Verif.Props.OptionName
import Verif.Model.QuickStart
import Verif.Spec.QuickStart
import Verif.Props.QuickStart
import Verif.Proof.Again1
import Verif.Proof.Again2
import Verif.Proof.Again3
import Verif.Props.Again
import Verif.Spec.Errors
import Verif.Props.Errors
import Verif.Small.Prog
import Verif.Small.Code
import Verif.Small.Calls
import Verif.Small.Alone
import Verif.Small.Alone2
import Verif.Small.Alone3
import Verif.Small.Again
import Verif.Small.Replay
import Verif.Small.Again2
import Verif.Small.Lock
import Verif.Props.Goroutines
import Verif.Props.Locked
import Verif.Props.Race
import Verif.Small.Accessor
import Verif.Props.Accessors
import Verif.Spec.Tables
import Verif.Props.Tables
import Verif.Small.Blur
import Verif.Small.Crowd1
import Verif.Small.Crowd2
import Verif.Small.Crowd3
import Verif.Small.Crowd4
import Verif.Props.Crowd
import Verif.Spec.Handles
import Verif.Props.Handles
import Verif.Props.Stuck
import Verif.Props.Disk
import Verif.Model.Disk
import Verif.Spec.Disk
import Verif.Proof.Disk
import Verif.Props.Snapshot
import Verif.Model.Output
import Verif.Proof.Output
import Verif.Props.Printed
import Verif.Spec.Walk
import Verif.Props.Walk
import Verif.Props.ValueExact
import Verif.Spec.Origin
import Verif.Proof.Origin
import Verif.Props.Origin
import Verif.Spec.SoundSchema
import Verif.Props.SoundSchema
import Verif.Props.SoundCheck
import Verif.Spec.Hidden
import Verif.Props.Hidden
import Verif.Spec.Tree
import Verif.Proof.Tree
import Verif.Props.Tree
import Verif.Model.Process
import Verif.Spec.Process
import Verif.Proof.Process
import Verif.Proof.Process2
import Verif.Proof.Process3
import Verif.Props.Process
import Verif.Spec.Unreadable
import Verif.Props.Unreadable
import Verif.Model.Float
import Verif.Spec.Float
import Verif.Proof.Float1
import Verif.Proof.Float2
import Verif.Proof.Float3
import Verif.Proof.Float4
import Verif.Proof.Float5
import Verif.Proof.Float6
import Verif.Props.Float
import Verif.Proof.Whole
import Verif.Props.Whole
import Verif.Proof.GoPack
import Verif.Props.GoPack
import Verif.Props.After
import Verif.Model.Platform
import Verif.Spec.Platform
import Verif.Proof.Platform
import Verif.Props.Platform
import Verif.Spec.Moved
import Verif.Props.Moved
import Verif.Spec.Layout
import Verif.Proof.Layout1
import Verif.Proof.Layout2
import Verif.Proof.Layout3
import Verif.Proof.Layout4
import Verif.Props.Layout
