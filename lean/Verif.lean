import Verif.Base
import Verif.Model.Counter
import Verif.Model.Cursors
import Verif.Model.Data
import Verif.Model.Floats
import Verif.Model.Handles
import Verif.Model.HelpText
import Verif.Model.Iteration
import Verif.Model.Iterators
import Verif.Model.Objects
import Verif.Model.Options
import Verif.Model.Parsed
import Verif.Model.Parser
import Verif.Model.Results
import Verif.Model.Screen
import Verif.Model.Search
import Verif.Model.Store
import Verif.Model.StringUtilities
import Verif.Model.Text
import Verif.Model.Values
import Verif.Model.World
import Verif.Proofs.Active
import Verif.Proofs.Ahead
import Verif.Proofs.Allot
import Verif.Proofs.Bare
import Verif.Proofs.BareParser
import Verif.Proofs.Belongs
import Verif.Proofs.Blind
import Verif.Proofs.Borders
import Verif.Proofs.Builder
import Verif.Proofs.Calls
import Verif.Proofs.CodePoints
import Verif.Proofs.Counted
import Verif.Proofs.Counter
import Verif.Proofs.Cursors
import Verif.Proofs.Decide
import Verif.Proofs.Declaration
import Verif.Proofs.Ease
import Verif.Proofs.EaseInit
import Verif.Proofs.Ends
import Verif.Proofs.Extend
import Verif.Proofs.ExtendInit
import Verif.Proofs.ExtendParse
import Verif.Proofs.Faults
import Verif.Proofs.Filling
import Verif.Proofs.FillingHelp
import Verif.Proofs.Flags
import Verif.Proofs.FlagsParser
import Verif.Proofs.Floats
import Verif.Proofs.Format
import Verif.Proofs.Given
import Verif.Proofs.Good
import Verif.Proofs.Grammar
import Verif.Proofs.Hanging
import Verif.Proofs.Held
import Verif.Proofs.Help
import Verif.Proofs.HelpHanging
import Verif.Proofs.HelpLayout
import Verif.Proofs.Ids
import Verif.Proofs.Ignored
import Verif.Proofs.Init
import Verif.Proofs.InitTree
import Verif.Proofs.Insert
import Verif.Proofs.Iteration
import Verif.Proofs.Iterators
import Verif.Proofs.Layout
import Verif.Proofs.Left
import Verif.Proofs.Line
import Verif.Proofs.LineFacts
import Verif.Proofs.Links
import Verif.Proofs.Locality
import Verif.Proofs.Log
import Verif.Proofs.Lookup
import Verif.Proofs.Loosen
import Verif.Proofs.Nested
import Verif.Proofs.Next
import Verif.Proofs.Numbers
import Verif.Proofs.Objects
import Verif.Proofs.Onward
import Verif.Proofs.Order
import Verif.Proofs.Outcome
import Verif.Proofs.Override
import Verif.Proofs.Phrase
import Verif.Proofs.Print
import Verif.Proofs.Quiet
import Verif.Proofs.Regroup
import Verif.Proofs.RegroupInit
import Verif.Proofs.RegroupIter
import Verif.Proofs.Reorder
import Verif.Proofs.ReorderInit
import Verif.Proofs.ReorderParser
import Verif.Proofs.Results
import Verif.Proofs.Resume
import Verif.Proofs.Rule
import Verif.Proofs.Run
import Verif.Proofs.Say
import Verif.Proofs.Screen
import Verif.Proofs.Search
import Verif.Proofs.Select
import Verif.Proofs.Several
import Verif.Proofs.Shape
import Verif.Proofs.Sound
import Verif.Proofs.Spelled
import Verif.Proofs.Split
import Verif.Proofs.Step
import Verif.Proofs.Store
import Verif.Proofs.Strings
import Verif.Proofs.Tree
import Verif.Proofs.Units
import Verif.Proofs.Unprocessed
import Verif.Proofs.Weight
import Verif.Proofs.World
import Verif.Props.Active
import Verif.Props.Ahead
import Verif.Props.Bare
import Verif.Props.Blind
import Verif.Props.Borders
import Verif.Props.Callbacks
import Verif.Props.Copy
import Verif.Props.Counts
import Verif.Props.Cursors
import Verif.Props.Declaration
import Verif.Props.Ease
import Verif.Props.Extend
import Verif.Props.Faults
import Verif.Props.Filling
import Verif.Props.Flags
import Verif.Props.Floats
import Verif.Props.Grammar
import Verif.Props.Held
import Verif.Props.Help
import Verif.Props.HelpFor
import Verif.Props.Ignored
import Verif.Props.Insert
import Verif.Props.Integers
import Verif.Props.Iteration
import Verif.Props.Layout
import Verif.Props.Left
import Verif.Props.Locality
import Verif.Props.Lookup
import Verif.Props.Nested
import Verif.Props.Objects
import Verif.Props.Occurrences
import Verif.Props.Onward
import Verif.Props.Origin
import Verif.Props.Outcome
import Verif.Props.Override
import Verif.Props.Parser
import Verif.Props.Phrase
import Verif.Props.Reading
import Verif.Props.Regroup
import Verif.Props.Reorder
import Verif.Props.Results
import Verif.Props.Resume
import Verif.Props.Say
import Verif.Props.Screen
import Verif.Props.Settings
import Verif.Props.Several
import Verif.Props.Spelled
import Verif.Props.Store
import Verif.Props.Strings
import Verif.Props.Text
import Verif.Props.Unprocessed
import Verif.Props.World
import Verif.Spec.Active
import Verif.Spec.Bare
import Verif.Spec.Blind
import Verif.Spec.Borders
import Verif.Spec.Calls
import Verif.Spec.Copy
import Verif.Spec.Counts
import Verif.Spec.Cursors
import Verif.Spec.Declaration
import Verif.Spec.Ease
import Verif.Spec.Extend
import Verif.Spec.Faults
import Verif.Spec.Filling
import Verif.Spec.Flags
import Verif.Spec.Floats
import Verif.Spec.Grammar
import Verif.Spec.Held
import Verif.Spec.Help
import Verif.Spec.Ignored
import Verif.Spec.Insert
import Verif.Spec.Iteration
import Verif.Spec.Layout
import Verif.Spec.Line
import Verif.Spec.Links
import Verif.Spec.Locality
import Verif.Spec.Lookup
import Verif.Spec.Nested
import Verif.Spec.Numbers
import Verif.Spec.Objects
import Verif.Spec.Onward
import Verif.Spec.Origin
import Verif.Spec.Override
import Verif.Spec.Phrase
import Verif.Spec.Reader
import Verif.Spec.Regroup
import Verif.Spec.Reorder
import Verif.Spec.Results
import Verif.Spec.Resume
import Verif.Spec.Say
import Verif.Spec.Screen
import Verif.Spec.Settings
import Verif.Spec.Several
import Verif.Spec.Store
import Verif.Spec.Strings
import Verif.Spec.Text
import Verif.Spec.Trace
import Verif.Spec.Tree
import Verif.Spec.World
