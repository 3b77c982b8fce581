import Verif.Model.Basic
import Verif.Model.Heap
import Verif.Model.Arith
import Verif.Model.Code
import Verif.Model.Compile
import Verif.Model.Machine
import Verif.Model.Render
import Verif.Model.Organizer
import Verif.Spec.Logic
import Verif.Proof.Util
import Verif.Proof.Heap
import Verif.Proof.Sem
import Verif.Proof.Interp
import Verif.Proof.UnifyTerm
import Verif.Proof.DerefHang
import Verif.Proof.Check
import Verif.Proof.Turn
import Verif.Proof.Den
import Verif.Proof.Put
import Verif.Proof.Regs
import Verif.Proof.Replay
import Verif.Proof.Perm
import Verif.Proof.Perm2
import Verif.Proof.Head
import Verif.Proof.Head2
import Verif.Proof.Frames
import Verif.Proof.Frames2
import Verif.Proof.Frames3
import Verif.Proof.Shape
import Verif.Proof.Store
import Verif.Props.Unify
import Verif.Spec.History
import Verif.Spec.Defined
import Verif.Spec.Demo
import Verif.Proof.Reach
import Verif.Proof.Search
import Verif.Proof.Search2
import Verif.Proof.Search3
import Verif.Props.Search
import Verif.Props.Text
import Verif.Proof.Control2
import Verif.Proof.Arith
import Verif.Spec.Terms
import Verif.Proof.Terms
import Verif.Proof.Builtin
import Verif.Proof.Pend
import Verif.Proof.Pend2
import Verif.Proof.Pend3
import Verif.Proof.Pend4
import Verif.Proof.Grow
import Verif.Spec.Session
import Verif.Spec.Answers
import Verif.Proof.Load
import Verif.Proof.Work
import Verif.Proof.Solve
import Verif.Props.Sound
import Verif.Proof.Fuel
import Verif.Proof.Complete
import Verif.Props.Complete
import Verif.Props.Load
import Verif.Props.Builtins
import Verif.Props.Append
import Verif.Proof.Form
import Verif.Proof.Stack
import Verif.Proof.Exact
import Verif.Proof.Tasks
import Verif.Spec.Goals
import Verif.Props.Goals
import Verif.Spec.Printing
import Verif.Proof.Unambiguous
import Verif.Proof.Printing
import Verif.Props.Printing
import Verif.Props.Symbols
import Verif.Proof.Twin
import Verif.Proof.Twin2
import Verif.Proof.Twin3
import Verif.Proof.Twin4
import Verif.Proof.Twin5
import Verif.Proof.Twin6
import Verif.Proof.Twin7
import Verif.Proof.Twin8
import Verif.Proof.Twin9
import Verif.Spec.Lockstep
import Verif.Props.History
import Verif.Props.Clauses
import Verif.Model.Parser
import Verif.Spec.Syntax
import Verif.Spec.Chains
import Verif.Proof.Lexer
import Verif.Proof.ParserSound
import Verif.Proof.ParserTotal
import Verif.Proof.ParserComplete
import Verif.Proof.ParserPos
import Verif.Proof.Defined
import Verif.Props.Parser
import Verif.Props.Chains
import Verif.Model.Tree
import Verif.Spec.Tree
import Verif.Proof.Tree
import Verif.Proof.Tree2
import Verif.Props.Tree
import Verif.Proof.Separate
import Verif.Spec.Resolution
import Verif.Proof.Outcome
import Verif.Proof.Resolution
import Verif.Props.Resolution
import Verif.Spec.Undefined
import Verif.Proof.Faults
import Verif.Proof.Linear
import Verif.Props.Undefined
import Verif.Props.Predicates
import Verif.Props.Console
import Verif.Props.Defined
import Verif.Spec.Since
import Verif.Proof.Listed
import Verif.Props.Listed
import Verif.Model.Draw
import Verif.Spec.Draw
import Verif.Proof.Draw
import Verif.Proof.Draw2
import Verif.Props.Draw
import Verif.Spec.Shared
import Verif.Proof.Shared
import Verif.Props.Shared
import Verif.Model.Page
import Verif.Spec.Page
import Verif.Proof.Page
import Verif.Props.Page
import Verif.Spec.Labels
import Verif.Proof.Labels
import Verif.Props.Labels
import Verif.Spec.ReadBack
import Verif.Proof.ReadBack
import Verif.Props.ReadBack
import Verif.Proof.Finite
import Verif.Proof.Ground
import Verif.Proof.Modes
import Verif.Proof.Tame
import Verif.Spec.Pick
import Verif.Spec.Modes
import Verif.Spec.Linear
import Verif.Props.Linear
import Verif.Props.Moded
import Verif.Props.Exact
import Verif.Props.Splits
import Verif.Props.Position
import Verif.Spec.Blank
import Verif.Model.Source
import Verif.Spec.Source
import Verif.Proof.Source
import Verif.Proof.Located
import Verif.Props.Source
import Verif.Spec.Effort
import Verif.Props.Effort
import Verif.Model.Validate
import Verif.Props.Validate
import Verif.Props.Tests
import Verif.Model.Notice
import Verif.Props.Notice
import Verif.Model.Copy
import Verif.Props.Copy
import Verif.Model.Place
import Verif.Spec.Place
import Verif.Proof.Place
import Verif.Proof.Place2
import Verif.Props.Place
import Verif.Spec.Plain
import Verif.Proof.Plain
import Verif.Proof.Plain2
import Verif.Props.Plain
import Verif.Model.Autosave
import Verif.Props.Autosave
import Verif.Spec.Memory
import Verif.Proof.Memory
import Verif.Proof.Memory2
import Verif.Props.Memory
import Verif.Spec.Needed
import Verif.Props.Modular
import Verif.Model.Reading
import Verif.Spec.Reading
import Verif.Spec.ReadingTexts
import Verif.Proof.Reading
import Verif.Proof.Reading2
import Verif.Proof.Reading3
import Verif.Proof.Reading4
import Verif.Proof.Reading5
import Verif.Proof.Reading6
import Verif.Proof.Reading7
import Verif.Props.Reading
import Verif.Spec.Table
import Verif.Proof.Table
import Verif.Proof.Table2
import Verif.Proof.Table3
import Verif.Proof.Table4
import Verif.Props.Table
import Verif.Spec.Doubling
import Verif.Props.Doubling
import Verif.Spec.Rename
import Verif.Proof.Rename1
import Verif.Proof.Rename2
import Verif.Proof.Rename3
import Verif.Proof.Rename4
import Verif.Proof.Rename5
import Verif.Props.Rename
import Verif.Spec.Acceptable
import Verif.Props.Acceptable
import Verif.Spec.Order
import Verif.Props.Order
import Verif.Spec.Meaning
import Verif.Props.Meaning
import Verif.Spec.Shown
import Verif.Props.Shown
import Verif.Props.Patience
import Verif.Props.Ends
import Verif.Spec.Spoken
import Verif.Props.Spoken
import Verif.Spec.Computes
import Verif.Props.Computes
import Verif.Props.Instantiated
import Verif.Spec.Total
import Verif.Props.Total
import Verif.Spec.Proofs
import Verif.Props.Proofs
import Verif.Props.Dialog
import Verif.Spec.Rearrange
import Verif.Props.Rearrange
import Verif.Spec.Region
import Verif.Props.Expense
import Verif.Spec.Growth
import Verif.Props.Growth
import Verif.Spec.Begun
import Verif.Props.Begun
import Verif.Spec.Special
import Verif.Spec.Letters
import Verif.Props.Letters
import Verif.Props.Special
import Verif.Props.Fewer
import Verif.Props.Joined
import Verif.Spec.Named
import Verif.Props.Named
import Verif.Spec.Alternatives
import Verif.Props.Alternatives
import Verif.Props.Turns
import Verif.Props.Both
import Verif.Spec.Unfold
import Verif.Props.Unfold
import Verif.Props.Concat
import Verif.Props.Operators
import Verif.Props.Divide
