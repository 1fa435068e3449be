import Verif.Model.Chars
import Verif.Model.Ast
import Verif.Model.Match
import Verif.Model.Methods
import Verif.Model.Generator
import Verif.Proof.Positions
import Verif.Spec.Static
import Verif.Proof.AstLemmas
import Verif.Proof.Over
import Verif.Proof.Hoare
import Verif.Proof.Fuel
import Verif.Spec.Lang
import Verif.Spec.Order
import Verif.Proof.CharLemmas
import Verif.Proof.Refine
import Verif.Proof.Ends
import Verif.Proof.Sound
import Verif.Proof.OkCheck
import Verif.Proof.MethodLemmas
import Verif.Spec.Groups
import Verif.Proof.CaptureLemmas
import Verif.Props.Safety
import Verif.Props.Language
import Verif.Spec.Swap
import Verif.Proof.Congr
import Verif.Proof.Sim
import Verif.Model.Build
import Verif.Model.Xpr
import Verif.Proof.Flatten
import Verif.Props.Flags
import Verif.Proof.Outcome
import Verif.Props.Compose
import Verif.Proof.Natural
import Verif.Spec.Possessive
import Verif.Proof.Possessive
import Verif.Props.Assertions
import Verif.Props.Generators
import Verif.Props.Results
import Verif.Model.Grammar
import Verif.Model.Parser
import Verif.Proof.Parser
import Verif.Spec.Openers
import Verif.Proof.ParserSafe
import Verif.Spec.Syntax
import Verif.Proof.Syntax
import Verif.Proof.SyntaxComplete
import Verif.Props.Parsing
import Verif.Proof.SyntaxSound
import Verif.Spec.Escape
import Verif.Spec.Sets
import Verif.Spec.Numbering
import Verif.Proof.Reading
import Verif.Proof.ParsedLang
import Verif.Proof.SetSem
import Verif.Proof.Brace
import Verif.Proof.Numbering
import Verif.Proof.Named
import Verif.Spec.Printing
import Verif.Proof.Printing
import Verif.Spec.Paths
import Verif.Proof.PathLemmas
import Verif.Proof.Paths
import Verif.Proof.PathsMain
import Verif.Proof.PathMethods
import Verif.Spec.Local
import Verif.Proof.Local
import Verif.Proof.GroupText
import Verif.Props.Captures
import Verif.Props.Local
import Verif.Model.TypeSeq
import Verif.Props.TypeSeq
import Verif.Spec.Kleene
import Verif.Proof.Kleene
import Verif.Props.Kleene
import Verif.Spec.Usable
import Verif.Proof.Usable
import Verif.Props.Traits
import Verif.Spec.Forget
import Verif.Proof.Forget
import Verif.Spec.Kept
import Verif.Proof.Kept
import Verif.Spec.Variants
import Verif.Proof.Hat
import Verif.Proof.Variants
import Verif.Props.Variants
import Verif.Spec.Expressions
import Verif.Proof.Expressions
import Verif.Spec.Preference
import Verif.Proof.Preference
import Verif.Props.Expressions
import Verif.Spec.Writable
import Verif.Proof.Writable
import Verif.Props.Writable
import Verif.Model.Lifetime
import Verif.Props.Lifetime
import Verif.Spec.Branches
import Verif.Spec.Plain
import Verif.Proof.Oblivious
import Verif.Proof.Branches
import Verif.Proof.Plain
import Verif.Props.Branches
import Verif.Spec.Script
import Verif.Spec.Regroup
import Verif.Proof.Script
import Verif.Proof.ScriptMain
import Verif.Proof.ScriptMethods
import Verif.Proof.Regroup
import Verif.Props.Regroup
import Verif.Spec.Trails
import Verif.Proof.Trails
import Verif.Proof.TrailsMain
import Verif.Props.Trails
import Verif.Spec.Viable
import Verif.Proof.Viable
import Verif.Props.Errors
import Verif.Model.Access
import Verif.Props.Access
import Verif.Model.Meter
import Verif.Proof.Param
import Verif.Proof.Meter
import Verif.Spec.Effort
import Verif.Proof.Effort
import Verif.Proof.EffortMain
import Verif.Proof.EffortMethods
import Verif.Proof.EffortSharp
import Verif.Proof.EffortStars
import Verif.Props.Effort
import Verif.Spec.Proc
import Verif.Proof.Proc
import Verif.Proof.ProcMain
import Verif.Proof.ProcMethods
import Verif.Props.Proc
import Verif.Spec.Rewire
import Verif.Proof.Rewire
import Verif.Props.Rewire
import Verif.Spec.Unfold
import Verif.Proof.Moves
import Verif.Proof.Unfold
import Verif.Props.Unfold
import Verif.Model.StaticString
import Verif.Props.StaticString
import Verif.Spec.Passed
import Verif.Proof.Passed
import Verif.Props.Passed
import Verif.Spec.Tidy
import Verif.Proof.Tidy
import Verif.Props.Tidy
import Verif.Spec.Regular
import Verif.Proof.Recog
import Verif.Proof.Machine
import Verif.Proof.Automata
import Verif.Props.Regular
import Verif.Check.Suite
import Verif.Check.Matching
import Verif.Check.Searching
import Verif.Check.Parsing
import Verif.Check.Trees
import Verif.Check.Library
import Verif.Spec.Mirror
import Verif.Proof.Mirror
import Verif.Props.Mirror
import Verif.Spec.Skip
import Verif.Proof.Skip
import Verif.Props.Skip
import Verif.Spec.Spelled
import Verif.Proof.Spelled
import Verif.Props.Spelled
import Verif.Model.Source
import Verif.Props.Source
import Verif.Spec.Anchored
import Verif.Proof.Anchored
import Verif.Props.Anchored
import Verif.Spec.Settled
import Verif.Proof.Settled
import Verif.Props.Settled
import Verif.Spec.Lengths
import Verif.Proof.Lengths
import Verif.Props.Lengths
import Verif.Spec.Layout
import Verif.Proof.Layout
import Verif.Props.Layout
import Verif.Spec.Indistinct
import Verif.Proof.Indistinct
import Verif.Props.Indistinct
import Verif.Spec.Ways
import Verif.Spec.Derives
import Verif.Proof.Ways
import Verif.Proof.Stay
import Verif.Proof.Derives
import Verif.Props.Ways
import Verif.Props.Derives
import Verif.Spec.Edges
import Verif.Proof.Edges
import Verif.Props.Edges
import Verif.Spec.Template
import Verif.Proof.Template
import Verif.Props.Template
import Verif.Spec.Words
import Verif.Proof.Words
import Verif.Props.Words
import Verif.Props.Readme
import Verif.Spec.Formula
import Verif.Proof.Formula
import Verif.Props.Formula
import Verif.Spec.Frame
import Verif.Proof.Frame
import Verif.Proof.FrameProc
import Verif.Proof.FramePaths
import Verif.Props.Frame
import Verif.Spec.Lines
import Verif.Proof.Lines
import Verif.Props.Lines
import Verif.Spec.Says
import Verif.Spec.Url
import Verif.Proof.Says
import Verif.Proof.Url
import Verif.Props.Says
import Verif.Props.Url
import Verif.Spec.Satisfy
import Verif.Proof.Satisfy
import Verif.Props.Satisfy
import Verif.Model.Iteration
import Verif.Spec.Iteration
import Verif.Props.Iteration
import Verif.Spec.Tokens
import Verif.Props.Tokens
import Verif.Model.Compile
import Verif.Spec.Compile
import Verif.Proof.Compile
import Verif.Props.Compile
import Verif.Model.Holding
import Verif.Spec.Holding
import Verif.Props.Holding
import Verif.Model.Instances
import Verif.Spec.Instances
import Verif.Proof.Instances
import Verif.Props.Instances
import Verif.Spec.Meaning
import Verif.Proof.Meaning
import Verif.Props.Meaning
import Verif.Spec.Watch
import Verif.Proof.Watch
import Verif.Proof.Reach
import Verif.Props.Watch
import Verif.Spec.Told
import Verif.Proof.Told
import Verif.Props.Told
import Verif.Spec.Decide
import Verif.Props.Decide
import Verif.Spec.Exchange
import Verif.Proof.Exchange
import Verif.Props.Exchange
import Verif.Spec.Halt
import Verif.Proof.HaltSays
import Verif.Proof.HaltSlips
import Verif.Proof.HaltRun
import Verif.Proof.HaltRules
import Verif.Proof.HaltText
import Verif.Proof.HaltShape
import Verif.Proof.HaltCompute
import Verif.Props.Halt
import Verif.Spec.Possible
import Verif.Proof.Possible
import Verif.Proof.Refusal
import Verif.Props.Possible
import Verif.Spec.Walks
import Verif.Proof.WalkLemmas
import Verif.Proof.Walks
import Verif.Proof.WalksMain
import Verif.Proof.WalkMethods
import Verif.Props.Walks
import Verif.Model.Demands
import Verif.Spec.Demands
import Verif.Proof.Demands
import Verif.Proof.Counts
import Verif.Props.Demands
import Verif.Spec.Codes
import Verif.Props.Codes
import Verif.Spec.Wider
import Verif.Proof.Wider
import Verif.Props.Wider
import Verif.Proof.WiderPaths
import Verif.Spec.SetExact
import Verif.Proof.SetExact
import Verif.Props.SetExact
import Verif.Proof.BraceExact
import Verif.Props.BraceExact
import Verif.Spec.Utf8
import Verif.Proof.Utf8
import Verif.Proof.Utf8Text
import Verif.Props.Utf8
import Verif.Spec.FailedText
import Verif.Props.FailedText
import Verif.Spec.Unicode
import Verif.Spec.Marks
import Verif.Proof.Unicode
import Verif.Props.Unicode
import Verif.Props.Marks
import Verif.Spec.Site
import Verif.Proof.Site
import Verif.Proof.DateSearch
import Verif.Props.Site
import Verif.Spec.UnicodeOrder
import Verif.Proof.UnicodeOrder
import Verif.Props.UnicodeOrder
import Verif.Spec.UnicodePattern
import Verif.Proof.UnicodePattern
import Verif.Props.UnicodePattern
import Verif.Props.Closure
