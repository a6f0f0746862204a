import Verif.Props.Atoms
import Verif.Props.Trees
import Verif.Props.Opt
import Verif.Props.Bytes
import Verif.Props.Flat
import Verif.Props.TDFA
import Verif.Props.Parser
import Verif.Props.Meta
import Verif.Props.OnePass
import Verif.Props.Tokens
import Verif.Props.Pick
import Verif.Props.Priority
import Verif.Props.Groups
import Verif.Props.Leftmost
import Verif.Props.Draw
import Verif.Props.Work
import Verif.Props.Spans
import Verif.Props.Laws
import Verif.Props.Size
import Verif.Props.Fixed
import Verif.Props.Compiles
import Verif.Props.CompileTime
import Verif.Props.Total
import Verif.Props.Calls
import Verif.Props.Unset
import Verif.Props.UnsetCross
import Verif.Props.Cut
import Verif.Props.Longest
import Verif.Props.Attribute
import Verif.Tests.Repo
import Verif.Spec.Perl
import Verif.Proofs.Perl
import Verif.Props.Empty
import Verif.Spec.OrderLaws
import Verif.Proofs.OrderLaws
import Verif.Props.Rewrite
import Verif.Spec.Scan
import Verif.Props.Scan
import Verif.Spec.Decided
import Verif.Proofs.Decided
import Verif.Props.Decided
import Verif.Spec.Posix
import Verif.Props.Posix
import Verif.Spec.Language
import Verif.Proofs.Language
import Verif.Proofs.Regular
import Verif.Props.Language
import Verif.Spec.Case
import Verif.Spec.Words
import Verif.Proofs.CharMap
import Verif.Props.Case
import Verif.Model.Debug
import Verif.Props.Debug
import Verif.Props.Words
import Verif.Spec.Documented
import Verif.Props.Ascii
import Verif.Props.Documented
import Verif.Spec.Fields
import Verif.Props.Fields
import Verif.Spec.Runs
import Verif.Props.Runs
import Verif.Spec.Lexer
import Verif.Props.Lexer
import Verif.Spec.Lists
import Verif.Props.Lists
import Verif.Spec.Predict
import Verif.Proofs.Predict
import Verif.Props.Predict
import Verif.Spec.Records
import Verif.Props.Records
import Verif.Spec.Delimited
import Verif.Props.Delimited
import Verif.Spec.Quoted
import Verif.Props.Quoted
import Verif.Props.Instances
import Verif.Spec.Clock
import Verif.Props.Clock
import Verif.Spec.Uri
import Verif.Props.Uri
import Verif.Spec.Anchored
import Verif.Props.AnchoredProgram
import Verif.Props.Anchored
import Verif.Props.Addresses
