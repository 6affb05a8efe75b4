import Verif.Model.Engine
import Verif.Props.Names
import Verif.Props.Db
import Verif.Props.Location
import Verif.Props.Blocks
import Verif.Props.Chars
import Verif.Props.Lines
import Verif.Props.Expr
import Verif.Props.Eval
import Verif.Props.Cycle
import Verif.Spec.Uses
import Verif.Proofs.GraphSubst
import Verif.Props.Assign
import Verif.Props.Process
import Verif.Props.Conditional
import Verif.Props.Rules
import Verif.Props.Errors
import Verif.Props.Keywords
import Verif.Props.Include
import Verif.Props.Define
import Verif.Props.Visit
import Verif.Tests.Repo
import Verif.Props.EvalCall
import Verif.Props.Subst
import Verif.Props.Stored
import Verif.Props.Halts
import Verif.Props.Unsupported
import Verif.Props.Malformed
import Verif.Props.Drive
import Verif.Props.Project
import Verif.Spec.RefRule
import Verif.Proofs.RefRule
import Verif.Props.RefRule
import Verif.Model.Access
import Verif.Spec.Errors
import Verif.Props.Access
import Verif.Spec.Comment
import Verif.Proofs.Comment
import Verif.Props.Comment
import Verif.Proofs.Wrapped
import Verif.Proofs.ContinuedRule
import Verif.Props.ContinuedRule
import Verif.Spec.Relocate
import Verif.Proofs.Relocate
import Verif.Proofs.RelocateSpan
import Verif.Proofs.RelocateAst
import Verif.Proofs.RelocateDb
import Verif.Proofs.RelocateRun
import Verif.Proofs.RelocateLines
import Verif.Proofs.RelocateMain
import Verif.Props.Relocate
import Verif.Spec.SearchAny
import Verif.Proofs.SearchAny
import Verif.Props.SearchAny
import Verif.Spec.MayUse
import Verif.Proofs.SubstTotal
import Verif.Proofs.GraphAll
import Verif.Props.Acyclic
import Verif.Spec.Tree
import Verif.Proofs.Tree
import Verif.Props.Tree
import Verif.Proofs.Exact
import Verif.Proofs.FileNames
import Verif.Props.FileNames
import Verif.Model.FileSeq
import Verif.Proofs.FileSeqOptions
import Verif.Props.FileSeqOptions
import Verif.Proofs.SubstPieces
import Verif.Spec.EscapedRule
import Verif.Proofs.EscapedWords
import Verif.Proofs.EscapedRule
import Verif.Props.EscapedRule
import Verif.Proofs.RecipePrefix
import Verif.Props.RecipePrefix
import Verif.Spec.EvalLine
import Verif.Proofs.EvalLine
import Verif.Props.EvalLine
import Verif.Spec.NoTargets
import Verif.Proofs.NoTargets
import Verif.Props.NoTargets
import Verif.Spec.Segments
import Verif.Proofs.SegmentsExact
import Verif.Props.Segments
import Verif.Spec.Switch
import Verif.Proofs.Switch
import Verif.Props.Switch
import Verif.Proofs.BrokenRule
import Verif.Spec.Does
import Verif.Proofs.Does
import Verif.Spec.Trailed
import Verif.Proofs.Trailed
import Verif.Proofs.Points
import Verif.Spec.Unfinished
import Verif.Props.Unfinished
import Verif.Props.BadLine
import Verif.Spec.BadRule
import Verif.Proofs.BadRule
import Verif.Proofs.BadAssign
import Verif.Props.Computed
import Verif.Proofs.SubstComputed
import Verif.Spec.LoneCommand
import Verif.Proofs.Silent
import Verif.Proofs.LoneCommand
import Verif.Props.LoneCommand
import Verif.Proofs.Unclosed
import Verif.Proofs.BadDefine
import Verif.Spec.ErrorKinds
import Verif.Props.ErrorKinds
import Verif.Spec.NoAbort
import Verif.Proofs.Total
import Verif.Props.NoAbort
import Verif.Spec.NothingLost
import Verif.Props.NothingLost
import Verif.Spec.IncludeCycle
import Verif.Proofs.IncludeCycle
import Verif.Props.IncludeCycle
import Verif.Props.NodeSlice
