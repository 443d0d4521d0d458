import Verif.TypingCalls.Props
import Verif.SysPath.Props
import Verif.Venv.Props
import Verif.Fixtures.Props
import Verif.ClassInfo.Props
import Verif.Super.Props
import Verif.Tree.WalkProps
import Verif.NamedTuple.Props
import Verif.Signature.Props
import Verif.Raise.Props
import Verif.References.Props
import Verif.AutoImport.Props
import Verif.Contains.Props
import Verif.Tokens.Props
import Verif.Select.Props
import Verif.Overlap.Props
import Verif.Intersect.Props
import Verif.Import.Props
import Verif.Variance.Props
import Verif.Override.Props
import Verif.Attribute.Props
import Verif.Operator.Props
import Verif.Arith.Props
import Verif.Tuple.Props
import Verif.Len.Props
import Verif.Enums.Props
import Verif.Equality.Props
import Verif.Lines.Props
import Verif.Config.Props
import Verif.Mro.Props
import Verif.Strings.Props
import Verif.Tree.Ranges
import Verif.Tree.Build
import Verif.Backtrack.Props
import Verif.Mapping.Props
import Verif.Match.Props
import Verif.Point.Props
import Verif.Union.Props
import Verif.Ignore.Props
import Verif.Server.DispatchProps
import Verif.Server.ProtocolProps
import Verif.Server.NotebookProps
import Verif.Overload.Props
import Verif.Paths.Props
import Verif.Pattern.Props
import Verif.Automaton.Grammar
import Verif.Tokenizer.Violations
import Verif.Vfs.DependentsProps
import Verif.Vfs.RecoveryViolations
import Verif.Vfs.ImportViolations
import Verif.Call.Violations
import Verif.Callable.Violations
import Verif.Dataclass.Props
import Verif.Flow.ExactProps
import Verif.Flow.ChainProps
import Verif.Sub.Violations
import Verif.Sub.EndProps
import Verif.Sub.JoinProps
import Verif.Sub.OverlapProps
import Verif.Split.Instance
import Verif.Solve.Props
import Verif.Reach.Props
import Verif.Scope.Props
import Verif.TypedDict.Props
