import Verif.Props.Skip
import Verif.Props.Int
import Verif.Props.Str
import Verif.Props.Hash
import Verif.Props.Typed
import Verif.Props.Write
import Verif.Props.Value
import Verif.Props.Event
import Verif.Props.Iter
import Verif.Props.Options
import Verif.Props.Date
import Verif.Props.DateSafe
import Verif.Props.FindPath
import Verif.Props.Comments
import Verif.Props.Exec
import Verif.Props.Real
import Verif.Props.ZeroTerm
import Verif.Props.Schema
import Verif.Props.Output
import Verif.Props.Variant
import Verif.Props.Exact
import Verif.Props.Unchecked
import Verif.Props.Text
import Verif.Model.Text
import Verif.Proof.Text
import Verif.Proof.ZeroTermText
import Verif.Spec.Bounds
import Verif.Proof.StrAny
import Verif.Proof.SkipRange
import Verif.Proof.TypedSafe
import Verif.Proof.ClassSafe
import Verif.Props.InBounds
import Verif.Spec.Shaped
import Verif.Proof.SoundBasic
import Verif.Proof.SoundClass
import Verif.Proof.Sound
import Verif.Props.Sound
import Verif.Proof.RealDec
import Verif.Proof.RealWrite
import Verif.Proof.ZeroTermReal
import Verif.Props.RealDoc
import Verif.Model.Dep
import Verif.Spec.Dep
import Verif.Proof.DepClass
import Verif.Proof.DepSem
import Verif.Proof.DepMain
import Verif.Props.Dep
import Verif.Proof.DepWrite
import Verif.Proof.DepTrip
import Verif.Props.DepWrite
import Verif.Proof.Literal
import Verif.Proof.ZeroTermLit
import Verif.Props.Leading
import Verif.Props.LeadingDep
import Verif.Props.LeadingZero
import Verif.Props.IntExact
import Verif.Props.DateDays
import Verif.Props.ArrayComma
import Verif.Props.HighBytes
import Verif.Props.Literal
import Verif.Proof.DepNames
import Verif.Props.NullVisible
import Verif.Model.KeyMap
import Verif.Spec.KeyMap
import Verif.Proof.KeyMap
import Verif.Props.KeyMap
import Verif.Model.Format
import Verif.Props.Format
import Verif.Spec.Float
import Verif.Model.Float
import Verif.Proof.Float
import Verif.Proof.FloatPow
import Verif.Props.Float
import Verif.Model.RealLit
import Verif.Props.RealLit
import Verif.Model.Container
import Verif.Proof.Container
import Verif.Props.Container
import Verif.Model.DragonboxCache
import Verif.Model.Dragonbox
import Verif.Spec.Double
import Verif.Proof.DragonboxTable
import Verif.Proof.DragonboxCore
import Verif.Proof.DragonboxZeros
import Verif.Proof.DragonboxShort
import Verif.Proof.DragonboxNormal
import Verif.Proof.DragonboxPow
import Verif.Proof.DragonboxBridge
import Verif.Proof.DragonboxMain
import Verif.Props.Dragonbox
import Verif.Model.DragonboxFloat
import Verif.Spec.Single
import Verif.Proof.DragonboxFloatCore
import Verif.Proof.DragonboxFloatNormal
import Verif.Proof.DragonboxFloatPow
import Verif.Proof.DragonboxFloatBridge
import Verif.Proof.DragonboxFloatMain
import Verif.Proof.FloatPow32
import Verif.Props.DragonboxFloat
import Verif.Model.CommentTyped
import Verif.Spec.CommentTyped
import Verif.Proof.CommentTypedBasic
import Verif.Proof.CommentTypedClass
import Verif.Proof.CommentTypedTuple
import Verif.Proof.CommentTypedMain
import Verif.Props.CommentTyped
import Verif.Proof.CommentSame
import Verif.Proof.CommentSameMain
import Verif.Props.CommentSame
import Verif.Model.Apply
import Verif.Props.Apply
import Verif.Spec.Minified
import Verif.Proof.Minified
import Verif.Props.Minified
import Verif.Model.IterPath
import Verif.Props.IterPath
import Verif.Props.ContainerExact
import Verif.Model.DayName
import Verif.Props.DayName
import Verif.Proof.ZeroTermNoNames
import Verif.Props.ZeroTermNames
import Verif.Spec.NameFree
import Verif.Model.ValueAs
import Verif.Props.ValueAs
import Verif.Model.SubVariant
import Verif.Props.SubVariant
import Verif.Model.CStr
import Verif.Props.CStr
import Verif.Model.Alias
import Verif.Props.Alias
import Verif.Props.Names
import Verif.Model.Known
import Verif.Props.Known
import Verif.Model.Conv
import Verif.Props.Conv
import Verif.Model.Report
import Verif.Model.ReportIn
import Verif.Spec.Lacks
import Verif.Proof.Report
import Verif.Proof.ReportIn
import Verif.Proof.ReportLacks
import Verif.Proof.ReportOnly
import Verif.Props.Report
import Verif.Model.Modes
import Verif.Proof.Modes
import Verif.Proof.ModesZero
import Verif.Props.Modes
