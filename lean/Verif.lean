import Verif.Model.Pretty
import Verif.Model.MapVisit
import Verif.Model.Consume
import Verif.Model.Path
import Verif.Model.Insert
import Verif.Model.Ser
import Verif.Model.De
import Verif.Props.Strings
import Verif.Props.MapVisit
import Verif.Lemmas.PrettyStable
import Verif.Props.Pretty
import Verif.Props.Edit
import Verif.Props.EditFind
import Verif.Props.EditAfter
import Verif.Props.EditWhere
import Verif.Props.Termination
import Verif.Props.Parse
import Verif.Props.De
import Verif.Props.DeAnchors
import Verif.Props.Decode
import Verif.Spec.Path
import Verif.Lemmas.PathParse
import Verif.Lemmas.PathShape
import Verif.Props.Path
import Verif.Spec.Move
import Verif.Props.Move
import Verif.Props.MoveOutcome
import Verif.Spec.Readable
import Verif.Lemmas.Reads
import Verif.Lemmas.ReadScalar
import Verif.Lemmas.ReadFlow
import Verif.Lemmas.ReadBlockScalar
import Verif.Lemmas.ReadFollow
import Verif.Lemmas.ReadBlock
import Verif.Lemmas.ReadDocument
import Verif.Props.RoundTrip
import Verif.Spec.Portable
import Verif.Lemmas.Portable
import Verif.Props.Portable
import Verif.Spec.ScalarText
import Verif.Props.ScalarText
import Verif.Spec.Layout
import Verif.Props.Layout
import Verif.Spec.PrettySafe
import Verif.Lemmas.PrettySafe
import Verif.Props.PrettySafe
import Verif.Lemmas.FoldExact
import Verif.Spec.FoldedNodes
import Verif.Props.FoldExact
import Verif.Tests
import Verif.TestsDe
import Verif.Props.FindExact
import Verif.Props.PathExact
import Verif.Props.RoundTripExact
import Verif.Spec.Written
import Verif.Lemmas.LayLines
import Verif.Lemmas.LayFlow
import Verif.Lemmas.LayScalar
import Verif.Lemmas.LayBlockScalar
import Verif.Lemmas.LayFollow
import Verif.Lemmas.LayEntries
import Verif.Lemmas.LayBlock
import Verif.Lemmas.LayWritten
import Verif.Lemmas.LayDocument
import Verif.Props.Written
import Verif.Spec.Visible
import Verif.Lemmas.PegText
import Verif.Lemmas.VisibleSpell
import Verif.Lemmas.VisibleText
import Verif.Lemmas.VisibleNodes
import Verif.Lemmas.VisibleAct
import Verif.Lemmas.VisibleTree
import Verif.Lemmas.VisibleSees
import Verif.Lemmas.VisibleFormat
import Verif.Props.Visible
import Verif.Spec.Tidy
import Verif.Spec.Ints
import Verif.Lemmas.EditReadable
import Verif.Lemmas.TidyRead
import Verif.Props.EditText
import Verif.Spec.Undo
import Verif.Spec.Frame
import Verif.Lemmas.EditCompose
import Verif.Props.EditUndo
import Verif.Props.EditFrame
import Verif.Props.FromStr
import Verif.Spec.Breaks
import Verif.Lemmas.Breaks
import Verif.Lemmas.BreaksQuoted
import Verif.Lemmas.BreaksSingle
import Verif.Lemmas.BreaksSim
import Verif.Lemmas.BreaksSafe
import Verif.Lemmas.BreaksSem
import Verif.Lemmas.BreaksAct
import Verif.Lemmas.BreaksTree
import Verif.Props.LineEndings
import Verif.Spec.Tame
import Verif.Lemmas.QuotedChain
import Verif.Lemmas.PlainPlace
import Verif.Lemmas.TameRead
import Verif.Props.Tame
import Verif.Lemmas.FloatWords
import Verif.Lemmas.PrettyView
import Verif.Props.PrettyRead
import Verif.Spec.Commute
import Verif.Lemmas.EditCommute
import Verif.Props.EditCommute
import Verif.Spec.Requote
import Verif.Model.Cost
import Verif.Lemmas.Cost
import Verif.Props.Cost
import Verif.Model.Location
import Verif.Lemmas.Location
import Verif.Spec.Location
import Verif.Props.Location
import Verif.Spec.Size
import Verif.Lemmas.Size
import Verif.Props.Size
import Verif.Props.Patch
import Verif.Props.ValueEdit
import Verif.Props.Unread
import Verif.Props.Field
import Verif.Lemmas.PegBytes
import Verif.Lemmas.Bulk
import Verif.Lemmas.FormatSize
import Verif.Lemmas.OneLine
import Verif.Spec.FormatSize
import Verif.Props.FormatSize
import Verif.Spec.FindValue
import Verif.Props.FindValue
import Verif.Spec.ValueMove
import Verif.Lemmas.ValueMove
import Verif.Props.ValueMove
import Verif.Props.Blanks
import Verif.Spec.Shape
import Verif.Lemmas.Shape
import Verif.Lemmas.ShapeMove
import Verif.Props.Shape
import Verif.Props.RegroupText
import Verif.Props.Append
import Verif.Props.LineEdit
import Verif.Props.Distinct
import Verif.Props.Place
import Verif.Model.Nodes
import Verif.Spec.Nodes
import Verif.Lemmas.Nodes
import Verif.Props.Nodes
import Verif.Props.NodeParts
import Verif.Props.CommentEdit
import Verif.Props.MoveLines
import Verif.Props.MoveCount
import Verif.Props.PathSingle
import Verif.Props.FormatText
import Verif.Props.EmptyValue
import Verif.Props.Order
import Verif.Props.Evolve
import Verif.Props.AnchorNames
import Verif.Props.LineComments
import Verif.Props.ItemPretty
import Verif.Props.FormatAppend
import Verif.Props.Needs
