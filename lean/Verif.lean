import Verif.Props.Parse
import Verif.Props.Strings
import Verif.Props.Ints
import Verif.Props.Token
import Verif.Props.Encode
import Verif.Props.Encoder
import Verif.Props.Maps
import Verif.Props.Raw
import Verif.Props.Decode
import Verif.Props.Bytes
import Verif.Props.Struct
import Verif.Props.Stream
import Verif.Props.Terminal
import Verif.Props.Fatih
import Verif.Props.RoundTrip
import Verif.Props.Jc
import Verif.Props.Cache
import Verif.Props.Pool
import Verif.Props.Fields
import Verif.Props.Trailing
import Verif.Props.Syntax
import Verif.Props.Typed
import Verif.Props.Iface
import Verif.Props.Codec
import Verif.Props.Failed
import Verif.Props.Indent
import Verif.Props.Path
import Verif.Props.Embed
import Verif.Props.Alias
import Verif.Props.Graph
import Verif.Props.Types
import Verif.Props.Stable
import Verif.Props.Nest
import Verif.Props.SliceMem
import Verif.Props.Layout
import Verif.Props.EmbedEnc
import Verif.Props.EmbedNil
import Verif.Lemmas.FailTail
import Verif.Model.Work
import Verif.Lemmas.Work
import Verif.Props.Work
import Verif.Lemmas.WorkIface
import Verif.Model.StreamWork
import Verif.Lemmas.StreamWork
import Verif.Lemmas.StreamAny
import Verif.Lemmas.StreamCost
import Verif.Props.StreamWork
import Verif.Spec.Says
import Verif.Lemmas.Says
import Verif.Props.Says
import Verif.Model.Promote
import Verif.Spec.Promote
import Verif.Lemmas.Promote
import Verif.Props.Promote
import Verif.Model.Recur
import Verif.Spec.Recur
import Verif.Lemmas.Recur
import Verif.Props.Recur
import Verif.Model.TextKey
import Verif.Spec.MapDec
import Verif.Lemmas.MapDec
import Verif.Props.TextKey
import Verif.Model.Run
import Verif.Spec.Run
import Verif.Lemmas.Run
import Verif.Props.Run
import Verif.Model.RunEnc
import Verif.Spec.RunEnc
import Verif.Lemmas.RunEnc
import Verif.Props.RunEnc
import Verif.Model.WorkTyped
import Verif.Spec.WorkTyped
import Verif.Lemmas.WorkTyped
import Verif.Lemmas.WorkBound
import Verif.Lemmas.WorkLoops
import Verif.Lemmas.DecErrLen
import Verif.Lemmas.WorkTypes
import Verif.Props.WorkTyped
import Verif.Model.RunEmbed
import Verif.Spec.RunEmbed
import Verif.Lemmas.RunEmbed
import Verif.Lemmas.RunFlat
import Verif.Lemmas.RunEnough
import Verif.Props.RunEmbed
import Verif.Model.RunEncE
import Verif.Spec.RunEncE
import Verif.Lemmas.RunEncE
import Verif.Props.RunEncE
import Verif.Spec.Transparent
import Verif.Lemmas.Transparent
import Verif.Lemmas.TransparentZero
import Verif.Lemmas.TransparentEnc
import Verif.Props.Transparent
import Verif.Spec.WorkSquare
import Verif.Lemmas.WorkSquare
import Verif.Props.WorkSquare
import Verif.Spec.EncDec
import Verif.Lemmas.Rises
import Verif.Props.EncDec
import Verif.Model.Pieces
import Verif.Spec.Pieces
import Verif.Lemmas.Pieces
import Verif.Props.Pieces
import Verif.Model.TokenWork
import Verif.Props.TokenWork
import Verif.Model.TokenMem
import Verif.Spec.TokenMem
import Verif.Lemmas.TokenMem
import Verif.Props.TokenMem
import Verif.Spec.Size
import Verif.Lemmas.Size
import Verif.Lemmas.SizeEnc
import Verif.Props.Size
import Verif.Model.Float
import Verif.Spec.Float
import Verif.Lemmas.Float
import Verif.Lemmas.FloatVal
import Verif.Props.Float
import Verif.Model.EncodeWork
import Verif.Spec.EncWork
import Verif.Lemmas.EncWork
import Verif.Lemmas.EncWorkAll
import Verif.Lemmas.EncWorkEnc
import Verif.Lemmas.EncWorkLow
import Verif.Props.EncWork
import Verif.Spec.Mass
import Verif.Lemmas.Mass
import Verif.Lemmas.MassDec
import Verif.Lemmas.MassAll
import Verif.Props.Mass
import Verif.Model.Message
import Verif.Spec.Message
import Verif.Lemmas.MessageErase
import Verif.Lemmas.MessageNum
import Verif.Lemmas.MessageFault
import Verif.Lemmas.MessageAt
import Verif.Lemmas.MessageSmall
import Verif.Props.Message
import Verif.Model.TypeErr
import Verif.Spec.TypeErr
import Verif.Lemmas.TypeErr
import Verif.Props.TypeErr
import Verif.Model.TypeErrList
import Verif.Spec.TypeErrList
import Verif.Lemmas.TypeErrList
import Verif.Props.TypeErrList
import Verif.Model.DurKey
import Verif.Spec.DurKey
import Verif.Lemmas.DurKey
import Verif.Lemmas.MapBy
import Verif.Props.DurKey
import Verif.Spec.Words
import Verif.Props.Words
