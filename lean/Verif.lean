import Verif.Props.Value
import Verif.Props.Parse
import Verif.Props.ParseErr
import Verif.Props.Format
import Verif.Props.Hex
import Verif.Props.Ss58
import Verif.Props.Decode
import Verif.Props.Encode
import Verif.Props.EncodeRules
import Verif.Props.EncodeErr
import Verif.Props.Serde
import Verif.Props.SerdeRead
import Verif.Props.TraceShow
import Verif.Props.Macro
import Verif.Props.Static
import Verif.Proofs.TripExact
import Verif.Props.Trip
import Verif.Props.Size
import Verif.Props.ErrorShow
import Verif.Props.Squeeze
import Verif.Props.Notions
import Verif.Props.ParseCalls
import Verif.Props.Stream
import Verif.Props.Doc
import Verif.Props.SerCalls
import Verif.Props.Emit
import Verif.Props.EncodeStep
import Verif.Props.Convert
import Verif.Props.SerFault
import Verif.Props.Express
import Verif.Props.Base58
import Verif.Props.DeFault
import Verif.Props.DocFault
import Verif.Props.EncCalls
import Verif.Props.Asks
import Verif.Props.Twin
import Verif.Props.Parts
import Verif.Props.Buffer
import Verif.Props.DecFault
import Verif.Spec.ReadAs
import Verif.Proofs.ReadAs
import Verif.Props.ReadAs
import Verif.Spec.ReadFault
import Verif.Proofs.ReadFault
import Verif.Props.ReadFault
import Verif.Spec.ReadOwn
import Verif.Props.ReadOwn
import Verif.Props.OwnDer
import Verif.Model.AnyReg
import Verif.Spec.Endless
import Verif.Proofs.Endless
import Verif.Proofs.EndlessTrace
import Verif.Props.Endless
import Verif.Model.AnyEnc
import Verif.Spec.Bottomless
import Verif.Proofs.Bottomless
import Verif.Spec.Stuck
import Verif.Proofs.Stuck
import Verif.Props.Bottomless
import Verif.Props.Keep
import Verif.Model.DecCalls
import Verif.Proofs.DecCalls
import Verif.Props.DecCalls
import Verif.Proofs.TextLen
import Verif.Props.TextLen
import Verif.Proofs.EncSize
import Verif.Props.EncSize
import Verif.Proofs.SerdeSize
import Verif.Props.SerdeSize
import Verif.Spec.Renumber
import Verif.Proofs.Renumber
import Verif.Props.Renumber
import Verif.Model.DeCap
import Verif.Spec.DeCap
import Verif.Proofs.DeCap
import Verif.Props.DeCap
import Verif.Model.Checked
import Verif.Proofs.Checked
import Verif.Props.Checked
import Verif.Props.Builders
import Verif.Props.Balanced
import Verif.Props.HexTrip
