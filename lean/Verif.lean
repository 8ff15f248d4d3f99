import Verif.Props.Buffer
import Verif.Props.Hex
import Verif.Props.NameCmp
import Verif.Props.NameOps
import Verif.Props.NameWire
import Verif.Props.NameText
import Verif.Props.Render
import Verif.Props.Codes
import Verif.Props.Rdata
import Verif.Props.Message
import Verif.Props.Builder
import Verif.Props.Tree
import Verif.Props.Text
import Verif.Props.RandName
import Verif.Props.Fits
import Verif.Props.Compress
import Verif.Props.Encode
import Verif.Props.Seek
import Verif.Props.SeekHist
import Verif.Props.Decode
import Verif.Props.Build
import Verif.Props.Same
import Verif.Props.LabelSeq
import Verif.Props.Show
import Verif.Props.ShowExact
import Verif.Props.Calls
import Verif.Props.Nodes
import Verif.Props.Values
import Verif.Model.Dump
import Verif.Spec.Dump
import Verif.Proofs.Dump
import Verif.Props.Dump
import Verif.Spec.Present
import Verif.Props.Present
import Verif.Props.RoundTrip
import Verif.Props.TextExact
import Verif.Spec.Values
import Verif.Proofs.TreeFree
import Verif.Proofs.TreeValues
import Verif.Model.Std
import Verif.Spec.Std
import Verif.Spec.Grammar
import Verif.Proofs.Std
import Verif.Proofs.Std2
import Verif.Proofs.NameDialect
import Verif.Proofs.Words
import Verif.Proofs.Grammar
import Verif.Proofs.Spaces
import Verif.Proofs.Words2
import Verif.Proofs.Grammar2
import Verif.Props.Grammar
import Verif.Props.Bomb
import Verif.Proofs.Tell
import Verif.Proofs.Tell2
import Verif.Props.Tell
import Verif.Proofs.TreeSteps
import Verif.Props.Steps
import Verif.Props.Debug
import Verif.Spec.Mem
import Verif.Proofs.TreeMem
import Verif.Props.Mem
import Verif.Props.Blind
import Verif.Props.Rounds
import Verif.Props.Word
import Verif.Props.SeqExact
import Verif.Props.Requests
import Verif.Props.Pieces
import Verif.Spec.Offset
import Verif.Proofs.Offset
import Verif.Props.Offset
import Verif.Model.Chain
import Verif.Spec.Chain
import Verif.Proofs.Chain
import Verif.Props.Chain
import Verif.Spec.Straight
import Verif.Model.LimitRender
import Verif.Proofs.Straight
import Verif.Proofs.LimitRender
import Verif.Proofs.Made
import Verif.Proofs.StraightRead
import Verif.Props.Straight
import Verif.Spec.Exchange
import Verif.Props.Exchange
import Verif.Props.Notify
import Verif.Spec.Server
import Verif.Props.Server
import Verif.Props.Zone
import Verif.Props.Order
import Verif.Props.Agree
import Verif.Props.NameMade
import Verif.Props.Reread
import Verif.Props.Restart
import Verif.Props.Chains
import Verif.Props.Resolver
import Verif.Props.Lookup
import Verif.Props.Client
import Verif.Props.Witness
import Verif.Props.Reuse
import Verif.Props.Session
import Verif.Props.Network
import Verif.Props.Cache
import Verif.Props.Hops
import Verif.Props.Wider
