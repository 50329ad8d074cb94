import Verif.Basic
import Verif.Spec
import Verif.Model.Gen
import Verif.Model.Shuffle
import Verif.Model.Add
import Verif.Model.Metric
import Verif.Model.Small
import Verif.Model.Mul
import Verif.Model.Div
import Verif.Model.Sqrt
import Verif.Model.Linear
import Verif.Model.Conv
import Verif.Props.Gen
import Verif.Props.Shuffle
import Verif.Props.Metric
import Verif.Proofs.Small
import Verif.Props.Add
import Verif.Props.Small
import Verif.Props.Mul
import Verif.Props.Div
import Verif.Props.Sqrt
import Verif.Props.RawScale
import Verif.Props.Utils
import Verif.Props.Linear
import Verif.Props.Shift
import Verif.Props.Hub
import Verif.Props.Tlut
import Verif.Props.Conv
import Verif.Model.Rnn
import Verif.Props.Rnn
import Verif.Props.Rate
import Verif.Props.RnnRate
import Verif.Model.Rtl
import Verif.Props.Rtl
import Verif.Props.RtlMul
import Verif.Props.RtlAdd
import Verif.Props.RtlDiv
import Verif.Model.Float
import Verif.Proofs.Float
import Verif.Props.Float
import Verif.Props.FloatMetric
import Verif.Props.ReluRate
import Verif.Model.Net
import Verif.Props.Network
import Verif.Props.ConvRate
import Verif.Model.ImgNet
import Verif.Props.ImgNetwork
import Verif.Props.RnnSeq
import Verif.Model.Config
import Verif.Props.Config
import Verif.Model.RtlMore
import Verif.Props.RtlMore
import Verif.Model.RtlOld
import Verif.Props.RtlOld
import Verif.Props.RtlOldAdd
import Verif.Props.RtlOldMac
import Verif.Model.RtlGen
import Verif.Props.RtlGen
import Verif.Model.RtlKern
import Verif.Props.RtlKern
import Verif.Props.RtlKernDiv
import Verif.Props.RtlExp
import Verif.Props.DivBi
import Verif.Props.HubMore
import Verif.Model.ConvGrad
import Verif.Props.Temporal
import Verif.Props.ConvGrad
import Verif.Model.FloatLin
import Verif.Props.FloatLin
import Verif.Props.FloatConv
import Verif.Props.Accept
import Verif.Model.FloatTlut
import Verif.Props.FloatTlut
import Verif.Model.FloatRnn
import Verif.Props.FloatRnn
import Verif.Props.LayerArgs
import Verif.Props.FloatTlutConv
import Verif.Props.Symmetry
import Verif.Props.ConvSym
import Verif.Model.FloatGen
import Verif.Model.FloatQuant
import Verif.Proofs.FloatGen
import Verif.Props.FloatQuant
import Verif.Props.FloatQuantLin
import Verif.Model.Types
import Verif.Props.Types
import Verif.Model.FloatNet
import Verif.Props.FloatNet
import Verif.Model.FloatMgu
import Verif.Props.FloatMgu
import Verif.Props.DivRate
import Verif.Model.Tensor
import Verif.Props.Tensor
import Verif.Props.Random
import Verif.Model.Checkpoint
import Verif.Props.Checkpoint
import Verif.Model.MetricTensor
import Verif.Props.MetricTensor
import Verif.Props.Fault
import Verif.Props.FaultConv
import Verif.Props.FaultNet
import Verif.Props.FaultRelu
import Verif.Props.Observed
import Verif.Model.Share
import Verif.Proofs.Share
import Verif.Props.Share
import Verif.Props.ShareMore
import Verif.Props.ShareErr
import Verif.Model.Report
import Verif.Props.Report
import Verif.Model.ShareDeep
import Verif.Proofs.ShareStage
import Verif.Props.ShareDeep
import Verif.Model.ShareProg
import Verif.Model.ShareLayer
import Verif.Proofs.ShareProg
import Verif.Props.ShareLayer
import Verif.Proofs.ShareLayer
import Verif.Model.ShareNet
import Verif.Proofs.ShareNet
import Verif.Props.ShareNet
import Verif.Props.ShareHub
