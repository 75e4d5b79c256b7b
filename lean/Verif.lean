import Verif.Lemmas.AESCert
import Verif.Lemmas.AESCertData
import Verif.Lemmas.AESCircuit
import Verif.Lemmas.AESCount
import Verif.Lemmas.AESDrift
import Verif.Lemmas.AESInj
import Verif.Lemmas.AESLabels
import Verif.Lemmas.AESProbe
import Verif.Lemmas.AESProbeData
import Verif.Lemmas.AESWires
import Verif.Lemmas.Addmod
import Verif.Lemmas.AeadRef
import Verif.Lemmas.Arrays
import Verif.Lemmas.Away
import Verif.Lemmas.BlockConv
import Verif.Lemmas.BristolCheck
import Verif.Lemmas.Buffers
import Verif.Lemmas.BuffersPRF
import Verif.Lemmas.Depend
import Verif.Lemmas.DependConn
import Verif.Lemmas.DependPrf
import Verif.Lemmas.DependSha
import Verif.Lemmas.Drift
import Verif.Lemmas.Encoding
import Verif.Lemmas.FinishedCheat
import Verif.Lemmas.GC
import Verif.Lemmas.GCM
import Verif.Lemmas.GF
import Verif.Lemmas.GFPow
import Verif.Lemmas.GFRing
import Verif.Lemmas.GHash
import Verif.Lemmas.GateLib
import Verif.Lemmas.GateRef
import Verif.Lemmas.GateRel
import Verif.Lemmas.HmacInv
import Verif.Lemmas.HsRef
import Verif.Lemmas.Integer
import Verif.Lemmas.KeyBack
import Verif.Lemmas.Linear
import Verif.Lemmas.OfflineRel
import Verif.Lemmas.Ownership
import Verif.Lemmas.PRF
import Verif.Lemmas.PrfRef
import Verif.Lemmas.Profile
import Verif.Lemmas.RecordBits
import Verif.Lemmas.SHA256
import Verif.Lemmas.SHADigest
import Verif.Lemmas.SHAPlain
import Verif.Lemmas.Sampling
import Verif.Lemmas.ShaInv
import Verif.Lemmas.ShaRef
import Verif.Lemmas.Threads
import Verif.Lemmas.Wire
import Verif.Lemmas.WireCalls
import Verif.Lemmas.WireCap
import Verif.Lemmas.WireFlow
import Verif.Lemmas.WireJam
import Verif.Lemmas.ZkReplay
import Verif.Model.AEAD
import Verif.Model.AEADCheat
import Verif.Model.AEADParty
import Verif.Model.AEADProof
import Verif.Model.AESCircuit
import Verif.Model.AESCircuitData
import Verif.Model.AESProver
import Verif.Model.Arrays
import Verif.Model.Block
import Verif.Model.BlockConv
import Verif.Model.Buffers
import Verif.Model.ComConv
import Verif.Model.ComConvParty
import Verif.Model.Commitment
import Verif.Model.Cot
import Verif.Model.DH
import Verif.Model.DecryptEnd
import Verif.Model.E2F
import Verif.Model.E2FCheat
import Verif.Model.E2FParty
import Verif.Model.FinishedCheat
import Verif.Model.GC
import Verif.Model.GCParty
import Verif.Model.GarblerCheat
import Verif.Model.GarblerDirect
import Verif.Model.GarblerKey
import Verif.Model.GarblerProbe
import Verif.Model.Gate
import Verif.Model.GateOffline
import Verif.Model.GateOnline
import Verif.Model.GateRecord
import Verif.Model.HMAC
import Verif.Model.Handshake
import Verif.Model.HandshakeProof
import Verif.Model.Integer
import Verif.Model.Network
import Verif.Model.NoAssert
import Verif.Model.NoAssertConv
import Verif.Model.OLE
import Verif.Model.OLECheat
import Verif.Model.OfflineGC
import Verif.Model.OpenFlip
import Verif.Model.Ownership
import Verif.Model.PRF
import Verif.Model.PostRecord
import Verif.Model.ProxyTls
import Verif.Model.ProxyVerifier
import Verif.Model.RecordTwo
import Verif.Model.Records
import Verif.Model.SHA256
import Verif.Model.Session
import Verif.Model.SessionGiven
import Verif.Model.Setup
import Verif.Model.ShaHistory
import Verif.Model.Switch
import Verif.Model.SwitchProxy
import Verif.Model.Threads
import Verif.Model.Transcript
import Verif.Model.VOPE
import Verif.Model.Wire
import Verif.Model.WireCap
import Verif.Model.WireGC
import Verif.Model.ZkCheck
import Verif.Model.ZkReplay
import Verif.Model.ZkVerifier
import Verif.Model.ZkView
import Verif.Props.AEAD
import Verif.Props.AEADCheat
import Verif.Props.AEADProof
import Verif.Props.AESCircuit
import Verif.Props.AESProver
import Verif.Props.Arrays
import Verif.Props.ArraysMade
import Verif.Props.BackendAdvantage
import Verif.Props.BackendBound
import Verif.Props.BackendForgery
import Verif.Props.BackendGame
import Verif.Props.BlockConv
import Verif.Props.Buffers
import Verif.Props.ComConv
import Verif.Props.ComConvParty
import Verif.Props.ComConvView
import Verif.Props.Commitment
import Verif.Props.ConnectionAdvantage
import Verif.Props.ConnectionBytes
import Verif.Props.ConnectionForgery
import Verif.Props.Cot
import Verif.Props.Counters
import Verif.Props.DH
import Verif.Props.DigestCompare
import Verif.Props.Direct
import Verif.Props.E2F
import Verif.Props.E2FCheat
import Verif.Props.E2FView
import Verif.Props.Encoding
import Verif.Props.EvaluatorAdvantage
import Verif.Props.EvaluatorBound
import Verif.Props.EvaluatorView
import Verif.Props.EvaluatorViewOnline
import Verif.Props.Field
import Verif.Props.FinishedCheat
import Verif.Props.Forgery
import Verif.Props.GC
import Verif.Props.Garbled
import Verif.Props.GarblerCheat
import Verif.Props.GarblerDirect
import Verif.Props.GarblerKey
import Verif.Props.GarblerKeyAES
import Verif.Props.GarblerProbe
import Verif.Props.GarblerView
import Verif.Props.HMAC
import Verif.Props.Handshake
import Verif.Props.HandshakeProof
import Verif.Props.KnownRight
import Verif.Props.Network
import Verif.Props.NoAssert
import Verif.Props.NoAssertConv
import Verif.Props.NonceUse
import Verif.Props.OLE
import Verif.Props.OLECheat
import Verif.Props.OLEView
import Verif.Props.Offline
import Verif.Props.OfflineGC
import Verif.Props.OpenFlip
import Verif.Props.OpeningForgery
import Verif.Props.Ownership
import Verif.Props.OwnershipMade
import Verif.Props.PRF
import Verif.Props.PostRecord
import Verif.Props.ProbeDirect
import Verif.Props.Profile
import Verif.Props.ProxyForgery
import Verif.Props.ProxyTls
import Verif.Props.RecordTwo
import Verif.Props.RecordView
import Verif.Props.Records
import Verif.Props.SHA
import Verif.Props.Session
import Verif.Props.SessionBound
import Verif.Props.SessionExact
import Verif.Props.Setup
import Verif.Props.Switch
import Verif.Props.SwitchProxy
import Verif.Props.Threads
import Verif.Props.TrafficBytes
import Verif.Props.TrafficOnline
import Verif.Props.TrafficShape
import Verif.Props.Transcript
import Verif.Props.VOPE
import Verif.Props.VOPEView
import Verif.Props.Wire
import Verif.Props.WireBytes
import Verif.Props.WireCap
import Verif.Props.WireGC
import Verif.Props.WireTag
import Verif.Props.ZkCheck
import Verif.Props.ZkForgery
import Verif.Props.ZkReplay
import Verif.Props.ZkView
import Verif.Spec.AES
import Verif.Spec.Circuit
import Verif.Spec.ConstGates
import Verif.Spec.Depends
import Verif.Spec.Drift
import Verif.Spec.Encoding
import Verif.Spec.Flip
import Verif.Spec.GCM
import Verif.Spec.GCMField
import Verif.Spec.HMAC
import Verif.Spec.Known
import Verif.Spec.Linear
import Verif.Spec.OddGates
import Verif.Spec.Profile
import Verif.Spec.SHA256
import Verif.Spec.TLS
import Verif.Spec.Waiting
