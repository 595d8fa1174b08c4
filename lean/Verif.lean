import Verif.Model.Header
import Verif.Spec.Wire
import Verif.Props.Header
import Verif.Props.UInt
import Verif.Props.DecoderSafety
import Verif.Props.DecoderMessage
import Verif.Props.DecoderTermination
import Verif.Props.DecoderSplit
import Verif.Props.DecoderCuts
import Verif.Props.DecoderAnyCuts
import Verif.Props.DecoderAnyEmpty
import Verif.Props.DecoderAny
import Verif.Props.DecoderReport
import Verif.Props.OptionEncoder
import Verif.Props.StreamRoundTrip
import Verif.Props.NetBufEncoder
import Verif.Props.Retry
import Verif.Props.Cbor
import Verif.Props.CborDoc
import Verif.Props.CborDocIff
import Verif.Props.CborOld
import Verif.Props.StreamDecoder
import Verif.Props.UriPath
import Verif.Props.Server
import Verif.Props.Dispatch
import Verif.Props.Observable
import Verif.Props.ManagedBuffer
import Verif.Props.NetBuf
import Verif.Props.OptionMeta
import Verif.Props.Legacy
import Verif.Props.PullDecoder
import Verif.Props.Exchange
import Verif.Props.Route
import Verif.Props.DispatchContext
import Verif.Props.AggregateUri
import Verif.Props.AggregateSeq
import Verif.Props.LegacyCut
import Verif.Props.LegacyAny
import Verif.Props.LegacyPrompt
import Verif.Props.AggregateAny
import Verif.Props.AggregateIff
import Verif.Props.SocketsAny
import Verif.Props.BreedAny
import Verif.Props.DtlsRestart
import Verif.Props.ObserveHandlerAny
import Verif.Props.Diagnostic
import Verif.Props.Pump
import Verif.Props.PumpAny
import Verif.Props.Sockets
import Verif.Props.Responder
import Verif.Props.Core
import Verif.Props.CoreExact
import Verif.Props.ExamplesPlace
import Verif.Props.ObserveHandlerIff
import Verif.Props.RepliesIff
import Verif.Props.RetryLoopIff
import Verif.Props.SocketsReliableIff
import Verif.Props.DtlsIff
import Verif.Props.ObservableIff
import Verif.Props.ObserveProgramIff
import Verif.Props.ObserveOrder
import Verif.Props.ListedAnswered
import Verif.Props.UnknownOptions
import Verif.Props.PutAside
import Verif.Props.Amplify
import Verif.Props.NoLeak
import Verif.Props.PullMemory
import Verif.Props.ExchangeIff
import Verif.Props.Examples
import Verif.Props.ObserveHandler
import Verif.Props.Echo
import Verif.Props.EchoAny
import Verif.Props.EchoAnyCuts
import Verif.Props.StreamAnyExact
import Verif.Props.EchoCuts
import Verif.Props.DiagnosticCuts
import Verif.Props.DiagnosticAny
import Verif.Props.AggregateMessage
import Verif.Props.RetryLoop
import Verif.Props.RetryClock
import Verif.Props.DtlsTimer
import Verif.Props.Dtls
import Verif.Props.OtherPumps
import Verif.Props.StoredUInt
import Verif.Conformance.Decoder
import Verif.Conformance.Encoder
import Verif.Conformance.Cbor
import Verif.Conformance.Messages
import Verif.Conformance.Instances
import Verif.Conformance.InstancesRetry
import Verif.Conformance.InstancesExamples
import Verif.Conformance.InstancesServers
import Verif.Conformance.InstancesCore
import Verif.Conformance.InstancesMore
import Verif.Conformance.InstancesCbor
import Verif.Conformance.InstancesRest
import Verif.Conformance.InstancesTail
import Verif.Conformance.InstancesLast
import Verif.Conformance.InstancesUnknown
import Verif.Conformance.InstancesAside
import Verif.Conformance.InstancesLengths
import Verif.Conformance.InstancesLeak
import Verif.Conformance.InstancesPrograms
import Verif.Props.PullAny
import Verif.Props.PullCut
import Verif.Spec.ExamplesAny
import Verif.Props.ExamplesAny
import Verif.Props.ExamplesAnyIff
import Verif.Props.PullPieces
import Verif.Model.ObserveEmit
import Verif.Spec.ObserveEmit
import Verif.Props.ObserveEmit
import Verif.Model.CborWalk
import Verif.Spec.CborWalk
import Verif.Props.CborWalk
import Verif.Model.UriTables
import Verif.Spec.UriTables
import Verif.Props.UriTables
import Verif.Model.TypedOptions
import Verif.Props.TypedOptions
import Verif.Model.SocketsReliable
import Verif.Props.SocketsReliable
import Verif.Model.Buffers
import Verif.Props.Buffers
import Verif.Props.CborBounds
import Verif.Proofs.BadHeader
import Verif.Proofs.HeaderShift
import Verif.Props.StreamExtent
import Verif.Props.NetBufExtent
import Verif.Spec.ServerAny
import Verif.Props.ServerAny
import Verif.Model.Network
import Verif.Model.NetworkMany
import Verif.Spec.Network
import Verif.Spec.NetworkMany
import Verif.Props.Network
import Verif.Props.NetworkMany
import Verif.Model.ObserveProgram
import Verif.Spec.ObserveProgram
import Verif.Props.ObserveProgram
import Verif.Spec.Memory
import Verif.Proofs.Memory
import Verif.Proofs.CutValues
import Verif.Props.Memory
import Verif.Props.WriteResult
import Verif.Spec.ReadBack
import Verif.Props.ReadBack
import Verif.Props.ReadBackCuts
import Verif.Props.Relay
import Verif.Model.ObserveTicks
import Verif.Spec.ObserveTicks
import Verif.Props.ObserveTicks
import Verif.Spec.EndOpen
import Verif.Props.StreamAny
import Verif.Spec.Chars
import Verif.Props.StreamChars
import Verif.Props.ServerStream
import Verif.Model.OptionGenerate
import Verif.Props.OptionGenerate
import Verif.Model.RequestContext
import Verif.Props.RequestContext
import Verif.Model.Codes
import Verif.Props.Codes
import Verif.Model.StreamOps
import Verif.Props.StreamOps
import Verif.Model.CborHeads
import Verif.Props.CborHeads
import Verif.Props.Blockwise
import Verif.Model.RetryBuffers
import Verif.Props.RetryBuffers
