import Verif.Arr
import Verif.Assoc
import Verif.Bits
import Verif.Brew.CallForward
import Verif.Brew.Entity
import Verif.Brew.ForwardProps
import Verif.Brew.Jitter
import Verif.Brew.JitterLatency
import Verif.Brew.JitterProps
import Verif.Brew.Link
import Verif.Brew.LinkProps
import Verif.Brew.NetCallProps
import Verif.Brew.NetCalls
import Verif.Brew.NetHeard
import Verif.Brew.Protocol
import Verif.Brew.ProtocolProps
import Verif.Brew.Routable
import Verif.Brew.RoutableProps
import Verif.Brew.ShortData
import Verif.Brew.Worker
import Verif.Brew.WorkerProps
import Verif.Cmce.CallClock
import Verif.Cmce.CallControl
import Verif.Cmce.CallEnds
import Verif.Cmce.CallEvents
import Verif.Cmce.CallFindings
import Verif.Cmce.CallFit
import Verif.Cmce.CallFloor
import Verif.Cmce.CallFloorProps
import Verif.Cmce.CallInv
import Verif.Cmce.CallMembers
import Verif.Cmce.CallMembersProps
import Verif.Cmce.CallNet
import Verif.Cmce.CallProps
import Verif.Cmce.CallShort
import Verif.Cmce.CallSteps
import Verif.Cmce.CallTerms
import Verif.Cmce.CallTold
import Verif.Cmce.CallViews
import Verif.Cmce.CircuitQueries
import Verif.Cmce.Circuits
import Verif.Cmce.CircuitsProps
import Verif.Cmce.CmceBs
import Verif.Cmce.CmceBsProps
import Verif.Cmce.CmceBsShort
import Verif.Cmce.PduElems
import Verif.Cmce.Pdus
import Verif.Cmce.PdusProps
import Verif.Cmce.Sds
import Verif.Cmce.SdsProps
import Verif.Cmce.Served
import Verif.Codec
import Verif.Common
import Verif.Config.CellProps
import Verif.Config.Opening
import Verif.Config.OpeningProps
import Verif.Config.Radio
import Verif.Config.RadioProps
import Verif.Config.Registry
import Verif.Config.RegistryProps
import Verif.Config.Stack
import Verif.Config.StackProps
import Verif.Core.BitBuffer
import Verif.Core.BitBufferLemmas
import Verif.Core.BitBufferOps
import Verif.Core.BitBufferProps
import Verif.Core.DuplexTable
import Verif.Core.Enums
import Verif.Core.EnumsAgree
import Verif.Core.EnumsProps
import Verif.Core.Freqs
import Verif.Core.FreqsProps
import Verif.Core.PduForm
import Verif.Core.PduGives
import Verif.Core.Ranges
import Verif.Core.RangesProps
import Verif.Core.Tdma
import Verif.Core.TdmaProps
import Verif.Core.TdmaUnits
import Verif.Core.TimeslotAlloc
import Verif.Core.TimeslotAllocProps
import Verif.Core.TxReceipt
import Verif.Core.TxReceiptProps
import Verif.Core.TypedFields
import Verif.Core.TypedFieldsLemmas
import Verif.Core.TypedFieldsProps
import Verif.Dsp.Bank
import Verif.Dsp.BankProps
import Verif.Dsp.ClockProps
import Verif.Dsp.Eye
import Verif.Dsp.EyeDecide
import Verif.Dsp.Fir
import Verif.Dsp.FirProps
import Verif.Dsp.Modem
import Verif.Dsp.ModemProps
import Verif.Dsp.Receive
import Verif.Dsp.ReceiveProps
import Verif.Dsp.SendTime
import Verif.Dsp.Slots
import Verif.Dsp.SlotsProps
import Verif.Dsp.Transmit
import Verif.Dsp.TransmitModemProps
import Verif.Dsp.TransmitProps
import Verif.Llc.AckProps
import Verif.Llc.Entity
import Verif.Llc.EntityProps
import Verif.Llc.Fcs
import Verif.Llc.FcsProps
import Verif.Llc.LinkProps
import Verif.Llc.OweProps
import Verif.Llc.Pdus
import Verif.Llc.UdataProps
import Verif.Lmac.AachTotal
import Verif.Lmac.CodeDistance
import Verif.Lmac.ConvEnc
import Verif.Lmac.Crc
import Verif.Lmac.Crc16
import Verif.Lmac.Crc16Props
import Verif.Lmac.ErrorControl
import Verif.Lmac.ErrorControlProps
import Verif.Lmac.Interleaver
import Verif.Lmac.InterleaverProps
import Verif.Lmac.Rm3014
import Verif.Lmac.Rm3014Props
import Verif.Lmac.Scrambler
import Verif.Lmac.ScramblerProps
import Verif.Lmac.SpeechProps
import Verif.Lmac.Total
import Verif.Lmac.Viterbi
import Verif.Lmac.ViterbiLemmas
import Verif.Lmac.ViterbiProps
import Verif.Mle.Broadcast
import Verif.Mle.BroadcastProps
import Verif.Mle.MleBs
import Verif.Mle.Pdus
import Verif.Mle.PdusProps
import Verif.Mm.MmBs
import Verif.Mm.MmEffects
import Verif.Mm.MmNetwork
import Verif.Mm.MmProps
import Verif.Mm.MmShort
import Verif.Mm.MmSpec
import Verif.Mm.MmSteps
import Verif.Mm.MmTelemetry
import Verif.Mm.Pdus
import Verif.Mm.PdusProps
import Verif.Net.Console
import Verif.Net.ConsoleAuth
import Verif.Net.ConsoleHeard
import Verif.Net.ConsoleLogin
import Verif.Net.ConsoleProps
import Verif.Net.Control
import Verif.Net.ControlProps
import Verif.Net.Digest
import Verif.Net.DigestProps
import Verif.Net.Receiver
import Verif.Net.ReceiverAnon
import Verif.Net.ReceiverProps
import Verif.Net.Stream
import Verif.Net.StreamProps
import Verif.Net.Telemetry
import Verif.Net.WebSocket
import Verif.Net.WebSocketProps
import Verif.Phy.Burst
import Verif.Phy.BurstProps
import Verif.Phy.Finder
import Verif.Phy.Loop
import Verif.Phy.LoopFindings
import Verif.Phy.LoopProps
import Verif.Phy.OnAirFindings
import Verif.Phy.OnAirProps
import Verif.Phy.Record
import Verif.Phy.RecordProps
import Verif.Phy.Uplink
import Verif.Phy.UplinkFind
import Verif.Phy.UplinkFindings
import Verif.Phy.UplinkHear
import Verif.Phy.UplinkProps
import Verif.Phy.UplinkRun
import Verif.Phy.UplinkTotal
import Verif.Router.Queue
import Verif.Router.QueueProps
import Verif.Sig.Aborts
import Verif.Sig.Down
import Verif.Sig.Fatal
import Verif.Sig.Heard
import Verif.Sig.Parts
import Verif.Sig.Sample
import Verif.Sig.Short
import Verif.Sig.Slots
import Verif.Sig.Stack
import Verif.Sig.Time
import Verif.Sig.Where
import Verif.Slots
import Verif.Station.Aborts
import Verif.Station.Air
import Verif.Station.AirProps
import Verif.Station.Answer
import Verif.Station.Asked
import Verif.Station.Called
import Verif.Station.Clean
import Verif.Station.Down
import Verif.Station.HeardBack
import Verif.Station.Parts
import Verif.Station.Props
import Verif.Station.Ranges
import Verif.Station.Sample
import Verif.Station.SampleAck
import Verif.Station.SampleCall
import Verif.Station.Station
import Verif.Station.Total
import Verif.Tool.PduTool
import Verif.Tool.PduToolProps
import Verif.Umac.Circuits
import Verif.Umac.CircuitsProps
import Verif.Umac.Defrag
import Verif.Umac.DefragProps
import Verif.Umac.EventLabels
import Verif.Umac.EventLabelsProps
import Verif.Umac.FillBits
import Verif.Umac.FillBitsProps
import Verif.Umac.Fragger
import Verif.Umac.FraggerProps
import Verif.Umac.FraggerSteps
import Verif.Umac.GrantProps
import Verif.Umac.Grants
import Verif.Umac.LmacMs
import Verif.Umac.LmacMsProps
import Verif.Umac.MacPdus
import Verif.Umac.MacPdusProps
import Verif.Umac.MsReassembly
import Verif.Umac.OrderRange
import Verif.Umac.RequestProps
import Verif.Umac.Sched
import Verif.Umac.SchedConfig
import Verif.Umac.SchedEnv
import Verif.Umac.SchedFindings
import Verif.Umac.SchedHistory
import Verif.Umac.SchedLineProps
import Verif.Umac.SchedLive
import Verif.Umac.SchedLiveProps
import Verif.Umac.SchedProps
import Verif.Umac.SchedSlot
import Verif.Umac.SchedSlotProps
import Verif.Umac.SchedSteps
import Verif.Umac.SchedTrack
import Verif.Umac.SchedView
import Verif.Umac.UlHistoryProps
import Verif.Umac.UlSched
import Verif.Umac.UlSchedProps
import Verif.Umac.UmacAddr
import Verif.Umac.UmacBlockProps
import Verif.Umac.UmacBlocks
import Verif.Umac.UmacBs
import Verif.Umac.UmacCall
import Verif.Umac.UmacCallProps
import Verif.Umac.UmacFindings
import Verif.Umac.UmacLog
import Verif.Umac.UmacMs
import Verif.Umac.UmacMsBlock
import Verif.Umac.UmacMsFindings
import Verif.Umac.UmacMsHistory
import Verif.Umac.UmacMsProps
import Verif.Umac.UmacMsRound
import Verif.Umac.UmacOrders
import Verif.Umac.UmacRxOut
import Verif.Umac.UmacSdu
import Verif.Umac.UmacSduComplete
import Verif.Umac.UmacSduProps
import Verif.Umac.UmacSduSend
import Verif.Umac.UmacSduSound
import Verif.Umac.UmacSound
import Verif.Umac.UmacSteal
import Verif.Umac.UmacTotal
import Verif.Umac.UmacWatch
import Verif.Umac.UmacWatchProps
import Verif.Umac.VoiceQueue
