import Verif.Bytes
import Verif.Packet
import Verif.PacketSpec
import Verif.PacketProps
import Verif.OptionProps
import Verif.BlockMapper
import Verif.Readers
import Verif.WindowSpec
import Verif.WindowProps
import Verif.SeekSim
import Verif.MultiSim
import Verif.SingleSim
import Verif.ReaderApi
import Verif.ReaderSpec
import Verif.ReaderProps
import Verif.Writer
import Verif.TransferModel
import Verif.TransferInv
import Verif.TransferFin
import Verif.TransferProps
import Verif.TransferLive
import Verif.ReceiverProps
import Verif.Text
import Verif.Base64
import Verif.Keys
import Verif.Trim
import Verif.KeyExchange
import Verif.ToyKeys
import Verif.KeyFiles
import Verif.Negotiate
import Verif.NegotiateInv
import Verif.NegotiateProps
import Verif.NegotiateAgree
import Verif.Crypto
import Verif.CryptoProps
import Verif.Sizes
import Verif.SizesRun
import Verif.SizesCli
import Verif.Panics
import Verif.Path
import Verif.Fs
import Verif.Disk
import Verif.Server
import Verif.ServerTable
import Verif.ServerAdmit
import Verif.ServerTimers
import Verif.ServerFair
import Verif.ServerLoop
import Verif.Toy
import Verif.ServerStarve
import Verif.Rates
import Verif.Pool
import Verif.MapProps
import Verif.Client
import Verif.ClientRetry
import Verif.ClientForeign
import Verif.ClientPlain
import Verif.ClientSecure
import Verif.ToyClient
import Verif.Blocking
import Verif.Stream
import Verif.Life
import Verif.Multi
import Verif.MultiTimers
import Verif.ToyMulti
import Verif.EndLink
import Verif.EndWorld
import Verif.EndAgree
import Verif.EndPieces
import Verif.EndUp
import Verif.EndDown
import Verif.EndOnce
import Verif.EndFirst
import Verif.EndOrder
import Verif.ToyOrder
import Verif.Demux
import Verif.FixedReader
import Verif.FixedServer
import Verif.FixedProps
import Verif.ToyDemux
import Verif.EndFull
import Verif.ToyEnd
import Verif.ToyFull
import Verif.ToyForeign
import Verif.Sealed
import Verif.SealedCli
import Verif.SealedEnd
import Verif.ToySealed
import Verif.Listing
import Verif.Sessions
import Verif.Accept
import Verif.Sync
import Verif.Options
import Verif.ToyOptions
import Verif.Local
import Verif.Poll
import Verif.PollProps
import Verif.PollLive
import Verif.PollOrder
import Verif.ToyPoll
import Verif.ClientTimeout
import Verif.Flood
import Verif.Retransmit
import Verif.ToyTime
import Verif.Requests
import Verif.WaitSpec
import Verif.Sources
import Verif.SourceCli
import Verif.SealedUp
import Verif.GrowUp
import Verif.Utf8
import Verif.MultiDown
import Verif.EndLive
import Verif.EndLiveDown
import Verif.ToyLive
import Verif.EndStart
import Verif.ToyStart
import Verif.Authority
import Verif.ToyAuth
import Verif.Crash
import Verif.HostCut
import Verif.ErrorText
import Verif.ToyErrText
import Verif.RepoTests
import Verif.PollWake
import Verif.Rfc
import Verif.RfcDown
import Verif.RfcUp
import Verif.RfcRounds
import Verif.RfcServer
import Verif.RfcSend
import Verif.RfcTake
import Verif.RfcCliRounds
import Verif.ToyRfc
import Verif.ToyRfcSrv
import Verif.FixedText
import Verif.Machine
import Verif.FixedSeal
import Verif.FixedKeys
import Verif.FixedNames
import Verif.Clock
import Verif.White
import Verif.Numerals
import Verif.NumeralUse
import Verif.Nonces
import Verif.ClientClock
import Verif.RateUpload
import Verif.ClientWait
import Verif.RttMeasure
import Verif.RttRun
