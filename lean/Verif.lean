import Verif.Base
import Verif.Command
import Verif.F32
import Verif.Messages
import Verif.Instruments
import Verif.Track
import Verif.Midi
import Verif.SeqTree
import Verif.Song
import Verif.Rom
import Verif.Json
import Verif.JsonText
import Verif.Manifest
import Verif.Cli
import Verif.Spec.Nspc
import Verif.Proofs.Nspc
import Verif.Proofs.NspcPlay
import Verif.Proofs.WriteTrack
import Verif.Props.Encoding
import Verif.Spec.Timing
import Verif.Proofs.Res
import Verif.Proofs.F32
import Verif.Proofs.Duration
import Verif.Proofs.Sustain
import Verif.Proofs.TrackLoop
import Verif.Proofs.TrackTiming
import Verif.Proofs.TrackNew
import Verif.Props.Track
import Verif.Props.Tempo
import Verif.Spec.Midi
import Verif.Proofs.Routing
import Verif.Proofs.Intervals
import Verif.Proofs.BaseVoices
import Verif.Proofs.Scan
import Verif.Props.Channels
import Verif.Proofs.Merge
import Verif.Proofs.Deal
import Verif.Proofs.Held
import Verif.Proofs.Emission
import Verif.Proofs.OneVoice
import Verif.Props.Voices
import Verif.Proofs.VelocityZero
import Verif.Proofs.Programs
import Verif.Props.Programs
import Verif.Spec.Loops
import Verif.Proofs.SeqTree
import Verif.Proofs.Candidates
import Verif.Proofs.Extract
import Verif.Proofs.Optimise
import Verif.Proofs.NoCalls
import Verif.Proofs.TreeIter
import Verif.Props.Optimise
import Verif.Spec.Rom
import Verif.Proofs.RomBasic
import Verif.Proofs.RomWalk
import Verif.Proofs.RomTrace
import Verif.Proofs.RomLayout
import Verif.Props.Rom
import Verif.Proofs.RomWrites
import Verif.Proofs.RomBank
import Verif.Proofs.RomAram
import Verif.Proofs.RomFit
import Verif.Proofs.RomJobs
import Verif.Proofs.RomDemo
import Verif.Props.RomBuild
import Verif.Proofs.RomFake
import Verif.Props.RomFake
import Verif.Spec.Manifest
import Verif.Proofs.Manifest
import Verif.Props.Manifest
import Verif.Props.Json
import Verif.Spec.Cli
import Verif.Proofs.Cli
import Verif.Props.Cli
import Verif.Spec.Engine
import Verif.Spec.Playback
import Verif.Proofs.Engine
import Verif.Proofs.Playback
import Verif.Props.Playback
import Verif.Proofs.MidiPlayable
import Verif.Props.MidiPlayback
import Verif.RepoTests
import Verif.Proofs.Verbose
import Verif.Proofs.RomFree
import Verif.Props.RomMore
import Verif.Proofs.CliMore
import Verif.Proofs.JsonText
import Verif.Props.JsonText
import Verif.Props.CliMore
import Verif.Proofs.Complete
import Verif.Props.Complete
import Verif.Spec.Sane
import Verif.Proofs.Sane
import Verif.Props.Sane
import Verif.Spec.Portamento
import Verif.Proofs.Portamento
import Verif.Props.Portamento
import Verif.Spec.Tidy
import Verif.Proofs.Tidy
import Verif.Props.FileToSound
import Verif.Spec.Changes
import Verif.Proofs.Changes
import Verif.Props.Changes
import Verif.Props.WholeTool
import Verif.Spec.Strike
import Verif.Proofs.Strike
import Verif.Props.Strike
import Verif.Spec.Sound
import Verif.Proofs.Sound
import Verif.Props.Sound
import Verif.Spec.Volume
import Verif.Proofs.Volumes
import Verif.Props.Volumes
import Verif.Spec.Polyphony
import Verif.Proofs.Reading
import Verif.Props.Reading
import Verif.Props.Success
import Verif.Spec.Lengths
import Verif.Proofs.Lengths
import Verif.Proofs.Tones
import Verif.Props.Lengths
import Verif.Proofs.RomSame
import Verif.Props.RomSame
import Verif.Spec.Orchestra
import Verif.Proofs.Orchestra
import Verif.Proofs.Fusing
import Verif.Props.Orchestra
import Verif.Schema
import Verif.Spec.Schema
import Verif.Props.Schema
import Verif.Spec.Relabel
import Verif.Proofs.Relabel
import Verif.Proofs.Rename
import Verif.Proofs.Resolution
import Verif.Proofs.Transpose
import Verif.Props.Relabel
import Verif.Spec.Layout
import Verif.Proofs.Layout
import Verif.Props.Layout
import Verif.Report
import Verif.Spec.Report
import Verif.Proofs.Report
import Verif.Proofs.ReportTrue
import Verif.Props.Report
import Verif.Spec.Clock
import Verif.Proofs.Clock
import Verif.Proofs.RealTime
import Verif.Props.RealTime
import Verif.Props.Rebuild
import Verif.Proofs.Bytes
import Verif.Props.Space
import Verif.Spec.Repeat
import Verif.Proofs.Repeat
import Verif.Props.Repeat
import Verif.Spec.Glide
import Verif.Proofs.Glide
import Verif.Props.Glide
import Verif.ReadReport
import Verif.Spec.ReadReport
import Verif.Proofs.ReadReport
import Verif.Proofs.ReadReportFind
import Verif.Proofs.ReadReportDeal
import Verif.Proofs.ReadReportTrue
import Verif.Props.ReadReport
import Verif.Spec.TempoFactor
import Verif.Proofs.TempoFactor
import Verif.Props.TempoFactor
import Verif.Spec.Size
import Verif.Proofs.Size
import Verif.Proofs.SizeDeal
import Verif.Props.Size
import Verif.Args
import Verif.Spec.Args
import Verif.Props.Args
import Verif.Spec.Failures
import Verif.Props.Failures
import Verif.Spec.Local
import Verif.Proofs.Local
import Verif.Props.Local
import Verif.Spec.Counts
import Verif.Proofs.Counts
import Verif.Proofs.Crowd
import Verif.Props.Counts
import Verif.Spec.Grid
import Verif.Proofs.Grid
import Verif.Props.Grid
import Verif.Spec.Fit
import Verif.Proofs.RomExact
import Verif.Props.RomExact
import Verif.Spec.FirstVoices
import Verif.Proofs.FirstVoices
import Verif.Props.FirstVoices
import Verif.Spec.Retime
import Verif.Proofs.Retime
import Verif.Props.Retime
import Verif.Spec.Outline
import Verif.Proofs.Outline
import Verif.Props.Outline
import Verif.Spec.Damage
import Verif.Proofs.Damage
import Verif.Props.Damage
import Verif.Spec.Mute
import Verif.Proofs.Mute
import Verif.Props.Mute
import Verif.Spec.Causal
import Verif.Proofs.Causal
import Verif.Props.Causal
import Verif.Release
import Verif.Spec.Release
import Verif.Proofs.Release
import Verif.Proofs.ReleaseLoops
import Verif.Proofs.ReleaseRead
import Verif.Proofs.ReleaseTrack
import Verif.Proofs.ReleaseSong
import Verif.Props.Release
import Verif.Spec.Outcomes
import Verif.Proofs.Outcomes
import Verif.Proofs.ReleaseOutcomes
import Verif.Props.Outcomes
import Verif.Proofs.ReleaseShape
import Verif.Props.ReleaseRom
import Verif.Spec.Balance
import Verif.Proofs.ReleaseNotes
import Verif.Proofs.ReleaseIntervals
import Verif.Props.ReleaseIntervals
import Verif.Props.ReleaseNotes
import Verif.Spec.JsonGrammar
import Verif.Spec.SongDoc
import Verif.Proofs.JsonGrammar
import Verif.Proofs.SongDoc
import Verif.Props.SongFile
import Verif.Props.CountsFile
import Verif.Proofs.JsonString
import Verif.Props.ManifestFile
import Verif.Proofs.ParentPath
import Verif.Spec.GeneralMidi
import Verif.Proofs.GeneralMidi
import Verif.Props.GeneralMidi
