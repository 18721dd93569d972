import Verif.Proofs.Outline
import Verif.Props.Layout
import Verif.Props.Grid
import Verif.Proofs.Manifest
import Verif.Props.Optimise
/-
Property C97: the values of velocities, volumes, programs and tempos have no influence on rhythm and pitches.
-/
namespace M2S
open MidiSpec Nspc

/-- Reading files with the same outline. -/
theorem C97_read (ord : EnumOrder) (a b : List Callback) (ha : Readable a) (hb : Readable b) (hs : SameOutline a b) :
    Both (fun h h' => (∀ v, (h.voices v).map outlined = (h'.voices v).map outlined) ∧ (∀ c, (h.channels c).baseVoice = (h'.channels c).baseVoice) ∧
      h.ticksPerBeat = h'.ticksPerBeat ∧ h.maxTime = h'.maxTime) (readMidi ord a) (readMidi ord b) := by
  have hch : ∀ c, (sortMessages (ofChannel (file a) c)).map outlined = (sortMessages (ofChannel (file b) c)).map outlined := by
    intro c
    rw [← sort_outline, ← ofChannel_outline, hs.messages, ofChannel_outline, sort_outline]
  obtain ⟨ga, a1, a2, a3, a4, a5⟩ := handled a ha
  obtain ⟨gb, b1, b2, b3, b4, b5⟩ := handled b hb
  unfold readMidi
  rw [a1, b1]
  show Both _ (ga.process ord) (gb.process ord)
  unfold MidiHandler.process
  rw [a5, b5]
  show Both _ (do
    let (ivs, maxTime) ← scanChannels (fun c => sortMessages (ofChannel (file a) c)) ga.maxTime
    _) (do
    let (ivs, maxTime) ← scanChannels (fun c => sortMessages (ofChannel (file b) c)) gb.maxTime
    _)
  rw [a3, b3, a2, b2, ← scanChannels_outline, ← scanChannels_outline (fun c => sortMessages (ofChannel (file b) c))]
  simp only [hch]
  cases scanChannels (fun c => (sortMessages (ofChannel (file b) c)).map outlined) 0 with
  | error e => exact .error e
  | ok r =>
    obtain ⟨ivs, mt⟩ := r
    show Both _ (match findBaseVoices ((List.finRange 16).map ivs) (fun _ => []) with | none => _ | some bs => _)
      (match findBaseVoices ((List.finRange 16).map ivs) (fun _ => []) with | none => _ | some bs => _)
    cases findBaseVoices ((List.finRange 16).map ivs) (fun _ => []) with
    | none => exact .error _
    | some bs =>
      refine Both.bind (channelsToVoices_outline ord _ _ hch fun c : Fin 16 => bs.getD c 0) ?_
      intro vs vs' h
      exact .ok ⟨h, fun c => rfl, by show ga.ticksPerBeat = gb.ticksPerBeat; rw [a4, b4]; exact hs.base, rfl⟩

theorem mapM_both {α β γ : Type} {R : β → γ → Prop} (l : List α) (f : α → Res β) (g : α → Res γ) (h : ∀ a ∈ l, Both R (f a) (g a)) :
    Both (List.Forall₂ R) (l.mapM f) (l.mapM g) := by
  induction l with
  | nil => exact .ok .nil
  | cons a l ih =>
    rw [List.mapM_cons, List.mapM_cons]
    refine (h a (by simp)).bind fun b c hbc => ?_
    exact (ih fun a ha => h a (by simp [ha])).bind fun bs cs hs => .ok (.cons hbc hs)

theorem filter_outline {ts ts' : List (List PCmd)} (h : List.Forall₂ LikeCmds ts ts') :
    (ts.filter fun t => !t.isEmpty).map (List.map outlineCmd) = (ts'.filter fun t => !t.isEmpty).map (List.map outlineCmd) := by
  induction h with
  | nil => rfl
  | @cons x y l l' hxy hl ih =>
    have he : x.isEmpty = y.isEmpty := by rw [← List.isEmpty_map (f := outlineCmd), hxy, List.isEmpty_map]
    simp only [List.filter_cons, he]
    split
    · rw [List.map_cons, List.map_cons, ih]
      exact congrArg (· :: _) hxy
    · exact ih

/-- **C97.** Let two readable files with data bytes in the MIDI range agree but for the values of velocities (other than zero against non-zero), volumes, programs and tempos.
Without optimisation, and whatever the tempo factors, both fail in the same way or give songs that agree but for the values of velocities, volumes, instruments and tempos. -/
theorem C97_song (ord : EnumOrder) (a b : List Callback) (ha : Readable a) (hb : Readable b) (hs : SameOutline a b)
    (da : ∀ m ∈ file a, dataOk m.1 = true) (db : ∀ m ∈ file b, dataOk m.1 = true) (f g : F32) :
    Both (fun s t => outlineSong s = outlineSong t) (readMidi ord a >>= fun h => songFromMidi h f false) (readMidi ord b >>= fun h => songFromMidi h g false) := by
  have hr := C97_read ord a b ha hb hs
  cases ea : readMidi ord a with
  | error e =>
    rw [ea] at hr
    generalize readMidi ord b = y at hr
    cases hr
    exact .error e
  | ok h =>
    cases eb : readMidi ord b with
    | error e => rw [ea, eb] at hr; cases hr
    | ok h' =>
      rw [ea, eb] at hr
      cases hr with
      | ok hr =>
        obtain ⟨h1, -, h3, h4⟩ := hr
        show Both _ (songFromMidi h f false) (songFromMidi h' g false)
        have ht : Both (List.Forall₂ LikeCmds) ((List.finRange 8).mapM fun v => trackNew (h.voices v) h.ticksPerBeat h.maxTime f)
            ((List.finRange 8).mapM fun v => trackNew (h'.voices v) h'.ticksPerBeat h'.maxTime g) := by
          refine mapM_both _ _ _ fun v _ => ?_
          rw [h3, h4]
          exact trackNew_outline _ _ (h1 v) (read_voice ord a h ea da v).1 (read_voice ord b h' eb db v).1 _ _ f g
        unfold songFromMidi voiceTracks
        simp only [Bool.false_eq_true, if_false]
        refine Both.bind (R := fun ts ts' => ts.map (List.map outlineCmd) = ts'.map (List.map outlineCmd)) (ht.bind fun ts ts' hts => .ok (filter_outline hts)) fun ts ts' hts => .ok ?_
        have hl : ts.length = ts'.length := by rw [← List.length_map (f := List.map outlineCmd), hts, List.length_map]
        simp only [outlineSong, hts, hl]

/-- A tune of two voices with a given velocity, volume, program and tempo. -/
def tuneWith (v vol p : UInt8) (tempo : List UInt8) : List Callback :=
  [ .header 1 24, .trackChange, .metaEvent 0 .setTempo tempo, .midiEvent 0 (.programChange 0 p), .midiEvent 0 (.controlChange 0 7 vol), .midiEvent 0 (.noteOn 0 60 v),
    .midiEvent 0 (.noteOn 1 48 v), .midiEvent 24 (.noteOff 0 60 v), .midiEvent 12 (.noteOff 1 48 v), .midiEvent 12 (.noteOn 0 67 v), .midiEvent 24 (.noteOff 0 67 v) ]

theorem tune_outline : SameOutline (tuneWith 100 127 0 [7, 161, 32]) (tuneWith 10 1 56 [3, 0, 0]) := ⟨by decide, by decide⟩

/-- The theorem at work: the two tunes differ, and agree in outline. -/
example : ∃ s t, (readMidi id (tuneWith 100 127 0 [7, 161, 32]) >>= fun h => songFromMidi h (.fin 1) false) = .ok s ∧
    (readMidi id (tuneWith 10 1 56 [3, 0, 0]) >>= fun h => songFromMidi h (.fin 1) false) = .ok t ∧ s ≠ t ∧ outlineSong s = outlineSong t := by
  have h := C97_song id _ _ ⟨by simp [tuneWith], by decide, by decide⟩ ⟨by simp [tuneWith], by decide, by decide⟩ tune_outline (by decide) (by decide) (.fin 1) (.fin 1)
  have ok : (readMidi id (tuneWith 100 127 0 [7, 161, 32]) >>= fun h => songFromMidi h (.fin 1) false).toOption.isSome = true := by decide +kernel
  have ne : (readMidi id (tuneWith 100 127 0 [7, 161, 32]) >>= fun h => songFromMidi h (.fin 1) false) ≠ (readMidi id (tuneWith 10 1 56 [3, 0, 0]) >>= fun h => songFromMidi h (.fin 1) false) := by
    decide +kernel
  generalize (readMidi id (tuneWith 100 127 0 [7, 161, 32]) >>= fun h => songFromMidi h (.fin 1) false) = x at h ok ne
  generalize (readMidi id (tuneWith 10 1 56 [3, 0, 0]) >>= fun h => songFromMidi h (.fin 1) false) = y at h ne
  cases h with
  | error e => cases ok
  | ok h => exact ⟨_, _, rfl, rfl, fun e => ne (by rw [e]), h⟩

/-- Bytes out of range do have an influence: a volume of 128 makes the tool panic, one of 127 does not. -/
theorem C97_range_false : SameOutline (tuneWith 100 127 0 [7, 161, 32]) (tuneWith 100 128 0 [7, 161, 32]) ∧
    (readMidi id (tuneWith 100 127 0 [7, 161, 32]) >>= fun h => songFromMidi h (.fin 1) false).toOption.isSome = true ∧
    (readMidi id (tuneWith 100 128 0 [7, 161, 32]) >>= fun h => songFromMidi h (.fin 1) false) = .error .panic :=
  ⟨⟨by decide, by decide⟩, by decide +kernel, by decide +kernel⟩

/-- Four notes, and the same four with another velocity. -/
def twiceWith (v w : UInt8) : List Callback :=
  [.header 1 24, .trackChange] ++
    ([60, 62, 64, 65].flatMap fun n => [.midiEvent 0 (.noteOn 0 n v), .midiEvent 24 (.noteOff 0 n 0)]) ++
    ([67] : List UInt8).flatMap (fun n => [.midiEvent 0 (.noteOn 0 n v), .midiEvent 24 (.noteOff 0 n 0)]) ++
    ([60, 62, 64, 65].flatMap fun n => [.midiEvent 0 (.noteOn 0 n w), .midiEvent 24 (.noteOff 0 n 0)])

/-- With optimisation velocities do have an influence on the commands: phrases that differ in them are not extracted. -/
theorem C97_optimised_false : SameOutline (twiceWith 100 100) (twiceWith 100 50) ∧
    ((readMidi id (twiceWith 100 100) >>= fun h => songFromMidi h (.fin 1) true).toOption.map fun s => s.tracks.length) = some 2 ∧
    ((readMidi id (twiceWith 100 50) >>= fun h => songFromMidi h (.fin 1) true).toOption.map fun s => s.tracks.length) = some 1 := by
  refine ⟨⟨by decide, by decide⟩, ?_, ?_⟩ <;> (unfold songFromMidi; simp only [optimizeCallLoops_run]; decide +kernel)

end M2S
