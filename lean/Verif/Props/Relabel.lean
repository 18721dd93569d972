import Verif.Proofs.Resolution
import Verif.Proofs.Transpose
import Verif.Props.Success
import Verif.Cli
import Verif.Props.Optimise
/-
Properties C75, C76 and C77: what the tool must not notice or must carry through: the resolution of the file, its key, and the names of commands.
-/
namespace M2S
open MidiSpec Timing

/-! ## Reading -/

/-- Reading a rewritten file, for any order of the hash maps. -/
theorem readMidi_rewrite (ord : EnumOrder) (ho : ∀ l, (ord l).Perm l) {k : Nat} {ν : Fin 16 → UInt8 → UInt8} (hk : 0 < k) (hν : ∀ c, Function.Injective (ν c)) (h9 : ν 9 = id)
    (calls : List Callback) (hfit : Fits32 k (file calls)) : readMidi ord (calls.map (rewriteCall k ν)) = (readMidi ord calls).map (rewriteHandler k ν) := by
  rw [C25_order_independent ord id ho (fun _ => List.Perm.refl _), C25_order_independent ord id ho (fun _ => List.Perm.refl _) calls]
  exact readMidi_rewrite_id hk hν h9 calls hfit

/-- Times of channel events are covered by the length of the song. -/
theorem voices_maxTime (ord : EnumOrder) (calls : List Callback) (h : MidiHandler) (hr : readMidi ord calls = .ok h) (v : Fin 8) :
    ∀ m ∈ h.voices v, ∀ d e, m.1 = .midiEvent d e → m.2 ≤ h.maxTime := by
  obtain ⟨seq, outs, k, s1, s2, s3, s4⟩ := read_emits ord calls h hr
  intro m hm d e hme
  rw [s4] at hm
  obtain ⟨p, hp, rfl⟩ := List.mem_map.1 hm
  obtain ⟨x, hx, ⟨d', e', hxe⟩, ht⟩ := emits_times_midi ord _ _ _ _ s3 _ (List.mem_of_mem_filter hp) d e hme
  obtain ⟨-, -, ivs, bs, c1, c2, -⟩ := readMidi_ok ord calls h hr
  unfold scanChannels at c2
  have hmx := (scans_max _ _ _ _ c2).2
  obtain ⟨⟨c, y⟩, hq, rfl⟩ := List.mem_map.1 hx
  have hy : y ∈ (h.channels c).messages := by
    rw [← s1 c]
    exact List.mem_map.2 ⟨(c, y), List.mem_filter.2 ⟨hq, by simp⟩, rfl⟩
  rw [c1 c] at hy
  have := hmx c (List.mem_finRange c) y hy d' e' hxe
  simp only at ht
  omega

/-! ## C75: resolution -/

theorem noSlides_of (m : Message) (h : slideOn m = false) : noSlides m = true := by
  by_cases hm : ∃ d ch x, m = .midiEvent d (.controlChange ch 65 x)
  · obtain ⟨d, ch, x, rfl⟩ := hm
    simp only [slideOn, decide_eq_false_iff_not, ge_iff_le, UInt8.not_le] at h
    simpa only [noSlides, decide_eq_true_eq] using h
  · unfold noSlides
    split
    · exact absurd ⟨_, _, _, rfl⟩ hm
    · rfl

theorem voiceTracks_finer (ord : EnumOrder) (k : Nat) (hk : 0 < k) (calls : List Callback) (hs : Scalable k calls) (h : MidiHandler) (hr : readMidi ord calls = .ok h) (f : F32) :
    voiceTracks (rewriteHandler k (fun _ n => n) h) f = voiceTracks h f := by
  have hb := read_timeBase ord calls h hr
  have hT : k * h.maxTime < 8388600 := by
    rcases read_maxTime ord calls h hr with h0 | ⟨m, hm, h0⟩
    · rw [h0]; norm_num
    · rw [h0]; exact hs.short m hm
  unfold voiceTracks
  have : ∀ v, trackNew ((rewriteHandler k (fun _ n => n) h).voices v) (rewriteHandler k (fun _ n => n) h).ticksPerBeat (rewriteHandler k (fun _ n => n) h).maxTime f =
      trackNew (h.voices v) h.ticksPerBeat h.maxTime f := by
    intro v
    refine trackNew_finer hk (by rw [hb]; exact hs.some) (by rw [hb]; exact hs.whole) (by rw [hb]; exact hs.header) hT f (h.voices v) (voices_maxTime ord calls h hr v) ?_
    have := voices_noSlides ord calls h hr (fun x hx => noSlides_of _ (hs.plain x hx)) v
    rw [noPortamento_eq, List.all_eq_true] at this
    exact this
  simp only [this]

/-- **C75 (song), partial** (missing: resolutions not divisible by 24, portamento, long files). The resolution of a file does not matter: multiplying it and all times by the same number gives the same song (or the same failure), with or without optimisation. -/
theorem C75_song_partial (ord : EnumOrder) (ho : ∀ l, (ord l).Perm l) (k : Nat) (hk : 0 < k) (calls : List Callback) (hs : Scalable k calls) (f : F32) (opt : Bool) :
    (readMidi ord (finer k calls) >>= fun h => songFromMidi h f opt) = readMidi ord calls >>= fun h => songFromMidi h f opt := by
  have hr := readMidi_rewrite ord ho (k := k) (ν := fun _ n => n) hk (fun _ _ _ h => h) rfl calls (fun m hm => by have := hs.short m hm; omega)
  unfold finer
  rw [hr]
  cases e : readMidi ord calls with
  | error e => rfl
  | ok h =>
    simp only [Except.map, bind, Except.bind]
    unfold songFromMidi
    rw [voiceTracks_finer ord k hk calls hs h e f]

/-- **C75, partial** (missing: as above). The tool as a whole does not notice the resolution: had all MIDI files been written with a resolution `k` times as fine, every command would have the same outcome and leave the same files. -/
theorem C75_resolution_partial (x : Ext) (hord : ∀ l, (x.ord l).Perm l) (k : Nat) (hk : 0 < k) (fs : FS)
    (hs : ∀ path bytes calls, fs path = some bytes → x.parseMidi bytes = some calls → Scalable k calls) (optimize verbose : Bool) (cmd : Cmd) :
    { x with parseMidi := fun b => (x.parseMidi b).map (finer k) }.run fs optimize verbose cmd = x.run fs optimize verbose cmd := by
  have hsong : ∀ path tempo o, Ext.songFromMidiFile { x with parseMidi := fun b => (x.parseMidi b).map (finer k) } fs path tempo o = x.songFromMidiFile fs path tempo o := by
    intro path tempo o
    unfold Ext.songFromMidiFile
    cases e1 : fs path with
    | none => rfl
    | some bytes =>
      simp only
      cases e2 : x.parseMidi bytes with
      | none => rfl
      | some calls => exact C75_song_partial x.ord hord k hk calls (hs path bytes calls e1 e2) tempo o
  have hconv : ∀ o, Ext.converter { x with parseMidi := fun b => (x.parseMidi b).map (finer k) } fs o = x.converter fs o := by
    intro o
    funext path tempo
    unfold Ext.converter
    simp only [hsong]
    rfl
  have hwrite : ∀ m rom addrs o v, Ext.writeRom { x with parseMidi := fun b => (x.parseMidi b).map (finer k) } fs m rom addrs o v = x.writeRom fs m rom addrs o v := by
    intro m rom addrs o v
    unfold Ext.writeRom
    simp only [hconv]
  cases cmd with
  | buildRom manifest rom addrs => unfold Ext.run; simp only [hwrite]; rfl
  | allOverworld input rom addrs => unfold Ext.run; simp only [hwrite]
  | fileSelect input rom addrs => unfold Ext.run; simp only [hwrite]
  | midi2json input output => unfold Ext.run; simp only [hsong]
  | genFakeRom input output addrs => rfl
  | dumpMidi input =>
    cases e1 : fs input with
    | none => simp only [Ext.run, e1, Option.bind_none]
    | some bytes =>
      simp only [Ext.run, e1, Option.bind_some]
      cases e2 : x.parseMidi bytes with
      | none => rfl
      | some calls =>
        have hs := hs input bytes calls e1 e2
        have hr := readMidi_rewrite x.ord hord (k := k) (ν := fun _ n => n) hk (fun _ _ _ h => h) rfl calls (fun m hm => by have := hs.short m hm; omega)
        simp only [Option.map_some, finer]
        rw [hr]
        cases readMidi x.ord calls with
        | ok h => rfl
        | error e => rfl

/-! ## C76: transposition -/

theorem shift_inj (j : UInt8) (c : Fin 16) : Function.Injective (shift j c) := by
  intro a b h
  unfold shift at h
  split at h
  · exact h
  · simpa using h

theorem voiceTracks_transposed (ord : EnumOrder) (j : UInt8) (calls : List Callback) (ht : Transposable j calls) (h : MidiHandler) (hr : readMidi ord calls = .ok h) (f : F32) :
    voiceTracks (rewriteHandler 1 (shift j) h) f = (voiceTracks h f).map (List.map (List.map (transposeCmd j))) := by
  have hn : ∀ x ∈ file calls, onNotes (Movable j) x.1 := by
    intro x hx
    unfold onNotes
    split
    · rename_i d ch n v e; exact ht x hx (ch, n) (by rw [e]; rfl)
    · rename_i d ch n v e; exact ht x hx (ch, n) (by rw [e]; rfl)
    · trivial
  unfold voiceTracks
  have : ∀ v, trackNew ((rewriteHandler 1 (shift j) h).voices v) (rewriteHandler 1 (shift j) h).ticksPerBeat (rewriteHandler 1 (shift j) h).maxTime f =
      (trackNew (h.voices v) h.ticksPerBeat h.maxTime f).map (List.map (transposeCmd j)) := by
    intro v
    have e1 : (rewriteHandler 1 (shift j) h).ticksPerBeat = h.ticksPerBeat := Nat.one_mul _
    have e2 : (rewriteHandler 1 (shift j) h).maxTime = h.maxTime := Nat.one_mul _
    rw [e1, e2]
    exact trackNew_transpose j _ _ f (h.voices v) (voices_notes (Movable j) (fun n hn => hn.1 rfl) ord calls h hr hn v)
  have hm := mapM_rewrite (fun v => trackNew (h.voices v) h.ticksPerBeat h.maxTime f)
    (fun v => trackNew ((rewriteHandler 1 (shift j) h).voices v) (rewriteHandler 1 (shift j) h).ticksPerBeat (rewriteHandler 1 (shift j) h).maxTime f) id (List.map (transposeCmd j))
    (List.finRange 8) this
  rw [List.map_id] at hm
  rw [hm]
  cases (List.finRange 8).mapM fun v => trackNew (h.voices v) h.ticksPerBeat h.maxTime f with
  | error e => rfl
  | ok ts =>
    simp only [Except.map, bind, Except.bind, pure, Except.pure]
    rw [List.filter_map]
    congr 2
    congr 1
    funext t
    simp

/-- **C76 (song).** A transposed file gives the transposed song: every note and every target of a slide is moved by the same number of semitones and nothing else changes; it also fails where the file fails, with the same fault. With and without optimisation. -/
theorem C76_song (ord : EnumOrder) (ho : ∀ l, (ord l).Perm l) (j : UInt8) (calls : List Callback) (ht : Transposable j calls) (hfit : ∀ m ∈ file calls, m.2 < 2 ^ 32) (f : F32) (opt : Bool) :
    (readMidi ord (transposed j calls) >>= fun h => songFromMidi h f opt) = (readMidi ord calls >>= fun h => songFromMidi h f opt).map (transposeSong j) := by
  have hr := readMidi_rewrite ord ho (k := 1) (ν := shift j) (by norm_num) (shift_inj j) (by funext n; rfl) calls (fun m hm => by have := hfit m hm; omega)
  unfold transposed
  rw [hr]
  cases e : readMidi ord calls with
  | error e => rfl
  | ok h =>
    simp only [Except.map, bind, Except.bind]
    unfold songFromMidi
    rw [voiceTracks_transposed ord j calls ht h e f]
    cases voiceTracks h f with
    | error e => rfl
    | ok ts =>
      simp only [Except.map, bind, Except.bind, List.length_map]
      cases opt with
      | false => rfl
      | true =>
        simp only [if_true]
        rw [optimize_rename (transpose_renaming j)]
        cases optimizeCallLoops ts ts.length with
        | error e => rfl
        | ok o => rfl

/-- How much room a written track takes and where its calls are. -/
def roomOf (o : Out) : Nat × List CallLoopRef := (o.bytes.length, o.refs)

theorem write_room (j : UInt8) (c : PCmd) (o o' : Out) (h : roomOf o' = roomOf o) (d : UInt8) (v : Option UInt8) :
    roomOf ((transposeCmd j c).write o' d v).1 = roomOf (c.write o d v).1 ∧ ((transposeCmd j c).write o' d v).2 = (c.write o d v).2 := by
  have hv : (transposeCmd j c).velSus v = c.velSus v := rfl
  have hn : (transposeCmd j c).command.isNote = c.command.isNote := by obtain ⟨_, _, _, c⟩ := c; cases c <;> rfl
  have hd : (transposeCmd j c).duration = c.duration := rfl
  have put : ∀ (a b : Out) l, roomOf a = roomOf b → roomOf (a.put l) = roomOf (b.put l) := by
    intro a b l hab
    simp only [roomOf, Prod.mk.injEq, Out.put, List.length_append] at hab ⊢
    exact ⟨by rw [hab.1], hab.2⟩
  have cmd : ∀ a b : Out, roomOf a = roomOf b → roomOf ((transposeCmd j c).command.write a) = roomOf (c.command.write b) := by
    intro a b hab
    obtain ⟨_, _, _, c⟩ := c
    simp only [roomOf, Prod.mk.injEq] at hab
    cases c <;> simp [transposeCmd, transposeCommand, Command.write, roomOf, Out.put, hab.1, hab.2]
  unfold PCmd.write
  simp only [hv, hn, hd]
  have pre : ∀ dw vw : Option UInt8, roomOf (match vw with
      | some vs => Out.put (match dw with | some x => o'.put [x] | none => if vw.isSome then o'.put [d] else o') [vs]
      | none => match dw with | some x => o'.put [x] | none => if vw.isSome then o'.put [d] else o') =
    roomOf (match vw with
      | some vs => Out.put (match dw with | some x => o.put [x] | none => if vw.isSome then o.put [d] else o) [vs]
      | none => match dw with | some x => o.put [x] | none => if vw.isSome then o.put [d] else o) := by
    intro dw vw
    cases vw with
    | none => cases dw with
      | none => exact h
      | some x => exact put _ _ _ h
    | some y => cases dw with
      | none => exact put _ _ _ (put _ _ _ h)
      | some x => exact put _ _ _ (put _ _ _ h)
  exact ⟨cmd _ _ (pre _ _), trivial⟩

theorem writeCmds_room (j : UInt8) (cs : List PCmd) : ∀ (o o' : Out) (d : UInt8) (v : Option UInt8), roomOf o' = roomOf o →
    roomOf (writeCmds (cs.map (transposeCmd j)) o' d v) = roomOf (writeCmds cs o d v) := by
  induction cs with
  | nil => intro o o' d v h; exact h
  | cons c cs ih =>
    intro o o' d v h
    obtain ⟨h1, h2⟩ := write_room j c o o' h d v
    simp only [List.map_cons, writeCmds, h2]
    exact ih _ _ _ _ h1

/-- **C76 (layout).** A transposed song takes the same room: each of its tracks is written with the same number of bytes and the same places of calls, or fails with the same fault. -/
theorem C76_layout (j : UInt8) (s : Song) (i : Nat) : ((transposeSong j s).writeTrack i).map roomOf = (s.writeTrack i).map roomOf := by
  unfold Song.writeTrack
  have e : (transposeSong j s).tracks[i]? = (s.tracks[i]?).map (List.map (transposeCmd j)) := by simp [transposeSong]
  have e2 : (transposeSong j s).parts = s.parts := rfl
  rw [e, e2]
  cases s.tracks[i]? with
  | none => rfl
  | some tr =>
    simp only [Option.map_some, List.isEmpty_map]
    split
    · rfl
    · cases anyPartFirst s.parts i with
      | error e => rfl
      | ok b =>
        simp only [bind, Except.bind, pure, Except.pure, Except.map, Except.ok.injEq, trackWrite]
        have := writeCmds_room j tr ⟨if b then preambleTrack0 else if s.parts.any (fun p => p.contains i) then preambleOtherTrack else [], []⟩ _ 0xff none rfl
        simp only [roomOf, Prod.mk.injEq, Out.put, List.length_append] at this ⊢
        exact ⟨by rw [this.1], this.2⟩

/-! ## C77: loop extraction -/

theorem respectful_renaming {f : PCmd → PCmd} (hf : Respectful f) : Renaming f where
  inj := fun a b h => hf.distinct a b h
  eligible := by
    intro c
    have h1 := hf.slide c
    have h2 := hf.call c
    unfold PCmd.callLoopEligible
    cases hc : (f c).command <;> cases hd : c.command <;> simp_all
  first := by
    intro c
    have h1 := hf.tie c
    unfold PCmd.canBeFirst
    cases hc : (f c).command <;> cases hd : c.command <;> simp_all
  last := by
    intro c
    have h1 := hf.slide c
    unfold PCmd.canBeLast
    cases hc : (f c).command <;> cases hd : c.command <;> simp_all
  loop := fun t n => hf.calls _ t n rfl

/-- **C77.** Optimisation looks only at which commands are equal, and which are ties, slides or calls: renaming the commands of the tracks and then optimising is the same as optimising and then renaming. -/
theorem C77_optimise (f : PCmd → PCmd) (hf : Respectful f) (tracks : List (List PCmd)) (top : Nat) :
    optimizeCallLoops (tracks.map (List.map f)) top = (optimizeCallLoops tracks top).map (List.map (List.map f)) :=
  optimize_rename (respectful_renaming hf) tracks top

/-! ## Cases -/

/-- A file of two notes, with a program change. -/
def figure : List Callback :=
  [.header 1 24, .trackChange, .midiEvent 0 (.programChange 0 0), .midiEvent 0 (.noteOn 0 60 100), .midiEvent 12 (.noteOff 0 60 0), .midiEvent 6 (.noteOn 0 64 100),
    .midiEvent 30 (.noteOff 0 64 0)]

/-- The song of a file at the standard speed. -/
def songOf (calls : List Callback) (opt : Bool) : Res Song := readMidi id calls >>= fun h => songFromMidi h (F32.ofRat (3 / 10)) opt

example : Scalable 5 figure := ⟨by decide, by decide, by decide, by decide +kernel, by decide +kernel⟩

/-- Its finer version is another file, with the same song. -/
example : finer 5 figure ≠ figure ∧ timeBase (finer 5 figure) = 120 := by decide +kernel

example : Transposable 5 figure ∧ Transposable (256 - 12) figure := by decide +kernel

/-- The commands of the file, and of the transposed file. -/
example : ((songOf figure false).map fun s => s.tracks.map (List.map fun c => c.command)) = .ok [[.setInstrument 24, .note 0xa4, .rest, .note 0xa8]] ∧
    ((songOf (transposed 5 figure) false).map fun s => s.tracks.map (List.map fun c => c.command)) = .ok [[.setInstrument 24, .note 0xa9, .rest, .note 0xad]] ∧
    ((songOf (transposed (256 - 12) figure) false).map fun s => s.tracks.map (List.map fun c => c.command)) = .ok [[.setInstrument 24, .note 0x98, .rest, .note 0x9c]] := by
  decide +kernel

/-- Tracks in which loops are found (as in the example of C33), for C77. -/
def loopy : List (List PCmd) := [[1, 2, 3, 4, 5, 10, 6, 7, 8, 9, 11, 1, 2, 3, 4, 5].map noteCmd, [6, 7, 8, 9, 12].map noteCmd]

/-- The optimised tracks, transposed. -/
example : optimizeCallLoops (loopy.map (List.map (transposeCmd 20))) 2 =
      .ok [[loopCmd 2 1, noteCmd 30, loopCmd 3 1, noteCmd 31, loopCmd 2 1], [loopCmd 3 1, noteCmd 32], [21, 22, 23, 24, 25].map noteCmd, [26, 27, 28, 29].map noteCmd] := by
  rw [optimizeCallLoops_run]; decide +kernel

/-- Every note exchanged with a neighbour. -/
def swapNotes (c : PCmd) : PCmd :=
  match c.command with
  | .note p => { c with command := .note (p ^^^ 1) }
  | _ => c

/-- A renaming that is no transposition. -/
theorem swapNotes_respectful : Respectful swapNotes where
  distinct := by
    rintro ⟨a1, a2, a3, c⟩ ⟨b1, b2, b3, d⟩ h
    cases c <;> cases d <;> simp_all [swapNotes]
  tie := by rintro ⟨a1, a2, a3, c⟩; cases c <;> simp [swapNotes]
  slide := by rintro ⟨a1, a2, a3, c⟩; cases c <;> simp [swapNotes]
  call := by rintro ⟨a1, a2, a3, c⟩; cases c <;> simp [swapNotes]
  calls := by rintro ⟨a1, a2, a3, c⟩ t n h; cases c <;> simp_all [swapNotes]

example : loopy.map (List.map swapNotes) ≠ loopy := by decide +kernel

/-- With 10 ticks per beat, not a multiple of 24, the resolution matters: time is lost by rounding to whole ticks. -/
theorem C75_rounding_false : ∃ k calls, 0 < k ∧ 0 < timeBase calls ∧ k * timeBase calls < 65536 ∧ (∀ m ∈ file calls, k * m.2 < 8388600) ∧
    (∀ m ∈ file calls, slideOn m.1 = false) ∧ songOf (finer k calls) false ≠ songOf calls false := by
  refine ⟨12, [.header 1 10, .trackChange, .midiEvent 0 (.noteOn 0 60 100), .midiEvent 1 (.noteOff 0 60 0), .midiEvent 1 (.noteOn 0 62 100), .midiEvent 1 (.noteOff 0 62 0)],
    by decide, by decide, by decide, by decide, by decide, ?_⟩
  decide +kernel

/-- With portamento the resolution matters: the portamento time is taken to be in ticks. -/
theorem C75_portamento_false : ∃ k calls, 0 < k ∧ 24 ∣ timeBase calls ∧ 0 < timeBase calls ∧ k * timeBase calls < 65536 ∧ (∀ m ∈ file calls, k * m.2 < 8388600) ∧
    songOf (finer k calls) false ≠ songOf calls false := by
  refine ⟨2, [.header 1 24, .trackChange, .midiEvent 0 (.controlChange 0 37 12), .midiEvent 0 (.controlChange 0 65 127), .midiEvent 0 (.noteOn 0 60 100), .midiEvent 24 (.noteOff 0 60 0),
    .midiEvent 0 (.noteOn 0 62 100), .midiEvent 24 (.noteOff 0 62 0)], by decide, by decide, by decide, by decide, by decide, ?_⟩
  decide +kernel

end M2S
