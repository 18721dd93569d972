import Verif.Proofs.ReadReportTrue
import Verif.Props.Channels
import Verif.Props.Optimise
/-
C86: the messages printed while a MIDI file is read and converted.
-/
namespace M2S
open MidiSpec

/-- **C86**, the outcome: `verbose` does not change what reading and converting a file gives. -/
theorem C86_outcome (x : Ext) (v : Bool) (fs : FS) (path : String) (tempo : F32) (optimize : Bool) :
    (x.tellSongFile v fs path tempo optimize).result = x.songFromMidiFile fs path tempo optimize ∧
    (∀ calls, (tellRead x.ord v path calls).result = readMidi x.ord calls) ∧
    ∀ h, (tellSongOf v h tempo optimize).result = songFromMidi h tempo optimize :=
  ⟨result_tellSongFile x v fs path tempo optimize, result_tellRead x.ord v path, fun h => result_tellSongOf v h tempo optimize⟩

/-- **C86**, silence: without `verbose` nothing is printed. -/
theorem C86_silent (x : Ext) (fs : FS) (path : String) (tempo : F32) (optimize : Bool) : (x.tellSongFile false fs path tempo optimize).lines = [] :=
  hush_tellSongFile x fs path tempo optimize

/-- **C86.** Every message printed while a file is read, also if reading it fails, is true of the file and of the messages before it. -/
theorem C86_true (ord : EnumOrder) (hord : ∀ l, (ord l).Perm l) (path : String) (calls : List Callback) (pre post : List ReadLine) (x : ReadLine)
    (h : (tellRead ord true path calls).lines = pre ++ x :: post) : MidiSpec.Truthful path calls pre x :=
  good_all _ _ [] (read_good ord hord path calls).good pre x post h

/-- **C86**, the base voices: after a successful read the voice last tried for a channel is its base voice. -/
theorem C86_base (ord : EnumOrder) (hord : ∀ l, (ord l).Perm l) (path : String) (calls : List Callback) (h : MidiHandler) (hr : readMidi ord calls = .ok h)
    (c : Fin 16) : placed (tellRead ord true path calls).lines c = some (h.channels c).baseVoice :=
  (read_good ord hord path calls).base h (by rw [result_tellRead, hr]) c

/-- **C86**, the other voices: the "using" messages for a voice are as many as the notes on that voice of channels with another base voice. -/
theorem C86_chosen (ord : EnumOrder) (hord : ∀ l, (ord l).Perm l) (path : String) (calls : List Callback) (h : MidiHandler) (hr : readMidi ord calls = .ok h)
    (v : Fin 8) : (tellRead ord true path calls).lines.count (.chosen v) =
      (h.voices v).countP fun m => starts m.1 && (home m.1).any fun c => (h.channels c).baseVoice ≠ v :=
  (read_good ord hord path calls).count h (by rw [result_tellRead, hr]) v

/-- **C86**, the reason: if the notes of a file do not fit on the voices, the last message is an empty list of possible voices, or a list of notes and base
voices which leave no voice free. -/
theorem C86_reason (ord : EnumOrder) (hord : ∀ l, (ord l).Perm l) (path : String) (calls : List Callback) (e : Err) (hr : readMidi ord calls = .error (.err e)) :
    (tellRead ord true path calls).lines.getLast? = some (.candidates []) ∨
    ∃ c t bases active, (tellRead ord true path calls).lines.getLast? = some (.occupied c t bases active) ∧ ∀ v, v ∈ bases ∨ Occupied active v :=
  (read_good ord hord path calls).stuck e (by rw [result_tellRead, hr])

/-- A chord of nine notes on one channel. -/
def nineCalls : List Callback :=
  [.header 1 24, .trackChange] ++ ((List.range 9).map fun n => .midiEvent 0 (.noteOn 0 (60 + UInt8.ofNat n) 100)) ++
  ((List.range 9).map fun n => .midiEvent 1 (.noteOff 0 (60 + UInt8.ofNat n) 0))

/-- Nine channels with a note each at the same time. -/
def nineChannels : List Callback :=
  [.header 1 24, .trackChange] ++ (((List.finRange 16).take 9).map fun c => .midiEvent 0 (.noteOn c 60 100)) ++
  (((List.finRange 16).take 9).map fun c => .midiEvent 1 (.noteOff c 60 0))

/-- The messages for a file with two channels sounding together, one of which has two notes at once: all but those about the other channels. -/
example : (tellRead id true "a.mid" demoCalls).lines.take 7 = [.reading "a.mid", .track 0, .track 1, .track 2, .find 0, .candidates [0], .trying 0 0] ∧
    ((tellRead id true "a.mid" demoCalls).lines.drop 16).take 7 =
      [.find 4, .candidates [0, 1], .trying 4 0, .find 5, .overlaps 0 ⟨15, 30, 3, 2⟩, .candidates [1], .trying 5 1] ∧
    (tellRead id true "a.mid" demoCalls).lines.drop 53 =
      [.occupied 3 15 [0, 0, 0, 0, 0, 1, 0, 0, 0, 0, 0, 0, 0, 0, 0, 0] [[], [], [], [(60, 0)], [], [], [], [], [], [], [], [], [], [], [], []], .chosen 2] := by
  decide +kernel

/-- Two files refused, each for one of the two reasons. -/
example : readMidi id nineCalls = .error (.err .couldntFit) ∧
    (tellRead id true "a.mid" nineCalls).lines.getLast? = some (.occupied 0 0 (List.replicate 16 0)
      ([(67, 7), (66, 6), (65, 5), (64, 4), (63, 3), (62, 2), (61, 1), (60, 0)] :: List.replicate 15 [])) ∧
    readMidi id nineChannels = .error (.err .couldntFit) ∧ (tellRead id true "a.mid" nineChannels).lines.getLast? = some (.candidates []) := by
  have e1 : ((readMidi id nineCalls).map fun _ => ()) = .error (.err .couldntFit) := by decide +kernel
  have e2 : ((readMidi id nineChannels).map fun _ => ()) = .error (.err .couldntFit) := by decide +kernel
  refine ⟨?_, by decide +kernel, ?_, by decide +kernel⟩
  · cases h : readMidi id nineCalls with
    | ok m => rw [h] at e1; cases e1
    | error e => rw [h] at e1; cases e1; rfl
  · cases h : readMidi id nineChannels with
    | ok m => rw [h] at e2; cases e2
    | error e => rw [h] at e2; cases e2; rfl

/-- The messages of the optimiser and the replacements they announce. -/
theorem tellOptimise_lines (top : Nat) : ∀ (n : Nat) (tracks out : List (List PCmd)), top ≤ tracks.length → (tellOptimise true n tracks top).result = .ok out →
    ∃ seqs : List Sequence, (tellOptimise true n tracks top).lines = seqs.map (fun s => .best (some s)) ++ [.best none] ∧
      out.drop top = tracks.drop top ++ seqs.map (·.commands) ∧
      seqs.foldlM (fun t s => extractSequence t s top) tracks = .ok out ∧
      ∀ pre s post, seqs = pre ++ s :: post → 4 ≤ s.commands.length ∧ 2 ≤ (s.locations.map fun l => l.repeatCount.toNat).sum ∧
        ∃ t, pre.foldlM (fun t s => extractSequence t s top) tracks = .ok t ∧
          ∀ l ∈ s.locations, l.trackIdx < top ∧ s.commands <+: (t.getD l.trackIdx []).drop l.cmdIdx := by
  intro n
  induction n with
  | zero => intro tracks out _ h; cases h
  | succ n ih =>
    intro tracks out htop h
    rw [tellOptimise] at h ⊢
    cases h1 : buildTree tracks top with
    | error e => rw [h1] at h; cases h
    | ok tree =>
    cases h2 : bestSequence tree with
    | error e => rw [h1] at h; dsimp [mute, bind] at h; rw [h2] at h; cases h
    | ok b =>
    cases b with
    | none =>
      rw [h1] at h; dsimp [mute, bind] at h; rw [h2] at h
      dsimp [mute, bind]; rw [h2]
      cases h
      refine ⟨[], rfl, by simp, rfl, ?_⟩
      intro pre s post hs
      simp at hs
    | some s =>
      cases h3 : extractSequence tracks s top with
      | error e => rw [h1] at h; dsimp [mute, bind] at h; rw [h2] at h; dsimp at h; rw [h3] at h; cases h
      | ok t1 =>
        rw [h1] at h; dsimp [mute, bind] at h; rw [h2] at h; dsimp at h; rw [h3] at h; dsimp at h
        dsimp [mute, bind]; rw [h2]; dsimp; rw [h3]; dsimp
        have hr : Round top tracks s t1 := ⟨tree, h1, h2, h3⟩
        obtain ⟨f1, f2, f3, f4, -⟩ := hr.facts htop
        obtain ⟨seqs, l1, l2, l3, l4⟩ := ih t1 out (by omega) h
        obtain ⟨newTop, e1, e2, -⟩ := extractSequence_inv tracks s top t1 h3
        refine ⟨s :: seqs, ?_, ?_, ?_, ?_⟩
        · rw [l1]; rfl
        · rw [l2, e1]
          have : newTop.length = top := by rw [e2, List.length_take]; omega
          rw [List.append_assoc, List.drop_left' this]
          simp
        · rw [List.foldlM_cons, h3]; exact l3
        · intro pre x post hs
          cases pre with
          | nil =>
            rw [List.nil_append, List.cons.injEq] at hs
            obtain ⟨rfl, -⟩ := hs
            refine ⟨f2, f3, tracks, rfl, ?_⟩
            intro l hl
            obtain ⟨tr, g1, g2⟩ := f1.occurs l hl
            have hlt := (List.getElem?_eq_some_iff.1 g1).1
            rw [List.length_take] at hlt
            rw [List.getElem?_take_of_lt (by omega)] at g1
            refine ⟨by omega, ?_⟩
            rw [List.getD_eq_getElem?_getD, g1]; exact g2
          | cons a pre =>
            rw [List.cons_append, List.cons.injEq] at hs
            obtain ⟨rfl, hs⟩ := hs
            obtain ⟨m1, m2, t, m3, m4⟩ := l4 pre x post hs
            refine ⟨m1, m2, t, ?_, m4⟩
            rw [List.foldlM_cons, h3]; exact m3

/-- **C86**, the optimiser: the messages of a conversion with loop extraction are the sequences extracted, in order, and at the end that there is none. The
sequences are the loops appended to the tracks of the song, and extracting them at the locations printed gives the song. Each one, when printed, has at least
four commands, at least two repetitions in all, and is found at each of its locations. Without loop extraction nothing is printed. -/
theorem C86_best (h : MidiHandler) (tempo : F32) (song plain : Song) (hs : songFromMidi h tempo true = .ok song) (hp : songFromMidi h tempo false = .ok plain) :
    (tellSongOf true h tempo false).lines = [] ∧
    ∃ seqs : List Sequence, (tellSongOf true h tempo true).lines = seqs.map (fun s => .best (some s)) ++ [.best none] ∧
      song.tracks.drop plain.tracks.length = seqs.map (·.commands) ∧
      seqs.foldlM (fun t s => extractSequence t s plain.tracks.length) plain.tracks = .ok song.tracks ∧
      ∀ pre s post, seqs = pre ++ s :: post → 4 ≤ s.commands.length ∧ 2 ≤ (s.locations.map fun l => l.repeatCount.toNat).sum ∧
        ∃ t, pre.foldlM (fun t s => extractSequence t s plain.tracks.length) plain.tracks = .ok t ∧
          ∀ l ∈ s.locations, l.trackIdx < plain.tracks.length ∧ s.commands <+: (t.getD l.trackIdx []).drop l.cmdIdx := by
  rw [← result_tellSongOf true] at hs hp
  unfold tellSongOf at hs hp ⊢
  cases hv : voiceTracks h tempo with
  | error e => rw [hv] at hs; cases hs
  | ok tracks =>
    rw [hv] at hs hp
    dsimp [mute, bind] at hs hp ⊢
    cases hp
    refine ⟨rfl, ?_⟩
    cases ho : (tellOptimise true (topLevelSize tracks tracks.length + 1) tracks tracks.length).result with
    | error e => rw [ho] at hs; cases hs
    | ok out =>
      rw [ho] at hs
      cases hs
      obtain ⟨seqs, l1, l2, l3, l4⟩ := tellOptimise_lines tracks.length _ tracks out (Nat.le_refl _) ho
      refine ⟨seqs, ?_, ?_, l3, l4⟩
      · dsimp [pure]; rw [l1]; simp
      · rw [l2]; simp

/-- Two tracks with a sequence in three places: one message for the sequence, one for the end. -/
example : (tellOptimise true 3 [[1, 2, 3, 4, 9, 1, 2, 3, 4].map noteCmd, [5, 1, 2, 3, 4].map noteCmd] 2).lines =
    [.best (some ⟨[1, 2, 3, 4].map noteCmd, [⟨0, 0, 1⟩, ⟨0, 5, 1⟩, ⟨1, 1, 1⟩]⟩), .best none] := by
  simp only [tellOptimise, buildTreeF_eq]; decide +kernel

end M2S
