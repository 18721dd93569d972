import Verif.Proofs.ReleaseSong
import Verif.Props.Cli
import Verif.Props.Counts
import Verif.Props.Track
/-
Properties C101, C102 and C103: the program built without overflow checks.
-/
namespace M2S
open MidiSpec

/-! ### C101: the checks only stop the program -/

/-- **C101.** Whatever the build with overflow checks does without panicking, the build without them does too: the same outcome and the same files. -/
theorem C101_run (x : Ext) (fs : FS) (hx : ∀ path bytes calls, fs path = some bytes → x.parseMidi bytes = some calls → calls.length < 2 ^ 64) (optimize verbose : Bool) (cmd : Cmd)
    (h : (x.run fs optimize verbose cmd).1 ≠ .error .panic) : Release.run x fs optimize cmd = x.run fs optimize verbose cmd :=
  run_release x fs hx optimize verbose cmd h

/-- **C101**, reading. -/
theorem C101_read (ord : EnumOrder) (calls : List Callback) (hl : calls.length < 2 ^ 64) (h : readMidi ord calls ≠ .error .panic) :
    Release.readMidi ord calls = readMidi ord calls :=
  ((readMidi_release ord calls hl).resolve_right h).symm

/-- **C101**, converting. -/
theorem C101_song (m : MidiHandler) (f : F32) (optimize : Bool) (h : songFromMidi m f optimize ≠ .error .panic) :
    Release.songFromMidi m f optimize = songFromMidi m f optimize :=
  ((songFromMidi_release m f optimize).resolve_right h).symm

/-- **C101**, finding and replacing sequences. -/
theorem C101_loops (tracks : List (List PCmd)) (top : Nat) (h : optimizeCallLoops tracks top ≠ .error .panic) :
    Release.optimizeCallLoops tracks top = optimizeCallLoops tracks top :=
  ((optimizeFuel_release _ tracks top).resolve_right h).symm

/-- A file whose last note starts 2^32 ticks after the beginning. -/
def wrapCalls : List Callback :=
  [.header 1 24, .trackChange, .midiEvent 0 (.noteOn 3 60 100), .midiEvent 24 (.noteOff 3 60 0), .midiEvent (2 ^ 32 - 24) (.noteOn 3 64 100), .midiEvent 24 (.noteOff 3 64 0)]

/-- Where the checks stop the program, the other build goes on: with a note that ends twice, and with times beyond 32 bits, which start again at 0: the first
and the last note of `wrapCalls` fall together. -/
theorem C101_beyond : readMidi id strayCalls = .error .panic ∧ (Release.readMidi id strayCalls).toOption.isSome = true ∧
    readMidi id wrapCalls = .error .panic ∧ (Release.readMidi id wrapCalls).map (fun h => ((List.finRange 8).map h.voices, h.maxTime)) = .ok
      ([[(.midiEvent 0 (.noteOn 3 60 100), 0), (.midiEvent 24 (.noteOff 3 60 0), 24)], [(.midiEvent (2 ^ 32 - 24) (.noteOn 3 64 100), 0), (.midiEvent 24 (.noteOff 3 64 0), 24)],
        [], [], [], [], [], []], 24) := by
  refine ⟨(C90_panics_iff _ _).2 (.inr (.inr (.inr ⟨3, 30, by decide⟩))), by decide +kernel,
    (C90_panics_iff _ _).2 (.inr (.inr (.inl ⟨(.midiEvent (2 ^ 32 - 24) (.noteOn 3 64 100), 2 ^ 32), by decide, by decide⟩))), by decide +kernel⟩

/-- A note shorter than a unit after a note that was rounded up (C16) ends before its start. Without checks the difference wraps around, and the note sounds for
6624 units, 276 beats, instead of less than one. -/
theorem C101_short_note : trackNew [evOn 0 60 100, evOff 21 60, evOn 22 62 100, evOff 30 62] 480 480 (.fin (1 / 5)) = .error .panic ∧
    Release.trackNew [evOn 0 60 100, evOff 21 60, evOn 22 62 100, evOff 30 62] 480 480 (.fin (1 / 5)) =
      .ok (⟨some 2, some 12, some 7, .note 164⟩ :: ⟨some 127, some 12, some 7, .note 166⟩ :: List.replicate 51 ⟨some 127, none, none, .tie⟩ ++
        [⟨some 20, none, none, .tie⟩, ⟨some 2, none, none, .rest⟩]) ∧ 127 + 51 * 127 + 20 = 6624 :=
  ⟨C16_short_note_panics, by decide +kernel, rfl⟩

/-- A silence of 178956971 ticks and a beat (C16) should take 8947872 units. Without checks the product of ticks and units wraps around and 21170 units are left. -/
theorem C101_long_gap : trackNew [evOn 178956971 60 100, evOff 178957451 60] 480 178957451 (.fin (1 / 5)) = .error .panic ∧
    (Release.trackNew [evOn 178956971 60 100, evOff 178957451 60] 480 178957451 (.fin (1 / 5))).toOption.map Timing.total = some 21170 ∧ 178957451 * 24 / 480 = 8947872 :=
  ⟨C16_long_gap_false.2, by decide +kernel, rfl⟩

/-- A run of the tool that fails for want of room, and one that panics only with overflow checks. -/
example : Release.run demoExt demoFS false (.fileSelect "good.mid" "small.sfc" (some ["0", "c", "18"])) = demoExt.run demoFS false true (.fileSelect "good.mid" "small.sfc" (some ["0", "c", "18"])) ∧
    (demoExt.run demoFS false false (.dumpMidi "bad.mid")).1 = .error .panic ∧ (Release.run demoExt demoFS false (.dumpMidi "bad.mid")).1 = .ok () := by
  refine ⟨C101_run demoExt demoFS ?_ false true _ (by decide +kernel), by decide +kernel, by decide +kernel⟩
  intro path bytes calls h1 h2
  have hb : bytes = threeRom ∨ bytes = [60] ∨ bytes = [60, 0] := by
    unfold demoFS at h1
    split_ifs at h1 <;> cases h1 <;> simp
  simp only [demoExt, Option.some.injEq] at h2
  subst h2
  have hlen : ∀ b : List UInt8, (b.flatMap fun n => if n = 0 then [Callback.midiEvent 0 (.noteOff 0 60 0)] else [.midiEvent 0 (.noteOn 0 n 100), .midiEvent 48 (.noteOff 0 n 0)]).length ≤ 2 * b.length := by
    intro b
    induction b with
    | nil => simp
    | cons n b ih =>
      rw [List.flatMap_cons, List.length_append, List.length_cons]
      split_ifs <;> simp only [List.length_cons, List.length_nil] <;> omega
  have h3 := hlen bytes
  have h4 : bytes.length < 2 ^ 32 := by rcases hb with rfl | rfl | rfl <;> decide +kernel
  rw [List.length_append]
  simp only [List.length_cons, List.length_nil]
  omega

/-- The demonstration file is read alike. -/
example : Release.readMidi id demoCalls = readMidi id demoCalls := by
  refine C101_read _ _ (by decide) fun h => ?_
  have hok : (readMidi id demoCalls).toOption.isSome = true := by decide +kernel
  rw [h] at hok
  cases hok

/-! ### C102: loop extraction without overflow checks -/

/-- **C102.** Without overflow checks loop extraction always comes to an end, by rounds as in C98, and never leaves more commands than there were. -/
theorem C102_total (tracks : List (List PCmd)) : ∃ out, Release.optimizeCallLoops tracks tracks.length = .ok out ∧ Rounds tracks.length tracks out ∧
    (out.map List.length).sum ≤ (tracks.map List.length).sum :=
  release_optimize tracks.length _ tracks le_rfl (Nat.lt_succ_self _)

/-- **C102**, the damage: every track is what the optimised track stands for, but for third copies (as in C98). -/
theorem C102_damage (tracks out : List (List PCmd)) (hcalls : ∀ tr ∈ tracks, ∀ c ∈ tr, c.isCall = false) (h : Release.optimizeCallLoops tracks tracks.length = .ok out)
    (i : Nat) (hi : i < tracks.length) : Played out (tracks.getD i []) (out.getD i []) := by
  obtain ⟨out', e, hr, -⟩ := C102_total tracks
  rw [h] at e; cases e
  exact hr.damage hcalls i hi

/-- **C102**, the calls: they name subroutines of four or more commands without calls, one to four times. -/
theorem C102_calls (tracks out : List (List PCmd)) (hcalls : ∀ tr ∈ tracks, ∀ c ∈ tr, c.isCall = false) (h : Release.optimizeCallLoops tracks tracks.length = .ok out)
    (tr : List PCmd) (htr : tr ∈ out) (c : PCmd) (hc : c ∈ tr) (t : Nat) (n : UInt8) (hcmd : c.command = .callLoop t n) :
    tracks.length ≤ t ∧ 1 ≤ n.toNat ∧ n.toNat ≤ 4 ∧ ∃ sub, out[t]? = some sub ∧ 4 ≤ sub.length ∧ ∀ d ∈ sub, d.isCall = false := by
  obtain ⟨out', e, hr, -⟩ := C102_total tracks
  rw [h] at e; cases e
  obtain ⟨h1, h2⟩ := hr.loops le_rfl
    (fun tr htr c hc t n e => by have := hcalls tr htr c hc; simp [PCmd.isCall, e] at this)
    (fun j b hj hb => by rw [List.getElem?_eq_none hj] at hb; cases hb)
  obtain ⟨g1, g2, g3, g4⟩ := h1 tr htr c hc t n hcmd
  exact ⟨g1, g3, g4, out[t], List.getElem?_eq_getElem g2, h2 t _ g1 (List.getElem?_eq_getElem g2)⟩

/-- **C102**, songs: of a file that was read, conversion with loop extraction succeeds whenever conversion without does, with the same parts and tracks related as above. -/
theorem C102_song (ord : EnumOrder) (calls : List Callback) (m : MidiHandler) (hr : Release.readMidi ord calls = .ok m) (f : F32) (plain : Song)
    (hp : Release.songFromMidi m f false = .ok plain) : ∃ opt, Release.songFromMidi m f true = .ok opt ∧ opt.parts = plain.parts ∧
      (opt.tracks.map List.length).sum ≤ (plain.tracks.map List.length).sum ∧
      ∀ i < plain.tracks.length, Played opt.tracks (plain.tracks.getD i []) (opt.tracks.getD i []) := by
  obtain ⟨v1, v2, -⟩ := release_voices ord calls m hr
  have hv := voiceTracks_converts m f v1 v2
  unfold Release.songFromMidi at *
  rw [res_bind] at hp
  obtain ⟨tracks, h1, h2⟩ := hp
  simp only [Bool.false_eq_true, if_false, res_pure] at h2
  subst h2
  rw [h1] at hv
  split_ifs at hv
  obtain ⟨ts, e, hc⟩ := hv
  cases e
  obtain ⟨out, o1, o2, o3⟩ := C102_total tracks
  refine ⟨⟨[List.range tracks.length], out⟩, ?_, rfl, o3, C102_damage tracks out (fun tr htr c hm => ((hc tr htr).2 c hm).noCall.1) o1⟩
  rw [h1]
  simp only [bind, Except.bind, if_true, o1]
  rfl

/-- **C102**, what is missed: `n` voices of `k` repetitions of four notes are left as they are if their number, taken modulo 256, is 0 or 1; the build with checks
panics on these tracks if there are 256 repetitions or more (C92). -/
theorem C102_missed (n k : Nat) (hk : 1 ≤ k) (hn : 1 ≤ n) (h : n * k % 256 ≤ 1) :
    Release.optimizeCallLoops (List.replicate n (loopBlocks k)) n = .ok (List.replicate n (loopBlocks k)) := blocks_release n k hk hn h

/-- Eight voices with 32 repetitions each. -/
example : Release.optimizeCallLoops (List.replicate 8 (loopBlocks 32)) 8 = .ok (List.replicate 8 (loopBlocks 32)) ∧
    optimizeCallLoops (List.replicate 8 (loopBlocks 32)) 8 = .error .panic :=
  ⟨C102_missed 8 32 (by decide) (by decide) (by decide), C92_panics 8 32 (by decide)⟩

/-- Where nothing overflows, sequences are found as before. -/
example : Release.optimizeCallLoops [[1, 2, 3, 4, 5, 1, 2, 3, 4, 1, 2, 3, 4, 6, 7, 8, 9].map noteCmd] 1 = .ok [[loopCmd 1 1, noteCmd 5, loopCmd 1 3], [1, 2, 3, 4].map noteCmd] := by
  have h : optimizeCallLoops [[1, 2, 3, 4, 5, 1, 2, 3, 4, 1, 2, 3, 4, 6, 7, 8, 9].map noteCmd] 1 = .ok [[loopCmd 1 1, noteCmd 5, loopCmd 1 3], [1, 2, 3, 4].map noteCmd] := by
    rw [optimizeCallLoops_run]; decide +kernel
  rw [C101_loops _ _ (by rw [h]; intro e; cases e), h]

/-! ### C103: the outcomes of conversion without overflow checks -/

/-- **C103.** Without overflow checks reading panics exactly if a header states a format other than 1 or an event comes before the first track. -/
theorem C103_read_panics_iff (ord : EnumOrder) (calls : List Callback) :
    Release.readMidi ord calls = .error .panic ↔ (∃ f tb, Callback.header f tb ∈ calls ∧ f ≠ 1) ∨ (split calls).1 ≠ [] := by
  constructor
  · intro h
    by_contra hc
    push Not at hc
    rcases release_read ord calls hc.1 hc.2 with e | ⟨_, _, _, _, e, -⟩ <;> rw [h] at e <;> cases e
  · intro hc
    cases h1 : calls.foldlM MidiHandler.handle ({} : MidiHandler) with
    | error e =>
      have he := panicOnly_handle calls {} e h1
      subst he
      unfold Release.readMidi
      rw [h1]
      rfl
    | ok h0 =>
      rcases hc with ⟨f, tb, hm, hf⟩ | hc
      · exact absurd (handle_headers calls _ _ h1 f tb hm) hf
      · exact absurd ((handle_tracks calls {} h0 h1).1 rfl).2 hc

/-- **C103**, reading: the other outcomes are success and the refusal for want of voices. -/
theorem C103_read_outcomes (ord : EnumOrder) (calls : List Callback) :
    (∃ h, Release.readMidi ord calls = .ok h) ∨ Release.readMidi ord calls = .error .panic ∨ Release.readMidi ord calls = .error (.err .couldntFit) := by
  by_cases hc : (∃ f tb, Callback.header f tb ∈ calls ∧ f ≠ 1) ∨ (split calls).1 ≠ []
  · exact .inr (.inl ((C103_read_panics_iff ord calls).2 hc))
  · push Not at hc
    rcases release_read ord calls hc.1 hc.2 with e | ⟨h, _, _, _, e, -⟩
    · exact .inr (.inr e)
    · exact .inl ⟨h, e⟩

/-- **C103**, conversion: without overflow checks a file that was read is converted, with or without loop extraction, exactly if every tempo has three bytes
and every program change, except on channel 10, a number below 128. Otherwise the conversion panics. -/
theorem C103_conversion (ord : EnumOrder) (calls : List Callback) (m : MidiHandler) (hr : Release.readMidi ord calls = .ok m) (f : F32) (optimize : Bool) :
    ((∃ s, Release.songFromMidi m f optimize = .ok s) ↔ ∀ x ∈ file calls, accepted x.1 = true) ∧
    (Release.songFromMidi m f optimize = .error .panic ↔ ∃ x ∈ file calls, accepted x.1 = false) := by
  obtain ⟨v1, v2, v3⟩ := release_voices ord calls m hr
  have hv := voiceTracks_converts m f v1 v2
  have hneg : (∃ x ∈ file calls, accepted x.1 = false) ↔ ¬ ∀ x ∈ file calls, accepted x.1 = true := by push Not; simp
  rw [hneg, ← v3]
  split_ifs at hv with hall
  · obtain ⟨ts, e, -⟩ := hv
    have hp : Release.songFromMidi m f false = .ok ⟨[List.range ts.length], ts⟩ := by unfold Release.songFromMidi; rw [e]; rfl
    have hs : ∃ s, Release.songFromMidi m f optimize = .ok s := by
      cases optimize with
      | false => exact ⟨_, hp⟩
      | true =>
        obtain ⟨opt, h, -⟩ := C102_song ord calls m hr f _ hp
        exact ⟨opt, h⟩
    refine ⟨⟨fun _ => hall, fun _ => hs⟩, ⟨fun h => ?_, fun h => absurd hall h⟩⟩
    obtain ⟨s, hs⟩ := hs
    rw [h] at hs
    cases hs
  · have hp : Release.songFromMidi m f optimize = .error .panic := by unfold Release.songFromMidi; rw [hv]; rfl
    refine ⟨⟨fun ⟨s, h⟩ => ?_, fun h => absurd h hall⟩, ⟨fun _ => hall, fun _ => hp⟩⟩
    rw [hp] at h
    cases h

/-- **C103**, together: a file of format 1 without events before the first track, with whole tempos and instrument numbers below 128, is converted or refused for want of voices. -/
theorem C103_converted_or_refused (ord : EnumOrder) (calls : List Callback) (hf : ∀ f tb, Callback.header f tb ∈ calls → f = 1) (ht : (split calls).1 = [])
    (ha : ∀ x ∈ file calls, accepted x.1 = true) (f : F32) (optimize : Bool) :
    Release.readMidi ord calls = .error (.err .couldntFit) ∨ ∃ m s, Release.readMidi ord calls = .ok m ∧ Release.songFromMidi m f optimize = .ok s := by
  rcases release_read ord calls hf ht with e | ⟨m, _, _, _, e, -⟩
  · exact .inl e
  · obtain ⟨s, hs⟩ := (C103_conversion ord calls m e f optimize).1.2 ha
    exact .inr ⟨m, s, e, hs⟩

/-- Files on which the build with checks panics: a stray end, a late note, a volume of 128 and a note of 200. -/
def roughCalls : List Callback := wrapCalls ++ [.midiEvent 1 (.noteOff 3 60 0), .midiEvent 0 (.controlChange 3 7 128), .midiEvent 0 (.noteOn 3 200 100), .midiEvent 9 (.noteOff 3 200 0)]

example : (∃ m s, Release.readMidi id roughCalls = .ok m ∧ Release.songFromMidi m defaultTempoAdjust true = .ok s) ∧ readMidi id roughCalls = .error .panic := by
  refine ⟨?_, (C90_panics_iff _ _).2 (.inr (.inr (.inl ⟨(.midiEvent (2 ^ 32 - 24) (.noteOn 3 64 100), 2 ^ 32), by decide, by decide⟩)))⟩
  refine (C103_converted_or_refused id roughCalls (by
    intro f tb hm
    simp [roughCalls, wrapCalls] at hm
    exact hm.1) (by decide) (by decide) defaultTempoAdjust true).resolve_left fun h => ?_
  have hok : (Release.readMidi id roughCalls).toOption.isSome = true := by decide +kernel
  rw [h] at hok
  cases hok

/-- A tempo of two bytes. -/
example : ∃ m, Release.readMidi id [.header 1 24, .trackChange, .metaEvent 0 .setTempo [7, 161]] = .ok m ∧ Release.songFromMidi m defaultTempoAdjust false = .error .panic := by
  cases h : Release.readMidi id [.header 1 24, .trackChange, .metaEvent 0 .setTempo [7, 161]] with
  | error e =>
    have hok : (Release.readMidi id [.header 1 24, .trackChange, .metaEvent 0 .setTempo [7, 161]]).toOption.isSome = true := by decide +kernel
    rw [h] at hok
    cases hok
  | ok m => exact ⟨m, rfl, (C103_conversion id _ m h defaultTempoAdjust false).2.2 ⟨(.metaEvent 0 .setTempo [7, 161], 0), by decide, by decide⟩⟩

end M2S
