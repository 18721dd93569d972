# Formal model of kprevas/midi2spc in Lean 4

midi2spc converts MIDI files to songs for the N-SPC sound engine and builds them into a SNES ROM. This project models the Rust code in
`/repo/src` function by function and proves the properties listed in `properties.jsonl`. `MANIFEST.json` says which theorem proves which
property and what is missing; `seeded/LOG.jsonl` records the wrong programs the theorems were tested against.

## 1. Trusted base

1. **Lean's kernel** (4.33.0) and the parts of Mathlib the proofs import.
2. **Axioms**: `propext`, `Classical.choice`, `Quot.sound`, and nothing else. No theorem uses an axiom of this project, `sorry`, `native_decide` or
   `bv_decide`. `#print axioms` on every theorem of `MANIFEST.json` shows a subset of these three; `decide +kernel` evaluates in the kernel
   and adds none.
3. **The model is the code.** Every definition of `Verif/*.lean` cites the file and lines it models; the differences are listed in section 3.
4. **The specifications say what is meant.** They are in `Verif/Spec/*.lean` and are written without using the model's functions (only its data types).
   Exceptions: `Spec/Changes.lean` uses the instrument table and `tempoByte` (whose value C30 describes).
5. **The world around the code** as described in section 4.

## 2. Layout

| module | models |
|---|---|
| `Verif/Base.lean` | results: `Res = Except Fault`, `Fault = panic \| diverged \| err e`; overflow-checked arithmetic |
| `Verif/F32.lean` | binary32 arithmetic: rationals, infinities, NaN; round to nearest even |
| `Verif/Messages.lean` | ghakuf's message types, as far as midi2spc looks at them |
| `Verif/Midi.lean` | `src/midi/mod.rs` |
| `Verif/Instruments.lean` | `src/nspc/instruments.rs` |
| `Verif/Command.lean` | `src/nspc/command.rs` |
| `Verif/Track.lean` | `src/nspc/track.rs` |
| `Verif/SeqTree.lean` | `src/nspc/seqtree.rs` |
| `Verif/Song.lean` | `src/nspc/mod.rs` |
| `Verif/Rom.lean` | `src/rom/mod.rs` |
| `Verif/Report.lean` | `src/rom/mod.rs` again, with what it prints under `verbose` (as values, not as text) and the `file_name().unwrap()` of the progress bar |
| `Verif/ReadReport.lean` | `src/midi/mod.rs` and `src/nspc/mod.rs` again, with what they print under `verbose` (as values, not as text) |
| `Verif/Manifest.lean` | `src/manifest/mod.rs` |
| `Verif/Schema.lean` | `src/manifest.schema.json`; `Path::extension`, `Path::parent` |
| `Verif/Json.lean` | the serde derive of `Song`, `Track`, `Command` (value trees) |
| `Verif/JsonText.lean` | serde_json's reader, and its pretty printer as far as songs need it |
| `Verif/Cli.lean` | `src/lib.rs`: `run`, argument conversion, files |
| `Verif/Args.lean` | `src/main.rs`: the declaration of the command line; `run` from clap's matches |
| `Verif/Release.lean` | the functions in which something can overflow again, as built without overflow checks |
| `Verif/RepoTests.lean` | the repo's own unit tests, as `example`s about the model |
| `Verif/Spec/*.lean` | independent specifications |
| `Verif/Proofs/*.lean` | helper lemmas |
| `Verif/Props/*.lean` | the property theorems, each with a concrete case meeting its hypotheses |

## 3. What is modelled and how

All functions in `src/midi`, `src/nspc`, `src/rom`, `src/manifest` and `src/lib.rs` are modelled, except `Display`/`Debug`/`dump` output.

* **Integers.** `u8` is `UInt8`; `u16`, `u32`, `usize` are `Nat`. Every `u8`/`u32` addition or multiplication that can overflow, every unsigned
  subtraction, index, slice and `unwrap` is checked and gives `Fault.panic`: the build profile with overflow checks (`cargo build`, `cargo test`).
  `Verif/Release.lean` models the release profile, in which arithmetic wraps around; `Cargo.toml` sets no profile. A run of the model that does not panic
  is a run of the release model with the same result (C101); a `panic` caused by overflow is a wrapped value there (C102 and C103). `usize` additions are
  not checked (the values are below 2^63 for files that fit in memory).
* **State.** `&mut` arguments and fields become returned values; loops become folds or structural recursion. Loops whose end is not obvious
  (`optimize_call_loops`, the chunk walks of `write_bank` and `gen_fake_rom`, the merge loop) carry fuel; using it up is `Fault.diverged`. It is
  *proved* that this never happens (C34, C38, C45, C21), so `diverged` is not an escape.
* **Arrays** of 16 channels and 8 voices are functions on `Fin 16` and `Fin 8`.
* **Hash maps** become association lists whose enumeration order is a parameter (`ord`: any permutation, chosen anew for every map content).
  C25 proves that the order is irrelevant. The other theorems about reading MIDI data hold for every order.
* **f32** is exact rational arithmetic followed by rounding to 24 bits, with subnormals, infinities and NaN (no signed zeros: nothing in the program
  distinguishes them). `as u8/u32` truncates and saturates. `f64` appears only in reading `tempo_adjust` from JSON and is modelled as a
  rational rounded to 53 bits.
* **Sorting** (`sort_by_key`, stable) is insertion sort; a stable sort is determined by its key.
* **Writers** (`impl Write`, `Cursor`, `byteorder`) are functions returning the bytes written and the call references recorded (`Out`).
* **`Box<Fn>` converter** of `rom::write` is an arbitrary function in the ROM theorems and the real converter in the command line theorems.
* **Suffix tree.** Edges are a list in insertion order. `SeqTree` is a nested inductive type; the theorems use structural versions of the iterators,
  proved equal to the model (`Proofs/TreeIter.lean`).

Not modelled:

* clap's parsing of the command line (the declarations in `src/main.rs` are modelled, and what clap guarantees about matches: `CliSpec.Conforms`), progress bars (`pbr`), everything printed except the `verbose` messages of the ROM builder, of the MIDI reader and of loop extraction (`Report.lean`, `ReadReport.lean`; their values, not their wording, and not how the messages of songs and of the ROM builder are interleaved).
* ghakuf: the model starts from the list of calls the parser makes on its `Handler`. That list is arbitrary in all theorems, so they hold for
  whatever the parser delivers.
* serde_json: how a text becomes a `Json` value is a parameter of `Ext`. The text is modelled separately (`Verif/JsonText.lean`; C61, C108, C109). Reading covers all of RFC 8259,
  writing what occurs in songs (integers, strings without escapes). serde_json 1.0.35 may miss the nearest double for numbers with many digits or large exponents; the model does not.
* Operating system failures other than missing files, and partial effects of concurrent programs. How many bytes a `write` accepts *is* a
  parameter (`accept`), because the code uses `write` and not `write_all`.
* Memory exhaustion and stack overflow by recursion (`optimize_call_loops` recurses once per extracted sequence; C34 bounds the depth).

### The file system model (C42, C45, C48, C51, C57, C59, C60)

`FS = String → Option bytes`. Paths are strings, that is, valid UTF-8: `value_of` (`src/lib.rs:27-58`) and the manifest give no others, so that `to_str().unwrap()` (`src/midi/mod.rs:308,469`, `src/rom/mod.rs:194,383`) does not panic. `Ext` bundles what comes from outside: parser of MIDI bytes, JSON text reader and writer, path functions, hash order,
accepted bytes. `Ext.run` gives the outcome and the file system afterwards. `Function.update` is used once per run, as in the code, which opens files
for writing only at the end. `gen_fake_rom` opens without truncation; this is modelled.

### The engine (C54 to C56, C64 to C69, C71, C73, C81, C84, C85)

`Spec/Engine.lean` is an interpreter of the engine, from its public documentation: song table in ARAM at D000, part list with loop
command, eight channel pointers, items with duration/velocity bytes, subroutine calls `EF lo hi count` (not nested, as in the engine). It
works on a memory, `Nat → Option UInt8`; an undefined byte stops it. `Spec/Rom.lean` defines how a bank of the ROM is uploaded to ARAM. What
the engine does with the events (DSP registers) is not modelled: sound means *the sequence of note, tie, rest and control events with their
durations* per channel.
The tempo timer is in `Spec/Clock.lean` (C81): a poll every 2 ms adds the tempo to an 8-bit accumulator, an overflow begins the next unit. These constants are trusted;
they are not in the repository. Going on from part to part (registers, instruments and tempo stay as they are) is in `Spec/Repeat.lean` (C84); the engine ends a part as soon as one channel ends,
which is why C84 shows that all channels end together.

## 4. Model validation

The model is executable. Outside the proofs it was run, with interpreted Lean scripts that are not part of this repository (a small MIDI reader, and array versions of
two slow functions; no theorem depends on them),

* on all 34 sample MIDI files of `/repo`, read with a small MIDI reader: all convert without a fault, both with and without optimisation;
* on the three integration tests of `/repo/tests/test.rs`, with a ROM of the same chunk sizes as the test ROM (which is not needed for anything but the sizes): the
  builds succeed, as the tests demand. Without loop optimisation the sample manifest does not fit, in the model as in the code;
* `Verif/RepoTests.lean` has the repo's unit tests (suffix tree and others) as kernel-checked examples.

Nothing was compared by running the Rust code: it was not to be built.

## 5. Where the code disagrees with the property one would expect

A property that is false of the code has a theorem `…_false` with a concrete witness and a theorem `…_partial` with the weakest condition found under which
it holds.

| property | witness |
|---|---|
| C04 | after a `CallLoop` the writer believes the velocity is still that of before the call, so the next command may be played with the velocity of the subroutine (`C04_velocity_after_call_false`) |
| C06, C07 | `set_sustain` fuses note and rest without a limit: 64 + 64 units give a duration byte 80, which the engine reads as a note (`C07_durations_false`); above 255 the sum wraps in release builds (`C06_large_false`) |
| C09 | splitting counts pieces in a `u8`: a rest of more than 32512 units loses time (`C09_range_sharp`) |
| C10 | ticks above 2^24 are not exact in `f32` (`C10_far_false`) |
| C11, C14 | a program change during a note loses the time between note-on and program change (`C11_program_false`, `C14_program_false`) |
| C12 | with a resolution that is no multiple of 24, notes are rounded one by one and drift (`C12_drift_false`); under portamento the slide goes to the number of the note-on, whereas a struck note has that of the note-off; they differ for snares (`C12_portamento_ends_false`) |
| C16 | a gap above 178956970 ticks overflows `u32` (`C16_long_gap_false`); a note shorter than one unit panics (`C16_short_note_panics`) |
| C26, C53 | a snare (channel 10, note 38 or 40) ended by a note-on of velocity 0 leaves the raw note number on the voice (`C26_snare_false`, `C53_snare_false`, `C64_snare_false`) |
| C27 | program changes of another channel on a shared voice win, and an overflow voice keeps a stale program (`C27_shared_voice_false`, `C27_stale_voice_false`) |
| C28 | percussion dealt to two voices: the second gets no instrument change (`C28_two_voices_false`) |
| C33 | a sequence occurring exactly twice in a row is counted three times; what follows it is swallowed (`C33_counts_false`). This damages 17 of the 34 sample songs |
| C40, C43, C44 | after switching to the overflow chunk the size is not checked again for the block that caused the switch: it overwrites what follows (`…_last_block_false`) |
| C41, C54 | calls in the block that caused the switch are patched at the position in the *first* chunk (`C41_switch_call_false`, `C54_switch_call_false`: the engine then plays the song table). This happens in the sample manifest of the repo: bank 0, song 13, track 2 and bank 1, song 15, track 1 |
| C57 | when the first song's address is behind the end of the song chunk, the message printed by `verbose` underflows (`chunk_length - song_offset`) and panics (`C57_verbose_panics`) |
| C62 | in the track `0 0 1 0 0 1 0 0 0 1 0` the repeat of `0 0 1 0` at 0 and 7 is not found: the places of its nodes overlap and are consolidated into one (`C62_missed_false`) |
| C65 | volume and tempo commands are pushed without the rest before them: they take effect at the latest start or end of a note of the voice, possibly many beats early; a tempo change while the first voice rests is made when its last note ended (`C65_tempo_false`, `C65_volume_false`) |
| C67 | a volume or program change during a note applies from the start of the note (`C67_settings_false`); velocities 1 to 7 become 0, which the writer takes as "same as before" (`C67_quiet_false`); after a subroutine a note whose velocity equals that of the last note before the call is heard with the subroutine's velocity (`C67_optimised_false`) |
| C69 | the same for volumes: a volume of another channel on a shared voice wins, and an idle overflow voice keeps a stale volume (`C69_shared_voice_false`, `C69_stale_voice_false`) |
| C70 | a channel keeps its base voice reserved while it is silent between its notes, so eight notes at once can be refused (`C70_eight_notes_false`); notes keep the voice they start on, so even a file that leaves room for one voice per channel can be refused (`C70_reserved_false`) |
| C71 | `set_sustain` counts in eighths, but the gate table documented for N-SPC engines (50, 101, 127, 152, 178, 203, 229, 252 of 256) is not in steps of eighths: a note of half its slot is released after 0.7 of it (`C71_documented_false`). The table is in the ROM, not in the repo; the theorems of C71 take the gates as a parameter. Ties are taken to keep the sustain of their note |
| C72 | the chunk search goes on behind an end mark that names D000; `gen_fake_rom` stops at it, so the fake ROM lacks the chunks found behind (`C72_mark_false`) |
| C74 | the schema documents 0.3 as default tempo factor, the manifest reader takes 0.2 (`C74_default_false`); the pattern `.*\.(mid\|json)` is not anchored, so `tune.midi` is valid, and is read as JSON (`C74_pattern_false`); a tempo or loop flag of the wrong type is ignored without a message: `"loop": "no"` loops (`C74_ignored_false`) |
| C75 | with a tick count that is no multiple of 24 the same music in a finer resolution gives other lengths (`C75_rounding_false`); the portamento time is taken to be in ticks, so it depends on the resolution (`C75_portamento_false`) |
| C79 | an unused controller after the last note makes the song longer, so it cannot be removed without effect (`C79_last_false`) |
| C80 | under `verbose`, the "total track size" of a song that starts in the song chunk and continues in the overflow chunk can be a difference of offsets in two chunks (the code tells the chunks apart by comparing offsets): 8 for a song with 20 bytes in one and 10 in the other (`C80_size_false`); the "data size before switch" is the space *left* behind the last song, not the data before the switch (`C80_switch_false`); a path without file name, such as `..`, panics (`C80_nameless`) |
| C81 | the best tempo factor for the engine (256/tempo polls of 2 ms per unit, 24 units per beat) is 0.2048; with the default 0.2 everything from 43 beats per minute on is slower than written, by about 2.4 % (`C81_default_slow`); a file without a tempo message sets no tempo, so the song plays at the tempo of the song before (`C81_unset`); a tempo change at the end of a rest comes at its beginning: a note due after 4 s is played after 2 s (`C81_early_false`) |
| C83 | loop extraction counts commands, not bytes: four one-byte notes played twice become two calls of four bytes and a subroutine of seven, and a build can fail only because of it (`C83_short_loops_false`) |
| C84 | at the end of a looped song the channels keep their instruments and the engine its tempo: a note before the first program change has another instrument in the second pass (`C84_instrument_false`), a tempo first set after the start holds from the start in the second pass (`C84_tempo_false`); voices are padded to the end of the song by separate roundings, so that channels can end one unit apart if the song does not last a whole number of units (`C84_length_false`) |
| C85 | the pitch slide of portamento ends when the note begins; a volume, program or tempo message between the end of the note before and the end of the note makes it struck; a portamento time of 256 units becomes 2 (`C85_early_false`, `C85_volume_false`, `C85_long_false`) |
| C87 | with loop extraction the tempo factor can change the loops: at factor 5 the tempos 120 and 60 are both cut off at 255, and two phrases become equal (`C87_optimised_false`) |
| C89 | `gen_fake_rom` looks up `bank_addrs`, but `main.rs` does not declare the option for it: fake ROMs are always made for the default bank addresses (`C89_fake_rom_false`) |
| C91 | songs are numbered through all banks: a song added to the first bank moves the table entries of the later ones (`C91_count_false`) |
| C92 | extraction panics when the counts of a sequence add up to 256 (`C92_panics`: every song of `n` tracks with `k` blocks, `n * k` at least 256) |
| C99 | muting a channel can make a file unreadable: the first voices are given out anew and a chord no longer fits (`C99_mute_false`) |
| C100 | later messages can move earlier notes to other voices (`C100_first_false`), and the beginning of a readable file can be unreadable (`C100_cut_false`) |
| C105 | playing from the ROM has the exceptions of C54 (`C54_switch_call_false`) |
| C106 | a stray end makes the next note of its channel invisible to the choice of voices: another channel gets the same voice and its program change delays the note and changes its instrument (`C106_hidden_false`, `C106_hidden_song_false`) |
| C107 | after a stray end a silent channel takes up a voice until its next start, and the note that starts is not seen: channels that sound together get one base voice (`C107_hidden_false`), and a file without any note is refused (`C107_silent_false`) |

Other findings made while modelling: note-offs without note-on underflow and panic; a MIDI velocity of 1 to 7 gives velocity 0; more than 255 repetitions overflow the
`u8` sum of `worthwhile`; the last chunk addressed to D000 wins; the song table is
written without a check that it fits; JSON songs with more than eight tracks in a part overflow the part header; an overflow
chunk at ARAM address 0 makes pointers that mean "no track"; `snes_to_pc_addr` keeps nine bank bits of addresses above 2^24; a missing `input` in a manifest
panics; format 0 and 2 MIDI files panic.

## 6. How the properties are proved

* **C01, C02, C05** Induction on the command list, relating the writer's `(duration, velocity_sustain)` to the reader's registers. **C03, C04** player with
  subroutines.
* **C06, C13, C52** case analysis and induction for `set_sustain`, the sustain pass, `create_pitch_slide`. **C07, C15** invariants of `Track::new`.
* **C08** relative error of two roundings, with an exactness argument at multiples; it holds below 349525 ticks, and further the more factors the resolution
  shares with 24 (`exactTicks`: 8388600 ticks at 480 per beat, over two hours at 120 beats per minute); **C09** arithmetic of the pieces; **C10, C11, C12, C14, C16** one
  invariant of the event loop (`Proofs/TrackLoop`, `TrackTiming`, `Emission`): emitted time against event time. Portamento (`Proofs/Portamento`): simulation between the
  run of a voice and the run of the same voice with portamento switched off.
* **C17** prefix sums, stable sort. **C18** invariant of the interval scan against "notes on minus notes off". **C19, C20** induction over channels; completeness
  by a voice-permutation argument. **C21** invariant of the k-way merge. **C22 to C24, C29** invariant of voice dealing. **C25** simulation under
  permuted map enumerations. **C26, C53** simulation between the two runs. **C27, C28** invariants of program emission.
* **C30** monotonicity and relative error of rounding.
* **C31** list algebra of extraction. **C32** invariant of the suffix tree (its locations are exactly the occurrences). **C33** the tree's counts are right if at most 2;
  **C34** measure: every round removes commands from the top level. **C35** invariants of rounds.
* **C36, C37** arithmetic. **C38** the walk's position increases. **C39 to C41, C43, C44, C49** `write_bank` as a sequence of blocks at computed places
  (`RomTrace`, `RomLayout`, `RomFit`, `RomAram`): which bytes are written, and reading them back through the upload. **C42, C45, C46, C47, C50, C51** structural. **C48**
  round trip on value trees.
* **C54** simulation of the memory interpreter by the byte player of C02, with C41 giving the bytes. **C55** invariants of `Track::new` and of optimiser
  rounds. **C56** composition of C12, C14, C33, C41, C54, C55.
* **C57** the two runs side by side. **C58** the same placement trace as C41, for the bytes not written. **C59, C60** congruence of the build in the loaded songs; C25, C48.
  **C61** mutual induction over values, for the text reader. **C62** the other half of the suffix tree's invariant: after all suffixes have been added, two
  occurrences of a sequence have a common node, and that node knows of two places (`Proofs/Complete.lean`). **C63** an invariant of the dealing to voices: how long the note a voice holds has lasted.
  It derives `voiceOk`, the assumption of C07 to C16 about one voice, from assumptions about the file. **C64** the other assumptions about voices (program changes between
  notes, ends that match) from assumptions about the file, by a second invariant of dealing and the order of the merge (`Proofs/Tidy.lean`) and, for settings made while other channels sound, that channels which sound together have different base voices (C19) and that a note is on its channel's base voice or on nobody's; then C24, C56 and C63: the notes
  heard are a permutation of those of the file. **C65** the clock of the event loop is at the latest start or end of a note whenever a command is pushed (`Proofs/Changes.lean`).
  **C66** composition of C42, C44, C54 and C64 over the model of `run`.
  **C67** notes are pushed when they end, so a command list strikes them with the settings at their ends (`Proofs/Strike.lean`, an invariant of the event loop); the rest is C54.
  **C68** joins C67 (per voice) with C17/C18 (voices and file hold the same notes) and C27/C28 (which program changes reach a voice before a note): `Proofs/Sound.lean`, `Props/Sound.lean`.
  **C69** the invariants of C27 for volumes (`Proofs/Volumes.lean`): simpler, since drums have no volume of their own.
  **C70** completeness of the backtracking search for base voices, and a count of the busy voices in the dealing loop: only channels that play chords use voices other than their base (`Proofs/Reading.lean`).
  **C71** each message that starts a note and the message that stops it go to the same voice (an invariant of dealing that pairs the open notes of the keys with those of the voices, `Proofs/Lengths.lean`); fused notes and ties end where the
  notes they come from end (`Proofs/Tones.lean`, over `Fused`).
  **C72** a simulation of two runs of `writeBank` on images of the same length in which the same chunks are found (`Proofs/RomSame.lean`); the search reads pointer bytes and headers only.
  **C73** `Clear` and `Steady` (conditions of C68 and C69 on what the reader made) from conditions on the file: channels that sound together have base voices of their own (C19), notes leave a base voice only in chords (`away_chords`, by the invariant of C70), the dealing loop sends volumes between notes only (`settled_emits`), and the settings by which the notes are judged are read off the file because the sort is stable (`ownSettings_file`). That no fused note is too long follows from the lengths of the notes (`FuseSafe`, `Proofs/Fusing.lean`): a fused note had no ties, so its length is that of the note in the file, rounded.
  **C74** validity is an inductive predicate over the schema's tree; C46 says what is done with the entries that it guarantees to exist.
- **C75, C76, C77** are relations between two runs. `Proofs/Relabel.lean` shows once that every step of reading commutes with multiplying times and renaming notes (per channel, injectively), as an
  equation between outcomes. For C75, `Proofs/Resolution.lean` carries a simulation through `Track::new` (the two clocks differ by the factor; the invariant is that the clock is less than a beat past the end of the
  song and portamento is off). For C76, `Proofs/Transpose.lean` does the same for transposition, and `Proofs/Rename.lean` shows that tree building, choice of a sequence and extraction commute with any renaming
  of commands that keeps ties, slides and calls, which is C77.
- **C78, C79** are relations between two runs as well. `Spec/Layout.lean` says what of a file matters (`music`, `SameMusic`). `Proofs/Layout.lean` shows that a list in the converter's order is determined by
  its classes of simultaneous messages of equal rank, and carries a simulation through channel scan, voice assignment and `Track::new` that ignores everything else. `C78_song` is the general theorem; one track
  per channel, order of tracks and removed messages are instances. Two conditions are necessary: `C78_track_order_false` (two tracks setting the volume of one channel at the same instant) and
  `C79_last_false` (an unused controller after the last note lengthens the song).
- **C80** `tellBank` is the builder in a writer monad. Erasing the messages gives `writeBank` (`result_bank`), so what C40 to C45 prove about the finished bank can be compared with the messages (`Built.told`).
- **C81** `Spec/Clock.lean` is the engine's clock. `Proofs/Clock.lean`: summation by parts relates the accumulator to the sum of the lengths of units, up to the variation of these lengths; `Proofs/RealTime.lean`
  relates that sum to the file's tempo map, whose changes reach the first voice (C65) less than a unit from their time.
- **C82** a build that fits leaves pointers and headers alone (C40), and a build reads nothing else of the ROM (the simulation of C72).
- **C83** the writer's state changes the size of a command list by at most seven bytes (a potential argument, `gap_step`); one round of extraction is accounted for with it.
- **C84** `Spec/Repeat.lean` follows the part list for any number of entries (`playOn`). A pass from any registers has the timing of the part (C54); a pass begins with commands and its first note is struck, never tied (`leadFree`), and every note of the
  second pass has instrument and volume set in the pass itself, so what is heard over all passes is the shifted union of what is heard in each (`tones_over`). Tempos: only the first channel changes them, at the start of every pass.
- **C85** `Spec/Glide.lean` says of every note of a voice whether something precedes it that it can be glided from (`leads`: end of the last note and portamento time) and of every heard note whether it is struck or continued after a pitch slide, with the delay and time of the slide and the length of the item it belongs to (`slurs`). `Proofs/Glide.lean` follows the converter through the voice (`Leading`); the step for a note-on shows that a rest is written exactly if there is a whole unit of silence. Resolutions that are no multiple of 24 are missing: there a rest may come or go by the lost ticks.
- **C86** `Verif/ReadReport.lean` repeats the reader and the optimiser with their `println!`s; the lemmas `result_…` of `Proofs/ReadReport.lean` show that without the messages they are the functions of `Midi.lean` and `Song.lean`. `Spec/ReadReport.lean` says of each message when it is true, in terms of the notes of the file and of the messages before it (`placed`: the voice a channel is on is the last one tried for it). `Proofs/ReadReportFind.lean` goes through the backtracking search, `ReadReportDeal.lean` through the distribution of the notes (`Kept`: the map of active notes is the notes held), `ReadReportTrue.lean` puts them together.
- **C87** `Proofs/TempoFactor.lean` runs the converter with two factors side by side (`SideBySide`). For loop extraction the map from the tempos at one factor to those at the other is extended to a permutation of bytes, and C77 applies.
- **C88** `Proofs/Size.lean` weighs commands (`cost`, the most bytes the writer can put for one) and shows that the event loop keeps `127 * cost ≤ 127 * weights + 2 * units` (`SizedBy`): a full piece of a long note or rest takes two bytes and 127 units. `Proofs/SizeDeal.lean` weighs what dealing puts on the voices; sounding notes are on different voices, so a message is copied at most eight times.
- **C89** `Verif/Args.lean` has the declarations of `main.rs` as data and `run` as a function of clap's `ArgMatches`; `CliSpec.Conforms` is what clap guarantees about these.
- **C90** The three outcomes of reading. `StrayEnd` counts ends up to an instant against starts before it, because ends come before starts within an instant. Overflow counts as a panic (debug build).
- **C91** Two builds compared byte by byte. `Bank.endOf` says where the blocks of a list of songs end, from sizes alone (`takeFit`), independently of the builder's cursor. The original ROM is the same for both builds.
- **C92** Invariant of the tree: the locations of a node are what recording a sorted list of positions, each at most twice, leads to (`Recorded`, `Grown`); splitting an edge records the old positions again. So no two locations adjoin, a count is at most 3, and consolidation adds at most 1. The places that a location really covers (`Stands`) are disjoint, which bounds the sums. A round maps occurrences in the new tracks to occurrences in the old ones, further apart or as far (`extractTrack_places`), so sparse tracks stay sparse. The panic is proved for a family: the tree of `n * k` blocks is given explicitly (`blockTree`). For files: every command of a converted track costs two bytes or more in the sense of C88, so the bound of C88 also bounds the number of commands (`C92_commands`), and small tidy files stay below 992 (`C92_file_partial`).
- **C93** The specification is a clock in whole numbers with two fields (`clockOf`), without commands, velocities or `f32`. The converter's state shows the clock (`Shows`), step by step, and the step fails exactly at a `Clash` or a `Premature` end (`clock_step`); the sustain pass never fails, because rests are never empty (`Passable`). That the clock is less than a unit ahead of the events (`clock_ahead`) gives `C93_short`; for resolutions above 24 a note that is extended beyond its end exists (`extended`). For files, C22 rules out the clash.
- **C94** `bank_fine` (`Proofs/RomExact.lean`) shows that, with room behind the chunks, writing a bank ends either well or with `doesNotFit`; which of the two follows from C44 and from the placement lemmas (`placeBank_cases`, `stuck_takeFit`). The room is a hypothesis because the code does not check the last block (`C94_end_of_rom_false`). `C94_build` goes through the banks: each finds its chunks as they were, because `HeadersSafe` keeps the others' writes away from them.
- **C95** `find_least` (`Proofs/FirstVoices.lean`): of two unused voices either will do (`fits_swap`), and the voices tried ascend, so a completion with a lower first voice would have been found. `search_first` states it for the channels of a file.
- **C96** Messages without delta times (`bare`) go through sorting, dealing and merging alike (`Proofs/Retime.lean`). The intervals of the scan differ, even in number, if the first time changes; the voices of the channels are nevertheless the same because the same choices separate the channels (`separates_retimed`) and the first of them is taken (C95).
- **C97** A simulation of two runs that agree in outline (`outline` for messages, `outlineCmd` for commands): the scan sees outlines only (`scanChannels_outline`), dealing and `Track::new` keep states with the same outline (`LikeDeal`, `LikeTrack`, `Proofs/Outline.lean`). Data bytes in range are needed (`C97_range_false`), and with loop extraction the claim is false (`C97_optimised_false`).
- **C98** says how far C33 fails. The locations of a candidate with a count of 2 or more have true first and second copies (`SeqOk.twice`), those with a count of 4 a true fourth one (`Stands.fourth`). A round is described by `Extracted`, a run by `Rounds`; undoing the rounds from the last to the first (`PlayedAt.undo`) gives `Played`, which does not mention rounds. What a third copy replaces can be anything, including calls of earlier rounds.
- **C99** compares a file with the same file without the messages of some channels (`muted`, the times of the others are kept by longer delta times). The first voices of the two files have nothing to do with each other. When the remaining channels never sound together the first voice of each is 0, and then dealing succeeds as long as at most eight notes are held (`deal_one`); the dealing of the whole file shows that there are never more (`pending_eight`).
- **C100**: all loops after the search for first voices only look back: the merge (`earlier_merged`), the dealing (`emits_earlier`), the conversion (`steps_append`), and the sustain pass looks ahead by one command (`sustainPass_begin`).
- **C101** compares the two models function by function: the checked result is the other one or a panic (`OrPanic`, `Proofs/Release.lean`). Where the release model is total (no `Res`), the checked function can only have panicked on overflow. Without the checks, a note shorter than a unit can sound for 276 beats (`C101_short_note`), and a silence of days shrinks to 21170 units (`C101_long_gap`).
- **C102**, **C103** do not follow from C101, as they are about inputs on which the checked build panics. The suffix tree and its candidates are the same in both builds (`release_tree`); only the sums of counts and the scores can wrap, and C98 holds for any choice among the candidates that are worthwhile. For C103 the lists that dealing works on are sorted again after times have wrapped around, so that merging and dealing work as before (`release_read`, with `wrapTime`); voices alternate (C22), and the commands before the sustain pass are `Clean`: no rest has length 0, so that no sum is 0.
- **C104** collects what each function can return (`Ends`, `Proofs/Outcomes.lean`), bottom up. `noOverflowChunk` is dead code: whatever follows a base chunk is taken for the overflow chunk, and its offset is never 0.
- **C105** carries the ROM properties over to the release build: the builder's only checked operations are the additions to bank addresses and the first-song offset (`romWrite_unchecked`), so all properties proved for every converter (C38–C47, C54, C58, C72, C82, C94) hold for the release converter. For the songs, `song_release` (`Proofs/ReleaseShape.lean`) shows the form of the commands without any bound on times. The partial part is as in C54.
- **C106** follows the notes of files with stray ends or times beyond 32 bits through the release build. The proofs of C24, C63 and C64 now take what was dealt (`starts_dealt`, `sane_dealt`, `Spread` in `Props/FileToSound.lean`) instead of a successful read, so that they hold for both builds; `release_dealt` shows that the release build deals the file with times modulo 2^32. The separation of voices comes from C107; `Tidy` compares numbers of starts and ends, so a file that stray ends put off balance may fail to be tidy although its notes are. Optimised songs need no check of the repeat counts: what is heard depends only on the song standing for the converted voices (`StandsFor` in `Props/MidiPlayback.lean`), which C102 gives for the release build (`release_standsFor`).
- **C107** follows the choice of base voices through the release build, where the count of sounding notes is a number modulo 2^64 (`Counted` in `Proofs/ReleaseIntervals.lean`). Without stray ends "off balance" (`OffBalance` in `Spec/Balance.lean`) is "sounding", as in C18 to C20.
- **C108** compares the reader of song files with two relations that say nothing about reading: a grammar of JSON texts (`Denotes` in `Spec/JsonGrammar.lean`) and a description of the JSON values that stand for a song (`SongDoc` in `Spec/SongDoc.lean`). Both comparisons are equivalences, so the reader neither accepts too much nor refuses too much. Writing the grammar down showed two gaps of the model, now closed: `-0` is a float to serde_json and no index, and structures may also be given as arrays. Strings are UTF-8 with all escapes of RFC 8259 (`"\u0070arts"` is the key `parts`); `OneChar` says which bytes stand for a character, with Lean's `String.utf8EncodeChar` for characters as they are. Numbers that are no integers of 64 bits are doubles, with the rounding `rnd64` (the sign of -0 is lost). Not modelled: that serde_json does not check the encoding of strings and the range of numbers in ignored fields, and its limit of 128 levels of nesting.
- **C109** does the same for manifests: `Manifest::new` succeeds exactly on the texts that denote a value in which each of the 34 songs has an entry with a text as `input`. A missing file and a text that is no JSON are reported as errors; a missing entry is a panic (`unwrap` in `manifest::Song::new`). In none of these cases is a file changed. The example reads a whole manifest text, with tempo factors written as `0.20`, `25e-2` and `-1`. `C109_directory` and `C109_here` take `Path::parent` as modelled by `pathParent` (`Verif/Schema.lean`): the input `p` of a manifest `D/f` is `D/p`, whatever slashes and names `.` are in these paths (`places` leaves them out; `..` is kept as a name). An example lists the values of `pathParent` on 14 paths; they are written down from the documentation of `Path::parent` and `Path::components`, since nothing could be run.
- **C110** came from a mutation that survived (two entries of `INSTRUMENT_MAP` swapped): C65, C67 and C68 name the instrument of a program by the table itself, so none of them can notice a wrong entry. `Spec/GeneralMidi.lean` lists, apart from the table, the programs of General MIDI that have a namesake in the game and the families that share an instrument; programs in neither list are only shown to get some instrument of the game.

## 7. Mutation testing

`seeded/LOG.jsonl` has one line per attempt. A copy of the project is edited in one definition of the model, the way a programmer could get it wrong; then everything is
rebuilt. `failed` lists the theorems in which the build stopped, `dependents` the property theorems that cannot be reached any more because they
use them. A failing helper lemma alone shows only that a proof broke, not that the property noticed; for edits whose first failures are helper lemmas the property
statement was compared with the edit by hand, and `note` says how it is falsified where that is not obvious.
