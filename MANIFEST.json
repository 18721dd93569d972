{"claims":[
{"property": "C01", "status": "proved", "theorems": ["M2S.C01_parse_write_track", "M2S.C01_unambiguous", "M2S.C01_volume_fade_ambiguous"], "note": "Encodable tracks: notes 80..C7, no ChannelVolumeFade (the writer emits one operand, the engine reads two; shown separately), durations 1..7F, first timed command has a duration."},
{"property": "C02", "status": "proved", "theorems": ["M2S.C02_playback"], "note": "Player specification in Spec/Nspc.lean; any initial registers."},
{"property": "C03", "status": "proved", "theorems": ["M2S.C03_duration_after_call", "M2S.C03_needs_reset"], "note": "Any effect of the subroutine on the registers; CallLoops as made by the optimiser (duration 0)."},
{"property": "C04", "status": "partial", "theorems": ["M2S.C04_velocity_after_call_partial", "M2S.C04_velocity_after_call_false"], "note": "False of the code: the writer keeps the velocity of before the call. Partial theorem: subroutines that restore velocity and sustain."},
{"property": "C05", "status": "proved", "theorems": ["M2S.C05_call_refs"], "note": ""},
{"property": "C06", "status": "partial", "theorems": ["M2S.C06_set_sustain_partial", "M2S.C06_large_false"], "note": "Proved for durations up to 0x7F, the only ones Track::new produces. False for larger ones: the sum wraps at 256."},
{"property": "C07", "status": "partial", "theorems": ["M2S.C07_durations_partial", "M2S.C07_durations_false"], "note": "False of the code: fusing a note of 64 units with a rest of 64 gives duration 0x80. Partial: all durations at least 1, at most 0x7F except for fused notes, which stay below 0xFF; well-formed voices."},
{"property": "C08", "status": "proved", "theorems": ["M2S.C08_length_exact"], "note": "Against the rational floor and ceiling."},
{"property": "C09", "status": "proved", "theorems": ["M2S.C09_split", "M2S.C09_range_sharp"], "note": "Lengths up to 32512 units for rests; notes up to 32511 units rounded down. One more unit loses time (C09_range_sharp)."},
{"property": "C10", "status": "partial", "theorems": ["M2S.C10_insert_rest_partial", "M2S.C10_far_false"], "note": "Gaps below exactTicks ticks (349525 times gcd(24, resolution)); false at 16777219 ticks with 1 tick per beat because of f32 rounding."},
{"property": "C11", "status": "partial", "theorems": ["M2S.C11_no_drift_partial", "M2S.C11_program_false"], "note": "False of the code when a program change happens during a note. Partial: program changes between notes, gaps below about exactTicks ticks (8.3 million at 480 ticks per beat) and up to 32511 units."},
{"property": "C12", "status": "partial", "theorems": ["M2S.C12_notes_on_time_partial", "M2S.C12_notes_on_time_24_partial", "M2S.C12_portamento_partial", "M2S.C12_portamento_24_partial", "M2S.C12_portamento_ends_false", "M2S.C12_drift_false"], "note": "False of the code for resolutions that are not multiples of 24 (drift). Partial: program changes between notes, no portamento or every note ended by its own number (C12_portamento; needed, C12_portamento_ends_false), gaps below about exactTicks ticks (8.3 million at 480 ticks per beat) and up to 32511 units; for other resolutions the deviation is bounded by 23/24 tick per event."},
{"property": "C13", "status": "proved", "theorems": ["M2S.C13_sustain_pass", "M2S.C13_pass"], "note": "For every event list whose conversion succeeds."},
{"property": "C14", "status": "partial", "theorems": ["M2S.C14_end_together_partial", "M2S.C14_end_together_any_partial", "M2S.C14_program_false"], "note": "False of the code when a program change happens during a note. Same restrictions as C12."},
{"property": "C15", "status": "proved", "theorems": ["M2S.C15_ranges"], "note": "For every event list with MIDI-range velocities."},
{"property": "C16", "status": "partial", "theorems": ["M2S.C16_track_new_ok_partial", "M2S.C16_long_gap_false", "M2S.C16_short_note_panics"], "note": "Gaps below about exactTicks ticks (346000, or 8.3 million at 480 ticks per beat), song length below 2^31 ticks. False for gaps above 178956970 ticks (u32 overflow)."},
{"property": "C17", "status": "proved", "theorems": ["M2S.C17_routing", "M2S.C17_route_ok"], "note": "Every callback list; routing fails only if an absolute time overflows 32 bits."},
{"property": "C18", "status": "proved", "theorems": ["M2S.C18_intervals", "M2S.C18_scan_ok"], "note": "With an exact characterisation of the histories that are accepted; others abort (underflow)."},
{"property": "C19", "status": "proved", "theorems": ["M2S.C19_base_sound", "M2S.C19_base_voices", "M2S.C19_base_voices_closed"], "note": "Over intervals and over files. A note that is never ended is not covered by an interval after the last note message of its channel."},
{"property": "C20", "status": "proved", "theorems": ["M2S.C20_base_complete", "M2S.C20_base_fails_iff"], "note": ""},
{"property": "C21", "status": "proved", "theorems": ["M2S.C21_merge_order", "M2S.C21_loop_ends", "M2S.C21_read_channels"], "note": ""},
{"property": "C22", "status": "proved", "theorems": ["M2S.C22_alternate"], "note": ""},
{"property": "C23", "status": "proved", "theorems": ["M2S.C23_one_voice", "M2S.C23_song", "M2S.C23_song_any"], "note": "Voices and whole songs, with or without loop optimisation."},
{"property": "C24", "status": "proved", "theorems": ["M2S.C24_notes_kept"], "note": ""},
{"property": "C25", "status": "proved", "theorems": ["M2S.C25_order_independent"], "note": "The whole reader; the enumeration order may be any permutation, chosen anew for every map content."},
{"property": "C26", "status": "partial", "theorems": ["M2S.C26_velocity_zero_partial", "M2S.C26_snare_false"], "note": "Proved for every file and every set of replaced note-offs except notes 38/40 of channel 10, where it is false (witness proved)."},
{"property": "C27", "status": "partial", "theorems": ["M2S.C27_base_voice_partial", "M2S.C27_overflow_voice_partial", "M2S.C27_shared_voice_false", "M2S.C27_stale_voice_false"], "note": "False in general (two witnesses proved). Proved for base voices not shared with channels that select programs, and for overflow voices when the channel selects programs only before its first note."},
{"property": "C28", "status": "partial", "theorems": ["M2S.C28_percussion_partial", "M2S.C28_two_voices_false"], "note": "False in general (witness proved). Proved when all drum notes start on one voice that gets no explicit program changes."},
{"property": "C29", "status": "proved", "theorems": ["M2S.C29_system_messages"], "note": ""},
{"property": "C30", "status": "proved", "theorems": ["M2S.C30_tempo_monotone", "M2S.C30_tempo_accuracy", "M2S.C30_tempo_event"], "note": "Every f32 factor, all 24-bit values."},
{"property": "C31", "status": "proved", "theorems": ["M2S.C31_extraction_reversible"], "note": ""},
{"property": "C32", "status": "proved", "theorems": ["M2S.C32_candidates", "M2S.C32_iterator", "M2S.C32_best"], "note": "Overlap is measured by the claimed repeat counts; that the counts themselves can be too large is C33_counts_false."},
{"property": "C33", "status": "partial", "theorems": ["M2S.C33_small_counts_partial", "M2S.C33_no_repeats_partial", "M2S.C33_song_partial", "M2S.C33_counts_false"], "note": "False of the code: a sequence occurring exactly twice in a row is counted three times and the commands after it are lost (witness proved). Proved when no loop count of the result exceeds 2, and when no sequence of four or more commands is immediately repeated."},
{"property": "C34", "status": "proved", "theorems": ["M2S.C34_round_shrinks", "M2S.C34_terminates", "M2S.C34_never_grows"], "note": "A run may also end in an overflow panic of the u8 repeat sums (256 or more repetitions in all); never in an Err or an endless recursion."},
{"property": "C35", "status": "proved", "theorems": ["M2S.C35_loops_well_formed", "M2S.C35_song"], "note": ""},
{"property": "C36", "status": "proved", "theorems": ["M2S.C36_address_map", "M2S.C36_bytes", "M2S.C36_one_to_one"], "note": ""},
{"property": "C37", "status": "proved", "theorems": ["M2S.C37_pointer", "M2S.C37_pointer_ok", "M2S.C37_header"], "note": ""},
{"property": "C38", "status": "proved", "theorems": ["M2S.C38_terminates", "M2S.C38_found", "M2S.C38_last_base"], "note": "The walk of the code does not stop at an end mark addressed to D000; the statement describes the chunks it really visits."},
{"property": "C39", "status": "proved", "theorems": ["M2S.C39_size", "M2S.C39_file"], "note": "Memory image and file, whatever the outcome and the number of bytes stored."},
{"property": "C40", "status": "partial", "theorems": ["M2S.C40_bank_partial", "M2S.C40_build_partial", "M2S.C40_last_block_false"], "note": "Proved for banks that fit (room for the song table, what is left over fits into the overflow chunk, parts of at most eight tracks, first overflowing block without calls). False otherwise: the block that causes the switch is not checked against the overflow chunk (witness proved)."},
{"property": "C41", "status": "partial", "theorems": ["M2S.C41_bank_partial", "M2S.C41_build_partial", "M2S.C41_switch_call_false"], "note": "Proved for banks that fit. False when the track that overflows has subroutine calls: they are patched in the wrong place (witness proved)."},
{"property": "C42", "status": "proved", "theorems": ["M2S.C42_failure_changes_nothing", "M2S.C42_other_files", "M2S.C42_success"], "note": "Every subcommand, every failure. The model has one file system write per run, at the end, as the code; that the operating system stores the bytes of a write is a hypothesis of C42_success only."},
{"property": "C43", "status": "partial", "theorems": ["M2S.C43_twice_partial", "M2S.C43_bank", "M2S.C43_last_block_false"], "note": "Proved for builds that fit, and for one bank whenever the chunk list survives. False otherwise (witness proved)."},
{"property": "C44", "status": "partial", "theorems": ["M2S.C44_no_false_alarm", "M2S.C44_fits_ok", "M2S.C44_build_ok", "M2S.C44_success_partial", "M2S.C44_last_block_false"], "note": "No false alarms; what fits is accepted; a success really fits unless exactly one block overflows, which is not checked (witness proved)."},
{"property": "C45", "status": "proved", "theorems": ["M2S.C45_fake", "M2S.C45_again", "M2S.C45_ok_iff", "M2S.C45_total"], "note": "Every image and every list of base addresses below 2^24 - 8 (larger ones are outside the SNES address space)."},
{"property": "C46", "status": "proved", "theorems": ["M2S.C46_slots", "M2S.C46_counts", "M2S.C46_key_order", "M2S.C46_accepted"], "note": ""},
{"property": "C47", "status": "proved", "theorems": ["M2S.C47_file_select", "M2S.C47_one_slot", "M2S.C47_all_overworld", "M2S.C47_counts"], "note": ""},
{"property": "C48", "status": "proved", "theorems": ["M2S.C48_round_trip", "M2S.C48_injective", "M2S.C48_file"], "note": "At the level of JSON values; the text syntax of serde_json is outside the model. Track indices are below 2^64 (usize)."},
{"property": "C49", "status": "proved", "theorems": ["M2S.C49_empty_slot"], "note": "Every slot of a bank that fits."},
{"property": "C50", "status": "proved", "theorems": ["M2S.C50_preambles"], "note": ""},
{"property": "C51", "status": "proved", "theorems": ["M2S.C51_three", "M2S.C51_default", "M2S.C51_bad_address"], "note": ""},
{"property": "C52", "status": "proved", "theorems": ["M2S.C52_slide", "M2S.C52_note_on"], "note": ""},
{"property": "C53", "status": "partial", "theorems": ["M2S.C53_end_matches_partial", "M2S.C53_snare_false"], "note": "False for snares of channel 10 ended by a velocity-0 note-on or a retrigger: witness proved. Proved for everything else."},
{"property": "C54", "status": "partial", "theorems": ["M2S.C54_bank_partial", "M2S.C54_build_partial", "M2S.C54_switch_call_false"], "note": "Proved for builds whose songs fit, songs with encodable tracks and calls like those of the optimiser. False when a track with subroutine calls is the first block in the overflow chunk (witness proved). Velocities and sustains are proved for songs without calls; with calls they are false, see C04."},
{"property": "C55", "status": "proved", "theorems": ["M2S.C55_playable", "M2S.C55_optimised_range", "M2S.C55_in_range", "M2S.C55_storable"], "note": ""},
{"property": "C56", "status": "partial", "theorems": ["M2S.C56_notes_on_time_partial", "M2S.C56_portamento_partial"], "note": "Composition of C12, C14, C33, C41 and C54 under their conditions (resolution a multiple of 24, no program changes during notes, no portamento or every note ended by its own number, loop counts at most 2, songs that fit); without them it is false, see C12_drift_false, C14_program_false, C33_counts_false and C54_switch_call_false."},
{"property": "C57", "status": "proved", "theorems": ["M2S.C57_bank", "M2S.C57_bank_same", "M2S.C57_build", "M2S.C57_build_same", "M2S.C57_run", "M2S.C57_verbose_panics"], "note": "C57_verbose_panics is the witness that the panic happens."},
{"property": "C58", "status": "proved", "theorems": ["M2S.C58_bank", "M2S.C58_build", "M2S.C58_table"], "note": ""},
{"property": "C59", "status": "proved", "theorems": ["M2S.C59_order", "M2S.C59_files"], "note": ""},
{"property": "C60", "status": "proved", "theorems": ["M2S.C60_detour", "M2S.C60_file_select", "M2S.C60_all_overworld"], "note": "Assumes that JSON text is read back as written (proved for a model of serde_json, C61) and that the song has at most 2^64 tracks."},
{"property": "C61", "status": "proved", "theorems": ["M2S.C61_text", "M2S.C61_song", "M2S.C61_injective", "M2S.C61_around"], "note": "serde_json is a dependency; its writer and the part of its reader that songs need are modelled in Verif/JsonText.lean."},
{"property": "C62", "status": "partial", "theorems": ["M2S.C62_no_repeats_partial", "M2S.C62_song_partial", "M2S.C62_missed_false"], "note": "Proved for repeats in different tracks, and within a track if no sequence of four or more commands overlaps itself; sequences without ties. Witness that repeats within a track are missed otherwise."},
{"property": "C63", "status": "partial", "theorems": ["M2S.C63_voices", "M2S.C63_converts_partial"], "note": "C63_voices: every voice of a sane file meets the assumptions of C07 to C16, no restriction. C63_converts_partial: conversion succeeds for songs shorter than exactTicks ticks (two hours at 480 ticks per beat); with optimisation up to the overflow of the repeat count."},
{"property": "C64", "status": "partial", "theorems": ["M2S.C64_voices", "M2S.C64_file_to_sound_partial", "M2S.C64_snare_false"], "note": "End to end, from assumptions about the file. Partial because the stages are: resolution a multiple of 24 (C12_drift_false), program changes in silence (C14_program_false), repeat counts at most 2 (C33_counts_false), banks without switch problems (C54_switch_call_false), no fused note above 127 units (C07_durations_false), at most 1354 beats; the condition on snares is needed (C64_snare_false)."},
{"property": "C65", "status": "partial", "theorems": ["M2S.C65_changes_any_partial", "M2S.C65_changes_partial", "M2S.C65_instruments_partial", "M2S.C65_instruments_asked", "M2S.C65_never_late", "M2S.C65_tempo_false", "M2S.C65_volume_false", "M2S.C65_heard_partial", "M2S.C65_file_tempos"], "note": "Values, order and place of all changes are proved; instrument changes are on time. Partial because volume and tempo changes are made early (C65_tempo_false, C65_volume_false), program changes during notes are excluded (C11_program_false), and the range is that of C12."},
{"property": "C66", "status": "partial", "theorems": ["M2S.C66_builds", "M2S.C66_succeeds", "M2S.C66_run_partial"], "note": "Composition of C42, C44, C54 and C64 for the model of the whole program. Partial for the reasons of C64; ghakuf (MIDI parsing) is outside: the theorem starts from the callbacks it makes."},
{"property": "C67", "status": "partial", "theorems": ["M2S.C67_track", "M2S.C67_track_partial", "M2S.C67_settings_false", "M2S.C67_heard_partial", "M2S.C67_heard_optimised_partial", "M2S.C67_quiet_false", "M2S.C67_optimised_false"], "note": "False in full, witnesses given: changes during notes, velocities below 8, velocities after subroutines. Proved otherwise, for one voice and for the engine playing the built song; portamento excluded."},
{"property": "C68", "status": "partial", "theorems": ["M2S.C68_voices", "M2S.C68_instruments", "M2S.C68_music_partial", "M2S.C68_orchestra_partial", "M2S.C68_run_partial"], "note": "Composition of C27, C28, C54, C64, C66 and C67. Partial because these are: the restrictions of C64, no portamento, the condition Clear on channels sharing voices (C27, C28 have witnesses why), and velocities only without loop optimisation and from 8 on (C67_quiet_false, C67_optimised_false)."},
{"property": "C69", "status": "partial", "theorems": ["M2S.C69_base_voice_partial", "M2S.C69_overflow_voice_partial", "M2S.C69_shared_voice_false", "M2S.C69_stale_voice_false", "M2S.C69_volumes", "M2S.C68_orchestra_partial", "M2S.C68_run_partial"], "note": "Proved under the condition Steady on channels sharing voices; false without it (C69_shared_voice_false, C69_stale_voice_false). What is heard: C68_orchestra_partial and C68_run_partial, whose SoundNear compares volumes if Steady holds."},
{"property": "C70", "status": "partial", "theorems": ["M2S.C70_few_channels_partial", "M2S.C70_melodies_partial", "M2S.C70_eight_notes_false", "M2S.C70_reserved_false", "M2S.C70_converts_partial", "M2S.C70_heard_partial"], "note": "False in full: eight notes at once may be too many (C70_eight_notes_false), even counting a reserved voice for each channel (C70_reserved_false). Proved under conditions on the file alone; C70_converts_partial and C70_heard_partial add conversion and, with the condition of C07 on fused notes, playing."},
{"property": "C71", "status": "partial", "theorems": ["M2S.C71_lengths_partial", "M2S.C71_run_partial", "M2S.C71_release", "M2S.C71_voices", "M2S.C71_documented_false"], "note": "Proved under the conditions of C68; with loop optimisation only that the end of the note lies in its last piece, since sustains are not kept across subroutines (C04). The engine is modelled up to the sustain value; the gate table is a parameter (Eighths). C71_documented_false: the documented table is not in steps of eighths."},
{"property": "C72", "status": "partial", "theorems": ["M2S.C72_bank_partial", "M2S.C72_build_partial", "M2S.C72_ready", "M2S.C72_mark_false"], "note": "Partial: the end mark of the chunk list must not name D000 (C72_mark_false); for builds of several banks the banks must be ready (C44) and song data must not lie over headers. In these cases it is an equivalence of outcomes including errors."},
{"property": "C73", "status": "partial", "theorems": ["M2S.C73_conditions", "M2S.C73_bank_partial", "M2S.C73_run_partial", "M2S.C73_file_partial", "M2S.C73_file_run_partial"], "note": "C73_conditions: the conditions of C68 and C69 on the reader's result follow from conditions on the file. C73_file_partial and C73_file_run_partial have no condition on what the tool made of the file (SafeLengths rules out the bug of C07); C73_bank_partial and C73_run_partial allow all lengths and have the condition of C07 on the result. Partial because the full property (all files) is false (see C07, C28, C54, C67, C69, C70)."},
{"property": "C74", "status": "partial", "theorems": ["M2S.C74_valid", "M2S.C74_input", "M2S.C74_default_false", "M2S.C74_pattern_false", "M2S.C74_ignored_false"], "note": "Proved: valid documents are accepted and heeded. The other directions are false, with witnesses: wrong documented default, unanchored pattern, ignored values of the wrong type. Validity is JSON Schema draft semantics for the keywords the schema uses (type, properties, required, pattern, definitions); the path function that finds the extension is modelled (pathExtension)."},
{"property": "C75", "status": "partial", "theorems": ["M2S.C75_song_partial", "M2S.C75_resolution_partial", "M2S.C75_rounding_false", "M2S.C75_portamento_false"], "note": "Proved for tick counts that are multiples of 24, files without portamento and times below 8388600 ticks in the finer resolution; as an equality of outcomes including failures. The wanted property for all files is false, with witnesses for the first two conditions."},
{"property": "C76", "status": "proved", "theorems": ["M2S.C76_song", "M2S.C76_layout"], "note": "Equality of outcomes including failures. Times must fit in 32 bits."},
{"property": "C77", "status": "proved", "theorems": ["M2S.C77_optimise"], "note": ""},
{"property": "C78", "status": "proved", "theorems": ["M2S.C78_song", "M2S.C78_tool", "M2S.C78_per_channel", "M2S.C78_track_order", "M2S.C78_track_order_false"], "note": "Equality of outcomes for all pairs of readable files with the same music; the whole program; one track per channel; order of tracks. C78_track_order_false shows that the condition on the tracks is needed."},
{"property": "C79", "status": "proved", "theorems": ["M2S.C79_ignored", "M2S.C79_system", "M2S.C79_last_false"], "note": "C79_last_false shows that the condition on the last channel message is needed."},
{"property": "C80", "status": "partial", "theorems": ["M2S.C80_outcome", "M2S.C80_silent", "M2S.C80_bank_partial", "M2S.C80_build_partial", "M2S.C80_size_false", "M2S.C80_switch_false", "M2S.C80_nameless", "M2S.C80_named", "M2S.C80_name_end", "M2S.C80_name_plain"], "note": "Missing: sizes of songs that switch chunks and the data size before a switch, both printed wrong (C80_size_false, C80_switch_false). The values of the messages are modelled, not their wording."},
{"property": "C81", "status": "partial", "theorems": ["M2S.C81_clock", "M2S.C81_speed", "M2S.C81_default_slow", "M2S.C81_bank_partial", "M2S.C81_run_partial", "M2S.C81_steady_partial", "M2S.C81_unset", "M2S.C81_early_false"], "note": "Missing: files without a tempo at the start (C81_unset) and tempo changes while the first voice holds a note or rests (C81_early_false), for which the property is false, and what is missing in C64. C81_steady_partial is the case of one tempo, without the condition on the converted voice. The engine's clock (Spec/Clock.lean) is written from the engine's documentation."},
{"property": "C82", "status": "partial", "theorems": ["M2S.C82_ready", "M2S.C82_same_partial", "M2S.C82_sound_partial", "M2S.C82_runs_partial"], "note": "For first builds that fit (C44); others can destroy the chunk list (C43_last_block_false)."},
{"property": "C83", "status": "partial", "theorems": ["M2S.C83_long_loops_partial", "M2S.C83_bank_partial", "M2S.C83_short_loops_false"], "note": "False for short sequences (C83_short_loops_false: 37 bytes instead of 32, and a build that fails only with loop extraction). Proved when every subroutine takes at least 38 bytes; sequences between are not decided. The bank version is for plain songs that fit into the base chunk."},
{"property": "C84", "status": "partial", "theorems": ["M2S.C84_bank_partial", "M2S.C84_music_partial", "M2S.C84_file_partial", "M2S.C84_run_partial", "M2S.C84_instrument_false", "M2S.C84_length_false", "M2S.C84_tempo_false"], "note": "False for notes before the first instrument, lengths that are not whole units and tempos first set after the start (the three _false theorems). Proved without these for tidy and musical files (what is missing in C64, C71, C73 is missing here); C84_bank_partial is for any playable song. The engine playing on (Spec/Repeat.lean) is written from the engine's documentation."},
{"property": "C85", "status": "partial", "theorems": ["M2S.C85_notes", "M2S.C85_bank_partial", "M2S.C85_file_partial", "M2S.C85_early_false", "M2S.C85_volume_false", "M2S.C85_long_false"], "note": "The wish is false (three _false theorems). Proved exactly: when a note is glided to, how long the slide takes and when it ends, for resolutions that are multiples of 24."},
{"property": "C86", "status": "proved", "theorems": ["M2S.C86_outcome", "M2S.C86_silent", "M2S.C86_true", "M2S.C86_base", "M2S.C86_chosen", "M2S.C86_reason", "M2S.C86_best"], "note": "Messages as values; their wording is not modelled. What each message has to mean is MidiSpec.Truthful. The repeat counts in the messages of the optimiser are those extracted; that counts above 2 can be wrong is C33."},
{"property": "C87", "status": "partial", "theorems": ["M2S.C87_song", "M2S.C87_fails", "M2S.C87_room", "M2S.C87_faster", "M2S.C87_optimised_partial", "M2S.C87_optimised_false"], "note": "Without loop extraction as stated. With it: if equal tempos stay equal and different ones different; false otherwise (C87_optimised_false)."},
{"property": "C88", "status": "proved", "theorems": ["M2S.C88_track", "M2S.C88_song", "M2S.C88_tidy_partial", "M2S.C88_bank"], "note": "C88_tidy_partial expresses the length of the tracks by that of the file, for tidy files at multiples of 24 ticks per beat (other files: C14). Nothing is said about songs with loop extraction, which can be larger (C83)."},
{"property": "C89", "status": "partial", "theorems": ["M2S.C89_runs", "M2S.C89_unambiguous", "M2S.C89_can_say_partial", "M2S.C89_fake_rom_false"], "note": "clap itself is represented by what it guarantees about matches (CliSpec.Conforms). False: bank addresses cannot be given to gen_fake_rom."},
{"property": "C90", "status": "proved", "theorems": ["M2S.C90_outcomes", "M2S.C90_panics_iff", "M2S.C90_inseparable", "M2S.C90_melodies_iff"], "note": "Arithmetic overflow counts as a panic, as in a debug build. For files with chords the refusals that come from dealing the notes out are not characterised exactly; C70 gives sufficient conditions for acceptance."},
{"property": "C91", "status": "partial", "theorems": ["M2S.C91_build_partial", "M2S.C91_runs_partial", "M2S.C91_count_false"], "note": "For builds whose songs fit (C43 shows what a block that does not fit can destroy). False, with witness, if the number of songs of a bank changes: songs are numbered through all banks."},
{"property": "C92", "status": "partial", "theorems": ["M2S.C92_candidates", "M2S.C92_search", "M2S.C92_loops", "M2S.C92_song_loops", "M2S.C92_sparse_partial", "M2S.C92_small_partial", "M2S.C92_song_partial", "M2S.C92_commands", "M2S.C92_file_partial", "M2S.C92_panics"], "note": "C92_file_partial: stated of the file alone, for tidy files whose messages and length account for few bytes. That extraction never panics is false (C92_panics, for every number of blocks from 256 on). The bounds for success (170 occurrences, 4*(256-t) commands in t tracks) are sufficient, not exact; one search is characterised exactly by C92_search."},
{"property": "C93", "status": "proved", "theorems": ["M2S.C93_ok_iff", "M2S.C93_refused_iff", "M2S.C93_panics_iff", "M2S.C93_short", "M2S.C93_resolution", "M2S.C93_file", "M2S.C93_coarse_file"], "note": "For songs shorter than exactTicks ticks (two hours at 480 ticks per beat), where the f32 lengths are exact; data bytes in the MIDI range and three bytes of tempo. Without extraction of repeats; see C92 for what extraction adds."},
{"property": "C94", "status": "proved", "theorems": ["M2S.C94_bank", "M2S.C94_build", "M2S.C94_end_of_rom_false"], "note": "One bank, and the whole build if banks do not damage each other. C55_storable gives the validity of converted songs. The requirement that the ROM goes on behind the chunks is part of the statement; C94_end_of_rom_false shows that it is needed."},
{"property": "C95", "status": "proved", "theorems": ["M2S.C95_first", "M2S.C95_unique", "M2S.C95_silent", "M2S.C95_gapless", "M2S.C95_low"], "note": "Sounding means: more notes have started than ended, and the channel has a later note message (SoundsOn); notes that are never ended after the last message do not count, as in the code."},
{"property": "C96", "status": "proved", "theorems": ["M2S.C96_voices", "M2S.C96_music", "M2S.C96_later"], "note": "Messages are compared without their delta times, which change with the times. The length claim is for files with at least one channel message."},
{"property": "C97", "status": "proved", "theorems": ["M2S.C97_read", "M2S.C97_song", "M2S.C97_range_false", "M2S.C97_optimised_false"], "note": "For unoptimised songs and data bytes in range, as stated; C97_range_false and C97_optimised_false show that both restrictions are needed."},
{"property": "C98", "status": "proved", "theorems": ["M2S.C98_rounds", "M2S.C98_damage", "M2S.C98_stretch", "M2S.C98_beginning", "M2S.C98_song"], "note": "Limits the failure of C33 (C33_counts_false). Examples show both kinds of damage, with counts 3 and 4."},
{"property": "C99", "status": "partial", "theorems": ["M2S.C99_group", "M2S.C99_solo", "M2S.C99_melodies_partial", "M2S.C99_few_partial", "M2S.C99_notes", "M2S.C99_superposition", "M2S.C99_mute_false"], "note": "Reading after muting is false in general (C99_mute_false); proved for remaining channels that never sound together, for files of melodies and for files that need few voices. The notes are proved for every muted file that is read and comes from a tidy file of sane content."},
{"property": "C100", "status": "partial", "theorems": ["M2S.C100_track", "M2S.C100_voices", "M2S.C100_song", "M2S.C100_notes", "M2S.C100_first_false", "M2S.C100_cut_false"], "note": "The voices and tracks under the condition that both files give all channels the same first voices; without it the claim is false (C100_first_false), as is readability of beginnings (C100_cut_false)."},
{"property": "C101", "status": "proved", "theorems": ["M2S.C101_run", "M2S.C101_read", "M2S.C101_song", "M2S.C101_loops", "M2S.C101_beyond", "M2S.C101_short_note", "M2S.C101_long_gap"], "note": "Verif/Release.lean is a second model of all functions in which something can overflow. C101_beyond, C101_short_note and C101_long_gap show runs that only the checks stop."},
{"property": "C102", "status": "proved", "theorems": ["M2S.C102_total", "M2S.C102_damage", "M2S.C102_calls", "M2S.C102_song", "M2S.C102_missed"], "note": "About the release model; C102_missed is the counting modulo 256, on tracks on which the build with checks panics (C92_panics)."},
{"property": "C103", "status": "proved", "theorems": ["M2S.C103_read_panics_iff", "M2S.C103_read_outcomes", "M2S.C103_conversion", "M2S.C103_converted_or_refused"], "note": "About the release model. Success says that there is a song, not that it is right: beyond C101 values wrap around."},
{"property": "C104", "status": "proved", "theorems": ["M2S.C104_run", "M2S.C104_release", "M2S.C104_overflow", "M2S.C104_midi2json"], "note": "Endless loops are a separate result of the model (diverged), which Ends rules out. Panics inside clap, ghakuf and serde are outside the model."},
{"property": "C105", "status": "partial", "theorems": ["M2S.C105_rom", "M2S.C105_fake", "M2S.C105_size", "M2S.C105_failure", "M2S.C105_other_files", "M2S.C105_storable", "M2S.C105_playable", "M2S.C105_succeeds", "M2S.C105_plays_partial"], "note": "C105_plays_partial has the hypotheses of C54 (what is missing is false of the code, C54_switch_call_false). The rest is proved in full."},
{"property": "C106", "status": "partial", "theorems": ["M2S.C106_notes", "M2S.C106_alternate", "M2S.C106_sane", "M2S.C106_converts_partial", "M2S.C106_voices", "M2S.C106_run_partial", "M2S.C106_hidden_false", "M2S.C106_hidden_song_false"], "note": "The parts about notes and voices are proved in full. C106_converts_partial lacks songs beyond exactTicks (as C63). C106_run_partial has the hypotheses of C66; for files that are tidy by their notes but not by the numbers of starts and ends it is false (C106_hidden_false: a stray end hides the next note of its channel from the choice of voices)."},
{"property": "C107", "status": "proved", "theorems": ["M2S.C107_intervals", "M2S.C107_apart", "M2S.C107_refused", "M2S.C107_hidden_false", "M2S.C107_silent_false"], "note": "C107_hidden_false and C107_silent_false are the two failures named in the statement."},
{"property": "C108", "status": "proved", "theorems": ["M2S.C108_text", "M2S.C108_value", "M2S.C108_unique", "M2S.C108_reads", "M2S.C108_panics", "M2S.C108_written"], "note": "Within the text model of C61. serde_json refuses texts nested deeper than 128 levels and is laxer about strings and numbers in ignored fields, which is not modelled."},
{"property": "C109", "status": "proved", "theorems": ["M2S.C109_slots", "M2S.C109_accepted", "M2S.C109_refused", "M2S.C109_untouched", "M2S.C109_directory", "M2S.C109_here"], "note": "Within the text model of C61; numbers are rounded to the nearest double."},
{"property": "C110", "status": "proved", "theorems": ["M2S.C110_namesakes", "M2S.C110_families", "M2S.C110_all", "M2S.C110_selects"], "note": "The finite table is checked entry by entry; C110_selects ties it to the conversion of program changes. The instrument numbers are those the source names, not read from a ROM."}
]}
