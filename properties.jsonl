{"id": "C01", "title": "Track bytes are an unambiguous encoding of the commands", "statement": "Parsing the bytes that Song::write_track emits for a track with the N-SPC byte grammar (00 = end, 01-7F duration with optional velocity/sustain byte, 80-C7 note, C8 tie, C9 rest, E0-FA command plus its operands) yields, in order, exactly the track's commands with their operands, and stops exactly at the trailing 00.", "quantifier": "every track whose commands are encodable (any length, any operands)", "why_tests_cant": "infinitely many command sequences; an ambiguity needs a particular byte adjacency", "anchors": ["src/nspc/command.rs:Command::write", "src/nspc/command.rs:ParameterizedCommand::write", "src/nspc/track.rs:Track::write", "src/nspc/mod.rs:Song::write_track"]}
{"id": "C02", "title": "Playback honours every duration and velocity/sustain", "statement": "When an N-SPC engine plays the emitted bytes of a track without CallLoops, each note, tie and rest sounds with the duration the command asked for (or the last one asked for when it has none), and each note with the velocity and sustain asked for (or the last ones, or the engine default 0x7D), even though the writer omits bytes it believes redundant.", "quantifier": "every encodable command list, every interleaving of present/absent duration, velocity and sustain", "why_tests_cant": "the omission logic depends on the whole history of previous commands", "anchors": ["src/nspc/command.rs:ParameterizedCommand::write", "src/nspc/track.rs:Track::write"]}
{"id": "C03", "title": "Duration is re-sent after a CallLoop", "statement": "After a CallLoop produced by the optimiser the first later command that carries a duration is emitted with an explicit duration byte, whatever the subroutine did to the engine's duration register.", "quantifier": "every track with CallLoops at any positions, every subroutine", "why_tests_cant": "depends on arbitrary histories before and inside the loop", "anchors": ["src/nspc/command.rs:ParameterizedCommand::write", "src/nspc/mod.rs:Song::extract_sequence"]}
{"id": "C04", "title": "Velocity after a CallLoop is the one asked for", "statement": "A note following a CallLoop plays with the velocity and sustain its command specifies, regardless of the velocity the subroutine last used.", "quantifier": "every track/subroutine pair", "why_tests_cant": "depends on arbitrary histories before and inside the loop", "anchors": ["src/nspc/command.rs:ParameterizedCommand::write"]}
{"id": "C05", "title": "CallLoop references point at their operand", "statement": "Writing a track reports exactly one reference per CallLoop command, in order, with the right target track; the reported position is that of the two address bytes of that CallLoop, so patching all reported positions changes those bytes only and makes every CallLoop's operand the address of its target.", "quantifier": "every track, any number of CallLoops anywhere", "why_tests_cant": "positions depend on how many optional bytes all previous commands emitted", "anchors": ["src/nspc/command.rs:Command::write", "src/nspc/mod.rs:Song::write_track", "src/nspc/mod.rs:CallLoopRef"]}
{"id": "C06", "title": "Fusing a note with the following rest keeps time", "statement": "ParameterizedCommand::set_sustain either changes nothing and answers false, or answers true and turns (note of length a, rest of length b) into one note of length a+b whose sustain is at most 7; only a note followed by a rest is ever changed; the sounding fraction sustain/8 equals a/(a+b), or else it is within 1/8 of it.", "quantifier": "every pair of commands and all durations", "why_tests_cant": "all 2^16 duration pairs times all command kinds", "anchors": ["src/nspc/command.rs:ParameterizedCommand::set_sustain"]}
{"id": "C07", "title": "Converted tracks only contain representable durations", "statement": "Every duration in a track made from MIDI fits the N-SPC duration byte range 1..0x7F.", "quantifier": "every MIDI event list", "why_tests_cant": "depends on arbitrary combinations of note and rest lengths", "anchors": ["src/nspc/command.rs:ParameterizedCommand::set_sustain", "src/nspc/track.rs:Track::new"]}
{"id": "C08", "title": "Tick-to-length conversion is exact although done in f32", "statement": "Converting a tick count to 1/24-beat units by the f32 computation gives exactly the mathematical floor (rests) or ceiling (notes) of 24*ticks/ticks_per_beat; in particular exact multiples are never pushed to the next unit by rounding.", "quantifier": "all 65535 resolutions and all tick counts below 349525 times the greatest common divisor of 24 and the resolution (8388600 at 480 ticks per beat)", "why_tests_cant": "2^34 input pairs and IEEE rounding at each of them", "anchors": ["src/nspc/track.rs:Track::get_duration"]}
{"id": "C09", "title": "Long durations are split without loss", "statement": "A length longer than 0x7F units is emitted as pieces each of 1..0x7F units whose sum is the length.", "quantifier": "all lengths (up to the 8-bit piece counter's range)", "why_tests_cant": "the piece counter truncates for lengths no test uses", "anchors": ["src/nspc/track.rs:Track::get_duration", "src/nspc/track.rs:Track::insert_rest", "src/nspc/track.rs:Track::new"]}
{"id": "C10", "title": "Rests never overshoot and never lag a whole unit", "statement": "Inserting a rest up to time t moves the track clock to a value not beyond t and less than one unit (plus one tick of rounding) before it, emits rests only, and does nothing if the clock is already at or past t.", "quantifier": "every clock value, target time and resolution", "why_tests_cant": "unbounded pairs of times", "anchors": ["src/nspc/track.rs:Track::insert_rest"]}
{"id": "C11", "title": "Track timing does not drift", "statement": "While converting any event list, the sum of the durations of all commands emitted so far equals the internal clock exactly when ticks_per_beat is a multiple of 24 (and otherwise stays within one tick per emitted group), so rounding errors never accumulate.", "quantifier": "every event history of any length", "why_tests_cant": "drift is a property of unbounded histories", "anchors": ["src/nspc/track.rs:Track::new", "src/nspc/track.rs:Track::insert_rest", "src/nspc/track.rs:Track::get_duration"]}
{"id": "C12", "title": "Every note starts and ends within one unit of its MIDI time", "statement": "In a converted track each note's start differs from its MIDI note-on time, and its end from its note-off time, by less than one 1/24-beat unit, no matter how many events precede it.", "quantifier": "every alternating note-on/note-off history with non-decreasing times and notes at least one unit long", "why_tests_cant": "property of unbounded histories", "anchors": ["src/nspc/track.rs:Track::new"]}
{"id": "C13", "title": "The sustain pass preserves total track time and all other commands", "statement": "The post-processing pass of Track::new only fuses note+rest pairs: total duration is unchanged, and the list of non-rest commands (kinds, operands, order) is unchanged.", "quantifier": "every command list", "why_tests_cant": "unbounded command lists", "anchors": ["src/nspc/track.rs:Track::new", "src/nspc/command.rs:ParameterizedCommand::set_sustain"]}
{"id": "C14", "title": "All tracks of a song end together", "statement": "Every non-empty converted track lasts until the latest MIDI event time of the song, up to less than one unit either way, so the eight voices stay aligned when the song loops.", "quantifier": "every event list for every voice", "why_tests_cant": "property of unbounded histories", "anchors": ["src/nspc/track.rs:Track::new", "src/midi/mod.rs:MidiHandler::read"]}
{"id": "C15", "title": "Notes map to the right N-SPC pitch", "statement": "A MIDI note n becomes the pitch byte n+0x68, which is a legal N-SPC note (0x80..0xC7) exactly for 24<=n<=95; the commands emitted carry velocity in 0..15 and sustain in 0..7.", "quantifier": "every MIDI note and event list", "why_tests_cant": "requires every history to produce only such commands", "anchors": ["src/nspc/track.rs:Track::new"]}
{"id": "C16", "title": "Conversion of a well-formed voice never fails or panics", "statement": "Track::new succeeds for every event list whose notes alternate on/off, are in time order, each at least one unit long, with MIDI-range data bytes and 3-byte tempo data.", "quantifier": "all such event lists", "why_tests_cant": "absence of panics/overflow for every history", "anchors": ["src/nspc/track.rs:Track::new"]}
{"id": "C17", "title": "Events are routed to channels without loss, in order", "statement": "Reading a MIDI file puts every meta/sysex event on channel 0 and every channel event on its own channel, exactly once, stamped with the sum of the delta times before it in its track; within a channel the events are in time order, at equal times note-offs first and note-ons last, ties in file order.", "quantifier": "every list of tracks and events", "why_tests_cant": "unbounded event lists", "anchors": ["src/midi/mod.rs:MidiHandler::tracks_to_channels", "src/midi/mod.rs:priority", "src/midi/mod.rs:channel"]}
{"id": "C18", "title": "Voice intervals describe the sounding notes", "statement": "For every channel the computed intervals are consecutive, non-empty, in order, and the voices field of the interval covering an instant is the number of notes sounding at that instant.", "quantifier": "every matched note-on/note-off history", "why_tests_cant": "unbounded histories", "anchors": ["src/midi/mod.rs:MidiHandler::read"]}
{"id": "C19", "title": "Base-voice assignment is sound", "statement": "If base voices are found, no two channels that share a base voice ever sound at the same time.", "quantifier": "every family of channel interval lists", "why_tests_cant": "search over 8^16 assignments", "anchors": ["src/midi/mod.rs:MidiHandler::find_base_voices", "src/midi/mod.rs:MidiHandler::overlapping_interval"]}
{"id": "C20", "title": "Base-voice search is complete", "statement": "The search reports 'couldn't fit' only if no assignment of the 16 channels to the 8 voices avoids overlaps; trying only the first unused voice loses nothing.", "quantifier": "every family of channel interval lists", "why_tests_cant": "search over 8^16 assignments", "anchors": ["src/midi/mod.rs:MidiHandler::find_base_voices"]}
{"id": "C21", "title": "Channels are merged in global time order", "statement": "When channels are dealt to voices every channel event is processed exactly once, in order of time, then note-offs before others before note-ons, then channel number; the loop ends.", "quantifier": "every family of sorted channels", "why_tests_cant": "unbounded event lists", "anchors": ["src/midi/mod.rs:MidiHandler::channels_to_voices"]}
{"id": "C22", "title": "No voice ever holds two notes", "statement": "On every voice note-ons and note-offs strictly alternate, starting with a note-on, and times never decrease.", "quantifier": "every MIDI input that reads successfully", "why_tests_cant": "depends on unbounded histories of 16 interacting channels", "anchors": ["src/midi/mod.rs:MidiHandler::channels_to_voices"]}
{"id": "C23", "title": "A file that reads successfully never needs two notes on one voice later", "statement": "After MidiHandler::read succeeds, converting any of its voices never fails with 'More than one voice needed'.", "quantifier": "every MIDI input", "why_tests_cant": "cross-module invariant over unbounded histories", "anchors": ["src/midi/mod.rs:MidiHandler::channels_to_voices", "src/nspc/track.rs:Track::new", "src/nspc/mod.rs:Song::from_midi"]}
{"id": "C24", "title": "No note is lost or invented", "statement": "Every note-on with non-zero velocity appears as exactly one note-on on exactly one voice at the same time with the same velocity (and same pitch, or the snare pitch for notes 38/40 of channel 10), and no other note-ons appear on any voice.", "quantifier": "every MIDI input that reads successfully", "why_tests_cant": "unbounded histories", "anchors": ["src/midi/mod.rs:MidiHandler::channels_to_voices"]}
{"id": "C25", "title": "Result does not depend on hash-map iteration order", "statement": "Dealing channels to voices gives the same voices whatever order the hash map enumerates the sounding notes in, so the tool is deterministic.", "quantifier": "every MIDI input and every enumeration order", "why_tests_cant": "std HashMap order is random per run; tests see a few orders", "anchors": ["src/midi/mod.rs:MidiHandler::channels_to_voices"]}
{"id": "C26", "title": "A velocity-0 note-on is a note-off", "statement": "Replacing any note-off by a note-on of velocity 0 leaves the resulting song unchanged.", "quantifier": "every MIDI input and every event replaced", "why_tests_cant": "unbounded histories; either encoding can occur at any event", "anchors": ["src/midi/mod.rs:MidiHandler::channels_to_voices", "src/midi/mod.rs:priority", "src/nspc/track.rs:Track::new"]}
{"id": "C27", "title": "Every note plays with its channel's instrument", "statement": "When a note of a channel starts on a voice, the last program change on that voice is the last program change of that channel.", "quantifier": "every MIDI input that reads successfully", "why_tests_cant": "depends on how 16 channels share 8 voices over time", "anchors": ["src/midi/mod.rs:MidiHandler::channels_to_voices"]}
{"id": "C28", "title": "Percussion notes select the drum instrument", "statement": "Every note of channel 10 plays with the snare instrument for notes 38 and 40 and the cymbal instrument otherwise.", "quantifier": "every MIDI input that reads successfully", "why_tests_cant": "depends on histories", "anchors": ["src/midi/mod.rs:MidiHandler::channels_to_voices"]}
{"id": "C29", "title": "Tempo and system events reach voice 0 in order", "statement": "All set-tempo and sysex events of the file, and no other meta events, are delivered to voice 0, in time order; no other voice receives any.", "quantifier": "every MIDI input that reads successfully", "why_tests_cant": "unbounded histories", "anchors": ["src/midi/mod.rs:MidiHandler::channels_to_voices"]}
{"id": "C30", "title": "Tempo conversion is monotone, bounded and accurate", "statement": "The emitted tempo is a byte and never decreases when the beat gets shorter (for a fixed tempo factor). If it fits a byte it is the tempo in beats per minute times the factor, up to rounding the tempo up to whole beats per minute, the product down, and 1/1000.", "quantifier": "all 2^24 tempo values and all tempo factors", "why_tests_cant": "f32 rounding at every value", "anchors": ["src/nspc/track.rs:Track::new"]}
{"id": "C31", "title": "Loop extraction is reversible", "statement": "Extracting a sequence at locations where the track really contains the stated number of consecutive copies gives tracks that, with CallLoops expanded, are the original tracks; other subroutines are untouched.", "quantifier": "every track set, sequence and list of true, ordered, disjoint locations", "why_tests_cant": "unbounded", "anchors": ["src/nspc/mod.rs:Song::extract_sequence"]}
{"id": "C32", "title": "Candidate sequences really occur where claimed", "statement": "Every candidate sequence reported for a set of tracks occurs, command for command, at each of its locations; locations are ordered and never overlap.", "quantifier": "every set of tracks", "why_tests_cant": "suffix-tree edge splitting over unbounded tracks", "anchors": ["src/nspc/seqtree.rs:SeqTree::add_commands", "src/nspc/seqtree.rs:SeqTree::best_sequence", "src/nspc/seqtree.rs:SeqTree::consolidate_locations"]}
{"id": "C33", "title": "Loop optimisation preserves the song", "statement": "Expanding all CallLoops of an optimised song gives back the unoptimised command lists.", "quantifier": "every set of tracks", "why_tests_cant": "repeat counting depends on order of insertion in the suffix tree", "anchors": ["src/nspc/mod.rs:Song::optimize_call_loops", "src/nspc/seqtree.rs:add_location"]}
{"id": "C34", "title": "Loop optimisation terminates and never grows the song", "statement": "Optimisation stops for every song; each round strictly reduces the number of top-level commands and the total number of commands.", "quantifier": "every set of tracks", "why_tests_cant": "termination over unbounded inputs", "anchors": ["src/nspc/mod.rs:Song::optimize_call_loops", "src/nspc/seqtree.rs:SeqTree::best_sequence"]}
{"id": "C35", "title": "Loops are one level deep and well targeted", "statement": "In an optimised song subroutine tracks contain no CallLoop and no PitchSlide, every CallLoop names an existing subroutine track with count at least 1, and no subroutine begins with a tie.", "quantifier": "every set of tracks without CallLoops", "why_tests_cant": "unbounded", "anchors": ["src/nspc/seqtree.rs:SeqTree::add_commands", "src/nspc/mod.rs:Song::extract_sequence", "src/nspc/command.rs:call_loop_eligible", "src/nspc/command.rs:can_be_first_in_call_loop"]}
{"id": "C36", "title": "SNES address translation is the LoROM map", "statement": "For every bank and offset, the file position computed is bank*0x8000 + offset mod 0x8000; it is one-to-one on the ROM half of the banks.", "quantifier": "all 2^24 SNES addresses", "why_tests_cant": "exhaustive domain", "anchors": ["src/rom/mod.rs:snes_to_pc_addr", "src/rom/mod.rs:snes_bytes_to_pc_addr"]}
{"id": "C37", "title": "Pointer and chunk-header bytes round-trip", "statement": "A 16-bit address split into bytes and re-read is the same address; a chunk header written and re-read is the same chunk; larger values are exactly the ones that do not survive.", "quantifier": "all addresses, lengths and positions", "why_tests_cant": "exhaustive domain", "anchors": ["src/rom/mod.rs:addr_to_bytes", "src/rom/mod.rs:Chunk::load", "src/rom/mod.rs:Chunk::write_header"]}
{"id": "C38", "title": "Chunk search terminates on every ROM and finds the song chunk", "statement": "For every ROM image the chunk walk stops (with a result, an error, or an out-of-range panic); when it succeeds, the base chunk is the last chunk in the list addressed to ARAM D000 and the overflow chunk is the one after it.", "quantifier": "every byte string as ROM", "why_tests_cant": "unbounded images, including hostile ones", "anchors": ["src/rom/mod.rs:write_bank"]}
{"id": "C39", "title": "The ROM never changes size", "statement": "Building a ROM leaves the image length unchanged.", "quantifier": "every ROM, manifest and song set", "why_tests_cant": "unbounded inputs", "anchors": ["src/rom/mod.rs:write_bank", "src/rom/mod.rs:write"]}
{"id": "C40", "title": "Only the song chunks are modified", "statement": "Building a ROM changes no byte outside the base and overflow song chunks' data of the three banks; in particular chunk headers, pointers and all other game data survive.", "quantifier": "every ROM, manifest and song set for which the build succeeds", "why_tests_cant": "size- and layout-dependent corner cases", "anchors": ["src/rom/mod.rs:write_bank"]}
{"id": "C41", "title": "Following the pointers leads to the song", "statement": "After a successful build, following the song table entry, the part list, the part's track pointers and each CallLoop pointer in ARAM space leads to exactly the encoded bytes of that song's tracks, for every song of the bank, with the loop marker pointing back to the song when it loops and a terminator otherwise.", "quantifier": "every bank, any number of songs and tracks", "why_tests_cant": "later songs could overwrite earlier ones at any layout", "anchors": ["src/rom/mod.rs:write_bank"]}
{"id": "C42", "title": "A failing build leaves the ROM file untouched", "statement": "If any song fails to convert or does not fit, or a panic occurs while building, the ROM file on disk is byte-for-byte unchanged.", "quantifier": "every failure point", "why_tests_cant": "every possible failing song and crash point before the final write", "anchors": ["src/rom/mod.rs:write"]}
{"id": "C43", "title": "Building twice is the same as building once", "statement": "Running the same build on the output of a successful build gives the same ROM again.", "quantifier": "every ROM, manifest and song set", "why_tests_cant": "unbounded inputs", "anchors": ["src/rom/mod.rs:write", "src/rom/mod.rs:write_bank"]}
{"id": "C44", "title": "The fit check is exact", "statement": "A build fails with 'does not fit' only if some song really cannot be placed after the previous data in the overflow chunk, and when it succeeds all song data lies inside the two chunks.", "quantifier": "every layout", "why_tests_cant": "boundary conditions at every size", "anchors": ["src/rom/mod.rs:write_bank"]}
{"id": "C45", "title": "Fake ROMs contain no game data but the same layout", "statement": "gen_fake_rom outputs an image of the same length in which every byte is either zero or part of the bank pointers/chunk headers and then equal to the original; walking its chunks gives the same chunks as the original; doing it again changes nothing.", "quantifier": "every ROM image", "why_tests_cant": "unbounded images", "anchors": ["src/rom/mod.rs:gen_fake_rom"]}
{"id": "C46", "title": "Manifest songs come out complete and in game order", "statement": "A parsed manifest always has 15, 16 and 3 songs in the game's fixed order whatever order the JSON keys are in; missing tempoAdjust/loop take the defaults 0.2/true; relative inputs are resolved against the manifest's directory.", "quantifier": "every JSON manifest", "why_tests_cant": "unbounded JSON documents", "anchors": ["src/manifest/mod.rs:Manifest::new", "src/manifest/mod.rs:Bank::new", "src/manifest/mod.rs:Song::new"]}
{"id": "C47", "title": "file_select only replaces the file-select song", "statement": "The file_select manifest gives music to exactly the slot named 'File Select' in the game order and silence, without looping, to all 33 others; all_overworld gives the song to all 34 slots; both have the same bank sizes as a parsed manifest.", "quantifier": "every song path", "why_tests_cant": "finite table, any path", "anchors": ["src/manifest/mod.rs:Manifest::file_select", "src/manifest/mod.rs:Manifest::single_song", "src/manifest/mod.rs:OVERWORLD_SONGS"]}
{"id": "C48", "title": "Song JSON round-trips", "statement": "Reading back the JSON written for a song gives the same song.", "quantifier": "every song", "why_tests_cant": "unbounded songs and all command kinds", "anchors": ["src/nspc/mod.rs:Song::write_to_json", "src/nspc/mod.rs:Song::from_json", "src/nspc/command.rs:Command"]}
{"id": "C49", "title": "Empty songs are silent", "statement": "A slot without input gets a song whose part has no track pointers at all (all eight zero) and no track data.", "quantifier": "every position of such a slot in a bank whose songs fit its chunks", "why_tests_cant": "position dependent", "anchors": ["src/nspc/mod.rs:Song::empty", "src/nspc/mod.rs:Song::write_track", "src/rom/mod.rs:write_bank"]}
{"id": "C50", "title": "Preambles go to the right tracks", "statement": "The first track of a part starts with percussion base, master volume and channel volume; the other part tracks with channel volume; subroutine tracks and empty tracks have no preamble.", "quantifier": "every song", "why_tests_cant": "depends on part structure", "anchors": ["src/nspc/mod.rs:Song::write_track"]}
{"id": "C51", "title": "Bank address options are parsed as three hex numbers", "statement": "Three bank addresses given on the command line are read as hexadecimal 32-bit values in order; any malformed one fails the run before anything is touched; absent, the defaults are used.", "quantifier": "every argument string", "why_tests_cant": "unbounded strings", "anchors": ["src/lib.rs:read_bank_addrs", "src/lib.rs:run"]}
{"id": "C52", "title": "Portamento slides fit the note", "statement": "A pitch slide derived from the previous command has delay + min(time, length) equal to that command's length, never underflows, and targets the pitch of the new note; rests never slide.", "quantifier": "every command and slide time", "why_tests_cant": "all operand combinations", "anchors": ["src/nspc/command.rs:ParameterizedCommand::create_pitch_slide", "src/nspc/track.rs:Track::new"]}
{"id": "C53", "title": "A note is ended by its own note-off", "statement": "On every voice the event that ends a note has the same channel and the same note number as the event that started it (the converter takes the pitch from the ending event, so otherwise the note would sound at the wrong pitch).", "quantifier": "every MIDI input that reads successfully", "why_tests_cant": "unbounded histories of 16 interacting channels", "anchors": ["src/midi/mod.rs:MidiHandler::channels_to_voices", "src/nspc/track.rs:Track::new"]}
{"id": "C54", "title": "The sound engine plays the songs of a built ROM", "statement": "After a successful build, with a bank's chunks uploaded to the sound memory, the sound engine (song table, part list, eight channels, one level of subroutines), started on the song of any slot, plays in every channel the notes, ties, rests and commands of the song's track with the called subroutines carried out, for the durations asked for; channels without a track are silent; behind the part the song returns to its start for ever if the slot loops and stops otherwise.", "quantifier": "every ROM, set of jobs, slot, playable song, earlier contents of the sound memory and initial registers", "why_tests_cant": "the integration tests compare ROM images byte by byte; nothing plays them", "anchors": ["src/rom/mod.rs:write_bank", "src/nspc/mod.rs:Song::write_track", "src/nspc/command.rs:ParameterizedCommand::write"]}
{"id": "C55", "title": "Converted songs can be stored and played", "statement": "A song converted from MIDI data, with or without loop optimisation, can always be stored: its part has at most eight tracks, parts and calls name tracks that exist, and every track can be written. If its durations, velocities and notes are in the engine's ranges, the engine can play it: every track is encodable wherever it is called from, calls reset the duration, have a count of at least 1 and lead to non-empty subroutines without calls. Loop optimisation brings no value out of range, and well-formed voices with notes 24..95 are in range except for notes fused to more than 7F units.", "quantifier": "every MIDI handler state, tempo factor and both settings of loop optimisation", "why_tests_cant": "unbounded set of MIDI files; the tests compare a few fixed songs", "anchors": ["src/nspc/mod.rs:Song::from_midi", "src/nspc/mod.rs:Song::write_track", "src/nspc/track.rs:Track::new"]}
{"id": "C56", "title": "From MIDI notes to sound", "statement": "When a song converted from MIDI data (with or without loop optimisation) is built into a ROM, its bank uploaded to the sound memory and the song started, the engine plays in one channel per voice exactly the MIDI notes of that voice, in order, each with the right pitch byte and starting less than one unit (1/24 beat) from its note-on; all channels last until the end of the MIDI song within one unit; channels of unused voices are silent; looping songs start again.", "quantifier": "every converted song, ROM, slot and memory contents", "why_tests_cant": "crosses all stages of the program; no test plays a song, and the inputs are unbounded", "anchors": ["src/midi/mod.rs:MidiHandler", "src/nspc/track.rs:Track::new", "src/nspc/mod.rs:Song::from_midi", "src/rom/mod.rs:write_bank"]}
{"id": "C57", "title": "Verbose output changes nothing but a panic", "statement": "With --verbose a run has the same outcome and leaves the same files as without, for every subcommand, or it panics and leaves all files as they were. If the song chunk of every bank reaches at least up to its first song's address there is no difference at all; otherwise the panic does happen.", "quantifier": "every subcommand, file system, manifest, ROM and converter", "why_tests_cant": "two runs are compared, for unboundedly many inputs; the tests never pass verbose", "anchors": ["src/rom/mod.rs:write_bank", "src/lib.rs:run"]}
{"id": "C58", "title": "Unused table entries and free space", "statement": "After a build that fits, in every bank: song table entries of earlier banks' songs are unchanged, entries behind the bank's last song up to the first song's data are zero (the engine sees: no song), and the free bytes behind the stored data are unchanged in the song chunk and in the overflow chunk.", "quantifier": "every ROM image, manifest and converter whose songs fit", "why_tests_cant": "every byte of the unused areas of any ROM; the tests do not look at the ROM", "anchors": ["src/rom/mod.rs:write_bank", "src/rom/mod.rs:write"]}
{"id": "C59", "title": "What a run depends on", "statement": "Outcome and written file of a run do not depend on the enumeration order of hash maps, and depend only on the contents of the files named by the arguments and by the manifest.", "quantifier": "every subcommand, pair of file systems and pair of enumeration orders", "why_tests_cant": "non-interference: compares all pairs of runs; the hash order of a process cannot be chosen in a test", "anchors": ["src/lib.rs:run", "src/midi/mod.rs:MidiHandler"]}
{"id": "C60", "title": "Detour through JSON", "statement": "After midi2json song.mid song.json, building with song.json in place of song.mid (file_select, all_overworld, or a manifest that gives the song the default tempo) has the same outcome and leaves the same ROM as building with song.mid.", "quantifier": "every MIDI file, ROM, manifest and option", "why_tests_cant": "relates two programs runs on unbounded inputs; no test builds from JSON", "anchors": ["src/lib.rs:song_from_midi", "src/nspc/mod.rs:Song::from_json", "src/nspc/mod.rs:Song::write_to_json", "src/lib.rs:run"]}
{"id": "C61", "title": "JSON song files, byte for byte", "statement": "The pretty-printed JSON text of a song, read by a JSON reader with white space, nesting, strings and 64-bit integers, gives the same song; different songs have different texts. White space around the text makes no difference, and a file with anything else behind the text is refused.", "quantifier": "every song whose track numbers are usize values", "why_tests_cant": "unbounded songs, all command kinds and operands", "anchors": ["src/nspc/mod.rs:Song::from_json", "src/nspc/mod.rs:Song::write_to_json", "src/nspc/command.rs:Command"]}
{"id": "C62", "title": "The optimiser leaves no repeats behind", "statement": "After loop extraction no sequence of four or more commands that could be a loop occurs twice in the top-level tracks. (False as it stands: a repeat inside one track can be missed when a longer sequence overlaps itself. It does hold for repeats in different tracks and, if no sequence of four or more commands overlaps itself, within a track, for sequences without ties.)", "quantifier": "every list of tracks and every sequence", "why_tests_cant": "completeness of a search over all sequences of unbounded tracks; the tests only look at a few tracks with known results", "anchors": ["src/nspc/seqtree.rs:SeqTree::add_commands", "src/nspc/seqtree.rs:SeqTree::best_sequence", "src/nspc/mod.rs:Song::optimize_call_loops"]}
{"id": "C63", "title": "Files whose content makes sense are converted", "statement": "A file that can be read, whose data bytes are in the MIDI range, in which every note lasts at least 1/24 beat and no note is started twice in one instant, is converted without a failure: the dealing of notes to voices creates no voice with a shorter note, a note end without a start or a value out of range.", "quantifier": "every sequence of parser callbacks, every enumeration order of maps, every resolution and tempo factor", "why_tests_cant": "the panics of the conversion depend on how notes of all channels happen to be dealt to voices; no finite set of files covers the combinations", "anchors": ["src/midi/mod.rs:MidiHandler::read", "src/nspc/track.rs:Track::new", "src/nspc/mod.rs:Song::from_midi"]}
{"id": "C64", "title": "Every note of a MIDI file is heard from the ROM, once, at the right time and pitch", "statement": "If a MIDI file has sane content (C63) and is tidy (every note is ended, a channel changes its program when none of its notes sounds and none of a channel that never sounds together with it, notes are 24 to 95, snare drums are ended by note-off messages before they are struck again), then the song read from it, converted, built into a ROM, uploaded to the sound processor and played by the engine sounds exactly the notes of the file: there is a one-to-one correspondence between the notes of the file and the notes heard in the eight channels such that the pitch byte is the note number plus 0x68 (note 68 for channel-10 notes 38 and 40) and the start is less than one unit (1/24 beat) from the start in the file; every channel that plays lasts as long as the file, less than one unit more or less.", "quantifier": "All callback sequences describing sane, tidy files that can be read, with a resolution that is a multiple of 24 and at most about 1354 beats; all tempo factors; with and without loop extraction (repeat counts at most 2); all ROMs, banks and slots for which the build of the bank is ready (C41); all contents of sound memory before the upload; all register values.", "why_tests_cant": "The statement goes through every stage of the tool, and each stage has unbounded input; a test compares one file with one hand-written expectation and cannot show that no note is lost, doubled or moved for any other file.", "anchors": ["src/midi/mod.rs:MidiHandler::read", "src/midi/mod.rs:MidiHandler::channels_to_voices", "src/nspc/mod.rs:Song::from_midi", "src/nspc/track.rs:Track::new", "src/nspc/mod.rs:Song::write_track", "src/rom/mod.rs:write_bank"]}
{"id": "C65", "title": "Instrument, volume and tempo changes are made in order, with the right value, and on time", "statement": "The instrument, volume and tempo commands of a converted voice are those its events ask for, in the same order: the table's instrument for a program change (the program itself on channel 10), twice the value of controller 7, and the tempo byte of C30 for a set-tempo message; after building and uploading, the engine meets the same commands in the voice's channel, after one volume command of the preamble. All tempo changes of the file are in the first voice, in time order. An instrument change happens less than one unit (1/24 beat) from its message. (Wanted also for volume and tempo changes; the code makes these at the latest start or end of a note or program change of the voice before the message, never later.)", "quantifier": "All event lists of a well-formed voice with program changes between notes; all resolutions (deviation below one unit for multiples of 24); all tempo factors; for the engine all songs, ROMs and sound memories as in C56.", "why_tests_cant": "Where a command lands depends on the whole history of notes and rests of the voice before it; a test fixes one history.", "anchors": ["src/nspc/track.rs:Track::new", "src/nspc/mod.rs:Song::from_midi", "src/midi/mod.rs:MidiHandler::channels_to_voices"]}
{"id": "C66", "title": "From the command line to sound", "statement": "When one of the building subcommands is run with a ROM, bank addresses and songs that fit, the run succeeds (if all indices in the songs are valid and the chunks lie inside the ROM), changes no file but the ROM, keeps the ROM's size, and if a song slot's input is a tidy MIDI file, then after the upload of the slot's bank the sound engine plays under the slot's song number exactly the notes of that file, each with the right pitch and starting less than one unit (1/24 beat) from its start in the file; then the song goes back to its start or stops, as the slot says.", "quantifier": "All file systems, command lines with build-rom, all-overworld or file-select, optimisation and verbose settings, ROMs, manifests and slots; all sound memories and register states before the upload; resolutions that are a multiple of 24.", "why_tests_cant": "A test runs one command line on one ROM, and looks at the file, not at what the console would play.", "anchors": ["src/lib.rs:run", "src/lib.rs:converter", "src/lib.rs:song_from_midi", "src/midi/mod.rs:MidiHandler::read", "src/nspc/mod.rs:Song::from_midi", "src/rom/mod.rs:write"]}
{"id": "C67", "title": "How notes are struck: loudness, instrument and volume", "statement": "In the channel of each voice the engine strikes exactly the notes of the voice, in order, each with its pitch byte, an eighth of its MIDI velocity, the instrument (from the table) of the last program change before it, and twice the value of the last controller-7 message before it (C8, from the preamble, if there was none). (Wanted for all inputs; the code does it without loop optimisation for velocities of at least 8 and changes made between notes. A change during a note applies to the whole note; a velocity below 8 is replaced by that of the note before; with loop optimisation a note after a subroutine may get the subroutine's velocity, but never another pitch, instrument or volume.)", "quantifier": "All voices that can be converted and have no portamento; for the engine all songs, ROMs, sound memories and register states as in C54.", "why_tests_cant": "The writer leaves out lengths and velocities it believes unchanged; which note is affected depends on everything before it, across subroutine calls.", "anchors": ["src/nspc/track.rs:Track::new", "src/nspc/mod.rs:Song::write_track", "src/nspc/mod.rs:Song::from_midi"]}
{"id": "C68", "title": "From the command line to music: every note of the file is heard with its pitch, loudness and instrument", "statement": "For a tidy MIDI file read, converted and built into a ROM, the engine playing the song's number sounds, for every note of the file, exactly one note with the same pitch, the instrument its channel has selected (snare or cymbal on channel 10), an eighth of its velocity, and a start less than one 1/24 beat from the right one; and it sounds nothing else. (Wanted for all files; the code does it under the restrictions of C64, without portamento, and when channels sharing a voice do not select programs over each other; velocities additionally need C67's conditions.)", "quantifier": "All MIDI files (callback sequences), command lines, ROM images, sound memories and register states meeting the assumptions; every enumeration order of the busy voices.", "why_tests_cant": "Whether a note gets its instrument depends on the polyphony of all channels at every earlier moment and on the order in which voices are handed out; tests can sample only a few files, and none of the repository's tests plays a ROM.", "anchors": ["src/midi/mod.rs:MidiHandler::read", "src/midi/mod.rs:MidiHandler::channels_to_voices", "src/nspc/track.rs:Track::new", "src/nspc/mod.rs:Song::from_midi", "src/nspc/mod.rs:Song::write_track", "src/rom/mod.rs:write_bank", "src/lib.rs:run"]}
{"id": "C69", "title": "Every note is played with the volume its channel has set", "statement": "When the engine plays a song made from a MIDI file, every note of a channel sounds with a channel volume of twice the last controller-7 value that channel has set up to the start of the note, or 200 if it has set none: on its own voice, on a voice it borrows for a chord, and on a voice it shares. (Wanted for all files; the code does it on base voices when the channels sharing the voice set no volumes, and on borrowed voices when the channel sets its volume before its notes only. Two channels sharing a voice otherwise overwrite each other's volumes, and a volume set later does not reach a borrowed voice that is idle at that moment.)", "quantifier": "All MIDI files (callback sequences) that are read successfully, all channels, voices and notes; every enumeration order of the busy voices; for what is heard, all builds, ROMs, sound memories and register states of C68.", "why_tests_cant": "Whether a volume reaches a voice depends on which voices are busy at that instant and on which channel last used the voice, that is, on the whole history of the file.", "anchors": ["src/midi/mod.rs:MidiHandler::channels_to_voices", "src/midi/mod.rs:MidiHandler::read", "src/nspc/track.rs:Track::new", "src/nspc/mod.rs:Song::from_midi"]}
{"id": "C70", "title": "Music of at most eight voices is accepted", "statement": "Every well-formed MIDI file (format 0 or 1, note times that fit, every note ended, notes of one key not overlapping) that never holds more than eight notes at once is read successfully, and converted to a song if its contents are sane and it is not too long. (Wanted for all such files; false: each channel reserves a voice throughout its activity, and voices are not reassigned. The code reads every file with at most eight playing channels in which the notes held by the chord-playing channels number, at every start of a note, at most nine minus the number of playing channels; and every file without chords whose channels can be shared out over eight voices.)", "quantifier": "All MIDI files (callback sequences), every enumeration order of the busy voices, all tempo factors.", "why_tests_cant": "Acceptance depends on the polyphony of all channels at every instant and on a backtracking search; a test tries one file at a time.", "anchors": ["src/midi/mod.rs:MidiHandler::read", "src/midi/mod.rs:MidiHandler::find_base_voices", "src/midi/mod.rs:MidiHandler::channels_to_voices", "src/nspc/mod.rs:Song::from_midi"]}
{"id": "C71", "title": "Notes last as long as in the file", "statement": "When the engine plays a song built from a MIDI file, every note is released where the file ends it: less than one unit (1/24 beat) plus an eighth of the note's last piece (the note command, or its last tie) away, if a sustain of s lets a note sound for between s and s+1 eighths of a piece, as the converter assumes. The note's commands add up to its length rounded up to units, possibly prolonged by a rest, and the sustain is the exact number of eighths at which the note ends, or 7 for seven eighths and more. (Wanted for all files; proved under the conditions of C68, sustains without loop optimisation. With the gate table documented for N-SPC engines, which is not in steps of eighths, notes are released later.)", "quantifier": "All MIDI files (callback sequences), command lines, ROM images, sound memories, register states and gate tables meeting the assumptions; every enumeration order of the busy voices.", "why_tests_cant": "The length of a heard note depends on the voice it is dealt to, on rounding of all earlier durations, on splitting into ties and on the sustain pass; tests in the repository check the sustain of single pairs of commands only.", "anchors": ["src/midi/mod.rs:MidiHandler::channels_to_voices", "src/nspc/track.rs:Track::new", "src/nspc/command.rs:ParameterizedCommand::set_sustain", "src/nspc/mod.rs:Song::from_midi", "src/nspc/mod.rs:Song::write_track", "src/rom/mod.rs:write_bank", "src/lib.rs:run"]}
{"id": "C72", "title": "A build into a fake ROM shows what a build into the real ROM does", "statement": "Let gen_fake_rom make a fake from a ROM. Writing the same songs to a bank of the fake and to the same bank of the ROM has the same outcome: the same error, or success with the same bytes written to the same places and nothing else changed. The same holds for a build of all banks, if no song data lies over pointers or chunk headers. So a build tested with the fake ROM (as the repository's test does) tells about the ROM. (Wanted for all ROMs; false for a chunk list whose end mark names D000, because the chunk search goes on behind it.)", "quantifier": "All ROM images with a fake, bank addresses below 2^24, songs, converters, first song addresses, verbose or not.", "why_tests_cant": "The test in the repository builds one manifest into one fake ROM; nothing compares it with the ROM the fake was made from, which cannot be in the repository.", "anchors": ["src/rom/mod.rs:gen_fake_rom", "src/rom/mod.rs:write_bank", "src/rom/mod.rs:write", "src/rom/mod.rs:Chunk::load"]}
{"id": "C73", "title": "What a composer must do for a file to be heard as written", "statement": "Let a MIDI file have a tick count per beat divisible by 24 and not be too long; let it come in pairs of note starts and ends, use few voices (C70), be tidy and sane (C64) and have no portamento; let any two channels that play sound together somewhere; let only channels that play select programs and volumes, channels with chords do so before their notes, and every channel set programs and volumes between its own notes; let the drum channel select no program and not use key 68. Then the file is read and converted without loop optimisation, and the ROM built from it plays one tone for every note of the file and no other: with the pitch, instrument, volume, start and end that the file says, and its velocity if all are at least 8. One more condition, because of C07: no note can be fused with a rest into one of more than 127 units; this holds for notes of up to 15, 19 to 31 and some other numbers of units of 1/24 beat, or else must be seen from the result. (Wanted for all files; false for others by C07, C28, C54, C67, C69, C70.)", "quantifier": "All MIDI files meeting conditions on the file alone, enumeration orders, tempo factors, ROMs, banks, song numbers, engine registers; all runs of the command line tool without loop optimisation.", "why_tests_cant": "Tests can listen to some files; which conditions make every file play as written is a question about all files.", "anchors": ["src/midi/mod.rs:MidiHandler::read", "src/nspc/track.rs:Track::new", "src/nspc/mod.rs:Song::from_midi", "src/rom/mod.rs:write_bank", "src/lib.rs:run"]}
{"id": "C74", "title": "The published manifest schema tells which manifests the tool accepts and what it does with them", "statement": "Every document that is valid under `manifest.schema.json` is accepted as a manifest: 15, 16 and 3 slots, each filled from its own entry, the tempo and loop flag given there taken over (whole numbers below 2^53). An input named `….mid` is read as a MIDI file, one named `….json` as a song in JSON. (Wanted also: the documented default is the default; a valid input name is read as what it looks like; only valid documents are accepted. False: the documented default tempo factor is 0.3 and the real one 0.2; `tune.midi` is a valid input and is read as JSON; `\"loop\": \"no\"` is not valid but accepted, and loops.)", "quantifier": "All JSON documents (any nesting, duplicate and unknown keys), all directories; all input names for the choice of the reader.", "why_tests_cant": "Tests can try some manifests; that a schema and a program agree is a statement about every document.", "anchors": ["src/manifest/mod.rs:Manifest::new", "src/manifest/mod.rs:Song::new", "src/lib.rs:converter"]}
{"id": "C75", "title": "The resolution of a MIDI file does not matter", "statement": "Let the tick count per beat of a MIDI file be a positive multiple of 24. Writing the file with a finer resolution (tick count and all times multiplied by the same number) changes nothing: reading and converting gives the same song or the same failure, with or without loop optimisation, and every command of the tool has the same outcome and leaves the same files. This is for files without portamento, and while times are short enough for exact arithmetic (below 8388600 ticks, C08). (Wanted for all resolutions and files; false when the tick count is not a multiple of 24, because note ends are rounded to whole ticks, and false with portamento, because the portamento time is taken to be in ticks.)", "quantifier": "All MIDI files meeting the conditions, all factors, enumeration orders, tempo factors, with and without optimisation; all file systems and all commands.", "why_tests_cant": "Tests can compare some files in two resolutions; a relation between runs on infinitely many pairs of files needs proof.", "anchors": ["src/midi/mod.rs:MidiHandler::read", "src/nspc/track.rs:Track::new", "src/nspc/track.rs:Track::get_duration", "src/nspc/mod.rs:Song::from_midi", "src/lib.rs:run"]}
{"id": "C76", "title": "A transposed file gives the transposed song", "statement": "Move all notes of a MIDI file without drum notes by a number of semitones such that they stay in the MIDI range 0 to 127. Then the result is the song of the original file with every note and every target of a pitch slide moved by the same number of semitones and nothing else changed, in particular the same voices, lengths, loops and track order; or the same failure. With or without loop optimisation, with portamento. Each track of the transposed song takes as many bytes as the original and has its calls at the same places.", "quantifier": "All MIDI files without notes on the drum channel, all transpositions up and down that stay in range, enumeration orders, tempo factors, with and without optimisation.", "why_tests_cant": "A relation between runs on all pairs of files; hash maps keyed by note numbers and comparisons of commands in the loop search could each break it for some pair only.", "anchors": ["src/midi/mod.rs:MidiHandler::read", "src/nspc/track.rs:Track::new", "src/nspc/mod.rs:Song::from_midi", "src/nspc/mod.rs:Song::optimize_call_loops", "src/nspc/track.rs:Track::write"]}
{"id": "C77", "title": "Loop optimisation looks only at which commands are equal", "statement": "Rename the commands of the tracks so that different commands stay different and ties, pitch slides and loop calls stay what they are. Then optimising the renamed tracks gives the renamed result of optimising the tracks: the same sequences are found, in the same order, with the same counts, or the search fails in the same way.", "quantifier": "All lists of tracks, all numbers of top-level tracks, all such renamings.", "why_tests_cant": "It excludes any dependence of the greedy search on what the commands are, for all inputs.", "anchors": ["src/nspc/mod.rs:Song::optimize_call_loops", "src/nspc/mod.rs:Song::extract_sequence", "src/nspc/seqtree.rs:SeqTree::add_commands"]}
{"id": "C78", "title": "Only the music of a MIDI file matters, not its layout in tracks", "statement": "Two readable files have the same music if they have the same resolution, their last channel messages come at the same time, and at every instant every channel has the same ends of notes, the same program changes, volume and portamento controllers and tempos, and the same starts of notes, each kind in the same order. Two files with the same music give the same song or the same failure, whatever tracks the messages are in, whatever the delta times, note-off velocities and further messages, with or without loop optimisation; and the whole program behaves the same on them, for every command. In particular a file gives the same song when it is rearranged to have one track per channel, and when its tracks are put in another order, provided no two tracks have messages of the same kind for the same channel at the same instant.", "quantifier": "All pairs of readable files with the same music; all readable files; all track lists that do not compete and all permutations; all enumeration orders, tempo factors, commands, with and without optimisation.", "why_tests_cant": "It relates runs on all pairs of files: any hidden use of the track number, of the position in the file or of an irrelevant message would break it for some pair only.", "anchors": ["src/midi/mod.rs:MidiHandler::read", "src/midi/mod.rs:MidiHandler::tracks_to_channels", "src/nspc/track.rs:Track::new", "src/nspc/mod.rs:Song::from_midi", "src/lib.rs:run"]}
{"id": "C79", "title": "Messages the converter has no use for can be removed", "statement": "Remove from a readable MIDI file any of its texts, lyrics, signatures, system exclusive messages, pitch bends, aftertouch messages and controllers other than volume and portamento, keeping the times of the rest. If a channel message remains that is not earlier than the removed channel messages, the song or the failure is the same. System messages other than tempo can always be removed.", "quantifier": "All readable files, all choices of messages to remove that fulfil the condition, all enumeration orders, tempo factors, with and without optimisation.", "why_tests_cant": "All files and all selections of messages; the effect of a message that is not used (for example on the merged order of messages or on the length of the song) shows only in special combinations.", "anchors": ["src/midi/mod.rs:MidiHandler::read", "src/midi/mod.rs:MidiHandler::tracks_to_channels", "src/nspc/track.rs:Track::new", "src/nspc/mod.rs:Song::from_midi"]}
{"id": "C80", "title": "The messages printed under verbose are true", "statement": "With verbose the builder prints, for each bank, where its song chunk is, its first song number and the chunk's length, and for each song its ROM and ARAM address, its entry of the song table, the places of its tracks, of its part, of the part's pointers and of the operands of its subroutine calls, and its size. After a successful build these messages are true of the finished ROM and in the order of the manifest; printing does not change what is built, and without verbose nothing is printed. The name shown for a song is the last part of its path; a song path without a file name panics.", "quantifier": "All converters, banks, song lists, ROMs and file names; one bank and whole builds of banks that fit and do not overlap. Sizes only of songs within one chunk.", "why_tests_cant": "The messages are printed at many points of a computation that switches chunks and patches bytes later; a test would have to parse the output and know the ROM layout for every possible set of songs.", "anchors": ["src/rom/mod.rs:write_bank", "src/rom/mod.rs:write"]}
{"id": "C81", "title": "The song is heard at the file's speed, in real time", "statement": "The engine polls a 2 ms timer and adds the tempo byte to an 8-bit accumulator; each overflow begins a unit. If a tidy MIDI file sets its tempo at the start and changes it only where notes of the first voice start or end, and every tempo byte is precise up to a part e, then each note of the converted song starts, in microseconds since the start of the song, at the time the file's tempo map gives, up to a part e of that time and a small leeway (one poll, two units, three times the variation of the unit length), and all channels end as precisely. The precision of a tempo byte is (bpm*|factor - 0.2048| + 1.001)/byte. With the default factor 0.2 everything from 43 bpm on is slower than written; a file without tempo message sets no tempo at all; a tempo change at the end of a rest comes at its beginning.", "quantifier": "All tidy files, tempo maps, tempo factors, optimiser settings, banks, initial tempos and accumulators of the engine; also for every successful run of the tool that builds a ROM.", "why_tests_cant": "Real time is the result of rounding in three places (tempo bytes, durations in units, the engine's accumulator), accumulated over a whole song with arbitrary tempo maps; a test hears one song.", "anchors": ["src/nspc/track.rs:Track::new", "src/midi/mod.rs:MidiHandler::read", "src/nspc/mod.rs:Song::from_midi", "src/rom/mod.rs:write_bank", "src/lib.rs:run"]}
{"id": "C82", "title": "Earlier builds leave no trace", "statement": "Building other songs into a ROM that already holds the songs of an earlier build has the same outcome as building them into the original ROM: the same error, or an image with the same bytes except in places the second build does not touch; and the engine plays the songs of the second build. The same for two runs of the tool on one ROM file, with different manifests, options or subcommands.", "quantifier": "All ROMs, converters, song lists and options of both builds; banks in which the first build fits and does not lie over headers.", "why_tests_cant": "It relates three builds, for every pair of song sets; a trace of the first build would show only for particular sizes or addresses.", "anchors": ["src/rom/mod.rs:write", "src/rom/mod.rs:write_bank", "src/lib.rs:run"]}
{"id": "C83", "title": "Loop extraction saves space", "statement": "The song converted with loop extraction takes no more bytes in the ROM than the song converted without, and a bank that has room for the plain songs has room for the optimised ones. This is false of the code: it counts commands, and four notes of one byte each that occur twice are replaced by two calls of four bytes and a subroutine of seven; a ROM that can be built without loop extraction then cannot be built with it. It holds if every extracted sequence takes at least 37 bytes.", "quantifier": "All MIDI data with velocities up to 127, tempo factors, and banks.", "why_tests_cant": "The size of a track depends on the writer's running state (last duration, velocity and sustain) at every place a call is put; tests compare a few songs.", "anchors": ["src/nspc/mod.rs:Song::optimize_call_loops", "src/nspc/mod.rs:Song::extract_sequence", "src/nspc/seqtree.rs:SeqTree::best_sequence", "src/nspc/command.rs:ParameterizedCommand::write", "src/rom/mod.rs:write_bank"]}
{"id": "C84", "title": "Looped songs repeat exactly", "statement": "A song in a slot that loops is played over and over: the engine, following the part list in the ROM, plays the part again each time it ends, all channels end together, and every pass has the notes of the MIDI file with pitch, instrument, volume, velocity, start and end as in the first, exactly one song length later, and the same tempos; a song in a slot that does not loop is played once. This is false of the code for notes before the first program change (the second pass strikes them with the instrument left from the end), for songs whose last event is not a whole number of engine time units from the start (channels end at different times) and for tempos first set after the start. Otherwise it holds for any number of passes.", "quantifier": "All musical MIDI files of safe lengths with instruments and a whole number of units, all ROM builds that fit, all slots that loop, any number of passes, any state of the channels' registers.", "why_tests_cant": "It is about playing for ever: the registers, instruments and tempo the channels are left with after each pass, for unboundedly many passes, and the padding of every voice to the same length.", "anchors": ["src/rom/mod.rs:write_bank", "src/nspc/track.rs:Track::new", "src/nspc/mod.rs:Song::from_midi", "src/nspc/command.rs:ParameterizedCommand::write", "src/midi/mod.rs:MidiHandler::read", "src/lib.rs:run"]}
{"id": "C85", "title": "Portamento: which notes are glided to, and when the pitch moves", "statement": "A note that begins with portamento on (controller 65), right after the note before, should be glided to when it begins, in the portamento time (controllers 5 and 37). The code glides before the note begins, strikes the note if a volume, program or tempo message comes between the end of the note before and its own end, and takes only the remainder (1 to 127) of times above 127 units. What does hold, after building and uploading, of what the engine plays: a note is glided to, and not struck, exactly if portamento was on at its start, no such message came between, and there is no whole unit of silence before it; otherwise it is struck. The slide takes the portamento time at the start of the note, rounded up to units, reduced as said; it ends when the note begins, or begins with the last item of the note before if it takes longer than that; and pitch and start of every note are as in C56.", "quantifier": "All event lists of well-formed voices, resolutions that are multiples of 24, any tempo factor, with and without loop extraction, all builds that fit, all contents of sound memory and registers.", "why_tests_cant": "Whether a note is struck or glided to depends on the rests, the messages between and the rounding of the whole history of the voice; the one test with portamento fixes one history.", "anchors": ["src/nspc/track.rs:Track::new", "src/nspc/command.rs:ParameterizedCommand::create_pitch_slide", "src/nspc/command.rs:ParameterizedCommand::write", "src/nspc/mod.rs:Song::from_midi"]}
{"id": "C86", "title": "The messages of --verbose about reading and converting a MIDI file are true", "statement": "Printing does not change the outcome, and without verbose nothing is printed. With verbose every message, also of a read that fails, is true of the file: tracks are announced in order; 'voice overlaps' names an interval of an earlier channel on that voice during which both channels sound, with the number of notes of the file; 'non-overlapping voices' lists the voices the channel can share, of those still untouched only the first; voices are tried in the order listed, and the voice last tried for a channel becomes its base voice; 'base voice occupied' names a note of the file, the base voices, and held notes one of which is on the base voice; 'using' names the first voice that is no base voice and has no note, once for each note not on its channel's base voice. If the notes do not fit, the last message shows why. The sequences printed by the optimiser are the loops of the song, in order, found where the message says.", "quantifier": "All callback sequences, readable or not, all paths, all enumeration orders of hash maps, all tempo factors, with and without loop extraction.", "why_tests_cant": "No test looks at the output; the messages come from a backtracking search and from per-note state, so their truth is a statement about all histories of the search.", "anchors": ["src/midi/mod.rs:MidiHandler::read", "src/midi/mod.rs:MidiHandler::tracks_to_channels", "src/midi/mod.rs:MidiHandler::find_base_voices", "src/midi/mod.rs:MidiHandler::channels_to_voices", "src/nspc/mod.rs:Song::optimize_call_loops", "src/lib.rs:song_from_midi"]}
{"id": "C87", "title": "The tempo factor changes nothing but tempos", "statement": "Converting a file with another tempo factor (the manifest's tempo_adjust) should change nothing in the song but the values of its tempo commands: each tempo command has the tempo of the same beat of the file, at the other factor; a larger factor never gives a smaller tempo; the song takes the same room, and a file that cannot be converted fails in the same way. With loop extraction this is true only if the same beats have the same tempo at both factors; otherwise (two tempos cut off at 255, or rounded alike) the song can have other loops.", "quantifier": "All read files, all pairs of f32 factors, also zero, negative, infinite and NaN.", "why_tests_cant": "The tests use one factor; that nothing else in the conversion depends on it, and how it interacts with the search for loops, is a statement about pairs of runs.", "anchors": ["src/nspc/track.rs:Track::new", "src/nspc/mod.rs:Song::from_midi", "src/nspc/mod.rs:Song::optimize_call_loops", "src/manifest/mod.rs:Manifest::new"]}
{"id": "C88", "title": "A song takes no more space than its messages and its length account for", "statement": "A song converted from a MIDI file without loop extraction takes at most 44 bytes plus a fixed number of bytes per message of the file (14 per note with its end; 4 more on the drum channel, 4 more if the file uses portamento; 16 per volume and 32 per program message, which may be sent to eight voices; 2 per tempo; nothing for any other message) plus two bytes for every 127 units (1/24 beats) that its tracks last. So songs can be sized from the file, and songs whose bounds fit into the first song chunk of a bank, with 24 bytes each, never make a build fail for lack of space.", "quantifier": "All files that can be read and converted, all tempo factors, all enumeration orders of the note table; one voice: all event lists.", "why_tests_cant": "A bound on the output for all inputs; tests see the sizes of a few songs.", "anchors": ["src/nspc/command.rs:ParameterizedCommand::write", "src/nspc/track.rs:Track::new", "src/nspc/track.rs:Track::insert_rest", "src/midi/mod.rs:MidiHandler::read", "src/nspc/mod.rs:Song::from_midi", "src/rom/mod.rs:write_bank"]}
{"id": "C89", "title": "The command line says what is run", "statement": "Whatever clap accepts according to the declarations in main.rs is one command, and run executes exactly this command with the given paths and addresses, optimising unless --skip_optimization is given and verbose if --verbose is given: run looks arguments up only under the names they are declared with, its unwraps never fail, and bank addresses come as exactly three values, so the indexing of them never fails. Conversely every command with every combination of switches can be given. (False for one: run reads bank addresses for gen_fake_rom, but main.rs does not declare the option there, so fake ROMs are always made for the default addresses.)", "quantifier": "All argument matches that satisfy the declarations; all commands; all file systems.", "why_tests_cant": "The tests call library functions; nothing tests that main.rs and run agree about names, and clap's macro checks nothing at compile time.", "anchors": ["src/main.rs:main", "src/lib.rs:run", "src/lib.rs:read_bank_addrs", "src/rom/mod.rs:gen_fake_rom"]}
{"id": "C90", "title": "Exactly which MIDI files make the reader panic, and which it refuses", "statement": "Reading a MIDI file ends in one of three ways: it succeeds, it panics, or it is refused because the channels do not fit the voices. It panics exactly if a header states a format other than 1, or an event comes before the first track, or an event's time does not fit in 32 bits, or on some channel a note is ended (by a note-off or a note-on with velocity 0) at an instant by which more notes have been ended than were started before it. A file that does not panic is refused if no choice of one of eight voices for each channel keeps channels with the same voice from sounding at the same time; for files without chords, in which notes start and end in pairs, exactly then.", "quantifier": "All sequences of parser callbacks, all enumeration orders of the note table.", "why_tests_cant": "An equivalence over all files; the tests read a handful of files that succeed. The panics come from unsigned subtraction and addition, assert and unwrap in different functions.", "anchors": ["src/midi/mod.rs:MidiHandler::read", "src/midi/mod.rs:MidiHandler::header", "src/midi/mod.rs:MidiHandler::midi_event", "src/midi/mod.rs:MidiHandler::tracks_to_channels", "src/midi/mod.rs:MidiHandler::find_base_voices", "src/midi/mod.rs:MidiHandler::channels_to_voices"]}
{"id": "C91", "title": "An edit of a song stays local", "statement": "Build a ROM twice from the same original, with some songs edited in between (other MIDI files, tempo factors or options; as many songs in each bank). Every byte in which the two images differ lies in the song data of a bank that has an edited song, and there behind the table entries and the data of all songs before the first edited one. If all songs of the bank keep their sizes, it lies inside an edited song, and the song table does not change at all. (False if the number of songs of a bank changes, because songs are numbered through all banks; and not claimed for songs that do not fit.)", "quantifier": "All converters (in particular all MIDI files and options), ROMs, banks and songs that fit; any number of edits; all runs of the building subcommands.", "why_tests_cant": "A relation between two builds, for all pairs of song lists; the tests build nothing twice.", "anchors": ["src/rom/mod.rs:write", "src/rom/mod.rs:write_bank", "src/lib.rs:run"]}
{"id": "C92", "title": "Repeat counts stay small, and when loop extraction can panic", "statement": "For any tracks, the sequences of the tracks can be collected and listed without a failure. No location of a candidate has a count above 4, and the sequence really stands at two thirds or more of the places that are counted. Every loop of an optimised song repeats its subroutine one to four times. The search for the best sequence panics exactly when the counts of one candidate of four or more commands add up to 256 or more. So a song with fewer than 992 commands, or in which no sequence of four or more loopable commands occurs more than 170 times without overlapping, is optimised without a failure; in particular a tidy file of few messages, such as 97 notes in 200 beats, is converted with loop extraction. (That extraction never fails is false: from 256 occurrences on there are songs for which it panics.)", "quantifier": "all lists of tracks, all songs converted from MIDI data, all numbers of repeated blocks (for the panic)", "why_tests_cant": "the panic needs hundreds of repeats, and the counts depend on the order in which the tree was built; only an invariant of the tree bounds them for every song", "anchors": ["src/nspc/seqtree.rs:add_location", "src/nspc/seqtree.rs:SeqTree::add_commands", "src/nspc/seqtree.rs:SeqTree::best_sequence", "src/nspc/mod.rs:Song::optimize_call_loops"]}
{"id": "C93", "title": "Exactly when the conversion of a voice or a file fails", "statement": "Think of a clock that starts at 0; a note-on or program change moves it down to the grid of 1/24 beats laid at the clock, and a note starts there; the end of a note moves it up to the grid laid at the note's start. A voice with data bytes in the MIDI range is converted exactly if no note is started while another one sounds and no note ends before the clock time at which it started; the first of these events decides whether Track::new refuses the voice (two notes) or panics (early end). In a voice in time order only a note shorter than 1/24 beat can end too early, one that starts before the point to which an earlier note was extended. A file that can be read is converted exactly if none of its voices has such a note, otherwise it panics; it is never refused. Files of at most 24 ticks per beat are always converted; at every resolution above 24 there is a voice that panics.", "quantifier": "all event lists and all files with data bytes in the MIDI range that are shorter than exactTicks ticks, every resolution and tempo factor", "why_tests_cant": "whether a short note panics depends on the rounding of all notes before it; only a proof connects the f32 computations with an exact clock for every voice", "anchors": ["src/nspc/track.rs:Track::new", "src/nspc/track.rs:Track::insert_rest", "src/nspc/track.rs:Track::get_duration", "src/nspc/mod.rs:Song::from_midi"]}
{"id": "C94", "title": "Exactly which banks are refused for lack of room", "statement": "Lay the blocks of a bank (song headers and tracks, in order) into the song chunk from the first song address on, and let the rest begin with the first block that does not fit there. If the ROM goes on behind the two chunks for at least as many bytes as the largest block has, write_bank never panics on songs with at most eight tracks in their part and with valid track numbers: it is refused with SongDataDoesNotFit exactly if the rest has two or more blocks and is larger than the overflow chunk; otherwise, in particular if only the bank's last block is too large, it succeeds. Without those bytes behind the chunks, that last block can make write_bank panic. A build of several banks that are sound in all other respects (valid songs, room for the song tables, no track with calls first in an overflow chunk, no single last block too large) is refused exactly if in some bank the rest is larger than the overflow chunk, and succeeds otherwise.", "quantifier": "all ROM images with a well-formed bank, all song lists and converters, all first song addresses inside the song chunk", "why_tests_cant": "the outcome depends on the sizes of all blocks of a bank and of both chunks; tests try single layouts", "anchors": ["src/rom/mod.rs:write_bank", "src/rom/mod.rs:write", "src/nspc/mod.rs:Song::write_track"]}
{"id": "C95", "title": "Channels get the first voices that work", "statement": "After a file has been read, channels that share a voice never sound at the same time, and of all choices of voices for the sixteen channels with that property the one made comes first: the first channel has the lowest voice possible, then the second, and so on; no other choice is ever made. In particular a channel that never sounds has voice 0, every voice below a channel's voice is the voice of an earlier channel, and channel c has a voice with a number of at most c.", "quantifier": "all MIDI files that are read successfully, all orders of hash maps", "why_tests_cant": "the search skips all unused voices but the first and backtracks; that this loses no better choice holds by a symmetry of all choices", "anchors": ["src/midi/mod.rs:MidiHandler::find_base_voices", "src/midi/mod.rs:MidiHandler::read"]}
{"id": "C96", "title": "Reading depends on times only through their order", "statement": "If every message of a MIDI file is moved from its time t to another time f(t), where f is any strictly increasing function whose values fit in 32 bits, the file is read as before: it fails in the same way, or every channel gets the same voice and every voice the same messages in the same order, moved by f, and the length of the file is moved by f. In particular silence before the music changes nothing but the times. The same holds for every file with the same music as the moved one, however it is laid out in tracks.", "quantifier": "all readable MIDI files, all strictly increasing functions on times, all orders of hash maps", "why_tests_cant": "relates two runs on files of any size for any change of times", "anchors": ["src/midi/mod.rs:MidiHandler::read", "src/midi/mod.rs:MidiHandler::find_base_voices", "src/midi/mod.rs:MidiHandler::channels_to_voices", "src/midi/mod.rs:MidiHandler::tracks_to_channels"]}
{"id": "C97", "title": "Loudness, instruments and tempos have no influence on rhythm and pitches", "statement": "Let two readable MIDI files with data bytes in the MIDI range agree in everything but the values of velocities (a zero velocity, which ends a note, stays zero), channel volumes, programs and tempos. Without loop optimisation, and whatever the tempo factors, both conversions fail in the same way, or give songs with the same tracks that agree command by command in everything (kind of command, duration, sustain, note, pitch slides) but the values of velocities, volumes, instruments and tempos.", "quantifier": "all pairs of readable MIDI files with data bytes in range and the same outline, all orders of hash maps, all tempo factors", "why_tests_cant": "relates two runs on arbitrary files (noninterference); a test can only try some values", "anchors": ["src/midi/mod.rs:MidiHandler::read", "src/midi/mod.rs:MidiHandler::channels_to_voices", "src/nspc/track.rs:Track::new", "src/nspc/mod.rs:Song::from_midi"]}
{"id": "C98", "title": "How far loop optimisation can damage a song", "statement": "Loop optimisation does not always preserve a song (C33 is false of the code), but the damage is limited: every original track is what the optimised track stands for when calls with count 1 and 2 stand for that many copies of the called subroutine and calls with counts 3 and 4 for as many copies in which only the third one can replace other commands. So every stretch of an optimised track without counts above 2 has its expansion in the original track, and an optimised track begins as the original one at least up to the third copy of its first call with a higher count. In a single round what a third copy replaces has the length of a copy, or less at the end of the track.", "quantifier": "all lists of tracks without calls that are optimised successfully, all MIDI data", "why_tests_cant": "tests found neither the defect nor its limits; the limits are an invariant of the tree over all positions and all rounds", "anchors": ["src/nspc/mod.rs:Song::optimize_call_loops", "src/nspc/mod.rs:Song::extract_sequence", "src/nspc/seqtree.rs:SeqTree::add_commands", "src/nspc/seqtree.rs:SeqTree::best_sequence", "src/nspc/mod.rs:Song::from_midi"]}
{"id": "C99", "title": "Muting channels of a file", "statement": "Deleting all notes, programs and controllers of some channels from a MIDI file that can be read, while the other messages keep their times, leaves a file that can be read. (False in general: the first voices are given out again and a chord may no longer fit. It holds when the remaining channels never sound at the same time, in particular for one channel alone, when the whole file plays only melodies, and when the whole file needs few enough voices.) In a tidy file of sane content the notes on the eight voices are then exactly those the whole file has on the remaining channels, each once and at its time; and the notes of the whole file are those of the sixteen channels read alone, together.", "quantifier": "all MIDI data, all sets of channels, all hash orders", "why_tests_cant": "the failing case needs five channels whose first voices move when one of them is removed; the remaining cases compare two runs of the allocator on different inputs", "anchors": ["src/midi/mod.rs:MidiHandler::read", "src/midi/mod.rs:MidiHandler::find_base_voices", "src/midi/mod.rs:MidiHandler::channels_to_voices", "src/midi/mod.rs:MidiHandler::tracks_to_channels"]}
{"id": "C100", "title": "The beginning of a song does not depend on what comes later", "statement": "Two MIDI files with the same messages before a time T give songs with the same beginning: each voice has the same messages before T, and without loop optimisation each track of both songs begins with the commands of the track made from the messages before T alone, of which only the last can differ, and only in duration and sustain. (False in general, because later messages can change the first voices of the channels and with them the voices of earlier notes; the beginning of a readable file can even be unreadable. It holds for files that give the channels the same first voices.) For tidy files of sane content the notes starting before T are always the same.", "quantifier": "all pairs of MIDI data, all times T, all tempo factors", "why_tests_cant": "relates two runs on different inputs; the failing cases need later overlaps that move earlier notes", "anchors": ["src/midi/mod.rs:MidiHandler::read", "src/midi/mod.rs:MidiHandler::find_base_voices", "src/midi/mod.rs:MidiHandler::channels_to_voices", "src/nspc/track.rs:Track::new", "src/nspc/mod.rs:Song::from_midi"]}
{"id": "C101", "title": "Overflow checks only stop the program", "statement": "Whatever the tool does without a panic when it is built with overflow checks (cargo build), it does in the same way when it is built without them (cargo build --release, where additions, subtractions and multiplications wrap around): the same outcome of every subcommand and the same bytes in all files. So every property of successful runs holds for both builds.", "quantifier": "all file systems, all subcommands and options, all MIDI data below 2^64 events, all hash orders", "why_tests_cant": "a test suite runs in one profile on some files; the claim compares two profiles on all of them", "anchors": ["src/lib.rs:run", "src/midi/mod.rs:MidiHandler::read", "src/nspc/track.rs:Track::new", "src/nspc/mod.rs:Song::optimize_call_loops", "src/rom/mod.rs:write_bank"]}
{"id": "C102", "title": "Loop optimisation without overflow checks", "statement": "In the release build loop optimisation never panics and always ends, whatever the tracks: it works in the rounds of C98, so that the optimised tracks stand for the original ones except for third copies, calls name existing subroutines of four or more commands without calls, one to four times, and the song never gets longer. A conversion with optimisation succeeds whenever one without does. But the repetitions of a sequence are counted modulo 256: a sequence that occurs 256 or 257 times can be left alone.", "quantifier": "all sets of tracks, all converted MIDI data", "why_tests_cant": "wrap-around of the count happens only above 255 repetitions, where test builds panic", "anchors": ["src/nspc/mod.rs:Song::optimize_call_loops", "src/nspc/seqtree.rs:SeqTree::best_sequence", "src/nspc/mod.rs:Song::from_midi"]}
{"id": "C103", "title": "Which files the release build can convert", "statement": "In the release build reading a MIDI file panics exactly if a header states a format other than 1 or an event comes before the first track; otherwise it succeeds or is refused for want of voices. A file that was read is converted, with or without loop optimisation, exactly if every tempo message has three bytes or more and every program number outside channel 10 is below 128; otherwise the conversion panics. Stray note ends, times beyond 32 bits, notes of no length, note numbers and volumes above 127 do not stop the release build.", "quantifier": "all MIDI data, all tempo factors, all hash orders", "why_tests_cant": "a complete characterisation of the crashes over all inputs, in a profile in which tests do not run", "anchors": ["src/midi/mod.rs:MidiHandler::read", "src/nspc/track.rs:Track::new", "src/nspc/command.rs:ParameterizedCommand::set_sustain", "src/nspc/mod.rs:Song::from_midi"]}
{"id": "C104", "title": "How runs of the tool end", "statement": "Every run of every subcommand comes to an end, in the build with overflow checks and in the one without: with success, with a panic, or with a message. dump-midi gives no message; midi2json only that the file cannot be read, is no MIDI file or needs more than eight voices; gen-fake-rom only that an address is no number or a file cannot be read; the ROM builders these and that a bank has no song chunk or its songs do not fit. The messages for a missing overflow chunk and for two voices in one track are never given. For midi2json without overflow checks, which of the endings it is follows from the file alone.", "quantifier": "all files, options, subcommands, MIDI data and hash orders, both builds", "why_tests_cant": "absence of endless loops and of error messages over all inputs", "anchors": ["src/lib.rs:run", "src/rom/mod.rs:write_bank", "src/midi/mod.rs:MidiHandler::read", "src/nspc/mod.rs:Song::from_midi", "src/manifest/mod.rs:Manifest::new"]}
{"id": "C105", "title": "ROM images and files in the release build", "statement": "Without overflow checks: a run that fails leaves all files as they were, no run changes a file other than its target, and a ROM file keeps its length, whatever happens. With bank addresses below FFFFFFF8 the ROM builder and gen-fake-rom do exactly what they do with overflow checks, for all songs. Every MIDI file that is converted gives a song that can be stored, whatever values have wrapped around on the way; if its values are in the engine's ranges, it can be played, and after a successful build the engine plays it from the ROM file.", "quantifier": "all files, songs, ROM images, bank addresses, subcommands; engine states at the start of playing", "why_tests_cant": "wrapped values reach the ROM only in the release profile and on unusual files", "anchors": ["src/rom/mod.rs:write_bank", "src/lib.rs:run", "src/nspc/mod.rs:Song::from_midi", "src/nspc/track.rs:Track::new"]}
{"id": "C106", "title": "The notes of files that only the release build reads", "statement": "Without overflow checks, whatever ends and times a file has: the starts of notes on the eight voices are the starts of notes in the file, each once, with the time modulo 2^32; on every voice starts and ends alternate and times never decrease, so ends that end nothing are dropped. If all times are below 2^32 and the content is sane (C63), the voices are well-formed and both builds make the same song of them. If the file is tidy (C64), then after a successful build the engine plays every note of the file once, with its pitch, less than 1/24 beat from its place, and nothing else, however many stray ends the file has.", "quantifier": "all MIDI data, hash orders, tempo factors, files, ROM images; engine states at the start of playing", "why_tests_cant": "with overflow checks, as in test builds, reading such files panics", "anchors": ["src/midi/mod.rs:MidiHandler::read", "src/midi/mod.rs:MidiHandler::channels_to_voices", "src/midi/mod.rs:MidiHandler::tracks_to_channels", "src/nspc/track.rs:Track::new", "src/lib.rs:run"]}
{"id": "C107", "title": "How the release build chooses voices", "statement": "Without overflow checks, whatever ends and times a file has: the intervals of a channel are consecutive from tick 0 to its last note message, and each states the number of starts of notes less the number of ends so far, modulo 2^64. Channels that are off balance (starts and ends so far differ, and more note messages follow) at the same time get different base voices, and a file is refused if no choice of voices achieves that. Balance is not sound: a stray end hides the next note of its channel, and nine silent channels with stray ends are refused.", "quantifier": "all MIDI data of fewer than 2^64 messages and all hash orders", "why_tests_cant": "with overflow checks, as in test builds, reading files with stray ends panics; the choice depends on the whole file", "anchors": ["src/midi/mod.rs:MidiHandler::read", "src/midi/mod.rs:MidiHandler::find_base_voices"]}
{"id": "C108", "title": "Which files are song files", "statement": "Song::from_json accepts a file exactly if its text is JSON (one value, white space anywhere between tokens, no superfluous zeros, no trailing commas) and the value describes a song: an object with parts and tracks exactly once each, or the two in an array, and so on down to commands; fields may come in any order, fields of other names are ignored, duration, velocity and sustain may be missing or null, numbers must fit their type, and a command without operands may be a string or an object with null. The song is determined by the text. Every other file makes it panic. What write_to_json writes is such a file.", "quantifier": "all byte sequences as file contents", "why_tests_cant": "the texts of a song are infinitely many, and so are the broken ones; the repository has no test that reads a song file", "anchors": ["src/nspc/mod.rs:Song::from_json", "src/nspc/mod.rs:Song::write_to_json"]}
{"id": "C109", "title": "Which files are manifests", "statement": "build_rom reads a manifest from a file exactly if the text of the file is JSON and the value has, for each of the 34 songs of the game, an entry in the bank of the song with a text as input. The slots are then those of the game, in order, each as its entry says: path, tempo factor (any JSON number) and loop flag. The input p of a manifest D/f means D/p unless p starts at the root, wherever the program is started. A file that is missing or no JSON is reported as an error; JSON that lacks an entry makes the program panic. In all these cases no file is changed, in particular not the ROM.", "quantifier": "all byte sequences as contents of the manifest file, all ROMs and options", "why_tests_cant": "the texts of manifests are infinitely many, and so are the broken ones; the repository has no test that reads a manifest", "anchors": ["src/manifest/mod.rs:Manifest::new", "src/manifest/mod.rs:Song::new", "src/lib.rs:run"]}
{"id": "C110", "title": "Programs get the instruments of their names", "statement": "A program change on a channel other than 9 (the percussion channel, counted from 0) adds, after rests at most, one command to the voice, which selects an instrument the game has. If the program of General MIDI has a namesake in the game (piano, strings, harp, timpani, choir, trumpet, trombone, horn, flute, ocarina, square and saw wave, rain, cymbal, tweet, chime), this is the instrument. The programs of a family that has one instrument (pianos, chromatic percussion, guitars and basses, bowed strings, ensembles, choirs, effects, drums) all select it.", "quantifier": "all states of a voice, all program changes with programs below 128 on channels other than 9", "why_tests_cant": "the repository has no test of the table; a test of some programs misses a swap among the others", "anchors": ["src/nspc/instruments.rs:INSTRUMENT_MAP", "src/nspc/track.rs:Track::new"]}
