import Verif.Base
/-
Programs of General MIDI (numbered from 0) and the instruments of the game's sound engine that bear their names.
-/
namespace M2S.MidiSpec

/-- The instruments of the game: those the file `src/nspc/instruments.rs` names, by number. -/
def gameSounds : List (String × UInt8) :=
  [("rain", 1), ("timpani", 2), ("square wave", 3), ("saw wave", 4), ("sine wave", 5), ("double saw wave", 6), ("double saw wave", 7), ("tweet", 8), ("strings", 9), ("trombone", 11), ("cymbal", 12),
   ("ocarina", 13), ("chime", 14), ("harp", 15), ("splash", 16), ("trumpet", 17), ("horn", 18), ("snare", 19), ("choir", 21), ("flute", 22), ("oof", 23), ("piano", 24)]

/-- Programs that have a namesake in the game: name in General MIDI, program, name in the game. -/
def namesakes : List (String × UInt8 × String) :=
  [("Acoustic Grand Piano", 0, "piano"), ("Tubular Bells", 14, "chime"), ("String Ensemble 1", 48, "strings"), ("Synth Strings 1", 50, "strings"), ("Orchestral Harp", 46, "harp"), ("Timpani", 47, "timpani"),
   ("Choir Aahs", 52, "choir"), ("Trumpet", 56, "trumpet"), ("Trombone", 57, "trombone"), ("French Horn", 60, "horn"), ("Flute", 73, "flute"), ("Ocarina", 79, "ocarina"), ("Lead 1 (square)", 80, "square wave"),
   ("Lead 2 (sawtooth)", 81, "saw wave"), ("Pad 4 (choir)", 91, "choir"), ("FX 1 (rain)", 96, "rain"), ("Reverse Cymbal", 119, "cymbal"), ("Bird Tweet", 123, "tweet")]

/-- Families with one instrument: first program, last program, name in the game. -/
def families : List (UInt8 × UInt8 × String) :=
  [(0, 7, "piano"), (8, 15, "chime"), (24, 39, "piano"), (40, 45, "strings"), (48, 51, "strings"), (52, 54, "choir"), (96, 103, "rain"), (116, 118, "timpani")]

end M2S.MidiSpec
