import Verif.Base
/-
Model of `src/nspc/instruments.rs`: the N-SPC instrument numbers and the General MIDI map.
-/
namespace M2S.Instr

/-- The instrument constants of `src/nspc/instruments.rs:1-48`. -/
def rain : UInt8 := 1
def timpani : UInt8 := 2
def square_wave : UInt8 := 3
def saw_wave : UInt8 := 4
def sine_wave : UInt8 := 5
def double_saw_wave_1 : UInt8 := 6
def double_saw_wave_2 : UInt8 := 7
def tweet : UInt8 := 8
def strings : UInt8 := 9
def trombone : UInt8 := 11
def cymbal : UInt8 := 12
def ocarina : UInt8 := 13
def chime : UInt8 := 14
def harp : UInt8 := 15
def splash : UInt8 := 16
def trumpet : UInt8 := 17
def horn : UInt8 := 18
def snare : UInt8 := 19
def choir : UInt8 := 21
def flute : UInt8 := 22
def oof : UInt8 := 23
def piano : UInt8 := 24

/-- `INSTRUMENT_MAP`, `src/nspc/instruments.rs:50-179`. -/
def instrumentMap : List UInt8 := [
  piano, piano, piano, piano, piano, piano, piano, piano,  -- 0..7
  chime, chime, chime, chime, chime, chime, chime, chime,  -- 8..15
  choir, choir, choir, choir, choir, strings, ocarina, oof,  -- 16..23
  piano, piano, piano, piano, piano, piano, piano, piano,  -- 24..31
  piano, piano, piano, piano, piano, piano, piano, piano,  -- 32..39
  strings, strings, strings, strings, strings, strings, harp, timpani,  -- 40..47
  strings, strings, strings, strings, choir, choir, choir, strings,  -- 48..55
  trumpet, trombone, horn, trumpet, horn, horn, horn, horn,  -- 56..63
  trumpet, trumpet, trombone, trombone, horn, horn, horn, flute,  -- 64..71
  flute, flute, ocarina, ocarina, ocarina, ocarina, tweet, ocarina,  -- 72..79
  square_wave, saw_wave, ocarina, double_saw_wave_1, double_saw_wave_1, double_saw_wave_1, double_saw_wave_2, double_saw_wave_2,  -- 80..87
  sine_wave, sine_wave, sine_wave, choir, sine_wave, sine_wave, sine_wave, sine_wave,  -- 88..95
  rain, rain, rain, rain, rain, rain, rain, rain,  -- 96..103
  piano, piano, piano, piano, piano, horn, strings, horn,  -- 104..111
  chime, chime, timpani, snare, timpani, timpani, timpani, cymbal,  -- 112..119
  oof, oof, splash, tweet, chime, oof, rain, oof]  -- 120..127

end M2S.Instr
