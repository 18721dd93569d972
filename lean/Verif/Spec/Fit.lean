import Verif.Spec.Rom
/-
What is needed of a song, besides room, for it to be stored.
-/
namespace M2S.RomSpec

/-- The part has at most eight tracks, and track numbers, in the part and in calls, are numbers of tracks. -/
def Encoded.Valid (e : Encoded) : Prop :=
  e.part.length ≤ 8 ∧ (∀ t ∈ e.part, t < e.tracks.length) ∧ ∀ o ∈ e.tracks, ∀ r ∈ o.refs, r.targetTrack < e.tracks.length

/-- The blocks of a job that the song chunk does not take. -/
def Job.rest {Path : Type} (j : Job Path) : List Block := (takeFit (j.bank.songs.len - (j.first - 0xd000)) (blocks j.encoded)).2

/-- Everything a job needs except room in the overflow chunk: the bank is in the ROM, which has `K` more bytes behind the chunks; the songs are valid and no block has more than `K` bytes;
there is room for the song table; the first block in the overflow chunk is no track with calls, and if it is the only block there, it fits. -/
structure Job.Sound {Path : Type} (conv : Converter Path) (rom : List UInt8) (K fs : Nat) (j : Job Path) : Prop where
  addr : j.base + 8 < 2 ^ 24
  bank : j.bank.In (ofRom rom) j.base
  songs : List.Forall₂ (EncodedOf conv) j.songs j.encoded
  valid : ∀ e ∈ j.encoded, e.Valid
  first : 0xd000 ≤ j.first
  table : 2 * (fs + j.encoded.length) ≤ j.first - 0xd000
  start : j.first - 0xd000 ≤ j.bank.songs.len
  sizes : ∀ x ∈ blocks j.encoded, x.size ≤ K
  behind : j.bank.songs.next + K ≤ rom.length
  behindOver : j.bank.over.next + K ≤ rom.length
  calls : ∀ b ∈ j.rest.head?, b.calls = false
  last : j.rest.length = 1 → total j.rest ≤ j.bank.over.len

/-- All jobs are sound; songs are numbered through. -/
def AllSound {Path : Type} (conv : Converter Path) (rom : List UInt8) (K : Nat) : Nat → List (Job Path) → Prop
  | _, [] => True
  | fs, j :: js => j.Sound conv rom K fs ∧ AllSound conv rom K (fs + j.songs.length) js

end M2S.RomSpec
