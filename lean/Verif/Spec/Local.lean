import Verif.Spec.Rom
/-
What an edit of some songs of a manifest may change in the ROM.
-/
namespace M2S.RomSpec

/-- Two slots (of two manifests) with the same song. -/
def Unedited {P Q : Type} (conv : Converter P) (conv' : Converter Q) (d : SongDef P) (d' : SongDef Q) : Prop :=
  loadSong conv d = loadSong conv' d' ∧ d.loops = d'.loops

/-- Where the next block would go behind the blocks `bs` of a bank whose first song is at offset `off` of the song chunk. -/
def Bank.endOf (b : Bank) (off : Nat) (bs : List Block) : Nat :=
  if (takeFit (b.songs.len - off) bs).2 = [] then b.songs.data + off + total (takeFit (b.songs.len - off) bs).1
  else b.over.data + total (takeFit (b.songs.len - off) bs).2

/-- Behind the first `n` songs of a bank: in the song table behind their entries, or behind the last of their blocks. -/
def Bank.Beyond (b : Bank) (off fs : Nat) (es : List Encoded) (n q : Nat) : Prop :=
  (b.songs.data + 2 * (fs + n) ≤ q ∧ q < b.songs.data + off) ∨ b.endOf off (blocks (es.take n)) ≤ q

/-- Between the beginning and the end of song number `n` of a bank. -/
def Bank.Within (b : Bank) (off : Nat) (es : List Encoded) (n q : Nat) : Prop :=
  b.endOf off (blocks (es.take n)) ≤ q ∧ q < b.endOf off (blocks (es.take (n + 1)))

/-- The two songs have the same number of tracks, of the same lengths, and both loop or neither does. -/
def SameSize (e e' : Encoded) : Prop := e.loops = e'.loops ∧ e.tracks.map (fun o => o.bytes.length) = e'.tracks.map fun o => o.bytes.length

/-- Two jobs for the same bank, with the same number of songs. -/
structure SamePlace {P Q : Type} (j : Job P) (k : Job Q) : Prop where
  base : j.base = k.base
  first : j.first = k.first
  bank : j.bank = k.bank
  count : j.songs.length = k.songs.length

/-- The position is affected by the edit that makes the job `k` out of `j`: it is in the song data of the bank; behind the songs before the first edited one; and, if
all songs keep their sizes, inside an edited one. -/
structure Affected {P Q : Type} (conv : Converter P) (conv' : Converter Q) (fs : Nat) (j : Job P) (k : Job Q) (q : Nat) : Prop where
  edited : ¬ List.Forall₂ (Unedited conv conv') j.songs k.songs
  data : j.bank.Data q
  beyond : ∀ n, n ≤ j.songs.length → List.Forall₂ (Unedited conv conv') (j.songs.take n) (k.songs.take n) → j.bank.Beyond (j.first - 0xd000) fs j.encoded n q
  within : List.Forall₂ SameSize j.encoded k.encoded →
    ∃ (n : Nat) (d : SongDef P) (d' : SongDef Q), j.songs[n]? = some d ∧ k.songs[n]? = some d' ∧ ¬ Unedited conv conv' d d' ∧ j.bank.Within (j.first - 0xd000) j.encoded n q

end M2S.RomSpec
