import Verif.Proofs.JsonGrammar
import Verif.Proofs.SongDoc
import Verif.Props.JsonText
import Verif.Cli
/-
C108: which files are song files, and which song they hold.
-/
namespace M2S

open Text JsonSpec

/-- **C108**, the text: what the reader makes of a text is what the grammar says it denotes. -/
theorem C108_text (t : List UInt8) (j : Json) : readJson t = some j ↔ Denotes t j := readJson_iff t j

/-- **C108**, the value: what the decoder makes of a value is the song it describes. -/
theorem C108_value (j : Json) (s : Song) : Song.ofJson j = some s ↔ SongDoc j s := song_iff j s

/-- **C108.** A text denotes one value at most, and a value describes one song at most. -/
theorem C108_unique (t : List UInt8) (j j' : Json) (s s' : Song) (h : Denotes t j) (h' : Denotes t j') (hs : SongDoc j s) (hs' : SongDoc j' s') : j = j' ∧ s = s' := by
  obtain rfl : j = j' := Option.some.inj (((readJson_iff t j).2 h).symm.trans ((readJson_iff t j').2 h'))
  exact ⟨rfl, Option.some.inj (((song_iff j s).2 hs).symm.trans ((song_iff j s').2 hs'))⟩

/-- **C108.** `Song::from_json` reads a song from a file exactly if the text of the file denotes a value that describes the song … -/
theorem C108_reads (x : Ext) (hx : x.parseJson = readJson) (fs : FS) (path : String) (s : Song) :
    x.songFromJsonFile fs path = .ok s ↔ ∃ t j, fs path = some t ∧ Denotes t j ∧ SongDoc j s := by
  have e : x.songFromJsonFile fs path = .ok s ↔ ((fs path).bind fun b => (readJson b).bind Song.ofJson) = some s := by
    unfold Ext.songFromJsonFile
    rw [hx]
    cases (fs path).bind fun b => (readJson b).bind Song.ofJson with
    | none => simp [panicked]
    | some s' => simp
  rw [e]
  simp only [Option.bind_eq_some_iff, readJson_iff, song_iff]
  exact ⟨fun ⟨t, h1, j, h2, h3⟩ => ⟨t, j, h1, h2, h3⟩, fun ⟨t, j, h1, h2, h3⟩ => ⟨t, h1, j, h2, h3⟩⟩

/-- … and panics otherwise. -/
theorem C108_panics (x : Ext) (hx : x.parseJson = readJson) (fs : FS) (path : String) (h : ¬ ∃ s t j, fs path = some t ∧ Denotes t j ∧ SongDoc j s) :
    x.songFromJsonFile fs path = panicked := by
  cases e : (fs path).bind fun b => (x.parseJson b).bind Song.ofJson with
  | none => unfold Ext.songFromJsonFile; rw [e]
  | some s =>
    have : x.songFromJsonFile fs path = .ok s := by unfold Ext.songFromJsonFile; rw [e]
    obtain ⟨t, j, ht⟩ := (C108_reads x hx fs path s).1 this
    exact absurd ⟨s, t, j, ht⟩ h

/-- **C108.** What `write_to_json` writes is such a file. -/
theorem C108_written (s : Song) (h : s.Indexed) : Denotes (writeJson s.toJson) s.toJson ∧ SongDoc s.toJson s :=
  ⟨(readJson_iff _ _).1 (C61_text s h), (song_iff _ _).1 (C48_round_trip s h)⟩

/-- A file made by hand: fields in another order, a field of its own, missing fields, a structure as an array, `{"Tie": null}`. -/
example : ∃ j, Denotes (ascii " {\"tracks\" : [{\"commands\":[{ \"command\":{\"Pan\":3}}, [2,null,0,{\"Tie\": null}] ]}],\t\"comment\":-1,\"parts\":[[[7]], {\"tracks\":[]}]}\n") j ∧
    SongDoc j ⟨[[7], []], [[⟨none, none, none, .pan 3⟩, ⟨some 2, none, some 0, .tie⟩]]⟩ := by
  have h : (readJson (ascii " {\"tracks\" : [{\"commands\":[{ \"command\":{\"Pan\":3}}, [2,null,0,{\"Tie\": null}] ]}],\t\"comment\":-1,\"parts\":[[[7]], {\"tracks\":[]}]}\n")).bind Song.ofJson =
      some ⟨[[7], []], [[⟨none, none, none, .pan 3⟩, ⟨some 2, none, some 0, .tie⟩]]⟩ := by decide +kernel
  obtain ⟨j, h1, h2⟩ := Option.bind_eq_some_iff.1 h
  exact ⟨j, (readJson_iff _ _).1 h1, (song_iff _ _).1 h2⟩

/-- Texts that hold no song: a trailing comma, `-0`, a number with a fraction, a field given twice, a byte out of range, a field missing. -/
example : ∀ t ∈ ["{\"parts\":[],\"tracks\":[],}", "{\"parts\":[[[-0]]],\"tracks\":[]}", "{\"parts\":[[[1.0]]],\"tracks\":[]}", "{\"parts\":[],\"parts\":[],\"tracks\":[]}",
      "{\"parts\":[],\"tracks\":[[[[256,0,0,\"Tie\"]]]]}", "{\"parts\":[]}"], ¬ ∃ j s, Denotes (ascii t) j ∧ SongDoc j s := by
  intro t ht
  have h : ∀ t ∈ ["{\"parts\":[],\"tracks\":[],}", "{\"parts\":[[[-0]]],\"tracks\":[]}", "{\"parts\":[[[1.0]]],\"tracks\":[]}", "{\"parts\":[],\"parts\":[],\"tracks\":[]}",
      "{\"parts\":[],\"tracks\":[[[[256,0,0,\"Tie\"]]]]}", "{\"parts\":[]}"], (readJson (ascii t)).bind Song.ofJson = none := by decide +kernel
  rintro ⟨j, s, h1, h2⟩
  have := h t ht
  rw [(readJson_iff _ _).2 h1, Option.bind_some, (song_iff _ _).2 h2] at this
  cases this

/-- Strings in UTF-8 and with escapes: a comment, and a key spelled out. -/
example : (readJson "{\"comment\":\"Übung \\uD83C\\uDFB5\\n\",\"\\u0070arts\":[[[0]]],\"tracks\":[[[[24,null,null,\"\\u0052est\"]]]]}".toByteArray.toList).bind Song.ofJson =
    some ⟨[[0]], [[⟨some 24, none, none, .rest⟩]]⟩ := by decide +kernel

/-- Half of a surrogate pair, bytes that are no UTF-8, a line break in a string, an unknown escape. -/
example : ∀ t ∈ ["[\"\\uD83C\"]".toByteArray.toList, [91, 34, 0xc0, 0x80, 34, 93], [91, 34, 10, 34, 93], "[\"\\x41\"]".toByteArray.toList], ¬ ∃ j, Denotes t j := by
  intro t ht
  have h : ∀ t ∈ ["[\"\\uD83C\"]".toByteArray.toList, [91, 34, 0xc0, 0x80, 34, 93], [91, 34, 10, 34, 93], "[\"\\x41\"]".toByteArray.toList], (readJson t).isNone = true := by decide +kernel
  rintro ⟨j, h1⟩
  have := h t ht
  rw [(readJson_iff _ _).2 h1] at this
  cases this

/-- Fields that are not read may hold any number. -/
example : (readJson (ascii "{\"parts\":[],\"x\":[-0, 1.50e+3, 18446744073709551616, 2E-400],\"tracks\":[]}")).bind Song.ofJson = some ⟨[], []⟩ := by decide +kernel

/-- Numbers that are none: no digit after the dot or in the exponent, a zero in front, out of range. -/
example : ∀ t ∈ ["1.", "1e", ".5", "00.5", "-", "+1", "1e400"], ¬ ∃ j, Denotes (ascii t) j := by
  intro t ht
  have h : ∀ t ∈ ["1.", "1e", ".5", "00.5", "-", "+1", "1e400"], (readJson (ascii t)).isNone = true := by decide +kernel
  rintro ⟨j, h1⟩
  have := h t ht
  rw [(readJson_iff _ _).2 h1] at this
  cases this

end M2S
