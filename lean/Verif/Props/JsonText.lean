import Verif.Proofs.JsonText
import Verif.Props.Json
/-
C61: songs survive being written to a JSON file and read again, down to the bytes.
-/
namespace M2S

open Text

theorem plainItems_iff : ∀ l : List Json, PlainItems l ↔ ∀ j ∈ l, Plain j
  | [] => by simp [PlainItems]
  | x :: xs => by simp [PlainItems, plainItems_iff xs]

theorem plain_ofNat {n : Nat} (h : n < 2 ^ 64) : Plain (.ofNat n) := by
  simp only [Json.ofNat, Plain]
  omega

theorem plain_u8 (b : UInt8) : Plain (.u8 b) := plain_ofNat (by have := b.toNat_lt; omega)

theorem plain_tagged {tag : String} {args : List Json} (ht : PlainStr tag) (ha : ∀ j ∈ args, Plain j) : Plain (.tagged tag args) := by
  match args, ha with
  | [], _ => simpa [Json.tagged, Plain] using ht
  | [x], ha => simpa [Json.tagged, Plain, PlainFields, PlainField, ht] using ha
  | x :: y :: zs, ha =>
    simp only [Json.tagged, Plain, PlainFields, PlainField, and_true]
    exact ⟨ht, (plainItems_iff _).mpr ha⟩

theorem plain_command (c : Command) (h : ∀ t k, c = .callLoop t k → t < 2 ^ 64) : Plain c.toJson := by
  cases c <;> rw [Command.toJson] <;> refine plain_tagged (by decide) ?_ <;> simp only [List.mem_cons, List.not_mem_nil, or_false, forall_eq_or_imp, forall_eq, plain_u8, and_self, implies_true, false_implies]
  exact ⟨plain_ofNat (h _ _ rfl), trivial⟩

theorem plain_optU8 (o : Option UInt8) : Plain (.optU8 o) := by
  cases o with
  | none => simp [Json.optU8, Plain]
  | some b => exact plain_u8 b

theorem plain_pcmd (c : PCmd) (h : ∀ t k, c.command = .callLoop t k → t < 2 ^ 64) : Plain c.toJson := by
  simp only [PCmd.toJson, Plain, PlainFields, PlainField, plain_optU8, plain_command _ h, and_true]
  decide

theorem plain_song {s : Song} (h : s.Indexed) : Plain s.toJson := by
  obtain ⟨hp, ht⟩ := h
  simp only [Song.toJson, Plain, PlainFields, PlainField, plainItems_iff, and_true, List.mem_map, forall_exists_index, and_imp, forall_apply_eq_imp_iff₂]
  refine ⟨⟨by decide, fun p hpm => ⟨by decide, fun t htm => plain_ofNat (hp p hpm t htm)⟩⟩, by decide, fun t htm => ⟨by decide, fun c hc => plain_pcmd c (ht t htm c hc)⟩⟩

/-- **C61.** The text written for a song is read back as the same JSON value … -/
theorem C61_text (s : Song) (h : s.Indexed) : readJson (writeJson s.toJson) = some s.toJson := readJson_writeJson (plain_song h)

/-- … and so as the same song. -/
theorem C61_song (s : Song) (h : s.Indexed) : (readJson (writeJson s.toJson)).bind Song.ofJson = some s := by rw [C61_text s h, Option.bind_some, C48_round_trip s h]

/-- **C61**, what may surround the text: white space (blanks, tabs, line feeds, carriage returns) before and behind it makes no difference, and with anything else behind it the file is refused. -/
theorem C61_around (s : Song) (h : s.Indexed) (a b : List UInt8) (ha : ∀ x ∈ a, x ∈ [32, 9, 10, 13]) :
    readJson (a ++ writeJson s.toJson ++ b) = if ∀ x ∈ b, x ∈ [32, 9, 10, 13] then some s.toJson else none := by
  have := readJson_around _ _ (plain_song h) a b fun x hx => (space_iff x).2 (ha x hx)
  simp only [space_iff] at this
  exact this

/-- **C61.** Different songs have different files. -/
theorem C61_injective (s t : Song) (hs : s.Indexed) (ht : t.Indexed) (h : writeJson s.toJson = writeJson t.toJson) : s = t := by
  have := C61_song s hs
  rw [h, C61_song t ht] at this
  exact (Option.some.inj this).symm

/-- The text of a small song, byte for byte. -/
example : writeJson (Song.mk [[10]] [[⟨some 2, none, none, .pan 3⟩], []]).toJson = ascii "{
  \"parts\": [
    {
      \"tracks\": [
        10
      ]
    }
  ],
  \"tracks\": [
    {
      \"commands\": [
        {
          \"duration\": 2,
          \"velocity\": null,
          \"sustain\": null,
          \"command\": {
            \"Pan\": 3
          }
        }
      ]
    },
    {
      \"commands\": []
    }
  ]
}" := by decide +kernel

/-- White space does not matter to the reader; broken text is refused. -/
example : (readJson (ascii " { \"parts\":[ ],\"tracks\" :[{\"commands\":[]}]} ")).bind Song.ofJson = some ⟨[], [[]]⟩ ∧ (readJson (ascii "{\"parts\": [}")).isNone ∧
    (readJson (ascii "[1, 2,]")).isNone ∧ (readJson (ascii "[01]")).isNone ∧ (readJson (ascii "[] 1")).isNone := by decide +kernel

example : readJson (ascii "\t\r\n " ++ writeJson (Song.mk [] [[]]).toJson ++ [13, 10]) = some (Song.mk [] [[]]).toJson ∧ readJson (writeJson (Song.mk [] [[]]).toJson ++ [10, 48]) = none := by
  have h : (Song.mk [] [[]]).Indexed := by constructor <;> simp
  refine ⟨(C61_around _ h _ [13, 10] (by decide)).trans (if_pos (by decide)), ?_⟩
  have := C61_around _ h [] [10, 48] (by simp)
  rw [if_neg (by decide)] at this
  exact this

end M2S
