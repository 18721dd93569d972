import Verif.Json
import Mathlib.Tactic.Linarith
/-
C48: songs survive the JSON encoding.
-/
namespace M2S

/-- Track numbers are `usize` values (64 bits). -/
def Song.Indexed (s : Song) : Prop :=
  (∀ p ∈ s.parts, ∀ t ∈ p, t < 2 ^ 64) ∧ ∀ track ∈ s.tracks, ∀ c ∈ track, ∀ t k, c.command = .callLoop t k → t < 2 ^ 64

theorem toU8_u8 (b : UInt8) : (Json.u8 b).toU8? = some b := by
  have := b.toNat_lt
  simp [Json.u8, Json.ofNat, Json.toU8?, Json.toNat?, this]

theorem toUsize_ofNat {n : Nat} (h : n < 2 ^ 64) : (Json.ofNat n).toUsize? = some n := by
  simp [Json.ofNat, Json.toUsize?, Json.toNat?]
  omega

theorem unit_u8 (t : String) (b : UInt8) : (Json.obj [(t, Json.u8 b)]).unitVariant = none := rfl

theorem unit_arr (t : String) (l : List Json) : (Json.obj [(t, .arr l)]).unitVariant = none := rfl

theorem unit_str (t : String) : (Json.str t).unitVariant = some t := rfl

theorem command_json (c : Command) (h : ∀ t k, c = .callLoop t k → t < 2 ^ 64) : Command.ofJson c.toJson = some c := by
  cases c with
  | callLoop t k =>
    have := toUsize_ofNat (h t k rfl)
    simp [Command.toJson, Command.ofJson, Json.tagged, unit_arr, Command.ofTagged, this, toU8_u8]
  | _ =>
    simp [Command.toJson, Command.ofJson, Json.tagged, unit_u8, unit_arr, unit_str, Command.ofTagged, Command.ofUnit, Json.args1, Json.args2, Json.args3, toU8_u8]

theorem optU8_json (key : String) (fs : List (String × Json)) (o : Option UInt8) (h : Json.fieldsNamed key fs = [Json.optU8 o]) :
    Json.getOptU8 key fs = some o := by
  unfold Json.getOptU8
  rw [h]
  cases o with
  | none => rfl
  | some b =>
    simp only [Json.optU8]
    have : (Json.u8 b).toU8? = some b := toU8_u8 b
    unfold Json.u8 Json.ofNat at this ⊢
    simp [this]

theorem pcmd_json (c : PCmd) (h : ∀ t k, c.command = .callLoop t k → t < 2 ^ 64) : PCmd.ofJson c.toJson = some c := by
  unfold PCmd.toJson PCmd.ofJson
  simp only
  rw [optU8_json "duration" _ c.duration (by simp [Json.fieldsNamed]), optU8_json "velocity" _ c.velocity (by simp [Json.fieldsNamed]),
    optU8_json "sustain" _ c.sustain (by simp [Json.fieldsNamed])]
  have : ∀ a b d, Json.getField "command" [("duration", a), ("velocity", b), ("sustain", d), ("command", c.command.toJson)] = some c.command.toJson := by
    intro a b d
    simp [Json.getField, Json.fieldsNamed]
  simp only [bind, Option.bind, this, command_json _ h, pure]

theorem mapM_json {α : Type} (f : Json → Option α) (g : α → Json) : ∀ (l : List α), (∀ a ∈ l, f (g a) = some a) → (l.map g).mapM f = some l := by
  intro l
  induction l with
  | nil => intro _; rfl
  | cons a l ih =>
    intro h
    rw [List.map_cons, List.mapM_cons, h a (List.mem_cons_self ..), ih fun b hb => h b (List.mem_cons_of_mem _ hb)]
    rfl

/-- **C48.** Decoding the encoded song gives the song back. -/
theorem C48_round_trip (s : Song) (h : s.Indexed) : Song.ofJson s.toJson = some s := by
  obtain ⟨hp, ht⟩ := h
  unfold Song.toJson Song.ofJson
  have h1 : ∀ a b, Json.getField "parts" [("parts", a), ("tracks", b)] = some a := by
    intro a b; simp [Json.getField, Json.fieldsNamed]
  have h2 : ∀ a b, Json.getField "tracks" [("parts", a), ("tracks", b)] = some b := by
    intro a b; simp [Json.getField, Json.fieldsNamed]
  have e1 : ∀ p ∈ s.parts, partOfJson (.obj [("tracks", .arr (p.map Json.ofNat))]) = some p := by
    intro p hpm
    have : Json.getField "tracks" [("tracks", .arr (p.map Json.ofNat))] = some (.arr (p.map Json.ofNat)) := by simp [Json.getField, Json.fieldsNamed]
    simp only [partOfJson, this, bind, Option.bind, Json.toList?]
    exact mapM_json _ _ _ fun t htm => toUsize_ofNat (hp p hpm t htm)
  have e2 : ∀ t ∈ s.tracks, trackOfJson (.obj [("commands", .arr (t.map PCmd.toJson))]) = some t := by
    intro t htm
    have : Json.getField "commands" [("commands", .arr (t.map PCmd.toJson))] = some (.arr (t.map PCmd.toJson)) := by simp [Json.getField, Json.fieldsNamed]
    simp only [trackOfJson, this, bind, Option.bind, Json.toList?]
    exact mapM_json _ _ _ fun c hc => pcmd_json c (ht t htm c hc)
  simp only [h1, h2, bind, Option.bind, Json.toList?, pure]
  rw [mapM_json _ (fun p : List Nat => Json.obj [("tracks", .arr (p.map Json.ofNat))]) _ e1, mapM_json _ (fun t : List PCmd => Json.obj [("commands", .arr (t.map PCmd.toJson))]) _ e2]

/-- A song with every kind of operand count, a part and a loop. -/
example : (Song.mk [[0, 1]] [[⟨some 12, none, some 3, .note 0x80⟩, ⟨none, none, none, .rest⟩, ⟨some 0, some 0, some 0, .callLoop 1 3⟩],
    [⟨none, none, none, .echoVolume 1 2 3⟩, ⟨none, none, none, .tempoFade 4 5⟩]]).Indexed := by
  constructor
  · decide
  · intro track ht c hc t k h
    simp only [List.mem_cons, List.not_mem_nil, or_false] at ht
    rcases ht with rfl | rfl <;> simp only [List.mem_cons, List.not_mem_nil, or_false] at hc
    · rcases hc with rfl | rfl | rfl <;> simp at h
      omega
    · rcases hc with rfl | rfl <;> simp at h

/-- **C48.** Different songs have different encodings. -/
theorem C48_injective (s t : Song) (hs : s.Indexed) (ht : t.Indexed) (h : s.toJson = t.toJson) : s = t := by
  have := C48_round_trip s hs
  rw [h, C48_round_trip t ht] at this
  exact (Option.some.inj this).symm

end M2S
