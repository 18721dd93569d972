import Verif.Props.Json
import Verif.Spec.SongDoc
import Mathlib.Data.List.Forall2
/-
Lemmas: the decoder of songs accepts what the description of song documents allows.
-/
namespace M2S

open JsonSpec

theorem named_none {fs : List (String × Json)} {key : String} : Json.fieldsNamed key fs = [] ↔ ∀ f ∈ fs, f.1 ≠ key := by
  simp [Json.fieldsNamed, List.filter_eq_nil_iff]

theorem named_append (a b : List (String × Json)) (key : String) : Json.fieldsNamed key (a ++ b) = Json.fieldsNamed key a ++ Json.fieldsNamed key b := by
  simp [Json.fieldsNamed]

theorem named_once {fs : List (String × Json)} {key : String} {v : Json} : Json.fieldsNamed key fs = [v] ↔ Once fs key v := by
  constructor
  · induction fs with
    | nil => intro h; cases h
    | cons f fs ih =>
      intro h
      obtain ⟨k, x⟩ := f
      by_cases hk : k = key
      · subst hk
        rw [show Json.fieldsNamed k ((k, x) :: fs) = x :: Json.fieldsNamed k fs by simp [Json.fieldsNamed]] at h
        simp only [List.cons.injEq] at h
        obtain ⟨rfl, h⟩ := h
        exact ⟨[], fs, rfl, by simpa using named_none.1 h⟩
      · rw [show Json.fieldsNamed key ((k, x) :: fs) = Json.fieldsNamed key fs by simp [Json.fieldsNamed, hk]] at h
        obtain ⟨a, b, rfl, hab⟩ := ih h
        refine ⟨(k, x) :: a, b, rfl, ?_⟩
        intro f hf
        rcases List.mem_cons.1 hf with rfl | hf
        · exact hk
        · exact hab f hf
  · rintro ⟨a, b, rfl, h⟩
    rw [named_append, named_none.2 fun f hf => h f (List.mem_append_left _ hf),
      show Json.fieldsNamed key ((key, v) :: b) = v :: Json.fieldsNamed key b by simp [Json.fieldsNamed], named_none.2 fun f hf => h f (List.mem_append_right _ hf)]
    rfl

theorem getField_iff {fs : List (String × Json)} {key : String} {v : Json} : Json.getField key fs = some v ↔ Once fs key v := by
  rw [← named_once]
  unfold Json.getField
  split
  · rename_i j e; rw [e]; simp
  · rename_i h
    exact ⟨fun e => (by cases e), fun e => absurd e (h v)⟩

theorem toU8_iff {j : Json} {b : UInt8} : j.toU8? = some b ↔ j = .u8 b := by
  constructor
  · intro h
    cases j <;> simp only [Json.toU8?, Json.toNat?, Option.map_none, reduceCtorEq] at h
    rename_i n
    by_cases hn : 0 ≤ n ∧ n.toNat < 256
    · rw [if_pos hn] at h
      simp only [Option.map_some, Option.some.injEq] at h
      subst h
      unfold Json.u8 Json.ofNat
      rw [UInt8.toNat_ofNat', Nat.mod_eq_of_lt hn.2, Int.toNat_of_nonneg hn.1]
    · rw [if_neg hn] at h; cases h
  · rintro rfl; exact toU8_u8 b

theorem toUsize_iff {j : Json} {n : Nat} : j.toUsize? = some n ↔ IndexDoc j n := by
  constructor
  · intro h
    cases j <;> simp only [Json.toUsize?, Json.toNat?, reduceCtorEq] at h
    rename_i m
    by_cases hn : 0 ≤ m ∧ m.toNat < 2 ^ 64
    · rw [if_pos hn] at h
      cases h
      exact ⟨by rw [Int.toNat_of_nonneg hn.1], hn.2⟩
    · rw [if_neg hn] at h; cases h
  · rintro ⟨rfl, h⟩; exact toUsize_ofNat h

theorem toOptU8_iff {j : Json} {o : Option UInt8} : j.toOptU8? = some o ↔ ByteDoc j o := by
  unfold ByteDoc
  cases j with
  | null => simp [Json.toOptU8?, eq_comm]
  | _ =>
    simp only [Json.toOptU8?, Option.map_eq_some_iff, toU8_iff, Json.u8, Json.ofNat, reduceCtorEq, false_and, false_or] <;>
    exact ⟨fun ⟨b, h1, h2⟩ => ⟨b, h1, h2.symm⟩, fun ⟨b, h1, h2⟩ => ⟨b, h1, h2.symm⟩⟩

theorem getOptU8_iff {fs : List (String × Json)} {key : String} {o : Option UInt8} : Json.getOptU8 key fs = some o ↔ ByteField fs key o := by
  unfold ByteField
  have e : Json.getOptU8 key fs = match Json.fieldsNamed key fs with | [] => some none | [j] => j.toOptU8? | _ => none := by
    unfold Json.getOptU8
    cases Json.fieldsNamed key fs with
    | nil => rfl
    | cons j l => cases l with
      | nil => cases j <;> rfl
      | cons j' l => cases j <;> rfl
  rw [e]
  cases hf : Json.fieldsNamed key fs with
  | nil =>
    simp only [Option.some.injEq]
    constructor
    · rintro rfl; exact Or.inr ⟨named_none.1 hf, rfl⟩
    · rintro (⟨v, hv, -⟩ | ⟨-, rfl⟩)
      · rw [← named_once, hf] at hv; cases hv
      · rfl
  | cons j l =>
    have hn : ¬ ∀ f ∈ fs, f.1 ≠ key := fun h => by rw [← named_none, hf] at h; cases h
    cases l with
    | nil =>
      simp only [toOptU8_iff]
      constructor
      · intro h; exact Or.inl ⟨j, named_once.1 hf, h⟩
      · rintro (⟨v, hv, h⟩ | ⟨h, -⟩)
        · rw [← named_once, hf] at hv; cases hv; exact h
        · exact absurd h hn
    | cons j' l =>
      simp only [reduceCtorEq, false_iff]
      rintro (⟨v, hv, h⟩ | ⟨h, -⟩)
      · rw [← named_once, hf] at hv; cases hv
      · exact absurd h hn

theorem args1_some {j : Json} {f : UInt8 → Command} {c : Command} (h : j.args1 f = some c) : ∃ a, j = .u8 a ∧ c = f a := by
  obtain ⟨a, ha, rfl⟩ := Option.map_eq_some_iff.1 h
  exact ⟨a, toU8_iff.1 ha, rfl⟩

theorem args2_some {j : Json} {f : UInt8 → UInt8 → Command} {c : Command} (h : j.args2 f = some c) : ∃ a b, j = .arr [.u8 a, .u8 b] ∧ c = f a b := by
  unfold Json.args2 at h
  split at h
  · simp only [Option.bind_eq_bind, Option.bind_eq_some_iff, Option.pure_def, Option.some.injEq, toU8_iff] at h
    obtain ⟨a, rfl, b, rfl, rfl⟩ := h
    exact ⟨a, b, rfl, rfl⟩
  · cases h

theorem args3_some {j : Json} {f : UInt8 → UInt8 → UInt8 → Command} {c : Command} (h : j.args3 f = some c) : ∃ a b d, j = .arr [.u8 a, .u8 b, .u8 d] ∧ c = f a b d := by
  unfold Json.args3 at h
  split at h
  · simp only [Option.bind_eq_bind, Option.bind_eq_some_iff, Option.pure_def, Option.some.injEq, toU8_iff] at h
    obtain ⟨a, rfl, b, rfl, d, rfl, rfl⟩ := h
    exact ⟨a, b, d, rfl, rfl⟩
  · cases h

theorem ofUnit_some {s : String} {c : Command} (h : Command.ofUnit s = some c) : c.toJson = .str s := by
  unfold Command.ofUnit at h
  split at h <;> cases h <;> rfl

theorem ofTagged_some {s : String} {j : Json} {c : Command} (h : Command.ofTagged s j = some c) :
    (∀ t k, c = .callLoop t k → t < 2 ^ 64) ∧ .obj [(s, j)] = c.toJson := by
  unfold Command.ofTagged at h
  split at h
  case h_15 =>
    split at h
    · simp only [Option.bind_eq_bind, Option.bind_eq_some_iff, Option.pure_def, Option.some.injEq, toU8_iff, toUsize_iff] at h
      obtain ⟨a, ⟨rfl, ha⟩, b, rfl, rfl⟩ := h
      refine ⟨?_, rfl⟩
      intro t k e
      cases e
      exact ha
    · cases h
  all_goals first
    | (obtain ⟨a, rfl, rfl⟩ := args1_some h; exact ⟨fun t k e => (by cases e), rfl⟩)
    | (obtain ⟨a, b, rfl, rfl⟩ := args2_some h; exact ⟨fun t k e => (by cases e), rfl⟩)
    | (obtain ⟨a, b, d, rfl, rfl⟩ := args3_some h; exact ⟨fun t k e => (by cases e), rfl⟩)
    | cases h

theorem command_iff {j : Json} {c : Command} : Command.ofJson j = some c ↔ CommandDoc j c := by
  constructor
  · intro h
    unfold Command.ofJson at h
    split at h
    · rename_i s hs
      have e := ofUnit_some h
      refine ⟨?_, ?_⟩
      · rintro t k rfl; cases e
      · unfold Json.unitVariant at hs
        split at hs
        · cases hs; exact Or.inl e.symm
        · cases hs; exact Or.inr ⟨s, e, rfl⟩
        · cases hs
    · split at h
      · obtain ⟨h1, h2⟩ := ofTagged_some h
        exact ⟨h1, Or.inl h2⟩
      · cases h
  · rintro ⟨h, rfl | ⟨name, e, rfl⟩⟩
    · exact command_json c h
    · have : Command.ofJson (.obj [(name, .null)]) = Command.ofJson (.str name) := rfl
      rw [this, ← e, command_json c h]

theorem pcmd_iff {j : Json} {c : PCmd} : PCmd.ofJson j = some c ↔ PCmdDoc j c := by
  constructor
  · intro h
    unfold PCmd.ofJson at h
    split at h
    · simp only [Option.bind_eq_bind, Option.bind_eq_some_iff, Option.pure_def, Option.some.injEq, toOptU8_iff, command_iff] at h
      obtain ⟨d, hd, v, hv, s, hs, c, hc, rfl⟩ := h
      exact .arr hd hv hs hc
    · simp only [Option.bind_eq_bind, Option.bind_eq_some_iff, Option.pure_def, Option.some.injEq, getOptU8_iff, getField_iff, command_iff] at h
      obtain ⟨d, hd, v, hv, s, hs, j, hj, c, hc, rfl⟩ := h
      exact .obj hd hv hs hj hc
    · cases h
  · intro h
    cases h with
    | obj hd hv hs hj hc =>
      simp only [PCmd.ofJson, Option.bind_eq_bind, Option.bind_eq_some_iff, Option.pure_def, Option.some.injEq, getOptU8_iff, getField_iff, command_iff]
      exact ⟨_, hd, _, hv, _, hs, _, hj, _, hc, rfl⟩
    | arr hd hv hs hc =>
      simp only [PCmd.ofJson, Option.bind_eq_bind, Option.bind_eq_some_iff, Option.pure_def, Option.some.injEq, toOptU8_iff, command_iff]
      exact ⟨_, hd, _, hv, _, hs, _, hc, rfl⟩

theorem mapM_iff {α : Type} {f : Json → Option α} {P : Json → α → Prop} (hf : ∀ j a, f j = some a ↔ P j a) (js : List Json) :
    ∀ l, js.mapM f = some l ↔ List.Forall₂ P js l := by
  induction js with
  | nil => intro l; simp [eq_comm]
  | cons j js ih =>
    intro l
    simp only [List.mapM_cons, Option.bind_eq_bind, Option.bind_eq_some_iff, Option.pure_def, Option.some.injEq, hf, ih, List.forall₂_cons_left_iff]
    exact ⟨fun ⟨a, ha, l', hl, e⟩ => ⟨a, l', ha, hl, e.symm⟩, fun ⟨a, l', ha, hl, e⟩ => ⟨a, ha, l', hl, e.symm⟩⟩

theorem toList_iff {α : Type} {f : Json → Option α} {P : Json → α → Prop} (hf : ∀ j a, f j = some a ↔ P j a) (j : Json) (l : List α) :
    j.toList? f = some l ↔ ∃ js, j = .arr js ∧ List.Forall₂ P js l := by
  cases j with
  | arr js => simp only [Json.toList?, mapM_iff hf, Json.arr.injEq, exists_eq_left']
  | _ => simp [Json.toList?]

theorem part_iff (j : Json) (l : List Nat) : partOfJson j = some l ↔ ListDoc "tracks" IndexDoc j l := by
  have hf : ∀ j n, Json.toUsize? j = some n ↔ IndexDoc j n := fun j n => toUsize_iff
  unfold ListDoc
  constructor
  · intro h
    unfold partOfJson at h
    split at h
    · obtain ⟨js, rfl, hl⟩ := (toList_iff hf _ _).1 h
      exact ⟨js, hl, Or.inr rfl⟩
    · simp only [Option.bind_eq_bind, Option.bind_eq_some_iff, getField_iff, toList_iff hf] at h
      obtain ⟨_, ho, js, rfl, hl⟩ := h
      exact ⟨js, hl, Or.inl ⟨_, rfl, ho⟩⟩
    · cases h
  · rintro ⟨js, hl, ⟨fs, rfl, ho⟩ | rfl⟩
    · simp only [partOfJson, Option.bind_eq_bind, Option.bind_eq_some_iff, getField_iff, toList_iff hf]
      exact ⟨_, ho, js, rfl, hl⟩
    · simp only [partOfJson, toList_iff hf]
      exact ⟨js, rfl, hl⟩

theorem track_iff (j : Json) (l : List PCmd) : trackOfJson j = some l ↔ ListDoc "commands" PCmdDoc j l := by
  have hf : ∀ j n, PCmd.ofJson j = some n ↔ PCmdDoc j n := fun j n => pcmd_iff
  unfold ListDoc
  constructor
  · intro h
    unfold trackOfJson at h
    split at h
    · obtain ⟨js, rfl, hl⟩ := (toList_iff hf _ _).1 h
      exact ⟨js, hl, Or.inr rfl⟩
    · simp only [Option.bind_eq_bind, Option.bind_eq_some_iff, getField_iff, toList_iff hf] at h
      obtain ⟨_, ho, js, rfl, hl⟩ := h
      exact ⟨js, hl, Or.inl ⟨_, rfl, ho⟩⟩
    · cases h
  · rintro ⟨js, hl, ⟨fs, rfl, ho⟩ | rfl⟩
    · simp only [trackOfJson, Option.bind_eq_bind, Option.bind_eq_some_iff, getField_iff, toList_iff hf]
      exact ⟨_, ho, js, rfl, hl⟩
    · simp only [trackOfJson, toList_iff hf]
      exact ⟨js, rfl, hl⟩

/-- The decoder and the description agree. -/
theorem song_iff (j : Json) (s : Song) : Song.ofJson j = some s ↔ SongDoc j s := by
  unfold SongDoc
  constructor
  · intro h
    unfold Song.ofJson at h
    split at h
    · simp only [Option.bind_eq_bind, Option.bind_eq_some_iff, Option.pure_def, Option.some.injEq, toList_iff part_iff, toList_iff track_iff] at h
      obtain ⟨p, ⟨ps, rfl, hp⟩, t, ⟨ts, rfl, ht⟩, rfl⟩ := h
      exact ⟨ps, ts, hp, ht, Or.inr rfl⟩
    · simp only [Option.bind_eq_bind, Option.bind_eq_some_iff, Option.pure_def, Option.some.injEq, getField_iff, toList_iff part_iff, toList_iff track_iff] at h
      obtain ⟨_, h1, p, ⟨ps, rfl, hp⟩, _, h2, t, ⟨ts, rfl, ht⟩, rfl⟩ := h
      exact ⟨ps, ts, hp, ht, Or.inl ⟨_, rfl, h1, h2⟩⟩
    · cases h
  · rintro ⟨ps, ts, hp, ht, ⟨fs, rfl, h1, h2⟩ | rfl⟩
    · simp only [Song.ofJson, Option.bind_eq_bind, Option.bind_eq_some_iff, Option.pure_def, Option.some.injEq, getField_iff, toList_iff part_iff, toList_iff track_iff]
      exact ⟨_, h1, _, ⟨ps, rfl, hp⟩, _, h2, _, ⟨ts, rfl, ht⟩, rfl⟩
    · simp only [Song.ofJson, Option.bind_eq_bind, Option.bind_eq_some_iff, Option.pure_def, Option.some.injEq, toList_iff part_iff, toList_iff track_iff]
      exact ⟨_, ⟨ps, rfl, hp⟩, _, ⟨ts, rfl, ht⟩, rfl⟩

end M2S
