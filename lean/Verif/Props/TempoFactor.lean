import Mathlib.Logic.Equiv.Fintype
import Verif.Proofs.TempoFactor
import Verif.Props.Tempo
import Verif.Props.Relabel
/-
C87: what the tempo factor changes in a song.
-/
namespace M2S
open Nspc MidiSpec

theorem beats_mem (h : MidiHandler) (v : Fin 8) : ∀ e ∈ h.voices v, ∀ u, beatOf e.1 = some u → u ∈ beats h := by
  intro e he u hu
  unfold beats
  exact List.mem_flatMap.2 ⟨v, List.mem_finRange v, List.mem_filterMap.2 ⟨e, he, hu⟩⟩

/-- **C87 (song).** Without loop extraction the tempo factor changes nothing in the song but the values of its tempo commands: those for a beat `u` of the file
have the tempo of `u` at the one factor and at the other. -/
theorem C87_song (h : MidiHandler) (f g : F32) (s : Song) (hs : songFromMidi h f false = .ok s) :
    ∃ s', songFromMidi h g false = .ok s' ∧ s'.parts = s.parts ∧ List.Forall₂ (List.Forall₂ (Retimed (beats h) f g)) s.tracks s'.tracks := by
  have ha := inStep_voiceTracks (us := beats h) (f := f) (g := g) h (beats_mem h)
  unfold songFromMidi at hs ⊢
  cases h1 : voiceTracks h f with
  | error e => rw [h1] at hs; cases hs
  | ok ts =>
    cases h2 : voiceTracks h g with
    | error e => rw [h1, h2] at ha; exact ha.elim
    | ok ts' =>
      rw [h1, h2] at ha
      rw [h1] at hs
      cases hs
      refine ⟨_, rfl, ?_, ha⟩
      show [List.range ts'.length] = [List.range ts.length]
      rw [List.Forall₂.length_eq ha]

/-- **C87**, failures: whether a file can be converted, and why not, does not depend on the tempo factor. -/
theorem C87_fails (h : MidiHandler) (f g : F32) (e : Fault) (hs : songFromMidi h f false = .error e) : songFromMidi h g false = .error e := by
  have ha := inStep_voiceTracks (us := beats h) (f := f) (g := g) h (beats_mem h)
  unfold songFromMidi at hs ⊢
  cases h1 : voiceTracks h f with
  | error e' =>
    cases h2 : voiceTracks h g with
    | error e'' => rw [h1, h2] at ha; rw [h1] at hs; cases hs; cases ha; rfl
    | ok ts' => rw [h1, h2] at ha; exact ha.elim
  | ok ts => rw [h1] at hs; cases hs

theorem retimed_write {us : List Nat} {f g : F32} {c c' : PCmd} (h : Retimed us f g c c') (o o' : Out) (ho : roomOf o' = roomOf o) (d : UInt8) (v : Option UInt8) :
    roomOf (c'.write o' d v).1 = roomOf (c.write o d v).1 ∧ (c'.write o' d v).2 = (c.write o d v).2 := by
  rcases h with ⟨rfl, -⟩ | ⟨u, -, rfl, rfl⟩
  · have := write_room 0 c o o' ho d v
    have e : transposeCmd 0 c = c := by
      obtain ⟨a, b, x, c⟩ := c
      cases c <;> simp [transposeCmd, transposeCommand]
    rwa [e] at this
  · simp only [roomOf, Prod.mk.injEq] at ho
    simp [PCmd.write, PCmd.velSus, Command.isNote, Command.write, roomOf, Out.put, ho.1, ho.2]

/-- **C87**, room: every track takes the same room and has its calls in the same places. -/
theorem C87_room (h : MidiHandler) (f g : F32) (s s' : Song) (hs : songFromMidi h f false = .ok s) (hs' : songFromMidi h g false = .ok s') (i : Nat) :
    (s'.writeTrack i).map roomOf = (s.writeTrack i).map roomOf := by
  obtain ⟨s2, e, hp, ht⟩ := C87_song h f g s hs
  rw [hs'] at e; cases e
  unfold Song.writeTrack
  rw [hp]
  have hw : ∀ (l l' : List PCmd), List.Forall₂ (Retimed (beats h) f g) l l' → ∀ (o o' : Out) d v, roomOf o' = roomOf o →
      roomOf (writeCmds l' o' d v) = roomOf (writeCmds l o d v) := by
    intro l l' hl
    induction hl with
    | nil => intro o o' d v ho; exact ho
    | cons hc _ ih =>
      intro o o' d v ho
      obtain ⟨h1, h2⟩ := retimed_write hc o o' ho d v
      simp only [writeCmds, h2]
      exact ih _ _ _ _ h1
  generalize s.tracks = ts at ht
  generalize s'.tracks = ts' at ht
  have hi : (ts[i]? = none ∧ ts'[i]? = none) ∨ ∃ t t', ts[i]? = some t ∧ ts'[i]? = some t' ∧ List.Forall₂ (Retimed (beats h) f g) t t' := by
    clear hs hs' hp
    induction ht generalizing i with
    | nil => exact .inl ⟨rfl, rfl⟩
    | cons h1 _ ih =>
      cases i with
      | zero => exact .inr ⟨_, _, rfl, rfl, h1⟩
      | succ i => exact ih i
  rcases hi with ⟨e1, e2⟩ | ⟨t, t', e1, e2, h3⟩
  · rw [e1, e2]
  · rw [e1, e2]
    have he : t'.isEmpty = t.isEmpty := by cases h3 <;> rfl
    dsimp only
    rw [he]
    split
    · rfl
    · cases anyPartFirst s.parts i with
      | error e => rfl
      | ok b =>
        simp only [bind, Except.bind, pure, Except.pure, Except.map, Except.ok.injEq, trackWrite]
        have := hw t t' h3 ⟨if b then preambleTrack0 else if s.parts.any (fun p => p.contains i) then preambleOtherTrack else [], []⟩ _ 0xff none rfl
        simp only [roomOf, Prod.mk.injEq, Out.put, List.length_append] at this ⊢
        exact ⟨by rw [this.1], this.2⟩

/-- **C87**, faster: a larger factor never gives a smaller tempo. -/
theorem C87_faster (u : Nat) (hu : u < 2 ^ 24) (p q : ℚ) (hpq : p ≤ q) : (tempoByte u (.fin p)).toNat ≤ (tempoByte u (.fin q)).toNat := by
  rw [tempoByte_toNat, tempoByte_toNat]
  rcases Nat.eq_zero_or_pos u with rfl | hu0
  · rw [bpm_zero]
    simp only [F32.mul]
    by_cases hp : p = 0
    · simp [hp, F32.toUnsigned]
    · rw [if_neg hp]
      rcases lt_or_gt_of_ne hp with h | h
      · simp [h, F32.toUnsigned]
      · rw [if_neg (by linarith)]
        have h1 : ¬ q < 0 := by linarith
        have h2 : ¬ p < 0 := by linarith
        simp [h1, h2, F32.toUnsigned]
  · obtain ⟨e, pm⟩ := bpm_eq u hu0 hu
    rw [e]
    have pq : (1 : ℚ) ≤ ⌈rnd (60000000 / u)⌉ := by exact_mod_cast pm
    simp only [F32.mul]
    rcases le_total p 0 with hp | hp
    · rw [ofRat_nonpos (by nlinarith)]; exact Nat.zero_le _
    · exact ofRat_mono (by positivity) (mul_le_mul_of_nonneg_left hpq (by linarith)) 255

theorem retempo_respectful {ρ : UInt8 → UInt8} (hρ : Function.Injective ρ) : Respectful (retempo ρ) where
  distinct := by
    rintro ⟨a1, a2, a3, a⟩ ⟨b1, b2, b3, b⟩ h
    cases a <;> cases b <;> simp_all [retempo]
    exact hρ h.2.2.2
  tie := by rintro ⟨_, _, _, c⟩; cases c <;> simp [retempo]
  slide := by rintro ⟨_, _, _, c⟩; cases c <;> simp [retempo]
  call := by rintro ⟨_, _, _, c⟩; cases c <;> simp [retempo]
  calls := by rintro ⟨_, _, _, c⟩ t n h; cases c <;> simp_all [retempo]

/-- **C87 (loop extraction), what holds.** If the same beats of the file have the same tempo at both factors, the tempo factor changes nothing in the optimised
song but the values of its tempo commands. -/
theorem C87_optimised_partial (h : MidiHandler) (f g : F32)
    (hsame : ∀ u ∈ beats h, ∀ v ∈ beats h, tempoByte u f = tempoByte v f ↔ tempoByte u g = tempoByte v g) :
    ∃ ρ : UInt8 → UInt8, Function.Injective ρ ∧ (∀ u ∈ beats h, ρ (tempoByte u f) = tempoByte u g) ∧
      songFromMidi h g true = (songFromMidi h f true).map (retempoSong ρ) := by
  classical
  have hex : ∃ σ : Equiv.Perm UInt8, ∀ u ∈ beats h, σ (tempoByte u f) = tempoByte u g := by
    let L := (beats h).map (tempoByte · f)
    have hc : ∀ x : {x // x ∈ L}, ∃ u ∈ beats h, tempoByte u f = x.1 := fun x => List.mem_map.1 x.2
    choose c hc1 hc2 using hc
    have hfin : Finite {x // x ∈ L} := inferInstance
    obtain ⟨σ, hσ⟩ := Equiv.Perm.exists_extending_pair (α := {x // x ∈ L}) (fun x => x.1) (fun x => tempoByte (c x) g) Subtype.val_injective (by
      intro x y hxy
      have := (hsame _ (hc1 x) _ (hc1 y)).2 hxy
      rw [hc2, hc2] at this
      exact Subtype.ext this)
    refine ⟨σ, fun u hu => ?_⟩
    have hm : tempoByte u f ∈ L := List.mem_map.2 ⟨u, hu, rfl⟩
    rw [hσ ⟨_, hm⟩]
    exact (hsame _ (hc1 _) _ hu).1 (hc2 _)
  obtain ⟨σ, hσ⟩ := hex
  refine ⟨σ, σ.injective, hσ, ?_⟩
  have ha := inStep_voiceTracks (us := beats h) (f := f) (g := g) h (beats_mem h)
  unfold songFromMidi
  cases h1 : voiceTracks h f with
  | error e =>
    cases h2 : voiceTracks h g with
    | error e' => rw [h1, h2] at ha; cases ha; rfl
    | ok ts' => rw [h1, h2] at ha; exact ha.elim
  | ok ts =>
    cases h2 : voiceTracks h g with
    | error e' => rw [h1, h2] at ha; exact ha.elim
    | ok ts' =>
      rw [h1, h2] at ha
      have e : ts' = ts.map (List.map (retempo σ)) := by
        have one : ∀ c c', Retimed (beats h) f g c c' → c' = retempo σ c := by
          rintro c c' (⟨rfl, hc⟩ | ⟨u, hu, rfl, rfl⟩)
          · obtain ⟨_, _, _, c⟩ := c
            cases c <;> first | rfl | exact absurd rfl (hc _)
          · simp [retempo, hσ u hu]
        have ha' : List.Forall₂ (List.Forall₂ (Retimed (beats h) f g)) ts ts' := ha
        clear ha h1 h2
        induction ha' with
        | nil => rfl
        | cons hx _ ih =>
          rw [List.map_cons, ← ih]
          congr 1
          induction hx with
          | nil => rfl
          | cons hy _ ih2 => rw [List.map_cons, ← ih2, one _ _ hy]
      subst e
      simp only [bind, Except.bind, List.length_map, if_true]
      rw [C77_optimise _ (retempo_respectful σ.injective)]
      cases optimizeCallLoops ts ts.length with
      | error e => rfl
      | ok o => rfl

/-- Two phrases of three notes, each with its own tempo. -/
def twoTempos : MidiHandler :=
  { ticksPerBeat := 24, maxTime := 144, voices := fun v => if v = 0 then
      [(.metaEvent 0 .setTempo [7, 161, 32], 0), (.midiEvent 0 (.noteOn 0 60 64), 0), (.midiEvent 0 (.noteOff 0 60 0), 24),
       (.midiEvent 0 (.noteOn 0 62 64), 24), (.midiEvent 0 (.noteOff 0 62 0), 48), (.midiEvent 0 (.noteOn 0 64 64), 48), (.midiEvent 0 (.noteOff 0 64 0), 72),
       (.metaEvent 0 .setTempo [15, 66, 64], 72), (.midiEvent 0 (.noteOn 0 60 64), 72), (.midiEvent 0 (.noteOff 0 60 0), 96),
       (.midiEvent 0 (.noteOn 0 62 64), 96), (.midiEvent 0 (.noteOff 0 62 0), 120), (.midiEvent 0 (.noteOn 0 64 64), 120), (.midiEvent 0 (.noteOff 0 64 0), 144)]
      else [] }

/-- **C87 (loop extraction)**, the full claim is false: at factor 5 two tempos are both cut off at 255, the two phrases become equal, and the song has a loop it does not
have at factor 1. -/
theorem C87_optimised_false : ¬ ∀ (h : MidiHandler) (f g : F32) (s s' : Song), songFromMidi h f true = .ok s → songFromMidi h g true = .ok s' →
    s'.tracks.length = s.tracks.length := by
  intro H
  have h1 : (songFromMidi twoTempos (.fin 1) true).map (fun s => s.tracks.length) = .ok 1 := by
    unfold songFromMidi; simp only [optimizeCallLoops_run]; decide +kernel
  have h5 : (songFromMidi twoTempos (.fin 5) true).map (fun s => s.tracks.length) = .ok 2 := by
    unfold songFromMidi; simp only [optimizeCallLoops_run]; decide +kernel
  cases e1 : songFromMidi twoTempos (.fin 1) true with
  | error e => rw [e1] at h1; cases h1
  | ok s =>
    cases e5 : songFromMidi twoTempos (.fin 5) true with
    | error e => rw [e5] at h5; cases h5
    | ok s' =>
      have := H _ _ _ s s' e1 e5
      rw [e1] at h1; rw [e5] at h5
      simp only [Except.map, Except.ok.injEq] at h1 h5
      omega

/-- The tempos of the two phrases at three factors; at 1 and 3/10 the same beats have the same tempo, at 1 and 5 not. -/
example : beats twoTempos = [500000, 1000000] ∧
    ((beats twoTempos).map fun u => (tempoByte u (.fin 1), tempoByte u (.fin (3 / 10)), tempoByte u (.fin 5))) = [(120, 36, 255), (60, 18, 255)] ∧
    (∀ u ∈ beats twoTempos, ∀ v ∈ beats twoTempos, tempoByte u (.fin 1) = tempoByte v (.fin 1) ↔ tempoByte u (.fin (3 / 10)) = tempoByte v (.fin (3 / 10))) := by
  decide +kernel

/-- The song of `twoTempos` at factor 3/10. -/
example : (songFromMidi twoTempos (.fin (3 / 10)) false).map (fun s => (s.tracks.map List.length, s.tracks.flatMap fun t => t.filterMap fun c =>
    match c.command with | .tempo p => some p | _ => none)) = .ok ([8], [36, 18]) := by decide +kernel

end M2S
