import Verif.Spec.Balance
import Verif.Spec.Tidy
import Verif.Proofs.ReleaseIntervals
import Mathlib.Data.Fintype.Pigeonhole
/-
Property C107: how voices are chosen without overflow checks.
-/
namespace M2S
open MidiSpec Timing

/-- **C107.** Without overflow checks, whatever ends and times a file has: the intervals of a channel are consecutive, non-empty and start at 0; every instant up to the last start or
end of a note of the channel lies in one of them, and the interval's `voices` is the number of starts less the number of ends so far, modulo 2^64. -/
theorem C107_intervals (ord : EnumOrder) (calls : List Callback) (h : MidiHandler) (hr : Release.readMidi ord calls = .ok h) (c : Fin 16) :
    (∃ e, Chain 0 (h.channels c).intervals e ∧ (∀ m ∈ ofChannel ((file calls).map wrapTime) c, (starts m.1 || ends m.1) → m.2 ≤ e)) ∧
    (∀ i ∈ (h.channels c).intervals, i.channel = c ∧ ∀ t, i.start ≤ t → t < i.stop →
      (i.voices : Int) = sounding (ofChannel ((file calls).map wrapTime) c) t % 2 ^ 64) := by
  obtain ⟨hf, ht⟩ := read_shape ord calls h hr
  obtain ⟨ivs, h1, -, h3⟩ := release_choice ord calls hf ht
  obtain ⟨bs, -, h4⟩ := h3 h hr
  obtain ⟨st, e, hs⟩ := h1 c
  have hp := sort_perm (ofChannel ((file calls).map wrapTime) c)
  rw [(h4 c).1, ← e]
  refine ⟨⟨st.lastEnd, hs.chain, fun m hm hx => hs.before m (hp.mem_iff.2 hm) hx⟩, ?_⟩
  intro i hi
  refine ⟨hs.chan i hi, ?_⟩
  intro t h1 h2
  have := hs.voices i hi t h1 h2
  unfold sounding at this ⊢
  rw [startsBy_perm hp, endsBy_perm hp] at this
  exact this.symm

/-- **C107**, as C19: two channels with the same base voice are never off balance at the same time. -/
theorem C107_apart (ord : EnumOrder) (calls : List Callback) (h : MidiHandler) (hr : Release.readMidi ord calls = .ok h) (hlen : (file calls).length < 2 ^ 64)
    (c c' : Fin 16) (hcc : c ≠ c') (hb : (h.channels c).baseVoice = (h.channels c').baseVoice) (t : Nat) :
    ¬ (OffBalance ((file calls).map wrapTime) c t ∧ OffBalance ((file calls).map wrapTime) c' t) := by
  rintro ⟨s1, s2⟩
  have hl : ∀ c, (ofChannel ((file calls).map wrapTime) c).length < 2 ^ 64 := by
    intro c
    have : (ofChannel ((file calls).map wrapTime) c).length ≤ ((file calls).map wrapTime).length := List.length_filter_le _ _
    rw [List.length_map] at this
    exact lt_of_le_of_lt this hlen
  obtain ⟨hf, ht⟩ := read_shape ord calls h hr
  obtain ⟨ivs, h1, -, h3⟩ := release_choice ord calls hf ht
  obtain ⟨bs, h2, h4⟩ := h3 h hr
  have sa : ∀ c, OffBalance ((file calls).map wrapTime) c t → SoundsAt (ivs c) t := by
    intro c hs
    obtain ⟨st, e, hst⟩ := h1 c
    rw [← e]
    exact (seen_interval c _ (hl c) st hst t).2 hs
  have hne : ∀ c, ∀ i ∈ ivs c, i.start < i.stop := by
    intro c i hi
    obtain ⟨st, e, hst⟩ := h1 c
    rw [← e] at hi
    exact ((chain_le _ _ _ hst.chain).2 i hi).1
  obtain ⟨hlen, hk⟩ := C19_base_sound ivs hne bs h2
  refine hk c c' hcc ?_ ⟨t, sa c s1, sa c' s2⟩
  rw [(h4 c).2, (h4 c').2, List.getD_eq_getElem?_getD, List.getD_eq_getElem?_getD] at hb
  show bs[(c : Nat)]? = bs[(c' : Nat)]?
  have e1 : (c : Nat) < bs.length := by omega
  have e2 : (c' : Nat) < bs.length := by omega
  rw [List.getElem?_eq_getElem e1, List.getElem?_eq_getElem e2] at hb ⊢
  simpa using hb

/-- **C107**, as C20: a file is refused if every way of giving the 16 channels 8 voices makes two channels share a voice that are off balance at the same time. -/
theorem C107_refused (ord : EnumOrder) (calls : List Callback) (hf : ∀ f tb, Callback.header f tb ∈ calls → f = 1) (ht : (split calls).1 = []) (hlen : (file calls).length < 2 ^ 64)
    (hno : ∀ f : Fin 16 → Fin 8, ∃ c c', c ≠ c' ∧ f c = f c' ∧ ∃ t, OffBalance ((file calls).map wrapTime) c t ∧ OffBalance ((file calls).map wrapTime) c' t) :
    Release.readMidi ord calls = .error (.err .couldntFit) := by
  rcases release_read ord calls hf ht with e | ⟨h, _, _, _, e, -⟩
  · exact e
  obtain ⟨c, c', h1, h2, t, h3⟩ := hno fun c => (h.channels c).baseVoice
  exact absurd h3 (C107_apart ord calls h e hlen c c' h1 h2 t)

/-- Channels that sound together (more starts than ends, at the start of some note) have different base voices, if no time exceeds 32 bits. -/
theorem release_apart (ord : EnumOrder) (calls : List Callback) (h : MidiHandler) (hr : Release.readMidi ord calls = .ok h) (hlen : (file calls).length < 2 ^ 64)
    (ht : ∀ m ∈ file calls, m.2 < 2 ^ 32) (c c' : Fin 16) (hcc : c ≠ c') (hto : Together (file calls) c c') : (h.channels c).baseVoice ≠ (h.channels c').baseVoice := by
  obtain ⟨x, -, -, ⟨h1, h2⟩, h3, h4⟩ := hto
  intro hb
  refine C107_apart ord calls h hr hlen c c' hcc hb x.2 ?_
  rw [wrap_file _ ht]
  exact ⟨⟨by omega, h2⟩, by omega, h4⟩

/-! ### Where it differs from the build with overflow checks -/

/-- Channel 3 plays a note from tick 24 to 120, after an end that ends nothing. Channel 5 plays from 24 to 48, changes its program at 72 and plays from 96 to 120. -/
def hiddenCalls : List Callback :=
  [ .header 1 24, .trackChange, .midiEvent 0 (.noteOff 3 60 0), .midiEvent 24 (.noteOn 3 60 100), .midiEvent 96 (.noteOff 3 60 0),
    .trackChange, .midiEvent 24 (.noteOn 5 64 100), .midiEvent 24 (.noteOff 5 64 0), .midiEvent 24 (.programChange 5 7), .midiEvent 24 (.noteOn 5 67 100),
    .midiEvent 24 (.noteOff 5 67 0) ]

/-- Balance is not sound: C19 is false in terms of the notes that sound. The count of channel 3 goes from 0 to 2^64 - 1 at the stray end and back to 0 when its note starts, so the note is
not seen when voices are chosen, and channel 5, which plays at the same time, gets the same base voice. -/
theorem C107_hidden_false : (Release.readMidi id hiddenCalls).map (fun h => ((h.channels 3).baseVoice, (h.channels 5).baseVoice, (h.channels 3).intervals, (h.channels 5).intervals)) =
    .ok (0, 0, [⟨0, 24, 3, 2 ^ 64 - 1⟩, ⟨24, 120, 3, 0⟩], [⟨0, 24, 5, 0⟩, ⟨24, 48, 5, 1⟩, ⟨48, 96, 5, 0⟩, ⟨96, 120, 5, 1⟩]) := by
  decide +kernel

example : OffBalance ((file hiddenCalls).map wrapTime) 3 10 ∧ ¬ OffBalance ((file hiddenCalls).map wrapTime) 3 30 ∧ OffBalance ((file hiddenCalls).map wrapTime) 5 30 ∧
    (file hiddenCalls).length < 2 ^ 64 := by
  decide +kernel

/-- Nine channels without a single note, each with two ends. -/
def silentCalls : List Callback :=
  [.header 1 24, .trackChange] ++ ([0, 1, 2, 3, 4, 5, 6, 7, 8].map fun c => .midiEvent 0 (.noteOff c 60 0)) ++ [.midiEvent 24 (.noteOff 0 60 0)] ++
    ([1, 2, 3, 4, 5, 6, 7, 8].map fun c => .midiEvent 0 (.noteOff c 60 0))

theorem nine_share (f : Fin 16 → Fin 8) : ∃ c c' : Fin 16, c ≠ c' ∧ f c = f c' ∧ c.val < 9 ∧ c'.val < 9 := by
  obtain ⟨a, b, hab, he⟩ := Fintype.exists_ne_map_eq_of_card_lt (fun a : Fin 9 => f (a.castLE (by decide))) (by decide)
  exact ⟨a.castLE (by decide), b.castLE (by decide), fun h => hab (Fin.ext (by simpa using congrArg Fin.val h)), he, a.2, b.2⟩

/-- A file in which nothing ever sounds is refused for want of voices: all nine channels are off balance from tick 0 to 24. -/
theorem C107_silent_false (ord : EnumOrder) : Release.readMidi ord silentCalls = .error (.err .couldntFit) ∧ ∀ m ∈ file silentCalls, starts m.1 = false := by
  refine ⟨C107_refused ord silentCalls ?_ (by decide) (by decide) fun f => ?_, by decide⟩
  · intro f tb hm
    simp [silentCalls] at hm
    exact hm.1
  · obtain ⟨c, c', h1, h2, h3, h4⟩ := nine_share f
    have hall : ∀ c : Fin 16, c.val < 9 → OffBalance ((file silentCalls).map wrapTime) c 0 := by decide +kernel
    exact ⟨c, c', h1, h2, 0, hall c h3, hall c' h4⟩

end M2S
