import Verif.Proofs.Scan
import Verif.Props.Track
/-
Properties C17–C20: routing of events to channels, voice intervals, base voices.
-/
namespace M2S
open MidiSpec

/-- Callbacks of a small file used in the examples: two tracks; channels 3 and 5 sound together, channel 3 plays two notes at once. -/
def demoCalls : List Callback :=
  [ .header 1 480, .trackChange, .metaEvent 0 .setTempo [7, 161, 32],
    .trackChange, .midiEvent 0 (.programChange 3 5), .midiEvent 10 (.noteOn 3 60 100), .midiEvent 5 (.noteOn 3 64 100), .midiEvent 15 (.noteOff 3 60 0),
    .midiEvent 0 (.noteOn 3 64 0), .sysExEvent 0 [1, 2],
    .trackChange, .midiEvent 20 (.noteOn 5 50 90), .midiEvent 40 (.noteOff 5 50 64) ]

/-- **C17.** After a successful read the messages of every channel are exactly the messages of the file that belong to that channel (meta and system
exclusive messages belong to channel 0), each as often as in the file and stamped with the sum of the delta times of its track; they are ordered by time,
at equal times ends of notes first and starts of notes last; messages that compare equal are in file order. -/
theorem C17_routing (ord : EnumOrder) (calls : List Callback) (h : MidiHandler) (hr : readMidi ord calls = .ok h) (c : Fin 16) :
    (h.channels c).messages.Perm (ofChannel (file calls) c) ∧ (h.channels c).messages.Pairwise Before ∧
    ∀ t r, (h.channels c).messages.filter (fun m => m.2 = t ∧ rank m.1 = r) = (ofChannel (file calls) c).filter (fun m => m.2 = t ∧ rank m.1 = r) := by
  obtain ⟨-, -, ivs, bs, h1, -⟩ := readMidi_ok ord calls h hr
  rw [h1 c]
  exact ⟨sort_perm _, sort_pairwise _, sort_stable _⟩

/-- **C17**, no other loss: routing the tracks fails exactly if some absolute time does not fit in 32 bits, and otherwise appends every message. -/
theorem C17_route_ok (tracks : List (List Message)) :
    (∃ cs, tracksToChannels tracks (fun _ => []) = .ok cs) ↔ ∀ m ∈ fileMessages tracks, m.2 < 2 ^ 32 := by
  simp only [tracksToChannels_ok, timesFit]
  constructor
  · rintro ⟨cs, h, -⟩; exact h
  · intro h; exact ⟨_, h, rfl⟩

example : (∃ h, readMidi id demoCalls = .ok h) ∧ file demoCalls ≠ [] ∧ (ofChannel (file demoCalls) 3).length = 5 ∧
    (ofChannel (file demoCalls) 0) = [(.metaEvent 0 .setTempo [7, 161, 32], 0), (.sysEx 0 [1, 2], 30)] := by
  refine ⟨?_, by decide, by decide, by decide⟩
  have : (readMidi id demoCalls).toOption.isSome = true := by decide +kernel
  cases h : readMidi id demoCalls with
  | ok x => exact ⟨x, rfl⟩
  | error e => rw [h] at this; cases this

theorem scanned_of_read (ord : EnumOrder) (calls : List Callback) (h : MidiHandler) (hr : readMidi ord calls = .ok h) (c : Fin 16) :
    ∃ m0 st, st.intervals = (h.channels c).intervals ∧ Scanned c m0 (h.channels c).messages st := by
  obtain ⟨-, -, ivs, bs, h1, h2, h3, -⟩ := readMidi_ok ord calls h hr
  obtain ⟨k1, -⟩ := scanChannels_ok _ (fun c => before_time (sort_pairwise _)) 0 ivs _ h2
  obtain ⟨m0, st, e, hs⟩ := k1 c
  exact ⟨m0, st, by rw [e, h3], by rw [h1]; exact hs⟩

/-- **C18.** After a successful read the intervals of a channel are consecutive, non-empty and start at 0; every instant up to the last start or end of a
note of the channel lies in one of them, and the interval's `voices` is the number of notes of the channel sounding at that instant. -/
theorem C18_intervals (ord : EnumOrder) (calls : List Callback) (h : MidiHandler) (hr : readMidi ord calls = .ok h) (c : Fin 16) :
    (∃ e, Chain 0 (h.channels c).intervals e ∧ (∀ m ∈ ofChannel (file calls) c, (starts m.1 || ends m.1) → m.2 ≤ e)) ∧
    (∀ i ∈ (h.channels c).intervals, i.channel = c ∧ ∀ t, i.start ≤ t → t < i.stop → (i.voices : Int) = sounding (ofChannel (file calls) c) t) := by
  obtain ⟨m0, st, e, hs⟩ := scanned_of_read ord calls h hr c
  have hp := (C17_routing ord calls h hr c).1
  rw [← e]
  refine ⟨⟨st.lastEnd, hs.chain, fun m hm hx => hs.before m (hp.mem_iff.2 hm) hx⟩, ?_⟩
  intro i hi
  refine ⟨hs.chan i hi, ?_⟩
  intro t h1 h2
  have := hs.voices i hi t h1 h2
  rw [startsBy_perm hp, endsBy_perm hp] at this
  unfold sounding
  omega

/-- **C18**, which files are accepted: the scan of a channel goes through exactly if at every instant at most as many notes have ended as had started
strictly earlier; otherwise the program aborts (`active_voices -= 1` underflows). In particular a note of length zero is not accepted by itself. -/
theorem C18_scan_ok (i : Fin 16) (l : List (Message × Nat)) (m0 : Nat) :
    (∃ st, scanChannel i (sortMessages l) m0 = .ok st) ↔ ∀ t, endsBy l t ≤ l.countP fun m => starts m.1 && m.2 < t := by
  unfold scanChannel
  rw [scan_sorted i _ (sort_pairwise l) _ rfl]
  simp only [endsBy_perm (sort_perm l), (sort_perm l).countP_eq]

example : sounding (ofChannel (file demoCalls) 3) 15 = 2 ∧
    (readMidi id demoCalls).map (fun h => (h.channels 3).intervals) = .ok [⟨0, 10, 3, 0⟩, ⟨10, 15, 3, 1⟩, ⟨15, 30, 3, 2⟩] := by
  exact ⟨by decide, by decide +kernel⟩

example : ∀ t, endsBy (ofChannel (file demoCalls) 3) t ≤ (ofChannel (file demoCalls) 3).countP fun m => starts m.1 && m.2 < t :=
  (C18_scan_ok 3 _ 0).1 ⟨(scanChannel 3 (sortMessages (ofChannel (file demoCalls) 3)) 0).toOption.getD {}, by decide +kernel⟩

/-- **C19.** If base voices are found, two channels with the same base voice never have notes sounding at the same time according to their intervals. -/
theorem C19_base_sound (ivs : Fin 16 → List VoiceInterval) (hne : ∀ c, ∀ i ∈ ivs c, i.start < i.stop) (bs : List (Fin 8))
    (h : findBaseVoices ((List.finRange 16).map ivs) (fun _ => []) = some bs) :
    bs.length = 16 ∧ ∀ c c' : Fin 16, c ≠ c' → bs[c]? = bs[c']? → ¬ ∃ t, SoundsAt (ivs c) t ∧ SoundsAt (ivs c') t := by
  have hf := find_sound _ _ _ h
  have hl : bs.length = 16 := by have := ((fits_iff _ _ _).1 hf).1; simpa using this.symm
  refine ⟨hl, ?_⟩
  intro c c' hcc he
  rw [find_getD ivs bs h, fits_channels] at hf
  rw [← noClash_iff _ _ (hne c) (hne c')]
  apply hf c c' hcc
  rw [List.getD_eq_getElem?_getD, List.getD_eq_getElem?_getD]
  rw [show bs[(c : Nat)]? = bs[(c' : Nat)]? from he]

/-- **C19**, in terms of the file: after a successful read two channels with the same base voice never have notes sounding at the same time, as long as
both channels have a later note message. -/
theorem C19_base_voices (ord : EnumOrder) (calls : List Callback) (h : MidiHandler) (hr : readMidi ord calls = .ok h) (c c' : Fin 16) (hcc : c ≠ c')
    (hb : (h.channels c).baseVoice = (h.channels c').baseVoice) (t : Nat)
    (hl : ∃ m ∈ ofChannel (file calls) c, (starts m.1 || ends m.1) ∧ t < m.2) (hl' : ∃ m ∈ ofChannel (file calls) c', (starts m.1 || ends m.1) ∧ t < m.2) :
    ¬ (0 < sounding (ofChannel (file calls) c) t ∧ 0 < sounding (ofChannel (file calls) c') t) := by
  rintro ⟨s1, s2⟩
  have sa : ∀ c : Fin 16, (∃ m ∈ ofChannel (file calls) c, (starts m.1 || ends m.1) ∧ t < m.2) → 0 < sounding (ofChannel (file calls) c) t →
      SoundsAt (h.channels c).intervals t := by
    rintro c ⟨m, hm, hm1, hm2⟩ hs
    obtain ⟨⟨e, he1, he2⟩, hv⟩ := C18_intervals ord calls h hr c
    obtain ⟨i, hi, i1, i2⟩ := chain_cover _ _ _ t he1 (by omega) (lt_of_lt_of_le hm2 (he2 m hm hm1))
    refine ⟨i, hi, i1, i2, ?_⟩
    have := (hv i hi).2 t i1 i2
    omega
  obtain ⟨-, -, ivs, bs, h1, h2, h3, h4, h5, -⟩ := readMidi_ok ord calls h hr
  have hne : ∀ c, ∀ i ∈ ivs c, i.start < i.stop := by
    intro c i hi
    obtain ⟨⟨e, he1, -⟩, -⟩ := C18_intervals ord calls h hr c
    rw [h3] at he1
    exact ((chain_le _ _ _ he1).2 i hi).1
  obtain ⟨hlen, hk⟩ := C19_base_sound ivs hne bs h4
  refine hk c c' hcc ?_ ⟨t, by rw [← h3]; exact sa c hl s1, by rw [← h3]; exact sa c' hl' s2⟩
  rw [h5, h5, List.getD_eq_getElem?_getD, List.getD_eq_getElem?_getD] at hb
  show bs[(c : Nat)]? = bs[(c' : Nat)]?
  have e1 : (c : Nat) < bs.length := by omega
  have e2 : (c' : Nat) < bs.length := by omega
  rw [List.getElem?_eq_getElem e1, List.getElem?_eq_getElem e2] at hb ⊢
  simpa using hb

/-- **C19**, for files in which every note ends: channels sharing a base voice never sound together. -/
theorem C19_base_voices_closed (ord : EnumOrder) (calls : List Callback) (h : MidiHandler) (hr : readMidi ord calls = .ok h)
    (hclosed : ∀ c t, 0 < sounding (ofChannel (file calls) c) t → ∃ m ∈ ofChannel (file calls) c, ends m.1 ∧ t < m.2) (c c' : Fin 16) (hcc : c ≠ c')
    (hb : (h.channels c).baseVoice = (h.channels c').baseVoice) (t : Nat) :
    ¬ (0 < sounding (ofChannel (file calls) c) t ∧ 0 < sounding (ofChannel (file calls) c') t) := by
  intro hs
  obtain ⟨m, hm, m1, m2⟩ := hclosed c t hs.1
  obtain ⟨m', hm', m1', m2'⟩ := hclosed c' t hs.2
  exact C19_base_voices ord calls h hr c c' hcc hb t ⟨m, hm, by simp [m1], m2⟩ ⟨m', hm', by simp [m1'], m2'⟩ hs

/-- Two channels that share a base voice: the second starts when the first ends. -/
def demoShare : List Callback :=
  [ .header 1 480, .trackChange, .midiEvent 5 (.noteOn 3 60 100), .midiEvent 10 (.noteOff 3 60 0), .midiEvent 0 (.noteOn 5 60 100),
    .midiEvent 10 (.noteOff 5 60 0) ]

example : (readMidi id demoShare).map (fun h => decide ((h.channels 3).baseVoice = (h.channels 5).baseVoice)) = .ok true ∧
    sounding (ofChannel (file demoShare) 3) 14 = 1 ∧ sounding (ofChannel (file demoShare) 5) 15 = 1 := by
  exact ⟨by decide +kernel, by decide, by decide⟩

/-- **C20.** The search is complete: if some assignment of voices to channels keeps channels that share a voice from sounding together, the search
finds an assignment. -/
theorem C20_base_complete (ivs : Fin 16 → List VoiceInterval) (hne : ∀ c, ∀ i ∈ ivs c, i.start < i.stop) (f : Fin 16 → Fin 8)
    (hf : ∀ c c', c ≠ c' → f c = f c' → ¬ ∃ t, SoundsAt (ivs c) t ∧ SoundsAt (ivs c') t) :
    ∃ bs, findBaseVoices ((List.finRange 16).map ivs) (fun _ => []) = some bs := by
  apply find_complete _ _ ((List.finRange 16).map f)
  rw [fits_channels]
  intro c c' hcc he
  rw [noClash_iff _ _ (hne c) (hne c')]
  exact hf c c' hcc he

/-- **C20**, with C19: the search reports failure exactly if there is no such assignment. -/
theorem C20_base_fails_iff (ivs : Fin 16 → List VoiceInterval) (hne : ∀ c, ∀ i ∈ ivs c, i.start < i.stop) :
    findBaseVoices ((List.finRange 16).map ivs) (fun _ => []) = none ↔
    ∀ f : Fin 16 → Fin 8, ∃ c c', c ≠ c' ∧ f c = f c' ∧ ∃ t, SoundsAt (ivs c) t ∧ SoundsAt (ivs c') t := by
  constructor
  · intro h f
    by_contra hc
    push Not at hc
    obtain ⟨bs, hbs⟩ := C20_base_complete ivs hne f (by
      intro c c' h1 h2 ⟨t, h3⟩
      exact hc c c' h1 h2 t h3.1 h3.2)
    rw [h] at hbs; cases hbs
  · intro h
    cases hf : findBaseVoices ((List.finRange 16).map ivs) (fun _ => []) with
    | none => rfl
    | some bs =>
      obtain ⟨hl, hk⟩ := C19_base_sound ivs hne bs hf
      obtain ⟨c, c', h1, h2, t, h3⟩ := h fun c => bs[c]
      refine absurd ⟨t, h3⟩ (hk c c' h1 ?_)
      have e1 : (c : Nat) < bs.length := by omega
      have e2 : (c' : Nat) < bs.length := by omega
      show bs[(c : Nat)]? = bs[(c' : Nat)]?
      rw [List.getElem?_eq_getElem e1, List.getElem?_eq_getElem e2]
      simpa using h2

/-- Nine channels sounding at once cannot be placed; eight can, and a ninth later fits too. -/
example : findBaseVoices ((List.finRange 16).map fun c => if c < 9 then [⟨0, 10, c, 1⟩] else []) (fun _ => []) = none := by decide +kernel
example : ∃ bs, findBaseVoices ((List.finRange 16).map fun c => if c < 8 then [⟨0, 10, c, 1⟩] else [⟨0, 10, c, 0⟩, ⟨10, 20, c, 1⟩]) (fun _ => []) = some bs :=
  C20_base_complete _ (by intro c i hi; split_ifs at hi <;> simp at hi <;> rcases hi with rfl | rfl <;> simp)
    (fun c => ⟨c % 8, by omega⟩) (by
      intro c c' hcc he
      rintro ⟨t, ⟨i, hi, i1, i2, i3⟩, ⟨j, hj, j1, j2, j3⟩⟩
      simp only [Fin.mk.injEq] at he
      split_ifs at hi hj with h1 h2 h2 <;> simp only [List.mem_cons, List.mem_singleton, List.not_mem_nil, or_false] at hi hj
      · subst hi hj; omega
      · rcases hj with rfl | rfl <;> subst hi <;> simp_all <;> omega
      · rcases hi with rfl | rfl <;> subst hj <;> simp_all <;> omega
      · omega)

end M2S
