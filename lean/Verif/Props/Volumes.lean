import Verif.Proofs.Volumes
import Verif.Props.Programs
/-
Property C69: every note is played with the volume its channel has set.
-/
namespace M2S
open MidiSpec

/-- **C69**, on base voices. When a note of a channel starts on the base voice of the channel, the last volume on the voice is the one the channel has set at that
time, provided the other channels with that base voice never set a volume. -/
theorem C69_base_voice_partial (ord : EnumOrder) (ho : ∀ l, (ord l).Perm l) (calls : List Callback) (h : MidiHandler) (hr : readMidi ord calls = .ok h)
    (ch : Fin 16)
    (hq : ∀ c ≠ ch, (h.channels c).baseVoice = (h.channels ch).baseVoice → ∀ m ∈ (h.channels c).messages, volumeOf m.1 = none)
    (a b : List (Message × Nat)) (x : Message) (t : Nat) (hv : h.voices (h.channels ch).baseVoice = a ++ (x, t) :: b) (hx : startsOn ch x) :
    lastVolume a = volumeAt (h.channels ch).messages t := by
  obtain ⟨seq, outs, k, s1, s2, s3, s4, s5⟩ := read_processing ord calls h hr
  obtain ⟨hx1, hx2⟩ : starts x = true ∧ home x = some ch := by simpa [startsOn] using hx
  rw [s4] at hv
  obtain ⟨done, rest, outs1, k1, o1, k2, d, c, n, vel, e1, e2, e3, e4, e5, e6, e7, -⟩ := volume_context ord ho _ seq outs k s3 _ a b x t hv hx1
  have hc : c = ch := by rw [e3] at hx2; simpa [home] using hx2
  subst hc
  have hriv : ∀ m ∈ seq, ∀ c' ≠ c, (h.channels c').baseVoice = (h.channels c).baseVoice → (volumeOf m.1).map (·.1) ≠ some c' := by
    intro m hm c' hc' hb hp
    cases hpm : volumeOf m.1 with
    | none => rw [hpm] at hp; cases hp
    | some cp =>
      rw [hpm] at hp
      simp only [Option.map_some, Option.some.injEq] at hp
      have := home_volume m.1 cp.1 cp.2 hpm
      rw [hp] at this
      have := hq c' hc' hb m (s5 m hm c' this)
      rw [hpm] at this; cases this
  have hal := aloneV_emits ord ho _ c done outs1 k1 (fun m hm => hriv m (by rw [e1]; simp [hm])) e4
  have hpa := volIn_at c seq done rest _ t e1 s2 (by
    have hv0 : vel ≠ 0 := by rintro rfl; exact absurd e2 (by decide)
    simp [starts, hv0])
  rw [e7, hal.voice, ← s1 c, ← hpa]
  split_ifs
  · rw [hal.vol]; cases volIn c done <;> rfl
  · rfl

/-- **C69**, on overflow voices (voices that are no channel's base voice). When a note of a channel starts there, the last volume on the voice is the one the channel
has set, provided the channel sets a volume and does so before its first note only. -/
theorem C69_overflow_voice_partial (ord : EnumOrder) (ho : ∀ l, (ord l).Perm l) (calls : List Callback) (h : MidiHandler) (hr : readMidi ord calls = .ok h)
    (ch : Fin 16) (v : Fin 8) (hv : ∀ c, (h.channels c).baseVoice ≠ v)
    (hp : ∃ m ∈ (h.channels ch).messages, volumeOf m.1 ≠ none)
    (hq : ∀ m ∈ (h.channels ch).messages, ∀ m' ∈ (h.channels ch).messages, volumeOf m.1 ≠ none → startsOn ch m'.1 → m.2 ≤ m'.2)
    (a b : List (Message × Nat)) (x : Message) (t : Nat) (hs : h.voices v = a ++ (x, t) :: b) (hx : startsOn ch x) :
    lastVolume a = volumeAt (h.channels ch).messages t := by
  obtain ⟨seq, outs, k, s1, s2, s3, s4, s5⟩ := read_processing ord calls h hr
  obtain ⟨hx1, hx2⟩ : starts x = true ∧ home x = some ch := by simpa [startsOn] using hx
  rw [s4] at hs
  obtain ⟨done, rest, outs1, k1, o1, k2, d, c, n, vel, e1, e2, e3, e4, e5, e6, e7, -⟩ := volume_context ord ho _ seq outs k s3 _ a b x t hs hx1
  have hc : c = ch := by rw [e3] at hx2; simpa [home] using hx2
  subst hc
  have rankP : ∀ m : Message, volumeOf m ≠ none → rank m = 1 := by
    intro m hm
    cases hvm : volumeOf m with
    | none => exact absurd hvm hm
    | some cp => obtain ⟨d, rfl⟩ := (volumeOf_some m cp.1 cp.2).1 hvm; rfl
  have rankS : ∀ m : Message, startsOn c m = true → rank m = 2 ∧ home m = some c := by
    intro m hm
    obtain ⟨h1, h2⟩ : starts m = true ∧ home m = some c := by simpa [startsOn] using hm
    refine ⟨?_, h2⟩
    have : ends m = false := by
      cases m with
      | midiEvent d e => cases e <;> simp_all [starts, ends]
      | _ => simp [starts] at h1
    simp [rank, this, h1]
  have homeP : ∀ (m : Message), (volumeOf m).map (·.1) = some c → home m = some c ∧ volumeOf m ≠ none := by
    intro m hm
    cases hpm : volumeOf m with
    | none => rw [hpm] at hm; cases hm
    | some cp =>
      rw [hpm] at hm
      simp only [Option.map_some, Option.some.injEq] at hm
      have := home_volume m cp.1 cp.2 hpm
      rw [hm] at this
      exact ⟨this, by simp⟩
  have g1 : ∀ a x b, seq = a ++ x :: b → (∃ y ∈ a, startsOn c y.1 = true) → (volumeOf x.1).map (·.1) ≠ some c := by
    rintro a x b hab ⟨y, hy, hys⟩ hxp
    obtain ⟨p1, p2⟩ := homeP _ hxp
    have hle := hq x (s5 x (by rw [hab]; simp) c p1) y (s5 y (by rw [hab]; simp [hy]) c (rankS _ hys).2) p2 hys
    rw [hab, List.pairwise_append] at s2
    have hb := s2.2.2 y hy x (by simp)
    unfold Before at hb
    rw [rankP _ p2, (rankS _ hys).1] at hb
    omega
  have g2 : ∀ a x b, seq = a ++ x :: b → startsOn c x.1 = true → volIn c a ≠ none := by
    intro a x b hab hxs
    obtain ⟨p, hpm, hpp⟩ := hp
    have hph : home p.1 = some c := by
      rw [← s1 c] at hpm
      simpa using (List.mem_filter.1 hpm).2
    have hps : p ∈ seq := by rw [← s1 c] at hpm; exact (List.mem_filter.1 hpm).1
    have hle := hq p hpm x (s5 x (by rw [hab]; simp) c (rankS _ hxs).2) hpp hxs
    have hpa : p ∈ a := by
      rw [hab] at hps
      rcases List.mem_append.1 hps with hps | hps
      · exact hps
      · exfalso
        rcases List.mem_cons.1 hps with rfl | hpb
        · have := rankP _ hpp; rw [(rankS _ hxs).1] at this; omega
        · rw [hab, List.pairwise_append, List.pairwise_cons] at s2
          have hb := s2.2.1.1 p hpb
          unfold Before at hb
          rw [rankP _ hpp, (rankS _ hxs).1] at hb
          omega
    unfold volIn lastVolume
    intro hn
    rw [List.getLast?_eq_none_iff, List.filterMap_eq_nil_iff] at hn
    exact hpp (hn p (List.mem_filter.2 ⟨hpa, by simpa using hph⟩))
  have hst := strayV_emits ord ho _ c v hv done outs1 k1
    (fun a x b hab => g1 a x (b ++ (.midiEvent d (.noteOn c n vel), t) :: rest) (by rw [e1, hab]; simp))
    (fun a x b hab => g2 a x (b ++ (.midiEvent d (.noteOn c n vel), t) :: rest) (by rw [e1, hab]; simp)) e4
  have hon : startsOn c (.midiEvent d (.noteOn c n vel)) = true := startsOn_noteOn d c n vel e2
  have hpa := volIn_at c seq done rest _ t e1 s2 (by simpa [startsOn] using hon : _ ∧ _).1
  have hne := g2 done _ rest e1 hon
  rw [e7, ← s1 c, ← hpa]
  split_ifs with hl
  · rw [hst.vol]
    cases hpi : volIn c done with
    | none => exact absurd hpi hne
    | some y => rfl
  · simp only [List.getLast?_nil, Option.none_or]
    exact hst.voice (by simpa using hl)

/-- Channel 3 sets its volume and plays a chord on its base voice 0 and on voice 2; channel 4, with base voice 1, sets none. -/
def loudCalls : List Callback := [.header 1 24, .trackChange, .midiEvent 0 (.controlChange 3 7 90), .midiEvent 0 (.noteOn 3 60 100), .midiEvent 1 (.noteOn 3 64 100),
  .midiEvent 10 (.noteOff 3 60 0), .midiEvent 0 (.noteOff 3 64 0), .trackChange, .midiEvent 0 (.noteOn 4 40 80), .midiEvent 24 (.noteOff 4 40 0)]

example : (readMidi id loudCalls).map (fun h => ((h.channels 3).baseVoice, (List.finRange 16).all (fun c => (h.channels c).baseVoice ≠ 2),
    (List.finRange 16).all (fun c => c = 3 ∨ (h.channels c).messages.all fun m => volumeOf m.1 = none),
    (h.channels 3).messages.all (fun m => (h.channels 3).messages.all fun m' => volumeOf m.1 = none ∨ startsOn 3 m'.1 = false ∨ m.2 ≤ m'.2)))
    = .ok (0, true, true, true) := by decide +kernel

example : (readMidi id loudCalls).map (fun h => ((h.voices 0).any fun m => startsOn 3 m.1, (h.voices 2).any fun m => startsOn 3 m.1, lastVolume (h.voices 2))) = .ok (true, true, some (3, 90)) := by
  decide +kernel

/-- **C69** in full is false on shared base voices: channels 0 and 1 share voice 0; the volume of channel 1 is in force when the note of channel 0 starts. -/
theorem C69_shared_voice_false : ∃ calls h a b x t, readMidi id calls = .ok h ∧ h.voices 0 = a ++ (x, t) :: b ∧ startsOn 0 x ∧
    lastVolume a ≠ volumeAt (h.channels 0).messages t := by
  have hd : (readMidi id [.header 1 24, .trackChange, .midiEvent 0 (.controlChange 0 7 50), .midiEvent 0 (.noteOn 0 60 100), .midiEvent 10 (.noteOff 0 60 0),
      .trackChange, .midiEvent 0 (.controlChange 1 7 70), .midiEvent 20 (.noteOn 1 62 100), .midiEvent 10 (.noteOff 1 62 0)]).map
      (fun h => (h.voices 0 = (h.voices 0).take 2 ++ (.midiEvent 0 (.noteOn 0 60 100), 0) :: (h.voices 0).drop 3 : Bool) &&
        (lastVolume ((h.voices 0).take 2) ≠ volumeAt (h.channels 0).messages 0 : Bool)) = .ok true := by decide +kernel
  revert hd
  generalize hc : ([.header 1 24, .trackChange, .midiEvent 0 (.controlChange 0 7 50), .midiEvent 0 (.noteOn 0 60 100), .midiEvent 10 (.noteOff 0 60 0),
      .trackChange, .midiEvent 0 (.controlChange 1 7 70), .midiEvent 20 (.noteOn 1 62 100), .midiEvent 10 (.noteOff 1 62 0)] : List Callback) = calls
  cases hr : readMidi id calls with
  | error e => intro hd; cases hd
  | ok h =>
    intro hd
    simp only [Except.map, Except.ok.injEq, Bool.and_eq_true, decide_eq_true_eq] at hd
    exact ⟨calls, h, _, _, _, _, hr, hd.1, by decide, hd.2⟩

/-- **C69** in full is false on overflow voices: the second note of channel 0 on voice 1 is played with the volume set before the first one. -/
theorem C69_stale_voice_false : ∃ calls h a b x t, readMidi id calls = .ok h ∧ h.voices 1 = a ++ (x, t) :: b ∧ startsOn 0 x ∧
    lastVolume a ≠ volumeAt (h.channels 0).messages t := by
  have hd : (readMidi id [.header 1 24, .trackChange, .midiEvent 0 (.controlChange 0 7 50), .midiEvent 0 (.noteOn 0 60 100), .midiEvent 1 (.noteOn 0 62 100),
      .midiEvent 10 (.noteOff 0 62 0), .midiEvent 1 (.controlChange 0 7 70), .midiEvent 20 (.noteOn 0 62 100), .midiEvent 10 (.noteOff 0 62 0), .midiEvent 10 (.noteOff 0 60 0)]).map
      (fun h => (h.voices 1 = (h.voices 1).take 3 ++ (.midiEvent 20 (.noteOn 0 62 100), 32) :: (h.voices 1).drop 4 : Bool) &&
        (lastVolume ((h.voices 1).take 3) ≠ volumeAt (h.channels 0).messages 32 : Bool)) = .ok true := by decide +kernel
  revert hd
  generalize hc : ([.header 1 24, .trackChange, .midiEvent 0 (.controlChange 0 7 50), .midiEvent 0 (.noteOn 0 60 100), .midiEvent 1 (.noteOn 0 62 100),
      .midiEvent 10 (.noteOff 0 62 0), .midiEvent 1 (.controlChange 0 7 70), .midiEvent 20 (.noteOn 0 62 100), .midiEvent 10 (.noteOff 0 62 0), .midiEvent 10 (.noteOff 0 60 0)] :
      List Callback) = calls
  cases hr : readMidi id calls with
  | error e => intro hd; cases hd
  | ok h =>
    intro hd
    simp only [Except.map, Except.ok.injEq, Bool.and_eq_true, decide_eq_true_eq] at hd
    exact ⟨calls, h, _, _, _, _, hr, hd.1, by decide, hd.2⟩

end M2S
