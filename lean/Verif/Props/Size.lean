import Verif.Proofs.SizeDeal
import Verif.Proofs.Manifest
import Verif.Props.Space
import Verif.Props.FileToSound
/-
C88: a bound on the size of a song.
-/
namespace M2S
open MidiSpec Timing RomSpec Nspc Engine

/-- **C88** for one voice, whatever its events: a converted track takes at most the bytes of its events, two for the final rest, and two for every 127 units it lasts. -/
theorem C88_track (evs : List (Message × Nat)) (tpb T : Nat) (f : F32) (cs : List PCmd) (h : trackNew evs tpb T f = .ok cs) (d : UInt8) (vs : Option UInt8) :
    127 * (encBytes placeholder cs d vs).length ≤ 127 * ((evs.map fun ev => eventBytes (usesGlide evs) ev.1).sum + 2) + 2 * Timing.total cs := by
  have hw := within_track (usesGlide evs) tpb T f evs cs (fun ev he hg => by unfold usesGlide; rw [List.any_eq_true]; exact ⟨ev, he, hg⟩) h
  have := size_le_costs cs d vs
  unfold SizedBy at hw
  unfold size at this
  omega

/-- A note of 120 units after a rest of 24 and before one of 100: seven bytes, three for its end, two for its start, two for the final rest. The bound allows three more for the 244 units. -/
example : ∃ cs, trackNew [evOn 24 60 100, evOff 144 60] 24 244 (.fin (1 / 5)) = .ok cs ∧ (encBytes placeholder cs 0xff none).length = 7 ∧ Timing.total cs = 244 ∧
    (([evOn 24 60 100, evOff 144 60].map fun ev => eventBytes false ev.1).sum + 2) = 7 :=
  ⟨[restCmd 24, ⟨some 120, some 12, some 7, .note 164⟩, restCmd 100], by decide +kernel, by decide, by decide, by decide⟩

theorem tracks_within (w : Fin 8 → Nat) (l : List (Fin 8)) (ts : List (List PCmd)) (h : List.Forall₂ (fun v cs => SizedBy (w v + 2) cs) l ts) :
    127 * (ts.map costs).sum ≤ 127 * ((l.map w).sum + 2 * l.length) + 2 * (ts.map Timing.total).sum := by
  induction h with
  | nil => simp
  | cons h1 _ ih =>
    unfold SizedBy at h1
    simp only [List.map_cons, List.sum_cons, List.length_cons]
    omega

theorem drop_empty (g : List PCmd → Nat) (h0 : g [] = 0) (ts : List (List PCmd)) : ((ts.filter fun t => !t.isEmpty).map g).sum = (ts.map g).sum := by
  induction ts with
  | nil => rfl
  | cons t ts ih =>
    cases t with
    | nil => simpa [h0] using ih
    | cons c cs => simpa using ih

theorem bytesOf_le (ts : List (List PCmd)) : bytesOf ts ≤ (ts.map costs).sum := by
  unfold bytesOf
  induction ts with
  | nil => simp
  | cons t ts ih =>
    simp only [List.map_cons, List.sum_cons]
    have := size_le_costs t 0xff none
    omega

theorem preambles_le (n : Nat) (hn : 0 < n) : ((List.range n).map fun i => ((preambleFor [List.range n] i).flatMap (cmdBytes placeholder)).length).sum ≤ 2 * n + 4 := by
  have h : ∀ i, ((preambleFor [List.range n] i).flatMap (cmdBytes placeholder)).length ≤ if i = 0 then 6 else 2 := by
    intro i
    unfold preambleFor
    have e : (List.range n).head? = some 0 := by
      cases n with
      | zero => omega
      | succ n => rw [List.range_succ_eq_map]; rfl
    by_cases hi : i = 0
    · subst hi
      simp [e, cmdBytes, encodeCmd]
    · have : ¬ (0 = i) := fun h => hi h.symm
      simp only [List.any_cons, List.any_nil, e, Option.some.injEq, this, decide_false, Bool.or_self, Bool.false_eq_true, if_false, hi, Bool.or_false]
      split_ifs <;> simp [cmdBytes, encodeCmd]
  refine (sum_le_pointwise n _ _ fun i _ => h i).trans ?_
  cases n with
  | zero => omega
  | succ n =>
    rw [List.range_succ_eq_map, List.map_cons, List.map_map, List.sum_cons]
    have : ((fun i => if i = 0 then 6 else 2) ∘ Nat.succ : Nat → Nat) = fun _ => 2 := by funext i; simp
    rw [this]
    simp
    omega

/-- The costs of the commands of a converted song. -/
theorem song_costs (ord : EnumOrder) (ho : ∀ l, (ord l).Perm l) (calls : List Callback) (m : MidiHandler) (hr : readMidi ord calls = .ok m) (f : F32) (tracks : List (List PCmd))
    (h1 : voiceTracks m f = .ok tracks) :
    127 * (tracks.map costs).sum ≤ 127 * (fileBytes (file calls) + 16) + 2 * (tracks.map Timing.total).sum ∧ tracks.length ≤ 8 := by
  unfold voiceTracks at h1
  rw [res_bind] at h1
  obtain ⟨ts, h1, h2⟩ := h1
  rw [res_pure] at h2
  obtain ⟨seq, outs, k, s1, s2, s3, s4⟩ := read_emits ord calls m hr
  have hperm := read_perm ord calls m hr seq s1
  obtain ⟨e1, e2⟩ := emits_worth (usesGlide (file calls)) ord ho _ _ _ _ s3
  have hgl : ∀ v, ∀ ev ∈ m.voices v, glideOn ev.1 = true → usesGlide (file calls) = true := by
    intro v ev hev hg
    rw [s4] at hev
    obtain ⟨p, hp, rfl⟩ := List.mem_map.1 hev
    obtain ⟨x, hx, hxg⟩ := e2 p (List.mem_of_mem_filter hp) hg
    unfold usesGlide
    rw [List.any_eq_true]
    exact ⟨x, List.mem_of_mem_filter (hperm.mem_iff.1 hx), hxg⟩
  have hf : List.Forall₂ (fun v cs => SizedBy (((m.voices v).map fun ev => eventBytes (usesGlide (file calls)) ev.1).sum + 2) cs) (List.finRange 8) ts :=
    (mapM_forall₂ h1).imp fun v cs hc => within_track _ _ _ _ _ _ (hgl v) hc
  have hts := tracks_within _ _ _ hf
  have hlen : tracks.length ≤ 8 := by
    rw [← h2]
    refine (List.length_filter_le _ _).trans ?_
    rw [← (mapM_forall₂ h1).length_eq, List.length_finRange]
  have hsum : ((List.finRange 8).map fun v => ((m.voices v).map fun ev => eventBytes (usesGlide (file calls)) ev.1).sum).sum ≤ fileBytes (file calls) := by
    have a1 : ((List.finRange 8).map fun v => ((m.voices v).map fun ev => eventBytes (usesGlide (file calls)) ev.1).sum).sum =
        (((List.finRange 8).flatMap fun v => onVoice outs v).map fun ev => eventBytes (usesGlide (file calls)) ev.1).sum := by
      rw [List.map_flatMap, List.flatMap_def, List.sum_flatten, List.map_map]
      congr 1
      apply List.map_congr_left
      intro v _
      simp only [Function.comp_def, s4]
    rw [a1, ((voices_perm outs).map _).sum_eq, List.map_map]
    refine e1.trans ?_
    rw [(hperm.map _).sum_eq]
    unfold fileBytes
    exact (List.filter_sublist.map _).sum_le_sum (fun _ _ => Nat.zero_le _)
  have hc := drop_empty costs rfl ts
  have ht := drop_empty Timing.total rfl ts
  rw [h2] at hc ht
  rw [List.length_finRange] at hts
  exact ⟨by omega, hlen⟩

/-- **C88.** A song converted from a file without loop extraction takes at most 44 bytes, the bytes of the file's messages, and two bytes for every 127 units its tracks last. -/
theorem C88_song (ord : EnumOrder) (ho : ∀ l, (ord l).Perm l) (calls : List Callback) (m : MidiHandler) (hr : readMidi ord calls = .ok m) (f : F32) (s : Song)
    (h : songFromMidi m f false = .ok s) :
    127 * songSize s ≤ 127 * (44 + fileBytes (file calls)) + 2 * (s.tracks.map Timing.total).sum := by
  unfold songFromMidi at h
  rw [res_bind] at h
  obtain ⟨tracks, h1, h⟩ := h
  simp only [Bool.false_eq_true, if_false, res_pure] at h
  subst h
  by_cases h0 : tracks = []
  · subst h0
    simp [songSize]
  have hpos : 0 < tracks.length := List.length_pos_of_ne_nil h0
  have hsz := songSize_le ⟨[List.range tracks.length], tracks⟩ (by
    intro p hp
    simp only [List.mem_singleton] at hp
    subst hp
    intro he
    rw [List.range_eq_nil] at he
    omega)
  have hpre := preambles_le tracks.length hpos
  obtain ⟨hcs, hlen⟩ := song_costs ord ho calls m hr f tracks h1
  have hle := bytesOf_le tracks
  simp only at hsz ⊢
  omega

/-- How long the tracks of a tidy file last. -/
theorem tidy_total (ord : EnumOrder) (ho : ∀ l, (ord l).Perm l) (calls : List Callback) (m : MidiHandler) (hr : readMidi ord calls = .ok m) (hs : Sane m.ticksPerBeat (file calls))
    (ht : Tidy (file calls)) (hp : 0 < m.ticksPerBeat) (hp2 : m.ticksPerBeat < 65536) (h24 : 24 ∣ m.ticksPerBeat) (hT : m.maxTime + 3525 ≤ exactTicks m.ticksPerBeat)
    (hT2 : 24 * (m.maxTime + 1) ≤ 32511 * m.ticksPerBeat) (f : F32) (tracks : List (List PCmd)) (h1 : voiceTracks m f = .ok tracks) :
    (tracks.map Timing.total).sum ≤ 8 * (24 * m.maxTime / m.ticksPerBeat + 1) := by
  unfold voiceTracks at h1
  rw [res_bind] at h1
  obtain ⟨ts, h1, h2⟩ := h1
  rw [res_pure] at h2
  have hx := drop_empty Timing.total rfl ts
  rw [h2] at hx
  have hone : ∀ t ∈ ts, Timing.total t ≤ 24 * m.maxTime / m.ticksPerBeat + 1 := by
    intro t htm
    obtain ⟨v, -, hv⟩ := mapM_mem _ _ _ h1 t htm
    obtain ⟨cs, c1, c2⟩ := C14_end_together_any_partial (m.voices v) m.ticksPerBeat m.maxTime m.maxTime f hp hp2 hT hT2
      (by have := exactTicks_le m.ticksPerBeat; omega) (C63_voices ord calls m hr hs v) ((C64_voices ord ho calls m hr hs ht).1 v)
    rw [hv] at c1; cases c1
    by_cases hne : t = []
    · subst hne; simp [Timing.total]
    · have c3 := (c2 hne).1
      have : slack m.ticksPerBeat = 0 := by unfold slack; rw [if_pos (by omega)]
      rw [this] at c3
      have : Timing.total t < 24 * m.maxTime / m.ticksPerBeat + 2 := by
        by_contra hge
        push Not at hge
        have h3 := Nat.lt_div_mul_add hp (a := 24 * m.maxTime)
        have h4 := Nat.mul_le_mul_right m.ticksPerBeat hge
        rw [Nat.add_mul] at h4
        omega
      omega
  have hl : ts.length = 8 := by rw [← (mapM_forall₂ h1).length_eq, List.length_finRange]
  have hsum : (ts.map Timing.total).sum ≤ ts.length * (24 * m.maxTime / m.ticksPerBeat + 1) := by
    have := List.sum_le_card_nsmul (ts.map Timing.total) (24 * m.maxTime / m.ticksPerBeat + 1) (by
      intro x hx
      obtain ⟨t, ht, rfl⟩ := List.mem_map.1 hx
      exact hone t ht)
    simpa using this
  rw [hl] at hsum
  omega

/-- **C88** in terms of the file alone: for a tidy file of sane content at a resolution of a multiple of 24 ticks per beat, the tracks last `24 · maxTime / tpb` units, one more if that is no whole number. -/
theorem C88_tidy_partial (ord : EnumOrder) (ho : ∀ l, (ord l).Perm l) (calls : List Callback) (m : MidiHandler) (hr : readMidi ord calls = .ok m) (hs : Sane m.ticksPerBeat (file calls))
    (ht : Tidy (file calls)) (hp : 0 < m.ticksPerBeat) (hp2 : m.ticksPerBeat < 65536) (h24 : 24 ∣ m.ticksPerBeat) (hT : m.maxTime + 3525 ≤ exactTicks m.ticksPerBeat)
    (hT2 : 24 * (m.maxTime + 1) ≤ 32511 * m.ticksPerBeat) (f : F32) :
    ∃ s, songFromMidi m f false = .ok s ∧ 127 * songSize s ≤ 127 * (44 + fileBytes (file calls)) + 16 * (24 * m.maxTime / m.ticksPerBeat + 1) := by
  obtain ⟨⟨s, h⟩, -⟩ := C63_converts_partial ord calls m hr hs f hp hp2 hT
  refine ⟨s, h, (C88_song ord ho calls m hr f s h).trans ?_⟩
  unfold songFromMidi at h
  rw [res_bind] at h
  obtain ⟨tracks, h1, h⟩ := h
  simp only [Bool.false_eq_true, if_false, res_pure] at h
  subst h
  have := tidy_total ord ho calls m hr hs ht hp hp2 h24 hT hT2 f tracks h1
  show 127 * (44 + fileBytes (file calls)) + 2 * (tracks.map Timing.total).sum ≤ _
  omega

/-- **C88** for a bank: songs with bounds that fit into the first chunk together with 24 bytes each (pointers, loop) do not make the build fail for lack of space. -/
theorem C88_bank {Path : Type} (conv : Converter Path) (v : Bool) (songs : List (SongDef Path)) (es : List Encoded) (base first fs : Nat) (b : Bank) (rom : Rom)
    (hb : base + 8 < 2 ^ 24) (hin : b.In (ofRom rom) base) (hes : List.Forall₂ (EncodedOf conv) songs es) (bound : SongDef Path → Nat)
    (hbound : ∀ d ∈ songs, ∀ s, loadSong conv d = .ok s → songSize s ≤ bound d)
    (hstart : first - 0xd000 ≤ b.songs.len) (hroom : (songs.map fun d => 24 + bound d).sum ≤ b.songs.len - (first - 0xd000)) :
    writeBank conv v songs rom base first fs ≠ .error (.err .doesNotFit) := by
  refine C83_bank_partial conv conv v songs es es base first fs b rom hb hin hes hes (fun d _ s s' h1 h2 => by rw [h1] at h2; cases h2; exact le_rfl) hstart (le_trans ?_ hroom)
  clear hin hstart hroom
  induction hes with
  | nil => simp [blocks, RomSpec.total]
  | cons h1 _ ih =>
    have i := ih fun d hd => hbound d (by simp [hd])
    obtain ⟨s, e1, -⟩ := id h1
    have q1 := encoded_size h1 e1
    have q2 := hbound _ (by simp) s e1
    have q3 : ∀ x : Bool, (if x then 8 else 4) + 16 ≤ 24 := by decide
    have q4 := q3 (‹SongDef Path›).loops
    unfold blocks RomSpec.total at *
    simp only [List.flatMap_cons, List.map_append, List.sum_append, List.map_cons, List.sum_cons]
    omega

/-! The tune of C55: 11 notes on two channels, 32 bytes. Its messages account for 11 * (11 + 3) bytes. -/

example : readMidi id tuneCalls = .ok tuneMidi ∧ songFromMidi tuneMidi (F32.ofRat (1 / 5)) false = .ok tunePlain ∧ songSize tunePlain = 32 ∧ fileBytes (file tuneCalls) = 154 ∧
    (tunePlain.tracks.map Timing.total).sum = 288 := ⟨tuneMidi_read, tunePlain_of, by decide, by decide +kernel, by decide⟩

/-- With portamento and on the drum channel a note accounts for more, and the program of a channel for all voices it may be sent to. -/
example : fileBytes [(.midiEvent 0 (.controlChange 3 65 127), 0), (.midiEvent 0 (.programChange 3 5), 0), (.midiEvent 0 (.noteOn 3 60 100), 0), (.midiEvent 0 (.noteOn 9 36 100), 0),
    (.midiEvent 24 (.noteOff 9 36 0), 24), (.midiEvent 0 (.noteOn 3 60 0), 24)] = 32 + 15 + 19 + 3 + 3 := by decide +kernel

end M2S
