import Verif.Proofs.Reading
import Verif.Props.Channels
import Verif.Props.Voices
/-
Property C70: files that need no more voices than there are can be read.
-/
namespace M2S
open MidiSpec

/-- The scan of a paired file succeeds; its intervals tell when the channels sound. -/
theorem scan_paired (l : List TMsg) (hp : Paired l) : ∃ ivs mt, scanChannels (fun c => sortMessages (ofChannel l c)) 0 = .ok (ivs, mt) ∧
    (∀ c, ∀ i ∈ ivs c, i.start < i.stop) ∧ (∀ c t, SoundsAt (ivs c) t → 0 < sounding (ofChannel l c) t) ∧
    (∀ c n t, (c, n) ∈ heldAt l t → SoundsAt (ivs c) t) ∧ ∀ c, ivs c ≠ [] → c ∈ playing l := by
  obtain ⟨⟨ivs, mt⟩, hs⟩ := scanAll_ok (fun c => sortMessages (ofChannel l c)) (fun i m0 => (C18_scan_ok i _ m0).2 (paired_scan l hp i)) 0
  obtain ⟨k1, -⟩ := scanChannels_ok _ (fun c => before_time (sort_pairwise _)) 0 ivs mt hs
  have hvoices : ∀ c, ∀ i ∈ ivs c, ∀ t, i.start ≤ t → t < i.stop → (i.voices : Int) = sounding (ofChannel l c) t := by
    intro c i hi t h1 h2
    obtain ⟨m0, st, e, hst⟩ := k1 c
    rw [← e] at hi
    have := hst.voices i hi t h1 h2
    rw [startsBy_perm (sort_perm _), endsBy_perm (sort_perm _)] at this
    unfold sounding
    omega
  refine ⟨ivs, mt, hs, ?_, ?_, ?_, ?_⟩
  · intro c i hi
    obtain ⟨m0, st, e, hst⟩ := k1 c
    rw [← e] at hi
    exact ((chain_le _ _ _ hst.chain).2 i hi).1
  · rintro c t ⟨i, hi, h1, h2, h3⟩
    have := hvoices c i hi t h1 h2
    omega
  · intro c n t h
    have hpos := held_sounds l hp c n t h
    obtain ⟨a, h1, h2, h3, h4, h5⟩ := (mem_heldAt l t _).1 h
    obtain ⟨e, g1, g2, g3, g4⟩ := hp.closed a h1 h2
    have hlt : t < e.2 := by
      by_contra hle
      exact h5 ⟨e, g1, g2, g3, g4, by omega⟩
    obtain ⟨m0, st, es, hst⟩ := k1 c
    have hmem : e ∈ sortMessages (ofChannel l c) := (sort_perm _).mem_iff.2 (List.mem_filter.2 ⟨g1, by simpa using home_note (g3.trans h3)⟩)
    have := hst.before e hmem (by simp [g2])
    obtain ⟨i, hi, i1, i2⟩ := chain_cover _ _ _ t hst.chain (by omega) (lt_of_lt_of_le hlt this)
    rw [es] at hi
    refine ⟨i, hi, i1, i2, ?_⟩
    have := hvoices c i hi t i1 i2
    omega
  · intro c hne
    obtain ⟨m0, st, es, hst⟩ := k1 c
    have hpos : 0 < st.lastEnd := by
      obtain ⟨i, is, hcons⟩ := List.exists_cons_of_ne_nil hne
      have := (chain_le _ _ _ hst.chain).2 i (by rw [es, hcons]; simp)
      omega
    rcases hst.last with h0 | ⟨m, hm, hm1, -⟩
    · omega
    · have hm := (sort_perm _).mem_iff.1 hm
      obtain ⟨hml, hmc⟩ := List.mem_filter.1 hm
      simp only [decide_eq_true_eq] at hmc
      unfold playing
      rw [List.mem_filter]
      refine ⟨List.mem_finRange c, ?_⟩
      simp only [decide_eq_true_eq]
      simp only [Bool.or_eq_true] at hm1
      rcases hm1 with h | h
      · exact ⟨m, hml, h, hmc⟩
      · have h1 := hp.ended m hml h
        have h2 : 0 < l.countP fun x => ends x.1 && noteOf x.1 = noteOf m.1 && x.2 ≤ m.2 := List.countP_pos_iff.2 ⟨m, hml, by simp [h]⟩
        obtain ⟨a, ha, ha'⟩ := List.countP_pos_iff.1 (lt_of_lt_of_le h2 h1)
        simp only [Bool.and_eq_true, decide_eq_true_eq] at ha'
        obtain ⟨c', n, hn⟩ := note_some (.inr h)
        have e1 := home_note hn
        have e2 := home_note (ha'.1.2.trans hn)
        rw [hmc] at e1
        exact ⟨a, ha, ha'.1.1, by rw [e2, ← e1]⟩

/-- Reading a paired file succeeds if base voices are found and leave enough voices for the notes of the channels that play chords. -/
theorem read_paired (ord : EnumOrder) (calls : List Callback) (hr : Readable calls) (ivs : Fin 16 → List VoiceInterval) (mt : Nat)
    (hscan : scanChannels (fun c => sortMessages (ofChannel (file calls) c)) 0 = .ok (ivs, mt)) (hne : ∀ c, ∀ i ∈ ivs c, i.start < i.stop)
    (hheld : ∀ c n t, (c, n) ∈ heldAt (file calls) t → SoundsAt (ivs c) t) (bs : List (Fin 8))
    (hfind : findBaseVoices ((List.finRange 16).map ivs) (fun _ => []) = some bs)
    (hfew : ∀ a ∈ file calls, starts a.1 = true → ((heldAt (file calls) a.2).filter fun x => Chords (file calls) x.1).length + (based fun c : Fin 16 => bs.getD c 0).length ≤ 9) :
    ∃ h, readMidi ord calls = .ok h := by
  refine read_succeeds ord calls hr ivs mt hscan bs hfind ?_
  intro seq hseq hord
  refine deal_ok ord _ (file calls) (seq.map (·.2)) ?_ ?_ ?_ hfew
  · refine (channels_perm seq).symm.trans (List.Perm.trans ?_ (ofChannel_perm _))
    apply List.Perm.flatMap_left
    intro c _
    rw [hseq]
    exact sort_perm _
  · rw [List.pairwise_map]
    refine hord.imp ?_
    rintro ⟨c, a⟩ ⟨c', b⟩ h
    rcases h with h | ⟨h, h' | ⟨h', -⟩⟩
    · exact .inl h
    · exact .inr ⟨h, le_of_lt h'⟩
    · exact .inr ⟨h, le_of_eq h'⟩
  · intro c c' n n' t hb h1 h2
    by_contra hcc
    obtain ⟨hl, hno⟩ := C19_base_sound ivs hne bs hfind
    refine hno c c' hcc ?_ ⟨t, hheld c n t h1, hheld c' n' t h2⟩
    have e : ∀ c : Fin 16, bs[c]? = some (bs.getD c 0) := by
      intro c
      have : (c : Nat) < bs.length := by omega
      show bs[(c : Nat)]? = _
      rw [List.getD_eq_getElem?_getD, List.getElem?_eq_getElem this]
      rfl
    rw [e c, e c', hb]

/-- Whatever sounds at some instant sounds when the last note started. -/
theorem sounding_start (l : List TMsg) (t : Nat) (h : ∃ c, 0 < sounding (ofChannel l c) t) :
    ∃ a ∈ l, starts a.1 = true ∧ ∀ c, sounding (ofChannel l c) t ≤ sounding (ofChannel l c) a.2 := by
  induction t with
  | zero =>
    obtain ⟨c, hc⟩ := h
    have : 0 < startsBy (ofChannel l c) 0 := by unfold sounding at hc; omega
    obtain ⟨a, ha, ha'⟩ := List.countP_pos_iff.1 this
    simp only [Bool.and_eq_true, decide_eq_true_eq] at ha'
    exact ⟨a, List.mem_of_mem_filter ha, ha'.1, fun c => by rw [Nat.le_zero.1 ha'.2]⟩
  | succ t ih =>
    by_cases hs : ∃ a ∈ l, starts a.1 = true ∧ a.2 = t + 1
    · obtain ⟨a, h1, h2, h3⟩ := hs
      exact ⟨a, h1, h2, fun c => by rw [h3]⟩
    · have hle : ∀ c, sounding (ofChannel l c) (t + 1) ≤ sounding (ofChannel l c) t := by
        intro c
        have e1 : startsBy (ofChannel l c) (t + 1) ≤ startsBy (ofChannel l c) t := by
          apply List.countP_mono_left
          intro m hm
          simp only [Bool.and_eq_true, decide_eq_true_eq]
          rintro ⟨g1, g2⟩
          refine ⟨g1, ?_⟩
          by_contra g3
          exact hs ⟨m, List.mem_of_mem_filter hm, g1, by omega⟩
        have e2 : endsBy (ofChannel l c) t ≤ endsBy (ofChannel l c) (t + 1) := by
          apply List.countP_mono_left
          intro m hm
          simp only [Bool.and_eq_true, decide_eq_true_eq]
          rintro ⟨g1, g2⟩
          exact ⟨g1, by omega⟩
        unfold sounding
        omega
      obtain ⟨c, hc⟩ := h
      obtain ⟨a, h1, h2, h3⟩ := ih ⟨c, lt_of_lt_of_le hc (hle c)⟩
      exact ⟨a, h1, h2, fun c => le_trans (hle c) (h3 c)⟩

/-- **C70.** A readable file whose notes start and end in pairs is read if at most eight channels play and, whenever a note starts, the notes held by the channels
that play chords number at most nine minus the number of playing channels. (One channel alone may play chords of eight notes; beside `k` melodies one channel may
play chords of `8 - k` notes.) -/
theorem C70_few_channels_partial (ord : EnumOrder) (calls : List Callback) (hr : Readable calls) (hp : Paired (file calls)) (hfew : FewVoices (file calls)) :
    ∃ h, readMidi ord calls = .ok h := by
  obtain ⟨h8, hfew⟩ := hfew
  obtain ⟨ivs, mt, s1, s2, -, s4, s5⟩ := scan_paired (file calls) hp
  have hb : busyCount ((List.finRange 16).map ivs) ≤ (playing (file calls)).length := by
    unfold busyCount playing
    rw [List.countP_map, ← List.countP_eq_length_filter]
    apply List.countP_mono_left
    intro c _ hc
    have := s5 c (by simpa using hc)
    unfold playing at this
    exact (List.mem_filter.1 this).2
  obtain ⟨bs, b1, b2⟩ := find_few ((List.finRange 16).map ivs) (fun _ => []) 0 (by simp) (by omega)
  refine read_paired ord calls hr ivs mt s1 s2 s4 bs b1 ?_
  intro a ha hst
  have h9 := hfew a ha hst
  have hpos : 1 ≤ (playing (file calls)).length := by
    obtain ⟨c, n, hn⟩ := note_some (.inl hst)
    have : c ∈ playing (file calls) := List.mem_filter.2 ⟨List.mem_finRange c, decide_eq_true ⟨a, ha, hst, home_note hn⟩⟩
    exact List.length_pos_of_mem this
  have hbl : (based fun c : Fin 16 => bs.getD c 0).length ≤ (playing (file calls)).length := by
    have hsub : ((based fun c : Fin 16 => bs.getD c 0).map Fin.val).Subperm (List.range (playing (file calls)).length) := by
      refine List.Nodup.subperm (((List.nodup_finRange 8).filter _).map Fin.val_injective) ?_
      intro x hx
      obtain ⟨v, hv, rfl⟩ := List.mem_map.1 hx
      have hv' := (List.mem_filter.1 hv).2
      simp only [decide_eq_true_eq] at hv'
      obtain ⟨c, rfl⟩ := hv'
      rw [List.mem_range]
      have hl : bs.length = 16 := (C19_base_sound ivs s2 bs b1).1
      have hc : (c : Nat) < bs.length := by omega
      have hm : bs.getD c 0 ∈ bs := by
        rw [List.getD_eq_getElem?_getD, List.getElem?_eq_getElem hc]
        exact List.getElem_mem hc
      rcases b2 _ hm with h | h <;> omega
    simpa using hsub.length_le
  omega

/-- **C70**, melodies: if no channel plays chords, a file is read as soon as its channels can be given eight voices such that channels with the same voice never
sound together. -/
theorem C70_melodies_partial (ord : EnumOrder) (calls : List Callback) (hr : Readable calls) (hp : Paired (file calls)) (hmel : ∀ c, ¬ Chords (file calls) c)
    (f : Fin 16 → Fin 8) (hf : ∀ a ∈ file calls, starts a.1 = true → ∀ c c', c ≠ c' → f c = f c' →
      ¬ (0 < sounding (ofChannel (file calls) c) a.2 ∧ 0 < sounding (ofChannel (file calls) c') a.2)) :
    ∃ h, readMidi ord calls = .ok h := by
  obtain ⟨ivs, mt, s1, s2, s3, s4, -⟩ := scan_paired (file calls) hp
  obtain ⟨bs, b1⟩ := C20_base_complete ivs s2 f (by
    rintro c c' hcc he ⟨t, h1, h2⟩
    obtain ⟨a, ha, hst, h⟩ := sounding_start (file calls) t ⟨c, s3 c t h1⟩
    exact hf a ha hst c c' hcc he ⟨lt_of_lt_of_le (s3 c t h1) (h c), lt_of_lt_of_le (s3 c' t h2) (h c')⟩)
  refine read_paired ord calls hr ivs mt s1 s2 s4 bs b1 ?_
  intro a _ _
  have h0 : ((heldAt (file calls) a.2).filter fun x => Chords (file calls) x.1) = [] := by
    rw [List.filter_eq_nil_iff]
    intro x _
    simpa using hmel x.1
  have := spare_based fun c : Fin 16 => bs.getD c 0
  rw [h0, List.length_nil]
  omega

/-- A chord of three on channel 2 above melodies on channels 0 and 9, the second of which starts again while it sounds. -/
def trioCalls : List Callback :=
  [ .header 1 480, .trackChange, .midiEvent 0 (.noteOn 0 60 100), .midiEvent 48 (.noteOff 0 60 0), .midiEvent 0 (.noteOn 0 62 100), .midiEvent 48 (.noteOn 0 62 0),
    .trackChange, .midiEvent 10 (.noteOn 2 60 100), .midiEvent 0 (.noteOn 2 64 100), .midiEvent 10 (.noteOn 2 67 100), .midiEvent 30 (.noteOff 2 60 0),
    .midiEvent 0 (.noteOff 2 64 0), .midiEvent 5 (.noteOff 2 67 0),
    .trackChange, .midiEvent 0 (.noteOn 9 38 100), .midiEvent 20 (.noteOn 9 38 100), .midiEvent 20 (.noteOff 9 38 0), .midiEvent 20 (.noteOff 9 38 0) ]

example : Readable trioCalls ∧ Paired (file trioCalls) ∧ (playing (file trioCalls)) = [0, 2, 9] ∧ Chords (file trioCalls) 2 ∧
    (heldAt (file trioCalls) 20).length = 5 ∧ FewVoices (file trioCalls) := by
  refine ⟨⟨?_, by decide, by decide⟩, ⟨by decide, by decide⟩, by decide, by decide, by decide, by decide⟩
  intro f tb h
  simp [trioCalls] at h
  exact h.1

/-- Ten channels in turn. -/
def relayCalls : List Callback :=
  .header 1 480 :: .trackChange :: (List.finRange 10).flatMap fun c : Fin 10 =>
    [.midiEvent 0 (.noteOn ⟨c.val, by omega⟩ 60 100), .midiEvent 24 (.noteOff ⟨c.val, by omega⟩ 60 0)]

/-- Channel `c` is given voice `c mod 8`. -/
example : Readable relayCalls ∧ Paired (file relayCalls) ∧ (playing (file relayCalls)).length = 10 ∧ (∀ c, ¬ Chords (file relayCalls) c) ∧
    (∀ a ∈ file relayCalls, starts a.1 = true → ∀ c c' : Fin 16, c ≠ c' → (⟨c.val % 8, by omega⟩ : Fin 8) = ⟨c'.val % 8, by omega⟩ →
      ¬ (0 < sounding (ofChannel (file relayCalls) c) a.2 ∧ 0 < sounding (ofChannel (file relayCalls) c') a.2)) := by
  refine ⟨⟨?_, by decide +kernel, by decide +kernel⟩, ⟨by decide +kernel, by decide +kernel⟩, by decide +kernel, by decide +kernel, by decide +kernel⟩
  intro f tb h
  have : ∀ x ∈ relayCalls, ∀ f tb, x = .header f tb → f = 1 := by
    intro x hx f tb e
    subst e
    simp only [relayCalls, List.mem_cons, List.mem_flatMap] at hx
    rcases hx with hx | hx | ⟨c, -, hx⟩
    · cases hx; rfl
    · cases hx
    · simp at hx
  exact this _ h f tb rfl

/-- Channels 0 and 1 sound together once; later channel 0 plays a chord of eight notes alone. -/
def chordCalls : List Callback :=
  [.header 1 480, .trackChange, .midiEvent 0 (.noteOn 0 60 100), .midiEvent 0 (.noteOn 1 60 100), .midiEvent 24 (.noteOff 0 60 0), .midiEvent 0 (.noteOff 1 60 0)] ++
  ((List.range 8).map fun n => .midiEvent 0 (.noteOn 0 (60 + UInt8.ofNat n) 100)) ++ [.midiEvent 24 (.noteOff 0 60 0)] ++
  ((List.range 7).map fun n => .midiEvent 0 (.noteOff 0 (61 + UInt8.ofNat n) 0))

/-- **C70**, the full claim is false: a readable file with paired notes of which never more than eight sound at once may be refused, because the base voice of a
silent channel is kept free. -/
theorem C70_eight_notes_false : ¬ ∀ (ord : EnumOrder) (calls : List Callback), Readable calls → Paired (file calls) →
    (∀ a ∈ file calls, starts a.1 = true → (heldAt (file calls) a.2).length ≤ 8) → ∃ h, readMidi ord calls = .ok h := by
  intro H
  obtain ⟨h, hh⟩ := H id chordCalls ⟨by
    intro f tb h
    have : ∀ x ∈ chordCalls, x = .header 1 480 ∨ ∀ f tb, x ≠ .header f tb := by
      intro x hx
      simp only [chordCalls, List.mem_append, List.mem_cons, List.mem_map, List.not_mem_nil, or_false] at hx
      rcases hx with (((rfl | rfl | rfl | rfl | rfl | rfl) | ⟨n, -, rfl⟩) | rfl) | ⟨n, -, rfl⟩ <;> simp
    rcases this _ h with h | h
    · cases h; rfl
    · exact absurd rfl (h f tb), by decide +kernel, by decide +kernel⟩ ⟨by decide +kernel, by decide +kernel⟩ (by decide +kernel)
  have : (readMidi id chordCalls).toOption.isSome = false := by decide +kernel
  rw [hh] at this
  cases this

/-- Channel 0 holds two notes and releases the first; then channel 1 plays a chord of seven notes. -/
def leftoverCalls : List Callback :=
  [.header 1 480, .trackChange, .midiEvent 0 (.noteOn 0 60 100), .midiEvent 0 (.noteOn 0 64 100), .midiEvent 24 (.noteOff 0 60 0)] ++
  ((List.range 7).map fun n => .midiEvent 0 (.noteOn 1 (60 + UInt8.ofNat n) 100)) ++ [.midiEvent 24 (.noteOff 0 64 0)] ++
  ((List.range 7).map fun n => .midiEvent 0 (.noteOff 1 (60 + UInt8.ofNat n) 0))

/-- **C70**, nor is it enough to reserve one voice for every playing channel: a channel may keep a spare voice while its own base voice is free. -/
theorem C70_reserved_false : ¬ ∀ (ord : EnumOrder) (calls : List Callback), Readable calls → Paired (file calls) →
    (∀ a ∈ file calls, starts a.1 = true → ((playing (file calls)).map fun c => max 1 (heldOn (file calls) c a.2).length).sum ≤ 8) → ∃ h, readMidi ord calls = .ok h := by
  intro H
  obtain ⟨h, hh⟩ := H id leftoverCalls ⟨by
    intro f tb h
    have : ∀ x ∈ leftoverCalls, x = .header 1 480 ∨ ∀ f tb, x ≠ .header f tb := by
      intro x hx
      simp only [leftoverCalls, List.mem_append, List.mem_cons, List.mem_map, List.not_mem_nil, or_false] at hx
      rcases hx with (((rfl | rfl | rfl | rfl | rfl) | ⟨n, -, rfl⟩) | rfl) | ⟨n, -, rfl⟩ <;> simp
    rcases this _ h with h | h
    · cases h; rfl
    · exact absurd rfl (h f tb), by decide +kernel, by decide +kernel⟩ ⟨by decide +kernel, by decide +kernel⟩ (by decide +kernel)
  have : (readMidi id leftoverCalls).toOption.isSome = false := by decide +kernel
  rw [hh] at this
  cases this

/-- Both witnesses are refused for want of a voice. -/
example : readMidi id chordCalls = failed .couldntFit ∧ readMidi id leftoverCalls = failed .couldntFit := by
  have h1 : (match readMidi id chordCalls with | .error (.err .couldntFit) => true | _ => false) = true := by decide +kernel
  have h2 : (match readMidi id leftoverCalls with | .error (.err .couldntFit) => true | _ => false) = true := by decide +kernel
  constructor
  · split at h1 <;> simp_all [failed]
  · split at h2 <;> simp_all [failed]

end M2S
