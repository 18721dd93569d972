import Verif.Proofs.Causal
import Verif.Props.FileToSound
import Verif.Props.Mute
import Verif.Proofs.Strike
/-
Property C100: the beginning of a song does not depend on what comes later.
-/
namespace M2S
open MidiSpec Timing

/-- The conversion of events adds commands at the end. -/
theorem steps_append (tpb : Nat) (f : F32) (evs : List TMsg) : ∀ st st', evs.foldlM (trackStep tpb f) st = .ok st' → ∃ new, st'.commands = st.commands ++ new := by
  induction evs with
  | nil => intro st st' h; cases h; exact ⟨[], by simp⟩
  | cons ev evs ih =>
    intro st st' h
    rw [List.foldlM_cons] at h
    cases h1 : trackStep tpb f st ev with
    | error e => rw [h1] at h; cases h
    | ok s =>
      rw [h1] at h
      obtain ⟨n1, e1⟩ := ih s st' h
      obtain ⟨⟨n2, e2, -⟩, -⟩ := emits_step tpb f st s ev h1
      exact ⟨n2 ++ n1, by rw [e1, e2, List.append_assoc]⟩

/-- **C100 (tracks).** The track of a voice begins like the track of the first messages of the voice: with the same commands, of which only the last can differ, and only in
duration and sustain. -/
theorem C100_track (x y : List TMsg) (tpb maxTime : Nat) (f : F32) (t : List PCmd) (h : trackNew (x ++ y) tpb maxTime f = .ok t) :
    ∃ t0, trackNew x tpb 0 f = .ok t0 ∧ BeginsLike t0 t := by
  unfold trackNew at h ⊢
  rw [List.foldlM_append] at h
  cases h1 : x.foldlM (trackStep tpb f) {} with
  | error e => rw [h1] at h; cases h
  | ok s1 =>
    rw [h1] at h
    cases h2 : y.foldlM (trackStep tpb f) s1 with
    | error e =>
      change (y.foldlM (trackStep tpb f) s1 >>= _) = _ at h
      rw [h2] at h; cases h
    | ok s2 =>
      change (y.foldlM (trackStep tpb f) s1 >>= _) = _ at h
      rw [h2] at h
      obtain ⟨new, hnew⟩ := steps_append tpb f y s1 s2 h2
      change (if s2.commands.isEmpty = true then pure [] else (if maxTime > s2.lastNoteEnd then insertRest s2.commands s2.lastNoteEnd maxTime tpb >>= fun r => sustainPass r.1
        else sustainPass s2.commands)) = .ok t at h
      change ∃ t0, (if s1.commands.isEmpty = true then pure [] else sustainPass s1.commands) = .ok t0 ∧ BeginsLike t0 t
      by_cases he : s1.commands.isEmpty = true
      · rw [if_pos he]
        exact ⟨[], rfl, ⟨List.nil_prefix, List.nil_prefix⟩⟩
      · rw [if_neg he]
        have he2 : ¬ s2.commands.isEmpty = true := by
          rw [hnew]
          simp only [List.isEmpty_iff, List.append_eq_nil_iff] at he ⊢
          exact fun h => he h.1
        rw [if_neg he2] at h
        obtain ⟨z, hz⟩ : ∃ z, sustainPass (s1.commands ++ z) = .ok t := by
          split at h
          · cases h3 : insertRest s2.commands s2.lastNoteEnd maxTime tpb with
            | error e => rw [h3] at h; cases h
            | ok r =>
              obtain ⟨cs, e⟩ := r
              rw [h3] at h
              obtain ⟨rs, h4, -⟩ := insertRest_rests _ _ _ _ _ _ h3
              subst h4
              rw [hnew, List.append_assoc] at h
              exact ⟨_, h⟩
          · rw [hnew] at h
            exact ⟨_, h⟩
        exact sustainPass_begin _ _ _ hz

/-- **C100 (voices).** Let two files have the same messages before the time `T` and give all channels the same first voices. Then each of the eight voices has the same messages
before `T`, and these come first. -/
theorem C100_voices (ord : EnumOrder) (a b : List Callback) (ha hb : MidiHandler) (hra : readMidi ord a = .ok ha) (hrb : readMidi ord b = .ok hb) (T : Nat)
    (hab : earlier T (file a) = earlier T (file b)) (hfirst : ∀ c, (ha.channels c).baseVoice = (hb.channels c).baseVoice) (v : Fin 8) :
    earlier T (ha.voices v) = earlier T (hb.voices v) ∧ earlier T (ha.voices v) <+: ha.voices v ∧ earlier T (hb.voices v) <+: hb.voices v := by
  obtain ⟨sa, oa, ka, a1, a2, a3, a4⟩ := read_emits ord a ha hra
  obtain ⟨sb, ob, kb, b1, b2, b3, b4⟩ := read_emits ord b hb hrb
  obtain ⟨-, -, -, -, ach, -⟩ := readMidi_ok ord a ha hra
  obtain ⟨-, -, -, -, bch, -⟩ := readMidi_ok ord b hb hrb
  have time : ∀ s : List (Fin 16 × TMsg), s.Pairwise MergeOrder → (s.map (·.2)).Pairwise fun a b => a.2 ≤ b.2 := by
    intro s hs
    rw [List.pairwise_map]
    refine hs.imp ?_
    rintro p q (h | ⟨h, -⟩)
    · exact Nat.le_of_lt h
    · exact Nat.le_of_eq h
  have hm := earlier_merged T a b hab sa sb (fun c => by rw [a1 c, ach c]) a2 (fun c => by rw [b1 c, bch c]) b2
  obtain ⟨o1, k1, e1, e2⟩ := emits_earlier ord _ T _ _ (time sa a2) oa ka a3
  obtain ⟨o2, k2, g1, g2⟩ := emits_earlier ord _ T _ _ (time sb b2) ob kb b3
  have hbase : (fun c => (ha.channels c).baseVoice) = fun c => (hb.channels c).baseVoice := funext hfirst
  rw [hbase, hm, g1] at e1
  simp only [Option.some.injEq, Prod.mk.injEq] at e1
  have p1 := (earlier_split T _ (e2 v).1).symm
  have p2 := (earlier_split T _ (g2 v).1).symm
  rw [a4, b4]
  exact ⟨by rw [(e2 v).2, (g2 v).2, e1.1], ⟨_, p1⟩, ⟨_, p2⟩⟩

/-- The values of a successful `mapM`. -/
theorem mapM_values {α β : Type} (g : α → Res β) (d : β) : ∀ (l : List α) (ys : List β), l.mapM g = .ok ys →
    ys = l.map (fun x => (g x).toOption.getD d) ∧ ∀ x ∈ l, g x = .ok ((g x).toOption.getD d)
  | [], ys, h => by cases h; simp
  | x :: l, ys, h => by
    rw [List.mapM_cons] at h
    cases h1 : g x with
    | error e => rw [h1] at h; cases h
    | ok y =>
      rw [h1] at h
      cases h2 : l.mapM g with
      | error e =>
        change (l.mapM g >>= _) = _ at h
        rw [h2] at h; cases h
      | ok zs =>
        change (l.mapM g >>= _) = _ at h
        rw [h2] at h
        cases h
        obtain ⟨e1, e2⟩ := mapM_values g d l zs h2
        refine ⟨by rw [List.map_cons, ← e1, h1]; rfl, ?_⟩
        intro z hz
        rcases List.mem_cons.1 hz with rfl | hz
        · rw [h1]; rfl
        · exact e2 z hz

/-- **C100 (songs).** Let two files of the same resolution have the same messages before `T`, give all channels the same first voices, and be converted without loop
optimisation. Then on each voice the tracks of both songs begin like the track of the messages before `T`; empty tracks are left out of the songs. -/
theorem C100_song (ord : EnumOrder) (a b : List Callback) (ha hb : MidiHandler) (hra : readMidi ord a = .ok ha) (hrb : readMidi ord b = .ok hb) (T : Nat)
    (hab : earlier T (file a) = earlier T (file b)) (hbase : timeBase a = timeBase b) (hfirst : ∀ c, (ha.channels c).baseVoice = (hb.channels c).baseVoice)
    (f : F32) (sa sb : Song) (hsa : songFromMidi ha f false = .ok sa) (hsb : songFromMidi hb f false = .ok sb) :
    ∃ A B Z : Fin 8 → List PCmd, sa.tracks = ((List.finRange 8).map A).filter (fun t => !t.isEmpty) ∧ sb.tracks = ((List.finRange 8).map B).filter (fun t => !t.isEmpty) ∧
      ∀ v, trackNew (earlier T (ha.voices v)) (timeBase a) 0 f = .ok (Z v) ∧ BeginsLike (Z v) (A v) ∧ BeginsLike (Z v) (B v) := by
  have tracks : ∀ (h : MidiHandler) (s : Song), songFromMidi h f false = .ok s → ∃ A : Fin 8 → List PCmd, s.tracks = ((List.finRange 8).map A).filter (fun t => !t.isEmpty) ∧
      ∀ v, trackNew (h.voices v) h.ticksPerBeat h.maxTime f = .ok (A v) := by
    intro h s hs
    unfold songFromMidi voiceTracks at hs
    cases h1 : (List.finRange 8).mapM fun v => trackNew (h.voices v) h.ticksPerBeat h.maxTime f with
    | error e => rw [h1] at hs; cases hs
    | ok ts =>
      rw [h1] at hs
      cases hs
      obtain ⟨e1, e2⟩ := mapM_values _ [] _ _ h1
      exact ⟨_, by rw [e1], fun v => e2 v (List.mem_finRange v)⟩
  obtain ⟨A, hA, hA'⟩ := tracks ha sa hsa
  obtain ⟨B, hB, hB'⟩ := tracks hb sb hsb
  have key : ∀ v, ∃ z, trackNew (earlier T (ha.voices v)) (timeBase a) 0 f = .ok z ∧ BeginsLike z (A v) ∧ BeginsLike z (B v) := by
    intro v
    obtain ⟨e, ⟨x, hx⟩, ⟨y, hy⟩⟩ := C100_voices ord a b ha hb hra hrb T hab hfirst v
    have g1 := hA' v
    have g2 := hB' v
    rw [← hx, read_timeBase ord a ha hra] at g1
    rw [← hy, ← e, read_timeBase ord b hb hrb, ← hbase] at g2
    obtain ⟨z, z1, z2⟩ := C100_track _ _ _ _ _ _ g1
    obtain ⟨z', z1', z2'⟩ := C100_track _ _ _ _ _ _ g2
    rw [z1] at z1'
    cases z1'
    exact ⟨z, z1, z2, z2'⟩
  choose Z hZ using key
  exact ⟨A, B, Z, hA, hB, hZ⟩

/-- The notes that start before `T` are notes of messages before `T`. -/
theorem notes_earlier (T : Nat) (l : List TMsg) : (fileNotes l).filter (fun n => n.1 < T) = fileNotes (earlier T l) := by
  unfold fileNotes earlier
  rw [List.filter_filterMap, List.filterMap_filter]
  congr 1
  funext m
  by_cases h1 : starts m.1 = true
  · cases h2 : noteOf (drum m.1) with
    | none => simp [h1, h2]
    | some n => by_cases h : m.2 < T <;> simp [h1, h2, h, Option.filter]
  · simp [h1]

/-- **C100 (notes).** If two tidy files of sane content have the same messages before `T`, then whatever the first voices are, the notes starting before `T` on the eight voices
are the same. -/
theorem C100_notes (ord : EnumOrder) (ho : ∀ l, (ord l).Perm l) (a b : List Callback) (ha hb : MidiHandler) (hra : readMidi ord a = .ok ha) (hrb : readMidi ord b = .ok hb) (T : Nat)
    (hab : earlier T (file a) = earlier T (file b)) (hsa : Sane (timeBase a) (file a)) (hta : Tidy (file a)) (hsb : Sane (timeBase b) (file b)) (htb : Tidy (file b)) :
    (((List.finRange 8).flatMap fun v => (midiNotes none (ha.voices v)).map fun n => (n.on, n.note)).filter fun n => n.1 < T).Perm
      (((List.finRange 8).flatMap fun v => (midiNotes none (hb.voices v)).map fun n => (n.on, n.note)).filter fun n => n.1 < T) := by
  have ea := (C64_voices ord ho a ha hra (by rw [read_timeBase ord a ha hra]; exact hsa) hta).2.2.1.filter fun n => n.1 < T
  have eb := (C64_voices ord ho b hb hrb (by rw [read_timeBase ord b hb hrb]; exact hsb) htb).2.2.1.filter fun n => n.1 < T
  rw [notes_earlier] at ea eb
  rw [hab] at ea
  exact ea.trans eb.symm

/-- A chord of seven notes, then the four pairs of `quintetCalls` in another order; the pair of channels 0 and 2 comes last if `all` is set and is left out otherwise. -/
def chordFirstCalls (all : Bool) : List Callback :=
  [ .header 1 24, .trackChange,
    .midiEvent 0 (.noteOn 1 60 100), .midiEvent 0 (.noteOn 1 62 100), .midiEvent 0 (.noteOn 1 64 100), .midiEvent 0 (.noteOn 1 65 100),
    .midiEvent 0 (.noteOn 1 67 100), .midiEvent 0 (.noteOn 1 69 100), .midiEvent 0 (.noteOn 1 71 100),
    .midiEvent 24 (.noteOff 1 60 0), .midiEvent 0 (.noteOff 1 62 0), .midiEvent 0 (.noteOff 1 64 0), .midiEvent 0 (.noteOff 1 65 0),
    .midiEvent 0 (.noteOff 1 67 0), .midiEvent 0 (.noteOff 1 69 0), .midiEvent 0 (.noteOff 1 71 0),
    .midiEvent 0 (.noteOn 1 60 100), .midiEvent 0 (.noteOn 3 62 100), .midiEvent 24 (.noteOff 1 60 0), .midiEvent 0 (.noteOff 3 62 0),
    .midiEvent 0 (.noteOn 3 60 100), .midiEvent 0 (.noteOn 4 62 100), .midiEvent 24 (.noteOff 3 60 0), .midiEvent 0 (.noteOff 4 62 0),
    .midiEvent 0 (.noteOn 4 60 100), .midiEvent 0 (.noteOn 2 62 100), .midiEvent 24 (.noteOff 4 60 0), .midiEvent 0 (.noteOff 2 62 0) ] ++
  if all then [ .midiEvent 24 (.noteOn 0 60 100), .midiEvent 0 (.noteOn 2 62 100), .midiEvent 24 (.noteOff 0 60 0), .midiEvent 0 (.noteOff 2 62 0) ] else []

theorem chordFirst_outcomes : (readMidi id (chordFirstCalls true)).toOption.isSome = true ∧ (readMidi id (chordFirstCalls false)).toOption.isSome = false := by
  decide +kernel

theorem chordFirst_cut : timeBase (chordFirstCalls true) = timeBase (chordFirstCalls false) ∧ earlier 120 (file (chordFirstCalls true)) = file (chordFirstCalls false) := by
  decide +kernel

theorem chordFirst_paired : Paired (file (chordFirstCalls false)) := ⟨by decide +kernel, by decide +kernel⟩

/-- **C100 fails for reading.** The beginning of a file that can be read need not be readable, even up to a time at which nothing sounds. -/
theorem C100_cut_false : ¬ ∀ (ord : EnumOrder) (a b : List Callback) (T : Nat) (h : MidiHandler), readMidi ord a = .ok h → timeBase a = timeBase b → earlier T (file a) = file b →
    Paired (file b) → ∃ h', readMidi ord b = .ok h' := by
  intro hall
  obtain ⟨h1, h2⟩ := chordFirst_outcomes
  obtain ⟨h3, h4⟩ := chordFirst_cut
  have h5 := chordFirst_paired
  generalize chordFirstCalls true = a at h1 h3 h4
  generalize chordFirstCalls false = b at h2 h3 h4 h5
  cases e : readMidi id a with
  | error x => rw [e] at h1; cases h1
  | ok h =>
    obtain ⟨h', e'⟩ := hall id a b 120 h e h3 h4 h5
    rw [e'] at h2
    cases h2

/-- Channels 0 and 1 play one after the other and, if `all` is set, together at the end. -/
def meetCalls (all : Bool) : List Callback :=
  [ .header 1 24, .trackChange, .midiEvent 0 (.noteOn 0 60 100), .midiEvent 24 (.noteOff 0 60 0), .midiEvent 0 (.noteOn 1 62 100), .midiEvent 24 (.noteOff 1 62 0) ] ++
  if all then [ .midiEvent 0 (.noteOn 0 60 100), .midiEvent 0 (.noteOn 1 62 100), .midiEvent 24 (.noteOff 0 60 0), .midiEvent 0 (.noteOff 1 62 0) ] else []

/-- **C100 fails without the condition on first voices.** What comes later can move earlier notes to other voices. -/
theorem C100_first_false : ¬ ∀ (ord : EnumOrder) (a b : List Callback) (ha hb : MidiHandler), readMidi ord a = .ok ha → readMidi ord b = .ok hb → ∀ T,
    earlier T (file a) = earlier T (file b) → ∀ v, earlier T (ha.voices v) = earlier T (hb.voices v) := by
  intro hall
  have h1 : (readMidi id (meetCalls true)).toOption.map (fun h => (earlier 48 (h.voices 1)).length) = some 1 := by decide +kernel
  have h2 : (readMidi id (meetCalls false)).toOption.map (fun h => (earlier 48 (h.voices 1)).length) = some 0 := by decide +kernel
  cases e1 : readMidi id (meetCalls true) with
  | error x => rw [e1] at h1; cases h1
  | ok ha =>
    cases e2 : readMidi id (meetCalls false) with
    | error x => rw [e2] at h2; cases h2
    | ok hb =>
      rw [e1] at h1
      rw [e2] at h2
      have := hall id _ _ ha hb e1 e2 48 (by decide +kernel) 1
      simp only [Except.toOption, Option.map_some, Option.some.injEq] at h1 h2
      rw [this, h2] at h1
      cases h1

/-- In both files the note of channel 1 at 24 is heard (C100_notes). -/
example : earlier 48 (file (meetCalls true)) = earlier 48 (file (meetCalls false)) ∧ Tidy (file (meetCalls true)) ∧ Tidy (file (meetCalls false)) ∧
    Sane 24 (file (meetCalls true)) ∧ Sane 24 (file (meetCalls false)) ∧ (readMidi id (meetCalls true)).toOption.isSome = true :=
  ⟨by decide +kernel, ⟨by decide +kernel, by decide +kernel, by decide +kernel, by decide +kernel, by decide +kernel⟩,
    ⟨by decide +kernel, by decide +kernel, by decide +kernel, by decide +kernel, by decide +kernel⟩,
    ⟨by decide +kernel, by decide +kernel, by decide +kernel⟩, ⟨by decide +kernel, by decide +kernel, by decide +kernel⟩, by decide +kernel⟩

/-- Two endings of a tune with a rest after its second note. -/
def endingCalls (note : UInt8) (wait : Nat) : List Callback :=
  [ .header 1 24, .trackChange, .midiEvent 0 (.noteOn 0 60 100), .midiEvent 24 (.noteOff 0 60 0), .midiEvent 0 (.noteOn 0 62 100), .midiEvent 24 (.noteOff 0 62 0),
    .midiEvent wait (.noteOn 0 note 100), .midiEvent 24 (.noteOff 0 note 0) ]

/-- The messages before 49 are the same, and so are the first voices; the second note, the last of the common beginning, is lengthened by a different rest. -/
example : earlier 49 (file (endingCalls 64 8)) = earlier 49 (file (endingCalls 65 24)) ∧
    ((readMidi id (endingCalls 64 8)).bind fun h => songFromMidi h (F32.ofRat (1 / 5)) false).map (fun s => s.tracks.map (·.take 2)) =
      .ok [[⟨some 24, some 12, some 7, .note 164⟩, ⟨some 32, some 12, some 6, .note 166⟩]] ∧
    ((readMidi id (endingCalls 65 24)).bind fun h => songFromMidi h (F32.ofRat (1 / 5)) false).map (fun s => s.tracks.map (·.take 2)) =
      .ok [[⟨some 24, some 12, some 7, .note 164⟩, ⟨some 48, some 12, some 4, .note 166⟩]] := by
  decide +kernel

end M2S
