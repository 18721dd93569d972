import Verif.Spec.Failures
import Verif.Proofs.ReadReportTrue
import Verif.Props.Reading
/-
Property C90: exactly when reading a MIDI file panics, and when it is refused.
-/
namespace M2S
open MidiSpec

theorem handle_headers (calls : List Callback) : ∀ h h' : MidiHandler, calls.foldlM MidiHandler.handle h = .ok h' → ∀ f tb, Callback.header f tb ∈ calls → f = 1 := by
  induction calls with
  | nil => intro h h' _ f tb hm; cases hm
  | cons c cs ih =>
    intro h h' hh f tb hm
    simp only [List.foldlM_cons, res_bind] at hh
    obtain ⟨h1, e1, e2⟩ := hh
    rcases List.mem_cons.1 hm with rfl | hm
    · simp only [MidiHandler.handle] at e1
      split_ifs at e1 with hf
      · cases e1
      · exact not_not.1 hf
    · exact ih h1 h' e2 f tb hm

theorem scanAll_each (cs : ChanMsgs) (m0 : Nat) (r : (Fin 16 → List VoiceInterval) × Nat) (h : scanChannels cs m0 = .ok r) (i : Fin 16) :
    ∃ m1 st, scanChannel i (cs i) m1 = .ok st := by
  unfold scanChannels at h
  have hi := List.mem_finRange i
  generalize List.finRange 16 = l at h hi
  generalize ((fun _ => [] : Fin 16 → List VoiceInterval), m0) = acc at h
  induction l generalizing acc with
  | nil => cases hi
  | cons j l ih =>
    rw [List.foldlM_cons, res_bind] at h
    obtain ⟨acc1, e1, e2⟩ := h
    rcases List.mem_cons.1 hi with rfl | hi
    · rw [res_bind] at e1
      obtain ⟨st, e1, -⟩ := e1
      exact ⟨_, st, e1⟩
    · exact ih hi _ e2

/-- The scan of a file succeeds exactly if the file has no stray ends. -/
theorem scan_stray (l : List TMsg) : (∃ r, scanChannels (fun c => sortMessages (ofChannel l c)) 0 = .ok r) ↔ ¬ StrayEnd l := by
  constructor
  · rintro ⟨r, hr⟩ ⟨c, t, h⟩
    obtain ⟨m1, st, e⟩ := scanAll_each _ _ _ hr c
    have := (C18_scan_ok c (ofChannel l c) m1).1 ⟨st, e⟩ t
    omega
  · intro h
    refine scanAll_ok _ (fun i m0 => (C18_scan_ok i _ m0).2 fun t => ?_) 0
    by_contra hc
    exact h ⟨i, t, by omega⟩

/-- Reading, step by step. -/
theorem read_steps (ord : EnumOrder) (calls : List Callback) :
    (¬ Readable calls ∧ readMidi ord calls = .error .panic) ∨ (Readable calls ∧ StrayEnd (file calls) ∧ readMidi ord calls = .error .panic) ∨
    ∃ ivs mt, Readable calls ∧ ¬ StrayEnd (file calls) ∧ scanChannels (fun c => sortMessages (ofChannel (file calls) c)) 0 = .ok (ivs, mt) ∧
      ((findBaseVoices ((List.finRange 16).map ivs) (fun _ => []) = none ∧ readMidi ord calls = failed .couldntFit) ∨
       ∃ bs, findBaseVoices ((List.finRange 16).map ivs) (fun _ => []) = some bs ∧ ((∃ h, readMidi ord calls = .ok h) ∨ readMidi ord calls = failed .couldntFit)) := by
  unfold readMidi
  cases h1 : calls.foldlM MidiHandler.handle ({} : MidiHandler) with
  | error e =>
    left
    have he := panicOnly_handle calls {} e h1
    subst he
    refine ⟨fun hr => ?_, rfl⟩
    obtain ⟨h', e⟩ := handle_ok calls {} hr.format (fun _ => hr.tracks)
    rw [h1] at e
    cases e
  | ok h0 =>
    obtain ⟨i1, -, i3, i4, i5⟩ := handle_tracks calls {} h0 h1
    obtain ⟨i1, i2⟩ := i1 rfl
    rw [show ∀ {α β : Type} (a : α) (f : α → Res β), ((Except.ok a : Res α) >>= f) = f a from fun _ _ => rfl]
    unfold MidiHandler.process
    cases h2 : tracksToChannels h0.tracks (fun c => (h0.channels c).messages) with
    | error e =>
      left
      have he := panicOnly_tracks _ _ e h2
      subst he
      refine ⟨fun hr => ?_, rfl⟩
      have : tracksToChannels h0.tracks (fun c => (h0.channels c).messages) = .ok (fun c => sortMessages (ofChannel (file calls) c)) := by
        rw [tracksToChannels_ok]
        rw [i3, i1]
        exact ⟨hr.times, by funext c; simp [file]⟩
      rw [h2] at this
      cases this
    | ok cs =>
      rw [i3, tracksToChannels_ok] at h2
      obtain ⟨hfit, hcs⟩ := h2
      rw [i1] at hfit hcs
      have hcs : cs = fun c => sortMessages (ofChannel (file calls) c) := by rw [hcs]; funext c; simp [file]
      subst hcs
      have hr : Readable calls := ⟨handle_headers calls _ _ h1, i2, hfit⟩
      right
      rw [show ∀ {α β : Type} (a : α) (f : α → Res β), ((Except.ok a : Res α) >>= f) = f a from fun _ _ => rfl]
      rw [i5]
      rw [show (({} : MidiHandler).maxTime) = 0 from rfl]
      cases h3 : scanChannels (fun c => sortMessages (ofChannel (file calls) c)) 0 with
      | error e =>
        left
        have he := panicOnly_scan _ _ e h3
        subst he
        refine ⟨hr, ?_, rfl⟩
        by_contra hs
        obtain ⟨r, e⟩ := (scan_stray _).2 hs
        rw [h3] at e
        cases e
      | ok x =>
        obtain ⟨ivs, mt⟩ := x
        right
        refine ⟨ivs, mt, hr, (scan_stray _).1 ⟨_, h3⟩, rfl, ?_⟩
        rw [show ∀ {α β : Type} (a : α) (f : α → Res β), ((Except.ok a : Res α) >>= f) = f a from fun _ _ => rfl]
        simp only
        cases h4 : findBaseVoices ((List.finRange 16).map ivs) (fun _ => []) with
        | none => exact .inl ⟨rfl, rfl⟩
        | some bs =>
          refine .inr ⟨bs, rfl, ?_⟩
          obtain ⟨seq, s1, s2, s3⟩ := merge_seq _ (fun c => sortMessages (toChan (file calls) c)) rfl (fun c => sort_pairwise _)
            (by
              intro c m hm
              have := (sort_perm _).mem_iff.1 hm
              exact hr.times m (List.mem_of_mem_filter this))
          simp only
          unfold channelsToVoices
          rw [show ((List.finRange 16).countP fun c => (sortMessages (ofChannel (file calls) c)).isEmpty) = emptyCount (fun c => sortMessages (toChan (file calls) c)) from rfl]
          simp only
          rw [s3, deal_emits]
          generalize emits ord _ _ _ = em
          rcases em with _ | ⟨os, k⟩
          · exact .inr rfl
          · exact .inl ⟨_, rfl⟩

/-- The search for base voices fails exactly if no choice of voices separates the channels. -/
theorem search_separates (l : List TMsg) (ivs : Fin 16 → List VoiceInterval) (mt : Nat) (hs : scanChannels (fun c => sortMessages (ofChannel l c)) 0 = .ok (ivs, mt)) :
    findBaseVoices ((List.finRange 16).map ivs) (fun _ => []) = none ↔ ¬ ∃ f, Separates l f := by
  have hf := scan_facts l ivs mt hs
  rw [C20_base_fails_iff ivs hf.pos]
  simp only [hf.sounds]
  unfold Separates
  push Not
  rfl

/-- **C90.** Reading a MIDI file succeeds, panics, or is refused because the voices do not suffice. There is no other outcome. -/
theorem C90_outcomes (ord : EnumOrder) (calls : List Callback) :
    (∃ h, readMidi ord calls = .ok h) ∨ readMidi ord calls = .error .panic ∨ readMidi ord calls = .error (.err .couldntFit) := by
  rcases read_steps ord calls with ⟨-, h⟩ | ⟨-, -, h⟩ | ⟨-, -, -, -, -, ⟨-, h⟩ | ⟨-, -, h | h⟩⟩
  · exact .inr (.inl h)
  · exact .inr (.inl h)
  · exact .inr (.inr h)
  · exact .inl h
  · exact .inr (.inr h)

/-- **C90**, panics: reading panics exactly if a header states a format other than 1, an event comes before the first track, a time does not fit in 32 bits, or a
note is ended on a channel that has no note left to end. In particular it does not depend on the order in which hash maps are walked. -/
theorem C90_panics_iff (ord : EnumOrder) (calls : List Callback) :
    readMidi ord calls = .error .panic ↔ (∃ f tb, Callback.header f tb ∈ calls ∧ f ≠ 1) ∨ (split calls).1 ≠ [] ∨ (∃ m ∈ file calls, 2 ^ 32 ≤ m.2) ∨ StrayEnd (file calls) := by
  have hR : Readable calls ↔ ¬ ((∃ f tb, Callback.header f tb ∈ calls ∧ f ≠ 1) ∨ (split calls).1 ≠ [] ∨ ∃ m ∈ file calls, 2 ^ 32 ≤ m.2) := by
    constructor
    · rintro ⟨h1, h2, h3⟩ (⟨f, tb, h, h'⟩ | h | ⟨m, hm, h⟩)
      · exact h' (h1 f tb h)
      · exact h h2
      · exact absurd (h3 m hm) (by omega)
    · intro h
      push Not at h
      exact ⟨h.1, h.2.1, h.2.2⟩
  rw [show ∀ a b c d : Prop, (a ∨ b ∨ c ∨ d) ↔ ((a ∨ b ∨ c) ∨ d) from fun _ _ _ _ => by tauto]
  rcases read_steps ord calls with ⟨h1, h⟩ | ⟨-, h1, h⟩ | ⟨ivs, mt, h1, h2, -, h⟩
  · exact ⟨fun _ => .inl (by by_contra hc; exact h1 (hR.2 hc)), fun _ => h⟩
  · exact ⟨fun _ => .inr h1, fun _ => h⟩
  · have hne : readMidi ord calls ≠ .error .panic := by
      rcases h with ⟨-, h⟩ | ⟨-, -, ⟨a, h⟩ | h⟩ <;> rw [h] <;> intro hh <;> cases hh
    refine ⟨fun hh => absurd hh hne, ?_⟩
    rintro (hc | hc)
    · exact absurd hc (hR.1 h1)
    · exact absurd hc h2

/-- **C90**, refusals for want of base voices: a file that does not make the reader panic is refused if no choice of voices for the channels separates them. -/
theorem C90_inseparable (ord : EnumOrder) (calls : List Callback) (hp : readMidi ord calls ≠ .error .panic) (hs : ¬ ∃ f, Separates (file calls) f) :
    readMidi ord calls = .error (.err .couldntFit) := by
  rcases read_steps ord calls with ⟨h1, h⟩ | ⟨-, h1, h⟩ | ⟨ivs, mt, h1, h2, h3, h⟩
  · exact absurd h hp
  · exact absurd h hp
  · rcases h with ⟨-, h⟩ | ⟨bs, hb, -⟩
    · exact h
    · rw [(search_separates _ ivs mt h3).2 hs] at hb
      cases hb

/-- **C90**, refusals for melodies: if the notes start and end in pairs and no channel plays chords, a readable file is refused exactly if no choice of voices for
the channels separates them. -/
theorem C90_melodies_iff (ord : EnumOrder) (calls : List Callback) (hr : Readable calls) (hp : Paired (file calls)) (hmel : ∀ c, ¬ Chords (file calls) c) :
    readMidi ord calls = .error (.err .couldntFit) ↔ ¬ ∃ f, Separates (file calls) f := by
  obtain ⟨ivs, mt, s1, s2, s3, s4, -⟩ := scan_paired (file calls) hp
  constructor
  · rintro h ⟨f, hf⟩
    have hfd : findBaseVoices ((List.finRange 16).map ivs) (fun _ => []) ≠ none := fun h => (search_separates _ ivs mt s1).1 h ⟨f, hf⟩
    obtain ⟨bs, b1⟩ := Option.ne_none_iff_exists'.1 hfd
    obtain ⟨h', e⟩ := read_paired ord calls hr ivs mt s1 s2 s4 bs b1 (by
      intro a _ _
      have h0 : ((heldAt (file calls) a.2).filter fun x => Chords (file calls) x.1) = [] := by
        rw [List.filter_eq_nil_iff]
        intro x _
        simpa using hmel x.1
      have := spare_based fun c : Fin 16 => bs.getD c 0
      rw [h0, List.length_nil]
      omega)
    rw [e] at h
    cases h
  · intro h
    refine C90_inseparable ord calls (fun hp' => ?_) h
    rcases read_steps ord calls with ⟨h1, -⟩ | ⟨-, h1, -⟩ | ⟨ivs', mt', h1, h2, h3, h⟩
    · exact h1 hr
    · exact (scan_stray _).1 ⟨_, s1⟩ h1
    · rcases h with ⟨-, h⟩ | ⟨-, -, ⟨a, h⟩ | h⟩ <;> rw [h] at hp' <;> cases hp'

/-- Ends on a channel without notes: the second end at 30 is one too many, although the file starts two notes, because the other start is at the same instant. -/
def strayCalls : List Callback :=
  [.header 1 24, .trackChange, .midiEvent 10 (.noteOn 3 60 100), .midiEvent 10 (.noteOff 3 60 0), .midiEvent 10 (.noteOff 3 60 0), .midiEvent 0 (.noteOn 3 60 100)]

example : StrayEnd (file strayCalls) ∧ Readable strayCalls ∧ startsBy (ofChannel (file strayCalls) 3) 30 = 2 ∧ endsBy (ofChannel (file strayCalls) 3) 30 = 2 ∧
    readMidi id strayCalls = .error .panic := by
  have hs : StrayEnd (file strayCalls) := ⟨3, 30, by decide⟩
  refine ⟨hs, ⟨?_, by decide, by decide⟩, by decide, by decide, (C90_panics_iff _ _).2 (.inr (.inr (.inr hs)))⟩
  intro f tb hm
  simp [strayCalls] at hm
  exact hm.1

/-- The other panics: format 0, an event before the first track, a time of 2^32. -/
example : readMidi id [.header 0 24] = .error .panic ∧ readMidi id [.header 1 24, .midiEvent 0 (.programChange 0 1), .trackChange] = .error .panic ∧
    readMidi id [.header 1 24, .trackChange, .midiEvent (2 ^ 32 - 1) (.programChange 0 1), .midiEvent 1 (.programChange 0 1)] = .error .panic := by
  refine ⟨(C90_panics_iff _ _).2 (.inl ⟨0, 24, by decide, by decide⟩), (C90_panics_iff _ _).2 (.inr (.inl (by decide))),
    (C90_panics_iff _ _).2 (.inr (.inr (.inl ⟨(.midiEvent 1 (.programChange 0 1), 2 ^ 32), by decide, by decide⟩)))⟩

/-- Nine melodies at once cannot be separated. -/
def nineMelodies : List Callback :=
  [.header 1 24, .trackChange] ++ ([0, 1, 2, 3, 4, 5, 6, 7, 8].map fun c => .midiEvent 0 (.noteOn c 60 100)) ++ [.midiEvent 5 (.noteOff 0 60 0)] ++
    ([1, 2, 3, 4, 5, 6, 7, 8].map fun c => .midiEvent 0 (.noteOff c 60 0))

example : Readable nineMelodies ∧ Paired (file nineMelodies) ∧ (∀ c, ¬ Chords (file nineMelodies) c) ∧ ¬ ∃ f, Separates (file nineMelodies) f := by
  have h1 : Readable nineMelodies := by
    refine ⟨?_, by decide, by decide⟩
    intro f tb hm
    simp [nineMelodies] at hm
    exact hm.1
  have h2 : Paired (file nineMelodies) := ⟨by decide +kernel, by decide +kernel⟩
  have h3 : ∀ c, ¬ Chords (file nineMelodies) c := by decide +kernel
  refine ⟨h1, h2, h3, (C90_melodies_iff id nineMelodies h1 h2 h3).1 ?_⟩
  have e1 : ((readMidi id nineMelodies).map fun _ => ()) = .error (.err .couldntFit) := by decide +kernel
  cases h : readMidi id nineMelodies with
  | ok m => rw [h] at e1; cases e1
  | error e => rw [h] at e1; cases e1; rfl

end M2S
