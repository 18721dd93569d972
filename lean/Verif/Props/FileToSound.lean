import Mathlib.Data.List.Perm.Basic
import Mathlib.Data.List.Forall2
import Verif.Proofs.Tidy
import Verif.Props.Sane
import Verif.Props.Portamento
/-
Property C64: from a MIDI file to sound.
-/
namespace M2S
open MidiSpec Timing RomSpec Nspc Engine

/-- Channels that sound together have different base voices. -/
theorem read_apart (ord : EnumOrder) (calls : List Callback) (h : MidiHandler) (hr : readMidi ord calls = .ok h) (c c' : Fin 16) (hcc : c ≠ c') (ht : Together (file calls) c c') :
    (h.channels c).baseVoice ≠ (h.channels c').baseVoice := by
  obtain ⟨x, -, -, ⟨h1, h2⟩, h3, h4⟩ := ht
  intro hb
  exact C19_base_voices ord calls h hr c c' hcc hb x.2 h2 h4 ⟨h1, h3⟩

/-- The voices are what the dealing makes of the messages `l`, with base voices that keep settings out of the way of notes. -/
structure Spread (ord : EnumOrder) (l : List TMsg) (h : MidiHandler) : Prop where
  dealt : ∃ (seq : List (Fin 16 × TMsg)) (outs : List (Fin 8 × TMsg)) (k : Ctl), (seq.map (·.2)).Perm (l.filter fun m => (home m.1).isSome) ∧ seq.Pairwise MergeOrder ∧
    emits ord (fun c => (h.channels c).baseVoice) (ctl0 fun c => (h.channels c).baseVoice) (seq.map (·.2)) = some (outs, k) ∧ ∀ v, h.voices v = onVoice outs v
  way : ∀ m ∈ l, (programOf m.1).isSome = true → ∀ a ∈ l, starts a.1 = true → a.2 < m.2 →
    EndedBy l a m.2 ∨ ∃ c ∈ home m.1, ∃ c' ∈ home a.1, c ≠ c' ∧ (h.channels c).baseVoice ≠ (h.channels c').baseVoice

theorem read_spread (ord : EnumOrder) (calls : List Callback) (h : MidiHandler) (hr : readMidi ord calls = .ok h) (ht : Tidy (file calls)) : Spread ord (file calls) h := by
  constructor
  · obtain ⟨seq, outs, k, s1, s2, s3, s4⟩ := read_emits ord calls h hr
    exact ⟨seq, outs, k, read_perm ord calls h hr seq s1, s2, s3, s4⟩
  · intro m hm hp a ha hst hlt
    rcases ht.programs m hm hp a ha hst hlt with g | ⟨c, hc, c', hc', h1, h2⟩
    · exact .inl g
    · exact .inr ⟨c, hc, c', hc', h1, read_apart ord calls h hr c c' h1 h2⟩

/-- On the voices of a tidy file notes alternate with their ends, with program changes between. -/
theorem spread_fold (ord : EnumOrder) (ho : ∀ l, (ord l).Perm l) (l : List TMsg) (h : MidiHandler) (hr : Spread ord l h) (p : Nat) (hs : Sane p l)
    (ht : Tidy l) (v : Fin 8) : (h.voices v).foldlM tidyStep none = some none := by
  obtain ⟨seq, outs, k, s1, s2, s3, s4⟩ := hr.dealt
  obtain ⟨c1, c2⟩ := calm_of_way _ _ _ hs ht hr.way seq s1 s2
  obtain ⟨t1, t2⟩ := tied_emits ord ho _ _ _ _ c1 s3
  have hempty : ∀ c n v, (n, v) ∉ k.active c := by
    intro c n v hm
    obtain ⟨pre, a, post, e1, e2, e3, e4⟩ := t2.since c n v hm
    obtain ⟨e, g1, g2, g3⟩ := c2 pre a post e1 e2 trivial
    exact e4 e g1 g2 (by rw [g3, e3])
  obtain ⟨s, h1, -, h3⟩ := t1.hold v
  have : s = none := h3 ((voiceBusy_false _ _).2 fun c n => hempty c n v)
  subst this
  rw [s4 v]
  exact h1

theorem tidy_fold (ord : EnumOrder) (ho : ∀ l, (ord l).Perm l) (calls : List Callback) (h : MidiHandler) (hr : readMidi ord calls = .ok h) (hs : Sane h.ticksPerBeat (file calls))
    (ht : Tidy (file calls)) (v : Fin 8) : (h.voices v).foldlM tidyStep none = some none :=
  spread_fold ord ho _ h (read_spread ord calls h hr ht) _ hs ht v

/-- The starts of notes on the voices are those of the messages. -/
theorem spread_starts (ord : EnumOrder) (l : List TMsg) (h : MidiHandler) (hr : Spread ord l h) :
    (((List.finRange 8).flatMap h.voices).filter fun m => starts m.1).Perm ((l.filter fun m => starts m.1).map fun m => (drum m.1, m.2)) := by
  obtain ⟨seq, outs, k, e2, s2, s3, s4⟩ := hr.dealt
  exact starts_dealt ord _ h _ _ _ e2 s3 s4

/-- What C64 says of the voices, for any dealing. -/
theorem spread_voices (ord : EnumOrder) (ho : ∀ l, (ord l).Perm l) (l : List TMsg) (h : MidiHandler) (hr : Spread ord l h) (p : Nat) (hs : Sane p l) (ht : Tidy l) :
    (∀ v, programsBetweenNotes false (h.voices v) = true) ∧ (∀ v, endsMatch none (h.voices v) = true) ∧
    ((List.finRange 8).flatMap fun v => (midiNotes none (h.voices v)).map fun n => (n.on, n.note)).Perm (fileNotes l) ∧
    ∀ v d ch n x t, (Message.midiEvent d (.noteOff ch n x), t) ∈ h.voices v → 24 ≤ n ∧ n ≤ 95 := by
  have hfold := spread_fold ord ho l h hr p hs ht
  have hperm : ((List.finRange 8).flatMap fun v => startsOf (h.voices v)).Perm (fileNotes l) := by
    have key : ∀ l : List TMsg, startsOf l = (l.filter fun m => starts m.1).filterMap fun m => (noteOf m.1).map fun x => (m.2, x.2) := by
      intro l
      unfold startsOf
      rw [List.filterMap_filter]
    have e1 : ((List.finRange 8).flatMap fun v => startsOf (h.voices v)) = startsOf ((List.finRange 8).flatMap h.voices) := by
      unfold startsOf
      rw [List.filterMap_flatMap]
    rw [e1, key]
    refine ((spread_starts ord l h hr).filterMap _).trans ?_
    rw [List.filterMap_map, List.filterMap_filter]
    exact .of_eq rfl
  refine ⟨fun v => (tidy_endsMatch _ none none (hfold v)).2, fun v => (tidy_endsMatch _ none none (hfold v)).1, ?_, ?_⟩
  · have : (fun v => (midiNotes none (h.voices v)).map fun n => (n.on, n.note)) = fun v => startsOf (h.voices v) := funext fun v => (tidy_notes _).1 (hfold v)
    rw [this]
    exact hperm
  · intro v d ch n x t hm
    rcases tidy_off _ none none (hfold v) d ch n x t hm with g | ⟨t', g⟩
    · cases g
    · have hf : (t', n) ∈ fileNotes l := hperm.mem_iff.1 (List.mem_flatMap.2 ⟨v, List.mem_finRange v, g⟩)
      unfold fileNotes at hf
      rw [List.mem_filterMap] at hf
      obtain ⟨⟨m, tm⟩, hm, hf⟩ := hf
      split_ifs at hf with hst
      cases m with
      | midiEvent d e =>
        cases e with
        | noteOn ch' n' v' =>
          simp only [drum, noteOf, Option.map_some, Option.some.injEq, Prod.mk.injEq] at hf
          rw [← hf.2]
          split_ifs
          · decide
          · exact ht.range _ hm (ch', n') rfl
        | _ => cases hst
      | _ => cases hst

/-- **C64.** On the voices of a tidy file that can be read, program changes come between notes and every note is ended by its own number; the notes of the eight voices together are the
notes of the file. -/
theorem C64_voices (ord : EnumOrder) (ho : ∀ l, (ord l).Perm l) (calls : List Callback) (h : MidiHandler) (hr : readMidi ord calls = .ok h) (hs : Sane h.ticksPerBeat (file calls))
    (ht : Tidy (file calls)) :
    (∀ v, programsBetweenNotes false (h.voices v) = true) ∧ (∀ v, endsMatch none (h.voices v) = true) ∧
    ((List.finRange 8).flatMap fun v => (midiNotes none (h.voices v)).map fun n => (n.on, n.note)).Perm (fileNotes (file calls)) ∧
    ∀ v d ch n x t, (Message.midiEvent d (.noteOff ch n x), t) ∈ h.voices v → 24 ≤ n ∧ n ≤ 95 :=
  spread_voices ord ho _ h (read_spread ord calls h hr ht) _ hs ht

/-- A heard note (time in units of 1/24 beat, pitch byte) against a note of the file (start in ticks, number). -/
def OnTimeAt (tpb : Nat) (o n : Nat × UInt8) : Prop := o.2 = n.2 + 0x68 ∧ |(o.1 : ℚ) - 24 * n.1 / tpb| < 1

/-- All notes heard in the channels. -/
def heardIn (evs : List (Option (List Ev))) : List (Nat × UInt8) := evs.flatMap fun c => match c with
  | some l => heardPitches 0 none l
  | none => []

theorem channels_forall {α β γ : Type} (R : α → β → Prop) (f : List Ev → List α) (g : γ → List β) : ∀ (evs : List (Option (List Ev))) (vs : List γ), vs.length ≤ evs.length →
    (∀ i < evs.length, match vs[i]? with
      | some v => ∃ l, evs[i]? = some (some l) ∧ List.Forall₂ R (f l) (g v)
      | none => evs[i]? = some none) →
    List.Forall₂ R (evs.flatMap fun c => match c with
      | some l => f l
      | none => []) (vs.flatMap g) := by
  intro evs
  induction evs with
  | nil =>
    intro vs hl _
    have : vs = [] := List.length_eq_zero_iff.mp (by simpa using hl)
    subst this
    exact .nil
  | cons c evs ih =>
    intro vs hl h
    cases vs with
    | nil =>
      have h0 := h 0 (by simp)
      simp only [List.getElem?_nil, List.getElem?_cons_zero, Option.some.injEq] at h0
      subst h0
      rw [List.flatMap_cons]
      have := ih [] (by simp) (by
        intro i hi
        have := h (i + 1) (by simpa using hi)
        simpa using this)
      simpa using this
    | cons v vs =>
      have h0 := h 0 (by simp)
      simp only [List.getElem?_cons_zero, Option.some.injEq] at h0
      obtain ⟨l, rfl, hR⟩ := h0
      rw [List.flatMap_cons, List.flatMap_cons]
      refine List.rel_append hR (ih vs (by simpa using hl) ?_)
      intro i hi
      have := h (i + 1) (by simpa using hi)
      simpa using this

theorem flatMap_voices {β : Type} (vs : List (Fin 8)) (hv : vs.Pairwise (· < ·)) (g : Fin 8 → List β) (hg : ∀ v, v ∉ vs → g v = []) :
    (vs.flatMap g).Perm ((List.finRange 8).flatMap g) := by
  have h1 : vs.Perm ((List.finRange 8).filter (· ∈ vs)) := by
    rw [List.perm_ext_iff_of_nodup (hv.imp fun h => ne_of_lt h) ((List.nodup_finRange 8).filter _)]
    intro a
    simp
  refine (h1.flatMap_right g).trans (.of_eq ?_)
  generalize List.finRange 8 = l
  induction l with
  | nil => rfl
  | cons a l ih =>
    rw [List.filter_cons, List.flatMap_cons]
    split_ifs with ha
    · rw [List.flatMap_cons, ih]
    · rw [ih, hg a (by simpa using ha)]; rfl

/-- The conversion of a tidy file: the song can be played, and what is heard if it has the timing it should have. -/
theorem stands_sound (ord : EnumOrder) (ho : ∀ l, (ord l).Perm l) (msgs : List TMsg) (m : MidiHandler) (hread : Spread ord msgs m)
    (hsane : Sane m.ticksPerBeat msgs) (htidy : Tidy msgs) (hv : ∀ v, voiceOk m.ticksPerBeat m.maxTime m.maxTime 0 0 none (m.voices v) = true)
    (h24 : 24 ∣ m.ticksPerBeat) (hp : 0 < m.ticksPerBeat) (hp2 : m.ticksPerBeat < 65536)
    (hG : m.maxTime + 3525 ≤ exactTicks m.ticksPerBeat) (hG2 : 24 * (m.maxTime + 1) ≤ 32511 * m.ticksPerBeat)
    (f : F32) (s : Song) (hst : StandsFor m f s)
    (hd : ∀ tr ∈ s.tracks, ∀ c ∈ tr, c.command.isNote = true → ∀ d ∈ c.duration, d < 0x80) :
    InRange s ∧ ∀ (part : List Nat) (evs : List (Option (List Ev))), s.parts[0]? = some part → timingOf evs = timingOf (partSound s part) →
      ∃ heard : List (Nat × UInt8), evs.length = 8 ∧
      heard.Perm (heardIn evs) ∧ List.Forall₂ (OnTimeAt m.ticksPerBeat) heard (fileNotes msgs) ∧
      ∀ l, some l ∈ evs → |(heardTime l : ℚ) - 24 * m.maxTime / m.ticksPerBeat| < 1 := by
  have hT : m.maxTime < 2 ^ 31 := by have := exactTicks_le m.ticksPerBeat; omega
  obtain ⟨v1, v2, v3, v4⟩ := spread_voices ord ho msgs m hread _ hsane htidy
  have hvel : ∀ v t dl ch n x, (Message.midiEvent dl (.noteOn ch n x), t) ∈ m.voices v → x.toNat ≤ 127 := by
    obtain ⟨seq, outs, k, s1, s2, s3, s4⟩ := hread.dealt
    have hmem : ∀ x ∈ seq.map (·.2), x ∈ msgs := fun x hx => List.mem_of_mem_filter (s1.mem_iff.1 hx)
    intro v t dl ch n x hm
    rw [s4] at hm
    obtain ⟨p, hp, hpe⟩ := List.mem_map.1 hm
    have := data_emits ord _ _ _ _ (fun x hx => hsane.bytes x (hmem x hx)) s3 p (List.mem_of_mem_filter hp)
    rw [hpe] at this
    simp only [dataOk, Bool.and_eq_true, decide_eq_true_eq] at this
    exact UInt8.le_iff_toNat_le.1 this.2
  have hoff : ∀ v t dl ch n x, (Message.midiEvent dl (.noteOff ch n x), t) ∈ m.voices v → 24 ≤ n.toNat ∧ n.toNat ≤ 95 := by
    intro v t dl ch n x hm
    obtain ⟨g1, g2⟩ := v4 v dl ch n x t hm
    exact ⟨UInt8.le_iff_toNat_le.1 g1, UInt8.le_iff_toNat_le.1 g2⟩
  have hr : InRange s := by
    obtain ⟨tracks, h1, -, g2, g3, hold⟩ := hst
    have hplain : songFromMidi m f false = .ok ⟨[List.range tracks.length], tracks⟩ := by
      unfold songFromMidi
      rw [h1]; rfl
    refine old_range ⟨[List.range tracks.length], tracks⟩ s hold (C55_in_range m f _ m.maxTime hplain hp hp2 hG hT hv hvel hoff ?_)
    intro tr htr c hc
    simp only at htr
    obtain ⟨i, hi, rfl⟩ := List.mem_iff_getElem.1 htr
    have his : i < s.tracks.length := by omega
    have hex := g3 i hi
    rw [List.getD_eq_getElem?_getD, List.getElem?_eq_getElem his, List.getD_eq_getElem?_getD, List.getElem?_eq_getElem hi] at hex
    simp only [Option.getD_some] at hex
    rw [← hex] at hc
    obtain ⟨t, ht, hc'⟩ := mem_expand (List.getElem_mem his) hc
    exact hd t ht c hc'
  refine ⟨hr, fun part evs h1 h3 => ?_⟩
  obtain ⟨vs, p1, p2, p3, p5⟩ := channels_on_time m f s hst hr m.maxTime h24 hp hp2 hG hG2 hT hv v1 v2 part evs h1 h3
  have hvl : vs.length ≤ evs.length := by
    have hnd : vs.Nodup := p1.imp fun h => ne_of_lt h
    have := hnd.length_le_card
    simpa [p3] using this
  have hall : List.Forall₂ (OnTimeAt m.ticksPerBeat) (heardIn evs) (vs.flatMap fun v => (midiNotes none (m.voices v)).map fun n => (n.on, n.note)) := by
    refine channels_forall _ (heardPitches 0 none) _ evs vs hvl ?_
    intro i hi
    have := p5 i (by omega)
    cases hvi : vs[i]? with
    | none => rw [hvi] at this; exact this
    | some v =>
      rw [hvi] at this
      obtain ⟨l, e1, e2, -⟩ := this
      refine ⟨l, e1, ?_⟩
      rw [List.forall₂_map_right_iff]
      exact e2
  have hperm := (flatMap_voices vs p1 (fun v => (midiNotes none (m.voices v)).map fun n => (n.on, n.note)) (fun v hv => by rw [p2 v hv]; rfl)).trans v3
  obtain ⟨heard, q1, q2⟩ := List.perm_comp_forall₂ hperm.symm hall.flip
  refine ⟨heard, p3, q2, q1.flip, ?_⟩
  intro l hl
  obtain ⟨i, hi, hl⟩ := List.mem_iff_getElem.1 hl
  have := p5 i (by omega)
  have hget := List.getElem?_eq_getElem hi
  rw [hl] at hget
  cases hvi : vs[i]? with
  | none => rw [hvi] at this; simp only at this; rw [this] at hget; cases hget
  | some v =>
    rw [hvi] at this
    obtain ⟨l', e1, -, e3⟩ := this
    rw [hget] at e1
    simp only [Option.some.injEq] at e1
    subst e1
    exact e3

theorem spread_sound (ord : EnumOrder) (ho : ∀ l, (ord l).Perm l) (msgs : List TMsg) (m : MidiHandler) (hread : Spread ord msgs m)
    (hsane : Sane m.ticksPerBeat msgs) (htidy : Tidy msgs) (hv : ∀ v, voiceOk m.ticksPerBeat m.maxTime m.maxTime 0 0 none (m.voices v) = true)
    (h24 : 24 ∣ m.ticksPerBeat) (hp : 0 < m.ticksPerBeat) (hp2 : m.ticksPerBeat < 65536)
    (hG : m.maxTime + 3525 ≤ exactTicks m.ticksPerBeat) (hG2 : 24 * (m.maxTime + 1) ≤ 32511 * m.ticksPerBeat)
    (f : F32) (opt : Bool) (s : Song) (hsong : songFromMidi m f opt = .ok s)
    (hcount : ∀ tr ∈ s.tracks, ∀ c ∈ tr, ∀ t n, c.command = .callLoop t n → n.toNat ≤ 2)
    (hd : ∀ tr ∈ s.tracks, ∀ c ∈ tr, c.command.isNote = true → ∀ d ∈ c.duration, d < 0x80) :
    InRange s ∧ Playable s ∧ ∀ (part : List Nat) (evs : List (Option (List Ev))), s.parts[0]? = some part → timingOf evs = timingOf (partSound s part) →
      ∃ heard : List (Nat × UInt8), evs.length = 8 ∧
      heard.Perm (heardIn evs) ∧ List.Forall₂ (OnTimeAt m.ticksPerBeat) heard (fileNotes msgs) ∧
      ∀ l, some l ∈ evs → |(heardTime l : ℚ) - 24 * m.maxTime / m.ticksPerBeat| < 1 := by
  obtain ⟨h1, h2⟩ := stands_sound ord ho msgs m hread hsane htidy hv h24 hp hp2 hG hG2 f s (song_standsFor m f opt s hsong hcount) hd
  exact ⟨h1, C55_playable m f opt s hsong h1, h2⟩

/-- The conversion of a tidy file: the song can be played, and what is heard if it has the timing it should have. -/
theorem tidy_sound (ord : EnumOrder) (ho : ∀ l, (ord l).Perm l) (calls : List Callback) (m : MidiHandler) (hread : readMidi ord calls = .ok m)
    (hsane : Sane m.ticksPerBeat (file calls)) (htidy : Tidy (file calls))
    (h24 : 24 ∣ m.ticksPerBeat) (hp : 0 < m.ticksPerBeat) (hp2 : m.ticksPerBeat < 65536)
    (hG : m.maxTime + 3525 ≤ exactTicks m.ticksPerBeat) (hG2 : 24 * (m.maxTime + 1) ≤ 32511 * m.ticksPerBeat)
    (f : F32) (opt : Bool) (s : Song) (hsong : songFromMidi m f opt = .ok s)
    (hcount : ∀ tr ∈ s.tracks, ∀ c ∈ tr, ∀ t n, c.command = .callLoop t n → n.toNat ≤ 2)
    (hd : ∀ tr ∈ s.tracks, ∀ c ∈ tr, c.command.isNote = true → ∀ d ∈ c.duration, d < 0x80) :
    InRange s ∧ Playable s ∧ ∀ (part : List Nat) (evs : List (Option (List Ev))), s.parts[0]? = some part → timingOf evs = timingOf (partSound s part) →
      ∃ heard : List (Nat × UInt8), evs.length = 8 ∧
      heard.Perm (heardIn evs) ∧ List.Forall₂ (OnTimeAt m.ticksPerBeat) heard (fileNotes (file calls)) ∧
      ∀ l, some l ∈ evs → |(heardTime l : ℚ) - 24 * m.maxTime / m.ticksPerBeat| < 1 :=
  spread_sound ord ho _ m (read_spread ord calls m hread htidy) hsane htidy (C63_voices ord calls m hread hsane) h24 hp hp2 hG hG2 f opt s hsong hcount hd

/-- **C64, partial** (missing: resolutions that are no multiple of 24, program changes during notes, counts above 2, songs that need the second chunk, fused notes too long: all false of the code, see C12, C14, C33, C54, C07). From
a MIDI file to sound: a tidy file is read and converted, with or without loop optimisation; the song is built into a ROM; the bank is uploaded, and the engine plays the song. Then
every note of the file is heard, once, with the right pitch byte (68 for snare drums), starting less than one unit (1/24 beat) from its start in the file, and no other note is heard; every channel that
plays lasts to the end of the song, less than one unit more or less. -/
theorem C64_file_to_sound_partial {Path : Type} (ord : EnumOrder) (ho : ∀ l, (ord l).Perm l) (calls : List Callback) (m : MidiHandler) (hread : readMidi ord calls = .ok m)
    (hsane : Sane m.ticksPerBeat (file calls)) (htidy : Tidy (file calls))
    (h24 : 24 ∣ m.ticksPerBeat) (hp : 0 < m.ticksPerBeat) (hp2 : m.ticksPerBeat < 65536)
    (hG : m.maxTime + 3525 ≤ exactTicks m.ticksPerBeat) (hG2 : 24 * (m.maxTime + 1) ≤ 32511 * m.ticksPerBeat)
    (f : F32) (opt : Bool) (s : Song) (hsong : songFromMidi m f opt = .ok s)
    (hcount : ∀ tr ∈ s.tracks, ∀ c ∈ tr, ∀ t n, c.command = .callLoop t n → n.toNat ≤ 2)
    (hd : ∀ tr ∈ s.tracks, ∀ c ∈ tr, c.command.isNote = true → ∀ d ∈ c.duration, d < 0x80)
    (conv : Converter Path) (verbose : Bool) (j : Job Path) (fs : Nat) (rom r : Rom)
    (hj : j.Ready conv (ofRom rom) fs) (hc : j.bank.Clean) (h : writeBank conv verbose j.songs rom j.base j.first fs = .ok r) (a0 : Mem) (regs : Regs)
    (k : Nat) (d : SongDef Path) (hk : j.songs[k]? = some d) (hs : loadSong conv d = .ok s) :
    ∃ (fuel : Nat) (evs : List (Option (List Ev))) (T : Nat) (heard : List (Nat × UInt8)), evs.length = 8 ∧
      (∀ n, playSong (upload (ofRom r) j.bank.chunks a0) (fuel + n) regs (fs + k) = some (evs, T, if d.loops then .goto 0xff T else .stop)) ∧
      heard.Perm (heardIn evs) ∧ List.Forall₂ (OnTimeAt m.ticksPerBeat) heard (fileNotes (file calls)) ∧
      ∀ l, some l ∈ evs → |(heardTime l : ℚ) - 24 * m.maxTime / m.ticksPerBeat| < 1 := by
  obtain ⟨-, hP, hS⟩ := tidy_sound ord ho calls m hread hsane htidy h24 hp hp2 hG hG2 f opt s hsong hcount hd
  obtain ⟨part, fuel, evs, T, h1, h2, h3, -⟩ := C54_bank_partial conv verbose j fs rom r hj hc h a0 regs k d s hk hs hP
  obtain ⟨heard, g1, g2, g3, g4⟩ := hS part evs h1 h3
  exact ⟨fuel, evs, T, heard, g1, h2, g2, g3, g4⟩

/-! The example of C56 again, now with conditions on the file. -/

example : Sane 24 (file tuneCalls) := ⟨by decide +kernel, by decide +kernel, by decide +kernel⟩

example : Tidy (file tuneCalls) := ⟨by decide +kernel, by decide +kernel, by decide +kernel, by decide +kernel, by decide +kernel⟩

/-- The notes of the file. -/
example : fileNotes (file tuneCalls) = [(0, 60), (12, 62), (24, 64), (36, 65), (48, 67), (72, 60), (84, 62), (96, 64), (108, 65), (120, 69), (12, 48)] := by decide +kernel

/-- A tidy file with program changes between notes and snare drums, ended by note-offs and struck again; other notes may be ended by note-ons of velocity 0. -/
def drumCalls : List Callback :=
  [ .header 1 24, .trackChange, .midiEvent 0 (.programChange 0 5), .midiEvent 0 (.noteOn 0 60 100), .midiEvent 24 (.noteOn 0 60 0), .midiEvent 0 (.programChange 0 6),
    .midiEvent 0 (.noteOn 0 62 100), .midiEvent 24 (.noteOff 0 62 0),
    .trackChange, .midiEvent 0 (.noteOn 9 38 90), .midiEvent 12 (.noteOff 9 38 0), .midiEvent 12 (.noteOn 9 38 90), .midiEvent 12 (.noteOff 9 38 0), .midiEvent 0 (.noteOn 9 36 90),
    .midiEvent 12 (.noteOff 9 36 0) ]

example : Sane 24 (file drumCalls) ∧ Tidy (file drumCalls) :=
  ⟨⟨by decide +kernel, by decide +kernel, by decide +kernel⟩, ⟨by decide +kernel, by decide +kernel, by decide +kernel, by decide +kernel, by decide +kernel⟩⟩

example : fileNotes (file drumCalls) = [(0, 60), (24, 62), (0, 68), (24, 68), (36, 36)] := by decide +kernel

/-- Without the condition on snares the notes of the voices are not those of the file. -/
theorem C64_snare_false : ∃ calls h, readMidi id calls = .ok h ∧
    ¬ ((List.finRange 8).flatMap fun v => (midiNotes none (h.voices v)).map fun n => (n.on, n.note)).Perm (fileNotes (file calls)) := by
  let calls : List Callback := [.header 1 24, .trackChange, .midiEvent 0 (.noteOn 9 38 100), .midiEvent 24 (.noteOn 9 38 0)]
  have hok : (readMidi id calls).map (fun h => (List.finRange 8).flatMap fun v => (midiNotes none (h.voices v)).map fun n => (n.on, n.note)) = .ok [(0, 38)] := by decide +kernel
  cases hr : readMidi id calls with
  | error e => rw [hr] at hok; cases hok
  | ok h =>
    rw [hr] at hok
    refine ⟨calls, h, hr, ?_⟩
    simp only [Except.map, Except.ok.injEq] at hok
    rw [hok]
    decide +kernel

end M2S
