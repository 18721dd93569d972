import Verif.Proofs.Mute
import Verif.Props.FileToSound
/-
Property C99: files with muted channels.
-/
namespace M2S
open MidiSpec Timing

/-- A prefix of a filtered list comes from a prefix of the list. -/
theorem filter_prefix {α β : Type} (p : α → Bool) (g : α → β) (l : List α) : ∀ (a b : List β), (l.filter p).map g = a ++ b → ∃ l1 l2, l = l1 ++ l2 ∧ (l1.filter p).map g = a := by
  intro a b h
  rw [List.map_eq_append_iff] at h
  obtain ⟨x, y, h1, rfl, rfl⟩ := h
  rw [List.filter_eq_append_iff] at h1
  obtain ⟨l1, l2, rfl, rfl, -⟩ := h1
  exact ⟨l1, l2, rfl, rfl⟩

/-- **C99 (channels that never sound together).** If a file can be read, so can the file with all channels muted but some that never sound at the same time. -/
theorem C99_group (ord : EnumOrder) (calls : List Callback) (h : MidiHandler) (hr : readMidi ord calls = .ok h) (on : Fin 16 → Bool)
    (hon : ∀ c c', on c = true → on c' = true → c ≠ c' → ∀ t, ¬ (SoundsOn (file calls) c t ∧ SoundsOn (file calls) c' t)) :
    ∃ h', readMidi ord (muted on calls) = .ok h' := by
  have hread : Readable calls ∧ ¬ StrayEnd (file calls) := by
    rcases read_steps ord calls with ⟨-, e⟩ | ⟨-, -, e⟩ | ⟨-, -, h1, h2, -⟩
    · rw [hr] at e; cases e
    · rw [hr] at e; cases e
    · exact ⟨h1, h2⟩
  have hr' := muted_readable on calls hread.1
  obtain ⟨⟨ivs, mt⟩, hscan⟩ := (scan_stray (file (muted on calls))).2 fun h => hread.2 (muted_stray h)
  have hsep : Separates (file (muted on calls)) fun _ => 0 := by
    intro c c' hne _ t
    rw [muted_soundsOn, muted_soundsOn]
    rintro ⟨⟨h1, h2⟩, h3, h4⟩
    exact hon c c' h1 h3 hne t ⟨h2, h4⟩
  have hfind : ∃ bs, findBaseVoices ((List.finRange 16).map ivs) (fun _ => []) = some bs := by
    rw [← Option.ne_none_iff_exists']
    intro h
    exact (search_separates _ ivs mt hscan).1 h ⟨_, hsep⟩
  obtain ⟨bs, hbs⟩ := hfind
  have hzero : (fun c : Fin 16 => bs.getD c 0) = fun _ => 0 := by
    rcases (search_first (scan_facts _ ivs mt hscan) bs hbs).2 _ hsep with e | ⟨c, hc, -⟩
    · exact e
    · exact absurd hc (by simp)
  refine read_succeeds ord _ hr' ivs mt hscan bs hbs ?_
  intro sb hb hb'
  rw [hzero]
  obtain ⟨sa, outs, k, ha, ha', he, -⟩ := read_emits ord calls h hr
  obtain ⟨-, -, -, -, hch, -⟩ := readMidi_ok ord calls h hr
  have hmerged := muted_merged on calls sa sb (fun c => by rw [ha c, hch c]) ha' hb hb'
  refine deal_one ord _ ?_
  intro done rest hs xs hd hx
  rw [hs, List.filter_append, List.map_append] at hmerged
  obtain ⟨l1, l2, e1, e2⟩ := filter_prefix _ _ _ _ _ hmerged
  refine pending_eight ord _ _ l1 l2 _ he e1 xs hd ?_
  intro x hxm
  have hp := hx x hxm
  -- the note belongs to a channel that is on
  have hxon : on x.1 = true := by
    obtain ⟨pre, a, post, h1, h2, h3, -⟩ := hp
    have hmem : a ∈ sb.map (·.2) := by rw [hs, h1]; simp
    obtain ⟨p, hp, rfl⟩ := List.mem_map.1 hmem
    have : p.2 ∈ sortMessages (ofChannel (file (muted on calls)) p.1) := by
      rw [← hb p.1]
      exact List.mem_map.2 ⟨p, List.mem_filter.2 ⟨hp, by simp⟩, rfl⟩
    obtain ⟨m, -, g1, -, d, g2⟩ := muted_mem (List.mem_of_mem_filter ((sort_perm _).mem_iff.1 this))
    rw [g2, starts_withDelta] at h2
    rw [g2, noteOf_withDelta] at h3
    rw [← audible_note (on := on) (.inl h2) (home_note h3), g1]
  have hsel : ∀ m : TMsg, (starts m.1 = true ∨ ends m.1 = true) → noteOf m.1 = some x → soundOf on m = true := by
    intro m hm hn
    unfold soundOf
    rw [home_note hn]
    rcases hm with hm | hm <;> simp [hm, hxon]
  rw [← pending_filter hsel, ← pending_bare, e2, pending_bare, pending_filter hsel]
  exact hp

/-- **C99 (solo).** If a file can be read, so can the file with all channels muted but one. -/
theorem C99_solo (ord : EnumOrder) (calls : List Callback) (h : MidiHandler) (hr : readMidi ord calls = .ok h) (c : Fin 16) :
    ∃ h', readMidi ord (muted (fun d => d = c) calls) = .ok h' := by
  refine C99_group ord calls h hr _ ?_
  intro a b ha hb hne
  simp only [decide_eq_true_eq] at ha hb
  exact absurd (ha.trans hb.symm) hne

/-- **C99 (melodies).** If a file whose notes start and end in pairs and whose channels play no chords can be read, so can the file with any of its channels muted. -/
theorem C99_melodies_partial (ord : EnumOrder) (calls : List Callback) (h : MidiHandler) (hr : readMidi ord calls = .ok h) (hp : Paired (file calls))
    (hmel : ∀ c, ¬ Chords (file calls) c) (on : Fin 16 → Bool) : ∃ h', readMidi ord (muted on calls) = .ok h' := by
  have hread : Readable calls := by
    rcases read_steps ord calls with ⟨-, e⟩ | ⟨-, -, e⟩ | ⟨-, -, h1, h2, -⟩
    · rw [hr] at e; cases e
    · rw [hr] at e; cases e
    · exact h1
  have hr' := muted_readable on calls hread
  have hsep := muted_separates (on := on) (C95_first ord calls h hr).1
  have hiff := C90_melodies_iff ord (muted on calls) hr' (muted_paired hp) fun c hc => hmel c (muted_chords hc)
  rcases C90_outcomes ord (muted on calls) with h1 | h1 | h1
  · exact h1
  · exfalso
    rcases read_steps ord (muted on calls) with ⟨g, -⟩ | ⟨-, g, -⟩ | ⟨-, -, -, g2, -, ⟨-, g⟩ | ⟨-, -, ⟨_, g⟩ | g⟩⟩
    · exact g hr'
    · have := muted_stray g
      rcases read_steps ord calls with ⟨-, e⟩ | ⟨-, -, e⟩ | ⟨-, -, -, g, -⟩
      · rw [hr] at e; cases e
      · rw [hr] at e; cases e
      · exact g this
    · rw [h1] at g; cases g
    · rw [h1] at g; cases g
    · rw [h1] at g; cases g
  · exact absurd ⟨_, hsep⟩ (hiff.1 h1)

/-- **C99 (few voices).** If a file needs few enough voices (C70), so does the file with any of its channels muted, and it can be read. -/
theorem C99_few_partial (ord : EnumOrder) (calls : List Callback) (hr : Readable calls) (hp : Paired (file calls)) (hf : FewVoices (file calls)) (on : Fin 16 → Bool) :
    FewVoices (file (muted on calls)) ∧ ∃ h', readMidi ord (muted on calls) = .ok h' :=
  ⟨muted_few hf, C70_few_channels_partial ord _ (muted_readable on calls hr) (muted_paired hp) (muted_few hf)⟩

/-- The earliest instant not after `t` at which the channels `c` and `c'` sound at least as much as at `t` is a start of one of their notes. -/
theorem sounding_pair (l : List TMsg) (c c' : Fin 16) (t : Nat) (h : 0 < sounding (ofChannel l c) t) : ∃ a ∈ l, starts a.1 = true ∧ (home a.1 = some c ∨ home a.1 = some c') ∧ a.2 ≤ t ∧
    sounding (ofChannel l c) t ≤ sounding (ofChannel l c) a.2 ∧ sounding (ofChannel l c') t ≤ sounding (ofChannel l c') a.2 := by
  induction t with
  | zero =>
    have : 0 < startsBy (ofChannel l c) 0 := by unfold sounding at h; omega
    obtain ⟨a, ha, ha'⟩ := List.countP_pos_iff.1 this
    simp only [Bool.and_eq_true, decide_eq_true_eq] at ha'
    obtain ⟨hm, hc⟩ := List.mem_filter.1 ha
    exact ⟨a, hm, ha'.1, .inl (by simpa using hc), ha'.2, by rw [Nat.le_zero.1 ha'.2], by rw [Nat.le_zero.1 ha'.2]⟩
  | succ t ih =>
    by_cases hs : ∃ a ∈ l, starts a.1 = true ∧ (home a.1 = some c ∨ home a.1 = some c') ∧ a.2 = t + 1
    · obtain ⟨a, h1, h2, h3, h4⟩ := hs
      exact ⟨a, h1, h2, h3, by omega, by rw [h4], by rw [h4]⟩
    · have hle : ∀ d, (d = c ∨ d = c') → sounding (ofChannel l d) (t + 1) ≤ sounding (ofChannel l d) t := by
        intro d hd
        have e1 : startsBy (ofChannel l d) (t + 1) ≤ startsBy (ofChannel l d) t := by
          apply List.countP_mono_left
          intro m hm
          obtain ⟨hm, hc⟩ := List.mem_filter.1 hm
          simp only [decide_eq_true_eq] at hc
          simp only [Bool.and_eq_true, decide_eq_true_eq]
          rintro ⟨g1, g2⟩
          refine ⟨g1, ?_⟩
          by_contra g3
          exact hs ⟨m, hm, g1, by rcases hd with rfl | rfl <;> simp [hc], by omega⟩
        have e2 : endsBy (ofChannel l d) t ≤ endsBy (ofChannel l d) (t + 1) := by
          apply List.countP_mono_left
          intro m hm
          simp only [Bool.and_eq_true, decide_eq_true_eq]
          rintro ⟨g1, g2⟩
          exact ⟨g1, by omega⟩
        unfold sounding
        omega
      have hc := hle c (.inl rfl)
      have hc' := hle c' (.inr rfl)
      obtain ⟨a, h1, h2, h3, h4, h5, h6⟩ := ih (by omega)
      exact ⟨a, h1, h2, h3, by omega, by omega, by omega⟩

/-- Channels that are on and sound together in the whole file sound together with the others muted. -/
theorem muted_together {on : Fin 16 → Bool} {calls : List Callback} {c c' : Fin 16} (hc : on c = true) (hc' : on c' = true) (h : Together (file calls) c c') :
    Together (file (muted on calls)) c c' := by
  obtain ⟨x, -, -, ⟨h1, m, hm, h2, h3⟩, ⟨h1', m', hm', h2', h3'⟩⟩ := h
  obtain ⟨a, g1, g2, g3, g4, g5, g6⟩ := sounding_pair (file calls) c c' x.2 h1
  have hau : audible on a.1 = true := by
    rcases g3 with g | g
    · rw [audible_note (.inl g2) g, hc]
    · rw [audible_note (.inl g2) g, hc']
  obtain ⟨a', k1, k2, d, k3⟩ := mem_muted (on := on) g1 hau
  refine ⟨a', k1, by rw [k3, starts_withDelta]; exact g2, ?_, ?_⟩
  · rw [muted_soundsOn, k2]
    exact ⟨hc, by omega, m, hm, h2, by omega⟩
  · rw [muted_soundsOn, k2]
    exact ⟨hc', by omega, m', hm', h2', by omega⟩

theorem programOf_withDelta (d : Nat) (m : Message) : programOf (withDelta d m) = programOf m := by
  cases m with
  | midiEvent _ e => cases e <;> rfl
  | _ => rfl

theorem audible_program {on : Fin 16 → Bool} {m : Message} {c : Fin 16} {p : UInt8} (h : programOf m = some (c, p)) : home m = some c ∧ audible on m = on c := by
  cases m with
  | midiEvent _ e =>
    cases e with
    | programChange ch q =>
      simp only [programOf, Option.some.injEq, Prod.mk.injEq] at h
      simp [home, audible, isSystem, h.1]
    | _ => simp [programOf] at h
  | _ => simp [programOf] at h

theorem isSnareMsg_withDelta (d : Nat) (m : Message) : isSnareMsg (withDelta d m) = isSnareMsg m := by unfold isSnareMsg; rw [noteOf_withDelta]

theorem isZeroOn_withDelta (d : Nat) (m : Message) : isZeroOn (withDelta d m) = isZeroOn m := by
  cases m with
  | midiEvent _ e => cases e <;> rfl
  | _ => rfl

theorem dataOk_withDelta (d : Nat) (m : Message) : dataOk (withDelta d m) = dataOk m := by
  cases m with
  | midiEvent _ e => cases e <;> rfl
  | metaEvent _ e _ => cases e <;> rfl
  | _ => rfl

/-- A tidy file with muted channels is tidy. -/
theorem muted_tidy {on : Fin 16 → Bool} {calls : List Callback} (h : Tidy (file calls)) : Tidy (file (muted on calls)) := by
  constructor
  · intro a' ha' hst
    obtain ⟨a, h1, hau, h2, d, h3⟩ := muted_mem ha'
    rw [h3, starts_withDelta] at hst
    obtain ⟨e, g1, g2, g3, g4⟩ := h.closed a h1 hst
    obtain ⟨c, n, hn⟩ := note_some (.inl hst)
    obtain ⟨e', k1, k2, d', k3⟩ := mem_muted (on := on) g1 (by
      rw [audible_note (.inr g2) (home_note (g3.trans hn)), ← hau]; exact (audible_note (.inl hst) (home_note hn)).symm)
    exact ⟨e', k1, by rw [k3, ends_withDelta]; exact g2, by rw [k3, h3, noteOf_withDelta, noteOf_withDelta]; exact g3, by rw [k2, h2]; exact g4⟩
  · intro p' hp' hpr a' ha' hst hlt
    obtain ⟨p, p1, pau, p2, dp, p3⟩ := muted_mem hp'
    obtain ⟨a, h1, hau, h2, d, h3⟩ := muted_mem ha'
    rw [h3, starts_withDelta] at hst
    rw [p3, programOf_withDelta] at hpr
    rcases h.programs p p1 hpr a h1 hst (by omega) with g | ⟨c, hc, c', hc', hne, g⟩
    · left
      rw [p2]
      exact (muted_endedBy hst hau h2 ⟨d, h3⟩ p.2).2 g
    · right
      obtain ⟨x, hx⟩ := Option.isSome_iff_exists.1 hpr
      obtain ⟨hh, hau2⟩ := audible_program (on := on) (p := x.2) (c := x.1) hx
      obtain ⟨ca, na, hn⟩ := note_some (.inl hst)
      have e1 : c = x.1 := Option.some.inj (hc.symm.trans hh)
      have e2 : c' = ca := Option.some.inj (hc'.symm.trans (home_note hn))
      refine ⟨c, by rw [p3, home_withDelta]; exact hc, c', by rw [h3, home_withDelta]; exact hc', hne, muted_together ?_ ?_ g⟩
      · rw [e1, ← hau2, pau]
      · rw [e2, ← audible_note (on := on) (.inl hst) (home_note hn), hau]
  · intro m' hm' x hx
    obtain ⟨m, h1, -, -, d, h3⟩ := muted_mem hm'
    rw [h3, noteOf_withDelta] at hx
    exact h.range m h1 x hx
  · intro m' hm' hs
    obtain ⟨m, h1, -, -, d, h3⟩ := muted_mem hm'
    rw [h3, isSnareMsg_withDelta] at hs
    rw [h3, isZeroOn_withDelta]
    exact h.snareEnds m h1 hs
  · intro a' ha' b' hb' hsa hsb hsn hne hlt
    obtain ⟨a, h1, hau, h2, d, h3⟩ := muted_mem ha'
    obtain ⟨b, k1, -, k2, d', k3⟩ := muted_mem hb'
    rw [h3, starts_withDelta] at hsa
    rw [k3, starts_withDelta] at hsb
    rw [h3, isSnareMsg_withDelta] at hsn
    rw [h3, k3, noteOf_withDelta, noteOf_withDelta] at hne
    rw [k2]
    exact (muted_endedBy hsa hau h2 ⟨d, h3⟩ b.2).2 (h.snareStarts a h1 b k1 hsa hsb hsn hne (by omega))

/-- A file of sane content with muted channels is of sane content. -/
theorem muted_sane {tpb : Nat} {on : Fin 16 → Bool} {calls : List Callback} (h : Sane tpb (file calls)) : Sane tpb (file (muted on calls)) := by
  constructor
  · intro m' hm'
    obtain ⟨m, h1, -, -, d, h3⟩ := muted_mem hm'
    rw [h3, dataOk_withDelta]
    exact h.bytes m h1
  · intro a' ha' b' hb' hst hne hlt
    obtain ⟨a, h1, -, h2, d, h3⟩ := muted_mem ha'
    obtain ⟨b, k1, -, k2, d', k3⟩ := muted_mem hb'
    rw [h3, starts_withDelta] at hst
    rw [h3, k3, noteOf_withDelta, noteOf_withDelta] at hne
    rw [k2, h2]
    exact h.apart a h1 b k1 hst hne (by omega)
  · have hrd := redelta_filter (muted_redelta on calls) (fun m => starts m.1) fun m d => by simp only [starts_withDelta]
    have e : ((file (muted on calls)).filter fun m => starts m.1).map (fun m => (noteOf m.1, m.2)) =
        (((file calls).filter fun m => audible on m.1).filter fun m => starts m.1).map fun m => (noteOf m.1, m.2) := by
      clear h
      generalize (((file calls).filter fun m => audible on m.1).filter fun m => starts m.1) = l at hrd
      generalize ((file (muted on calls)).filter fun m => starts m.1) = l' at hrd
      induction hrd with
      | nil => rfl
      | @cons m m' l l' hm _ ih =>
        obtain ⟨h1, d, h2⟩ := hm
        rw [List.map_cons, List.map_cons, ih, h1, h2, noteOf_withDelta]
    rw [e]
    refine List.Nodup.sublist ?_ h.once
    exact ((List.filter_sublist (l := file calls)).filter _).map _

theorem drum_withDelta (d : Nat) (m : Message) : noteOf (drum (withDelta d m)) = noteOf (drum m) := by
  cases m with
  | midiEvent _ e => cases e <;> rfl
  | _ => rfl

/-- The notes of the file with muted channels are the notes of the other channels. -/
theorem muted_notes (on : Fin 16 → Bool) (calls : List Callback) : fileNotes (file (muted on calls)) = fileNotes ((file calls).filter fun m => audible on m.1) := by
  have hrd := muted_redelta on calls
  generalize ((file calls).filter fun m => audible on m.1) = l at hrd
  generalize file (muted on calls) = l' at hrd
  unfold fileNotes
  induction hrd with
  | nil => rfl
  | @cons m m' l l' hm _ ih =>
    obtain ⟨h1, d, h2⟩ := hm
    rw [List.filterMap_cons, List.filterMap_cons, ih, h2, starts_withDelta, drum_withDelta, h1]

/-- **C99 (notes).** Let a tidy file of sane content be read after some channels have been muted. Then the notes on the eight voices are the notes the whole file has on the
other channels, each once and at its time. -/
theorem C99_notes (ord : EnumOrder) (ho : ∀ l, (ord l).Perm l) (calls : List Callback) (on : Fin 16 → Bool) (h : MidiHandler) (hr : readMidi ord (muted on calls) = .ok h)
    (hs : Sane (timeBase calls) (file calls)) (ht : Tidy (file calls)) :
    ((List.finRange 8).flatMap fun v => (midiNotes none (h.voices v)).map fun n => (n.on, n.note)).Perm (fileNotes ((file calls).filter fun m => audible on m.1)) := by
  rw [← muted_notes]
  have hb : h.ticksPerBeat = timeBase calls := by
    rw [← muted_base on calls]
    exact read_timeBase ord _ h hr
  exact (C64_voices ord ho _ h hr (by rw [hb]; exact muted_sane hs) (muted_tidy ht)).2.2.1

/-- The notes of a file are those of its channels together. -/
theorem notes_split (l : List TMsg) : (fileNotes l).Perm ((List.finRange 16).flatMap fun c => fileNotes (l.filter fun m => audible (fun d => d = c) m.1)) := by
  induction l with
  | nil => simp [fileNotes]
  | cons m l ih =>
    by_cases hst : starts m.1 = true
    · obtain ⟨c, n, hn⟩ := note_some (.inl hst)
      have hau : ∀ d, audible (fun e => decide (e = d)) m.1 = decide (c = d) := fun d => audible_note (.inl hst) (home_note hn)
      have hcons : ∀ l' : List TMsg, fileNotes (m :: l') = fileNotes [m] ++ fileNotes l' := fun l' => by unfold fileNotes; rw [← List.filterMap_append]; rfl
      have e : ∀ d, fileNotes ((m :: l).filter fun m => audible (fun e => decide (e = d)) m.1) =
          (if c = d then fileNotes [m] else []) ++ fileNotes (l.filter fun m => audible (fun e => decide (e = d)) m.1) := by
        intro d
        rw [List.filter_cons, hau d]
        by_cases h : c = d
        · simp only [h, decide_true, if_true]; exact hcons _
        · simp [h]
      simp only [e]
      rw [hcons]
      have h1 : ((List.finRange 16).flatMap fun d => if c = d then fileNotes [m] else []) = fileNotes [m] := by
        have hrep : ∀ k : List (Fin 16), (k.flatMap fun d => if c = d then fileNotes [m] else []) = (List.replicate (k.count c) (fileNotes [m])).flatten := by
          intro k
          induction k with
          | nil => rfl
          | cons d k ih =>
            rw [List.flatMap_cons, ih, List.count_cons]
            by_cases h : c = d
            · simp [h, List.replicate_succ]
            · simp [h, Ne.symm h]
        rw [hrep, List.count_eq_one_of_mem (List.nodup_finRange 16) (List.mem_finRange c)]
        simp
      refine (ih.append_left _).trans ?_
      conv => lhs; rw [← h1]
      exact (List.flatMap_append_perm _ _ _)
    · have hnil : ∀ l' : List TMsg, fileNotes (m :: l') = fileNotes l' := fun l' => by unfold fileNotes; rw [List.filterMap_cons]; simp [hst]
      rw [hnil]
      refine ih.trans (List.Perm.of_eq ?_)
      congr 1
      funext c
      rw [List.filter_cons]
      split
      · rw [hnil]
      · rfl

/-- **C99 (superposition).** If a tidy file of sane content can be read, every channel can be read alone, and the notes on the eight voices of the whole file are those of the
sixteen files with one channel together. -/
theorem C99_superposition (ord : EnumOrder) (ho : ∀ l, (ord l).Perm l) (calls : List Callback) (h : MidiHandler) (hr : readMidi ord calls = .ok h)
    (hs : Sane (timeBase calls) (file calls)) (ht : Tidy (file calls)) :
    ∃ solo : Fin 16 → MidiHandler, (∀ c, readMidi ord (muted (fun d => d = c) calls) = .ok (solo c)) ∧
      ((List.finRange 8).flatMap fun v => (midiNotes none (h.voices v)).map fun n => (n.on, n.note)).Perm
        ((List.finRange 16).flatMap fun c => (List.finRange 8).flatMap fun v => (midiNotes none ((solo c).voices v)).map fun n => (n.on, n.note)) := by
  choose solo hsolo using C99_solo ord calls h hr
  refine ⟨solo, hsolo, ?_⟩
  have hb : h.ticksPerBeat = timeBase calls := read_timeBase ord _ h hr
  refine ((C64_voices ord ho _ h hr (by rw [hb]; exact hs) ht).2.2.1).trans ((notes_split _).trans ?_)
  exact List.Perm.flatMap_left _ fun c _ => (C99_notes ord ho calls _ (solo c) (hsolo c) hs ht).symm

/-- Four pairs of channels sound one after the other, then channel 1 plays a chord of seven notes. -/
def quintetCalls : List Callback :=
  [ .header 1 24, .trackChange,
    .midiEvent 0 (.noteOn 0 60 100), .midiEvent 0 (.noteOn 2 62 100), .midiEvent 24 (.noteOff 0 60 0), .midiEvent 0 (.noteOff 2 62 0),
    .midiEvent 0 (.noteOn 1 60 100), .midiEvent 0 (.noteOn 3 62 100), .midiEvent 24 (.noteOff 1 60 0), .midiEvent 0 (.noteOff 3 62 0),
    .midiEvent 0 (.noteOn 3 60 100), .midiEvent 0 (.noteOn 4 62 100), .midiEvent 24 (.noteOff 3 60 0), .midiEvent 0 (.noteOff 4 62 0),
    .midiEvent 0 (.noteOn 4 60 100), .midiEvent 0 (.noteOn 2 62 100), .midiEvent 24 (.noteOff 4 60 0), .midiEvent 0 (.noteOff 2 62 0),
    .midiEvent 0 (.noteOn 1 60 100), .midiEvent 0 (.noteOn 1 62 100), .midiEvent 0 (.noteOn 1 64 100), .midiEvent 0 (.noteOn 1 65 100),
    .midiEvent 0 (.noteOn 1 67 100), .midiEvent 0 (.noteOn 1 69 100), .midiEvent 0 (.noteOn 1 71 100),
    .midiEvent 24 (.noteOff 1 60 0), .midiEvent 0 (.noteOff 1 62 0), .midiEvent 0 (.noteOff 1 64 0), .midiEvent 0 (.noteOff 1 65 0),
    .midiEvent 0 (.noteOff 1 67 0), .midiEvent 0 (.noteOff 1 69 0), .midiEvent 0 (.noteOff 1 71 0) ]

/-- The file is read; with channel 0 muted, whose only note sounds long before the chord, it is refused: the first voice of channel 2 becomes that of channel 1, and the five
channels need three first voices instead of two. -/
theorem quintet_outcomes : (readMidi id quintetCalls).toOption.isSome = true ∧ readMidi id (muted (fun c => c ≠ 0) quintetCalls) = .error (.err .couldntFit) := by
  constructor
  · decide +kernel
  · rcases C90_outcomes id (muted (fun c => c ≠ 0) quintetCalls) with ⟨h, e⟩ | e | e
    · have : (readMidi id (muted (fun c => c ≠ 0) quintetCalls)).toOption.isSome = false := by decide +kernel
      rw [e] at this
      cases this
    · have : (match readMidi id (muted (fun c => c ≠ 0) quintetCalls) with | .error .panic => true | _ => false) = false := by decide +kernel
      rw [e] at this
      cases this
    · exact e

/-- **C99 fails in general.** Muting a channel can make a file unreadable. -/
theorem C99_mute_false : ¬ ∀ (ord : EnumOrder) (calls : List Callback) (h : MidiHandler) (on : Fin 16 → Bool), readMidi ord calls = .ok h →
    ∃ h', readMidi ord (muted on calls) = .ok h' := by
  intro hall
  obtain ⟨h1, h2⟩ := quintet_outcomes
  cases e : readMidi id quintetCalls with
  | error x => rw [e] at h1; cases h1
  | ok h =>
    obtain ⟨h', e'⟩ := hall id quintetCalls h (fun c => c ≠ 0) e
    rw [h2] at e'
    cases e'

/-- In the same file channels 2 and 1 never sound together; with all others muted it is read, as it is for each channel alone. -/
example : (readMidi id (muted (fun c => c = 1 ∨ c = 2) quintetCalls)).toOption.isSome = true ∧ (readMidi id (muted (fun c => c = 1) quintetCalls)).toOption.isSome = true ∧
    (file (muted (fun c => c = 1) quintetCalls)).length = 16 := by
  decide +kernel

/-- The three channels of `trioCalls` need few enough voices; without the second the delta times of the first and the third remain, and six messages are gone. -/
example : FewVoices (file trioCalls) ∧ (muted (fun c => c ≠ 2) trioCalls).length = trioCalls.length - 6 ∧ playing (file (muted (fun c => c ≠ 2) trioCalls)) = [0, 9] ∧
    (readMidi id (muted (fun c => c ≠ 2) trioCalls)).toOption.isSome = true := by
  decide +kernel

/-- Ten melodies one after the other, five of them muted: the file is read and the times of the remaining notes are those of the whole file. -/
example : (∀ c, ¬ Chords (file relayCalls) c) ∧ (readMidi id relayCalls).toOption.isSome = true ∧ (readMidi id (muted (fun c => c.val % 2 = 1) relayCalls)).toOption.isSome = true ∧
    (fileNotes (file (muted (fun c => c.val % 2 = 1) relayCalls))).map (·.1) = [24, 72, 120, 168, 216] := by
  decide +kernel

/-- The notes of `drumCalls`, which is tidy and of sane content (Props/FileToSound): those of channel 0 and those of channel 9 alone. -/
example : fileNotes (file (muted (fun d => d = 0) drumCalls)) = [(0, 60), (24, 62)] ∧ fileNotes (file (muted (fun d => d = 9) drumCalls)) = [(0, 68), (24, 68), (36, 36)] ∧
    (readMidi id drumCalls).toOption.isSome = true := by
  decide +kernel

end M2S
