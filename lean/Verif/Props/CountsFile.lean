import Verif.Props.Size
import Verif.Props.Counts
/-
C92 in terms of the file: short files can be optimised.
-/
namespace M2S
open MidiSpec Timing Nspc

theorem emitted_cost (vel : UInt8) (m : Message) (c : PCmd) (h : Emitted vel m c) : 2 ≤ cost c := by
  have hg : ∀ (cmd : Command) (v : UInt8) (d : Duration), 1 ≤ (cmdBytes placeholder cmd).length → c ∈ noteGroup cmd v d → 2 ≤ cost c := by
    intro cmd v d hc h
    unfold noteGroup at h
    rw [List.mem_cons] at h
    rcases h with rfl | h
    · unfold cost
      simp only [Option.isSome_some, true_or, if_true]
      omega
    · simp only [noteTies, List.mem_map] at h
      obtain ⟨i, -, rfl⟩ := h
      exact le_refl 2
  cases h with
  | rest u hu => exact le_refl 2
  | tempo => exact le_refl 2
  | volume => exact le_refl 2
  | instrument => exact le_refl 2
  | slide => exact (by decide : 2 ≤ 4)
  | note dl ch n v n' dd _ hn' hl hc => exact hg _ _ _ (le_refl 1) hc
  | tied dl ch n v dd _ hl hc => exact hg _ _ _ (le_refl 1) hc

theorem cost_loop (p : Nat) (f : F32) : ∀ (evs : List (Message × Nat)) (st st' : TrackState), (∀ c ∈ st.commands, 2 ≤ cost c) →
    evs.foldlM (trackStep p f) st = .ok st' → ∀ c ∈ st'.commands, 2 ≤ cost c := by
  intro evs
  induction evs with
  | nil => intro st st' h hs; simp only [List.foldlM_nil, res_pure] at hs; subst hs; exact h
  | cons ev evs ih =>
    intro st st' h hs
    simp only [List.foldlM_cons, res_bind] at hs
    obtain ⟨st1, g1, hs⟩ := hs
    obtain ⟨⟨new, e1, e2⟩, -⟩ := emits_step p f st st1 ev g1
    refine ih st1 st' ?_ hs
    rw [e1]
    intro c hc
    rcases List.mem_append.1 hc with hc | hc
    · exact h c hc
    · exact emitted_cost _ _ c (e2 c hc)

theorem trackNew_cost (evs : List (Message × Nat)) (p T : Nat) (f : F32) (cs : List PCmd) (h : trackNew evs p T f = .ok cs) : ∀ c ∈ cs, 2 ≤ cost c := by
  obtain ⟨st, cs0, h1, h2, h3, h4⟩ := trackNew_pre evs p T f cs h
  have hf := sustainPass_fused' cs0 cs h4 h3
  have hst := cost_loop p f evs {} st (by simp) h1
  have h0 : ∀ c ∈ cs0, 2 ≤ cost c := by
    rcases h2 with ⟨-, rfl⟩ | ⟨-, e, h2⟩
    · simp
    · obtain ⟨new, e1, e2⟩ := emits_insertRest 0 (.sysEx 0 []) _ _ _ _ _ _ h2
      rw [e1]
      intro c hc
      rcases List.mem_append.1 hc with hc | hc
      · exact hst c hc
      · exact emitted_cost _ _ c (e2 c hc)
  clear h1 h2 h3 h4 h hst
  induction hf with
  | nil => exact h0
  | keep c _ ih =>
    intro x hx
    rcases List.mem_cons.1 hx with rfl | hx
    · exact h0 _ (by simp)
    · exact ih (fun y hy => h0 y (by simp [hy])) x hx
  | fuse p dn dr s dt vn sn vr sr _ hs _ _ _ ih =>
    intro x hx
    rcases List.mem_cons.1 hx with rfl | hx
    · have : cost ⟨some dt, vn, some s, .note p⟩ = 3 := by simp [cost, Command.isNote, cmdBytes, encodeCmd]
      omega
    · exact ih (fun y hy => h0 y (by simp [hy])) x hx

theorem commands_costs (tracks : List (List PCmd)) (h : ∀ tr ∈ tracks, ∀ c ∈ tr, 2 ≤ cost c) : 2 * totalSize tracks ≤ (tracks.map costs).sum := by
  have one : ∀ tr : List PCmd, (∀ c ∈ tr, 2 ≤ cost c) → 2 * tr.length ≤ costs tr := by
    intro tr
    induction tr with
    | nil => intro _; simp [costs]
    | cons c tr ih =>
      intro h
      have h1 := h c (List.mem_cons_self ..)
      have h2 := ih fun x hx => h x (List.mem_cons_of_mem _ hx)
      unfold costs at *
      simp only [List.map_cons, List.sum_cons, List.length_cons]
      omega
  unfold totalSize
  induction tracks with
  | nil => simp
  | cons t ts ih =>
    have h1 := one t (h t (List.mem_cons_self ..))
    have h2 := ih fun x hx => h x (List.mem_cons_of_mem _ hx)
    simp only [List.map_cons, List.sum_cons]
    omega

/-- **C92**, the number of commands: the messages of the file account for one command per two bytes of C88, the length of the tracks for one per 127 units. -/
theorem C92_commands (ord : EnumOrder) (ho : ∀ l, (ord l).Perm l) (calls : List Callback) (m : MidiHandler) (hr : readMidi ord calls = .ok m) (f : F32) (s : Song)
    (h : songFromMidi m f false = .ok s) :
    254 * (s.tracks.map List.length).sum ≤ 127 * (16 + fileBytes (file calls)) + 2 * (s.tracks.map Timing.total).sum := by
  unfold songFromMidi at h
  rw [res_bind] at h
  obtain ⟨tracks, h1, h⟩ := h
  simp only [Bool.false_eq_true, if_false, res_pure] at h
  subst h
  have hc := (song_costs ord ho calls m hr f tracks h1).1
  have := commands_costs tracks (by
    intro tr htr
    unfold voiceTracks at h1
    simp only [res_bind, res_pure] at h1
    obtain ⟨ts, h1, rfl⟩ := h1
    rw [List.mem_filter] at htr
    obtain ⟨v, -, hn⟩ := mapM_mem _ _ _ h1 tr htr.1
    exact trackNew_cost _ _ _ _ _ hn)
  unfold totalSize at this
  simp only
  omega

/-- **C92, partial**, in terms of the file alone (missing: larger files, for which it is false from some size on, `C92_panics`): a tidy file of sane content at a multiple of 24 ticks per beat whose
messages account for few bytes (C88), such as one of 97 notes (14 bytes each, off the drum channel and without portamento) in 200 beats, is converted with loop extraction as well as without. -/
theorem C92_file_partial (ord : EnumOrder) (ho : ∀ l, (ord l).Perm l) (calls : List Callback) (m : MidiHandler) (hr : readMidi ord calls = .ok m) (hs : Sane m.ticksPerBeat (file calls))
    (ht : Tidy (file calls)) (hp : 0 < m.ticksPerBeat) (hp2 : m.ticksPerBeat < 65536) (h24 : 24 ∣ m.ticksPerBeat) (hT : m.maxTime + 3525 ≤ exactTicks m.ticksPerBeat)
    (hT2 : 24 * (m.maxTime + 1) ≤ 32511 * m.ticksPerBeat) (hsmall : 127 * fileBytes (file calls) + 16 * (24 * m.maxTime / m.ticksPerBeat + 1) < 127 * 1968) (f : F32) :
    ∃ s s', songFromMidi m f false = .ok s ∧ songFromMidi m f true = .ok s' := by
  obtain ⟨⟨s, h⟩, -⟩ := C63_converts_partial ord calls m hr hs f hp hp2 hT
  have hc := C92_commands ord ho calls m hr f s h
  have htot : (s.tracks.map Timing.total).sum ≤ 8 * (24 * m.maxTime / m.ticksPerBeat + 1) := by
    have h' := h
    unfold songFromMidi at h'
    rw [res_bind] at h'
    obtain ⟨tracks, h1, h'⟩ := h'
    simp only [Bool.false_eq_true, if_false, res_pure] at h'
    subst h'
    exact tidy_total ord ho calls m hr hs ht hp hp2 h24 hT hT2 f tracks h1
  obtain ⟨s', h'⟩ := C92_song_partial m f s h (Or.inl (by unfold totalSize; omega))
  exact ⟨s, s', h, h'⟩

/-! The tune of C55 meets the hypotheses; its 11 notes come to 13 commands in two tracks. -/

example : ∃ s s', songFromMidi tuneMidi (F32.ofRat (1 / 5)) false = .ok s ∧ songFromMidi tuneMidi (F32.ofRat (1 / 5)) true = .ok s' := by
  obtain ⟨e1, e2, -⟩ := tuneMidi_voices
  refine C92_file_partial id (fun _ => List.Perm.refl _) tuneCalls tuneMidi tuneMidi_read ?_ ?_ ?_ ?_ ?_ ?_ ?_ ?_ _
  · rw [e1]; exact ⟨by decide +kernel, by decide +kernel, by decide +kernel⟩
  · exact ⟨by decide +kernel, by decide +kernel, by decide +kernel, by decide +kernel, by decide +kernel⟩
  · rw [e1]; decide
  · rw [e1]; decide
  · rw [e1]
  · rw [e1, e2]; decide +kernel
  · rw [e1, e2]; decide
  · rw [e1, e2]; decide +kernel

example : tunePlain.tracks.map List.length = [10, 3] ∧ (tunePlain.tracks.map List.length).sum * 254 ≤ 127 * (16 + 154) + 2 * 288 := by decide

/-- 97 notes in 200 beats. -/
example : 127 * (97 * 14) + 16 * (24 * (200 * 480) / 480 + 1) < 127 * 1968 := by decide

end M2S
