import Verif.Proofs.Rename
import Verif.Proofs.Sane
import Verif.Props.Sane
/-
Converting a voice commutes with transposition.
-/
namespace M2S
open MidiSpec Timing

/-! ## The notes of the voices are notes of the file -/

/-- A property of the notes of messages. -/
def onNotes (P : Fin 16 → UInt8 → Prop) : Message → Prop
  | .midiEvent _ (.noteOff ch n _) => P ch n
  | .midiEvent _ (.noteOn ch n _) => P ch n
  | _ => True

theorem onNotes_free (P : Fin 16 → UInt8 → Prop) (d : Nat) (e : MidiEvent) (h : ∀ ch n v, e ≠ .noteOff ch n v ∧ e ≠ .noteOn ch n v) : onNotes P (.midiEvent d e) := by
  cases e with
  | noteOff ch n v => exact absurd rfl (h ch n v).1
  | noteOn ch n v => exact absurd rfl (h ch n v).2
  | _ => trivial

/-- The remembered messages are no notes. -/
structure NoteFree (P : Fin 16 → UInt8 → Prop) (k : Ctl) : Prop where
  ctrl : ∀ c m, k.lastCtrl c = some m → onNotes P m
  prog : ∀ c m, k.lastProg c = some m → onNotes P m
  bend : ∀ c m, k.lastBend c = some m → onNotes P m

theorem notes_step (P : Fin 16 → UInt8 → Prop) (hP : ∀ n, ¬ P 9 n) (ord : EnumOrder) (base : Fin 16 → Fin 8) (k : Ctl) (m : Message) (o : List (Fin 8 × Message)) (k' : Ctl)
    (h : NoteFree P k) (hm : onNotes P m) (he : emit ord base k m = some (o, k')) : NoteFree P k' ∧ ∀ p ∈ o, onNotes P p.2 := by
  have close : ∀ ch n, NoteFree P (ctlClose k ch n) := by
    intro ch n
    obtain ⟨h1, h2, h3, -⟩ := ctlClose_last k ch n
    exact ⟨by rw [h1]; exact h.ctrl, by rw [h2]; exact h.prog, by rw [h3]; exact h.bend⟩
  have chan : ∀ (ch : Fin 16) (m : Message), onNotes P m → ∀ p ∈ outChannel ord base k ch m, onNotes P p.2 := by
    intro ch m hm p hp
    unfold outChannel at hp
    rcases List.mem_append.1 hp with hp | hp
    · obtain ⟨q, -, rfl⟩ := List.mem_map.1 hp
      exact hm
    · split_ifs at hp
      · simp at hp
      · simp only [List.mem_singleton] at hp; subst hp; exact hm
  have opt : ∀ v (x : Option Message), (∀ m, x = some m → onNotes P m) → ∀ p ∈ outOpt v x, onNotes P p.2 := by
    intro v x hx p hp
    cases x with
    | none => simp [outOpt] at hp
    | some m =>
      simp only [outOpt, Option.map_some, Option.toList_some, List.mem_singleton] at hp
      subst hp
      exact hx m rfl
  have one : ∀ v, o = [(v, m)] → ∀ p ∈ o, onNotes P p.2 := by
    rintro v rfl p hp
    simp only [List.mem_singleton] at hp
    subst hp
    exact hm
  have drum : ∀ ch n, P ch n → drumNote ch n = n := by
    intro ch n hn
    rw [drumNote_eq, if_neg]
    rintro ⟨rfl, -⟩
    exact hP n hn
  cases m with
  | metaEvent d e data =>
    cases e with
    | setTempo =>
      simp only [emit, Option.some.injEq, Prod.mk.injEq] at he
      exact ⟨by rw [← he.2]; exact h, one 0 he.1.symm⟩
    | _ =>
      simp only [emit, Option.some.injEq, Prod.mk.injEq] at he
      exact ⟨by rw [← he.2]; exact h, by rw [← he.1]; simp⟩
  | sysEx d data =>
    simp only [emit, Option.some.injEq, Prod.mk.injEq] at he
    exact ⟨by rw [← he.2]; exact h, one 0 he.1.symm⟩
  | trackChange =>
    simp only [emit, Option.some.injEq, Prod.mk.injEq] at he
    exact ⟨by rw [← he.2]; exact h, by rw [← he.1]; simp⟩
  | midiEvent d e =>
    cases e with
    | unknown ch =>
      simp only [emit, Option.some.injEq, Prod.mk.injEq] at he
      exact ⟨by rw [← he.2]; exact h, by rw [← he.1]; simp⟩
    | polyphonicKeyPressure ch n v =>
      simp only [emit] at he
      split at he
      · rename_i w _
        simp only [Option.some.injEq, Prod.mk.injEq] at he
        exact ⟨by rw [← he.2]; exact h, one w he.1.symm⟩
      · simp only [Option.some.injEq, Prod.mk.injEq] at he
        exact ⟨by rw [← he.2]; exact h, by rw [← he.1]; simp⟩
    | channelPressure ch v =>
      simp only [emit, Option.some.injEq, Prod.mk.injEq] at he
      exact ⟨by rw [← he.2]; exact h, by rw [← he.1]; exact chan ch _ hm⟩
    | controlChange ch c v =>
      simp only [emit, Option.some.injEq, Prod.mk.injEq] at he
      refine ⟨?_, by rw [← he.1]; exact chan ch _ hm⟩
      rw [← he.2]
      split_ifs
      · refine ⟨?_, h.prog, h.bend⟩
        intro c' m' hm'
        rcases update_some hm' with ⟨rfl, rfl⟩ | hm'
        · exact hm
        · exact h.ctrl c' m' hm'
      · exact h
    | programChange ch v =>
      simp only [emit, Option.some.injEq, Prod.mk.injEq] at he
      refine ⟨?_, by rw [← he.1]; exact chan ch _ hm⟩
      rw [← he.2]
      refine ⟨h.ctrl, ?_, h.bend⟩
      intro c' m' hm'
      rcases update_some hm' with ⟨rfl, rfl⟩ | hm'
      · exact hm
      · exact h.prog c' m' hm'
    | pitchBendChange ch v =>
      simp only [emit, Option.some.injEq, Prod.mk.injEq] at he
      refine ⟨?_, by rw [← he.1]; exact chan ch _ hm⟩
      rw [← he.2]
      refine ⟨h.ctrl, h.prog, ?_⟩
      intro c' m' hm'
      rcases update_some hm' with ⟨rfl, rfl⟩ | hm'
      · exact hm
      · exact h.bend c' m' hm'
    | noteOff ch n v =>
      simp only [emit] at he
      split at he
      · simp only [Option.some.injEq, Prod.mk.injEq] at he
        refine ⟨by rw [← he.2]; exact close ch n, ?_⟩
        rw [← he.1]
        intro p hp
        simp only [List.mem_singleton] at hp
        subst hp
        rw [drum ch n hm]
        exact hm
      · simp only [Option.some.injEq, Prod.mk.injEq] at he
        exact ⟨by rw [← he.2]; exact h, by rw [← he.1]; simp⟩
    | noteOn ch n vel =>
      have hcl : ∀ p ∈ outClose k d ch n vel, onNotes P p.2 := by
        intro p hp
        unfold outClose at hp
        split at hp
        · simp only [List.mem_singleton] at hp
          subst hp
          exact hm
        · simp at hp
      simp only [emit] at he
      by_cases hv : vel > 0
      · rw [if_pos hv] at he
        split at he
        · cases he
        · rename_i v hch
          simp only [Option.some.injEq, Prod.mk.injEq] at he
          constructor
          · rw [← he.2]
            refine ⟨(close ch n).ctrl, ?_, (close ch n).bend⟩
            intro c m hm
            simp only [ctlOpen] at hm
            split_ifs at hm
            · rcases update_some hm with ⟨rfl, rfl⟩ | hm
              · trivial
              · exact (close ch n).prog c m hm
            · exact (close ch n).prog c m hm
          · rw [← he.1]
            intro p hp
            simp only [List.mem_append, List.mem_singleton] at hp
            rcases hp with hp | (hp | hp) | hp
            · exact hcl p hp
            · unfold outSwitch at hp
              split_ifs at hp
              · simp only [List.mem_append] at hp
                rcases hp with (hp | hp) | hp
                · exact opt v _ (h.ctrl ch) p hp
                · exact opt v _ (h.prog ch) p hp
                · exact opt v _ (h.bend ch) p hp
              · simp at hp
            · unfold outPerc at hp
              split_ifs at hp
              · simp only [List.mem_singleton] at hp
                subst hp
                trivial
              · simp at hp
            · subst hp
              simp only
              rw [drum ch n hm]
              exact hm
      · rw [if_neg hv] at he
        simp only [Option.some.injEq, Prod.mk.injEq] at he
        exact ⟨by rw [← he.2]; exact close ch n, by rw [← he.1]; exact hcl⟩

theorem notes_emits (P : Fin 16 → UInt8 → Prop) (hP : ∀ n, ¬ P 9 n) (ord : EnumOrder) (base : Fin 16 → Fin 8) (seq : List TMsg) (os : List (Fin 8 × TMsg)) (k : Ctl)
    (hs : ∀ m ∈ seq, onNotes P m.1) (he : emits ord base (ctl0 base) seq = some (os, k)) : ∀ p ∈ os, onNotes P p.2.1 := by
  refine ((emits_nil_induct ord base (fun done outs k => (∀ m ∈ done, onNotes P m.1) → NoteFree P k ∧ ∀ p ∈ outs, onNotes P p.2.1) ?_ seq _ k os
    (fun _ => ⟨⟨by simp [ctl0], by simp [ctl0], by simp [ctl0]⟩, by simp⟩) he) hs).2
  intro done outs k m t o k' ih h1 hd
  obtain ⟨i1, i2⟩ := ih fun x hx => hd x (by simp [hx])
  obtain ⟨j1, j2⟩ := notes_step P hP ord base k m o k' i1 (hd (m, t) (by simp)) h1
  refine ⟨j1, ?_⟩
  intro p hp
  rcases List.mem_append.1 hp with hp | hp
  · exact i2 p hp
  · obtain ⟨q, hq, rfl⟩ := List.mem_map.1 hp
    exact j2 q hq

theorem voices_notes (P : Fin 16 → UInt8 → Prop) (hP : ∀ n, ¬ P 9 n) (ord : EnumOrder) (calls : List Callback) (m : MidiHandler) (hread : readMidi ord calls = .ok m)
    (hn : ∀ x ∈ file calls, onNotes P x.1) (v : Fin 8) : ∀ x ∈ m.voices v, onNotes P x.1 := by
  obtain ⟨seq, outs, k, s1, s2, s3, s4⟩ := read_emits ord calls m hread
  have hmem : ∀ x ∈ seq.map (·.2), x ∈ file calls := fun x hx => List.mem_of_mem_filter ((read_perm ord calls m hread seq s1).mem_iff.1 hx)
  intro x hx
  rw [s4] at hx
  obtain ⟨p, hp, rfl⟩ := List.mem_map.1 hx
  exact notes_emits P hP ord _ _ _ _ (fun x hx => hn x (hmem x hx)) s3 p (List.mem_of_mem_filter hp)

/-! ## Converting -/

variable (j : UInt8)

theorem transpose_renaming : Renaming (transposeCmd j) where
  inj := by
    rintro ⟨d, v, s, c⟩ ⟨d', v', s', c'⟩ h
    simp only [transposeCmd, PCmd.mk.injEq] at h ⊢
    refine ⟨h.1, h.2.1, h.2.2.1, ?_⟩
    have h4 := h.2.2.2
    cases c <;> cases c' <;> simp_all [transposeCommand]
  eligible := by rintro ⟨d, v, s, c⟩; cases c <;> rfl
  first := by rintro ⟨d, v, s, c⟩; cases c <;> rfl
  last := by rintro ⟨d, v, s, c⟩; cases c <;> rfl
  loop := fun _ _ => rfl

/-- The loop variables of `Track::new` for a transposed voice. -/
def transposeState (st : TrackState) : TrackState := { st with commands := st.commands.map (transposeCmd j) }

/-- A note that is in the MIDI range before and after the transposition. -/
def Movable (j : UInt8) (ch : Fin 16) (n : UInt8) : Prop := ch ≠ 9 ∧ n ≤ 127 ∧ n + j ≤ 127

theorem pitch_transpose (n : UInt8) (h1 : n ≤ 127) (h2 : n + j ≤ 127) : ∃ m, addU8 n 0x68 = .ok m ∧ addU8 (n + j) 0x68 = .ok (m + j) := by
  have e : (0x68 : UInt8).toNat = 104 := rfl
  have g1 : n.toNat ≤ 127 := UInt8.le_iff_toNat_le.1 h1
  have g2 : (n + j).toNat ≤ 127 := UInt8.le_iff_toNat_le.1 h2
  refine ⟨n + 0x68, ?_, ?_⟩
  · unfold addU8; rw [if_pos (by omega)]
  · unfold addU8; rw [if_pos (by omega), UInt8.add_assoc, UInt8.add_comm j, ← UInt8.add_assoc]

theorem insertRest_transpose (cs : List PCmd) (l t p : Nat) :
    insertRest (cs.map (transposeCmd j)) l t p = (insertRest cs l t p).map fun x => (x.1.map (transposeCmd j), x.2) := by
  unfold insertRest
  split
  · cases getDuration (t - l) p false with
    | error e => rfl
    | ok d =>
      simp only [bind, Except.bind]
      cases addU32 l d.quantizedTicks with
      | error e => rfl
      | ok u =>
        simp only [pure, Except.pure, Except.map, Except.ok.injEq, Prod.mk.injEq, and_true]
        split <;> simp [transposeCmd, restCmd, transposeCommand]
  · rfl

theorem slide_transpose (cs : List PCmd) : (cs.map (transposeCmd j)).getLast?.any PCmd.isSlide = cs.getLast?.any PCmd.isSlide := by
  rw [List.getLast?_map]
  cases cs.getLast? with
  | none => rfl
  | some c => obtain ⟨d, v, s, c⟩ := c; cases c <;> rfl

theorem noteTies_transpose (d : Duration) : (noteTies d).map (transposeCmd j) = noteTies d := by
  unfold noteTies
  rw [List.map_map]
  rfl

theorem trackNoteOff_transpose (p : Nat) (st : TrackState) (n : UInt8) (t : Nat) (h1 : n ≤ 127) (h2 : n + j ≤ 127) :
    trackNoteOff p (transposeState j st) (n + j) t = (trackNoteOff p st n t).map (transposeState j) := by
  obtain ⟨m, m1, m2⟩ := pitch_transpose j n h1 h2
  unfold trackNoteOff
  have hs : (transposeState j st).noteStart = st.noteStart := rfl
  have hc : (transposeState j st).commands = st.commands.map (transposeCmd j) := rfl
  have hv : (transposeState j st).noteVelocity = st.noteVelocity := rfl
  rw [hs, hc, slide_transpose, m1, m2, hv]
  cases st.noteStart with
  | none => rfl
  | some s =>
    simp only
    cases subU t s with
    | error e => rfl
    | ok dt =>
      simp only [bind, Except.bind]
      cases getDuration dt p true with
      | error e => rfl
      | ok d =>
        simp only
        cases addU32 s d.quantizedTicks with
        | error e => split <;> rfl
        | ok u =>
          split <;>
          simp [pure, Except.pure, Except.map, transposeState, noteTies_transpose, transposeCmd, transposeCommand]

theorem createPitchSlide_transpose (c : PCmd) (s n : UInt8) :
    (transposeCmd j c).createPitchSlide s (n + j) = (c.createPitchSlide s n).map (transposeCmd j) := by
  obtain ⟨d, v, su, c⟩ := c
  cases c <;> simp [PCmd.createPitchSlide, transposeCmd, transposeCommand, Function.comp_def]

theorem trackNoteOn_transpose (p : Nat) (st : TrackState) (n v : UInt8) (t : Nat) (h1 : n ≤ 127) (h2 : n + j ≤ 127) :
    trackNoteOn p (transposeState j st) (n + j) v t = (trackNoteOn p st n v t).map (transposeState j) := by
  obtain ⟨m, m1, m2⟩ := pitch_transpose j n h1 h2
  unfold trackNoteOn
  have hs : (transposeState j st).noteStart = st.noteStart := rfl
  have hc : (transposeState j st).commands = st.commands.map (transposeCmd j) := rfl
  have hl : (transposeState j st).lastNoteEnd = st.lastNoteEnd := rfl
  have hp : (transposeState j st).portamento = st.portamento := rfl
  have ht : (transposeState j st).portTime = st.portTime := rfl
  rw [hs, hc, hl, hp, ht, m1, m2, insertRest_transpose]
  cases insertRest st.commands st.lastNoteEnd t p with
  | error e => rfl
  | ok x =>
    obtain ⟨cs, l⟩ := x
    simp only [Except.map, bind, Except.bind, List.getLast?_map]
    cases cs.getLast? with
    | none => cases st.noteStart <;> rfl
    | some c =>
      simp only [Option.map_some]
      cases st.portamento with
      | false => cases st.noteStart <;> rfl
      | true =>
        simp only [if_true]
        cases getDuration st.portTime p true with
        | error e => rfl
        | ok d =>
          simp only [createPitchSlide_transpose]
          have : ∀ o : Option PCmd, cs.map (transposeCmd j) ++ (o.map (transposeCmd j)).toList = (cs ++ o.toList).map (transposeCmd j) := by
            intro o; cases o <;> simp
          rw [this]
          cases st.noteStart <;> rfl

theorem trackProgram_transpose (p : Nat) (st : TrackState) (ch : Fin 16) (pr : UInt8) (t : Nat) :
    trackProgram p (transposeState j st) ch pr t = (trackProgram p st ch pr t).map (transposeState j) := by
  unfold trackProgram
  have hc : (transposeState j st).commands = st.commands.map (transposeCmd j) := rfl
  have hl : (transposeState j st).lastNoteEnd = st.lastNoteEnd := rfl
  rw [hc, hl, insertRest_transpose]
  cases insertRest st.commands st.lastNoteEnd t p with
  | error e => rfl
  | ok x =>
    obtain ⟨cs, l⟩ := x
    simp only [Except.map, bind, Except.bind]
    split
    · simp [pure, Except.pure, transposeState, transposeCmd, plainCmd, transposeCommand]
    · split <;> simp [pure, Except.pure, panicked, transposeState, transposeCmd, plainCmd, transposeCommand]

theorem trackControl_transpose (st : TrackState) (c d : UInt8) :
    trackControl (transposeState j st) c d = (trackControl st c d).map (transposeState j) := by
  unfold trackControl
  split_ifs
  · rfl
  · cases mulU8 d 2 with
    | error e => rfl
    | ok v => simp [pure, Except.pure, bind, Except.bind, Except.map, transposeState, transposeCmd, plainCmd, transposeCommand]
  · rfl
  · rfl
  · rfl

theorem trackStep_transpose (p : Nat) (f : F32) (st : TrackState) (m : TMsg) (hm : onNotes (Movable j) m.1) :
    trackStep p f (transposeState j st) (rewriteAt 1 (shift j) m) = (trackStep p f st m).map (transposeState j) := by
  obtain ⟨m, t⟩ := m
  cases m with
  | metaEvent d e data =>
    cases e with
    | setTempo =>
      simp only [rewriteAt, rewrite, trackStep, bind, Except.bind]
      cases usecPerBeat data with
      | error e => rfl
      | ok u => simp [pure, Except.pure, Except.map, transposeState, transposeCmd, plainCmd, transposeCommand]
    | _ => rfl
  | sysEx d data => rfl
  | trackChange => rfl
  | midiEvent d e =>
    cases e with
    | noteOff ch n v =>
      obtain ⟨h1, h2, h3⟩ := hm
      simp only [rewriteAt, rewrite, renameEvent, shift, h1, if_false, trackStep, Nat.one_mul]
      exact trackNoteOff_transpose j p st n t h2 h3
    | noteOn ch n v =>
      obtain ⟨h1, h2, h3⟩ := hm
      simp only [rewriteAt, rewrite, renameEvent, shift, h1, if_false, trackStep, Nat.one_mul]
      exact trackNoteOn_transpose j p st n v t h2 h3
    | controlChange ch c x => exact trackControl_transpose j st c x
    | programChange ch pr =>
      simp only [rewriteAt, rewrite, renameEvent, trackStep, Nat.one_mul]
      exact trackProgram_transpose j p st ch pr t
    | _ => rfl

theorem setSustain_transpose (c n : PCmd) : (transposeCmd j c).setSustain (transposeCmd j n) = (c.setSustain n).map fun x => (transposeCmd j x.1, x.2) := by
  obtain ⟨d, v, s, c⟩ := c
  obtain ⟨d', v', s', c'⟩ := n
  cases c with
  | note x =>
    cases c' with
    | rest =>
      cases d with
      | none => rfl
      | some d =>
        cases d' with
        | none => rfl
        | some d' =>
          simp only [PCmd.setSustain, transposeCmd, transposeCommand]
          split_ifs <;> rfl
    | _ => rfl
  | _ => rfl

theorem sustainPass_transpose (cs : List PCmd) : sustainPass (cs.map (transposeCmd j)) = (sustainPass cs).map (List.map (transposeCmd j)) := by
  induction cs using sustainPass.induct with
  | case1 => rfl
  | case2 c => rfl
  | case3 c n rest ih1 ih2 =>
    simp only [List.map_cons, sustainPass] at ih2 ⊢
    rw [setSustain_transpose]
    cases c.setSustain n with
    | error e => rfl
    | ok x =>
      obtain ⟨c', b⟩ := x
      simp only [Except.map, bind, Except.bind]
      cases b with
      | true =>
        simp only [if_true, ih1]
        cases sustainPass rest <;> rfl
      | false =>
        simp only [Bool.false_eq_true, if_false]
        rw [ih2]
        cases sustainPass (n :: rest) <;> rfl

theorem trackNew_transpose (p T : Nat) (f : F32) (evs : List TMsg) (hn : ∀ m ∈ evs, onNotes (Movable j) m.1) :
    trackNew (evs.map (rewriteAt 1 (shift j))) p T f = (trackNew evs p T f).map (List.map (transposeCmd j)) := by
  unfold trackNew
  have h := foldlM_rewrite (trackStep p f) (trackStep p f) (rewriteAt 1 (shift j)) (transposeState j) evs (fun st m hm => trackStep_transpose j p f st m (hn m hm)) {}
  rw [show transposeState j {} = {} from rfl] at h
  rw [h]
  cases evs.foldlM (trackStep p f) {} with
  | error e => rfl
  | ok st =>
    simp only [Except.map, bind, Except.bind]
    have hc : (transposeState j st).commands = st.commands.map (transposeCmd j) := rfl
    have hl : (transposeState j st).lastNoteEnd = st.lastNoteEnd := rfl
    rw [hc, hl, List.isEmpty_map]
    split
    · rfl
    · split
      · rw [insertRest_transpose]
        cases insertRest st.commands st.lastNoteEnd T p with
        | error e => rfl
        | ok x => exact sustainPass_transpose j x.1
      · exact sustainPass_transpose j st.commands

end M2S
