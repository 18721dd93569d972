import Verif.Proofs.Emission
/-
Conversion of a voice on which notes alternate never asks for a second voice.
-/
namespace M2S
open MidiSpec

/-- Does not fail with "More than one voice needed". -/
def NoMulti {α : Type} (r : Res α) : Prop := r ≠ .error (.err .moreThanOneVoice)

theorem noMulti_bind {α β : Type} (x : Res α) (f : α → Res β) (h1 : NoMulti x) (h2 : ∀ a, x = .ok a → NoMulti (f a)) : NoMulti (x >>= f) := by
  cases x with
  | error e => intro h; apply h1; simpa [bind, Except.bind] using h
  | ok a => exact h2 a rfl

theorem noMulti_ok {α : Type} (a : α) : NoMulti (.ok a : Res α) := by intro h; cases h
theorem noMulti_pure {α : Type} (a : α) : NoMulti (pure a : Res α) := by intro h; cases h
theorem noMulti_panicked {α : Type} : NoMulti (panicked : Res α) := by intro h; simp [panicked] at h
theorem noMulti_addU32 (a b : Nat) : NoMulti (addU32 a b) := by unfold addU32; split_ifs; exacts [noMulti_ok _, noMulti_panicked]
theorem noMulti_mulU32 (a b : Nat) : NoMulti (mulU32 a b) := by unfold mulU32; split_ifs; exacts [noMulti_ok _, noMulti_panicked]
theorem noMulti_subU (a b : Nat) : NoMulti (subU a b) := by unfold subU; split_ifs; exacts [noMulti_ok _, noMulti_panicked]
theorem noMulti_addU8 (a b : UInt8) : NoMulti (addU8 a b) := by unfold addU8; split_ifs; exacts [noMulti_ok _, noMulti_panicked]
theorem noMulti_mulU8 (a b : UInt8) : NoMulti (mulU8 a b) := by unfold mulU8; split_ifs; exacts [noMulti_ok _, noMulti_panicked]

theorem noMulti_getDuration (a b : Nat) (c : Bool) : NoMulti (getDuration a b c) := by
  unfold getDuration
  repeat' first
    | exact noMulti_pure _
    | exact noMulti_ok _
    | exact noMulti_panicked
    | exact noMulti_addU32 _ _
    | exact noMulti_mulU32 _ _
    | exact noMulti_subU _ _
    | apply noMulti_bind
    | intro _ _
    | dsimp only
    | split

theorem noMulti_insertRest (cs : List PCmd) (a b c : Nat) : NoMulti (insertRest cs a b c) := by
  unfold insertRest
  repeat' first
    | exact noMulti_pure _
    | exact noMulti_ok _
    | exact noMulti_addU32 _ _
    | exact noMulti_getDuration _ _ _
    | apply noMulti_bind
    | intro _ _
    | dsimp only
    | split

theorem noMulti_usec (l : List UInt8) : NoMulti (usecPerBeat l) := by
  unfold usecPerBeat; split
  · exact noMulti_ok _
  · exact noMulti_panicked

theorem noMulti_noteOff (tpb : Nat) (st : TrackState) (n : UInt8) (t : Nat) : NoMulti (trackNoteOff tpb st n t) := by
  unfold trackNoteOff
  repeat' first
    | exact noMulti_pure _
    | exact noMulti_ok _
    | exact noMulti_addU32 _ _
    | exact noMulti_addU8 _ _
    | exact noMulti_subU _ _
    | exact noMulti_getDuration _ _ _
    | apply noMulti_bind
    | intro _ _
    | dsimp only
    | split

theorem noMulti_noteOn (tpb : Nat) (st : TrackState) (n v : UInt8) (t : Nat) (h : st.noteStart = none) : NoMulti (trackNoteOn tpb st n v t) := by
  unfold trackNoteOn
  simp only [h, Option.isSome_none, Bool.false_eq_true, if_false]
  repeat' first
    | exact noMulti_pure _
    | exact noMulti_ok _
    | exact noMulti_insertRest _ _ _ _
    | exact noMulti_addU8 _ _
    | exact noMulti_getDuration _ _ _
    | apply noMulti_bind
    | intro _ _
    | dsimp only
    | split

theorem noMulti_control (st : TrackState) (c d : UInt8) : NoMulti (trackControl st c d) := by
  unfold trackControl
  repeat' first
    | exact noMulti_pure _
    | exact noMulti_ok _
    | exact noMulti_mulU8 _ _
    | apply noMulti_bind
    | intro _ _
    | dsimp only
    | split

theorem noMulti_program (tpb : Nat) (st : TrackState) (ch : Fin 16) (p : UInt8) (t : Nat) : NoMulti (trackProgram tpb st ch p t) := by
  unfold trackProgram
  repeat' first
    | exact noMulti_pure _
    | exact noMulti_ok _
    | exact noMulti_panicked
    | exact noMulti_insertRest _ _ _ _
    | apply noMulti_bind
    | intro _ _
    | dsimp only
    | split

theorem noMulti_setSustain (a b : PCmd) : NoMulti (a.setSustain b) := by
  unfold PCmd.setSustain
  repeat' first
    | exact noMulti_pure _
    | exact noMulti_ok _
    | exact noMulti_panicked
    | exact noMulti_addU8 _ _
    | exact noMulti_mulU8 _ _
    | exact noMulti_addU32 _ _
    | exact noMulti_mulU32 _ _
    | exact noMulti_subU _ _
    | apply noMulti_bind
    | intro _ _
    | dsimp only
    | split

theorem noMulti_sustainPass (n : Nat) : ∀ l : List PCmd, l.length ≤ n → NoMulti (sustainPass l) := by
  induction n with
  | zero => intro l hl; cases l with
    | nil => exact noMulti_ok _
    | cons a l => simp at hl
  | succ n ih =>
    intro l hl
    match l, hl with
    | [], _ => exact noMulti_ok _
    | [c], _ => exact noMulti_ok _
    | c :: d :: rest, hl =>
      simp only [List.length_cons] at hl
      rw [sustainPass]
      apply noMulti_bind _ _ (noMulti_setSustain c d)
      rintro ⟨c', fused⟩ _
      dsimp only
      split
      · exact noMulti_bind _ _ (ih _ (by omega)) (fun _ _ => noMulti_pure _)
      · exact noMulti_bind _ _ (ih _ (by simp; omega)) (fun _ _ => noMulti_pure _)

/-- Every successful result satisfies `Q`. -/
def Post {α : Type} (r : Res α) (Q : α → Prop) : Prop := ∀ a, r = .ok a → Q a

theorem post_bind {α β : Type} (x : Res α) (f : α → Res β) (Q : β → Prop) (h : ∀ a, Post (f a) Q) : Post (x >>= f) Q := by
  intro b hb
  rw [res_bind] at hb
  obtain ⟨a, -, h2⟩ := hb
  exact h a b h2

theorem post_pure {α : Type} (a : α) (Q : α → Prop) (h : Q a) : Post (pure a) Q := by
  intro b hb; rw [res_pure] at hb; exact hb ▸ h

theorem post_noteOff (tpb : Nat) (st : TrackState) (n : UInt8) (t s : Nat) (h : st.noteStart = some s) :
    Post (trackNoteOff tpb st n t) fun st' => st'.noteStart = none := by
  unfold trackNoteOff
  rw [h]
  repeat' first
    | refine post_bind _ _ _ (fun _ => ?_)
    | with_reducible exact post_pure _ _ rfl
    | with_reducible refine post_pure _ _ ?_
    | dsimp only
    | split
    | rfl

theorem post_noteOn (tpb : Nat) (st : TrackState) (n v : UInt8) (t : Nat) (h : st.noteStart = none) :
    Post (trackNoteOn tpb st n v t) fun st' => st'.noteStart.isSome = true := by
  unfold trackNoteOn
  simp only [h, Option.isSome_none, Bool.false_eq_true, if_false]
  repeat' first
    | refine post_bind _ _ _ (fun _ => ?_)
    | with_reducible exact post_pure _ _ rfl
    | with_reducible refine post_pure _ _ ?_
    | dsimp only
    | split
    | rfl

theorem post_program (tpb : Nat) (st : TrackState) (ch : Fin 16) (p : UInt8) (t : Nat) :
    Post (trackProgram tpb st ch p t) fun st' => st'.noteStart = st.noteStart := by
  unfold trackProgram
  repeat' first
    | refine post_bind _ _ _ (fun _ => ?_)
    | with_reducible exact post_pure _ _ rfl
    | with_reducible refine post_pure _ _ ?_
    | dsimp only
    | split
    | rfl

/-- A step of the event loop keeps track of the held note. -/
theorem trackStep_held (tpb : Nat) (f : F32) (st : TrackState) (m : TMsg) (b b' : Bool) (hb : st.noteStart.isSome = b)
    (hv : ∀ d ch n v, m.1 = .midiEvent d (.noteOn ch n v) → v ≠ 0) (ha : altStep b m = some b') :
    NoMulti (trackStep tpb f st m) ∧ ∀ st', trackStep tpb f st m = .ok st' → st'.noteStart.isSome = b' := by
  obtain ⟨m, t⟩ := m
  cases m with
  | metaEvent d e data =>
    simp only [altStep, starts, ends, Bool.false_eq_true, if_false, Option.some.injEq] at ha
    subst ha
    cases e with
    | setTempo =>
      simp only [trackStep]
      refine ⟨noMulti_bind _ _ (noMulti_usec _) (fun _ _ => noMulti_pure _), ?_⟩
      intro st' h
      simp only [res_bind, res_pure] at h
      obtain ⟨a, -, rfl⟩ := h
      exact hb
    | other x =>
      simp only [trackStep]
      refine ⟨noMulti_ok _, ?_⟩
      rintro st' h; cases h; exact hb
  | sysEx d data =>
    simp only [altStep, starts, ends, Bool.false_eq_true, if_false, Option.some.injEq] at ha
    subst ha
    refine ⟨noMulti_ok _, ?_⟩
    rintro st' h; simp only [trackStep] at h; cases h; exact hb
  | trackChange =>
    simp only [altStep, starts, ends, Bool.false_eq_true, if_false, Option.some.injEq] at ha
    subst ha
    refine ⟨noMulti_ok _, ?_⟩
    rintro st' h; simp only [trackStep] at h; cases h; exact hb
  | midiEvent d e =>
    cases e with
    | noteOff ch n v =>
      simp only [altStep, starts, ends, Bool.false_eq_true, if_false, if_true] at ha
      split_ifs at ha with hb2
      simp only [Option.some.injEq] at ha
      subst ha
      refine ⟨noMulti_noteOff _ _ _ _, ?_⟩
      intro st' h
      rw [hb2] at hb
      obtain ⟨s, hs⟩ := Option.isSome_iff_exists.1 hb
      rw [post_noteOff tpb st n t s hs st' h]; rfl
    | noteOn ch n v =>
      have hv0 := hv d ch n v rfl
      simp only [altStep, starts, decide_not, hv0, decide_false, Bool.not_false, if_true] at ha
      split_ifs at ha with hb2
      simp only [Option.some.injEq] at ha
      subst ha
      have hn : st.noteStart = none := by
        rw [← Option.isSome_eq_false_iff.trans Option.isNone_iff_eq_none, hb]; simpa using hb2
      refine ⟨noMulti_noteOn _ _ _ _ _ hn, ?_⟩
      intro st' h
      exact post_noteOn tpb st n v t hn st' h
    | controlChange ch c v =>
      simp only [altStep, starts, ends, Bool.false_eq_true, if_false, Option.some.injEq] at ha
      subst ha
      refine ⟨noMulti_control _ _ _, ?_⟩
      intro st' h
      simp only [trackStep, trackControl] at h
      split_ifs at h
      · cases h; exact hb
      · simp only [res_bind, res_pure] at h
        obtain ⟨_, -, rfl⟩ := h
        exact hb
      · cases h; exact hb
      · cases h; exact hb
      · cases h; exact hb
    | programChange ch p =>
      simp only [altStep, starts, ends, Bool.false_eq_true, if_false, Option.some.injEq] at ha
      subst ha
      refine ⟨noMulti_program _ _ _ _ _, ?_⟩
      intro st' h
      rw [post_program tpb st ch p t st' h]; exact hb
    | polyphonicKeyPressure ch n v =>
      simp only [altStep, starts, ends, Bool.false_eq_true, if_false, Option.some.injEq] at ha
      subst ha
      exact ⟨noMulti_ok _, by rintro st' h; simp only [trackStep] at h; cases h; exact hb⟩
    | channelPressure ch v =>
      simp only [altStep, starts, ends, Bool.false_eq_true, if_false, Option.some.injEq] at ha
      subst ha
      exact ⟨noMulti_ok _, by rintro st' h; simp only [trackStep] at h; cases h; exact hb⟩
    | pitchBendChange ch v =>
      simp only [altStep, starts, ends, Bool.false_eq_true, if_false, Option.some.injEq] at ha
      subst ha
      exact ⟨noMulti_ok _, by rintro st' h; simp only [trackStep] at h; cases h; exact hb⟩
    | unknown ch =>
      simp only [altStep, starts, ends, Bool.false_eq_true, if_false, Option.some.injEq] at ha
      subst ha
      exact ⟨noMulti_ok _, by rintro st' h; simp only [trackStep] at h; cases h; exact hb⟩

theorem loop_held (tpb : Nat) (f : F32) (l : List TMsg) : ∀ (st : TrackState) (b b' : Bool), st.noteStart.isSome = b →
    (∀ m ∈ l, ∀ d ch n v, m.1 = .midiEvent d (.noteOn ch n v) → v ≠ 0) → l.foldlM altStep b = some b' → NoMulti (l.foldlM (trackStep tpb f) st) := by
  induction l with
  | nil => intro st b b' _ _ _; exact noMulti_pure _
  | cons m l ih =>
    intro st b b' hb hv ha
    rw [List.foldlM_cons] at ha ⊢
    cases h1 : altStep b m with
    | none => rw [h1] at ha; cases ha
    | some b1 =>
      rw [h1] at ha
      obtain ⟨s1, s2⟩ := trackStep_held tpb f st m b b1 hb (hv m (by simp)) h1
      apply noMulti_bind _ _ s1
      intro st1 hst
      exact ih st1 b1 b' (s2 st1 hst) (fun x hx => hv x (by simp [hx])) ha

theorem trackNew_noMulti (l : List TMsg) (tpb mt : Nat) (f : F32) (hv : ∀ m ∈ l, ∀ d ch n v, m.1 = .midiEvent d (.noteOn ch n v) → v ≠ 0) (ha : Alternates l) :
    NoMulti (trackNew l tpb mt f) := by
  unfold Alternates at ha
  obtain ⟨b, hb⟩ := Option.isSome_iff_exists.1 ha
  unfold trackNew
  apply noMulti_bind _ _ (loop_held tpb f l {} false b rfl hv hb)
  intro st _
  split_ifs
  · exact noMulti_pure _
  · apply noMulti_bind _ _ (noMulti_insertRest _ _ _ _)
    rintro ⟨a, b⟩ _
    exact noMulti_bind _ _ (noMulti_pure _) (fun _ _ => noMulti_sustainPass _ _ le_rfl)
  · apply noMulti_bind _ _ (noMulti_pure _)
    intro _ _; exact noMulti_sustainPass _ _ le_rfl

end M2S
