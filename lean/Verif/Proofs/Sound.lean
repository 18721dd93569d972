import Mathlib.Data.List.Forall2
import Verif.Spec.Sound
import Verif.Proofs.Strike
import Verif.Proofs.Tidy
import Verif.Proofs.Volumes
/-
Helper lemmas for C68.
-/
namespace M2S
open MidiSpec Timing Nspc Engine

theorem heardSounds_notes (l : List Ev) : ∀ t s, (heardSounds t s l).map (fun x => (x.time, x.pitch)) = heardNotes t l := by
  induction l with
  | nil => intros; rfl
  | cons e l ih => intro t i; cases e <;> simp [heardSounds, heardNotes, ih]

theorem heardSounds_strikes (l : List Ev) : ∀ t (s : Settings),
    (heardSounds t s l).map (fun x => (⟨x.pitch, some x.velocity, x.settings⟩ : Strike)) = heardStrikes s l := by
  induction l with
  | nil => intros; rfl
  | cons e l ih => intro t s; cases e <;> simp [heardSounds, heardStrikes, ih]

/-- The sounds of a tidy voice, with time and number. -/
theorem voiceSounds_starts (evs : List TMsg) : ∀ s, (voiceSounds s evs).map (fun x => (x.time, x.pitch)) = (startsOf evs).map fun x => (x.1, x.2 + 0x68) := by
  induction evs with
  | nil => intro i; rfl
  | cons m evs ih =>
    intro i
    rw [voiceSounds, List.map_append, ih]
    unfold startsOf
    rw [List.filterMap_cons]
    obtain ⟨m, t⟩ := m
    rcases m with ⟨dl, e, data⟩ | ⟨dl, e⟩ | ⟨dl, data⟩ | _ <;> try rfl
    cases e with
    | noteOn ch n v =>
      by_cases hv : v = 0
      · simp [soundOf, starts, hv]
      · simp [soundOf, starts, hv, noteOf]
    | _ => rfl

/-- The instruments of a voice's sounds do not depend on volumes. -/
theorem tidy_strikes (evs : List TMsg) :
    (∀ s, evs.foldlM tidyStep none = some none →
      (strikesAtEnd s none evs).map (fun x => (x.pitch, x.velocity, x.settings.1)) = (voiceSounds s evs).map fun x => (x.pitch, some x.velocity, x.settings.1)) ∧
    ∀ s n v, evs.foldlM tidyStep (some n) = some none →
      (strikesAtEnd s (some v) evs).map (fun x => (x.pitch, x.velocity, x.settings.1)) =
        (n + 0x68, some (v / 8), s.1) :: (voiceSounds s evs).map fun x => (x.pitch, some x.velocity, x.settings.1) := by
  induction evs with
  | nil => exact ⟨fun _ _ => rfl, fun s n v h => by cases h⟩
  | cons m evs ih =>
    obtain ⟨m, t⟩ := m
    obtain ⟨ih1, ih2⟩ := ih
    rcases m with ⟨dl, e, data⟩ | ⟨dl, e⟩ | ⟨dl, data⟩ | _
    · refine ⟨fun s h => ?_, fun s n v h => ?_⟩
      · exact ih1 s (by simpa [tidyStep] using h)
      · exact ih2 s n v (by simpa [tidyStep] using h)
    · rcases e with ⟨ch, n', v'⟩ | ⟨ch, n', v'⟩ | ⟨ch, n', v'⟩ | ⟨ch, c, d⟩ | ⟨ch, pr⟩ | ⟨ch, pr⟩ | ⟨ch, x⟩ | ⟨ch⟩
      · refine ⟨fun s h => ?_, fun s n v h => ?_⟩
        · simp [List.foldlM_cons, tidyStep] at h
        · by_cases hn : n = n'
          · subst hn
            have := ih1 s (by simpa [List.foldlM_cons, tidyStep] using h)
            simp [strikesAtEnd, voiceSounds, soundOf, setByEvent, this]
          · simp [List.foldlM_cons, tidyStep, hn] at h
      · by_cases hv : v' = 0
        · refine ⟨fun s h => ?_, fun s n v h => ?_⟩ <;> simp [List.foldlM_cons, tidyStep, hv] at h
        · refine ⟨fun s h => ?_, fun s n v h => ?_⟩
          · have := ih2 s n' v' (by simpa [List.foldlM_cons, tidyStep, hv] using h)
            simp [strikesAtEnd, voiceSounds, soundOf, setByEvent, this, hv]
          · simp [List.foldlM_cons, tidyStep, hv] at h
      · exact ⟨fun s h => ih1 s (by simpa [tidyStep] using h), fun s n v h => ih2 s n v (by simpa [tidyStep] using h)⟩
      · have hs : ∀ s, (setByEvent s (.midiEvent dl (.controlChange ch c d))).1 = s.1 := by
          intro s; simp only [setByEvent]; split_ifs <;> rfl
        refine ⟨fun s h => ?_, fun s n v h => ?_⟩
        · exact ih1 (setByEvent s (.midiEvent dl (.controlChange ch c d))) (by simpa [tidyStep] using h)
        · have := ih2 (setByEvent s (.midiEvent dl (.controlChange ch c d))) n v (by simpa [tidyStep] using h)
          rw [hs] at this
          exact this
      · refine ⟨fun s h => ?_, fun s n v h => ?_⟩
        · exact ih1 (some (instrumentFor ch pr), s.2) (by simpa [tidyStep] using h)
        · simp [List.foldlM_cons, tidyStep] at h
      all_goals exact ⟨fun s h => ih1 s (by simpa [tidyStep] using h), fun s n v h => ih2 s n v (by simpa [tidyStep] using h)⟩
    all_goals exact ⟨fun s h => ih1 s (by simpa [tidyStep] using h), fun s n v h => ih2 s n v (by simpa [tidyStep] using h)⟩

/-- If no settings change during notes, the volumes agree as well. -/
theorem tidy_strikes_steady (evs : List TMsg) :
    (∀ s, evs.foldlM tidyStep none = some none → settingsBetweenNotes false evs = true →
      strikesAtEnd s none evs = (voiceSounds s evs).map fun x => ⟨x.pitch, some x.velocity, x.settings⟩) ∧
    ∀ s n v, evs.foldlM tidyStep (some n) = some none → settingsBetweenNotes true evs = true →
      strikesAtEnd s (some v) evs = ⟨n + 0x68, some (v / 8), s⟩ :: (voiceSounds s evs).map fun x => ⟨x.pitch, some x.velocity, x.settings⟩ := by
  induction evs with
  | nil => exact ⟨fun _ _ _ => rfl, fun s n v h => by cases h⟩
  | cons m evs ih =>
    obtain ⟨m, t⟩ := m
    obtain ⟨ih1, ih2⟩ := ih
    rcases m with ⟨dl, e, data⟩ | ⟨dl, e⟩ | ⟨dl, data⟩ | _
    · refine ⟨fun s h => ?_, fun s n v h => ?_⟩
      · exact ih1 s (by simpa [tidyStep] using h)
      · exact ih2 s n v (by simpa [tidyStep] using h)
    · rcases e with ⟨ch, n', v'⟩ | ⟨ch, n', v'⟩ | ⟨ch, n', v'⟩ | ⟨ch, c, d⟩ | ⟨ch, pr⟩ | ⟨ch, pr⟩ | ⟨ch, x⟩ | ⟨ch⟩
      · refine ⟨fun s h _ => ?_, fun s n v h hb => ?_⟩
        · simp [List.foldlM_cons, tidyStep] at h
        · by_cases hn : n = n'
          · subst hn
            have := ih1 s (by simpa [List.foldlM_cons, tidyStep] using h) (by simpa [settingsBetweenNotes] using hb)
            simp [strikesAtEnd, voiceSounds, soundOf, setByEvent, this]
          · simp [List.foldlM_cons, tidyStep, hn] at h
      · by_cases hv : v' = 0
        · refine ⟨fun s h => ?_, fun s n v h => ?_⟩ <;> simp [List.foldlM_cons, tidyStep, hv] at h
        · refine ⟨fun s h hb => ?_, fun s n v h => ?_⟩
          · have := ih2 s n' v' (by simpa [List.foldlM_cons, tidyStep, hv] using h) (by simpa [settingsBetweenNotes] using hb)
            simp [strikesAtEnd, voiceSounds, soundOf, setByEvent, this, hv]
          · simp [List.foldlM_cons, tidyStep, hv] at h
      · exact ⟨fun s h => ih1 s (by simpa [tidyStep] using h), fun s n v h => ih2 s n v (by simpa [tidyStep] using h)⟩
      · refine ⟨fun s h hb => ?_, fun s n v h hb => ?_⟩
        · exact ih1 (setByEvent s (.midiEvent dl (.controlChange ch c d))) (by simpa [tidyStep] using h) (by simpa [settingsBetweenNotes] using hb)
        · simp only [settingsBetweenNotes, Bool.true_and, Bool.and_eq_true, Bool.not_eq_true', beq_eq_false_iff_ne] at hb
          have hs : setByEvent s (.midiEvent dl (.controlChange ch c d)) = s := by simp [setByEvent, hb.1]
          have := ih2 s n v (by simpa [tidyStep] using h) hb.2
          have e : strikesAtEnd s (some v) ((.midiEvent dl (.controlChange ch c d), t) :: evs) = strikesAtEnd (setByEvent s (.midiEvent dl (.controlChange ch c d))) (some v) evs := rfl
          rw [e, hs, voiceSounds, hs]
          exact this
      · refine ⟨fun s h hb => ?_, fun s n v h => ?_⟩
        · exact ih1 (some (instrumentFor ch pr), s.2) (by simpa [tidyStep] using h) (by simpa [settingsBetweenNotes] using hb)
        · simp [List.foldlM_cons, tidyStep] at h
      all_goals exact ⟨fun s h => ih1 s (by simpa [tidyStep] using h), fun s n v h => ih2 s n v (by simpa [tidyStep] using h)⟩
    all_goals exact ⟨fun s h => ih1 s (by simpa [tidyStep] using h), fun s n v h => ih2 s n v (by simpa [tidyStep] using h)⟩

/-- The settings after some messages of a voice, whose preamble sets volume 200. -/
def settingsAfter (l : List TMsg) : Settings := ((lastProgram l).map instrumentOfProgram, ((lastVolume l).map fun p => 2 * p.2).or (some 200))

theorem settingsAfter_snoc (l : List TMsg) (m : TMsg) : settingsAfter (l ++ [m]) = setByEvent (settingsAfter l) m.1 := by
  unfold settingsAfter
  have h1 : lastProgram (l ++ [m]) = (programOf m.1).or (lastProgram l) := by
    unfold lastProgram
    rw [List.filterMap_append, List.getLast?_append]
    cases hp : programOf m.1 <;> simp [hp]
  have h2 : lastVolume (l ++ [m]) = (volumeOf m.1).or (lastVolume l) := by
    unfold lastVolume
    rw [List.filterMap_append, List.getLast?_append]
    cases hp : volumeOf m.1 <;> simp [hp]
  rw [h1, h2]
  obtain ⟨m, t⟩ := m
  rcases m with ⟨dl, e, data⟩ | ⟨dl, e⟩ | ⟨dl, data⟩ | _ <;> try rfl
  cases e with
  | controlChange ch c x =>
    simp only [volumeOf_control, programOf, setByEvent, Option.none_or]
    split_ifs <;> rfl
  | _ => rfl

/-- Two sounds alike, except perhaps in volume. -/
structure Alike (steady : Prop) (x y : Sound) : Prop where
  time : x.time = y.time
  pitch : x.pitch = y.pitch
  velocity : x.velocity = y.velocity
  instrument : x.settings.1 = y.settings.1
  volume : steady → x.settings.2 = y.settings.2

/-- If `set` tells the settings right, the sounds of a voice are those of its messages. -/
theorem voiceSounds_set (steady : Prop) (set : TMsg → Settings) (evs : List TMsg) : ∀ (pre : List TMsg),
    (∀ a x t b, pre ++ evs = a ++ (x, t) :: b → starts x = true → (settingsAfter a).1 = (set (x, t)).1 ∧ (steady → (settingsAfter a).2 = (set (x, t)).2)) →
    List.Forall₂ (Alike steady) (voiceSounds (settingsAfter pre) evs) (evs.filterMap fun m => soundOf (set m) m) := by
  induction evs with
  | nil => intros; exact .nil
  | cons m evs ih =>
    intro pre h
    have h1 := ih (pre ++ [m]) (by intro a x t b hab; exact h a x t b (by simpa using hab))
    rw [settingsAfter_snoc] at h1
    rw [voiceSounds, List.filterMap_cons]
    by_cases hst : starts m.1 = true
    · obtain ⟨h2, h3⟩ := h pre m.1 m.2 evs rfl hst
      obtain ⟨x, t⟩ := m
      rcases x with ⟨dl, e, data⟩ | ⟨dl, e⟩ | ⟨dl, data⟩ | _ <;> try cases hst
      cases e with
      | noteOn ch n v =>
        have hv : v ≠ 0 := by simpa [starts] using hst
        simp only [soundOf, hv, if_false, Option.toList_some, List.cons_append, List.nil_append]
        exact .cons ⟨rfl, rfl, rfl, h2, h3⟩ h1
      | _ => cases hst
    · have hs : ∀ s, soundOf s m = none := by
        intro s
        obtain ⟨x, t⟩ := m
        rcases x with ⟨dl, e, data⟩ | ⟨dl, e⟩ | ⟨dl, data⟩ | _ <;> try rfl
        cases e with
        | noteOn ch n v =>
          have hv : v = 0 := by simpa [starts] using hst
          simp [soundOf, hv]
        | _ => rfl
      rw [hs, hs]
      exact h1

theorem Alike.cast {p q : Prop} (h : q → p) {x y : Sound} (a : Alike p x y) : Alike q x y := ⟨a.time, a.pitch, a.velocity, a.instrument, fun k => a.volume (h k)⟩

theorem forall₂_both {α β γ δ ε : Type} (R : γ → δ → Prop) (f : α → γ) (g : β → δ) (f' : α → ε) (g' : β → ε) :
    ∀ (a : List α) (b : List β), List.Forall₂ R (a.map f) (b.map g) → a.map f' = b.map g' → List.Forall₂ (fun x y => R (f x) (g y) ∧ f' x = g' y) a b := by
  intro a
  induction a with
  | nil => intro b h _; cases b with | nil => exact .nil | cons y b => cases h
  | cons x a ih =>
    intro b h e
    cases b with
    | nil => cases h
    | cons y b =>
      rw [List.map_cons, List.map_cons] at h e
      injection e with e1 e2
      cases h with
      | cons h1 h2 => exact .cons ⟨h1, e1⟩ (ih b h2 e2)

/-! ## Messages that are neither notes nor program changes of the drum channel are kept as they are -/

/-- Notes and program changes of channel 10, the messages the dealing loop may make up. -/
def isNoteOrDrum : MidiEvent → Bool
  | .noteOn _ _ _ | .noteOff _ _ _ => true
  | .programChange ch _ => ch = 9
  | _ => false

structure RememberedQ (Q : Message → Bool) (k : Ctl) : Prop where
  ctrl : ∀ c m, k.lastCtrl c = some m → Q m = true
  prog : ∀ c m, k.lastProg c = some m → Q m = true
  bend : ∀ c m, k.lastBend c = some m → Q m = true

theorem kept_step (Q : Message → Bool) (hQ : ∀ d e, isNoteOrDrum e = true → Q (.midiEvent d e) = true) (ord : EnumOrder) (base : Fin 16 → Fin 8) (k : Ctl) (m : Message) (o : List (Fin 8 × Message)) (k' : Ctl)
    (h : RememberedQ Q k) (hm : Q m = true) (he : emit ord base k m = some (o, k')) : RememberedQ Q k' ∧ ∀ p ∈ o, Q p.2 = true := by
  have close : ∀ ch n, RememberedQ Q (ctlClose k ch n) := by
    intro ch n
    obtain ⟨h1, h2, h3, -⟩ := ctlClose_last k ch n
    exact ⟨by rw [h1]; exact h.ctrl, by rw [h2]; exact h.prog, by rw [h3]; exact h.bend⟩
  have chan : ∀ (ch : Fin 16) (m : Message), Q m = true → ∀ p ∈ outChannel ord base k ch m, Q p.2 = true := by
    intro ch m hm p hp
    unfold outChannel at hp
    rcases List.mem_append.1 hp with hp | hp
    · obtain ⟨q, -, rfl⟩ := List.mem_map.1 hp
      exact hm
    · split_ifs at hp
      · simp at hp
      · simp only [List.mem_singleton] at hp; subst hp; exact hm
  have opt : ∀ v (x : Option Message), (∀ m, x = some m → Q m = true) → ∀ p ∈ outOpt v x, Q p.2 = true := by
    intro v x hx p hp
    cases x with
    | none => simp [outOpt] at hp
    | some m =>
      simp only [outOpt, Option.map_some, Option.toList_some, List.mem_singleton] at hp
      subst hp
      exact hx m rfl
  have one : ∀ v, o = [(v, m)] → ∀ p ∈ o, Q p.2 = true := by
    rintro v rfl p hp
    simp only [List.mem_singleton] at hp
    subst hp
    exact hm
  cases m with
  | metaEvent d e data =>
    cases e with
    | setTempo =>
      simp only [emit, Option.some.injEq, Prod.mk.injEq] at he
      exact ⟨by rw [← he.2]; exact h, one 0 he.1.symm⟩
    | _ =>
      simp only [emit, Option.some.injEq, Prod.mk.injEq] at he
      exact ⟨by rw [← he.2]; exact h, by rw [← he.1]; simp⟩
  | sysEx d data =>
    simp only [emit, Option.some.injEq, Prod.mk.injEq] at he
    exact ⟨by rw [← he.2]; exact h, one 0 he.1.symm⟩
  | trackChange =>
    simp only [emit, Option.some.injEq, Prod.mk.injEq] at he
    exact ⟨by rw [← he.2]; exact h, by rw [← he.1]; simp⟩
  | midiEvent d e =>
    cases e with
    | unknown ch =>
      simp only [emit, Option.some.injEq, Prod.mk.injEq] at he
      exact ⟨by rw [← he.2]; exact h, by rw [← he.1]; simp⟩
    | polyphonicKeyPressure ch n v =>
      simp only [emit] at he
      split at he
      · rename_i w _
        simp only [Option.some.injEq, Prod.mk.injEq] at he
        exact ⟨by rw [← he.2]; exact h, one w he.1.symm⟩
      · simp only [Option.some.injEq, Prod.mk.injEq] at he
        exact ⟨by rw [← he.2]; exact h, by rw [← he.1]; simp⟩
    | channelPressure ch v =>
      simp only [emit, Option.some.injEq, Prod.mk.injEq] at he
      exact ⟨by rw [← he.2]; exact h, by rw [← he.1]; exact chan ch _ hm⟩
    | controlChange ch c v =>
      simp only [emit, Option.some.injEq, Prod.mk.injEq] at he
      refine ⟨?_, by rw [← he.1]; exact chan ch _ hm⟩
      rw [← he.2]
      split_ifs
      · refine ⟨?_, h.prog, h.bend⟩
        intro c' m' hm'
        rcases update_some hm' with ⟨rfl, rfl⟩ | hm'
        · exact hm
        · exact h.ctrl c' m' hm'
      · exact h
    | programChange ch v =>
      simp only [emit, Option.some.injEq, Prod.mk.injEq] at he
      refine ⟨?_, by rw [← he.1]; exact chan ch _ hm⟩
      rw [← he.2]
      refine ⟨h.ctrl, ?_, h.bend⟩
      intro c' m' hm'
      rcases update_some hm' with ⟨rfl, rfl⟩ | hm'
      · exact hm
      · exact h.prog c' m' hm'
    | pitchBendChange ch v =>
      simp only [emit, Option.some.injEq, Prod.mk.injEq] at he
      refine ⟨?_, by rw [← he.1]; exact chan ch _ hm⟩
      rw [← he.2]
      refine ⟨h.ctrl, h.prog, ?_⟩
      intro c' m' hm'
      rcases update_some hm' with ⟨rfl, rfl⟩ | hm'
      · exact hm
      · exact h.bend c' m' hm'
    | noteOff ch n v =>
      simp only [emit] at he
      split at he
      · simp only [Option.some.injEq, Prod.mk.injEq] at he
        refine ⟨by rw [← he.2]; exact close ch n, ?_⟩
        rw [← he.1]
        intro p hp
        simp only [List.mem_singleton] at hp
        subst hp
        exact hQ _ _ rfl
      · simp only [Option.some.injEq, Prod.mk.injEq] at he
        exact ⟨by rw [← he.2]; exact h, by rw [← he.1]; simp⟩
    | noteOn ch n vel =>
      have hcl : ∀ p ∈ outClose k d ch n vel, Q p.2 = true := by
        intro p hp
        unfold outClose at hp
        split at hp
        · simp only [List.mem_singleton] at hp
          subst hp
          exact hQ _ _ rfl
        · simp at hp
      simp only [emit] at he
      by_cases hv : vel > 0
      · rw [if_pos hv] at he
        split at he
        · cases he
        · rename_i v hch
          simp only [Option.some.injEq, Prod.mk.injEq] at he
          constructor
          · rw [← he.2]
            refine ⟨(close ch n).ctrl, ?_, (close ch n).bend⟩
            intro c m hm
            simp only [ctlOpen] at hm
            split_ifs at hm with h9
            · rcases update_some hm with ⟨rfl, rfl⟩ | hm
              · exact hQ _ _ (by simp [isNoteOrDrum, h9.1])
              · exact (close ch n).prog c m hm
            · exact (close ch n).prog c m hm
          · rw [← he.1]
            intro p hp
            simp only [List.mem_append, List.mem_singleton] at hp
            rcases hp with hp | (hp | hp) | hp
            · exact hcl p hp
            · unfold outSwitch at hp
              split_ifs at hp
              · simp only [List.mem_append] at hp
                rcases hp with (hp | hp) | hp
                · exact opt v _ (h.ctrl ch) p hp
                · exact opt v _ (h.prog ch) p hp
                · exact opt v _ (h.bend ch) p hp
              · simp at hp
            · unfold outPerc at hp
              split_ifs at hp with h9
              · simp only [List.mem_singleton] at hp
                subst hp
                exact hQ _ _ (by simp [isNoteOrDrum, h9.1])
              · simp at hp
            · subst hp
              exact hQ _ _ rfl
      · rw [if_neg hv] at he
        simp only [Option.some.injEq, Prod.mk.injEq] at he
        exact ⟨by rw [← he.2]; exact close ch n, by rw [← he.1]; exact hcl⟩

theorem kept_emits (Q : Message → Bool) (hQ : ∀ d e, isNoteOrDrum e = true → Q (.midiEvent d e) = true) (ord : EnumOrder) (base : Fin 16 → Fin 8) (seq : List TMsg) (os : List (Fin 8 × TMsg)) (k : Ctl) (hs : ∀ m ∈ seq, Q m.1 = true)
    (he : emits ord base (ctl0 base) seq = some (os, k)) : ∀ p ∈ os, Q p.2.1 = true := by
  refine ((emits_nil_induct ord base (fun done outs k => (∀ m ∈ done, Q m.1 = true) → RememberedQ Q k ∧ ∀ p ∈ outs, Q p.2.1 = true) ?_ seq _ k os
    (fun _ => ⟨⟨by simp [ctl0], by simp [ctl0], by simp [ctl0]⟩, by simp⟩) he) hs).2
  intro done outs k m t o k' ih h1 hd
  obtain ⟨i1, i2⟩ := ih fun x hx => hd x (by simp [hx])
  obtain ⟨j1, j2⟩ := kept_step Q hQ ord base k m o k' i1 (hd (m, t) (by simp)) h1
  refine ⟨j1, ?_⟩
  intro p hp
  rcases List.mem_append.1 hp with hp | hp
  · exact i2 p hp
  · obtain ⟨q, hq, rfl⟩ := List.mem_map.1 hp
    exact j2 q hq

end M2S
