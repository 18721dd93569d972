import Verif.Proofs.Held
import Verif.Song
/-
What an event emits.
-/
namespace M2S
open MidiSpec

/-- The remembered messages are of the right kind and channel. -/
structure Lasts (k : Ctl) : Prop where
  ctrl : ∀ c m, k.lastCtrl c = some m → ∃ d x y, m = .midiEvent d (.controlChange c x y)
  prog : ∀ c m, k.lastProg c = some m → ∃ d x, m = .midiEvent d (.programChange c x)
  bend : ∀ c m, k.lastBend c = some m → ∃ d x, m = .midiEvent d (.pitchBendChange c x)

theorem lasts_init (base : Fin 16 → Fin 8) : Lasts (ctl0 base) := ⟨by simp [ctl0], by simp [ctl0], by simp [ctl0]⟩

theorem update_some {f : Fin 16 → Option Message} {ch c : Fin 16} {m x : Message} (h : Function.update f ch (some m) c = some x) :
    (c = ch ∧ x = m) ∨ f c = some x := by
  by_cases hc : c = ch
  · subst hc; simp only [Function.update_self, Option.some.injEq] at h; exact .inl ⟨rfl, h.symm⟩
  · rw [Function.update_of_ne hc] at h; exact .inr h

theorem ctlClose_last (k : Ctl) (ch : Fin 16) (n : UInt8) : (ctlClose k ch n).lastCtrl = k.lastCtrl ∧ (ctlClose k ch n).lastProg = k.lastProg ∧
    (ctlClose k ch n).lastBend = k.lastBend ∧ (ctlClose k ch n).lastChan = k.lastChan ∧ (ctlClose k ch n).lastPerc = k.lastPerc := by
  unfold ctlClose; split <;> exact ⟨rfl, rfl, rfl, rfl, rfl⟩

theorem lasts_step (ord : EnumOrder) (base : Fin 16 → Fin 8) (k : Ctl) (m : Message) (o : List (Fin 8 × Message)) (k' : Ctl)
    (h : Lasts k) (he : emit ord base k m = some (o, k')) : Lasts k' := by
  have close : ∀ ch n, Lasts (ctlClose k ch n) := by
    intro ch n
    obtain ⟨h1, h2, h3, -⟩ := ctlClose_last k ch n
    exact ⟨by rw [h1]; exact h.ctrl, by rw [h2]; exact h.prog, by rw [h3]; exact h.bend⟩
  cases m with
  | metaEvent d e data =>
    cases e with
    | setTempo => simp only [emit, Option.some.injEq, Prod.mk.injEq] at he; rw [← he.2]; exact h
    | _ => simp only [emit, Option.some.injEq, Prod.mk.injEq] at he; rw [← he.2]; exact h
  | sysEx d data => simp only [emit, Option.some.injEq, Prod.mk.injEq] at he; rw [← he.2]; exact h
  | trackChange => simp only [emit, Option.some.injEq, Prod.mk.injEq] at he; rw [← he.2]; exact h
  | midiEvent d e =>
    cases e with
    | unknown ch => simp only [emit, Option.some.injEq, Prod.mk.injEq] at he; rw [← he.2]; exact h
    | polyphonicKeyPressure ch n v =>
      simp only [emit] at he
      split at he <;> (simp only [Option.some.injEq, Prod.mk.injEq] at he; rw [← he.2]; exact h)
    | channelPressure ch v => simp only [emit, Option.some.injEq, Prod.mk.injEq] at he; rw [← he.2]; exact h
    | controlChange ch c v =>
      simp only [emit, Option.some.injEq, Prod.mk.injEq] at he
      by_cases hc : c = 7
      · rw [if_pos hc] at he
        rw [← he.2]
        refine ⟨?_, h.prog, h.bend⟩
        intro c' m hm
        rcases update_some hm with ⟨rfl, rfl⟩ | hm
        · exact ⟨_, _, _, rfl⟩
        · exact h.ctrl c' m hm
      · rw [if_neg hc] at he
        rw [← he.2]; exact h
    | programChange ch v =>
      simp only [emit, Option.some.injEq, Prod.mk.injEq] at he
      rw [← he.2]
      refine ⟨h.ctrl, ?_, h.bend⟩
      intro c' m hm
      rcases update_some hm with ⟨rfl, rfl⟩ | hm
      · exact ⟨_, _, rfl⟩
      · exact h.prog c' m hm
    | pitchBendChange ch v =>
      simp only [emit, Option.some.injEq, Prod.mk.injEq] at he
      rw [← he.2]
      refine ⟨h.ctrl, h.prog, ?_⟩
      intro c' m hm
      rcases update_some hm with ⟨rfl, rfl⟩ | hm
      · exact ⟨_, _, rfl⟩
      · exact h.bend c' m hm
    | noteOff ch n v =>
      simp only [emit] at he
      split at he
      · simp only [Option.some.injEq, Prod.mk.injEq] at he; rw [← he.2]; exact close ch n
      · simp only [Option.some.injEq, Prod.mk.injEq] at he; rw [← he.2]; exact h
    | noteOn ch n vel =>
      simp only [emit] at he
      by_cases hv : vel > 0
      · rw [if_pos hv] at he
        split at he
        · cases he
        · rename_i v hch
          simp only [Option.some.injEq, Prod.mk.injEq] at he
          rw [← he.2]
          refine ⟨(close ch n).ctrl, ?_, (close ch n).bend⟩
          intro c m hm
          simp only [ctlOpen] at hm
          split_ifs at hm
          · rcases update_some hm with ⟨rfl, rfl⟩ | hm
            · exact ⟨_, _, rfl⟩
            · exact (close ch n).prog c m hm
          · exact (close ch n).prog c m hm
      · rw [if_neg hv] at he
        simp only [Option.some.injEq, Prod.mk.injEq] at he
        rw [← he.2]; exact close ch n

/-- Every message is of one of three sorts: starts of notes, ends of notes, other messages of channels, messages of the system. -/
theorem drumNote_eq (ch : Fin 16) (n : UInt8) : drumNote ch n = if ch = 9 ∧ (n = 38 ∨ n = 40) then 68 else n := by
  unfold drumNote percNote isSnare snareNote
  by_cases h1 : ch = 9 <;> by_cases h2 : n = 38 ∨ n = 40 <;> simp [h1, h2]

/-- The kinds of message an event emits. `f` selects messages; it must be false on the messages sent to a channel and on note-offs. -/
theorem emit_filter (f : Message → Bool) (ord : EnumOrder) (base : Fin 16 → Fin 8) (k : Ctl) (m : Message) (o : List (Fin 8 × Message)) (k' : Ctl)
    (h : Lasts k) (he : emit ord base k m = some (o, k'))
    (hf : ∀ d e, f (.midiEvent d e) = true → ∃ ch n v, e = .noteOn ch n v) :
    (∃ v, o.filter (fun p => f p.2) = if f (drum m) ∧ (starts m ∨ isGlobal m) then [(v, drum m)] else []) ∧ (isGlobal m → o = [(0, m)]) ∧
      ∀ p ∈ o, isSystem p.2 → isGlobal p.2 ∧ isGlobal m := by
  have fn : ∀ d e, (∀ ch n v, e ≠ .noteOn ch n v) → f (.midiEvent d e) = false := by
    intro d e hne
    cases hx : f (.midiEvent d e) with
    | false => rfl
    | true => obtain ⟨ch, n, v, rfl⟩ := hf d e hx; exact absurd rfl (hne ch n v)
  have chan : ∀ ch (m : Message), f m = false → (outChannel ord base k ch m).filter (fun p => f p.2) = [] := by
    intro ch m hm
    rw [List.filter_eq_nil_iff]
    intro p hp
    unfold outChannel at hp
    have : p.2 = m := by
      rcases List.mem_append.1 hp with hp | hp
      · obtain ⟨q, -, rfl⟩ := List.mem_map.1 hp; rfl
      · split_ifs at hp
        · simp at hp
        · simp only [List.mem_singleton] at hp; subst hp; rfl
    simp [this, hm]
  have chanS : ∀ ch (m : Message), isSystem m = false → ∀ p ∈ outChannel ord base k ch m, isSystem p.2 = false := by
    intro ch m hm p hp
    unfold outChannel at hp
    have : p.2 = m := by
      rcases List.mem_append.1 hp with hp | hp
      · obtain ⟨q, -, rfl⟩ := List.mem_map.1 hp; rfl
      · split_ifs at hp
        · simp at hp
        · simp only [List.mem_singleton] at hp; subst hp; rfl
    rw [this, hm]
  have sw : ∀ ch v, ∀ p ∈ outSwitch k ch v, ∃ d e, p.2 = .midiEvent d e ∧ ∀ ch n v, e ≠ .noteOn ch n v := by
    intro ch v p hp
    unfold outSwitch at hp
    split_ifs at hp
    · rcases List.mem_append.1 hp with hp | hp
      · rcases List.mem_append.1 hp with hp | hp
        · cases hl : k.lastCtrl ch with
          | none => rw [hl] at hp; simp [outOpt] at hp
          | some m =>
            rw [hl] at hp
            simp only [outOpt, Option.map_some, Option.toList_some, List.mem_singleton] at hp
            obtain ⟨d, x, y, rfl⟩ := h.ctrl ch m hl
            subst hp
            exact ⟨d, _, rfl, by simp⟩
        · cases hl : k.lastProg ch with
          | none => rw [hl] at hp; simp [outOpt] at hp
          | some m =>
            rw [hl] at hp
            simp only [outOpt, Option.map_some, Option.toList_some, List.mem_singleton] at hp
            obtain ⟨d, x, rfl⟩ := h.prog ch m hl
            subst hp
            exact ⟨d, _, rfl, by simp⟩
      · cases hl : k.lastBend ch with
        | none => rw [hl] at hp; simp [outOpt] at hp
        | some m =>
          rw [hl] at hp
          simp only [outOpt, Option.map_some, Option.toList_some, List.mem_singleton] at hp
          obtain ⟨d, x, rfl⟩ := h.bend ch m hl
          subst hp
          exact ⟨d, _, rfl, by simp⟩
    · simp at hp
  have pc : ∀ d ch n v, ∀ p ∈ outPerc k d ch n v, ∃ d e, p.2 = .midiEvent d e ∧ ∀ ch n v, e ≠ .noteOn ch n v := by
    intro d ch n v p hp
    unfold outPerc at hp
    split_ifs at hp
    · simp only [List.mem_singleton] at hp; subst hp; exact ⟨d, _, rfl, by simp⟩
    · simp at hp
  have cl : ∀ d ch n v, ∀ p ∈ outClose k d ch n v, ∃ d e, p.2 = .midiEvent d e ∧ ∀ ch n v, e ≠ .noteOn ch n v := by
    intro d ch n v p hp
    unfold outClose at hp
    split at hp
    · simp only [List.mem_singleton] at hp; subst hp; exact ⟨d, _, rfl, by simp⟩
    · simp at hp
  have gone : ∀ l : List (Fin 8 × Message), (∀ p ∈ l, ∃ d e, p.2 = .midiEvent d e ∧ ∀ ch n v, e ≠ .noteOn ch n v) → l.filter (fun p => f p.2) = [] := by
    intro l hl
    rw [List.filter_eq_nil_iff]
    intro p hp
    obtain ⟨d, e, h1, h2⟩ := hl p hp
    simp [h1, fn d e h2]
  have sysN : ∀ p : Fin 8 × Message, (∃ d e, p.2 = .midiEvent d e ∧ ∀ ch n v, e ≠ .noteOn ch n v) → isSystem p.2 = false := by
    rintro p ⟨d, e, h1, -⟩; rw [h1]; rfl
  cases m with
  | metaEvent d e data =>
    cases e with
    | setTempo =>
      simp only [emit, Option.some.injEq, Prod.mk.injEq] at he
      obtain ⟨rfl, rfl⟩ := he
      refine ⟨⟨0, ?_⟩, fun _ => rfl, ?_⟩
      · cases hx : f (.metaEvent d .setTempo data) <;> simp [drum, hx, isGlobal]
      · intro p hp _; simp only [List.mem_singleton] at hp; subst hp; exact ⟨rfl, rfl⟩
    | other x =>
      simp only [emit, Option.some.injEq, Prod.mk.injEq] at he
      obtain ⟨rfl, rfl⟩ := he
      exact ⟨⟨0, by simp [starts, isGlobal]⟩, by simp [isGlobal], by simp⟩
  | sysEx d data =>
    simp only [emit, Option.some.injEq, Prod.mk.injEq] at he
    obtain ⟨rfl, rfl⟩ := he
    refine ⟨⟨0, ?_⟩, fun _ => rfl, ?_⟩
    · cases hx : f (.sysEx d data) <;> simp [drum, hx, isGlobal]
    · intro p hp _; simp only [List.mem_singleton] at hp; subst hp; exact ⟨rfl, rfl⟩
  | trackChange =>
    simp only [emit, Option.some.injEq, Prod.mk.injEq] at he
    obtain ⟨rfl, rfl⟩ := he
    exact ⟨⟨0, by simp [starts, isGlobal]⟩, by simp [isGlobal], by simp⟩
  | midiEvent d e =>
    cases e with
    | unknown ch =>
      simp only [emit, Option.some.injEq, Prod.mk.injEq] at he
      obtain ⟨rfl, rfl⟩ := he
      exact ⟨⟨0, by simp [starts, isGlobal]⟩, by simp [isGlobal], by simp⟩
    | polyphonicKeyPressure ch n v =>
      simp only [emit] at he
      split at he
      · rename_i w _
        simp only [Option.some.injEq, Prod.mk.injEq] at he
        obtain ⟨rfl, rfl⟩ := he
        refine ⟨⟨0, ?_⟩, by simp [isGlobal], ?_⟩
        · simp [starts, isGlobal, fn d (.polyphonicKeyPressure ch n v) (by simp)]
        · intro p hp hs; simp only [List.mem_singleton] at hp; subst hp; simp [isSystem] at hs
      · simp only [Option.some.injEq, Prod.mk.injEq] at he
        obtain ⟨rfl, rfl⟩ := he
        exact ⟨⟨0, by simp [starts, isGlobal]⟩, by simp [isGlobal], by simp⟩
    | channelPressure ch v =>
      simp only [emit, Option.some.injEq, Prod.mk.injEq] at he
      rw [← he.1]
      refine ⟨⟨0, ?_⟩, by simp [isGlobal], ?_⟩
      · rw [chan ch _ (fn d _ (by simp))]; simp [starts, isGlobal]
      · intro p hp hs; rw [chanS ch _ rfl p hp] at hs; cases hs
    | controlChange ch c v =>
      simp only [emit, Option.some.injEq, Prod.mk.injEq] at he
      rw [← he.1]
      refine ⟨⟨0, ?_⟩, by simp [isGlobal], ?_⟩
      · rw [chan ch _ (fn d _ (by simp))]; simp [starts, isGlobal]
      · intro p hp hs; rw [chanS ch _ rfl p hp] at hs; cases hs
    | programChange ch v =>
      simp only [emit, Option.some.injEq, Prod.mk.injEq] at he
      rw [← he.1]
      refine ⟨⟨0, ?_⟩, by simp [isGlobal], ?_⟩
      · rw [chan ch _ (fn d _ (by simp))]; simp [starts, isGlobal]
      · intro p hp hs; rw [chanS ch _ rfl p hp] at hs; cases hs
    | pitchBendChange ch v =>
      simp only [emit, Option.some.injEq, Prod.mk.injEq] at he
      rw [← he.1]
      refine ⟨⟨0, ?_⟩, by simp [isGlobal], ?_⟩
      · rw [chan ch _ (fn d _ (by simp))]; simp [starts, isGlobal]
      · intro p hp hs; rw [chanS ch _ rfl p hp] at hs; cases hs
    | noteOff ch n v =>
      simp only [emit] at he
      split at he
      · simp only [Option.some.injEq, Prod.mk.injEq] at he
        obtain ⟨rfl, rfl⟩ := he
        refine ⟨⟨0, ?_⟩, by simp [isGlobal], ?_⟩
        · simp [starts, isGlobal, fn d (.noteOff ch (drumNote ch n) v) (by simp)]
        · intro p hp hs; simp only [List.mem_singleton] at hp; subst hp; simp [isSystem] at hs
      · simp only [Option.some.injEq, Prod.mk.injEq] at he
        obtain ⟨rfl, rfl⟩ := he
        exact ⟨⟨0, by simp [starts, isGlobal]⟩, by simp [isGlobal], by simp⟩
    | noteOn ch n vel =>
      simp only [emit] at he
      by_cases hv : vel > 0
      · have hv0 : vel ≠ 0 := by rintro rfl; simp at hv
        rw [if_pos hv] at he
        split at he
        · cases he
        · rename_i v hch
          simp only [Option.some.injEq, Prod.mk.injEq] at he
          rw [← he.1]
          refine ⟨⟨v, ?_⟩, by simp [isGlobal], ?_⟩
          · rw [List.filter_append, List.filter_append, List.filter_append, gone _ (cl d ch n vel), gone _ (sw ch v), gone _ (pc d ch n v)]
            simp only [drum, drumNote_eq, starts, List.nil_append, List.filter_cons, List.filter_nil]
            simp [hv0]
          · intro p hp hs
            simp only [List.mem_append, List.mem_singleton] at hp
            rcases hp with hp | (hp | hp) | hp
            · rw [sysN p (cl d ch n vel p hp)] at hs; cases hs
            · rw [sysN p (sw ch v p hp)] at hs; cases hs
            · rw [sysN p (pc d ch n v p hp)] at hs; cases hs
            · subst hp; simp [isSystem] at hs
      · have hv0 : vel = 0 := by simpa [UInt8.lt_iff_toNat_lt, ← UInt8.toNat_inj] using hv
        rw [if_neg hv] at he
        simp only [Option.some.injEq, Prod.mk.injEq] at he
        rw [← he.1]
        refine ⟨⟨0, ?_⟩, by simp [isGlobal], ?_⟩
        · rw [gone _ (cl d ch n vel)]; simp [starts, isGlobal, hv0]
        · intro p hp hs; rw [sysN p (cl d ch n vel p hp)] at hs; cases hs

/-- No note-on of velocity 0 is emitted. -/
theorem emit_velocity (ord : EnumOrder) (base : Fin 16 → Fin 8) (k : Ctl) (m : Message) (o : List (Fin 8 × Message)) (k' : Ctl)
    (h : Lasts k) (he : emit ord base k m = some (o, k')) : ∀ p ∈ o, ∀ d ch n v, p.2 = .midiEvent d (.noteOn ch n v) → v ≠ 0 := by
  obtain ⟨⟨v0, h1⟩, -⟩ := emit_filter (fun m => match m with | .midiEvent _ (.noteOn _ _ _) => true | _ => false) ord base k m o k' h he (by
    intro d e he; cases e <;> simp_all)
  intro p hp d ch n v hm
  have hmem : p ∈ o.filter (fun p => (fun m => match m with | Message.midiEvent _ (.noteOn _ _ _) => true | _ => false) p.2) := by
    rw [List.mem_filter]; exact ⟨hp, by rw [hm]⟩
  rw [h1] at hmem
  split_ifs at hmem with hc
  · simp only [List.mem_singleton] at hmem
    have e : drum m = .midiEvent d (.noteOn ch n v) := by rw [← hm, hmem]
    rcases hc.2 with hs | hs
    · unfold starts at hs
      split at hs
      · simp only [drum, Message.midiEvent.injEq, MidiEvent.noteOn.injEq] at e
        rw [← e.2.2.2]
        simpa using hs
      · cases hs
    · unfold isGlobal at hs
      split at hs
      · simp [drum] at e
      · simp [drum] at e
      · cases hs
  · simp at hmem

/-- The starts of notes on the voices are those of the file. -/
theorem emits_starts (ord : EnumOrder) (base : Fin 16 → Fin 8) (seq : List TMsg) (os : List (Fin 8 × TMsg)) (k : Ctl)
    (he : emits ord base (ctl0 base) seq = some (os, k)) :
    ((os.map (·.2)).filter fun m => starts m.1) = (seq.filter fun m => starts m.1).map fun m => (drum m.1, m.2) := by
  refine (emits_nil_induct ord base (fun done outs k => Lasts k ∧ ((outs.map (·.2)).filter fun m => starts m.1) = (done.filter fun m => starts m.1).map fun m => (drum m.1, m.2))
    ?_ seq _ k os ⟨lasts_init base, rfl⟩ he).2
  rintro done outs k m t o k' ⟨hl, ih⟩ h1
  refine ⟨lasts_step ord base k m o k' hl h1, ?_⟩
  obtain ⟨⟨v, hf⟩, -⟩ := emit_filter starts ord base k m o k' hl h1 (by
    intro d e he; unfold starts at he; split at he
    · rename_i h; cases h; exact ⟨_, _, _, rfl⟩
    · cases he)
  rw [List.map_append, List.filter_append, ih, List.filter_append, List.map_append]
  congr 1
  have e1 : ((o.map fun p => (p.1, ((p.2, t) : TMsg))).map (·.2)).filter (fun m => starts m.1) = (o.filter fun p => starts p.2).map fun p => (p.2, t) := by
    rw [List.map_map, List.filter_map]; rfl
  rw [e1, hf]
  have hd : starts (drum m) = starts m := by
    unfold drum; split <;> rfl
  by_cases hs : starts m = true
  · simp [hd, hs]
  · have : isGlobal m = true → starts m = true → False := by
      intro _ h; exact hs h
    simp [hd, hs]

theorem starts_velocity (ord : EnumOrder) (base : Fin 16 → Fin 8) (seq : List TMsg) (os : List (Fin 8 × TMsg)) (k : Ctl)
    (he : emits ord base (ctl0 base) seq = some (os, k)) : ∀ p ∈ os, ∀ d ch n v, p.2.1 = .midiEvent d (.noteOn ch n v) → v ≠ 0 := by
  refine (emits_nil_induct ord base (fun _ outs k => Lasts k ∧ ∀ p ∈ outs, ∀ d ch n v, p.2.1 = .midiEvent d (.noteOn ch n v) → v ≠ 0)
    ?_ seq _ k os ⟨lasts_init base, by simp⟩ he).2
  rintro done outs k m t o k' ⟨hl, ih⟩ h1
  refine ⟨lasts_step ord base k m o k' hl h1, ?_⟩
  intro p hp
  rcases List.mem_append.1 hp with hp | hp
  · exact ih p hp
  · obtain ⟨q, hq, rfl⟩ := List.mem_map.1 hp
    exact emit_velocity ord base k m o k' hl h1 q hq

/-- The system messages on the voices. -/
theorem emits_system (ord : EnumOrder) (base : Fin 16 → Fin 8) (seq : List TMsg) (os : List (Fin 8 × TMsg)) (k : Ctl)
    (he : emits ord base (ctl0 base) seq = some (os, k)) :
    (os.filter fun p => isSystem p.2.1) = (seq.filter fun m => isGlobal m.1).map fun m => (0, m) := by
  refine (emits_nil_induct ord base (fun done outs k => Lasts k ∧ (outs.filter fun p => isSystem p.2.1) = (done.filter fun m => isGlobal m.1).map fun m => ((0 : Fin 8), m))
    ?_ seq _ k os ⟨lasts_init base, rfl⟩ he).2
  rintro done outs k m t o k' ⟨hl, ih⟩ h1
  refine ⟨lasts_step ord base k m o k' hl h1, ?_⟩
  obtain ⟨-, hg, hs⟩ := emit_filter isSystem ord base k m o k' hl h1 (by intro d e he; simp [isSystem] at he)
  rw [List.filter_append, ih, List.filter_append, List.map_append]
  congr 1
  by_cases hgm : isGlobal m = true
  · rw [hg hgm]
    have : isSystem m = true := by unfold isGlobal at hgm; split at hgm <;> simp_all [isSystem]
    simp [hgm, this]
  · have : (o.map fun p => (p.1, ((p.2, t) : TMsg))).filter (fun p => isSystem p.2.1) = [] := by
      rw [List.filter_eq_nil_iff]
      intro p hp
      obtain ⟨q, hq, rfl⟩ := List.mem_map.1 hp
      intro hsys
      exact hgm (hs q hq hsys).2
    rw [this]
    simp [hgm]

/-- Voice lists together are the emitted messages. -/
theorem voices_perm {α : Type} (os : List (Fin 8 × α)) : ((List.finRange 8).flatMap fun v => onVoice os v).Perm (os.map (·.2)) := by
  induction os with
  | nil => simp [onVoice]
  | cons p os ih =>
    obtain ⟨w, m⟩ := p
    have e : ∀ l : List (Fin 8), l.Nodup → w ∈ l → (l.flatMap fun v => onVoice ((w, m) :: os) v).Perm (m :: l.flatMap fun v => onVoice os v) := by
      have off : ∀ v, v ≠ w → onVoice ((w, m) :: os) v = onVoice os v := by
        intro v hv
        have : ¬ w = v := fun e => hv e.symm
        simp [onVoice, this]
      intro l
      induction l with
      | nil => intro _ h; simp at h
      | cons v l ih2 =>
        intro hnd hm
        obtain ⟨n1, n2⟩ := List.nodup_cons.1 hnd
        by_cases hv : v = w
        · subst hv
          have : (l.flatMap fun x => onVoice ((v, m) :: os) x) = l.flatMap fun x => onVoice os x := by
            have : ∀ x ∈ l, onVoice ((v, m) :: os) x = onVoice os x := fun x hx => off x (by rintro rfl; exact n1 hx)
            rw [List.flatMap_def, List.flatMap_def, List.map_congr_left this]
          rw [List.flatMap_cons, List.flatMap_cons, this]
          have : onVoice ((v, m) :: os) v = m :: onVoice os v := by simp [onVoice]
          rw [this]
          simp
        · rw [List.flatMap_cons, List.flatMap_cons, off v hv]
          rcases List.mem_cons.1 hm with h | h
          · exact absurd h.symm hv
          · refine ((ih2 n2 h).append_left _).trans ?_
            exact List.perm_middle
    refine (e _ (List.nodup_finRange 8) (List.mem_finRange w)).trans ?_
    simpa using ih.cons m

/-- Channel lists together are the merged messages. -/
theorem channels_perm (seq : List (Fin 16 × TMsg)) : ((List.finRange 16).flatMap fun c => (seq.filter fun p => p.1 = c).map (·.2)).Perm (seq.map (·.2)) := by
  induction seq with
  | nil => simp
  | cons p os ih =>
    obtain ⟨w, m⟩ := p
    have e : ∀ l : List (Fin 16), l.Nodup → w ∈ l → (l.flatMap fun v => (((w, m) :: os).filter fun p => p.1 = v).map (·.2)).Perm (m :: l.flatMap fun v => (os.filter fun p => p.1 = v).map (·.2)) := by
      have off : ∀ v, v ≠ w → (((w, m) :: os).filter fun p => p.1 = v).map (·.2) = (os.filter fun p => p.1 = v).map (·.2) := by
        intro v hv
        have : ¬ w = v := fun e => hv e.symm
        simp [this]
      intro l
      induction l with
      | nil => intro _ h; simp at h
      | cons v l ih2 =>
        intro hnd hm
        obtain ⟨n1, n2⟩ := List.nodup_cons.1 hnd
        by_cases hv : v = w
        · subst hv
          have : (l.flatMap fun x => (((v, m) :: os).filter fun p => p.1 = x).map (·.2)) = l.flatMap fun x => (os.filter fun p => p.1 = x).map (·.2) := by
            have : ∀ x ∈ l, (((v, m) :: os).filter fun p => p.1 = x).map (·.2) = (os.filter fun p => p.1 = x).map (·.2) := fun x hx => off x (by rintro rfl; exact n1 hx)
            rw [List.flatMap_def, List.flatMap_def, List.map_congr_left this]
          rw [List.flatMap_cons, List.flatMap_cons, this]
          simp
        · rw [List.flatMap_cons, List.flatMap_cons, off v hv]
          rcases List.mem_cons.1 hm with h | h
          · exact absurd h.symm hv
          · refine ((ih2 n2 h).append_left _).trans ?_
            exact List.perm_middle
    refine (e _ (List.nodup_finRange 16) (List.mem_finRange w)).trans ?_
    simpa using ih.cons m

/-- All messages that belong to a channel, channel by channel. -/
theorem ofChannel_perm (l : List TMsg) : ((List.finRange 16).flatMap fun c => ofChannel l c).Perm (l.filter fun m => (home m.1).isSome) := by
  have h := channels_perm ((l.filter fun m => (home m.1).isSome).map fun m => ((home m.1).getD 0, m))
  rw [List.map_map] at h
  have e2 : ((l.filter fun m => (home m.1).isSome).map ((fun x : Fin 16 × TMsg => x.2) ∘ fun m => ((home m.1).getD 0, m))) = l.filter fun m => (home m.1).isSome := by
    simp [Function.comp_def]
  rw [e2] at h
  refine (List.Perm.of_eq ?_).trans h
  rw [List.flatMap_def, List.flatMap_def]
  congr 1
  apply List.map_congr_left
  intro c _
  unfold ofChannel
  rw [List.filter_map, List.map_map, List.filter_filter]
  simp only [Function.comp_def]
  rw [List.map_id']
  apply List.filter_congr
  intro m _
  cases home m.1 <;> simp

end M2S
