import Verif.Proofs.Sane
import Verif.Proofs.Programs
import Verif.Spec.Tidy
import Verif.Spec.Portamento
/-
Tidy files: on every voice, program changes come between notes, every note is ended by its own number, and all notes are ended.
-/
namespace M2S
open MidiSpec Timing

/-- One message on a voice with the number of the held note; `none` if notes do not alternate, are ended by another number, or a program change comes during a note. -/
def tidyStep (s : Option UInt8) (m : TMsg) : Option (Option UInt8) :=
  match m.1 with
  | .midiEvent _ (.noteOn _ n v) => if v = 0 then none else match s with | none => some (some n) | some _ => none
  | .midiEvent _ (.noteOff _ n _) => if s = some n then some none else none
  | .midiEvent _ (.programChange _ _) => if s = none then some none else none
  | _ => some s

/-- No note message and no program change. -/
def Idle (m : Message) : Prop := noteOf m = none ∧ programOf m = none

theorem tidyStep_idle (s : Option UInt8) (m : TMsg) (h : Idle m.1) : tidyStep s m = some s := by
  obtain ⟨m, t⟩ := m
  obtain ⟨h1, h2⟩ := h
  unfold tidyStep
  split <;> simp_all [noteOf, programOf]

theorem tidy_idle (s : Option UInt8) (l : List TMsg) (h : ∀ m ∈ l, Idle m.1) : l.foldlM tidyStep s = some s := by
  induction l with
  | nil => rfl
  | cons m l ih =>
    rw [List.foldlM_cons, tidyStep_idle s m (h m (by simp))]
    exact ih fun x hx => h x (by simp [hx])

/-- While no note is held, messages that are not note messages change nothing. -/
theorem tidy_free (l : List TMsg) (h : ∀ m ∈ l, noteOf m.1 = none) : l.foldlM tidyStep none = some none := by
  induction l with
  | nil => rfl
  | cons m l ih =>
    have : tidyStep none m = some none := by
      have h1 := h m (by simp)
      obtain ⟨m, t⟩ := m
      unfold tidyStep
      split <;> simp_all [noteOf]
    rw [List.foldlM_cons, this]
    exact ih fun x hx => h x (by simp [hx])

/-- The invariant: held notes with the number they were started with. -/
structure Tied (outs : List (Fin 8 × TMsg)) (k : Ctl) : Prop where
  hold : ∀ v, ∃ s, (onVoice outs v).foldlM tidyStep none = some s ∧ (∀ c n, (n, v) ∈ k.active c → s = some (drumNote c n)) ∧
    (voiceBusy k.active v = false → s = none)

theorem tied_quiet (outs o : List (Fin 8 × TMsg)) (k k' : Ctl) (h : Tied outs k)
    (ho : ∀ p ∈ o, Idle p.2.1 ∨ (noteOf p.2.1 = none ∧ voiceBusy k.active p.1 = false)) (ha : k'.active = k.active) : Tied (outs ++ o) k' := by
  refine ⟨fun v => ?_⟩
  obtain ⟨s, h1, h2, h3⟩ := h.hold v
  refine ⟨s, ?_, by rw [ha]; exact h2, by rw [ha]; exact h3⟩
  rw [onVoice_append, List.foldlM_append, h1]
  show (onVoice o v).foldlM tidyStep s = some s
  cases hb : voiceBusy k.active v with
  | false =>
    rw [h3 hb]
    apply tidy_free
    intro m hm
    obtain ⟨q, hq, rfl⟩ := List.mem_map.1 hm
    rcases ho q (List.mem_of_mem_filter hq) with g | g
    · exact g.1
    · exact g.1
  | true =>
    apply tidy_idle
    intro m hm
    obtain ⟨q, hq, rfl⟩ := List.mem_map.1 hm
    obtain ⟨hq1, hq2⟩ := List.mem_filter.1 hq
    have hq2 : q.1 = v := by simpa using hq2
    rcases ho q hq1 with g | g
    · exact g
    · rw [hq2, hb] at g; cases g.2

theorem tied_close (outs : List (Fin 8 × TMsg)) (k : Ctl) (hh : Held outs k) (h : Tied outs k) (ch : Fin 16) (note vel n' : UInt8) (d t : Nat) (v0 : Fin 8)
    (hl : (k.active ch).lookup note = some v0) (hn : n' = drumNote ch note) :
    Tied (outs ++ [(v0, (.midiEvent d (.noteOff ch n' vel), t))]) (ctlClose k ch note) := by
  have hmem := lookup_some hl
  have hk : (ctlClose k ch note).active = Function.update k.active ch (removeNote (k.active ch) note) := by
    unfold ctlClose; rw [hl]
  have hsub : ∀ c p, p ∈ (ctlClose k ch note).active c → p ∈ k.active c := by
    intro c p hp
    rw [hk] at hp
    by_cases hc : c = ch
    · subst hc; simp only [Function.update_self, mem_removeNote] at hp; exact hp.1
    · rwa [Function.update_of_ne hc] at hp
  have hstay : ∀ c n v, (n, v) ∈ k.active c → v ≠ v0 → (n, v) ∈ (ctlClose k ch note).active c := by
    intro c n v hp hv
    rw [hk]
    by_cases hc : c = ch
    · subst hc
      simp only [Function.update_self, mem_removeNote]
      refine ⟨hp, ?_⟩
      rintro rfl
      have := hh.keys c _ _ hp hmem rfl
      simp only [Prod.mk.injEq, true_and] at this
      exact hv this
    · rwa [Function.update_of_ne hc]
  refine ⟨fun v => ?_⟩
  obtain ⟨s, h1, h2, h3⟩ := h.hold v
  by_cases hv : v = v0
  · subst hv
    have hs := h2 ch note hmem
    refine ⟨none, ?_, ?_, fun _ => rfl⟩
    · rw [onVoice_append, List.foldlM_append, h1, hs, ← hn]
      simp [onVoice, tidyStep]
    · intro c n hc
      exfalso
      obtain ⟨rfl, e⟩ := hh.uniq c ch _ _ (hsub c _ hc) hmem rfl
      rw [hk] at hc
      simp only [Function.update_self, mem_removeNote] at hc
      simp only [Prod.mk.injEq, and_true] at e
      exact hc.2 e
  · have e : onVoice (outs ++ [(v0, ((Message.midiEvent d (MidiEvent.noteOff ch n' vel), t) : TMsg))]) v = onVoice outs v := by
      have : ¬ v0 = v := fun e => hv e.symm
      simp [onVoice, this]
    refine ⟨s, by rw [e]; exact h1, fun c n hc => h2 c n (hsub c _ hc), ?_⟩
    intro hb
    apply h3
    rw [voiceBusy_false] at hb ⊢
    intro c n hc
    exact hb c n (hstay c n v hc hv)

theorem tied_open (outs : List (Fin 8 × TMsg)) (k : Ctl) (h : Tied outs k) (ch : Fin 16) (note vel : UInt8) (d t : Nat) (v : Fin 8)
    (pre : List (Fin 8 × TMsg)) (hpre : ∀ p ∈ pre, p.1 = v ∧ noteOf p.2.1 = none) (hv : voiceBusy k.active v = false) (hvel : vel > 0)
    (hnone : ∀ p ∈ k.active ch, p.1 ≠ note) :
    Tied (outs ++ (pre ++ [(v, (.midiEvent d (.noteOn ch (drumNote ch note) vel), t))])) (ctlOpen k d ch note v) := by
  have hvel0 : vel ≠ 0 := by rintro rfl; simp at hvel
  rw [voiceBusy_false] at hv
  have hact : ∀ c p, p ∈ (ctlOpen k d ch note v).active c ↔ (c = ch ∧ p = (note, v)) ∨ p ∈ k.active c := by
    intro c p
    unfold ctlOpen
    simp only
    by_cases hc : c = ch
    · subst hc
      simp only [Function.update_self, insertNote, List.mem_cons, mem_removeNote, true_and]
      constructor
      · rintro (h | h)
        · exact .inl h
        · exact .inr h.1
      · rintro (h | h)
        · exact .inl h
        · exact .inr ⟨h, hnone p h⟩
    · simp [hc]
  refine ⟨fun w => ?_⟩
  obtain ⟨s, h1, h2, h3⟩ := h.hold w
  by_cases hw : w = v
  · subst hw
    have hs : s = none := h3 ((voiceBusy_false _ _).2 hv)
    subst hs
    have hpl : (onVoice pre w).foldlM tidyStep none = some none := by
      apply tidy_free
      intro m hm
      obtain ⟨q, hq, rfl⟩ := List.mem_map.1 hm
      exact (hpre q (List.mem_of_mem_filter hq)).2
    refine ⟨some (drumNote ch note), ?_, ?_, ?_⟩
    · rw [onVoice_append, onVoice_append, List.foldlM_append, h1]
      simp only [bind, Option.bind_some]
      rw [List.foldlM_append, hpl]
      simp [onVoice, tidyStep, hvel0]
    · intro c n hc
      rcases (hact c _).1 hc with ⟨rfl, e⟩ | hc
      · simp only [Prod.mk.injEq, and_true] at e
        subst e
        rfl
      · exact absurd hc (hv c n)
    · intro hb
      rw [voiceBusy_false] at hb
      exact absurd ((hact ch (note, w)).2 (.inl ⟨rfl, rfl⟩)) (hb ch note)
  · have e : onVoice (outs ++ (pre ++ [(v, ((Message.midiEvent d (MidiEvent.noteOn ch (drumNote ch note) vel), t) : TMsg))])) w = onVoice outs w := by
      have hne : ¬ v = w := fun e => hw e.symm
      rw [onVoice_append, onVoice_append]
      have : onVoice pre w = [] := by
        unfold onVoice
        rw [List.map_eq_nil_iff, List.filter_eq_nil_iff]
        intro p hp
        simp [(hpre p hp).1, hne]
      rw [this]
      simp [onVoice, hne]
    refine ⟨s, by rw [e]; exact h1, ?_, ?_⟩
    · intro c n hc
      rcases (hact c (n, w)).1 hc with ⟨_, e⟩ | hc
      · exact absurd (show w = v from congrArg Prod.snd e) hw
      · exact h2 c n hc
    · intro hb
      apply h3
      rw [voiceBusy_false] at hb ⊢
      intro c n hc
      exact hb c n ((hact c _).2 (.inr hc))

/-- What precedes the note-on is not a note message and goes to the voice chosen. -/
theorem pre_voice (k : Ctl) (hl : Lasts k) (d : Nat) (ch : Fin 16) (n : UInt8) (v : Fin 8) : ∀ p ∈ outSwitch k ch v ++ outPerc k d ch n v, p.1 = v ∧ noteOf p.2 = none := by
  have opt : ∀ x : Option Message, (∀ m, x = some m → noteOf m = none) → ∀ p ∈ outOpt v x, p.1 = v ∧ noteOf p.2 = none := by
    intro x hx p hp
    cases x with
    | none => simp [outOpt] at hp
    | some m =>
      simp only [outOpt, Option.map_some, Option.toList_some, List.mem_singleton] at hp
      subst hp
      exact ⟨rfl, hx m rfl⟩
  intro p hp
  rcases List.mem_append.1 hp with hp | hp
  · unfold outSwitch at hp
    split_ifs at hp
    · simp only [List.mem_append] at hp
      rcases hp with (hp | hp) | hp
      · refine opt _ ?_ p hp
        intro m hm
        obtain ⟨_, _, _, rfl⟩ := hl.ctrl ch m hm
        rfl
      · refine opt _ ?_ p hp
        intro m hm
        obtain ⟨_, _, rfl⟩ := hl.prog ch m hm
        rfl
      · refine opt _ ?_ p hp
        intro m hm
        obtain ⟨_, _, rfl⟩ := hl.bend ch m hm
        rfl
    · simp at hp
  · unfold outPerc at hp
    split_ifs at hp
    · simp only [List.mem_singleton] at hp
      subst hp
      exact ⟨rfl, rfl⟩
    · simp at hp

/-- No note sounds on the base voice of the channel, and none of the channel elsewhere. -/
def Vacant (base : Fin 16 → Fin 8) (k : Ctl) (ch : Fin 16) : Prop := k.active ch = [] ∧ voiceBusy k.active (base ch) = false

theorem vacant_out (ord : EnumOrder) (ho : ∀ l, (ord l).Perm l) (base : Fin 16 → Fin 8) (k : Ctl) (ch : Fin 16) (m : Message) (h : Vacant base k ch) :
    ∀ p ∈ outChannel ord base k ch m, p.2 = m ∧ voiceBusy k.active p.1 = false := by
  intro p hp
  obtain ⟨h1, h2 | ⟨n, h2⟩⟩ := (mem_outChannel ord ho base k ch m p).1 hp
  · exact ⟨h1, by rw [h2]; exact h.2⟩
  · rw [h.1] at h2; cases h2

theorem tied_step (ord : EnumOrder) (ho : ∀ l, (ord l).Perm l) (base : Fin 16 → Fin 8) (outs : List (Fin 8 × TMsg)) (k : Ctl) (m : Message) (t : Nat)
    (o : List (Fin 8 × Message)) (k' : Ctl) (hh : Held outs k) (hl : Lasts k) (h : Tied outs k) (he : emit ord base k m = some (o, k'))
    (hprog : ∀ x, programOf m = some x → Vacant base k x.1)
    (hsnare : ∀ d ch n v, m = .midiEvent d (.noteOn ch n v) → drumNote ch n ≠ n → (k.active ch).lookup n = none) :
    Tied (outs ++ o.map fun p => (p.1, (p.2, t))) k' := by
  have quiet : (∀ p ∈ o, Idle p.2) → k'.active = k.active → Tied (outs ++ o.map fun p => (p.1, (p.2, t))) k' := by
    intro h1 h2
    refine tied_quiet outs _ k k' h ?_ h2
    intro x hx
    obtain ⟨q, hq, rfl⟩ := List.mem_map.1 hx
    exact .inl (h1 q hq)
  have same : (∀ p ∈ o, Idle p.2) → k' = k → Tied (outs ++ o.map fun p => (p.1, (p.2, t))) k' := by
    rintro h1 rfl
    exact quiet h1 rfl
  have chanM : ∀ (ch : Fin 16) (m : Message), ∀ p ∈ outChannel ord base k ch m, p.2 = m := by
    intro ch m p hp
    unfold outChannel at hp
    rcases List.mem_append.1 hp with hp | hp
    · obtain ⟨q, -, rfl⟩ := List.mem_map.1 hp
      rfl
    · split_ifs at hp
      · simp at hp
      · simp only [List.mem_singleton] at hp; subst hp; rfl
  have chan : ∀ (ch : Fin 16) (m : Message), Idle m → ∀ p ∈ outChannel ord base k ch m, Idle p.2 := by
    intro ch m hm p hp
    rw [chanM ch m p hp]; exact hm
  have closeStep : ∀ d ch note vel v, m = .midiEvent d (.noteOn ch note v) →
      Tied (outs ++ (outClose k d ch note vel).map fun p => (p.1, (p.2, t))) (ctlClose k ch note) := by
    intro d ch note vel v hm
    cases hl : (k.active ch).lookup note with
    | none =>
      have e1 : outClose k d ch note vel = [] := by unfold outClose; rw [hl]
      have e2 : ctlClose k ch note = k := by unfold ctlClose; rw [hl]
      rw [e1, e2]
      simpa using h
    | some v0 =>
      have e1 : outClose k d ch note vel = [(v0, .midiEvent d (.noteOff ch note vel))] := by unfold outClose; rw [hl]
      rw [e1]
      refine tied_close outs k hh h ch note vel note d t v0 hl ?_
      by_contra hne
      rw [hsnare d ch note v hm (fun e => hne e.symm)] at hl
      cases hl
  cases m with
  | metaEvent d e data =>
    cases e with
    | setTempo =>
      simp only [emit, Option.some.injEq, Prod.mk.injEq] at he
      exact same (by rw [← he.1]; intro p hp; simp only [List.mem_singleton] at hp; subst hp; exact ⟨rfl, rfl⟩) he.2.symm
    | _ =>
      simp only [emit, Option.some.injEq, Prod.mk.injEq] at he
      exact same (by rw [← he.1]; simp) he.2.symm
  | sysEx d data =>
    simp only [emit, Option.some.injEq, Prod.mk.injEq] at he
    exact same (by rw [← he.1]; intro p hp; simp only [List.mem_singleton] at hp; subst hp; exact ⟨rfl, rfl⟩) he.2.symm
  | trackChange =>
    simp only [emit, Option.some.injEq, Prod.mk.injEq] at he
    exact same (by rw [← he.1]; simp) he.2.symm
  | midiEvent d e =>
    cases e with
    | unknown ch =>
      simp only [emit, Option.some.injEq, Prod.mk.injEq] at he
      exact same (by rw [← he.1]; simp) he.2.symm
    | polyphonicKeyPressure ch n v =>
      simp only [emit] at he
      split at he
      · simp only [Option.some.injEq, Prod.mk.injEq] at he
        exact same (by rw [← he.1]; intro p hp; simp only [List.mem_singleton] at hp; subst hp; exact ⟨rfl, rfl⟩) he.2.symm
      · simp only [Option.some.injEq, Prod.mk.injEq] at he
        exact same (by rw [← he.1]; simp) he.2.symm
    | channelPressure ch v =>
      simp only [emit, Option.some.injEq, Prod.mk.injEq] at he
      exact same (by rw [← he.1]; exact chan ch _ ⟨rfl, rfl⟩) he.2.symm
    | controlChange ch c v =>
      simp only [emit, Option.some.injEq, Prod.mk.injEq] at he
      obtain ⟨rfl, h2⟩ := he
      refine quiet (chan ch _ ⟨rfl, rfl⟩) ?_
      rw [← h2]
      split_ifs <;> rfl
    | programChange ch v =>
      simp only [emit, Option.some.injEq, Prod.mk.injEq] at he
      obtain ⟨rfl, rfl⟩ := he
      refine tied_quiet outs _ k _ h ?_ rfl
      intro x hx
      obtain ⟨q, hq, rfl⟩ := List.mem_map.1 hx
      obtain ⟨e1, e2⟩ := vacant_out ord ho base k ch _ (hprog (ch, v) rfl) q hq
      exact .inr ⟨by simp only [e1]; rfl, e2⟩
    | pitchBendChange ch v =>
      simp only [emit, Option.some.injEq, Prod.mk.injEq] at he
      obtain ⟨rfl, rfl⟩ := he
      exact quiet (chan ch _ ⟨rfl, rfl⟩) rfl
    | noteOff ch n v =>
      simp only [emit] at he
      cases hl : (k.active ch).lookup n with
      | none =>
        rw [hl] at he
        simp only [Option.some.injEq, Prod.mk.injEq] at he
        exact same (by rw [← he.1]; simp) he.2.symm
      | some w =>
        rw [hl] at he
        simp only [Option.some.injEq, Prod.mk.injEq] at he
        obtain ⟨rfl, rfl⟩ := he
        exact tied_close outs k hh h ch n v _ d t w hl rfl
    | noteOn ch n vel =>
      simp only [emit] at he
      by_cases hv : vel > 0
      · rw [if_pos hv] at he
        cases hch : chooseVoice base (ctlClose k ch n).active ch with
        | none => rw [hch] at he; cases he
        | some v =>
          rw [hch] at he
          simp only [Option.some.injEq, Prod.mk.injEq] at he
          obtain ⟨rfl, rfl⟩ := he
          have h1 := closeStep d ch n vel vel rfl
          have h2 := tied_open _ _ h1 ch n vel d t v ((outSwitch k ch v ++ outPerc k d ch n v).map fun p => (p.1, (p.2, t))) (by
            intro p hp
            obtain ⟨q, hq, rfl⟩ := List.mem_map.1 hp
            exact pre_voice k hl d ch n v q hq) (chooseVoice_free base _ ch v hch) hv (close_lookup k ch n)
          rw [List.append_assoc] at h2
          simpa using h2
      · rw [if_neg hv] at he
        simp only [Option.some.injEq, Prod.mk.injEq] at he
        obtain ⟨rfl, rfl⟩ := he
        exact closeStep d ch n vel vel rfl

/-! ## Which notes sound -/

/-- A held note was started and has not been ended since. -/
structure Since (done : List TMsg) (k : Ctl) : Prop where
  since : ∀ c n v, (n, v) ∈ k.active c → ∃ pre a post, done = pre ++ a :: post ∧ starts a.1 = true ∧ noteOf a.1 = some (c, n) ∧
    ∀ e ∈ post, ends e.1 = true → noteOf e.1 ≠ some (c, n)

theorem close_active (k : Ctl) (ch : Fin 16) (note : UInt8) (c : Fin 16) (n : UInt8) (v : Fin 8) (h : (n, v) ∈ (ctlClose k ch note).active c) :
    (n, v) ∈ k.active c ∧ (c, n) ≠ (ch, note) := by
  constructor
  · unfold ctlClose at h
    split at h
    · by_cases hc : c = ch
      · subst hc; simp only [Function.update_self, mem_removeNote] at h; exact h.1
      · simpa [Function.update_of_ne hc] using h
    · exact h
  · intro e
    simp only [Prod.mk.injEq] at e
    obtain ⟨rfl, rfl⟩ := e
    exact close_lookup k c n _ h rfl

theorem active_step (ord : EnumOrder) (base : Fin 16 → Fin 8) (k : Ctl) (m : Message) (o : List (Fin 8 × Message)) (k' : Ctl)
    (he : emit ord base k m = some (o, k')) (c : Fin 16) (n : UInt8) (v : Fin 8) (h : (n, v) ∈ k'.active c) :
    (starts m = true ∧ noteOf m = some (c, n)) ∨ ((n, v) ∈ k.active c ∧ (ends m = true → noteOf m ≠ some (c, n))) := by
  have same : k'.active = k.active → ends m = false → (starts m = true ∧ noteOf m = some (c, n)) ∨ ((n, v) ∈ k.active c ∧ (ends m = true → noteOf m ≠ some (c, n))) := by
    intro e e2
    rw [e] at h
    exact .inr ⟨h, by rw [e2]; intro g; cases g⟩
  cases m with
  | metaEvent d e data =>
    cases e <;> (simp only [emit, Option.some.injEq, Prod.mk.injEq] at he; exact same (by rw [← he.2]) rfl)
  | sysEx d data => simp only [emit, Option.some.injEq, Prod.mk.injEq] at he; exact same (by rw [← he.2]) rfl
  | trackChange => simp only [emit, Option.some.injEq, Prod.mk.injEq] at he; exact same (by rw [← he.2]) rfl
  | midiEvent d e =>
    cases e with
    | unknown ch => simp only [emit, Option.some.injEq, Prod.mk.injEq] at he; exact same (by rw [← he.2]) rfl
    | polyphonicKeyPressure ch n v =>
      simp only [emit] at he
      split at he <;> (simp only [Option.some.injEq, Prod.mk.injEq] at he; exact same (by rw [← he.2]) rfl)
    | channelPressure ch v => simp only [emit, Option.some.injEq, Prod.mk.injEq] at he; exact same (by rw [← he.2]) rfl
    | controlChange ch c v =>
      simp only [emit, Option.some.injEq, Prod.mk.injEq] at he
      refine same ?_ rfl
      rw [← he.2]
      split_ifs <;> rfl
    | programChange ch v => simp only [emit, Option.some.injEq, Prod.mk.injEq] at he; exact same (by rw [← he.2]) rfl
    | pitchBendChange ch v => simp only [emit, Option.some.injEq, Prod.mk.injEq] at he; exact same (by rw [← he.2]) rfl
    | noteOff ch nn vv =>
      simp only [emit] at he
      cases hl : (k.active ch).lookup nn with
      | none =>
        rw [hl] at he
        simp only [Option.some.injEq, Prod.mk.injEq] at he
        rw [← he.2] at h
        refine .inr ⟨h, fun _ e => ?_⟩
        simp only [noteOf, Option.some.injEq, Prod.mk.injEq] at e
        obtain ⟨rfl, rfl⟩ := e
        exact lookup_none hl _ h rfl
      | some w =>
        rw [hl] at he
        simp only [Option.some.injEq, Prod.mk.injEq] at he
        rw [← he.2] at h
        obtain ⟨g1, g2⟩ := close_active k ch nn c n v h
        refine .inr ⟨g1, fun _ e => g2 ?_⟩
        simp only [noteOf, Option.some.injEq] at e
        exact e.symm
    | noteOn ch nn vel =>
      simp only [emit] at he
      by_cases hv : vel > 0
      · have hv0 : vel ≠ 0 := by rintro rfl; simp at hv
        rw [if_pos hv] at he
        split at he
        · cases he
        · simp only [Option.some.injEq, Prod.mk.injEq] at he
          rw [← he.2] at h
          simp only [ctlOpen] at h
          by_cases hc : c = ch
          · subst hc
            simp only [Function.update_self, insertNote, List.mem_cons, mem_removeNote] at h
            rcases h with h | h
            · simp only [Prod.mk.injEq] at h
              exact .inl ⟨by simp [starts, hv0], by simp [noteOf, h.1]⟩
            · obtain ⟨g1, -⟩ := close_active k c nn c n v h.1
              exact .inr ⟨g1, by simp [ends, hv0]⟩
          · rw [Function.update_of_ne hc] at h
            obtain ⟨g1, -⟩ := close_active k ch nn c n v h
            exact .inr ⟨g1, by simp [ends, hv0]⟩
      · rw [if_neg hv] at he
        simp only [Option.some.injEq, Prod.mk.injEq] at he
        rw [← he.2] at h
        obtain ⟨g1, g2⟩ := close_active k ch nn c n v h
        refine .inr ⟨g1, fun _ e => g2 ?_⟩
        simp only [noteOf, Option.some.injEq] at e
        exact e.symm

theorem since_step (ord : EnumOrder) (base : Fin 16 → Fin 8) (done : List TMsg) (k : Ctl) (m : Message) (t : Nat) (o : List (Fin 8 × Message)) (k' : Ctl)
    (h : Since done k) (he : emit ord base k m = some (o, k')) : Since (done ++ [(m, t)]) k' := by
  refine ⟨fun c n v hm => ?_⟩
  rcases active_step ord base k m o k' he c n v hm with ⟨g1, g2⟩ | ⟨g1, g2⟩
  · exact ⟨done, (m, t), [], rfl, g1, g2, by simp⟩
  · obtain ⟨pre, a, post, rfl, e2, e3, e4⟩ := h.since c n v g1
    refine ⟨pre, a, post ++ [(m, t)], by simp, e2, e3, ?_⟩
    intro e hmem
    rcases List.mem_append.1 hmem with hmem | hmem
    · exact e4 e hmem
    · simp only [List.mem_singleton] at hmem
      subst hmem
      exact g2

/-! ## The order of a tidy file -/

/-- At the event `m` every note started before, as far as `P` selects it, has been ended. -/
def Ended (done : List TMsg) (P : TMsg → Prop) : Prop :=
  ∀ pre a post, done = pre ++ a :: post → starts a.1 = true → P a → ∃ e ∈ post, ends e.1 = true ∧ noteOf e.1 = noteOf a.1

/-- The messages belong to channels with different base voices. -/
def Other (base : Fin 16 → Fin 8) (m m' : Message) : Prop := ∃ c ∈ home m, ∃ c' ∈ home m', c ≠ c' ∧ base c ≠ base c'

/-- In the order of dealing, program changes come when the base voice is free and no note of the channel sounds, and snares are struck when they do not sound; snares are not ended by note-ons. -/
def Calm (base : Fin 16 → Fin 8) (l : List TMsg) : Prop :=
  ∀ done m rest, l = done ++ m :: rest → ((programOf m.1).isSome = true → Ended done fun a => ¬ Other base m.1 a.1) ∧
    (isSnareMsg m.1 = true → (starts m.1 = true → Ended done fun a => noteOf a.1 = noteOf m.1) ∧ isZeroOn m.1 = false)

theorem calm_append {base : Fin 16 → Fin 8} {done : List TMsg} {m : TMsg} (h : Calm base (done ++ [m])) :
    Calm base done ∧ ((programOf m.1).isSome = true → Ended done fun a => ¬ Other base m.1 a.1) ∧
    (isSnareMsg m.1 = true → (starts m.1 = true → Ended done fun a => noteOf a.1 = noteOf m.1) ∧ isZeroOn m.1 = false) := by
  refine ⟨?_, h done m [] rfl⟩
  intro d x rest hd
  exact h d x (rest ++ [m]) (by rw [hd]; simp)

theorem snare_iff (ch : Fin 16) (n : UInt8) : drumNote ch n ≠ n ↔ ch = 9 ∧ (n = 38 ∨ n = 40) := by
  rw [drumNote_eq]
  split_ifs with h
  · simp only [h, and_self, iff_true]
    rcases h.2 with rfl | rfl <;> decide
  · simp [h]

theorem noteOf_home {m : Message} {c : Fin 16} {n : UInt8} (h : noteOf m = some (c, n)) : home m = some c := by
  unfold noteOf at h
  split at h <;> simp_all [home]

/-- If all notes in the way have ended, the channel's base voice is free and it sounds nowhere else. -/
theorem vacant_of (base : Fin 16 → Fin 8) (done : List TMsg) (k : Ctl) (hs : Since done k) (hp : Places base k) (m : Message) (ch : Fin 16) (hm : home m = some ch)
    (he : Ended done fun a => ¬ Other base m a.1) : Vacant base k ch := by
  have key : ∀ c n v, (n, v) ∈ k.active c → (c = ch ∨ base c = base ch) → False := by
    intro c n v hmem hc
    obtain ⟨pre, a, post, e1, e2, e3, e4⟩ := hs.since c n v hmem
    obtain ⟨e, g1, g2, g3⟩ := he pre a post e1 e2 (by
      rintro ⟨x, hx, y, hy, h1, h2⟩
      rw [hm] at hx
      rw [noteOf_home e3] at hy
      simp only [Option.mem_def, Option.some.injEq] at hx hy
      subst hx hy
      rcases hc with hc | hc
      · exact h1 hc.symm
      · exact h2 hc.symm)
    exact e4 e g1 g2 (by rw [g3, e3])
  refine ⟨?_, ?_⟩
  · by_contra hne
    obtain ⟨⟨n, v⟩, l, hcons⟩ := List.exists_cons_of_ne_nil hne
    exact key ch n v (by rw [hcons]; simp) (.inl rfl)
  · rw [voiceBusy_false]
    intro c n hmem
    rcases hp.place c n _ hmem with h | h
    · exact key c n _ hmem (.inr h.symm)
    · exact h ch rfl

theorem tied_emits (ord : EnumOrder) (ho : ∀ l, (ord l).Perm l) (base : Fin 16 → Fin 8) (seq : List TMsg) (os : List (Fin 8 × TMsg)) (k : Ctl) (hc : Calm base seq)
    (he : emits ord base (ctl0 base) seq = some (os, k)) : Tied os k ∧ Since seq k := by
  have := (emits_nil_induct ord base (fun done outs k => Held outs k ∧ Lasts k ∧ Places base k ∧ Since done k ∧ (Calm base done → Tied outs k)) ?_ seq _ k os
    ⟨held_init base, lasts_init base, places_init base, ⟨by simp [ctl0]⟩, fun _ => ⟨fun _ => ⟨none, rfl, by simp [ctl0], fun _ => rfl⟩⟩⟩ he).2.2.2
  · exact ⟨this.2 hc, this.1⟩
  · rintro done outs k m t o k' ⟨i1, i2, ip, i3, i4⟩ h1
    refine ⟨held_step ord base outs k m t o k' i1 h1, lasts_step ord base k m o k' i2 h1, places_step ord base k m o k' ip h1, since_step ord base done k m t o k' i3 h1, ?_⟩
    intro hcalm
    obtain ⟨c1, c2, c3⟩ := calm_append hcalm
    refine tied_step ord ho base outs k m t o k' i1 i2 (i4 c1) h1 ?_ ?_
    · rintro ⟨ch, pn⟩ hp
      exact vacant_of base done k i3 ip m ch (home_program m ch pn hp) (c2 (by simp only [hp]; rfl))
    · intro d ch n v hm hs
      rw [snare_iff] at hs
      have hsm : isSnareMsg m = true := by
        rw [hm]
        obtain ⟨rfl, rfl | rfl⟩ := hs <;> rfl
      obtain ⟨c3, c4⟩ := c3 hsm
      have hst : starts m = true := by
        rw [hm] at c4 ⊢
        simpa [isZeroOn, starts] using c4
      cases hl : (k.active ch).lookup n with
      | none => rfl
      | some w =>
        obtain ⟨pre, a, post, e1, e2, e3, e4⟩ := i3.since ch n w (lookup_some hl)
        obtain ⟨e, g1, g2, g3⟩ := c3 hst pre a post e1 e2 (by show noteOf a.1 = noteOf m; rw [e3, hm]; rfl)
        exact absurd (by rw [g3, e3]) (e4 e g1 g2)

theorem ends_noteOf {m : Message} (h : ends m = true) : (home m).isSome = true ∧ programOf m = none ∧ starts m = false := by
  unfold ends at h
  split at h
  · exact ⟨rfl, rfl, rfl⟩
  · simp_all [home, programOf, starts]
  · cases h

theorem starts_rank {m : Message} (h : starts m = true) : rank m = 2 ∧ (home m).isSome = true := by
  unfold starts at h
  split at h
  · simp_all [rank, ends, starts, home]
  · cases h

theorem calm_of_way (base : Fin 16 → Fin 8) (p : Nat) (l : List TMsg) (hs : Sane p l) (ht : Tidy l)
    (hprog : ∀ m ∈ l, (programOf m.1).isSome = true → ∀ a ∈ l, starts a.1 = true → a.2 < m.2 →
      EndedBy l a m.2 ∨ ∃ c ∈ home m.1, ∃ c' ∈ home a.1, c ≠ c' ∧ base c ≠ base c') (seq : List (Fin 16 × TMsg))
    (hperm : (seq.map (·.2)).Perm (l.filter fun m => (home m.1).isSome)) (hm : seq.Pairwise MergeOrder) :
    Calm base (seq.map (·.2)) ∧ Ended (seq.map (·.2)) fun _ => True := by
  have hmem : ∀ x ∈ seq.map (·.2), x ∈ l := fun x hx => List.mem_of_mem_filter (hperm.mem_iff.1 hx)
  have hmem' : ∀ x ∈ l, (home x.1).isSome = true → x ∈ seq.map (·.2) := fun x hx hh => hperm.mem_iff.2 (List.mem_filter.2 ⟨hx, hh⟩)
  have hnd : (((seq.map (·.2)).filter fun m => starts m.1).map fun m => (noteOf m.1, m.2)).Nodup := by
    refine (((hperm.filter _).map _).nodup_iff).2 ?_
    refine hs.once.sublist ?_
    exact (List.filter_sublist.filter _).map _
  unfold List.Nodup at hnd
  rw [List.pairwise_map, List.pairwise_filter] at hnd
  have hbef : (seq.map (·.2)).Pairwise Before := by
    rw [List.pairwise_map]
    refine hm.imp ?_
    rintro ⟨c, a⟩ ⟨c', b⟩ h
    rcases h with h | ⟨h, h' | ⟨h', -⟩⟩
    · exact .inl h
    · exact .inr ⟨h, le_of_lt h'⟩
    · exact .inr ⟨h, le_of_eq h'⟩
  generalize seq.map (·.2) = s at *
  -- an end after `a` and not after `m` lies between them
  have between : ∀ pre a post m rest e, s = (pre ++ a :: post) ++ m :: rest → e ∈ l → ends e.1 = true → a.2 < e.2 → (e.2 < m.2 ∨ (e.2 = m.2 ∧ rank m.1 ≠ 0)) → e ∈ post := by
    intro pre a post m rest e hsplit hel hee h1 h2
    have hes := hmem' e hel (ends_noteOf hee).1
    have hre : rank e.1 = 0 := by simp [rank, hee]
    rw [hsplit] at hes hbef
    rw [List.pairwise_append] at hbef
    obtain ⟨b1, b2, b3⟩ := hbef
    rw [List.pairwise_append] at b1
    obtain ⟨-, -, b4⟩ := b1
    simp only [List.mem_append, List.mem_cons] at hes
    rcases hes with (hes | rfl | hes) | rfl | hes
    · exfalso
      rcases b4 e hes a (by simp) with h | h <;> omega
    · exact absurd h1 (lt_irrefl _)
    · exact hes
    · exfalso; omega
    · exfalso
      rcases (List.pairwise_cons.1 b2).1 e hes with h | h <;> omega
  constructor
  · intro done m rest hsplit
    have hms : m ∈ l := hmem m (by rw [hsplit]; simp)
    constructor
    · intro hp pre a post hd ha hway
      subst hd
      have har := starts_rank ha
      have hal : a ∈ l := hmem a (by rw [hsplit]; simp)
      have hmr : rank m.1 = 1 := by
        obtain ⟨m, t⟩ := m
        unfold programOf at hp
        split at hp
        · rename_i e; simp only at e; subst e; rfl
        · cases hp
      have hlt : a.2 < m.2 := by
        have := hbef
        rw [hsplit, List.pairwise_append] at this
        rcases this.2.2 a (by simp) m (by simp) with h | h
        · exact h
        · omega
      obtain ⟨e, g1, g2, g3, g4, g5⟩ : EndedBy l a m.2 := by
        rcases hprog m hms hp a hal ha hlt with h | ⟨c, hc, c', hc', h1, h2⟩
        · exact h
        · exact absurd ⟨c, hc, c', hc', h1, h2⟩ hway
      refine ⟨e, between pre a post m rest e hsplit g1 g2 g4 ?_, g2, g3⟩
      omega
    · intro hsn
      refine ⟨?_, ht.snareEnds m hms hsn⟩
      intro hst pre a post hd ha hno
      subst hd
      have har := starts_rank ha
      have hmr := starts_rank hst
      have hal : a ∈ l := hmem a (by rw [hsplit]; simp)
      have hlt : a.2 < m.2 := by
        have h1 := hbef
        rw [hsplit, List.pairwise_append] at h1
        have h2 := hnd
        rw [hsplit, List.pairwise_append] at h2
        have h3 := h2.2.2 a (by simp) m (by simp) ha hst
        rcases h1.2.2 a (by simp) m (by simp) with h | h
        · exact h
        · exact absurd (by rw [hno, h.1]) h3
      have hsa : isSnareMsg a.1 = true := by
        unfold isSnareMsg at hsn ⊢
        rw [hno]; exact hsn
      obtain ⟨e, g1, g2, g3, g4, g5⟩ := ht.snareStarts a hal m hms ha hst hsa hno.symm hlt
      refine ⟨e, between pre a post m rest e hsplit g1 g2 g4 ?_, g2, g3⟩
      omega
  · intro pre a post hsplit ha _
    have hal : a ∈ l := hmem a (by rw [hsplit]; simp)
    obtain ⟨e, g1, g2, g3, g4⟩ := ht.closed a hal ha
    have hes := hmem' e g1 (ends_noteOf g2).1
    refine ⟨e, ?_, g2, g3⟩
    rw [hsplit] at hes hbef
    rw [List.pairwise_append] at hbef
    simp only [List.mem_append, List.mem_cons] at hes
    rcases hes with hes | rfl | hes
    · exfalso
      rcases hbef.2.2 e hes a (by simp) with h | h <;> omega
    · exact absurd g4 (lt_irrefl _)
    · exact hes

theorem calm_of_tidy (base : Fin 16 → Fin 8) (p : Nat) (l : List TMsg) (hs : Sane p l) (ht : Tidy l) (hbase : ∀ c c', c ≠ c' → Together l c c' → base c ≠ base c') (seq : List (Fin 16 × TMsg))
    (hperm : (seq.map (·.2)).Perm (l.filter fun m => (home m.1).isSome)) (hm : seq.Pairwise MergeOrder) :
    Calm base (seq.map (·.2)) ∧ Ended (seq.map (·.2)) fun _ => True := by
  refine calm_of_way base p l hs ht ?_ seq hperm hm
  intro m hm hp a ha hst hlt
  rcases ht.programs m hm hp a ha hst hlt with h | ⟨c, hc, c', hc', h1, h2⟩
  · exact .inl h
  · exact .inr ⟨c, hc, c', hc', h1, hbase c c' h1 h2⟩

/-! ## What the step says about a voice -/

theorem tidy_endsMatch (evs : List TMsg) : ∀ s s', evs.foldlM tidyStep s = some s' → endsMatch s evs = true ∧ programsBetweenNotes s.isSome evs = true := by
  induction evs with
  | nil => intro s s' _; exact ⟨rfl, rfl⟩
  | cons m evs ih =>
    intro s s' h
    rw [List.foldlM_cons] at h
    obtain ⟨m, t⟩ := m
    cases h1 : tidyStep s (m, t) with
    | none => rw [h1] at h; cases h
    | some s1 =>
      rw [h1] at h
      obtain ⟨i1, i2⟩ := ih s1 s' h
      unfold tidyStep at h1
      split at h1
      · rename_i d ch n v hm
        simp only at hm
        subst hm
        split_ifs at h1
        cases s with
        | none =>
          simp only [Option.some.injEq] at h1
          subst h1
          simp only [endsMatch, programsBetweenNotes]
          exact ⟨i1, i2⟩
        | some x => cases h1
      · rename_i d ch n v hm
        simp only at hm
        subst hm
        split_ifs at h1 with hs
        simp only [Option.some.injEq] at h1
        subst h1 hs
        simp only [endsMatch, programsBetweenNotes]
        exact ⟨by simpa using i1, i2⟩
      · rename_i d ch n hm
        simp only at hm
        subst hm
        split_ifs at h1 with hs
        simp only [Option.some.injEq] at h1
        subst h1 hs
        simp only [endsMatch, programsBetweenNotes]
        exact ⟨i1, by simpa using i2⟩
      · rename_i hn1 hn2 hn3
        simp only at hn1 hn2 hn3
        simp only [Option.some.injEq] at h1
        subst h1
        constructor
        · unfold endsMatch
          split
          · exact absurd rfl (hn1 _ _ _ _)
          · exact absurd rfl (hn2 _ _ _ _)
          · exact i1
        · unfold programsBetweenNotes
          split
          · exact absurd rfl (hn1 _ _ _ _)
          · exact absurd rfl (hn2 _ _ _ _)
          · exact absurd rfl (hn3 _ _ _)
          · exact i2

/-- Starts of notes with time and number. -/
def startsOf (evs : List TMsg) : List (Nat × UInt8) := evs.filterMap fun m => if starts m.1 then (noteOf m.1).map fun x => (m.2, x.2) else none

theorem tidy_notes (evs : List TMsg) : (evs.foldlM tidyStep none = some none → (midiNotes none evs).map (fun n => (n.on, n.note)) = startsOf evs) ∧
    ∀ x on vel, evs.foldlM tidyStep (some x) = some none → (midiNotes (some (on, vel)) evs).map (fun n => (n.on, n.note)) = (on, x) :: startsOf evs := by
  induction evs with
  | nil => exact ⟨fun _ => rfl, fun x on vel h => by cases h⟩
  | cons m evs ih =>
    obtain ⟨m, t⟩ := m
    obtain ⟨ih1, ih2⟩ := ih
    have idle : (∀ d ch n v, m ≠ .midiEvent d (.noteOn ch n v)) → (∀ d ch n v, m ≠ .midiEvent d (.noteOff ch n v)) →
        startsOf ((m, t) :: evs) = startsOf evs ∧ ∀ o, midiNotes o ((m, t) :: evs) = midiNotes o evs := by
      intro h1 h2
      constructor
      · unfold startsOf
        rw [List.filterMap_cons]
        have : starts m = false := by
          unfold starts
          split
          · exact absurd rfl (h1 _ _ _ _)
          · rfl
        simp [this]
      · intro o
        rw [midiNotes.eq_def]
        split
        · rename_i e; cases e
        · rename_i e
          simp only [List.cons.injEq, Prod.mk.injEq] at e
          exact absurd e.1.1 (h1 _ _ _ _)
        · rename_i e
          simp only [List.cons.injEq, Prod.mk.injEq] at e
          exact absurd e.1.1 (h2 _ _ _ _)
        · rename_i e
          simp only [List.cons.injEq] at e
          rw [e.2]
    constructor
    · intro h
      rw [List.foldlM_cons] at h
      cases h1 : tidyStep none (m, t) with
      | none => rw [h1] at h; cases h
      | some s1 =>
        rw [h1] at h
        simp only [bind, Option.bind_some] at h
        unfold tidyStep at h1
        split at h1
        · rename_i d ch n v hm
          simp only at hm
          subst hm
          split_ifs at h1 with hv
          simp only [Option.some.injEq] at h1
          subst h1
          have : startsOf ((.midiEvent d (.noteOn ch n v), t) :: evs) = (t, n) :: startsOf evs := by
            unfold startsOf; simp [starts, hv, noteOf]
          rw [this, midiNotes]
          exact ih2 n t v h
        · rename_i d ch n v hm
          simp only at hm
          subst hm
          simp at h1
        · rename_i d ch n hm
          simp only at hm
          subst hm
          simp only [if_true, Option.some.injEq] at h1
          subst h1
          obtain ⟨e1, e2⟩ := idle (by simp) (by simp)
          rw [e1, e2]
          exact ih1 h
        · rename_i hn1 hn2 hn3
          simp only [Option.some.injEq] at h1
          subst h1
          obtain ⟨e1, e2⟩ := idle hn1 hn2
          rw [e1, e2]
          exact ih1 h
    · intro x on vel h
      rw [List.foldlM_cons] at h
      cases h1 : tidyStep (some x) (m, t) with
      | none => rw [h1] at h; cases h
      | some s1 =>
        rw [h1] at h
        simp only [bind, Option.bind_some] at h
        unfold tidyStep at h1
        split at h1
        · rename_i d ch n v hm
          split_ifs at h1
        · rename_i d ch n v hm
          simp only at hm
          subst hm
          split_ifs at h1 with hx
          simp only [Option.some.injEq] at h1 hx
          subst h1 hx
          have : startsOf ((.midiEvent d (.noteOff ch x v), t) :: evs) = startsOf evs := by
            unfold startsOf; simp [starts]
          rw [this, midiNotes, List.map_cons, ih1 h]
        · simp at h1
        · rename_i hn1 hn2 hn3
          simp only [Option.some.injEq] at h1
          subst h1
          obtain ⟨e1, e2⟩ := idle hn1 hn2
          rw [e1, e2]
          exact ih2 x on vel h

/-- A note is ended by the number of a note started. -/
theorem tidy_off (evs : List TMsg) : ∀ s s', evs.foldlM tidyStep s = some s' → ∀ d ch n x t, (Message.midiEvent d (.noteOff ch n x), t) ∈ evs →
    s = some n ∨ ∃ t', (t', n) ∈ startsOf evs := by
  induction evs with
  | nil => intro s s' _ d ch n x t h; cases h
  | cons m evs ih =>
    intro s s' h d ch n x t hm
    rw [List.foldlM_cons] at h
    cases h1 : tidyStep s m with
    | none => rw [h1] at h; cases h
    | some s1 =>
      rw [h1] at h
      simp only [bind, Option.bind_some] at h
      have mono : (∃ t', (t', n) ∈ startsOf evs) → ∃ t', (t', n) ∈ startsOf (m :: evs) := by
        rintro ⟨t', ht⟩
        refine ⟨t', ?_⟩
        unfold startsOf at ht ⊢
        rw [List.filterMap_cons]
        split
        · exact ht
        · exact List.mem_cons_of_mem _ ht
      rcases List.mem_cons.1 hm with rfl | hm
      · simp only [tidyStep] at h1
        split_ifs at h1 with hs
        exact .inl hs
      · rcases ih s1 s' h d ch n x t hm with g | g
        · subst g
          obtain ⟨m, t0⟩ := m
          unfold tidyStep at h1
          split at h1
          · rename_i d ch n' v hmm
            simp only at hmm
            subst hmm
            split_ifs at h1 with hv
            cases s with
            | none =>
              simp only [Option.some.injEq] at h1
              subst h1
              refine .inr ⟨t0, ?_⟩
              unfold startsOf
              simp [starts, hv, noteOf]
            | some y => cases h1
          · split_ifs at h1; cases h1
          · split_ifs at h1; cases h1
          · simp only [Option.some.injEq] at h1
            exact .inl h1
        · exact .inr (mono g)

end M2S
