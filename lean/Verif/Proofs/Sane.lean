import Verif.Proofs.Emission
import Verif.Spec.Timing
import Verif.Spec.Sane
/-
Files of sane content give well-formed voices.
-/
namespace M2S
open MidiSpec Timing

/-- One message on a voice, with the start of the held note; `none` if notes do not alternate or are too short. -/
def lenStep (p : Nat) (s : Option Nat) (m : TMsg) : Option (Option Nat) :=
  if starts m.1 then (match s with | none => some (some m.2) | some _ => none)
  else if ends m.1 then (match s with | some t => if p ≤ 24 * (m.2 - t) then some none else none | none => none)
  else some s

/-- Everything that may end a note comes late enough. -/
def Spaced (p : Nat) (l : List TMsg) : Prop :=
  l.Pairwise fun a b => starts a.1 = true → noteOf b.1 = noteOf a.1 → p ≤ 24 * (b.2 - a.2)

/-- The invariant: held notes with their starts. -/
structure Len (p : Nat) (done : List TMsg) (outs : List (Fin 8 × TMsg)) (k : Ctl) : Prop where
  hold : ∀ v, ∃ s, (onVoice outs v).foldlM (lenStep p) none = some s ∧
    (∀ c n, (n, v) ∈ k.active c → ∃ a ∈ done, starts a.1 = true ∧ noteOf a.1 = some (c, n) ∧ s = some a.2) ∧
    (voiceBusy k.active v = false → s = none)

theorem len_plain (p : Nat) (s : Option Nat) (l : List TMsg) (h : ∀ m ∈ l, Plain m.1) : l.foldlM (lenStep p) s = some s := by
  induction l with
  | nil => rfl
  | cons m l ih =>
    obtain ⟨h1, h2⟩ := h m (by simp)
    rw [List.foldlM_cons]
    simp only [lenStep, h1, h2, Bool.false_eq_true, if_false]
    exact ih fun x hx => h x (by simp [hx])

theorem len_quiet (p : Nat) (done done' : List TMsg) (outs o : List (Fin 8 × TMsg)) (k k' : Ctl) (h : Len p done outs k) (hd : ∀ x ∈ done, x ∈ done')
    (ho : ∀ p ∈ o, Plain p.2.1) (ha : k'.active = k.active) : Len p done' (outs ++ o) k' := by
  refine ⟨fun v => ?_⟩
  obtain ⟨s, h1, h2, h3⟩ := h.hold v
  refine ⟨s, ?_, ?_, by rw [ha]; exact h3⟩
  · rw [onVoice_append, List.foldlM_append, h1]
    apply len_plain
    intro m hm
    obtain ⟨q, hq, rfl⟩ := List.mem_map.1 hm
    exact ho q (List.mem_of_mem_filter hq)
  · intro c n hc
    rw [ha] at hc
    obtain ⟨a, g1, g2⟩ := h2 c n hc
    exact ⟨a, hd a g1, g2⟩

theorem len_close (p : Nat) (done : List TMsg) (outs : List (Fin 8 × TMsg)) (k : Ctl) (hh : Held outs k) (h : Len p done outs k) (ch : Fin 16)
    (note vel n' : UInt8) (d t : Nat) (v0 : Fin 8) (hl : (k.active ch).lookup note = some v0)
    (hlen : ∀ a ∈ done, starts a.1 = true → noteOf a.1 = some (ch, note) → p ≤ 24 * (t - a.2)) :
    Len p done (outs ++ [(v0, (.midiEvent d (.noteOff ch n' vel), t))]) (ctlClose k ch note) := by
  have hmem := lookup_some hl
  have hk : (ctlClose k ch note).active = Function.update k.active ch (removeNote (k.active ch) note) := by
    unfold ctlClose; rw [hl]
  have hsub : ∀ c p, p ∈ (ctlClose k ch note).active c → p ∈ k.active c := by
    intro c p hp
    rw [hk] at hp
    by_cases hc : c = ch
    · subst hc; simp only [Function.update_self, mem_removeNote] at hp; exact hp.1
    · rwa [Function.update_of_ne hc] at hp
  have hstay : ∀ c n v, (n, v) ∈ k.active c → v ≠ v0 → (n, v) ∈ (ctlClose k ch note).active c := by
    intro c n v hp hv
    rw [hk]
    by_cases hc : c = ch
    · subst hc
      simp only [Function.update_self, mem_removeNote]
      refine ⟨hp, ?_⟩
      rintro rfl
      have := hh.keys c _ _ hp hmem rfl
      simp only [Prod.mk.injEq, true_and] at this
      exact hv this
    · rwa [Function.update_of_ne hc]
  refine ⟨fun v => ?_⟩
  obtain ⟨s, h1, h2, h3⟩ := h.hold v
  by_cases hv : v = v0
  · subst hv
    obtain ⟨a, ha1, ha2, ha3, hs⟩ := h2 ch note hmem
    refine ⟨none, ?_, ?_, fun _ => rfl⟩
    · rw [onVoice_append, List.foldlM_append, h1, hs]
      simp only [onVoice, List.filter_cons, decide_true, if_true, List.filter_nil, List.map_cons, List.map_nil, bind, Option.bind_some, List.foldlM_cons,
        List.foldlM_nil, lenStep, starts, ends, Bool.false_eq_true, if_false, if_pos (hlen a ha1 ha2 ha3)]
      rfl
    · intro c n hc
      exfalso
      obtain ⟨rfl, e⟩ := hh.uniq c ch _ _ (hsub c _ hc) hmem rfl
      rw [hk] at hc
      simp only [Function.update_self, mem_removeNote] at hc
      simp only [Prod.mk.injEq, and_true] at e
      exact hc.2 e
  · have e : onVoice (outs ++ [(v0, ((Message.midiEvent d (MidiEvent.noteOff ch n' vel), t) : TMsg))]) v = onVoice outs v := by
      have : ¬ v0 = v := fun e => hv e.symm
      simp [onVoice, this]
    refine ⟨s, by rw [e]; exact h1, fun c n hc => h2 c n (hsub c _ hc), ?_⟩
    intro hb
    apply h3
    rw [voiceBusy_false] at hb ⊢
    intro c n hc
    exact hb c n (hstay c n v hc hv)

theorem len_open (p : Nat) (done : List TMsg) (outs : List (Fin 8 × TMsg)) (k : Ctl) (h : Len p done outs k) (ch : Fin 16) (note vel : UInt8) (d t : Nat)
    (pre : List (Fin 8 × TMsg)) (hpre : ∀ p ∈ pre, Plain p.2.1) (v : Fin 8) (hv : voiceBusy k.active v = false) (hvel : vel > 0)
    (hnone : ∀ p ∈ k.active ch, p.1 ≠ note) :
    Len p (done ++ [(.midiEvent d (.noteOn ch note vel), t)]) (outs ++ (pre ++ [(v, (.midiEvent d (.noteOn ch (drumNote ch note) vel), t))]))
      (ctlOpen k d ch note v) := by
  have hvel0 : vel ≠ 0 := by rintro rfl; simp at hvel
  rw [voiceBusy_false] at hv
  have hact : ∀ c p, p ∈ (ctlOpen k d ch note v).active c ↔ (c = ch ∧ p = (note, v)) ∨ p ∈ k.active c := by
    intro c p
    unfold ctlOpen
    simp only
    by_cases hc : c = ch
    · subst hc
      simp only [Function.update_self, insertNote, List.mem_cons, mem_removeNote, true_and]
      constructor
      · rintro (h | h)
        · exact .inl h
        · exact .inr h.1
      · rintro (h | h)
        · exact .inl h
        · exact .inr ⟨h, hnone p h⟩
    · simp [hc]
  refine ⟨fun w => ?_⟩
  obtain ⟨s, h1, h2, h3⟩ := h.hold w
  have hpl : (onVoice pre w).foldlM (lenStep p) s = some s := by
    apply len_plain
    intro m hm
    obtain ⟨q, hq, rfl⟩ := List.mem_map.1 hm
    exact hpre q (List.mem_of_mem_filter hq)
  by_cases hw : w = v
  · subst hw
    have hs : s = none := h3 ((voiceBusy_false _ _).2 hv)
    subst hs
    refine ⟨some t, ?_, ?_, ?_⟩
    · rw [onVoice_append, onVoice_append, List.foldlM_append, h1]
      simp only [bind, Option.bind_some]
      rw [List.foldlM_append, hpl]
      simp [onVoice, lenStep, starts, hvel0]
    · intro c n hc
      rcases (hact c _).1 hc with ⟨rfl, e⟩ | hc
      · simp only [Prod.mk.injEq, and_true] at e
        subst e
        exact ⟨(.midiEvent d (.noteOn c n vel), t), by simp, by simp [starts, hvel0], rfl, rfl⟩
      · exact absurd hc (hv c n)
    · intro hb
      rw [voiceBusy_false] at hb
      exact absurd ((hact ch (note, w)).2 (.inl ⟨rfl, rfl⟩)) (hb ch note)
  · have e : onVoice (outs ++ (pre ++ [(v, ((Message.midiEvent d (MidiEvent.noteOn ch (drumNote ch note) vel), t) : TMsg))])) w = onVoice outs w ++ onVoice pre w := by
      have : ¬ v = w := fun e => hw e.symm
      simp [onVoice, this]
    refine ⟨s, by rw [e, List.foldlM_append, h1]; exact hpl, ?_, ?_⟩
    · intro c n hc
      rcases (hact c (n, w)).1 hc with ⟨_, e⟩ | hc
      · exact absurd (show w = v from congrArg Prod.snd e) hw
      · obtain ⟨a, g1, g2⟩ := h2 c n hc
        exact ⟨a, List.mem_append_left _ g1, g2⟩
    · intro hb
      apply h3
      rw [voiceBusy_false] at hb ⊢
      intro c n hc
      exact hb c n ((hact c _).2 (.inr hc))

theorem len_mono (p : Nat) (done done' : List TMsg) (outs : List (Fin 8 × TMsg)) (k : Ctl) (h : Len p done outs k) (hd : ∀ x ∈ done, x ∈ done') :
    Len p done' outs k := by
  have := len_quiet p done done' outs [] k k h hd (by simp) rfl
  simpa using this

theorem len_step (p : Nat) (ord : EnumOrder) (base : Fin 16 → Fin 8) (done : List TMsg) (outs : List (Fin 8 × TMsg)) (k : Ctl) (m : Message) (t : Nat)
    (o : List (Fin 8 × Message)) (k' : Ctl) (hh : Held outs k) (h : Len p done outs k) (he : emit ord base k m = some (o, k'))
    (hs : ∀ a ∈ done, starts a.1 = true → noteOf m = noteOf a.1 → p ≤ 24 * (t - a.2)) :
    Len p (done ++ [(m, t)]) (outs ++ o.map fun p => (p.1, (p.2, t))) k' := by
  have quiet : (∀ p ∈ o, Plain p.2) → k'.active = k.active → Len p (done ++ [(m, t)]) (outs ++ o.map fun p => (p.1, (p.2, t))) k' := by
    intro h1 h2
    refine len_quiet p done _ outs _ k k' h (by intro x hx; simp [hx]) ?_ h2
    intro x hx
    obtain ⟨q, hq, rfl⟩ := List.mem_map.1 hx
    exact h1 q hq
  have same : (∀ p ∈ o, Plain p.2) → k' = k → Len p (done ++ [(m, t)]) (outs ++ o.map fun p => (p.1, (p.2, t))) k' := by
    rintro h1 rfl
    exact quiet h1 rfl
  have chan : ∀ (ch : Fin 16) (m : Message), Plain m → ∀ p ∈ outChannel ord base k ch m, Plain p.2 := by
    intro ch m hm p hp
    unfold outChannel at hp
    rcases List.mem_append.1 hp with hp | hp
    · obtain ⟨q, -, rfl⟩ := List.mem_map.1 hp
      exact hm
    · split_ifs at hp
      · simp at hp
      · simp only [List.mem_singleton] at hp; subst hp; exact hm
  have closeStep : ∀ d ch note vel, noteOf m = some (ch, note) → Len p done (outs ++ (outClose k d ch note vel).map fun p => (p.1, (p.2, t))) (ctlClose k ch note) ∧
      Held (outs ++ (outClose k d ch note vel).map fun p => (p.1, (p.2, t))) (ctlClose k ch note) := by
    intro d ch note vel hm
    cases hl : (k.active ch).lookup note with
    | none =>
      have e1 : outClose k d ch note vel = [] := by unfold outClose; rw [hl]
      have e2 : ctlClose k ch note = k := by unfold ctlClose; rw [hl]
      rw [e1, e2]
      exact ⟨by simpa using h, by simpa using hh⟩
    | some v =>
      have e1 : outClose k d ch note vel = [(v, .midiEvent d (.noteOff ch note vel))] := by unfold outClose; rw [hl]
      rw [e1]
      exact ⟨len_close p done outs k hh h ch note vel note d t v hl (fun a g1 g2 g3 => hs a g1 g2 (by rw [hm, g3])),
        held_close outs k hh ch note vel note d t v hl (.inr rfl)⟩
  cases m with
  | metaEvent d e data =>
    cases e with
    | setTempo =>
      simp only [emit, Option.some.injEq, Prod.mk.injEq] at he
      exact same (by rw [← he.1]; intro p hp; simp only [List.mem_singleton] at hp; subst hp; exact ⟨rfl, rfl⟩) he.2.symm
    | _ =>
      simp only [emit, Option.some.injEq, Prod.mk.injEq] at he
      exact same (by rw [← he.1]; simp) he.2.symm
  | sysEx d data =>
    simp only [emit, Option.some.injEq, Prod.mk.injEq] at he
    exact same (by rw [← he.1]; intro p hp; simp only [List.mem_singleton] at hp; subst hp; exact ⟨rfl, rfl⟩) he.2.symm
  | trackChange =>
    simp only [emit, Option.some.injEq, Prod.mk.injEq] at he
    exact same (by rw [← he.1]; simp) he.2.symm
  | midiEvent d e =>
    cases e with
    | unknown ch =>
      simp only [emit, Option.some.injEq, Prod.mk.injEq] at he
      exact same (by rw [← he.1]; simp) he.2.symm
    | polyphonicKeyPressure ch n v =>
      simp only [emit] at he
      split at he
      · simp only [Option.some.injEq, Prod.mk.injEq] at he
        exact same (by rw [← he.1]; intro p hp; simp only [List.mem_singleton] at hp; subst hp; exact ⟨rfl, rfl⟩) he.2.symm
      · simp only [Option.some.injEq, Prod.mk.injEq] at he
        exact same (by rw [← he.1]; simp) he.2.symm
    | channelPressure ch v =>
      simp only [emit, Option.some.injEq, Prod.mk.injEq] at he
      exact same (by rw [← he.1]; exact chan ch _ ⟨rfl, rfl⟩) he.2.symm
    | controlChange ch c v =>
      simp only [emit, Option.some.injEq, Prod.mk.injEq] at he
      obtain ⟨rfl, h2⟩ := he
      refine quiet (chan ch _ ⟨rfl, rfl⟩) ?_
      rw [← h2]
      split_ifs <;> rfl
    | programChange ch v =>
      simp only [emit, Option.some.injEq, Prod.mk.injEq] at he
      obtain ⟨rfl, rfl⟩ := he
      exact quiet (chan ch _ ⟨rfl, rfl⟩) rfl
    | pitchBendChange ch v =>
      simp only [emit, Option.some.injEq, Prod.mk.injEq] at he
      obtain ⟨rfl, rfl⟩ := he
      exact quiet (chan ch _ ⟨rfl, rfl⟩) rfl
    | noteOff ch n v =>
      simp only [emit] at he
      cases hl : (k.active ch).lookup n with
      | none =>
        rw [hl] at he
        simp only [Option.some.injEq, Prod.mk.injEq] at he
        exact same (by rw [← he.1]; simp) he.2.symm
      | some w =>
        rw [hl] at he
        simp only [Option.some.injEq, Prod.mk.injEq] at he
        obtain ⟨rfl, rfl⟩ := he
        exact len_mono p done _ _ _ (len_close p done outs k hh h ch n v _ d t w hl (fun a g1 g2 g3 => hs a g1 g2 (by rw [g3]; rfl))) (by intro x hx; simp [hx])
    | noteOn ch n vel =>
      simp only [emit] at he
      by_cases hv : vel > 0
      · rw [if_pos hv] at he
        cases hch : chooseVoice base (ctlClose k ch n).active ch with
        | none => rw [hch] at he; cases he
        | some v =>
          rw [hch] at he
          simp only [Option.some.injEq, Prod.mk.injEq] at he
          obtain ⟨rfl, rfl⟩ := he
          have h1 := (closeStep d ch n vel rfl).1
          have h2 := len_open p done _ _ h1 ch n vel d t ((outSwitch k ch v ++ outPerc k d ch n v).map fun p => (p.1, (p.2, t))) (by
            intro p hp
            obtain ⟨q, hq, rfl⟩ := List.mem_map.1 hp
            rcases List.mem_append.1 hq with hq | hq
            · exact plain_outSwitch outs k hh ch v q hq
            · unfold outPerc at hq
              split_ifs at hq
              · simp only [List.mem_singleton] at hq; subst hq; exact ⟨rfl, rfl⟩
              · simp at hq) v (chooseVoice_free base _ ch v hch) hv (close_lookup k ch n)
          rw [List.append_assoc] at h2
          simpa using h2
      · rw [if_neg hv] at he
        simp only [Option.some.injEq, Prod.mk.injEq] at he
        obtain ⟨rfl, rfl⟩ := he
        exact len_mono p done _ _ _ (closeStep d ch n vel rfl).1 (by intro x hx; simp [hx])

theorem len_init (p : Nat) (base : Fin 16 → Fin 8) : Len p [] [] (ctl0 base) :=
  ⟨fun _ => ⟨none, rfl, by simp [ctl0], fun _ => rfl⟩⟩

theorem len_emits (p : Nat) (ord : EnumOrder) (base : Fin 16 → Fin 8) (seq : List TMsg) (os : List (Fin 8 × TMsg)) (k : Ctl) (hs : Spaced p seq)
    (he : emits ord base (ctl0 base) seq = some (os, k)) : Len p seq os k := by
  refine (emits_nil_induct ord base (fun done outs k => Held outs k ∧ (Spaced p done → Len p done outs k)) ?_ seq _ k os
    ⟨held_init base, fun _ => len_init p base⟩ he).2 hs
  rintro done outs k m t o k' ⟨i1, i2⟩ h1
  refine ⟨held_step ord base outs k m t o k' i1 h1, ?_⟩
  intro hsp
  unfold Spaced at hsp
  rw [List.pairwise_append] at hsp
  exact len_step p ord base done outs k m t o k' i1 (i2 hsp.1) h1 fun a ha g1 g2 => hsp.2.2 a ha (m, t) (by simp) g1 g2

/-! ## Data bytes -/

/-- The remembered messages have sane bytes. -/
structure Remembered (k : Ctl) : Prop where
  ctrl : ∀ c m, k.lastCtrl c = some m → dataOk m = true
  prog : ∀ c m, k.lastProg c = some m → dataOk m = true
  bend : ∀ c m, k.lastBend c = some m → dataOk m = true

theorem percInstr_ok (n : UInt8) : percInstr n ≤ 127 := by
  unfold percInstr
  split_ifs <;> decide

theorem drumNote_ok (ch : Fin 16) (n : UInt8) (h : n ≤ 127) : drumNote ch n ≤ 127 := by
  rw [drumNote_eq]
  split_ifs
  · decide
  · exact h

theorem data_step (ord : EnumOrder) (base : Fin 16 → Fin 8) (k : Ctl) (m : Message) (o : List (Fin 8 × Message)) (k' : Ctl)
    (h : Remembered k) (hm : dataOk m = true) (he : emit ord base k m = some (o, k')) : Remembered k' ∧ ∀ p ∈ o, dataOk p.2 = true := by
  have close : ∀ ch n, Remembered (ctlClose k ch n) := by
    intro ch n
    obtain ⟨h1, h2, h3, -⟩ := ctlClose_last k ch n
    exact ⟨by rw [h1]; exact h.ctrl, by rw [h2]; exact h.prog, by rw [h3]; exact h.bend⟩
  have chan : ∀ (ch : Fin 16) (m : Message), dataOk m = true → ∀ p ∈ outChannel ord base k ch m, dataOk p.2 = true := by
    intro ch m hm p hp
    unfold outChannel at hp
    rcases List.mem_append.1 hp with hp | hp
    · obtain ⟨q, -, rfl⟩ := List.mem_map.1 hp
      exact hm
    · split_ifs at hp
      · simp at hp
      · simp only [List.mem_singleton] at hp; subst hp; exact hm
  have opt : ∀ v (x : Option Message), (∀ m, x = some m → dataOk m = true) → ∀ p ∈ outOpt v x, dataOk p.2 = true := by
    intro v x hx p hp
    cases x with
    | none => simp [outOpt] at hp
    | some m =>
      simp only [outOpt, Option.map_some, Option.toList_some, List.mem_singleton] at hp
      subst hp
      exact hx m rfl
  have one : ∀ v, o = [(v, m)] → ∀ p ∈ o, dataOk p.2 = true := by
    rintro v rfl p hp
    simp only [List.mem_singleton] at hp
    subst hp
    exact hm
  cases m with
  | metaEvent d e data =>
    cases e with
    | setTempo =>
      simp only [emit, Option.some.injEq, Prod.mk.injEq] at he
      exact ⟨by rw [← he.2]; exact h, one 0 he.1.symm⟩
    | _ =>
      simp only [emit, Option.some.injEq, Prod.mk.injEq] at he
      exact ⟨by rw [← he.2]; exact h, by rw [← he.1]; simp⟩
  | sysEx d data =>
    simp only [emit, Option.some.injEq, Prod.mk.injEq] at he
    exact ⟨by rw [← he.2]; exact h, one 0 he.1.symm⟩
  | trackChange =>
    simp only [emit, Option.some.injEq, Prod.mk.injEq] at he
    exact ⟨by rw [← he.2]; exact h, by rw [← he.1]; simp⟩
  | midiEvent d e =>
    cases e with
    | unknown ch =>
      simp only [emit, Option.some.injEq, Prod.mk.injEq] at he
      exact ⟨by rw [← he.2]; exact h, by rw [← he.1]; simp⟩
    | polyphonicKeyPressure ch n v =>
      simp only [emit] at he
      split at he
      · rename_i w _
        simp only [Option.some.injEq, Prod.mk.injEq] at he
        exact ⟨by rw [← he.2]; exact h, one w he.1.symm⟩
      · simp only [Option.some.injEq, Prod.mk.injEq] at he
        exact ⟨by rw [← he.2]; exact h, by rw [← he.1]; simp⟩
    | channelPressure ch v =>
      simp only [emit, Option.some.injEq, Prod.mk.injEq] at he
      exact ⟨by rw [← he.2]; exact h, by rw [← he.1]; exact chan ch _ hm⟩
    | controlChange ch c v =>
      simp only [emit, Option.some.injEq, Prod.mk.injEq] at he
      refine ⟨?_, by rw [← he.1]; exact chan ch _ hm⟩
      rw [← he.2]
      split_ifs
      · refine ⟨?_, h.prog, h.bend⟩
        intro c' m' hm'
        rcases update_some hm' with ⟨rfl, rfl⟩ | hm'
        · exact hm
        · exact h.ctrl c' m' hm'
      · exact h
    | programChange ch v =>
      simp only [emit, Option.some.injEq, Prod.mk.injEq] at he
      refine ⟨?_, by rw [← he.1]; exact chan ch _ hm⟩
      rw [← he.2]
      refine ⟨h.ctrl, ?_, h.bend⟩
      intro c' m' hm'
      rcases update_some hm' with ⟨rfl, rfl⟩ | hm'
      · exact hm
      · exact h.prog c' m' hm'
    | pitchBendChange ch v =>
      simp only [emit, Option.some.injEq, Prod.mk.injEq] at he
      refine ⟨?_, by rw [← he.1]; exact chan ch _ hm⟩
      rw [← he.2]
      refine ⟨h.ctrl, h.prog, ?_⟩
      intro c' m' hm'
      rcases update_some hm' with ⟨rfl, rfl⟩ | hm'
      · exact hm
      · exact h.bend c' m' hm'
    | noteOff ch n v =>
      have hn : n ≤ 127 := by simpa [dataOk] using hm
      simp only [emit] at he
      split at he
      · simp only [Option.some.injEq, Prod.mk.injEq] at he
        refine ⟨by rw [← he.2]; exact close ch n, ?_⟩
        rw [← he.1]
        intro p hp
        simp only [List.mem_singleton] at hp
        subst hp
        simpa [dataOk] using drumNote_ok ch n hn
      · simp only [Option.some.injEq, Prod.mk.injEq] at he
        exact ⟨by rw [← he.2]; exact h, by rw [← he.1]; simp⟩
    | noteOn ch n vel =>
      simp only [dataOk, Bool.and_eq_true, decide_eq_true_eq] at hm
      have hcl : ∀ p ∈ outClose k d ch n vel, dataOk p.2 = true := by
        intro p hp
        unfold outClose at hp
        split at hp
        · simp only [List.mem_singleton] at hp
          subst hp
          simpa [dataOk] using hm.1
        · simp at hp
      simp only [emit] at he
      by_cases hv : vel > 0
      · rw [if_pos hv] at he
        split at he
        · cases he
        · rename_i v hch
          simp only [Option.some.injEq, Prod.mk.injEq] at he
          constructor
          · rw [← he.2]
            refine ⟨(close ch n).ctrl, ?_, (close ch n).bend⟩
            intro c m hm
            simp only [ctlOpen] at hm
            split_ifs at hm
            · rcases update_some hm with ⟨rfl, rfl⟩ | hm
              · simpa [dataOk] using percInstr_ok n
              · exact (close ch n).prog c m hm
            · exact (close ch n).prog c m hm
          · rw [← he.1]
            intro p hp
            simp only [List.mem_append, List.mem_singleton] at hp
            rcases hp with hp | (hp | hp) | hp
            · exact hcl p hp
            · unfold outSwitch at hp
              split_ifs at hp
              · simp only [List.mem_append] at hp
                rcases hp with (hp | hp) | hp
                · exact opt v _ (h.ctrl ch) p hp
                · exact opt v _ (h.prog ch) p hp
                · exact opt v _ (h.bend ch) p hp
              · simp at hp
            · unfold outPerc at hp
              split_ifs at hp
              · simp only [List.mem_singleton] at hp
                subst hp
                simpa [dataOk] using percInstr_ok n
              · simp at hp
            · subst hp
              simp only [dataOk, Bool.and_eq_true, decide_eq_true_eq]
              exact ⟨drumNote_ok ch n hm.1, hm.2⟩
      · rw [if_neg hv] at he
        simp only [Option.some.injEq, Prod.mk.injEq] at he
        exact ⟨by rw [← he.2]; exact close ch n, by rw [← he.1]; exact hcl⟩

theorem data_emits (ord : EnumOrder) (base : Fin 16 → Fin 8) (seq : List TMsg) (os : List (Fin 8 × TMsg)) (k : Ctl) (hs : ∀ m ∈ seq, dataOk m.1 = true)
    (he : emits ord base (ctl0 base) seq = some (os, k)) : ∀ p ∈ os, dataOk p.2.1 = true := by
  refine ((emits_nil_induct ord base (fun done outs k => (∀ m ∈ done, dataOk m.1 = true) → Remembered k ∧ ∀ p ∈ outs, dataOk p.2.1 = true) ?_ seq _ k os
    (fun _ => ⟨⟨by simp [ctl0], by simp [ctl0], by simp [ctl0]⟩, by simp⟩) he) hs).2
  intro done outs k m t o k' ih h1 hd
  obtain ⟨i1, i2⟩ := ih fun x hx => hd x (by simp [hx])
  obtain ⟨j1, j2⟩ := data_step ord base k m o k' i1 (hd (m, t) (by simp)) h1
  refine ⟨j1, ?_⟩
  intro p hp
  rcases List.mem_append.1 hp with hp | hp
  · exact i2 p hp
  · obtain ⟨q, hq, rfl⟩ := List.mem_map.1 hp
    exact j2 q hq

/-! ## Voices -/

/-- The facts about a voice that make it well-formed, for gaps up to the length of the song. -/
theorem voiceOk_of (p T : Nat) (evs : List TMsg) : ∀ (now adv : Nat) (o o' : Option Nat), evs.Pairwise (fun a b => a.2 ≤ b.2) →
    (∀ m ∈ evs, now ≤ m.2) → (∀ m ∈ evs, ∀ d e, m.1 = .midiEvent d e → m.2 ≤ T) → (∀ m ∈ evs, dataOk m.1 = true) →
    (∀ m ∈ evs, ∀ d ch n v, m.1 = .midiEvent d (.noteOn ch n v) → v ≠ 0) → evs.foldlM (lenStep p) o = some o' →
    voiceOk p T T now adv o evs = true := by
  induction evs with
  | nil => intro now adv o o' _ _ _ _ _ _; simp [voiceOk]
  | cons m evs ih =>
    intro now adv o o' hp hn hT hd hz hl
    obtain ⟨m, t⟩ := m
    obtain ⟨hp1, hp2⟩ := List.pairwise_cons.1 hp
    rw [List.foldlM_cons] at hl
    have hd0 := hd (m, t) (by simp)
    have hn0 : now ≤ t := hn (m, t) (by simp)
    have next : ∀ now' adv' o1, (∀ x ∈ evs, now' ≤ x.2) → lenStep p o (m, t) = some o1 → voiceOk p T T now' adv' o1 evs = true := by
      intro now' adv' o1 hn' h1
      rw [h1] at hl
      exact ih now' adv' o1 o' hp2 hn' (fun x hx => hT x (by simp [hx])) (fun x hx => hd x (by simp [hx])) (fun x hx => hz x (by simp [hx])) hl
    have ht : ∀ x ∈ evs, t ≤ x.2 := fun x hx => hp1 x hx
    have hnow : ∀ x ∈ evs, now ≤ x.2 := fun x hx => hn x (by simp [hx])
    rcases m with ⟨dl, e, data⟩ | ⟨dl, e⟩ | ⟨dl, data⟩ | _
    · cases e with
      | setTempo =>
        simp only [voiceOk, Bool.and_eq_true]
        exact ⟨hd0, next now adv o hnow rfl⟩
      | other x =>
        simp only [voiceOk]
        exact next now adv o hnow rfl
    · have htT : t ≤ T := hT (.midiEvent dl e, t) (by simp) dl e rfl
      have hgap : ∀ a, t - a ≤ T := fun a => by omega
      cases e with
      | noteOn ch n v =>
        have hv : v ≠ 0 := hz (.midiEvent dl (.noteOn ch n v), t) (by simp) dl ch n v rfl
        have hst : starts (Message.midiEvent dl (.noteOn ch n v)) = true := by simp [starts, hv]
        cases o with
        | some on => simp [lenStep, hst, bind, Option.bind] at hl
        | none =>
          have := next t t (some t) ht (by simp [lenStep, hst])
          simp only [dataOk, Bool.and_eq_true] at hd0
          simp only [voiceOk, Bool.and_eq_true, decide_eq_true_eq, Option.isNone_none, true_and]
          exact ⟨⟨hn0, htT⟩, ⟨⟨⟨by simpa using hd0.1, by simpa using hd0.2⟩, hgap _⟩, this⟩⟩
      | noteOff ch n v =>
        have hs0 : starts (Message.midiEvent dl (.noteOff ch n v)) = false := rfl
        have he0 : ends (Message.midiEvent dl (.noteOff ch n v)) = true := rfl
        cases o with
        | none => simp [lenStep, hs0, he0, bind, Option.bind] at hl
        | some on =>
          by_cases hlen : p ≤ 24 * (t - on)
          · have := next t t none ht (by simp [lenStep, hs0, he0, hlen])
            simp only [voiceOk, Bool.and_eq_true, decide_eq_true_eq]
            exact ⟨⟨hn0, htT⟩, by simpa [dataOk] using hd0, ⟨hlen, hgap _⟩, this⟩
          · simp [lenStep, hs0, he0, hlen, bind, Option.bind] at hl
      | controlChange ch c d =>
        simp only [voiceOk, Bool.and_eq_true, decide_eq_true_eq]
        exact ⟨⟨hn0, htT⟩, by simpa [dataOk] using hd0, next t adv o ht rfl⟩
      | programChange ch x =>
        simp only [voiceOk, Bool.and_eq_true, decide_eq_true_eq]
        exact ⟨⟨hn0, htT⟩, ⟨by simpa [dataOk] using hd0, hgap _⟩, next t t o ht rfl⟩
      | _ =>
        simp only [voiceOk, Bool.and_eq_true, decide_eq_true_eq]
        exact ⟨⟨hn0, htT⟩, next t adv o ht rfl⟩
    · simp only [voiceOk]
      exact next now adv o hnow rfl
    · simp only [voiceOk]
      exact next now adv o hnow rfl

/-- Sane files are spaced. -/
theorem spaced_of_sane (p : Nat) (l : List TMsg) (hs : Sane p l) (seq : List (Fin 16 × TMsg)) (hperm : (seq.map (·.2)).Perm (l.filter fun m => (home m.1).isSome))
    (hm : seq.Pairwise MergeOrder) : Spaced p (seq.map (·.2)) := by
  have hmem : ∀ x ∈ seq.map (·.2), x ∈ l := fun x hx => List.mem_of_mem_filter (hperm.mem_iff.1 hx)
  have hnd : (((seq.map (·.2)).filter fun m => starts m.1).map fun m => (noteOf m.1, m.2)).Nodup := by
    refine (((hperm.filter _).map _).nodup_iff).2 ?_
    refine hs.once.sublist ?_
    exact (List.filter_sublist.filter _).map _
  unfold List.Nodup at hnd
  rw [List.pairwise_map, List.pairwise_filter, List.pairwise_map] at hnd
  unfold Spaced
  rw [List.pairwise_map]
  have := hm.and hnd
  refine List.Pairwise.imp_of_mem ?_ this
  rintro ⟨c, a⟩ ⟨c', b⟩ ha hb ⟨h1, h2⟩ ha' hab
  have hla := hmem a (List.mem_map_of_mem (f := (·.2)) ha)
  have hlb := hmem b (List.mem_map_of_mem (f := (·.2)) hb)
  unfold MergeOrder at h1
  rcases h1 with h1 | ⟨h1, h3⟩
  · exact hs.apart a hla b hlb ha' hab h1
  · exfalso
    simp only at h1 h3 h2
    have hr : rank a.1 = 2 := by
      have : ends a.1 = false := by
        unfold starts at ha'
        split at ha'
        · rename_i e; rw [e]; simpa [ends] using ha'
        · cases ha'
      simp [rank, this, ha']
    have hrb : ends b.1 = false := by
      by_contra hc
      have : ends b.1 = true := by simpa using hc
      have : rank b.1 = 0 := by simp [rank, this]
      omega
    have hsb : starts b.1 = true := by
      have hsm : (noteOf b.1).isSome := by
        rw [hab]
        unfold starts at ha'
        split at ha'
        · rename_i e; rw [e]; rfl
        · cases ha'
      unfold noteOf at hsm
      split at hsm
      · rename_i e
        rw [e] at hrb ⊢
        simpa [ends, starts] using hrb
      · rename_i e
        rw [e] at hrb
        simp [ends] at hrb
      · cases hsm
    exact h2 ha' hsb (by rw [hab, h1])

/-- Times of channel events are covered by the length of the song. -/
theorem scan_max (i : Fin 16) (msgs : List TMsg) : ∀ (st st' : ScanState), msgs.foldlM (scanMessage i) st = .ok st' →
    st.maxTime ≤ st'.maxTime ∧ ∀ m ∈ msgs, ∀ d e, m.1 = .midiEvent d e → m.2 ≤ st'.maxTime := by
  induction msgs with
  | nil =>
    intro st st' h
    simp only [List.foldlM_nil, pure, Except.pure, Except.ok.injEq] at h
    subst h
    simp
  | cons m msgs ih =>
    intro st st' h
    rw [List.foldlM_cons, res_bind] at h
    obtain ⟨st1, h1, h2⟩ := h
    obtain ⟨i1, i2⟩ := ih st1 st' h2
    obtain ⟨m, t⟩ := m
    have key : st.maxTime ≤ st1.maxTime ∧ ∀ d e, m = .midiEvent d e → t ≤ st1.maxTime := by
      cases m with
      | midiEvent d e =>
        have h4 : st1.maxTime = max st.maxTime t := by
          cases e with
          | noteOff =>
            simp only [scanMessage, res_bind, res_pure] at h1
            obtain ⟨a, -, _, rfl, rfl⟩ := h1
            rfl
          | noteOn ch n v =>
            simp only [scanMessage] at h1
            split_ifs at h1
            · simp only [res_bind, res_pure] at h1
              obtain ⟨a, -, _, rfl, rfl⟩ := h1
              rfl
            · simp only [res_bind, res_pure] at h1
              obtain ⟨a, -, _, rfl, rfl⟩ := h1
              rfl
          | _ =>
            simp only [scanMessage, res_bind, res_pure] at h1
            obtain ⟨_, rfl, rfl⟩ := h1
            rfl
        rw [h4]
        exact ⟨le_max_left _ _, fun _ _ _ => le_max_right _ _⟩
      | _ =>
        simp only [scanMessage, Except.ok.injEq] at h1
        subst h1
        exact ⟨le_rfl, fun _ _ h => by cases h⟩
    refine ⟨key.1.trans i1, ?_⟩
    intro x hx d e hxe
    rcases List.mem_cons.1 hx with rfl | hx
    · exact (key.2 d e hxe).trans i1
    · exact i2 x hx d e hxe

theorem scans_max (cs : ChanMsgs) (l : List (Fin 16)) : ∀ (a b : (Fin 16 → List VoiceInterval) × Nat),
    l.foldlM (fun (acc : (Fin 16 → List VoiceInterval) × Nat) i => do
      let st ← scanChannel i (cs i) acc.2
      return (Function.update acc.1 i st.intervals, st.maxTime)) a = .ok b →
    a.2 ≤ b.2 ∧ ∀ i ∈ l, ∀ m ∈ cs i, ∀ d e, m.1 = .midiEvent d e → m.2 ≤ b.2 := by
  induction l with
  | nil =>
    intro a b h
    simp only [List.foldlM_nil, pure, Except.pure, Except.ok.injEq] at h
    subst h
    simp
  | cons i l ih =>
    intro a b h
    rw [List.foldlM_cons, res_bind] at h
    obtain ⟨a1, h1, h2⟩ := h
    simp only [res_bind, res_pure] at h1
    obtain ⟨st, h3, rfl⟩ := h1
    obtain ⟨i1, i2⟩ := ih _ b h2
    obtain ⟨j1, j2⟩ := scan_max i (cs i) _ st h3
    refine ⟨le_trans j1 i1, ?_⟩
    intro x hx m hm d e hme
    rcases List.mem_cons.1 hx with rfl | hx
    · exact (j2 m hm d e hme).trans i1
    · exact i2 x hx m hm d e hme

/-- Emitted channel events come from channel events. -/
theorem emits_times_midi (ord : EnumOrder) (base : Fin 16 → Fin 8) (seq : List TMsg) (os : List (Fin 8 × TMsg)) (k : Ctl)
    (he : emits ord base (ctl0 base) seq = some (os, k)) : ∀ p ∈ os, ∀ d e, p.2.1 = .midiEvent d e → ∃ m ∈ seq, (∃ d e, m.1 = .midiEvent d e) ∧ m.2 = p.2.2 := by
  refine emits_nil_induct ord base (fun done outs _ => ∀ p ∈ outs, ∀ d e, p.2.1 = .midiEvent d e → ∃ m ∈ done, (∃ d e, m.1 = .midiEvent d e) ∧ m.2 = p.2.2)
    ?_ seq _ k os (by simp) he
  intro done outs k m t o k' ih h1 p hp d e hpe
  rcases List.mem_append.1 hp with hp | hp
  · obtain ⟨x, g1, g2⟩ := ih p hp d e hpe
    exact ⟨x, by simp [g1], g2⟩
  · obtain ⟨q, hq, rfl⟩ := List.mem_map.1 hp
    refine ⟨(m, t), by simp, ?_, rfl⟩
    simp only at hpe
    cases m with
    | midiEvent d e => exact ⟨d, e, rfl⟩
    | metaEvent d e' data =>
      cases e' with
      | setTempo =>
        simp only [emit, Option.some.injEq, Prod.mk.injEq] at h1
        rw [← h1.1] at hq
        simp only [List.mem_singleton] at hq
        subst hq
        cases hpe
      | _ =>
        simp only [emit, Option.some.injEq, Prod.mk.injEq] at h1
        rw [← h1.1] at hq
        simp at hq
    | sysEx d data =>
      simp only [emit, Option.some.injEq, Prod.mk.injEq] at h1
      rw [← h1.1] at hq
      simp only [List.mem_singleton] at hq
      subst hq
      cases hpe
    | trackChange =>
      simp only [emit, Option.some.injEq, Prod.mk.injEq] at h1
      rw [← h1.1] at hq
      simp at hq

end M2S
