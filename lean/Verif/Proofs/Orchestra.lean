import Verif.Proofs.Reading
import Verif.Spec.Orchestra
import Verif.Spec.Strike
/-
Where volumes come on voices, and where channels that play no chords play: all from conditions on the file.
-/
namespace M2S
open MidiSpec Timing

/-! ## Volumes between notes -/

theorem settings_append (a b : List TMsg) : ∀ s s', a.foldlM tidyStep s = some s' →
    settingsBetweenNotes s.isSome (a ++ b) = (settingsBetweenNotes s.isSome a && settingsBetweenNotes s'.isSome b) := by
  induction a with
  | nil =>
    intro s s' h
    simp only [List.foldlM_nil, pure, Option.some.injEq] at h
    subst h
    simp [settingsBetweenNotes]
  | cons m a ih =>
    intro s s' h
    rw [List.foldlM_cons] at h
    obtain ⟨m, t⟩ := m
    cases h1 : tidyStep s (m, t) with
    | none => rw [h1] at h; cases h
    | some s1 =>
      rw [h1] at h
      have i := ih s1 s' h
      have same : s1 = s → settingsBetweenNotes s.isSome (a ++ b) = (settingsBetweenNotes s.isSome a && settingsBetweenNotes s'.isSome b) := by
        rintro rfl; exact i
      cases m with
      | metaEvent d e data => simpa [settingsBetweenNotes] using same (by simpa [tidyStep] using h1.symm)
      | sysEx d data => simpa [settingsBetweenNotes] using same (by simpa [tidyStep] using h1.symm)
      | trackChange => simpa [settingsBetweenNotes] using same (by simpa [tidyStep] using h1.symm)
      | midiEvent d e =>
        cases e with
        | noteOn ch n v =>
          simp only [tidyStep] at h1
          split_ifs at h1
          cases s with
          | some x => cases h1
          | none =>
            simp only [Option.some.injEq] at h1
            subst h1
            simpa [settingsBetweenNotes] using i
        | noteOff ch n v =>
          simp only [tidyStep] at h1
          split_ifs at h1
          simp only [Option.some.injEq] at h1
          subst h1
          simpa [settingsBetweenNotes] using i
        | programChange ch p =>
          simp only [tidyStep] at h1
          split_ifs at h1 with hs
          simp only [Option.some.injEq] at h1
          subst h1 hs
          simpa [settingsBetweenNotes] using i
        | controlChange ch c x =>
          have e := same (by simpa [tidyStep] using h1.symm)
          simp only [List.cons_append, settingsBetweenNotes, e, Bool.and_assoc]
        | unknown ch => simpa [settingsBetweenNotes] using same (by simpa [tidyStep] using h1.symm)
        | polyphonicKeyPressure ch n v => simpa [settingsBetweenNotes] using same (by simpa [tidyStep] using h1.symm)
        | channelPressure ch v => simpa [settingsBetweenNotes] using same (by simpa [tidyStep] using h1.symm)
        | pitchBendChange ch v => simpa [settingsBetweenNotes] using same (by simpa [tidyStep] using h1.symm)

/-- While no note sounds, messages that are not note messages may be anything. -/
theorem settings_free (l : List TMsg) (h : ∀ m ∈ l, noteOf m.1 = none) : settingsBetweenNotes false l = true := by
  induction l with
  | nil => rfl
  | cons m l ih =>
    obtain ⟨m, t⟩ := m
    have h0 := h (m, t) (by simp)
    have i := ih fun x hx => h x (by simp [hx])
    unfold settingsBetweenNotes
    split <;> simp_all [noteOf]

/-- Neither note nor setting. -/
def Still (m : Message) : Prop := noteOf m = none ∧ isSetting m = false

theorem settings_still (l : List TMsg) (h : ∀ m ∈ l, Still m.1) (b : Bool) : settingsBetweenNotes b l = true := by
  induction l with
  | nil => rfl
  | cons m l ih =>
    obtain ⟨m, t⟩ := m
    obtain ⟨h0, h1⟩ := h (m, t) (by simp)
    have i := ih fun x hx => h x (by simp [hx])
    unfold settingsBetweenNotes
    split
    · simp [noteOf] at h0
    · simp [noteOf] at h0
    · simp [isSetting, programOf] at h1
    · rename_i ch c x
      have : c ≠ 7 := by rintro rfl; simp [isSetting, volumeOf] at h1
      simp [this, i]
    · exact i

/-- On every voice settings come between notes. -/
def Settled (outs : List (Fin 8 × TMsg)) : Prop := ∀ v, settingsBetweenNotes false (onVoice outs v) = true

theorem settled_add (outs o : List (Fin 8 × TMsg)) (k : Ctl) (ht : Tied outs k) (h : Settled outs)
    (ho : ∀ v s, (onVoice outs v).foldlM tidyStep none = some s → (voiceBusy k.active v = false → s = none) → settingsBetweenNotes s.isSome (onVoice o v) = true) : Settled (outs ++ o) := by
  intro v
  obtain ⟨s, h1, -, h3⟩ := ht.hold v
  have := settings_append _ (onVoice o v) none s h1
  rw [onVoice_append]
  simp only [Option.isSome_none] at this
  rw [this, h v, ho v s h1 h3]
  rfl

theorem settled_still (outs o : List (Fin 8 × TMsg)) (k : Ctl) (ht : Tied outs k) (h : Settled outs) (ho : ∀ p ∈ o, Still p.2.1) : Settled (outs ++ o) := by
  refine settled_add outs o k ht h ?_
  intro v s _ _
  apply settings_still
  intro m hm
  obtain ⟨q, hq, rfl⟩ := List.mem_map.1 hm
  exact ho q (List.mem_of_mem_filter hq)

theorem settled_free (outs o : List (Fin 8 × TMsg)) (k : Ctl) (ht : Tied outs k) (h : Settled outs) (ho : ∀ p ∈ o, noteOf p.2.1 = none ∧ voiceBusy k.active p.1 = false) :
    Settled (outs ++ o) := by
  refine settled_add outs o k ht h ?_
  intro v s _ h3
  cases hb : voiceBusy k.active v with
  | false =>
    rw [h3 hb]
    apply settings_free
    intro m hm
    obtain ⟨q, hq, rfl⟩ := List.mem_map.1 hm
    exact (ho q (List.mem_of_mem_filter hq)).1
  | true =>
    have : onVoice o v = [] := by
      unfold onVoice
      rw [List.map_eq_nil_iff, List.filter_eq_nil_iff]
      intro q hq hqv
      have hqv : q.1 = v := by simpa using hqv
      have := (ho q hq).2
      rw [hqv, hb] at this
      cases this
    rw [this]
    rfl

theorem settled_off (outs : List (Fin 8 × TMsg)) (k : Ctl) (ht : Tied outs k) (h : Settled outs) (v0 : Fin 8) (d : Nat) (ch : Fin 16) (n vel : UInt8) (t : Nat) :
    Settled (outs ++ [(v0, (.midiEvent d (.noteOff ch n vel), t))]) := by
  refine settled_add outs _ k ht h ?_
  intro v s _ _
  by_cases hv : v0 = v <;> simp [onVoice, hv, settingsBetweenNotes]

theorem settled_on (outs : List (Fin 8 × TMsg)) (k : Ctl) (ht : Tied outs k) (h : Settled outs) (v0 : Fin 8) (d : Nat) (ch : Fin 16) (n vel : UInt8) (t : Nat) :
    Settled (outs ++ [(v0, (.midiEvent d (.noteOn ch n vel), t))]) := by
  refine settled_add outs _ k ht h ?_
  intro v s _ _
  by_cases hv : v0 = v <;> simp [onVoice, hv, settingsBetweenNotes]

theorem settled_step (ord : EnumOrder) (ho : ∀ l, (ord l).Perm l) (base : Fin 16 → Fin 8) (outs : List (Fin 8 × TMsg)) (k : Ctl) (m : Message) (t : Nat)
    (o : List (Fin 8 × Message)) (k' : Ctl) (hh : Held outs k) (hl : Lasts k) (ht : Tied outs k) (h : Settled outs) (he : emit ord base k m = some (o, k'))
    (hset : isSetting m = true → ∀ ch ∈ home m, Vacant base k ch)
    (hsnare : ∀ d ch n v, m = .midiEvent d (.noteOn ch n v) → drumNote ch n ≠ n → (k.active ch).lookup n = none) :
    Settled (outs ++ o.map fun p => (p.1, (p.2, t))) := by
  have still : (∀ p ∈ o, Still p.2) → Settled (outs ++ o.map fun p => (p.1, (p.2, t))) := by
    intro h1
    refine settled_still outs _ k ht h ?_
    intro x hx
    obtain ⟨q, hq, rfl⟩ := List.mem_map.1 hx
    exact h1 q hq
  have chanM : ∀ (ch : Fin 16) (m : Message), ∀ p ∈ outChannel ord base k ch m, p.2 = m := by
    intro ch m p hp
    unfold outChannel at hp
    rcases List.mem_append.1 hp with hp | hp
    · obtain ⟨q, -, rfl⟩ := List.mem_map.1 hp
      rfl
    · split_ifs at hp
      · simp at hp
      · simp only [List.mem_singleton] at hp; subst hp; rfl
  have free : ∀ ch ∈ home m, o = outChannel ord base k ch m → noteOf m = none → Settled (outs ++ o.map fun p => (p.1, (p.2, t))) := by
    intro ch hch ho' h2
    have h1 : ∀ p ∈ o, p.2 = m := by rw [ho']; exact chanM ch m
    by_cases hs : isSetting m = true
    · refine settled_free outs _ k ht h ?_
      intro x hx
      obtain ⟨q, hq, rfl⟩ := List.mem_map.1 hx
      refine ⟨by show noteOf q.2 = none; rw [h1 q hq]; exact h2, ?_⟩
      exact (vacant_out ord ho base k ch m (hset hs ch hch) q (by rw [← ho']; exact hq)).2
    · refine still ?_
      intro p hp
      rw [h1 p hp]
      exact ⟨h2, by simpa using hs⟩
  have closeStep : ∀ d ch note vel v, m = .midiEvent d (.noteOn ch note v) →
      Tied (outs ++ (outClose k d ch note vel).map fun p => (p.1, (p.2, t))) (ctlClose k ch note) ∧ Settled (outs ++ (outClose k d ch note vel).map fun p => (p.1, (p.2, t))) := by
    intro d ch note vel v hm
    cases hl : (k.active ch).lookup note with
    | none =>
      have e1 : outClose k d ch note vel = [] := by unfold outClose; rw [hl]
      have e2 : ctlClose k ch note = k := by unfold ctlClose; rw [hl]
      rw [e1, e2]
      exact ⟨by simpa using ht, by simpa using h⟩
    | some v0 =>
      have e1 : outClose k d ch note vel = [(v0, .midiEvent d (.noteOff ch note vel))] := by unfold outClose; rw [hl]
      rw [e1]
      refine ⟨tied_close outs k hh ht ch note vel note d t v0 hl ?_, settled_off outs k ht h v0 d ch note vel t⟩
      by_contra hne
      rw [hsnare d ch note v hm (fun e => hne e.symm)] at hl
      cases hl
  cases m with
  | metaEvent d e data =>
    cases e with
    | setTempo =>
      simp only [emit, Option.some.injEq, Prod.mk.injEq] at he
      exact still (by rw [← he.1]; intro p hp; simp only [List.mem_singleton] at hp; subst hp; exact ⟨rfl, rfl⟩)
    | _ =>
      simp only [emit, Option.some.injEq, Prod.mk.injEq] at he
      exact still (by rw [← he.1]; simp)
  | sysEx d data =>
    simp only [emit, Option.some.injEq, Prod.mk.injEq] at he
    exact still (by rw [← he.1]; intro p hp; simp only [List.mem_singleton] at hp; subst hp; exact ⟨rfl, rfl⟩)
  | trackChange =>
    simp only [emit, Option.some.injEq, Prod.mk.injEq] at he
    exact still (by rw [← he.1]; simp)
  | midiEvent d e =>
    cases e with
    | unknown ch =>
      simp only [emit, Option.some.injEq, Prod.mk.injEq] at he
      exact still (by rw [← he.1]; simp)
    | polyphonicKeyPressure ch n v =>
      simp only [emit] at he
      split at he
      · simp only [Option.some.injEq, Prod.mk.injEq] at he
        exact still (by rw [← he.1]; intro p hp; simp only [List.mem_singleton] at hp; subst hp; exact ⟨rfl, rfl⟩)
      · simp only [Option.some.injEq, Prod.mk.injEq] at he
        exact still (by rw [← he.1]; simp)
    | channelPressure ch v =>
      simp only [emit, Option.some.injEq, Prod.mk.injEq] at he
      exact free ch rfl he.1.symm rfl
    | controlChange ch c v =>
      simp only [emit, Option.some.injEq, Prod.mk.injEq] at he
      exact free ch rfl he.1.symm rfl
    | programChange ch v =>
      simp only [emit, Option.some.injEq, Prod.mk.injEq] at he
      exact free ch rfl he.1.symm rfl
    | pitchBendChange ch v =>
      simp only [emit, Option.some.injEq, Prod.mk.injEq] at he
      exact free ch rfl he.1.symm rfl
    | noteOff ch n v =>
      simp only [emit] at he
      cases hl : (k.active ch).lookup n with
      | none =>
        rw [hl] at he
        simp only [Option.some.injEq, Prod.mk.injEq] at he
        exact still (by rw [← he.1]; simp)
      | some w =>
        rw [hl] at he
        simp only [Option.some.injEq, Prod.mk.injEq] at he
        obtain ⟨rfl, rfl⟩ := he
        exact settled_off outs k ht h w d ch _ v t
    | noteOn ch n vel =>
      simp only [emit] at he
      by_cases hv : vel > 0
      · rw [if_pos hv] at he
        cases hch : chooseVoice base (ctlClose k ch n).active ch with
        | none => rw [hch] at he; cases he
        | some v =>
          rw [hch] at he
          simp only [Option.some.injEq, Prod.mk.injEq] at he
          obtain ⟨rfl, rfl⟩ := he
          obtain ⟨h1, h2⟩ := closeStep d ch n vel vel rfl
          have hfree := chooseVoice_free base _ ch v hch
          have hpre : ∀ p ∈ (outSwitch k ch v ++ outPerc k d ch n v).map fun p => (p.1, ((p.2, t) : TMsg)), noteOf p.2.1 = none ∧ voiceBusy (ctlClose k ch n).active p.1 = false := by
            intro p hp
            obtain ⟨q, hq, rfl⟩ := List.mem_map.1 hp
            obtain ⟨e1, e2⟩ := pre_voice k hl d ch n v q hq
            exact ⟨e2, by simp only [e1]; exact hfree⟩
          have h3 := settled_free _ _ _ h1 h2 hpre
          have h4 := tied_quiet _ _ _ (ctlClose k ch n) h1 (fun p hp => .inr (hpre p hp)) rfl
          have h5 := settled_on _ _ h4 h3 v d ch (drumNote ch n) vel t
          simpa using h5
      · rw [if_neg hv] at he
        simp only [Option.some.injEq, Prod.mk.injEq] at he
        obtain ⟨rfl, rfl⟩ := he
        exact (closeStep d ch n vel vel rfl).2

/-- In the order of dealing, volumes are set when the base voice is free and no note of the channel sounds. -/
def VolumeCalm (base : Fin 16 → Fin 8) (l : List TMsg) : Prop :=
  ∀ done m rest, l = done ++ m :: rest → (volumeOf m.1).isSome = true → Ended done fun a => ¬ Other base m.1 a.1

theorem settled_emits (ord : EnumOrder) (ho : ∀ l, (ord l).Perm l) (base : Fin 16 → Fin 8) (seq : List TMsg) (os : List (Fin 8 × TMsg)) (k : Ctl) (hc : Calm base seq)
    (hvc : VolumeCalm base seq)
    (he : emits ord base (ctl0 base) seq = some (os, k)) : Settled os := by
  have := (emits_nil_induct ord base (fun done outs k => Held outs k ∧ Lasts k ∧ Places base k ∧ Since done k ∧ (Calm base done → VolumeCalm base done → Tied outs k ∧ Settled outs)) ?_ seq _ k os
    ⟨held_init base, lasts_init base, places_init base, ⟨by simp [ctl0]⟩, fun _ _ => ⟨⟨fun _ => ⟨none, rfl, by simp [ctl0], fun _ => rfl⟩⟩, fun _ => rfl⟩⟩ he).2.2.2.2
  · exact (this hc hvc).2
  · rintro done outs k m t o k' ⟨i1, i2, ip, i3, i4⟩ h1
    refine ⟨held_step ord base outs k m t o k' i1 h1, lasts_step ord base k m o k' i2 h1, places_step ord base k m o k' ip h1, since_step ord base done k m t o k' i3 h1, ?_⟩
    intro hcalm hvol
    obtain ⟨c1, c2, c3⟩ := calm_append hcalm
    have v1 : VolumeCalm base done := by
      intro d x rest hd
      exact hvol d x (rest ++ [(m, t)]) (by rw [hd]; simp)
    have v2 := hvol done (m, t) [] rfl
    obtain ⟨j1, j2⟩ := i4 c1 v1
    have snare : ∀ d ch n v, m = .midiEvent d (.noteOn ch n v) → drumNote ch n ≠ n → (k.active ch).lookup n = none := by
      intro d ch n v hm hs
      rw [snare_iff] at hs
      have hsm : isSnareMsg m = true := by
        rw [hm]
        obtain ⟨rfl, rfl | rfl⟩ := hs <;> rfl
      obtain ⟨c3, c4⟩ := c3 hsm
      have hst : starts m = true := by
        rw [hm] at c4 ⊢
        simpa [isZeroOn, starts] using c4
      cases hl : (k.active ch).lookup n with
      | none => rfl
      | some w =>
        obtain ⟨pre, a, post, e1, e2, e3, e4⟩ := i3.since ch n w (lookup_some hl)
        obtain ⟨e, g1, g2, g3⟩ := c3 hst pre a post e1 e2 (by show noteOf a.1 = noteOf m; rw [e3, hm]; rfl)
        exact absurd (by rw [g3, e3]) (e4 e g1 g2)
    refine ⟨tied_step ord ho base outs k m t o k' i1 i2 j1 h1
      (fun x hp => vacant_of base done k i3 ip m x.1 (home_program m x.1 x.2 hp) (c2 (by simp only [hp]; rfl))) snare, settled_step ord ho base outs k m t o k' i1 i2 j1 j2 h1 ?_ snare⟩
    intro hs ch hch
    unfold isSetting at hs
    rw [Bool.or_eq_true] at hs
    rcases hs with hs | hs
    · exact vacant_of base done k i3 ip m ch hch (c2 hs)
    · exact vacant_of base done k i3 ip m ch hch (v2 hs)

theorem volumeCalm_of (base : Fin 16 → Fin 8) (l : List TMsg)
    (hvol : ∀ p ∈ l, (volumeOf p.1).isSome = true → ∀ a ∈ l, starts a.1 = true → ¬ Other base p.1 a.1 → a.2 < p.2 → EndedBy l a p.2) (s : List TMsg)
    (hperm : s.Perm (l.filter fun m => (home m.1).isSome)) (hbef : s.Pairwise Before) : VolumeCalm base s := by
  have hmem : ∀ x ∈ s, x ∈ l := fun x hx => List.mem_of_mem_filter (hperm.mem_iff.1 hx)
  have hmem' : ∀ x ∈ l, (home x.1).isSome = true → x ∈ s := fun x hx hh => hperm.mem_iff.2 (List.mem_filter.2 ⟨hx, hh⟩)
  intro done m rest hsplit hv pre a post hd ha hway
  subst hd
  have har := starts_rank ha
  have hmr : rank m.1 = 1 := by
    obtain ⟨m, t⟩ := m
    unfold volumeOf at hv
    split at hv
    · rename_i e; simp only at e; subst e; rfl
    · cases hv
  have hlt : a.2 < m.2 := by
    have := hbef
    rw [hsplit, List.pairwise_append] at this
    rcases this.2.2 a (by simp) m (by simp) with h | h
    · exact h
    · omega
  obtain ⟨e, g1, g2, g3, g4, g5⟩ := hvol m (hmem m (by rw [hsplit]; simp)) hv a (hmem a (by rw [hsplit]; simp)) ha hway hlt
  refine ⟨e, ?_, g2, g3⟩
  have hes := hmem' e g1 (ends_noteOf g2).1
  have hre : rank e.1 = 0 := by simp [rank, g2]
  rw [hsplit] at hes hbef
  rw [List.pairwise_append] at hbef
  obtain ⟨b1, b2, b3⟩ := hbef
  rw [List.pairwise_append] at b1
  obtain ⟨-, -, b4⟩ := b1
  simp only [List.mem_append, List.mem_cons] at hes
  rcases hes with (hes | rfl | hes) | rfl | hes
  · exfalso
    rcases b4 e hes a (by simp) with h | h <;> omega
  · exact absurd g4 (lt_irrefl _)
  · exact hes
  · exfalso; omega
  · exfalso
    rcases (List.pairwise_cons.1 b2).1 e hes with h | h <;> omega

/-! ## Notes on other voices -/

/-- A note that starts away from the base voice of its channel belongs to a channel that plays chords. -/
theorem away_chords (ord : EnumOrder) (base : Fin 16 → Fin 8) (l seq : List TMsg) (hperm : seq.Perm (l.filter fun m => (home m.1).isSome)) (hbef : seq.Pairwise Before)
    (hshare : ∀ c c' n n' t, base c = base c' → (c, n) ∈ heldAt l t → (c', n') ∈ heldAt l t → c = c')
    (outs : List (Fin 8 × TMsg)) (k : Ctl) (he : emits ord base (ctl0 base) seq = some (outs, k)) (v : Fin 8) (x : TMsg) (hx : x ∈ onVoice outs v) (c : Fin 16)
    (hst : startsOn c x.1 = true) (hv : v ≠ base c) : Chords l c := by
  obtain ⟨a, b, hab⟩ := List.append_of_mem hx
  obtain ⟨x, t⟩ := x
  have hst' : starts x = true := by
    unfold startsOn at hst
    simp only [Bool.decide_and, Bool.and_eq_true, decide_eq_true_eq] at hst
    exact hst.1
  obtain ⟨done, rest, outs1, k1, o1, k2, d, c', n, vel, e1, e2, e3, e4, e5, e6, e7, -⟩ := start_context ord _ seq outs k he _ a b x t hab hst'
  have hcc : c' = c := by
    rw [e3] at hst
    simp only [startsOn, home, Option.some.injEq, Bool.decide_and, Bool.and_eq_true, decide_eq_true_eq] at hst
    exact hst.2
  subst hcc
  have hdealt : ∀ rest' : List TMsg, ∀ done' k', seq = done' ++ rest' ++ ((.midiEvent d (.noteOn c' n vel), t) :: rest) → Dealt l base done' k' → ∀ os k1,
      emits ord base k' rest' = some (os, k1) → Dealt l base (done' ++ rest') k1 := by
    intro rest'
    induction rest' with
    | nil =>
      intro done' k' _ hd os k1 hk
      simp only [emits, Option.some.injEq, Prod.mk.injEq] at hk
      rw [List.append_nil, ← hk.2]
      exact hd
    | cons m rest' ih =>
      intro done' k' hsplit hd os k1 hk
      obtain ⟨m, tm⟩ := m
      simp only [emits] at hk
      cases h1 : emit ord base k' m with
      | none => rw [h1] at hk; cases hk
      | some r =>
        obtain ⟨o, k3⟩ := r
        rw [h1] at hk
        simp only at hk
        cases h2 : emits ord base k3 rest' with
        | none => rw [h2] at hk; cases hk
        | some r =>
          obtain ⟨os2, k4⟩ := r
          rw [h2] at hk
          simp only [Option.some.injEq, Prod.mk.injEq] at hk
          have := ih (done' ++ [(m, tm)]) k3 (by rw [hsplit]; simp)
            (dealt_step ord base l seq hperm hbef hshare done' m tm (rest' ++ (.midiEvent d (.noteOn c' n vel), t) :: rest) k' (by rw [hsplit]; simp) hd o k3 h1) os2 k4 h2
          rw [hk.2] at this
          simpa using this
  have hd := hdealt done [] (ctl0 base) (by simpa using e1) (dealt_init l base) outs1 k1 e4
  rw [List.nil_append] at hd
  have hs2 : starts (.midiEvent d (.noteOn c' n vel)) = true := by
    have : vel ≠ 0 := by rintro rfl; exact absurd e2 (by decide)
    simp [starts, this]
  by_cases hb : voiceBusy (ctlClose k1 c' n).active (base c') = true
  · obtain ⟨n', -, -, h4⟩ := busy_base base l seq hperm hbef hshare done _ rest k1 e1 hd hs2 c' n rfl hb
    exact h4
  · unfold chooseVoice at e6
    rw [if_neg hb] at e6
    simp only [Option.some.injEq] at e6
    exact absurd e6.symm hv

end M2S
