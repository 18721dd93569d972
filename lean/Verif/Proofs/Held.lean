import Verif.Proofs.Deal
/-
The dealing loop as a whole, and its main invariant: which notes the voices hold.
-/
namespace M2S
open MidiSpec

/-- Emission over a list of events. -/
def emits (ord : EnumOrder) (base : Fin 16 → Fin 8) : Ctl → List TMsg → Option (List (Fin 8 × TMsg) × Ctl)
  | k, [] => some ([], k)
  | k, (m, t) :: ms =>
    match emit ord base k m with
    | none => none
    | some (o, k1) =>
      match emits ord base k1 ms with
      | none => none
      | some (os, k2) => some (o.map (fun p => (p.1, (p.2, t))) ++ os, k2)

theorem onVoice_stamp (o : List (Fin 8 × Message)) (t : Nat) (v : Fin 8) :
    onVoice (o.map fun p => (p.1, (p.2, t))) v = (onVoice o v).map fun m => (m, t) := by
  unfold onVoice
  rw [List.filter_map, List.map_map, List.map_map]
  rfl

theorem deal_emits (ord : EnumOrder) (base : Fin 16 → Fin 8) (seq : List TMsg) : ∀ st : DealState, seq.foldlM (dealEvent ord base) st =
    match emits ord base st.ctl seq with
    | none => failed .couldntFit
    | some (os, k) => .ok { voices := fun v => st.voices v ++ onVoice os v, lastCtrl := k.lastCtrl, lastProg := k.lastProg, lastBend := k.lastBend,
                            lastChan := k.lastChan, active := k.active, lastPerc := k.lastPerc } := by
  induction seq with
  | nil => intro st; simp [emits, onVoice, DealState.ctl, pure, Except.pure]
  | cons m ms ih =>
    intro st
    obtain ⟨m, t⟩ := m
    rw [List.foldlM_cons, dealEvent_emit, emits]
    cases he : emit ord base st.ctl m with
    | none => rfl
    | some r =>
      obtain ⟨o, k1⟩ := r
      simp only [bind, Except.bind]
      rw [ih, after_ctl]
      cases he2 : emits ord base k1 ms with
      | none => rfl
      | some r2 =>
        obtain ⟨os, k2⟩ := r2
        simp only [DealState.after, onVoice_append, onVoice_stamp, List.append_assoc]

/-- The starting state. -/
def ctl0 (base : Fin 16 → Fin 8) : Ctl := { lastChan := fun v => (List.finRange 16).find? fun c => base c = v }

/-- A successful read in terms of emission. -/
theorem read_emits (ord : EnumOrder) (calls : List Callback) (h : MidiHandler) (hr : readMidi ord calls = .ok h) :
    ∃ (seq : List (Fin 16 × TMsg)) (outs : List (Fin 8 × TMsg)) (k : Ctl),
      (∀ c, (seq.filter fun p => p.1 = c).map (·.2) = (h.channels c).messages) ∧ seq.Pairwise MergeOrder ∧
      emits ord (fun c => (h.channels c).baseVoice) (ctl0 fun c => (h.channels c).baseVoice) (seq.map (·.2)) = some (outs, k) ∧
      (∀ v, h.voices v = onVoice outs v) := by
  obtain ⟨hfit, -, ivs, bs, h1, -, -, -, -, h6⟩ := readMidi_ok ord calls h hr
  obtain ⟨seq, s1, s2, s3⟩ := merge_seq _ (fun c => sortMessages (toChan (file calls) c)) rfl (fun c => sort_pairwise _)
    (by
      intro c m hm
      have := (sort_perm _).mem_iff.1 hm
      exact hfit m (List.mem_of_mem_filter this))
  unfold channelsToVoices at h6
  simp only [res_bind, res_pure] at h6
  obtain ⟨st, h7, h8⟩ := h6
  have h7' := h7
  rw [show ((List.finRange 16).countP fun c => (sortMessages (toChan (file calls) c)).isEmpty) = emptyCount (fun c => sortMessages (toChan (file calls) c)) from rfl,
    s3, deal_emits] at h7'
  rw [show DealState.ctl { voices := fun _ => [], lastChan := fun v => (List.finRange 16).find? fun c => (h.channels c).baseVoice = v }
    = ctl0 (fun c => (h.channels c).baseVoice) from rfl] at h7'
  cases he : emits ord (fun c => (h.channels c).baseVoice) (ctl0 fun c => (h.channels c).baseVoice) (seq.map (·.2)) with
  | none => rw [he] at h7'; simp [failed] at h7'
  | some r =>
    obtain ⟨outs, k⟩ := r
    rw [he] at h7'
    simp only [Except.ok.injEq, List.nil_append] at h7'
    refine ⟨seq, outs, k, fun c => by rw [s1 c, h1 c], s2, he, ?_⟩
    intro v
    rw [← h8, ← h7']

/-- Induction over emission. -/
theorem emits_induct (ord : EnumOrder) (base : Fin 16 → Fin 8) (P : List TMsg → List (Fin 8 × TMsg) → Ctl → Prop)
    (step : ∀ done outs k m t o k', P done outs k → emit ord base k m = some (o, k') →
      P (done ++ [(m, t)]) (outs ++ o.map fun p => (p.1, (p.2, t))) k') :
    ∀ seq done outs k os k', P done outs k → emits ord base k seq = some (os, k') → P (done ++ seq) (outs ++ os) k' := by
  intro seq
  induction seq with
  | nil =>
    intro done outs k os k' h he
    simp only [emits, Option.some.injEq, Prod.mk.injEq] at he
    obtain ⟨rfl, rfl⟩ := he
    simpa using h
  | cons m ms ih =>
    intro done outs k os k' h he
    obtain ⟨m, t⟩ := m
    rw [emits] at he
    cases h1 : emit ord base k m with
    | none => rw [h1] at he; cases he
    | some r =>
      obtain ⟨o, k1⟩ := r
      rw [h1] at he
      simp only at he
      cases h2 : emits ord base k1 ms with
      | none => rw [h2] at he; cases he
      | some r2 =>
        obtain ⟨os2, k2⟩ := r2
        rw [h2] at he
        simp only [Option.some.injEq, Prod.mk.injEq] at he
        obtain ⟨rfl, rfl⟩ := he
        have := ih _ _ _ _ _ (step done outs k m t o k1 h h1) h2
        simpa using this

theorem emits_nil_induct (ord : EnumOrder) (base : Fin 16 → Fin 8) (P : List TMsg → List (Fin 8 × TMsg) → Ctl → Prop)
    (step : ∀ done outs k m t o k', P done outs k → emit ord base k m = some (o, k') →
      P (done ++ [(m, t)]) (outs ++ o.map fun p => (p.1, (p.2, t))) k') (seq : List TMsg) (k k' : Ctl) (os : List (Fin 8 × TMsg))
    (h : P [] [] k) (he : emits ord base k seq = some (os, k')) : P seq os k' := by
  simpa using emits_induct ord base P step seq [] [] k os k' h he

/-- Neither the start nor the end of a note. -/
def Plain (m : Message) : Prop := starts m = false ∧ ends m = false

/-- Which end messages the converter uses for a held note: the same note, except that a snare may be ended by its original number. -/
def endOk (held stop : Fin 16 × UInt8) : Bool := held.1 = stop.1 ∧ (held.2 = stop.2 ∨ (held.1 = 9 ∧ held.2 = percNote stop.2))

/-- The main invariant. -/
structure Held (outs : List (Fin 8 × TMsg)) (k : Ctl) : Prop where
  hold : ∀ v, ∃ s, (onVoice outs v).foldlM (holdStep endOk) none = some s ∧ (∀ c n, (n, v) ∈ k.active c → s = some (c, drumNote c n)) ∧
    (voiceBusy k.active v = false → s = none)
  uniq : ∀ c c' p p', p ∈ k.active c → p' ∈ k.active c' → p.2 = p'.2 → c = c' ∧ p = p'
  keys : ∀ c p p', p ∈ k.active c → p' ∈ k.active c → p.1 = p'.1 → p = p'
  ctrl : ∀ c m, k.lastCtrl c = some m → Plain m
  prog : ∀ c m, k.lastProg c = some m → Plain m
  bend : ∀ c m, k.lastBend c = some m → Plain m

theorem voiceBusy_iff (a : Fin 16 → List (UInt8 × Fin 8)) (v : Fin 8) : voiceBusy a v = true ↔ ∃ c n, (n, v) ∈ a c := by
  unfold voiceBusy
  simp only [List.any_eq_true, List.mem_finRange, true_and, decide_eq_true_eq]
  constructor
  · rintro ⟨c, ⟨n, w⟩, hp, rfl⟩; exact ⟨c, n, hp⟩
  · rintro ⟨c, n, h⟩; exact ⟨c, (n, v), h, rfl⟩

theorem voiceBusy_false (a : Fin 16 → List (UInt8 × Fin 8)) (v : Fin 8) : voiceBusy a v = false ↔ ∀ c n, (n, v) ∉ a c := by
  rw [← Bool.not_eq_true, voiceBusy_iff]; push Not; rfl

theorem lookup_some {l : List (UInt8 × Fin 8)} {n : UInt8} {v : Fin 8} (h : l.lookup n = some v) : (n, v) ∈ l := by
  induction l with
  | nil => simp at h
  | cons p l ih =>
    obtain ⟨a, b⟩ := p
    rw [List.lookup_cons] at h
    split at h
    · rename_i hab
      simp only [Option.some.injEq] at h
      have : n = a := by simpa using hab
      rw [this, h]; simp
    · exact List.mem_cons_of_mem _ (ih h)

theorem lookup_none {l : List (UInt8 × Fin 8)} {n : UInt8} (h : l.lookup n = none) : ∀ p ∈ l, p.1 ≠ n := by
  rw [List.lookup_eq_none_iff] at h
  intro p hp e
  have := h p hp
  simp [e] at this

theorem foldlM_plain (s : Option (Fin 16 × UInt8)) (l : List TMsg) (h : ∀ m ∈ l, Plain m.1) : l.foldlM (holdStep endOk) s = some s := by
  induction l with
  | nil => rfl
  | cons m l ih =>
    obtain ⟨h1, h2⟩ := h m (by simp)
    rw [List.foldlM_cons]
    simp only [holdStep, h1, h2, Bool.false_eq_true, if_false]
    exact ih fun x hx => h x (by simp [hx])

theorem held_quiet (outs o : List (Fin 8 × TMsg)) (k k' : Ctl) (h : Held outs k) (ho : ∀ p ∈ o, Plain p.2.1) (ha : k'.active = k.active)
    (hc : ∀ c m, k'.lastCtrl c = some m → Plain m) (hp : ∀ c m, k'.lastProg c = some m → Plain m) (hb : ∀ c m, k'.lastBend c = some m → Plain m) :
    Held (outs ++ o) k' := by
  refine ⟨?_, by rw [ha]; exact h.uniq, by rw [ha]; exact h.keys, hc, hp, hb⟩
  intro v
  obtain ⟨s, h1, h2, h3⟩ := h.hold v
  refine ⟨s, ?_, by rw [ha]; exact h2, by rw [ha]; exact h3⟩
  rw [onVoice_append, List.foldlM_append, h1]
  apply foldlM_plain
  intro m hm
  obtain ⟨p, hp, rfl⟩ := List.mem_map.1 hm
  exact ho p (List.mem_of_mem_filter hp)

theorem mem_removeNote (l : List (UInt8 × Fin 8)) (n : UInt8) (p : UInt8 × Fin 8) : p ∈ removeNote l n ↔ p ∈ l ∧ p.1 ≠ n := by
  simp [removeNote]

theorem held_close (outs : List (Fin 8 × TMsg)) (k : Ctl) (h : Held outs k) (ch : Fin 16) (note vel n' : UInt8) (d t : Nat) (v0 : Fin 8)
    (hl : (k.active ch).lookup note = some v0) (hn : n' = drumNote ch note ∨ n' = note) :
    Held (outs ++ [(v0, (.midiEvent d (.noteOff ch n' vel), t))]) (ctlClose k ch note) := by
  have hmem := lookup_some hl
  have hk : (ctlClose k ch note).active = Function.update k.active ch (removeNote (k.active ch) note) := by
    unfold ctlClose; rw [hl]
  have hsub : ∀ c p, p ∈ (ctlClose k ch note).active c → p ∈ k.active c := by
    intro c p hp
    rw [hk] at hp
    by_cases hc : c = ch
    · subst hc; simp only [Function.update_self, mem_removeNote] at hp; exact hp.1
    · rwa [Function.update_of_ne hc] at hp
  have hstay : ∀ c n v, (n, v) ∈ k.active c → v ≠ v0 → (n, v) ∈ (ctlClose k ch note).active c := by
    intro c n v hp hv
    rw [hk]
    by_cases hc : c = ch
    · subst hc
      simp only [Function.update_self, mem_removeNote]
      refine ⟨hp, ?_⟩
      rintro rfl
      have := h.keys c _ _ hp hmem rfl
      simp only [Prod.mk.injEq, true_and] at this
      exact hv this
    · rwa [Function.update_of_ne hc]
  have rest : (ctlClose k ch note).lastCtrl = k.lastCtrl ∧ (ctlClose k ch note).lastProg = k.lastProg ∧ (ctlClose k ch note).lastBend = k.lastBend := by
    unfold ctlClose; rw [hl]; exact ⟨rfl, rfl, rfl⟩
  refine ⟨?_, fun c c' p p' hp hp' => h.uniq c c' p p' (hsub c p hp) (hsub c' p' hp'), fun c p p' hp hp' => h.keys c p p' (hsub c p hp) (hsub c p' hp'),
    by rw [rest.1]; exact h.ctrl, by rw [rest.2.1]; exact h.prog, by rw [rest.2.2]; exact h.bend⟩
  intro v
  obtain ⟨s, h1, h2, h3⟩ := h.hold v
  by_cases hv : v = v0
  · subst hv
    have hs := h2 ch note hmem
    refine ⟨none, ?_, ?_, fun _ => rfl⟩
    · rw [onVoice_append, List.foldlM_append, h1]
      simp only [onVoice, List.filter_cons, decide_true, if_true, List.filter_nil, List.map_cons, List.map_nil]
      simp only [bind, Option.bind_some, List.foldlM_cons, List.foldlM_nil]
      have : holdStep endOk s (Message.midiEvent d (MidiEvent.noteOff ch n' vel), t) = some none := by
        rw [hs]
        simp only [holdStep, starts, ends, noteOf, Bool.false_eq_true, if_false, if_true]
        rw [if_pos]
        rcases hn with rfl | rfl
        · simp [endOk]
        · by_cases h9 : ch = 9
          · subst h9; simp [endOk, drumNote]
          · simp [endOk, drumNote, h9]
      rw [this]; rfl
    · intro c n hc
      exfalso
      have hc' := hsub c _ hc
      obtain ⟨rfl, e⟩ := h.uniq c ch _ _ hc' hmem rfl
      rw [hk] at hc
      simp only [Function.update_self, mem_removeNote] at hc
      simp only [Prod.mk.injEq, and_true] at e
      exact hc.2 e
  · have e : onVoice (outs ++ [(v0, ((Message.midiEvent d (MidiEvent.noteOff ch n' vel), t) : TMsg))]) v = onVoice outs v := by
      have : ¬ v0 = v := fun e => hv e.symm
      simp [onVoice, this]
    refine ⟨s, by rw [e]; exact h1, fun c n hc => h2 c n (hsub c _ hc), ?_⟩
    intro hb
    apply h3
    rw [voiceBusy_false] at hb ⊢
    intro c n hc
    exact hb c n (hstay c n v hc hv)

/-- The chosen voice is free. -/
theorem chooseVoice_free (base : Fin 16 → Fin 8) (a : Fin 16 → List (UInt8 × Fin 8)) (ch : Fin 16) (v : Fin 8) (h : chooseVoice base a ch = some v) :
    voiceBusy a v = false := by
  unfold chooseVoice at h
  by_cases hb : voiceBusy a (base ch) = true
  · rw [if_pos hb] at h
    have := List.find?_some h
    simp only [Bool.and_eq_true, Bool.not_eq_true'] at this
    exact this.2
  · rw [if_neg hb] at h
    simp only [Option.some.injEq] at h
    subst h
    simpa using hb

theorem plain_outOpt (v : Fin 8) (m : Option Message) (h : ∀ x, m = some x → Plain x) : ∀ p ∈ outOpt v m, Plain p.2 := by
  intro p hp
  cases m with
  | none => simp [outOpt] at hp
  | some m =>
    simp only [outOpt, Option.map_some, Option.toList_some, List.mem_singleton] at hp
    subst hp
    exact h m rfl

theorem held_open (outs : List (Fin 8 × TMsg)) (k : Ctl) (h : Held outs k) (base : Fin 16 → Fin 8) (ch : Fin 16) (note vel : UInt8) (d t : Nat)
    (pre : List (Fin 8 × TMsg)) (hpre : ∀ p ∈ pre, Plain p.2.1) (v : Fin 8) (hv : voiceBusy k.active v = false) (hvel : vel > 0)
    (hnone : ∀ p ∈ k.active ch, p.1 ≠ note) :
    Held (outs ++ (pre ++ [(v, (.midiEvent d (.noteOn ch (drumNote ch note) vel), t))])) (ctlOpen k d ch note v) := by
  have hvel0 : vel ≠ 0 := by rintro rfl; simp at hvel
  rw [voiceBusy_false] at hv
  have hact : ∀ c p, p ∈ (ctlOpen k d ch note v).active c ↔ (c = ch ∧ p = (note, v)) ∨ p ∈ k.active c := by
    intro c p
    unfold ctlOpen
    simp only
    by_cases hc : c = ch
    · subst hc
      simp only [Function.update_self, insertNote, List.mem_cons, mem_removeNote, true_and]
      constructor
      · rintro (h | h)
        · exact .inl h
        · exact .inr h.1
      · rintro (h | h)
        · exact .inl h
        · exact .inr ⟨h, hnone p h⟩
    · simp [hc]
  refine ⟨?_, ?_, ?_, h.ctrl, ?_, h.bend⟩
  · intro w
    obtain ⟨s, h1, h2, h3⟩ := h.hold w
    have hpl : (onVoice pre w).foldlM (holdStep endOk) s = some s := by
      apply foldlM_plain
      intro m hm
      obtain ⟨p, hp, rfl⟩ := List.mem_map.1 hm
      exact hpre p (List.mem_of_mem_filter hp)
    by_cases hw : w = v
    · subst hw
      have hs : s = none := h3 ((voiceBusy_false _ _).2 hv)
      subst hs
      refine ⟨some (ch, drumNote ch note), ?_, ?_, ?_⟩
      · rw [onVoice_append, onVoice_append, List.foldlM_append, h1]
        simp only [bind, Option.bind_some]
        rw [List.foldlM_append, hpl]
        simp [onVoice, holdStep, starts, hvel0, noteOf]
      · intro c n hc
        rcases (hact c _).1 hc with ⟨rfl, e⟩ | hc
        · simp only [Prod.mk.injEq, and_true] at e; rw [e]
        · exact absurd hc (hv c n)
      · intro hb
        rw [voiceBusy_false] at hb
        exact absurd ((hact ch (note, w)).2 (.inl ⟨rfl, rfl⟩)) (hb ch note)
    · have e : onVoice (outs ++ (pre ++ [(v, ((Message.midiEvent d (MidiEvent.noteOn ch (drumNote ch note) vel), t) : TMsg))])) w = onVoice outs w ++ onVoice pre w := by
        have : ¬ v = w := fun e => hw e.symm
        simp [onVoice, this]
      refine ⟨s, by rw [e, List.foldlM_append, h1]; exact hpl, ?_, ?_⟩
      · intro c n hc
        rcases (hact c (n, w)).1 hc with ⟨_, e⟩ | hc
        · exact absurd (show w = v from congrArg Prod.snd e) hw
        · exact h2 c n hc
      · intro hb
        apply h3
        rw [voiceBusy_false] at hb ⊢
        intro c n hc
        exact hb c n ((hact c _).2 (.inr hc))
  · intro c c' p p' hp hp' he
    rcases (hact c p).1 hp with ⟨rfl, rfl⟩ | hq <;> rcases (hact c' p').1 hp' with ⟨rfl, rfl⟩ | hq'
    · exact ⟨rfl, rfl⟩
    · simp only at he; subst he; exact absurd hq' (hv c' p'.1)
    · simp only at he; subst he; exact absurd hq (hv c p.1)
    · exact h.uniq c c' p p' hq hq' he
  · intro c p p' hp hp' he
    rcases (hact c p).1 hp with ⟨rfl, rfl⟩ | hq <;> rcases (hact c p').1 hp' with ⟨e, rfl⟩ | hq'
    · rfl
    · exact absurd he.symm (hnone p' hq')
    · subst e; exact absurd he (hnone p hq)
    · exact h.keys c p p' hq hq' he
  · intro c m hm
    unfold ctlOpen at hm
    simp only at hm
    split_ifs at hm with hif
    · by_cases hc : c = ch
      · subst hc
        simp only [Function.update_self, Option.some.injEq] at hm
        subst hm
        exact ⟨rfl, rfl⟩
      · rw [Function.update_of_ne hc] at hm
        exact h.prog c m hm
    · exact h.prog c m hm

theorem plain_update (f : Fin 16 → Option Message) (c : Fin 16) (m : Message) (hm : Plain m) (h : ∀ c m, f c = some m → Plain m) :
    ∀ c' x, Function.update f c (some m) c' = some x → Plain x := by
  intro c' x hx
  by_cases hc : c' = c
  · subst hc; simp only [Function.update_self, Option.some.injEq] at hx; subst hx; exact hm
  · rw [Function.update_of_ne hc] at hx; exact h c' x hx

theorem close_lookup (k : Ctl) (ch : Fin 16) (note : UInt8) : ∀ p ∈ (ctlClose k ch note).active ch, p.1 ≠ note := by
  unfold ctlClose
  cases hl : (k.active ch).lookup note with
  | none => exact lookup_none hl
  | some v =>
    intro p hp
    simp only [Function.update_self, mem_removeNote] at hp
    exact hp.2

theorem plain_outSwitch (outs : List (Fin 8 × TMsg)) (k : Ctl) (h : Held outs k) (ch : Fin 16) (v : Fin 8) : ∀ p ∈ outSwitch k ch v, Plain p.2 := by
  unfold outSwitch
  split_ifs
  · intro p hp
    rcases List.mem_append.1 hp with hp | hp
    · rcases List.mem_append.1 hp with hp | hp
      · exact plain_outOpt v _ (h.ctrl ch) p hp
      · exact plain_outOpt v _ (h.prog ch) p hp
    · exact plain_outOpt v _ (h.bend ch) p hp
  · simp

theorem held_step (ord : EnumOrder) (base : Fin 16 → Fin 8) (outs : List (Fin 8 × TMsg)) (k : Ctl) (m : Message) (t : Nat) (o : List (Fin 8 × Message)) (k' : Ctl)
    (h : Held outs k) (he : emit ord base k m = some (o, k')) : Held (outs ++ o.map fun p => (p.1, (p.2, t))) k' := by
  have quiet : (∀ p ∈ o, Plain p.2) → k'.active = k.active → (∀ c m, k'.lastCtrl c = some m → Plain m) → (∀ c m, k'.lastProg c = some m → Plain m) →
      (∀ c m, k'.lastBend c = some m → Plain m) → Held (outs ++ o.map fun p => (p.1, (p.2, t))) k' := by
    intro h1 h2 h3 h4 h5
    refine held_quiet outs _ k k' h ?_ h2 h3 h4 h5
    intro p hp
    obtain ⟨q, hq, rfl⟩ := List.mem_map.1 hp
    exact h1 q hq
  have same : (∀ p ∈ o, Plain p.2) → k' = k → Held (outs ++ o.map fun p => (p.1, (p.2, t))) k' := by
    rintro h1 rfl
    exact quiet h1 rfl h.ctrl h.prog h.bend
  have chan : ∀ (ch : Fin 16) (m : Message), Plain m → ∀ p ∈ outChannel ord base k ch m, Plain p.2 := by
    intro ch m hm p hp
    unfold outChannel at hp
    rcases List.mem_append.1 hp with hp | hp
    · obtain ⟨q, -, rfl⟩ := List.mem_map.1 hp
      exact hm
    · split_ifs at hp
      · simp at hp
      · simp only [List.mem_singleton] at hp; subst hp; exact hm
  have closeStep : ∀ d ch note vel, Held (outs ++ (outClose k d ch note vel).map fun p => (p.1, (p.2, t))) (ctlClose k ch note) := by
    intro d ch note vel
    cases hl : (k.active ch).lookup note with
    | none =>
      have e1 : outClose k d ch note vel = [] := by unfold outClose; rw [hl]
      have e2 : ctlClose k ch note = k := by unfold ctlClose; rw [hl]
      rw [e1, e2]; simpa using h
    | some v =>
      have e1 : outClose k d ch note vel = [(v, .midiEvent d (.noteOff ch note vel))] := by unfold outClose; rw [hl]
      rw [e1]
      exact held_close outs k h ch note vel note d t v hl (.inr rfl)
  cases m with
  | metaEvent d e data =>
    cases e with
    | setTempo =>
      simp only [emit, Option.some.injEq, Prod.mk.injEq] at he
      exact same (by rw [← he.1]; intro p hp; simp only [List.mem_singleton] at hp; subst hp; exact ⟨rfl, rfl⟩) he.2.symm
    | _ =>
      simp only [emit, Option.some.injEq, Prod.mk.injEq] at he
      exact same (by rw [← he.1]; simp) he.2.symm
  | sysEx d data =>
    simp only [emit, Option.some.injEq, Prod.mk.injEq] at he
    exact same (by rw [← he.1]; intro p hp; simp only [List.mem_singleton] at hp; subst hp; exact ⟨rfl, rfl⟩) he.2.symm
  | trackChange =>
    simp only [emit, Option.some.injEq, Prod.mk.injEq] at he
    exact same (by rw [← he.1]; simp) he.2.symm
  | midiEvent d e =>
    cases e with
    | unknown ch =>
      simp only [emit, Option.some.injEq, Prod.mk.injEq] at he
      exact same (by rw [← he.1]; simp) he.2.symm
    | polyphonicKeyPressure ch n v =>
      simp only [emit] at he
      cases hl : (k.active ch).lookup n with
      | none =>
        rw [hl] at he
        simp only [Option.some.injEq, Prod.mk.injEq] at he
        exact same (by rw [← he.1]; simp) he.2.symm
      | some w =>
        rw [hl] at he
        simp only [Option.some.injEq, Prod.mk.injEq] at he
        exact same (by rw [← he.1]; intro p hp; simp only [List.mem_singleton] at hp; subst hp; exact ⟨rfl, rfl⟩) he.2.symm
    | channelPressure ch v =>
      simp only [emit, Option.some.injEq, Prod.mk.injEq] at he
      exact same (by rw [← he.1]; exact chan ch _ ⟨rfl, rfl⟩) he.2.symm
    | controlChange ch c v =>
      simp only [emit, Option.some.injEq, Prod.mk.injEq] at he
      obtain ⟨rfl, h2⟩ := he
      by_cases hc : c = 7
      · rw [if_pos hc] at h2
        subst h2
        exact quiet (chan ch _ ⟨rfl, rfl⟩) rfl (plain_update _ _ _ ⟨rfl, rfl⟩ h.ctrl) h.prog h.bend
      · rw [if_neg hc] at h2
        exact same (chan ch _ ⟨rfl, rfl⟩) h2.symm
    | programChange ch v =>
      simp only [emit, Option.some.injEq, Prod.mk.injEq] at he
      obtain ⟨rfl, rfl⟩ := he
      exact quiet (chan ch _ ⟨rfl, rfl⟩) rfl h.ctrl (plain_update _ _ _ ⟨rfl, rfl⟩ h.prog) h.bend
    | pitchBendChange ch v =>
      simp only [emit, Option.some.injEq, Prod.mk.injEq] at he
      obtain ⟨rfl, rfl⟩ := he
      exact quiet (chan ch _ ⟨rfl, rfl⟩) rfl h.ctrl h.prog (plain_update _ _ _ ⟨rfl, rfl⟩ h.bend)
    | noteOff ch n v =>
      simp only [emit] at he
      cases hl : (k.active ch).lookup n with
      | none =>
        rw [hl] at he
        simp only [Option.some.injEq, Prod.mk.injEq] at he
        exact same (by rw [← he.1]; simp) he.2.symm
      | some w =>
        rw [hl] at he
        simp only [Option.some.injEq, Prod.mk.injEq] at he
        obtain ⟨rfl, rfl⟩ := he
        exact held_close outs k h ch n v _ d t w hl (.inl rfl)
    | noteOn ch n vel =>
      simp only [emit] at he
      by_cases hv : vel > 0
      · rw [if_pos hv] at he
        cases hch : chooseVoice base (ctlClose k ch n).active ch with
        | none => rw [hch] at he; cases he
        | some v =>
          rw [hch] at he
          simp only [Option.some.injEq, Prod.mk.injEq] at he
          obtain ⟨rfl, rfl⟩ := he
          have h1 := closeStep d ch n vel
          have h2 := held_open _ _ h1 base ch n vel d t ((outSwitch k ch v ++ outPerc k d ch n v).map fun p => (p.1, (p.2, t))) (by
            intro p hp
            obtain ⟨q, hq, rfl⟩ := List.mem_map.1 hp
            rcases List.mem_append.1 hq with hq | hq
            · exact plain_outSwitch outs k h ch v q hq
            · unfold outPerc at hq
              split_ifs at hq
              · simp only [List.mem_singleton] at hq; subst hq; exact ⟨rfl, rfl⟩
              · simp at hq) v (chooseVoice_free base _ ch v hch) hv (close_lookup k ch n)
          rw [List.append_assoc] at h2
          simpa using h2
      · rw [if_neg hv] at he
        simp only [Option.some.injEq, Prod.mk.injEq] at he
        obtain ⟨rfl, rfl⟩ := he
        exact closeStep d ch n vel

theorem held_init (base : Fin 16 → Fin 8) : Held [] (ctl0 base) := by
  refine ⟨?_, by simp [ctl0], by simp [ctl0], by simp [ctl0], by simp [ctl0], by simp [ctl0]⟩
  intro v
  exact ⟨none, rfl, by simp [ctl0], fun _ => rfl⟩

theorem held_emits (ord : EnumOrder) (base : Fin 16 → Fin 8) (seq : List TMsg) (os : List (Fin 8 × TMsg)) (k : Ctl)
    (he : emits ord base (ctl0 base) seq = some (os, k)) : Held os k :=
  emits_nil_induct ord base (fun _ outs k => Held outs k) (fun _ outs k m t o k' h he => held_step ord base outs k m t o k' h he) seq _ k os (held_init base) he

theorem hold_alt (ok : Fin 16 × UInt8 → Fin 16 × UInt8 → Bool) (l : List TMsg) : ∀ s s', l.foldlM (holdStep ok) s = some s' →
    l.foldlM altStep s.isSome = some s'.isSome := by
  induction l with
  | nil => intro s s' h; simp only [List.foldlM_nil, pure, Option.some.injEq] at h; subst h; rfl
  | cons m l ih =>
    intro s s' h
    rw [List.foldlM_cons] at h ⊢
    cases h1 : holdStep ok s m with
    | none => rw [h1] at h; cases h
    | some s1 =>
      rw [h1] at h
      have : altStep s.isSome m = some s1.isSome := by
        unfold holdStep at h1
        unfold altStep
        by_cases hs : starts m.1 = true
        · rw [if_pos hs] at h1 ⊢
          cases s with
          | some a => cases h1
          | none =>
            simp only [Option.some.injEq] at h1
            subst h1
            have : (noteOf m.1).isSome = true := by
              unfold starts at hs; unfold noteOf
              split at hs <;> simp_all
            simp [this]
        · rw [if_neg hs] at h1 ⊢
          by_cases he : ends m.1 = true
          · rw [if_pos he] at h1 ⊢
            cases s with
            | none => cases h1
            | some a =>
              cases hn : noteOf m.1 with
              | none => rw [hn] at h1; cases h1
              | some b =>
                rw [hn] at h1
                simp only at h1
                split_ifs at h1
                simp only [Option.some.injEq] at h1
                subst h1
                simp
          · rw [if_neg he] at h1 ⊢
            simp only [Option.some.injEq] at h1
            subst h1; rfl
      rw [this]
      exact ih _ _ h

/-- The emitted messages carry the times of the events, in order. -/
theorem emits_times (ord : EnumOrder) (base : Fin 16 → Fin 8) (seq : List TMsg) : ∀ k os k', emits ord base k seq = some (os, k') →
    (∀ p ∈ os, ∃ m ∈ seq, m.2 = p.2.2) ∧ (seq.Pairwise (fun a b => a.2 ≤ b.2) → os.Pairwise fun a b => a.2.2 ≤ b.2.2) := by
  induction seq with
  | nil =>
    intro k os k' he
    simp only [emits, Option.some.injEq, Prod.mk.injEq] at he
    obtain ⟨rfl, rfl⟩ := he
    simp
  | cons m ms ih =>
    intro k os k' he
    obtain ⟨m, t⟩ := m
    rw [emits] at he
    cases h1 : emit ord base k m with
    | none => rw [h1] at he; cases he
    | some r =>
      obtain ⟨o, k1⟩ := r
      rw [h1] at he
      simp only at he
      cases h2 : emits ord base k1 ms with
      | none => rw [h2] at he; cases he
      | some r2 =>
        obtain ⟨os2, k2⟩ := r2
        rw [h2] at he
        simp only [Option.some.injEq, Prod.mk.injEq] at he
        obtain ⟨rfl, rfl⟩ := he
        obtain ⟨i1, i2⟩ := ih _ _ _ h2
        have ht : ∀ p ∈ o.map (fun p => (p.1, ((p.2, t) : TMsg))), p.2.2 = t := by
          intro p hp; obtain ⟨q, -, rfl⟩ := List.mem_map.1 hp; rfl
        constructor
        · intro p hp
          rcases List.mem_append.1 hp with hp | hp
          · exact ⟨(m, t), by simp, (ht p hp).symm⟩
          · obtain ⟨x, hx, e⟩ := i1 p hp
            exact ⟨x, by simp [hx], e⟩
        · intro hp
          obtain ⟨p1, p2⟩ := List.pairwise_cons.1 hp
          rw [List.pairwise_append]
          refine ⟨?_, i2 p2, ?_⟩
          · apply List.pairwise_of_forall_mem_list
            intro a ha b hb
            rw [ht a ha, ht b hb]
          · intro a ha b hb
            obtain ⟨x, hx, e⟩ := i1 b hb
            rw [ht a ha, ← e]
            exact p1 x hx

theorem merge_times {seq : List (Fin 16 × TMsg)} (h : seq.Pairwise MergeOrder) : (seq.map (·.2)).Pairwise fun a b => a.2 ≤ b.2 := by
  rw [List.pairwise_map]
  refine h.imp ?_
  intro a b hab
  unfold MergeOrder at hab
  omega

end M2S
