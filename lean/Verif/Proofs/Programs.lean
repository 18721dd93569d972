import Verif.Proofs.Emission
/-
Program changes on voices.
-/
namespace M2S
open MidiSpec

/-- Program changes among messages without times. -/
def progs (l : List Message) : List (Fin 16 × UInt8) := l.filterMap programOf

theorem lastProgram_append (a b : List TMsg) : lastProgram (a ++ b) = (lastProgram b).or (lastProgram a) := by
  unfold lastProgram
  rw [List.filterMap_append, List.getLast?_append]

theorem lastProgram_stamp (l : List Message) (t : Nat) : lastProgram (l.map fun m => (m, t)) = (progs l).getLast? := by
  unfold lastProgram progs
  rw [List.filterMap_map]; rfl

theorem progs_append (a b : List Message) : progs (a ++ b) = progs a ++ progs b := by simp [progs]

theorem onVoice_split {α : Type} (outs : List (Fin 8 × α)) (v : Fin 8) (a b : List α) (x : α) (h : onVoice outs v = a ++ x :: b) :
    ∃ pre post, outs = pre ++ (v, x) :: post ∧ onVoice pre v = a ∧ onVoice post v = b := by
  unfold onVoice at h
  rw [List.map_eq_append_iff] at h
  obtain ⟨l1, l2, h1, h2, h3⟩ := h
  rw [List.map_eq_cons_iff] at h3
  obtain ⟨p, l3, rfl, h4, h5⟩ := h3
  rw [List.filter_eq_append_iff] at h1
  obtain ⟨o1, o2, rfl, h6, h7⟩ := h1
  rw [List.filter_eq_cons_iff] at h7
  obtain ⟨o3, o4, rfl, h8, h9, h10⟩ := h7
  refine ⟨o1 ++ o3, o4, ?_, ?_, ?_⟩
  · have : p = (v, x) := by
      obtain ⟨p1, p2⟩ := p
      simp only [decide_eq_true_eq] at h9
      simp only at h4
      rw [h9, h4]
    rw [← this]; simp
  · rw [onVoice_append]
    unfold onVoice
    rw [h6, h2]
    have : (o3.filter fun p => p.1 = v) = [] := by
      rw [List.filter_eq_nil_iff]; exact h8
    rw [this]; simp
  · unfold onVoice; rw [h10, h5]

/-- A message emitted was emitted by one event. -/
theorem emits_split (ord : EnumOrder) (base : Fin 16 → Fin 8) (seq : List TMsg) : ∀ k0 outs kf pre p post, emits ord base k0 seq = some (outs, kf) →
    outs = pre ++ p :: post → ∃ done m t rest outs1 k o k' o1 o2, seq = done ++ (m, t) :: rest ∧ emits ord base k0 done = some (outs1, k) ∧
      emit ord base k m = some (o, k') ∧ o = o1 ++ (p.1, p.2.1) :: o2 ∧ p.2.2 = t ∧ pre = outs1 ++ o1.map fun q => (q.1, (q.2, t)) := by
  induction seq with
  | nil =>
    intro k0 outs kf pre p post he ho
    simp only [emits, Option.some.injEq, Prod.mk.injEq] at he
    rw [← he.1] at ho
    simp at ho
  | cons mt ms ih =>
    intro k0 outs kf pre p post he ho
    obtain ⟨m, t⟩ := mt
    rw [emits] at he
    cases h1 : emit ord base k0 m with
    | none => rw [h1] at he; cases he
    | some r =>
      obtain ⟨o, k1⟩ := r
      rw [h1] at he
      simp only at he
      cases h2 : emits ord base k1 ms with
      | none => rw [h2] at he; cases he
      | some r2 =>
        obtain ⟨os, k2⟩ := r2
        rw [h2] at he
        simp only [Option.some.injEq, Prod.mk.injEq] at he
        obtain ⟨he, -⟩ := he
        rw [← he] at ho
        rcases List.append_eq_append_iff.1 ho with ⟨a, ha1, ha2⟩ | ⟨a, ha1, ha2⟩
        · -- the message comes from the tail
          obtain ⟨done, m', t', rest, outs1, k, o', k', o1, o2, e1, e2, e3, e4, e5, e6⟩ := ih k1 os k2 a p post h2 ha2
          refine ⟨(m, t) :: done, m', t', rest, o.map (fun p => (p.1, (p.2, t))) ++ outs1, k, o', k', o1, o2, by rw [e1]; rfl, ?_, e3, e4, e5, ?_⟩
          · rw [emits, h1]; simp only [e2]
          · rw [ha1, e6]; simp
        · cases a with
          | nil =>
            simp only [List.append_nil] at ha1
            simp only [List.nil_append] at ha2
            obtain ⟨done, m', t', rest, outs1, k, o', k', o1, o2, e1, e2, e3, e4, e5, e6⟩ := ih k1 os k2 [] p post h2 ha2.symm
            refine ⟨(m, t) :: done, m', t', rest, o.map (fun p => (p.1, (p.2, t))) ++ outs1, k, o', k', o1, o2, by rw [e1]; rfl, ?_, e3, e4, e5, ?_⟩
            · rw [emits, h1]; simp only [e2]
            · rw [← ha1]
              have : outs1 ++ o1.map (fun q => (q.1, (q.2, t'))) = [] := e6.symm
              rw [List.append_assoc, this, List.append_nil]
          | cons q a =>
            simp only [List.cons_append, List.cons.injEq] at ha2
            obtain ⟨rfl, -⟩ := ha2
            rw [List.map_eq_append_iff] at ha1
            obtain ⟨o1, o3, rfl, rfl, e2⟩ := ha1
            rw [List.map_eq_cons_iff] at e2
            obtain ⟨q, o2, rfl, rfl, -⟩ := e2
            exact ⟨[], m, t, ms, [], k0, _, k1, o1, o2, rfl, rfl, h1, rfl, rfl, rfl⟩

/-- A start of a note is emitted last, by the note-on of that note. -/
theorem emit_start (ord : EnumOrder) (base : Fin 16 → Fin 8) (k : Ctl) (hk : Lasts k) (m : Message) (o1 o2 : List (Fin 8 × Message)) (k' : Ctl) (v : Fin 8) (x : Message)
    (he : emit ord base k m = some (o1 ++ (v, x) :: o2, k')) (hx : starts x = true) :
    ∃ d ch n vel, m = .midiEvent d (.noteOn ch n vel) ∧ vel > 0 ∧ x = .midiEvent d (.noteOn ch (drumNote ch n) vel) ∧
      chooseVoice base (ctlClose k ch n).active ch = some v ∧ o1 = outClose k d ch n vel ++ (outSwitch k ch v ++ outPerc k d ch n v) := by
  obtain ⟨⟨w, hw⟩, -, -⟩ := emit_filter starts ord base k m _ k' hk he (by
    intro d e h
    cases e with
    | noteOn ch n v => exact ⟨ch, n, v, rfl⟩
    | _ => simp [starts] at h)
  have hm : starts m = true := by
    by_contra hc
    have : (v, x) ∈ (o1 ++ (v, x) :: o2).filter fun p => starts p.2 := List.mem_filter.2 ⟨by simp, hx⟩
    rw [hw] at this
    split_ifs at this with h
    · obtain ⟨h1, h2⟩ := h
      rcases h2 with h2 | h2
      · exact hc h2
      · unfold isGlobal at h2; split at h2 <;> simp_all [drum, starts]
    · simp at this
  cases m with
  | midiEvent d e =>
    cases e with
    | noteOn ch n vel =>
      have hv : vel ≠ 0 := by simpa [starts] using hm
      have hv' : vel > 0 := by
        show (0 : UInt8) < vel
        rw [UInt8.lt_iff_toNat_lt]
        have : vel.toNat ≠ 0 := fun h => hv (UInt8.toNat_inj.1 (by simpa using h))
        simp; omega
      simp only [emit, if_pos hv'] at he
      cases hch : chooseVoice base (ctlClose k ch n).active ch with
      | none => rw [hch] at he; cases he
      | some u =>
        rw [hch] at he
        simp only [Option.some.injEq, Prod.mk.injEq] at he
        obtain ⟨he, -⟩ := he
        rw [← List.append_assoc] at he
        have hone : ((outClose k d ch n vel ++ (outSwitch k ch u ++ outPerc k d ch n u)).filter fun p => starts p.2) = [] := by
          have h1 : ((outClose k d ch n vel ++ (outSwitch k ch u ++ outPerc k d ch n u)) ++ [(u, Message.midiEvent d (.noteOn ch (drumNote ch n) vel))]).filter (fun p => starts p.2)
              = (outClose k d ch n vel ++ (outSwitch k ch u ++ outPerc k d ch n u)).filter (fun p => starts p.2) ++ [(u, Message.midiEvent d (.noteOn ch (drumNote ch n) vel))] := by
            rw [List.filter_append]; simp [starts, hv]
          rw [← he, h1] at hw
          have := congrArg List.length hw
          split_ifs at this
          · simp only [List.length_append, List.length_singleton] at this
            exact List.length_eq_zero_iff.1 (by omega)
          · simp at this
        have hnil : ∀ q ∈ outClose k d ch n vel ++ (outSwitch k ch u ++ outPerc k d ch n u), starts q.2 = false := by
          intro q hq
          have := List.filter_eq_nil_iff.1 hone q hq
          simpa using this
        refine ⟨d, ch, n, vel, rfl, hv', ?_⟩
        rcases List.append_eq_append_iff.1 he with ⟨a, ha1, ha2⟩ | ⟨a, ha1, ha2⟩
        · cases a with
          | nil =>
            simp only [List.nil_append, List.cons.injEq, Prod.mk.injEq] at ha2
            obtain ⟨⟨rfl, rfl⟩, -⟩ := ha2
            refine ⟨rfl, hch, ?_⟩
            simpa using ha1
          | cons q a => 
            have := congrArg List.length ha2
            simp at this
        · cases a with
          | nil =>
            simp only [List.nil_append, List.cons.injEq, Prod.mk.injEq] at ha2
            obtain ⟨⟨rfl, rfl⟩, -⟩ := ha2
            refine ⟨rfl, hch, ?_⟩
            simpa using ha1.symm
          | cons q a =>
            simp only [List.cons_append, List.cons.injEq] at ha2
            have := hnil q (by rw [ha1]; simp)
            rw [← ha2.1] at this
            simp only at this
            rw [hx] at this; cases this
    | _ => simp [starts] at hm
  | _ => simp [starts] at hm

/-- Sounding notes are on the base voice of their channel or on a voice that is no channel's base voice, and the voice last played that channel. -/
structure Places (base : Fin 16 → Fin 8) (k : Ctl) : Prop where
  place : ∀ c n v, (n, v) ∈ k.active c → v = base c ∨ ∀ c', base c' ≠ v
  chan : ∀ c n v, (n, v) ∈ k.active c → k.lastChan v = some c
  busy : ∀ c c' n n' v, (n, v) ∈ k.active c → (n', v) ∈ k.active c' → c = c'

theorem choose_place (base : Fin 16 → Fin 8) (a : Fin 16 → List (UInt8 × Fin 8)) (ch : Fin 16) (v : Fin 8) (h : chooseVoice base a ch = some v) :
    v = base ch ∨ ∀ c', base c' ≠ v := by
  unfold chooseVoice at h
  split_ifs at h with hb
  · right
    have := List.find?_some h
    simp only [Bool.and_eq_true, Bool.not_eq_true', List.any_eq_false, List.mem_finRange, true_implies, decide_eq_true_eq] at this
    exact this.1
  · left; simpa using h.symm

theorem mem_close (k : Ctl) (ch : Fin 16) (n : UInt8) (c : Fin 16) (p : UInt8 × Fin 8) (h : p ∈ (ctlClose k ch n).active c) : p ∈ k.active c := by
  unfold ctlClose at h
  split at h
  · simp only at h
    by_cases hc : c = ch
    · subst hc; rw [Function.update_self] at h; exact ((mem_removeNote _ _ _).1 h).1
    · rwa [Function.update_of_ne hc] at h
  · exact h

theorem places_close (base : Fin 16 → Fin 8) (k : Ctl) (h : Places base k) (ch : Fin 16) (n : UInt8) : Places base (ctlClose k ch n) where
  place c m v hm := h.place c m v (mem_close _ _ _ _ _ hm)
  chan c m v hm := by rw [(ctlClose_last k ch n).2.2.2.1]; exact h.chan c m v (mem_close _ _ _ _ _ hm)
  busy c c' m m' v h1 h2 := h.busy c c' m m' v (mem_close _ _ _ _ _ h1) (mem_close _ _ _ _ _ h2)

theorem mem_open (k : Ctl) (d : Nat) (ch : Fin 16) (n : UInt8) (v : Fin 8) (c : Fin 16) (p : UInt8 × Fin 8) (h : p ∈ (ctlOpen k d ch n v).active c) :
    (c = ch ∧ p = (n, v)) ∨ p ∈ k.active c := by
  unfold ctlOpen at h
  simp only at h
  by_cases hc : c = ch
  · subst hc
    rw [Function.update_self] at h
    unfold insertNote at h
    rcases List.mem_cons.1 h with h | h
    · exact .inl ⟨rfl, h⟩
    · exact .inr ((mem_removeNote _ _ _).1 h).1
  · rw [Function.update_of_ne hc] at h; exact .inr h

theorem places_open (base : Fin 16 → Fin 8) (k : Ctl) (h : Places base k) (d : Nat) (ch : Fin 16) (n : UInt8) (v : Fin 8)
    (hv : chooseVoice base k.active ch = some v) : Places base (ctlOpen k d ch n v) := by
  have hp := choose_place _ _ _ _ hv
  have hf : ∀ c m, (m, v) ∉ k.active c := (voiceBusy_false _ _).1 (chooseVoice_free _ _ _ _ hv)
  constructor
  · intro c m w hm
    rcases mem_open _ _ _ _ _ _ _ hm with ⟨rfl, e⟩ | hm
    · cases e; exact hp
    · exact h.place c m w hm
  · intro c m w hm
    unfold ctlOpen; simp only
    rcases mem_open _ _ _ _ _ _ _ hm with ⟨rfl, e⟩ | hm'
    · cases e; simp
    · rw [Function.update_of_ne]
      · exact h.chan c m w hm'
      · rintro rfl; exact hf c m hm'
  · intro c c' m m' w h1 h2
    rcases mem_open _ _ _ _ _ _ _ h1 with ⟨rfl, e⟩ | g1 <;> rcases mem_open _ _ _ _ _ _ _ h2 with ⟨rfl, e'⟩ | g2
    · rfl
    · cases e; exact absurd g2 (hf _ _)
    · cases e'; exact absurd g1 (hf _ _)
    · exact h.busy c c' m m' w g1 g2

theorem places_step (ord : EnumOrder) (base : Fin 16 → Fin 8) (k : Ctl) (m : Message) (o : List (Fin 8 × Message)) (k' : Ctl)
    (h : Places base k) (he : emit ord base k m = some (o, k')) : Places base k' := by
  cases m with
  | midiEvent d e =>
    cases e with
    | noteOn ch n vel =>
      simp only [emit] at he
      split_ifs at he
      · cases hch : chooseVoice base (ctlClose k ch n).active ch with
        | none => rw [hch] at he; cases he
        | some v =>
          rw [hch] at he
          simp only [Option.some.injEq, Prod.mk.injEq] at he
          rw [← he.2]
          exact places_open base _ (places_close base k h ch n) d ch n v hch
      · simp only [Option.some.injEq, Prod.mk.injEq] at he
        rw [← he.2]; exact places_close base k h ch n
    | noteOff ch n vel =>
      simp only [emit] at he
      split at he
      · simp only [Option.some.injEq, Prod.mk.injEq] at he
        rw [← he.2]; exact places_close base k h ch n
      · simp only [Option.some.injEq, Prod.mk.injEq] at he
        rw [← he.2]; exact h
    | polyphonicKeyPressure ch n x =>
      simp only [emit] at he
      split at he <;> simp only [Option.some.injEq, Prod.mk.injEq] at he <;> rw [← he.2] <;> exact h
    | controlChange ch c x =>
      simp only [emit, Option.some.injEq, Prod.mk.injEq] at he
      rw [← he.2]; split_ifs
      · exact ⟨h.place, h.chan, h.busy⟩
      · exact h
    | programChange ch x =>
      simp only [emit, Option.some.injEq, Prod.mk.injEq] at he
      rw [← he.2]; exact ⟨h.place, h.chan, h.busy⟩
    | channelPressure ch x =>
      simp only [emit, Option.some.injEq, Prod.mk.injEq] at he
      rw [← he.2]; exact h
    | pitchBendChange ch x =>
      simp only [emit, Option.some.injEq, Prod.mk.injEq] at he
      rw [← he.2]; exact ⟨h.place, h.chan, h.busy⟩
    | unknown ch =>
      simp only [emit, Option.some.injEq, Prod.mk.injEq] at he
      rw [← he.2]; exact h
  | metaEvent d e data =>
    cases e <;> simp only [emit, Option.some.injEq, Prod.mk.injEq] at he <;> rw [← he.2] <;> exact h
  | sysEx d data =>
    simp only [emit, Option.some.injEq, Prod.mk.injEq] at he
    rw [← he.2]; exact h
  | trackChange =>
    simp only [emit, Option.some.injEq, Prod.mk.injEq] at he
    rw [← he.2]; exact h

theorem places_init (base : Fin 16 → Fin 8) : Places base (ctl0 base) :=
  ⟨by simp [ctl0], by simp [ctl0], by simp [ctl0]⟩

/-- The program changes an event puts on voice `v`. -/
def voiceProgs (base : Fin 16 → Fin 8) (k : Ctl) (v : Fin 8) : Message → List (Fin 16 × UInt8) → Prop
  | .midiEvent d (.programChange c p), l =>
    ((v = base c ∨ ∃ n, (n, v) ∈ k.active c) → l ≠ [] ∧ ∀ x ∈ l, x = (c, p)) ∧ (¬ (v = base c ∨ ∃ n, (n, v) ∈ k.active c) → l = [])
  | .midiEvent d (.noteOn c n vel), l =>
    if vel > 0 ∧ chooseVoice base (ctlClose k c n).active c = some v then
      l = (if k.lastChan v ≠ some c then ((k.lastProg c).bind programOf).toList else []) ++
        (if c = 9 ∧ k.lastPerc ≠ percInstr n then [(c, percInstr n)] else [])
    else l = []
  | _, l => l = []

theorem progs_outOpt (v : Fin 8) (m : Option Message) : progs (onVoice (outOpt v m) v) = (m.bind programOf).toList := by
  unfold outOpt onVoice progs
  cases m with
  | none => rfl
  | some m => simp [List.filterMap_cons]; cases programOf m <;> rfl

theorem onVoice_other {α : Type} (o : List (Fin 8 × α)) (v : Fin 8) (h : ∀ p ∈ o, p.1 ≠ v) : onVoice o v = [] := by
  unfold onVoice
  rw [List.map_eq_nil_iff, List.filter_eq_nil_iff]
  intro p hp; simpa using h p hp

theorem progs_nil (l : List Message) (h : ∀ m ∈ l, programOf m = none) : progs l = [] := by
  unfold progs; rw [List.filterMap_eq_nil_iff]; exact h

theorem mem_onVoice {α : Type} (o : List (Fin 8 × α)) (v : Fin 8) (x : α) : x ∈ onVoice o v ↔ (v, x) ∈ o := by
  unfold onVoice
  simp only [List.mem_map, List.mem_filter, decide_eq_true_eq]
  constructor
  · rintro ⟨⟨a, b⟩, ⟨h1, rfl⟩, rfl⟩; exact h1
  · intro h; exact ⟨(v, x), ⟨h, rfl⟩, rfl⟩

theorem mem_outChannel (ord : EnumOrder) (ho : ∀ l, (ord l).Perm l) (base : Fin 16 → Fin 8) (k : Ctl) (ch : Fin 16) (m : Message) (p : Fin 8 × Message) :
    p ∈ outChannel ord base k ch m ↔ p.2 = m ∧ (p.1 = base ch ∨ ∃ n, (n, p.1) ∈ k.active ch) := by
  unfold outChannel
  rw [List.mem_append]
  constructor
  · rintro (h | h)
    · obtain ⟨q, hq, rfl⟩ := List.mem_map.1 h
      exact ⟨rfl, .inr ⟨q.1, (ho _).mem_iff.1 hq⟩⟩
    · split_ifs at h
      · simp at h
      · simp only [List.mem_singleton] at h; subst h; exact ⟨rfl, .inl rfl⟩
  · rintro ⟨rfl, h⟩
    by_cases hin : ∃ n, (n, p.1) ∈ k.active ch
    · obtain ⟨n, hn⟩ := hin
      left
      exact List.mem_map.2 ⟨(n, p.1), (ho _).mem_iff.2 hn, rfl⟩
    · have hb : p.1 = base ch := by tauto
      right
      rw [if_neg]
      · simp [← hb]
      · simp only [List.any_eq_true, decide_eq_true_eq, not_exists, not_and]
        rintro ⟨n, w⟩ hq hw
        simp only at hw
        exact hin ⟨n, by rw [hb, ← hw]; exact (ho _).mem_iff.1 hq⟩

theorem emit_progs (ord : EnumOrder) (ho : ∀ l, (ord l).Perm l) (base : Fin 16 → Fin 8) (k : Ctl) (hk : Lasts k) (m : Message) (o : List (Fin 8 × Message)) (k' : Ctl)
    (he : emit ord base k m = some (o, k')) (v : Fin 8) : voiceProgs base k v m (progs (onVoice o v)) := by
  have noprog : (∀ p ∈ o, programOf p.2 = none) → progs (onVoice o v) = [] := by
    intro h
    apply progs_nil
    intro m hm
    exact h (v, m) ((mem_onVoice _ _ _).1 hm)
  cases m with
  | midiEvent d e =>
    cases e with
    | noteOn ch n vel =>
      simp only [emit] at he
      unfold voiceProgs
      split_ifs at he with hv
      · cases hch : chooseVoice base (ctlClose k ch n).active ch with
        | none => rw [hch] at he; cases he
        | some w =>
          rw [hch] at he
          simp only [Option.some.injEq, Prod.mk.injEq] at he
          rw [← he.1]
          simp only [hv, true_and]
          have hclose : progs (onVoice (outClose k d ch n vel) v) = [] := by
            apply progs_nil
            intro m hm
            rw [mem_onVoice] at hm
            unfold outClose at hm
            split at hm
            · simp only [List.mem_singleton, Prod.mk.injEq] at hm; rw [hm.2]; rfl
            · simp at hm
          rw [onVoice_append, progs_append, hclose, List.nil_append, onVoice_append, progs_append, onVoice_append, progs_append]
          by_cases hw : w = v
          · subst hw
            rw [if_pos hch]
            have h1 : progs (onVoice [(w, Message.midiEvent d (.noteOn ch (drumNote ch n) vel))] w) = [] := by
              simp [onVoice, progs, programOf]
            have h2 : progs (onVoice (outPerc k d ch n w) w) = if ch = 9 ∧ k.lastPerc ≠ percInstr n then [(ch, percInstr n)] else [] := by
              unfold outPerc
              split_ifs <;> simp [onVoice, progs, programOf]
            have h3 : progs (onVoice (outSwitch k ch w) w) = if k.lastChan w ≠ some ch then ((k.lastProg ch).bind programOf).toList else [] := by
              unfold outSwitch
              by_cases hl : k.lastChan w ≠ some ch
              · rw [if_pos hl, if_pos hl, onVoice_append, progs_append, onVoice_append, progs_append, progs_outOpt, progs_outOpt, progs_outOpt]
                have c1 : (k.lastCtrl ch).bind programOf = none := by
                  cases hx : k.lastCtrl ch with
                  | none => rfl
                  | some m => obtain ⟨_, _, _, rfl⟩ := hk.ctrl ch m hx; rfl
                have c2 : (k.lastBend ch).bind programOf = none := by
                  cases hx : k.lastBend ch with
                  | none => rfl
                  | some m => obtain ⟨_, _, rfl⟩ := hk.bend ch m hx; rfl
                rw [c1, c2]; simp
              · rw [if_neg hl, if_neg hl]; rfl
            rw [h1, h2, h3, List.append_nil]
          · rw [if_neg (by rw [hch]; simpa using hw)]
            have h1 : onVoice [(w, Message.midiEvent d (.noteOn ch (drumNote ch n) vel))] v = [] := onVoice_other _ _ (by simpa using hw)
            have h2 : onVoice (outPerc k d ch n w) v = [] := by
              apply onVoice_other; unfold outPerc; split_ifs <;> simp [hw]
            have h3 : onVoice (outSwitch k ch w) v = [] := by
              apply onVoice_other; unfold outSwitch outOpt
              split_ifs
              · intro p hp
                simp only [List.mem_append, Option.mem_toList, Option.map_eq_some_iff] at hp
                rcases hp with (⟨_, _, rfl⟩ | ⟨_, _, rfl⟩) | ⟨_, _, rfl⟩ <;> exact hw
              · simp
            rw [h1, h2, h3]; rfl
      · simp only [Option.some.injEq, Prod.mk.injEq] at he
        simp only
        rw [if_neg (by tauto)]
        apply noprog
        rw [← he.1]
        intro p hp
        unfold outClose at hp
        split at hp
        · simp only [List.mem_singleton] at hp; rw [hp]; rfl
        · simp at hp
    | noteOff ch n vel =>
      simp only [emit] at he
      apply noprog
      split at he <;> simp only [Option.some.injEq, Prod.mk.injEq] at he <;> rw [← he.1]
      · intro p hp; simp only [List.mem_singleton] at hp; rw [hp]; rfl
      · simp
    | polyphonicKeyPressure ch n x =>
      simp only [emit] at he
      apply noprog
      split at he <;> simp only [Option.some.injEq, Prod.mk.injEq] at he <;> rw [← he.1]
      · intro p hp; simp only [List.mem_singleton] at hp; rw [hp]; rfl
      · simp
    | controlChange ch c x =>
      simp only [emit, Option.some.injEq, Prod.mk.injEq] at he
      apply noprog
      rw [← he.1]
      intro p hp
      rw [((mem_outChannel ord ho _ _ _ _ _).1 hp).1]; rfl
    | programChange ch x =>
      simp only [emit, Option.some.injEq, Prod.mk.injEq] at he
      unfold voiceProgs
      rw [← he.1]
      have hall : ∀ y ∈ progs (onVoice (outChannel ord base k ch (.midiEvent d (.programChange ch x))) v), y = (ch, x) := by
        intro y hy
        unfold progs at hy
        obtain ⟨m, hm, hp⟩ := List.mem_filterMap.1 hy
        have h2 := ((mem_outChannel ord ho _ _ _ _ _).1 ((mem_onVoice _ _ _).1 hm)).1
        simp only at h2
        rw [h2] at hp
        simp only [programOf, Option.some.injEq] at hp; exact hp.symm
      refine ⟨fun hc => ⟨?_, hall⟩, fun hc => ?_⟩
      · have : (ch, x) ∈ progs (onVoice (outChannel ord base k ch (.midiEvent d (.programChange ch x))) v) := by
          unfold progs
          exact List.mem_filterMap.2 ⟨_, (mem_onVoice _ _ _).2 ((mem_outChannel ord ho _ _ _ _ (v, _)).2 ⟨rfl, hc⟩), rfl⟩
        exact List.ne_nil_of_mem this
      · apply progs_nil
        intro m hm
        exact absurd ((mem_outChannel ord ho _ _ _ _ _).1 ((mem_onVoice _ _ _).1 hm)).2 hc
    | channelPressure ch x =>
      simp only [emit, Option.some.injEq, Prod.mk.injEq] at he
      apply noprog
      rw [← he.1]
      intro p hp
      rw [((mem_outChannel ord ho _ _ _ _ _).1 hp).1]; rfl
    | pitchBendChange ch x =>
      simp only [emit, Option.some.injEq, Prod.mk.injEq] at he
      apply noprog
      rw [← he.1]
      intro p hp
      rw [((mem_outChannel ord ho _ _ _ _ _).1 hp).1]; rfl
    | unknown ch =>
      simp only [emit, Option.some.injEq, Prod.mk.injEq] at he
      apply noprog
      rw [← he.1]; simp
  | metaEvent d e data =>
    apply noprog
    cases e <;> simp only [emit, Option.some.injEq, Prod.mk.injEq] at he <;> rw [← he.1] <;> simp [programOf]
  | sysEx d data =>
    simp only [emit, Option.some.injEq, Prod.mk.injEq] at he
    apply noprog
    rw [← he.1]; simp [programOf]
  | trackChange =>
    simp only [emit, Option.some.injEq, Prod.mk.injEq] at he
    apply noprog
    rw [← he.1]; simp

/-- The last program change of channel `ch` among the messages. -/
def progIn (ch : Fin 16) (l : List TMsg) : Option (Fin 16 × UInt8) := lastProgram (l.filter fun m => home m.1 = some ch)

theorem home_program (m : Message) (c : Fin 16) (p : UInt8) (h : programOf m = some (c, p)) : home m = some c := by
  unfold programOf at h; split at h
  · simp only [Option.some.injEq, Prod.mk.injEq] at h; rw [← h.1]; rfl
  · cases h

theorem progIn_snoc (ch : Fin 16) (l : List TMsg) (m : Message) (t : Nat) :
    progIn ch (l ++ [(m, t)]) = if home m = some ch then (programOf m).or (progIn ch l) else progIn ch l := by
  unfold progIn
  rw [List.filter_append, lastProgram_append]
  by_cases h : home m = some ch
  · simp only [h, if_true, List.filter_cons, decide_true, List.filter_nil]
    congr 1
    unfold lastProgram
    simp only [List.filterMap_cons, List.filterMap_nil]
    cases programOf m <;> rfl
  · rw [if_neg h]
    simp [h, lastProgram]

theorem startsOn_noteOn (d : Nat) (c : Fin 16) (n vel : UInt8) (h : vel > 0) : startsOn c (.midiEvent d (.noteOn c n vel)) = true := by
  have hv0 : vel ≠ 0 := by rintro rfl; exact absurd h (by decide)
  simp [startsOn, starts, home, hv0]

/-- How the remembered program of a channel other than the drum channel changes. -/
theorem lastProg_step (ord : EnumOrder) (base : Fin 16 → Fin 8) (k : Ctl) (m : Message) (o : List (Fin 8 × Message)) (k' : Ctl)
    (he : emit ord base k m = some (o, k')) (c : Fin 16) (hc : c = 9 → startsOn 9 m = false) :
    k'.lastProg c = if (programOf m).map (·.1) = some c then some m else k.lastProg c := by
  cases m with
  | midiEvent d e =>
    cases e with
    | noteOn ch n vel =>
      rw [if_neg (by simp [programOf])]
      simp only [emit] at he
      split_ifs at he with hv
      · cases hch : chooseVoice base (ctlClose k ch n).active ch with
        | none => rw [hch] at he; cases he
        | some v =>
          rw [hch] at he
          simp only [Option.some.injEq, Prod.mk.injEq] at he
          rw [← he.2]
          unfold ctlOpen
          simp only
          rw [(ctlClose_last k ch n).2.1]
          split_ifs with h9
          · rw [Function.update_of_ne]
            rintro rfl
            have := hc h9.1
            rw [h9.1, startsOn_noteOn d 9 n vel hv] at this
            cases this
          · rfl
      · simp only [Option.some.injEq, Prod.mk.injEq] at he
        rw [← he.2, (ctlClose_last k ch n).2.1]
    | noteOff ch n vel =>
      rw [if_neg (by simp [programOf])]
      simp only [emit] at he
      split at he
      · simp only [Option.some.injEq, Prod.mk.injEq] at he
        rw [← he.2, (ctlClose_last k ch n).2.1]
      · simp only [Option.some.injEq, Prod.mk.injEq] at he
        rw [← he.2]
    | polyphonicKeyPressure ch n x =>
      rw [if_neg (by simp [programOf])]
      simp only [emit] at he
      split at he <;> simp only [Option.some.injEq, Prod.mk.injEq] at he <;> rw [← he.2]
    | controlChange ch c x =>
      rw [if_neg (by simp [programOf])]
      simp only [emit, Option.some.injEq, Prod.mk.injEq] at he
      rw [← he.2]; split_ifs <;> rfl
    | programChange ch x =>
      simp only [emit, Option.some.injEq, Prod.mk.injEq] at he
      rw [← he.2]
      simp only [programOf, Option.map_some, Option.some.injEq]
      split_ifs with h
      · rw [h, Function.update_self]
      · rw [Function.update_of_ne (Ne.symm h)]
    | channelPressure ch x =>
      rw [if_neg (by simp [programOf])]
      simp only [emit, Option.some.injEq, Prod.mk.injEq] at he
      rw [← he.2]
    | pitchBendChange ch x =>
      rw [if_neg (by simp [programOf])]
      simp only [emit, Option.some.injEq, Prod.mk.injEq] at he
      rw [← he.2]
    | unknown ch =>
      rw [if_neg (by simp [programOf])]
      simp only [emit, Option.some.injEq, Prod.mk.injEq] at he
      rw [← he.2]
  | metaEvent d e data =>
    rw [if_neg (by simp [programOf])]
    cases e <;> simp only [emit, Option.some.injEq, Prod.mk.injEq] at he <;> rw [← he.2]
  | sysEx d data =>
    rw [if_neg (by simp [programOf])]
    simp only [emit, Option.some.injEq, Prod.mk.injEq] at he
    rw [← he.2]
  | trackChange =>
    rw [if_neg (by simp [programOf])]
    simp only [emit, Option.some.injEq, Prod.mk.injEq] at he
    rw [← he.2]

theorem progIn_step (ch : Fin 16) (k k' : Ctl) (m : Message) (t : Nat) (done : List TMsg) (h : (k.lastProg ch).bind programOf = progIn ch done)
    (hs : k'.lastProg ch = if (programOf m).map (·.1) = some ch then some m else k.lastProg ch) :
    (k'.lastProg ch).bind programOf = progIn ch (done ++ [(m, t)]) := by
  rw [progIn_snoc, hs]
  cases hp : programOf m with
  | none =>
    rw [if_neg (by simp)]
    split_ifs
    · simpa using h
    · exact h
  | some cp =>
    obtain ⟨c, p⟩ := cp
    have hh := home_program m c p hp
    rw [hh]
    simp only [Option.map_some, Option.some.injEq]
    split_ifs
    · simp [hp]
    · exact h

theorem getLast_const {α : Type} (l : List α) (x : α) (h1 : l ≠ []) (h2 : ∀ y ∈ l, y = x) : l.getLast? = some x := by
  rw [List.getLast?_eq_some_getLast h1, h2 _ (List.getLast_mem h1)]

/-- Channel `ch` is the only one with program changes on its base voice. -/
structure Alone (base : Fin 16 → Fin 8) (ch : Fin 16) (done : List TMsg) (outs : List (Fin 8 × TMsg)) (k : Ctl) : Prop where
  lasts : Lasts k
  places : Places base k
  prog : (k.lastProg ch).bind programOf = progIn ch done
  quiet : ∀ c ≠ ch, base c = base ch → k.lastProg c = none
  voice : lastProgram (onVoice outs (base ch)) = progIn ch done

/-- The messages of the other channels on the base voice of `ch` select no program. -/
def NoRival (base : Fin 16 → Fin 8) (ch : Fin 16) (m : Message) : Prop :=
  ∀ c ≠ ch, base c = base ch → (programOf m).map (·.1) ≠ some c ∧ (c = 9 → startsOn 9 m = false)

theorem alone_step (ord : EnumOrder) (ho : ∀ l, (ord l).Perm l) (base : Fin 16 → Fin 8) (ch : Fin 16) (hch : ch ≠ 9) (done : List TMsg)
    (outs : List (Fin 8 × TMsg)) (k : Ctl) (m : Message) (t : Nat) (o : List (Fin 8 × Message)) (k' : Ctl) (h : Alone base ch done outs k)
    (hm : NoRival base ch m) (he : emit ord base k m = some (o, k')) :
    Alone base ch (done ++ [(m, t)]) (outs ++ o.map fun p => (p.1, (p.2, t))) k' := by
  have hstep := lastProg_step ord base k m o k' he ch (fun h9 => absurd h9 hch)
  have hp := progIn_step ch k k' m t done h.prog hstep
  refine ⟨lasts_step ord base k m o k' h.lasts he, places_step ord base k m o k' h.places he, hp, ?_, ?_⟩
  · intro c hc hb
    obtain ⟨h1, h2⟩ := hm c hc hb
    rw [lastProg_step ord base k m o k' he c h2, if_neg h1, h.quiet c hc hb]
  · rw [onVoice_append, onVoice_stamp, lastProgram_append, lastProgram_stamp, h.voice, ← hp, hstep, ← h.prog]
    have hv := emit_progs ord ho base k h.lasts m o k' he (base ch)
    generalize progs (onVoice o (base ch)) = l at hv
    -- programs on the base voice
    cases m with
    | midiEvent d e =>
      cases e with
      | programChange c p =>
        obtain ⟨hv1, hv2⟩ := hv
        by_cases hc : c = ch
        · subst hc
          obtain ⟨h1, h2⟩ := hv1 (.inl rfl)
          rw [getLast_const l _ h1 h2]
          simp [programOf]
        · have hnb : base c ≠ base ch := fun hb => (hm c hc hb).1 rfl
          rw [hv2]
          · rw [if_neg (by simpa [programOf] using hc)]; rfl
          · rintro (hb | ⟨n, hn⟩)
            · exact hnb hb.symm
            · rcases h.places.place c n _ hn with hb | hb
              · exact hnb hb.symm
              · exact hb ch rfl
      | noteOn c n vel =>
        simp only [voiceProgs] at hv
        rw [if_neg (by simp [programOf])]
        by_cases hcv : vel > 0 ∧ chooseVoice base (ctlClose k c n).active c = some (base ch)
        · rw [if_pos hcv] at hv
          have hb : base c = base ch := by
            rcases choose_place _ _ _ _ hcv.2 with hb | hb
            · exact hb.symm
            · exact absurd rfl (hb ch)
          by_cases hc : c = ch
          · subst hc
            rw [hv, if_neg (show ¬ (c = 9 ∧ k.lastPerc ≠ percInstr n) from fun h9 => hch h9.1), List.append_nil]
            split_ifs
            · cases (k.lastProg c).bind programOf <;> rfl
            · rfl
          · have h9 : ¬ (c = 9) := by
              intro h9
              have := (hm c hc hb).2 h9
              rw [h9, startsOn_noteOn d 9 n vel hcv.1] at this
              cases this
            rw [hv, h.quiet c hc hb, if_neg (show ¬ (c = 9 ∧ k.lastPerc ≠ percInstr n) from fun h => h9 h.1)]
            simp
        · rw [if_neg hcv] at hv
          rw [hv]; rfl
      | _ => simp only [voiceProgs] at hv; rw [hv, if_neg (by simp [programOf])]; rfl
    | _ => simp only [voiceProgs] at hv; rw [hv, if_neg (by simp [programOf])]; rfl

theorem alone_emits (ord : EnumOrder) (ho : ∀ l, (ord l).Perm l) (base : Fin 16 → Fin 8) (ch : Fin 16) (hch : ch ≠ 9) (seq : List TMsg)
    (outs : List (Fin 8 × TMsg)) (k : Ctl) (hm : ∀ m ∈ seq, NoRival base ch m.1) (he : emits ord base (ctl0 base) seq = some (outs, k)) : Alone base ch seq outs k := by
  refine emits_nil_induct ord base (fun done outs k => (∀ m ∈ done, NoRival base ch m.1) → Alone base ch done outs k) ?_ seq _ k outs ?_ he hm
  · intro done outs k m t o k' ih he hd
    exact alone_step ord ho base ch hch done outs k m t o k' (ih fun x hx => hd x (by simp [hx])) (hd (m, t) (by simp)) he
  · intro _
    exact ⟨lasts_init base, places_init base, rfl, fun _ _ _ => rfl, rfl⟩

/-- The programs of a channel before a note start in processing order are those up to its time. -/
theorem progIn_at (ch : Fin 16) (full done rest : List TMsg) (m : Message) (t : Nat) (hf : full = done ++ (m, t) :: rest) (hs : full.Pairwise Before)
    (hm : starts m = true) : progIn ch done = programAt (full.filter fun m => home m.1 = some ch) t := by
  unfold progIn programAt lastProgram
  rw [List.filter_filter]
  subst hf
  rw [List.pairwise_append] at hs
  obtain ⟨-, h2, h3⟩ := hs
  rw [List.pairwise_cons] at h2
  rw [List.filter_append, List.filterMap_append]
  have e1 : (done.filter fun a => decide (a.2 ≤ t) && decide (home a.1 = some ch)) = done.filter fun m => home m.1 = some ch := by
    apply List.filter_congr
    intro a ha
    have : a.2 ≤ t := by
      rcases h3 a ha (m, t) (by simp) with h | h
      · exact le_of_lt h
      · exact le_of_eq h.1
    simp [this]
  have e2 : (((m, t) :: rest).filter fun a => decide (a.2 ≤ t) && decide (home a.1 = some ch)).filterMap (fun m => programOf m.1) = [] := by
    rw [List.filterMap_eq_nil_iff]
    intro a ha
    obtain ⟨ha, hc⟩ := List.mem_filter.1 ha
    simp only [Bool.and_eq_true, decide_eq_true_eq] at hc
    have hr : 2 ≤ rank a.1 := by
      have hrm : rank m = 2 := by
        unfold rank
        have : ends m = false := by
          cases m with
          | midiEvent d e => cases e <;> simp_all [starts, ends]
          | _ => simp [starts] at hm
        simp [this, hm]
      rcases List.mem_cons.1 ha with rfl | ha
      · exact le_of_eq hrm.symm
      · rcases h2.1 a ha with h | h
        · simp only at h; omega
        · simp only at h; omega
    cases hp : programOf a.1 with
    | none => rfl
    | some cp =>
      exfalso
      unfold programOf at hp
      split at hp
      · next h => rw [h] at hr; simp [rank, ends, starts] at hr
      · cases hp
  rw [e1, e2, List.append_nil]

theorem merge_before {seq : List (Fin 16 × TMsg)} (h : seq.Pairwise MergeOrder) : (seq.map (·.2)).Pairwise Before := by
  rw [List.pairwise_map]
  refine h.imp ?_
  intro a b hab
  unfold MergeOrder at hab
  unfold Before
  omega

/-- A voice that is no channel's base voice, last used by channel `ch` whose program no longer changes. -/
structure Stray (base : Fin 16 → Fin 8) (ch : Fin 16) (v : Fin 8) (done : List TMsg) (outs : List (Fin 8 × TMsg)) (k : Ctl) : Prop where
  lasts : Lasts k
  places : Places base k
  prog : (k.lastProg ch).bind programOf = progIn ch done
  started : k.lastChan v = some ch → ∃ m ∈ done, startsOn ch m.1 = true
  voice : k.lastChan v = some ch → lastProgram (onVoice outs v) = progIn ch done

/-- How the channel a voice last played changes. -/
theorem lastChan_step (ord : EnumOrder) (base : Fin 16 → Fin 8) (k : Ctl) (m : Message) (o : List (Fin 8 × Message)) (k' : Ctl)
    (he : emit ord base k m = some (o, k')) (v : Fin 8) :
    k'.lastChan v = k.lastChan v ∧ (∀ d c n vel, m = .midiEvent d (.noteOn c n vel) → vel > 0 → chooseVoice base (ctlClose k c n).active c ≠ some v) ∨
      ∃ d c n vel, m = .midiEvent d (.noteOn c n vel) ∧ vel > 0 ∧ chooseVoice base (ctlClose k c n).active c = some v ∧ k'.lastChan v = some c := by
  cases m with
  | midiEvent d e =>
    cases e with
    | noteOn ch n vel =>
      simp only [emit] at he
      split_ifs at he with hv
      · cases hch : chooseVoice base (ctlClose k ch n).active ch with
        | none => rw [hch] at he; cases he
        | some w =>
          rw [hch] at he
          simp only [Option.some.injEq, Prod.mk.injEq] at he
          by_cases hw : w = v
          · subst hw
            right
            refine ⟨d, ch, n, vel, rfl, hv, hch, ?_⟩
            rw [← he.2]; simp [ctlOpen]
          · left
            constructor
            · rw [← he.2]
              simp only [ctlOpen]
              rw [Function.update_of_ne (Ne.symm hw), (ctlClose_last k ch n).2.2.2.1]
            · intro d' c n' vel' hm _ hc
              cases hm
              rw [hch] at hc
              exact hw (by simpa using hc)
      · left
        simp only [Option.some.injEq, Prod.mk.injEq] at he
        refine ⟨by rw [← he.2, (ctlClose_last k ch n).2.2.2.1], ?_⟩
        intro d' c n' vel' hm hv'
        cases hm; exact absurd hv' hv
    | noteOff ch n vel =>
      left
      refine ⟨?_, by intro _ _ _ _ h; cases h⟩
      simp only [emit] at he
      split at he
      · simp only [Option.some.injEq, Prod.mk.injEq] at he
        rw [← he.2, (ctlClose_last k ch n).2.2.2.1]
      · simp only [Option.some.injEq, Prod.mk.injEq] at he
        rw [← he.2]
    | polyphonicKeyPressure ch n x =>
      left
      refine ⟨?_, by intro _ _ _ _ h; cases h⟩
      simp only [emit] at he
      split at he <;> simp only [Option.some.injEq, Prod.mk.injEq] at he <;> rw [← he.2]
    | controlChange ch c x =>
      left
      refine ⟨?_, by intro _ _ _ _ h; cases h⟩
      simp only [emit, Option.some.injEq, Prod.mk.injEq] at he
      rw [← he.2]; split_ifs <;> rfl
    | _ =>
      left
      refine ⟨?_, by intro _ _ _ _ h; cases h⟩
      simp only [emit, Option.some.injEq, Prod.mk.injEq] at he
      rw [← he.2]
  | metaEvent d e data =>
    left
    refine ⟨?_, by intro _ _ _ _ h; cases h⟩
    cases e <;> simp only [emit, Option.some.injEq, Prod.mk.injEq] at he <;> rw [← he.2]
  | sysEx d data =>
    left
    refine ⟨?_, by intro _ _ _ _ h; cases h⟩
    simp only [emit, Option.some.injEq, Prod.mk.injEq] at he
    rw [← he.2]
  | trackChange =>
    left
    refine ⟨?_, by intro _ _ _ _ h; cases h⟩
    simp only [emit, Option.some.injEq, Prod.mk.injEq] at he
    rw [← he.2]

theorem stray_step (ord : EnumOrder) (ho : ∀ l, (ord l).Perm l) (base : Fin 16 → Fin 8) (ch : Fin 16) (hch : ch ≠ 9) (v : Fin 8) (hv : ∀ c, base c ≠ v)
    (done : List TMsg) (outs : List (Fin 8 × TMsg)) (k : Ctl) (m : Message) (t : Nat) (o : List (Fin 8 × Message)) (k' : Ctl) (h : Stray base ch v done outs k)
    (hm : (∃ x ∈ done, startsOn ch x.1 = true) → (programOf m).map (·.1) ≠ some ch) (hm2 : startsOn ch m = true → progIn ch done ≠ none)
    (he : emit ord base k m = some (o, k')) : Stray base ch v (done ++ [(m, t)]) (outs ++ o.map fun p => (p.1, (p.2, t))) k' := by
  have hstep := lastProg_step ord base k m o k' he ch (fun h9 => absurd h9 hch)
  have hp := progIn_step ch k k' m t done h.prog hstep
  have hvp := emit_progs ord ho base k h.lasts m o k' he v
  refine ⟨lasts_step ord base k m o k' h.lasts he, places_step ord base k m o k' h.places he, hp, ?_, ?_⟩
  · intro hl
    rcases lastChan_step ord base k m o k' he v with ⟨h1, -⟩ | ⟨d, c, n, vel, rfl, h2, h3, h4⟩
    · rw [h1] at hl
      obtain ⟨x, hx, hs⟩ := h.started hl
      exact ⟨x, by simp [hx], hs⟩
    · rw [h4] at hl
      cases hl
      refine ⟨(.midiEvent d (.noteOn ch n vel), t), by simp, ?_⟩
      have hv0 : vel ≠ 0 := by rintro rfl; exact absurd h2 (by decide)
      simp [startsOn, starts, home, hv0]
  · intro hl
    rw [onVoice_append, onVoice_stamp, lastProgram_append, lastProgram_stamp]
    generalize progs (onVoice o v) = l at hvp
    rcases lastChan_step ord base k m o k' he v with ⟨h1, h1'⟩ | ⟨d, c, n, vel, rfl, h2, h3, h4⟩
    · rw [h1] at hl
      have hnp := hm (h.started hl)
      rw [if_neg hnp] at hstep
      rw [← hp, hstep, h.prog, h.voice hl]
      have : l = [] := by
        cases m with
        | midiEvent d e =>
          cases e with
          | programChange c p =>
            apply hvp.2
            rintro (hb | ⟨n, hn⟩)
            · exact hv c hb.symm
            · have := h.places.chan c n v hn
              rw [hl] at this
              exact hnp (by simpa [programOf] using this.symm)
          | noteOn c n vel =>
            simp only [voiceProgs] at hvp
            by_cases hc : vel > 0 ∧ chooseVoice base (ctlClose k c n).active c = some v
            · exact absurd hc.2 (h1' d c n vel rfl hc.1)
            · rwa [if_neg hc] at hvp
          | _ => exact hvp
        | _ => exact hvp
      rw [this]; rfl
    · rw [h4] at hl
      cases hl
      simp only [voiceProgs] at hvp
      rw [if_pos ⟨h2, h3⟩, if_neg (show ¬ (ch = 9 ∧ k.lastPerc ≠ percInstr n) from fun h9 => hch h9.1), List.append_nil] at hvp
      rw [if_neg (by simp [programOf])] at hstep
      rw [← hp, hstep, hvp]
      have hv0 : vel ≠ 0 := by rintro rfl; exact absurd h2 (by decide)
      have hne := hm2 (by simp [startsOn, starts, home, hv0])
      rw [← h.prog] at hne
      split_ifs with hlc
      · cases hx : (k.lastProg ch).bind programOf with
        | none => exact absurd hx hne
        | some x => rfl
      · simp only [List.getLast?_nil, Option.none_or]
        rw [h.voice (by simpa using hlc), h.prog]

theorem stray_emits (ord : EnumOrder) (ho : ∀ l, (ord l).Perm l) (base : Fin 16 → Fin 8) (ch : Fin 16) (hch : ch ≠ 9) (v : Fin 8) (hv : ∀ c, base c ≠ v)
    (seq : List TMsg) (outs : List (Fin 8 × TMsg)) (k : Ctl)
    (h1 : ∀ a x b, seq = a ++ x :: b → (∃ y ∈ a, startsOn ch y.1 = true) → (programOf x.1).map (·.1) ≠ some ch)
    (h2 : ∀ a x b, seq = a ++ x :: b → startsOn ch x.1 = true → progIn ch a ≠ none)
    (he : emits ord base (ctl0 base) seq = some (outs, k)) : Stray base ch v seq outs k := by
  refine emits_nil_induct ord base (fun done outs k => (∃ rest, seq = done ++ rest) → Stray base ch v done outs k) ?_ seq _ k outs ?_ he ⟨[], by simp⟩
  · rintro done outs k m t o k' ih he ⟨rest, hd⟩
    have hd' : seq = done ++ (m, t) :: rest := by rw [hd]; simp
    exact stray_step ord ho base ch hch v hv done outs k m t o k' (ih ⟨_, hd'⟩) (h1 _ _ _ hd') (h2 _ _ _ hd') he
  · intro _
    have hn : (ctl0 base).lastChan v = none := by
      show (List.finRange 16).find? (fun c => base c = v) = none
      rw [List.find?_eq_none]
      intro c _; simpa using hv c
    exact ⟨lasts_init base, places_init base, rfl, fun h => (by rw [hn] at h; cases h), fun h => (by rw [hn] at h; cases h)⟩

/-- Percussion: all drum notes on the drum channel's base voice, no other channel selects programs there. -/
structure Drums (base : Fin 16 → Fin 8) (outs : List (Fin 8 × TMsg)) (k : Ctl) : Prop where
  lasts : Lasts k
  places : Places base k
  quiet : ∀ c ≠ 9, base c = base 9 → k.lastProg c = none
  perc : (k.lastPerc = 0 ∧ k.lastProg 9 = none ∧ lastProgram (onVoice outs (base 9)) = none) ∨
    ((k.lastProg 9).bind programOf = some (9, k.lastPerc) ∧ lastProgram (onVoice outs (base 9)) = some (9, k.lastPerc))

/-- How percussion state changes at events other than drum notes. -/
theorem lastPerc_step (ord : EnumOrder) (base : Fin 16 → Fin 8) (k : Ctl) (m : Message) (o : List (Fin 8 × Message)) (k' : Ctl)
    (he : emit ord base k m = some (o, k')) (h : startsOn 9 m = false) : k'.lastPerc = k.lastPerc := by
  cases m with
  | midiEvent d e =>
    cases e with
    | noteOn ch n vel =>
      simp only [emit] at he
      split_ifs at he with hv
      · cases hch : chooseVoice base (ctlClose k ch n).active ch with
        | none => rw [hch] at he; cases he
        | some v =>
          rw [hch] at he
          simp only [Option.some.injEq, Prod.mk.injEq] at he
          rw [← he.2]
          simp only [ctlOpen]
          rw [if_neg, (ctlClose_last k ch n).2.2.2.2]
          rintro rfl
          rw [startsOn_noteOn d 9 n vel hv] at h; cases h
      · simp only [Option.some.injEq, Prod.mk.injEq] at he
        rw [← he.2, (ctlClose_last k ch n).2.2.2.2]
    | noteOff ch n vel =>
      simp only [emit] at he
      split at he
      · simp only [Option.some.injEq, Prod.mk.injEq] at he
        rw [← he.2, (ctlClose_last k ch n).2.2.2.2]
      · simp only [Option.some.injEq, Prod.mk.injEq] at he
        rw [← he.2]
    | polyphonicKeyPressure ch n x =>
      simp only [emit] at he
      split at he <;> simp only [Option.some.injEq, Prod.mk.injEq] at he <;> rw [← he.2]
    | controlChange ch c x =>
      simp only [emit, Option.some.injEq, Prod.mk.injEq] at he
      rw [← he.2]; split_ifs <;> rfl
    | _ =>
      simp only [emit, Option.some.injEq, Prod.mk.injEq] at he
      rw [← he.2]
  | metaEvent d e data =>
    cases e <;> simp only [emit, Option.some.injEq, Prod.mk.injEq] at he <;> rw [← he.2]
  | sysEx d data =>
    simp only [emit, Option.some.injEq, Prod.mk.injEq] at he
    rw [← he.2]
  | trackChange =>
    simp only [emit, Option.some.injEq, Prod.mk.injEq] at he
    rw [← he.2]

theorem percInstr_ne (n : UInt8) : percInstr n ≠ 0 := by
  unfold percInstr; split_ifs <;> decide

theorem drums_step (ord : EnumOrder) (ho : ∀ l, (ord l).Perm l) (base : Fin 16 → Fin 8) (outs : List (Fin 8 × TMsg)) (k : Ctl) (m : Message) (t : Nat)
    (o : List (Fin 8 × Message)) (k' : Ctl) (h : Drums base outs k) (hm : ∀ c, base c = base 9 → (programOf m).map (·.1) ≠ some c)
    (hs : ∀ p ∈ o, startsOn 9 p.2 = true → p.1 = base 9) (he : emit ord base k m = some (o, k')) :
    Drums base (outs ++ o.map fun p => (p.1, (p.2, t))) k' := by
  have hvp := emit_progs ord ho base k h.lasts m o k' he (base 9)
  refine ⟨lasts_step ord base k m o k' h.lasts he, places_step ord base k m o k' h.places he, ?_, ?_⟩
  · intro c hc hb
    rw [lastProg_step ord base k m o k' he c (fun h => absurd h hc), if_neg (hm c hb), h.quiet c hc hb]
  · rw [onVoice_append, onVoice_stamp, lastProgram_append, lastProgram_stamp]
    generalize progs (onVoice o (base 9)) = l at hvp
    by_cases hd : startsOn 9 m = true
    · -- a drum note
      cases m with
      | midiEvent d e =>
        cases e with
        | noteOn c n vel =>
          obtain ⟨hst, hc⟩ : starts (.midiEvent d (.noteOn c n vel)) = true ∧ home (.midiEvent d (.noteOn c n vel)) = some 9 := by
            simpa [startsOn] using hd
          have hc : c = 9 := by simpa [home] using hc
          subst hc
          have hv : vel > 0 := by
            have hv0 : vel ≠ 0 := by simpa [starts] using hst
            show (0 : UInt8) < vel
            rw [UInt8.lt_iff_toNat_lt]
            have : vel.toNat ≠ 0 := fun h => hv0 (UInt8.toNat_inj.1 (by simpa using h))
            simp; omega
          simp only [emit, if_pos hv] at he
          cases hch : chooseVoice base (ctlClose k 9 n).active 9 with
          | none => rw [hch] at he; cases he
          | some w =>
            rw [hch] at he
            simp only [Option.some.injEq, Prod.mk.injEq] at he
            obtain ⟨he1, he2⟩ := he
            have hw : w = base 9 := by
              apply hs (w, .midiEvent d (.noteOn 9 (drumNote 9 n) vel))
              · rw [← he1]; simp
              · exact startsOn_noteOn _ _ _ _ hv
            subst hw
            simp only [voiceProgs] at hvp
            rw [if_pos ⟨hv, hch⟩] at hvp
            right
            have e1 : k'.lastPerc = percInstr n := by rw [← he2]; rfl
            rw [e1]
            by_cases hp : k.lastPerc = percInstr n
            · rw [if_neg (show ¬ (True ∧ k.lastPerc ≠ percInstr n) from fun h => h.2 hp), List.append_nil] at hvp
              have e2 : k'.lastProg 9 = k.lastProg 9 := by
                rw [← he2]; simp only [ctlOpen]
                rw [(ctlClose_last k 9 n).2.2.2.2, (ctlClose_last k 9 n).2.1]
                rw [if_neg (fun h => h.2 hp)]
              rcases h.perc with ⟨h0, -, -⟩ | ⟨p1, p2⟩
              · rw [hp] at h0; exact absurd h0 (percInstr_ne n)
              · rw [e2, ← hp]
                refine ⟨p1, ?_⟩
                rw [hvp, p1, p2]
                split_ifs <;> rfl
            · rw [if_pos (show True ∧ k.lastPerc ≠ percInstr n from ⟨trivial, hp⟩)] at hvp
              have e2 : k'.lastProg 9 = some (.midiEvent d (.programChange 9 (percInstr n))) := by
                rw [← he2]; simp only [ctlOpen]
                rw [(ctlClose_last k 9 n).2.2.2.2, if_pos ⟨trivial, hp⟩, Function.update_self]
              rw [e2, hvp]
              refine ⟨rfl, ?_⟩
              rw [List.getLast?_append]; rfl
        | _ => simp [startsOn, starts] at hd
      | _ => simp [startsOn, starts] at hd
    · have hd' : startsOn 9 m = false := by simpa using hd
      rw [lastPerc_step ord base k m o k' he hd', lastProg_step ord base k m o k' he 9 (fun _ => hd'), if_neg (hm 9 rfl)]
      have : l = [] := by
        cases m with
        | midiEvent d e =>
          cases e with
          | programChange c p =>
            apply hvp.2
            have hnb : base c ≠ base 9 := fun hb => hm c hb rfl
            rintro (hb | ⟨n, hn⟩)
            · exact hnb hb.symm
            · rcases h.places.place c n _ hn with hb | hb
              · exact hnb hb.symm
              · exact hb 9 rfl
          | noteOn c n vel =>
            simp only [voiceProgs] at hvp
            by_cases hcv : vel > 0 ∧ chooseVoice base (ctlClose k c n).active c = some (base 9)
            · rw [if_pos hcv] at hvp
              have hc9 : c ≠ 9 := by
                rintro rfl
                exact hd (startsOn_noteOn d 9 n vel hcv.1)
              have hb : base c = base 9 := by
                rcases choose_place _ _ _ _ hcv.2 with hb | hb
                · exact hb.symm
                · exact absurd rfl (hb 9)
              rw [hvp, h.quiet c hc9 hb, if_neg (show ¬ (c = 9 ∧ k.lastPerc ≠ percInstr n) from fun h => hc9 h.1)]
              simp
            · rwa [if_neg hcv] at hvp
          | _ => exact hvp
        | _ => exact hvp
      rw [this]
      simpa using h.perc

theorem drums_emits (ord : EnumOrder) (ho : ∀ l, (ord l).Perm l) (base : Fin 16 → Fin 8) (seq : List TMsg) (outs : List (Fin 8 × TMsg)) (k : Ctl)
    (hm : ∀ m ∈ seq, ∀ c, base c = base 9 → (programOf m.1).map (·.1) ≠ some c) (hs : ∀ p ∈ outs, startsOn 9 p.2.1 = true → p.1 = base 9)
    (he : emits ord base (ctl0 base) seq = some (outs, k)) : Drums base outs k := by
  refine emits_nil_induct ord base (fun done outs k => (∀ m ∈ done, ∀ c, base c = base 9 → (programOf m.1).map (·.1) ≠ some c) →
    (∀ p ∈ outs, startsOn 9 p.2.1 = true → p.1 = base 9) → Drums base outs k) ?_ seq _ k outs ?_ he hm hs
  · intro done outs k m t o k' ih he hd hs
    refine drums_step ord ho base outs k m t o k' (ih (fun x hx => hd x (by simp [hx])) (fun p hp => hs p (by simp [hp]))) (hd (m, t) (by simp)) ?_ he
    intro p hp
    exact hs (p.1, (p.2, t)) (List.mem_append_right _ (List.mem_map.2 ⟨p, hp, rfl⟩))
  · intro _ _
    exact ⟨lasts_init base, places_init base, fun _ _ _ => rfl, .inl ⟨rfl, rfl, rfl⟩⟩

theorem lasts_emits (ord : EnumOrder) (base : Fin 16 → Fin 8) (seq : List TMsg) (outs : List (Fin 8 × TMsg)) (k : Ctl)
    (he : emits ord base (ctl0 base) seq = some (outs, k)) : Lasts k :=
  emits_nil_induct ord base (fun _ _ k => Lasts k) (fun _ _ k m _ o k' h he => lasts_step ord base k m o k' h he) seq _ k outs (lasts_init base) he

/-- What was on a voice when a note started: the emission before the event that started it and the messages that event put before the note. -/
theorem start_context (ord : EnumOrder) (base : Fin 16 → Fin 8) (seq : List TMsg) (outs : List (Fin 8 × TMsg)) (k : Ctl)
    (he : emits ord base (ctl0 base) seq = some (outs, k)) (v : Fin 8) (a b : List TMsg) (x : Message) (t : Nat)
    (hv : onVoice outs v = a ++ (x, t) :: b) (hx : starts x = true) :
    ∃ done rest outs1 k1 o1 k2 d c n vel, seq = done ++ (.midiEvent d (.noteOn c n vel), t) :: rest ∧ vel > 0 ∧ x = .midiEvent d (.noteOn c (drumNote c n) vel) ∧
      emits ord base (ctl0 base) done = some (outs1, k1) ∧
      emit ord base k1 (.midiEvent d (.noteOn c n vel)) = some (o1 ++ [(v, x)], k2) ∧ chooseVoice base (ctlClose k1 c n).active c = some v ∧
      lastProgram a = ((progs (onVoice (o1 ++ [(v, x)]) v)).getLast?).or (lastProgram (onVoice outs1 v)) ∧
      (∃ post, outs = outs1 ++ ((o1 ++ [(v, x)]).map fun q => (q.1, (q.2, t))) ++ post) := by
  obtain ⟨pre, post, h1, h2, h3⟩ := onVoice_split outs v a b (x, t) hv
  obtain ⟨done, m, t', rest, outs1, k1, o, k2, o1, o2, e1, e2, e3, e4, e5, e6⟩ := emits_split ord base seq _ _ _ pre (v, (x, t)) post he h1
  simp only at e4 e5
  subst e5
  rw [e4] at e3
  obtain ⟨d, c, n, vel, rfl, q2, q3, q4, q5⟩ := emit_start ord base k1 (lasts_emits ord base done outs1 k1 e2) m o1 o2 k2 v x e3 hx
  have ho2 : o2 = [] := by
    simp only [emit, if_pos q2, q4, Option.some.injEq, Prod.mk.injEq] at e3
    have := congrArg List.length e3.1
    rw [q5] at this
    simp only [List.length_append, List.length_cons, List.length_nil] at this
    exact List.length_eq_zero_iff.1 (by omega)
  subst ho2
  refine ⟨done, rest, outs1, k1, o1, k2, d, c, n, vel, e1, q2, q3, e2, e3, q4, ?_, post, ?_⟩
  · rw [← h2, e6, onVoice_append, onVoice_stamp, lastProgram_append, lastProgram_stamp, onVoice_append, progs_append]
    have : progs (onVoice [(v, x)] v) = [] := by rw [q3]; simp [onVoice, progs, programOf]
    rw [this, List.append_nil]
  · rw [h1, e6]; simp

end M2S
