import Verif.Proofs.Programs
import Verif.Spec.Volume
/-
Channel volumes on voices, in the same way as programs.
-/
namespace M2S
open MidiSpec

/-- Volumes among messages without times. -/
def vols (l : List Message) : List (Fin 16 × UInt8) := l.filterMap volumeOf

theorem lastVolume_append (a b : List TMsg) : lastVolume (a ++ b) = (lastVolume b).or (lastVolume a) := by
  unfold lastVolume
  rw [List.filterMap_append, List.getLast?_append]

theorem lastVolume_stamp (l : List Message) (t : Nat) : lastVolume (l.map fun m => (m, t)) = (vols l).getLast? := by
  unfold lastVolume vols
  rw [List.filterMap_map]; rfl

theorem vols_append (a b : List Message) : vols (a ++ b) = vols a ++ vols b := by simp [vols]

theorem vols_nil (l : List Message) (h : ∀ m ∈ l, volumeOf m = none) : vols l = [] := by
  unfold vols; rw [List.filterMap_eq_nil_iff]; exact h

theorem vols_outOpt (v : Fin 8) (m : Option Message) : vols (onVoice (outOpt v m) v) = (m.bind volumeOf).toList := by
  unfold outOpt onVoice vols
  cases m with
  | none => rfl
  | some m => simp [List.filterMap_cons]; cases volumeOf m <;> rfl

theorem volumeOf_some (m : Message) (c : Fin 16) (x : UInt8) : volumeOf m = some (c, x) ↔ ∃ d, m = .midiEvent d (.controlChange c 7 x) := by
  constructor
  · intro h
    unfold volumeOf at h
    split at h
    · simp only [Option.some.injEq, Prod.mk.injEq] at h
      obtain ⟨rfl, rfl⟩ := h
      exact ⟨_, rfl⟩
    · cases h
  · rintro ⟨d, rfl⟩; rfl

theorem volumeOf_control (d : Nat) (ch : Fin 16) (c x : UInt8) : volumeOf (.midiEvent d (.controlChange ch c x)) = if c = 7 then some (ch, x) else none := by
  split_ifs with h
  · subst h; rfl
  · cases hv : volumeOf (.midiEvent d (.controlChange ch c x)) with
    | none => rfl
    | some p =>
      obtain ⟨_, he⟩ := (volumeOf_some _ _ _).1 hv
      injection he with _ he
      injection he with _ he
      exact absurd he h

theorem home_volume (m : Message) (c : Fin 16) (p : UInt8) (h : volumeOf m = some (c, p)) : home m = some c := by
  obtain ⟨d, rfl⟩ := (volumeOf_some _ _ _).1 h; rfl

/-- The volumes an event puts on voice `v`. -/
structure VoiceVols (base : Fin 16 → Fin 8) (k : Ctl) (v : Fin 8) (m : Message) (l : List (Fin 16 × UInt8)) : Prop where
  set : ∀ c x, volumeOf m = some (c, x) → (v = base c ∨ ∃ n, (n, v) ∈ k.active c) → l ≠ [] ∧ ∀ y ∈ l, y = (c, x)
  away : ∀ c x, volumeOf m = some (c, x) → ¬ (v = base c ∨ ∃ n, (n, v) ∈ k.active c) → l = []
  start : ∀ d c n vel, m = .midiEvent d (.noteOn c n vel) → vel > 0 → chooseVoice base (ctlClose k c n).active c = some v →
    l = if k.lastChan v ≠ some c then ((k.lastCtrl c).bind volumeOf).toList else []
  other : volumeOf m = none → (∀ d c n vel, m = .midiEvent d (.noteOn c n vel) → vel > 0 → chooseVoice base (ctlClose k c n).active c ≠ some v) → l = []

theorem emit_vols (ord : EnumOrder) (ho : ∀ l, (ord l).Perm l) (base : Fin 16 → Fin 8) (k : Ctl) (hk : Lasts k) (m : Message) (o : List (Fin 8 × Message)) (k' : Ctl)
    (he : emit ord base k m = some (o, k')) (v : Fin 8) : VoiceVols base k v m (vols (onVoice o v)) := by
  have novol : (∀ p ∈ o, volumeOf p.2 = none) → vols (onVoice o v) = [] := by
    intro h
    apply vols_nil
    intro m hm
    exact h (v, m) ((mem_onVoice _ _ _).1 hm)
  have quiet : volumeOf m = none → (∀ d c n vel, m ≠ .midiEvent d (.noteOn c n vel)) → (∀ p ∈ o, volumeOf p.2 = none) → VoiceVols base k v m (vols (onVoice o v)) := by
    intro h1 h2 h3
    exact ⟨fun c x h => (by rw [h1] at h; cases h), fun c x h => (by rw [h1] at h; cases h), fun d c n vel h => absurd h (h2 d c n vel), fun _ _ => novol h3⟩
  have single : ∀ w, volumeOf m = none → o = [(w, m)] → ∀ p ∈ o, volumeOf p.2 = none := by
    rintro w h rfl p hp
    simp only [List.mem_singleton] at hp; rw [hp]; exact h
  have chan : ∀ ch, volumeOf m = none → outChannel ord base k ch m = o → ∀ p ∈ o, volumeOf p.2 = none := by
    rintro ch h rfl p hp
    rw [((mem_outChannel ord ho _ _ _ _ _).1 hp).1]; exact h
  cases m with
  | midiEvent d e =>
    cases e with
    | noteOn ch n vel =>
      have hclose : vols (onVoice (outClose k d ch n vel) v) = [] := by
        apply vols_nil
        intro m hm
        rw [mem_onVoice] at hm
        unfold outClose at hm
        split at hm
        · simp only [List.mem_singleton, Prod.mk.injEq] at hm; rw [hm.2]; rfl
        · simp at hm
      simp only [emit] at he
      refine ⟨fun c x h => (by cases h), fun c x h => (by cases h), ?_, ?_⟩
      · intro d' c n' vel' hm hv hch
        cases hm
        rw [if_pos hv, hch] at he
        simp only [Option.some.injEq, Prod.mk.injEq] at he
        rw [← he.1, onVoice_append, vols_append, hclose, List.nil_append, onVoice_append, vols_append, onVoice_append, vols_append]
        have h1 : vols (onVoice [(v, Message.midiEvent d (.noteOn ch (drumNote ch n) vel))] v) = [] := by
          simp [onVoice, vols, volumeOf]
        have h2 : vols (onVoice (outPerc k d ch n v) v) = [] := by
          unfold outPerc
          split_ifs <;> simp [onVoice, vols, volumeOf]
        have h3 : vols (onVoice (outSwitch k ch v) v) = if k.lastChan v ≠ some ch then ((k.lastCtrl ch).bind volumeOf).toList else [] := by
          unfold outSwitch
          by_cases hl : k.lastChan v ≠ some ch
          · rw [if_pos hl, if_pos hl, onVoice_append, vols_append, onVoice_append, vols_append, vols_outOpt, vols_outOpt, vols_outOpt]
            have c1 : (k.lastProg ch).bind volumeOf = none := by
              cases hx : k.lastProg ch with
              | none => rfl
              | some m => obtain ⟨_, _, rfl⟩ := hk.prog ch m hx; rfl
            have c2 : (k.lastBend ch).bind volumeOf = none := by
              cases hx : k.lastBend ch with
              | none => rfl
              | some m => obtain ⟨_, _, rfl⟩ := hk.bend ch m hx; rfl
            rw [c1, c2]; simp
          · rw [if_neg hl, if_neg hl]; rfl
        rw [h1, h2, h3, List.append_nil, List.append_nil]
      · intro _ hno
        have hno := hno d ch n vel rfl
        split_ifs at he with hv
        · cases hch : chooseVoice base (ctlClose k ch n).active ch with
          | none => rw [hch] at he; cases he
          | some w =>
            rw [hch] at he
            simp only [Option.some.injEq, Prod.mk.injEq] at he
            have hw : w ≠ v := by
              rintro rfl; exact hno hv hch
            rw [← he.1, onVoice_append, vols_append, hclose, List.nil_append, onVoice_append, vols_append, onVoice_append, vols_append]
            have h1 : onVoice [(w, Message.midiEvent d (.noteOn ch (drumNote ch n) vel))] v = [] := onVoice_other _ _ (by simpa using hw)
            have h2 : onVoice (outPerc k d ch n w) v = [] := by
              apply onVoice_other; unfold outPerc; split_ifs <;> simp [hw]
            have h3 : onVoice (outSwitch k ch w) v = [] := by
              apply onVoice_other; unfold outSwitch outOpt
              split_ifs
              · intro p hp
                simp only [List.mem_append, Option.mem_toList, Option.map_eq_some_iff] at hp
                rcases hp with (⟨_, _, rfl⟩ | ⟨_, _, rfl⟩) | ⟨_, _, rfl⟩ <;> exact hw
              · simp
            rw [h1, h2, h3]; rfl
        · simp only [Option.some.injEq, Prod.mk.injEq] at he
          rw [← he.1]; exact hclose
    | controlChange ch c x =>
      simp only [emit, Option.some.injEq, Prod.mk.injEq] at he
      by_cases hc : c = 7
      · subst hc
        have hall : ∀ y ∈ vols (onVoice o v), y = (ch, x) := by
          intro y hy
          unfold vols at hy
          obtain ⟨m, hm, hp⟩ := List.mem_filterMap.1 hy
          rw [mem_onVoice, ← he.1] at hm
          have h2 := ((mem_outChannel ord ho _ _ _ _ _).1 hm).1
          simp only at h2
          rw [h2] at hp
          simp only [volumeOf, Option.some.injEq] at hp; exact hp.symm
        refine ⟨?_, ?_, (by intro _ _ _ _ h; cases h), (by intro h; cases h)⟩
        · intro c' x' h hcond
          cases h
          refine ⟨?_, hall⟩
          have : (ch, x) ∈ vols (onVoice o v) := by
            unfold vols
            rw [← he.1]
            exact List.mem_filterMap.2 ⟨_, (mem_onVoice _ _ _).2 ((mem_outChannel ord ho _ _ _ _ (v, _)).2 ⟨rfl, hcond⟩), rfl⟩
          exact List.ne_nil_of_mem this
        · intro c' x' h hcond
          cases h
          apply vols_nil
          intro m hm
          rw [mem_onVoice, ← he.1] at hm
          exact absurd ((mem_outChannel ord ho _ _ _ _ _).1 hm).2 hcond
      · have hn : volumeOf (.midiEvent d (.controlChange ch c x)) = none := by rw [volumeOf_control, if_neg hc]
        exact quiet hn (by intro _ _ _ _ h; cases h) (chan ch hn he.1)
    | noteOff ch n vel =>
      refine quiet rfl (by intro _ _ _ _ h; cases h) ?_
      simp only [emit] at he
      split at he <;> simp only [Option.some.injEq, Prod.mk.injEq] at he <;> rw [← he.1]
      · intro p hp; simp only [List.mem_singleton] at hp; rw [hp]; rfl
      · simp
    | polyphonicKeyPressure ch n x =>
      refine quiet rfl (by intro _ _ _ _ h; cases h) ?_
      simp only [emit] at he
      split at he <;> simp only [Option.some.injEq, Prod.mk.injEq] at he <;> rw [← he.1]
      · intro p hp; simp only [List.mem_singleton] at hp; rw [hp]; rfl
      · simp
    | programChange ch x =>
      simp only [emit, Option.some.injEq, Prod.mk.injEq] at he
      exact quiet rfl (by intro _ _ _ _ h; cases h) (chan ch rfl he.1)
    | channelPressure ch x =>
      simp only [emit, Option.some.injEq, Prod.mk.injEq] at he
      exact quiet rfl (by intro _ _ _ _ h; cases h) (chan ch rfl he.1)
    | pitchBendChange ch x =>
      simp only [emit, Option.some.injEq, Prod.mk.injEq] at he
      exact quiet rfl (by intro _ _ _ _ h; cases h) (chan ch rfl he.1)
    | unknown ch =>
      simp only [emit, Option.some.injEq, Prod.mk.injEq] at he
      exact quiet rfl (by intro _ _ _ _ h; cases h) (by rw [← he.1]; simp)
  | metaEvent d e data =>
    refine quiet rfl (by intro _ _ _ _ h; cases h) ?_
    cases e <;> simp only [emit, Option.some.injEq, Prod.mk.injEq] at he <;> rw [← he.1] <;> simp [volumeOf]
  | sysEx d data =>
    simp only [emit, Option.some.injEq, Prod.mk.injEq] at he
    exact quiet rfl (by intro _ _ _ _ h; cases h) (by rw [← he.1]; simp [volumeOf])
  | trackChange =>
    simp only [emit, Option.some.injEq, Prod.mk.injEq] at he
    exact quiet rfl (by intro _ _ _ _ h; cases h) (by rw [← he.1]; simp)

/-- The last volume of channel `ch` among the messages. -/
def volIn (ch : Fin 16) (l : List TMsg) : Option (Fin 16 × UInt8) := lastVolume (l.filter fun m => home m.1 = some ch)

theorem volIn_snoc (ch : Fin 16) (l : List TMsg) (m : Message) (t : Nat) :
    volIn ch (l ++ [(m, t)]) = if home m = some ch then (volumeOf m).or (volIn ch l) else volIn ch l := by
  unfold volIn
  rw [List.filter_append, lastVolume_append]
  by_cases h : home m = some ch
  · simp only [h, if_true, List.filter_cons, decide_true, List.filter_nil]
    congr 1
    unfold lastVolume
    simp only [List.filterMap_cons, List.filterMap_nil]
    cases volumeOf m <;> rfl
  · rw [if_neg h]
    simp [h, lastVolume]

/-- How the remembered volume of a channel changes. -/
theorem lastCtrl_step (ord : EnumOrder) (base : Fin 16 → Fin 8) (k : Ctl) (m : Message) (o : List (Fin 8 × Message)) (k' : Ctl)
    (he : emit ord base k m = some (o, k')) (c : Fin 16) :
    k'.lastCtrl c = if (volumeOf m).map (·.1) = some c then some m else k.lastCtrl c := by
  cases m with
  | midiEvent d e =>
    cases e with
    | noteOn ch n vel =>
      rw [if_neg (by simp [volumeOf])]
      simp only [emit] at he
      split_ifs at he with hv
      · cases hch : chooseVoice base (ctlClose k ch n).active ch with
        | none => rw [hch] at he; cases he
        | some v =>
          rw [hch] at he
          simp only [Option.some.injEq, Prod.mk.injEq] at he
          rw [← he.2]
          unfold ctlOpen
          simp only
          rw [(ctlClose_last k ch n).1]
      · simp only [Option.some.injEq, Prod.mk.injEq] at he
        rw [← he.2, (ctlClose_last k ch n).1]
    | noteOff ch n vel =>
      rw [if_neg (by simp [volumeOf])]
      simp only [emit] at he
      split at he
      · simp only [Option.some.injEq, Prod.mk.injEq] at he
        rw [← he.2, (ctlClose_last k ch n).1]
      · simp only [Option.some.injEq, Prod.mk.injEq] at he
        rw [← he.2]
    | polyphonicKeyPressure ch n x =>
      rw [if_neg (by simp [volumeOf])]
      simp only [emit] at he
      split at he <;> simp only [Option.some.injEq, Prod.mk.injEq] at he <;> rw [← he.2]
    | controlChange ch c' x =>
      simp only [emit, Option.some.injEq, Prod.mk.injEq] at he
      rw [← he.2, volumeOf_control]
      by_cases h7 : c' = 7
      · rw [if_pos h7, if_pos h7]
        simp only [Option.map_some, Option.some.injEq]
        split_ifs with h
        · rw [h, Function.update_self]
        · rw [Function.update_of_ne (Ne.symm h)]
      · rw [if_neg h7, if_neg h7, if_neg (by simp)]
    | _ =>
      rw [if_neg (by simp [volumeOf])]
      simp only [emit, Option.some.injEq, Prod.mk.injEq] at he
      rw [← he.2]
  | metaEvent d e data =>
    rw [if_neg (by simp [volumeOf])]
    cases e <;> simp only [emit, Option.some.injEq, Prod.mk.injEq] at he <;> rw [← he.2]
  | _ =>
    rw [if_neg (by simp [volumeOf])]
    simp only [emit, Option.some.injEq, Prod.mk.injEq] at he
    rw [← he.2]

theorem volIn_step (ch : Fin 16) (k k' : Ctl) (m : Message) (t : Nat) (done : List TMsg) (h : (k.lastCtrl ch).bind volumeOf = volIn ch done)
    (hs : k'.lastCtrl ch = if (volumeOf m).map (·.1) = some ch then some m else k.lastCtrl ch) :
    (k'.lastCtrl ch).bind volumeOf = volIn ch (done ++ [(m, t)]) := by
  rw [volIn_snoc, hs]
  cases hp : volumeOf m with
  | none =>
    rw [if_neg (by simp)]
    split_ifs
    · simpa using h
    · exact h
  | some cp =>
    obtain ⟨c, p⟩ := cp
    have hh := home_volume m c p hp
    rw [hh]
    simp only [Option.map_some, Option.some.injEq]
    split_ifs
    · simp [hp]
    · exact h

/-- Channel `ch` is the only one with volumes on its base voice. -/
structure AloneV (base : Fin 16 → Fin 8) (ch : Fin 16) (done : List TMsg) (outs : List (Fin 8 × TMsg)) (k : Ctl) : Prop where
  lasts : Lasts k
  places : Places base k
  vol : (k.lastCtrl ch).bind volumeOf = volIn ch done
  quiet : ∀ c ≠ ch, base c = base ch → k.lastCtrl c = none
  voice : lastVolume (onVoice outs (base ch)) = volIn ch done

theorem aloneV_step (ord : EnumOrder) (ho : ∀ l, (ord l).Perm l) (base : Fin 16 → Fin 8) (ch : Fin 16) (done : List TMsg)
    (outs : List (Fin 8 × TMsg)) (k : Ctl) (m : Message) (t : Nat) (o : List (Fin 8 × Message)) (k' : Ctl) (h : AloneV base ch done outs k)
    (hm : ∀ c ≠ ch, base c = base ch → (volumeOf m).map (·.1) ≠ some c) (he : emit ord base k m = some (o, k')) :
    AloneV base ch (done ++ [(m, t)]) (outs ++ o.map fun p => (p.1, (p.2, t))) k' := by
  have hstep := lastCtrl_step ord base k m o k' he ch
  have hp := volIn_step ch k k' m t done h.vol hstep
  refine ⟨lasts_step ord base k m o k' h.lasts he, places_step ord base k m o k' h.places he, hp, ?_, ?_⟩
  · intro c hc hb
    rw [lastCtrl_step ord base k m o k' he c, if_neg (hm c hc hb), h.quiet c hc hb]
  · rw [onVoice_append, onVoice_stamp, lastVolume_append, lastVolume_stamp, h.voice, ← hp, hstep, ← h.vol]
    have hv := emit_vols ord ho base k h.lasts m o k' he (base ch)
    generalize vols (onVoice o (base ch)) = l at hv
    cases hvm : volumeOf m with
    | some cx =>
      obtain ⟨c, x⟩ := cx
      by_cases hc : c = ch
      · subst hc
        obtain ⟨h1, h2⟩ := hv.set c x hvm (.inl rfl)
        rw [getLast_const l _ h1 h2]
        simp [hvm]
      · have hnb : base c ≠ base ch := fun hb => hm c hc hb (by rw [hvm]; rfl)
        rw [hv.away c x hvm]
        · rw [if_neg (by simpa using hc)]; rfl
        · rintro (hb | ⟨n, hn⟩)
          · exact hnb hb.symm
          · rcases h.places.place c n _ hn with hb | hb
            · exact hnb hb.symm
            · exact hb ch rfl
    | none =>
      rw [if_neg (by simp)]
      by_cases hst : ∃ d c n vel, m = .midiEvent d (.noteOn c n vel) ∧ vel > 0 ∧ chooseVoice base (ctlClose k c n).active c = some (base ch)
      · obtain ⟨d, c, n, vel, rfl, h1, h2⟩ := hst
        rw [hv.start d c n vel rfl h1 h2]
        have hb : base c = base ch := by
          rcases choose_place _ _ _ _ h2 with hb | hb
          · exact hb.symm
          · exact absurd rfl (hb ch)
        by_cases hc : c = ch
        · subst hc
          split_ifs
          · cases (k.lastCtrl c).bind volumeOf <;> rfl
          · rfl
        · rw [h.quiet c hc hb]
          simp
      · rw [hv.other hvm (fun d c n vel e h1 h2 => hst ⟨d, c, n, vel, e, h1, h2⟩)]
        rfl

theorem aloneV_emits (ord : EnumOrder) (ho : ∀ l, (ord l).Perm l) (base : Fin 16 → Fin 8) (ch : Fin 16) (seq : List TMsg)
    (outs : List (Fin 8 × TMsg)) (k : Ctl) (hm : ∀ m ∈ seq, ∀ c ≠ ch, base c = base ch → (volumeOf m.1).map (·.1) ≠ some c)
    (he : emits ord base (ctl0 base) seq = some (outs, k)) : AloneV base ch seq outs k := by
  refine emits_nil_induct ord base (fun done outs k => (∀ m ∈ done, ∀ c ≠ ch, base c = base ch → (volumeOf m.1).map (·.1) ≠ some c) → AloneV base ch done outs k) ?_ seq _ k outs ?_ he hm
  · intro done outs k m t o k' ih he hd
    exact aloneV_step ord ho base ch done outs k m t o k' (ih fun x hx => hd x (by simp [hx])) (hd (m, t) (by simp)) he
  · intro _
    exact ⟨lasts_init base, places_init base, rfl, fun _ _ _ => rfl, rfl⟩

/-- The volumes of a channel before a note start in processing order are those up to its time. -/
theorem volIn_at (ch : Fin 16) (full done rest : List TMsg) (m : Message) (t : Nat) (hf : full = done ++ (m, t) :: rest) (hs : full.Pairwise Before)
    (hm : starts m = true) : volIn ch done = volumeAt (full.filter fun m => home m.1 = some ch) t := by
  unfold volIn volumeAt lastVolume
  rw [List.filter_filter]
  subst hf
  rw [List.pairwise_append] at hs
  obtain ⟨-, h2, h3⟩ := hs
  rw [List.pairwise_cons] at h2
  rw [List.filter_append, List.filterMap_append]
  have e1 : (done.filter fun a => decide (a.2 ≤ t) && decide (home a.1 = some ch)) = done.filter fun m => home m.1 = some ch := by
    apply List.filter_congr
    intro a ha
    have : a.2 ≤ t := by
      rcases h3 a ha (m, t) (by simp) with h | h
      · exact le_of_lt h
      · exact le_of_eq h.1
    simp [this]
  have e2 : (((m, t) :: rest).filter fun a => decide (a.2 ≤ t) && decide (home a.1 = some ch)).filterMap (fun m => volumeOf m.1) = [] := by
    rw [List.filterMap_eq_nil_iff]
    intro a ha
    obtain ⟨ha, hc⟩ := List.mem_filter.1 ha
    simp only [Bool.and_eq_true, decide_eq_true_eq] at hc
    have hr : 2 ≤ rank a.1 := by
      have hrm : rank m = 2 := by
        unfold rank
        have : ends m = false := by
          cases m with
          | midiEvent d e => cases e <;> simp_all [starts, ends]
          | _ => simp [starts] at hm
        simp [this, hm]
      rcases List.mem_cons.1 ha with rfl | ha
      · exact le_of_eq hrm.symm
      · rcases h2.1 a ha with h | h
        · simp only at h; omega
        · simp only at h; omega
    cases hp : volumeOf a.1 with
    | none => rfl
    | some cp =>
      exfalso
      obtain ⟨d, h⟩ := (volumeOf_some _ cp.1 cp.2).1 hp
      rw [h] at hr; simp [rank, ends, starts] at hr
  rw [e1, e2, List.append_nil]

/-- A voice that is no channel's base voice, last used by channel `ch` whose volume no longer changes. -/
structure StrayV (base : Fin 16 → Fin 8) (ch : Fin 16) (v : Fin 8) (done : List TMsg) (outs : List (Fin 8 × TMsg)) (k : Ctl) : Prop where
  lasts : Lasts k
  places : Places base k
  vol : (k.lastCtrl ch).bind volumeOf = volIn ch done
  started : k.lastChan v = some ch → ∃ m ∈ done, startsOn ch m.1 = true
  voice : k.lastChan v = some ch → lastVolume (onVoice outs v) = volIn ch done

theorem strayV_step (ord : EnumOrder) (ho : ∀ l, (ord l).Perm l) (base : Fin 16 → Fin 8) (ch : Fin 16) (v : Fin 8) (hv : ∀ c, base c ≠ v)
    (done : List TMsg) (outs : List (Fin 8 × TMsg)) (k : Ctl) (m : Message) (t : Nat) (o : List (Fin 8 × Message)) (k' : Ctl) (h : StrayV base ch v done outs k)
    (hm : (∃ x ∈ done, startsOn ch x.1 = true) → (volumeOf m).map (·.1) ≠ some ch) (hm2 : startsOn ch m = true → volIn ch done ≠ none)
    (he : emit ord base k m = some (o, k')) : StrayV base ch v (done ++ [(m, t)]) (outs ++ o.map fun p => (p.1, (p.2, t))) k' := by
  have hstep := lastCtrl_step ord base k m o k' he ch
  have hp := volIn_step ch k k' m t done h.vol hstep
  have hvp := emit_vols ord ho base k h.lasts m o k' he v
  refine ⟨lasts_step ord base k m o k' h.lasts he, places_step ord base k m o k' h.places he, hp, ?_, ?_⟩
  · intro hl
    rcases lastChan_step ord base k m o k' he v with ⟨h1, -⟩ | ⟨d, c, n, vel, rfl, h2, h3, h4⟩
    · rw [h1] at hl
      obtain ⟨x, hx, hs⟩ := h.started hl
      exact ⟨x, by simp [hx], hs⟩
    · rw [h4] at hl
      cases hl
      exact ⟨(.midiEvent d (.noteOn ch n vel), t), by simp, startsOn_noteOn d ch n vel h2⟩
  · intro hl
    rw [onVoice_append, onVoice_stamp, lastVolume_append, lastVolume_stamp]
    generalize vols (onVoice o v) = l at hvp
    rcases lastChan_step ord base k m o k' he v with ⟨h1, h1'⟩ | ⟨d, c, n, vel, rfl, h2, h3, h4⟩
    · rw [h1] at hl
      have hnp := hm (h.started hl)
      rw [if_neg hnp] at hstep
      rw [← hp, hstep, h.vol, h.voice hl]
      have : l = [] := by
        cases hvm : volumeOf m with
        | none => exact hvp.other hvm h1'
        | some cx =>
          obtain ⟨c, x⟩ := cx
          apply hvp.away c x hvm
          rintro (hb | ⟨n, hn⟩)
          · exact hv c hb.symm
          · have := h.places.chan c n v hn
            rw [hl] at this
            rw [hvm] at hnp
            exact hnp (by simpa using this.symm)
      rw [this]; rfl
    · rw [h4] at hl
      cases hl
      rw [if_neg (by simp [volumeOf])] at hstep
      rw [← hp, hstep, hvp.start d ch n vel rfl h2 h3]
      have hne := hm2 (startsOn_noteOn d ch n vel h2)
      rw [← h.vol] at hne
      split_ifs with hlc
      · cases hx : (k.lastCtrl ch).bind volumeOf with
        | none => exact absurd hx hne
        | some x => rfl
      · simp only [List.getLast?_nil, Option.none_or]
        rw [h.voice (by simpa using hlc), h.vol]

theorem strayV_emits (ord : EnumOrder) (ho : ∀ l, (ord l).Perm l) (base : Fin 16 → Fin 8) (ch : Fin 16) (v : Fin 8) (hv : ∀ c, base c ≠ v)
    (seq : List TMsg) (outs : List (Fin 8 × TMsg)) (k : Ctl)
    (h1 : ∀ a x b, seq = a ++ x :: b → (∃ y ∈ a, startsOn ch y.1 = true) → (volumeOf x.1).map (·.1) ≠ some ch)
    (h2 : ∀ a x b, seq = a ++ x :: b → startsOn ch x.1 = true → volIn ch a ≠ none)
    (he : emits ord base (ctl0 base) seq = some (outs, k)) : StrayV base ch v seq outs k := by
  refine emits_nil_induct ord base (fun done outs k => (∃ rest, seq = done ++ rest) → StrayV base ch v done outs k) ?_ seq _ k outs ?_ he ⟨[], by simp⟩
  · rintro done outs k m t o k' ih he ⟨rest, hd⟩
    have hd' : seq = done ++ (m, t) :: rest := by rw [hd]; simp
    exact strayV_step ord ho base ch v hv done outs k m t o k' (ih ⟨_, hd'⟩) (h1 _ _ _ hd') (h2 _ _ _ hd') he
  · intro _
    have hn : (ctl0 base).lastChan v = none := by
      show (List.finRange 16).find? (fun c => base c = v) = none
      rw [List.find?_eq_none]
      intro c _; simpa using hv c
    exact ⟨lasts_init base, places_init base, rfl, fun h => (by rw [hn] at h; cases h), fun h => (by rw [hn] at h; cases h)⟩

/-- Where a note start on a voice comes from, and the last volume before it. -/
theorem volume_context (ord : EnumOrder) (ho : ∀ l, (ord l).Perm l) (base : Fin 16 → Fin 8) (seq : List TMsg) (outs : List (Fin 8 × TMsg)) (k : Ctl)
    (he : emits ord base (ctl0 base) seq = some (outs, k)) (v : Fin 8) (a b : List TMsg) (x : Message) (t : Nat)
    (hv : onVoice outs v = a ++ (x, t) :: b) (hx : starts x = true) :
    ∃ done rest outs1 k1 o1 k2 d c n vel, seq = done ++ (.midiEvent d (.noteOn c n vel), t) :: rest ∧ vel > 0 ∧ x = .midiEvent d (.noteOn c (drumNote c n) vel) ∧
      emits ord base (ctl0 base) done = some (outs1, k1) ∧
      emit ord base k1 (.midiEvent d (.noteOn c n vel)) = some (o1 ++ [(v, x)], k2) ∧ chooseVoice base (ctlClose k1 c n).active c = some v ∧
      lastVolume a = ((if k1.lastChan v ≠ some c then ((k1.lastCtrl c).bind volumeOf).toList else []).getLast?).or (lastVolume (onVoice outs1 v)) ∧
      (∃ post, outs = outs1 ++ ((o1 ++ [(v, x)]).map fun q => (q.1, (q.2, t))) ++ post) := by
  obtain ⟨pre, post, h1, h2, h3⟩ := onVoice_split outs v a b (x, t) hv
  obtain ⟨done, m, t', rest, outs1, k1, o, k2, o1, o2, e1, e2, e3, e4, e5, e6⟩ := emits_split ord base seq _ _ _ pre (v, (x, t)) post he h1
  simp only at e4 e5
  subst e5
  rw [e4] at e3
  obtain ⟨d, c, n, vel, rfl, q2, q3, q4, q5⟩ := emit_start ord base k1 (lasts_emits ord base done outs1 k1 e2) m o1 o2 k2 v x e3 hx
  have ho2 : o2 = [] := by
    have e3 := e3
    simp only [emit, if_pos q2, q4, Option.some.injEq, Prod.mk.injEq] at e3
    have := congrArg List.length e3.1
    rw [q5] at this
    simp only [List.length_append, List.length_cons, List.length_nil] at this
    exact List.length_eq_zero_iff.1 (by omega)
  subst ho2
  refine ⟨done, rest, outs1, k1, o1, k2, d, c, n, vel, e1, q2, q3, e2, e3, q4, ?_, post, ?_⟩
  · rw [← (emit_vols ord ho base k1 (lasts_emits ord base done outs1 k1 e2) _ _ _ e3 v).start d c n vel rfl q2 q4]
    rw [← h2, e6, onVoice_append, onVoice_stamp, lastVolume_append, lastVolume_stamp, onVoice_append, vols_append]
    have : vols (onVoice [(v, x)] v) = [] := by rw [q3]; simp [onVoice, vols, volumeOf]
    rw [this, List.append_nil]
  · rw [h1, e6]; simp

end M2S
