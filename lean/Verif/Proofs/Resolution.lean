import Verif.Proofs.Relabel
import Verif.Proofs.Duration
import Verif.Props.Sound
/-
Converting a voice does not depend on the resolution its times are given in.
-/
namespace M2S
open MidiSpec Timing

/-- The loop variables of `Track::new` for a voice with times `k` times as large. -/
def finerState (k : Nat) (st : TrackState) : TrackState :=
  { st with noteStart := st.noteStart.map (k * ·), lastNoteEnd := k * st.lastNoteEnd }

/-- What is known about the loop variables. -/
structure TrackWithin (p T : Nat) (st : TrackState) : Prop where
  off : st.portamento = false
  last : st.lastNoteEnd < T + p
  start : ∀ s, st.noteStart = some s → s < T + p

/-- A duration in a finer resolution. -/
def finerDuration (k : Nat) (d : Duration) : Duration := { d with quantizedTicks := k * d.quantizedTicks }

theorem splitLength_finer (k q t : Nat) : splitLength q (k * t) = finerDuration k (splitLength q t) := by
  unfold splitLength
  simp only [finerDuration]
  split_ifs <;> rfl

theorem exactLength_finer (k t p : Nat) (hk : 0 < k) (hp : 0 < p) (c : Bool) : exactLength (k * t) (k * p) c = exactLength t p c := by
  unfold exactLength
  cases c with
  | false =>
    simp only [Bool.false_eq_true, if_false]
    rw [show 24 * (k * t) = k * (24 * t) by ring]
    exact Nat.mul_div_mul_left _ _ hk
  | true =>
    simp only [if_true]
    obtain ⟨q, hq⟩ : ∃ q, q = (24 * t + p - 1) / p := ⟨_, rfl⟩
    rw [← hq]
    have h1 : q * p ≤ 24 * t + p - 1 := by rw [hq]; exact Nat.div_mul_le_self _ _
    have h2 : 24 * t + p - 1 < (q + 1) * p := by rw [hq, Nat.mul_comm _ p]; exact Nat.lt_mul_div_succ _ hp
    have h3 : k * (q * p) ≤ k * (24 * t + p - 1) := Nat.mul_le_mul_left k h1
    have h4 : k * (24 * t + p) ≤ k * ((q + 1) * p) := Nat.mul_le_mul_left k (by omega)
    rw [Nat.mul_sub, Nat.mul_add, Nat.mul_one] at h3
    rw [Nat.mul_add] at h4
    have e1 : 24 * (k * t) = k * (24 * t) := by ring
    have e2 : k * (q * p) = q * (k * p) := by ring
    have e3 : k * ((q + 1) * p) = (q + 1) * (k * p) := by ring
    have hkp : k ≤ k * p := Nat.le_mul_of_pos_right k hp
    rw [e2] at h3
    rw [e3] at h4
    rw [e1]
    apply Nat.div_eq_of_lt_le
    · omega
    · have : 0 < k * p := Nat.mul_pos hk hp
      omega

theorem split_ticks (q n : Nat) : (splitLength q n).quantizedTicks = n := by
  unfold splitLength
  simp only
  split_ifs <;> rfl

theorem exactTicks_24 (p : Nat) (h : 24 ∣ p) : exactTicks p = 8388600 := by
  unfold exactTicks
  rw [Nat.gcd_eq_left h]

theorem le_ceil (t p : Nat) (hp : 0 < p) (c : Bool) : exactLength t p c * p < 24 * t + p := by
  unfold exactLength
  cases c with
  | false => simp only [Bool.false_eq_true, if_false]; have := Nat.div_mul_le_self (24 * t) p; omega
  | true => simp only [if_true]; have := Nat.div_mul_le_self (24 * t + p - 1) p; omega

theorem floor_le (t p : Nat) : exactLength t p false * p ≤ 24 * t := by
  unfold exactLength
  simp only [Bool.false_eq_true, if_false]
  exact Nat.div_mul_le_self (24 * t) p

theorem getDuration_finer (k t p : Nat) (hk : 0 < k) (hp : 0 < p) (h24 : 24 ∣ p) (hkp : k * p < 65536) (ht : k * t < 8388600) (c : Bool) :
    ∃ d, getDuration t p c = .ok d ∧ getDuration (k * t) (k * p) c = .ok (finerDuration k d) ∧ 24 * d.quantizedTicks < 24 * t + p ∧
      (c = false → d.quantizedTicks ≤ t) := by
  have ht' : t ≤ k * t := Nat.le_mul_of_pos_left t hk
  have hp' : p ≤ k * p := Nat.le_mul_of_pos_left p hk
  refine ⟨_, getDuration_eq t p (by rw [exactTicks_24 p h24]; omega) hp (by omega) c, ?_, ?_, ?_⟩
  · rw [getDuration_eq (k * t) (k * p) (by rw [exactTicks_24 _ (h24.mul_left k)]; omega) (Nat.mul_pos hk hp) hkp c, exactLength_finer k t p hk hp,
      ← splitLength_finer]
    congr 2
    obtain ⟨q, rfl⟩ := h24
    rw [show exactLength t (24 * q) c * (k * (24 * q)) = 24 * (k * (exactLength t (24 * q) c * q)) by ring,
      show exactLength t (24 * q) c * (24 * q) = 24 * (exactLength t (24 * q) c * q) by ring, Nat.mul_div_cancel_left _ (by norm_num),
      Nat.mul_div_cancel_left _ (by norm_num)]
  · rw [split_ticks]
    have := le_ceil t p hp c
    omega
  · rintro rfl
    rw [split_ticks]
    have := floor_le t p
    omega

theorem insertRest_finer (k p T : Nat) (hk : 0 < k) (hp : 0 < p) (h24 : 24 ∣ p) (hkp : k * p < 65536) (hT : k * T < 8388600) (cs : List PCmd) (l t : Nat)
    (hl : l < T + p) (ht : t ≤ T) : ∃ cs' l', insertRest cs l t p = .ok (cs', l') ∧ insertRest cs (k * l) (k * t) (k * p) = .ok (cs', k * l') ∧ l' < T + p := by
  unfold insertRest
  by_cases h : t > l
  · have h' : k * t > k * l := Nat.mul_lt_mul_of_pos_left h hk
    rw [if_pos h, if_pos h']
    have hkt : k * (t - l) < 8388600 := by
      have := Nat.mul_le_mul_left k (show t - l ≤ T by omega)
      omega
    obtain ⟨d, d1, d2, -, d4⟩ := getDuration_finer k (t - l) p hk hp h24 hkp hkt false
    rw [← Nat.mul_sub, d1, d2]
    have d5 := d4 rfl
    have hlt : l + d.quantizedTicks ≤ T := by omega
    have hk2 : k * (l + d.quantizedTicks) ≤ k * T := Nat.mul_le_mul_left k hlt
    have hTk : T ≤ k * T := Nat.le_mul_of_pos_left T hk
    have a1 : addU32 l d.quantizedTicks = .ok (l + d.quantizedTicks) := by unfold addU32; rw [if_pos (by omega)]
    have a2 : addU32 (k * l) (finerDuration k d).quantizedTicks = .ok (k * (l + d.quantizedTicks)) := by
      unfold addU32 finerDuration; rw [← Nat.mul_add, if_pos (by omega)]
    simp only [bind, Except.bind, a1, a2]
    exact ⟨_, _, rfl, rfl, by omega⟩
  · have h' : ¬ k * t > k * l := by
      have := Nat.mul_le_mul_left k (Nat.le_of_not_lt h)
      omega
    rw [if_neg h, if_neg h']
    exact ⟨_, _, rfl, rfl, hl⟩

section
variable {k p T : Nat} (hk : 0 < k) (hp : 0 < p) (h24 : 24 ∣ p) (hkp : k * p < 65536) (hT : k * T < 8388600)
include hk hp h24 hkp hT

theorem trackNoteOff_finer (st : TrackState) (n : UInt8) (t : Nat) (ht : t ≤ T) (hw : TrackWithin p T st) :
    trackNoteOff (k * p) (finerState k st) n (k * t) = (trackNoteOff p st n t).map (finerState k) ∧ ∀ st', trackNoteOff p st n t = .ok st' → TrackWithin p T st' := by
  unfold trackNoteOff
  have hs : (finerState k st).noteStart = st.noteStart.map (k * ·) := rfl
  rw [hs]
  cases e : st.noteStart with
  | none =>
    refine ⟨rfl, ?_⟩
    rintro st' h
    cases h
    exact hw
  | some s =>
    simp only [Option.map_some]
    by_cases hst : s ≤ t
    · have h1 : subU t s = .ok (t - s) := by unfold subU; rw [if_pos hst]
      have h2 : subU (k * t) (k * s) = .ok (k * (t - s)) := by
        unfold subU; rw [if_pos (Nat.mul_le_mul_left k hst), Nat.mul_sub]
      have hkt : k * (t - s) < 8388600 := by
        have := Nat.mul_le_mul_left k (show t - s ≤ T by omega)
        omega
      obtain ⟨d, d1, d2, d3, -⟩ := getDuration_finer k (t - s) p hk hp h24 hkp hkt true
      rw [h1, h2]
      simp only [bind, Except.bind, d1, d2]
      have hsum : s + d.quantizedTicks < T + p := by omega
      have hTk : T + p ≤ k * (T + p) := Nat.le_mul_of_pos_left _ hk
      have hlim : k * (T + p) < 2 ^ 32 := by rw [Nat.mul_add]; omega
      have hk2 : k * (s + d.quantizedTicks) ≤ k * (T + p) := Nat.mul_le_mul_left k hsum.le
      have a1 : addU32 s d.quantizedTicks = .ok (s + d.quantizedTicks) := by unfold addU32; rw [if_pos (by omega)]
      have a2 : addU32 (k * s) (finerDuration k d).quantizedTicks = .ok (k * (s + d.quantizedTicks)) := by
        unfold addU32 finerDuration; rw [← Nat.mul_add, if_pos (by omega)]
      rw [a1, a2]
      have hc : (finerState k st).commands = st.commands := rfl
      rw [hc]
      by_cases hsl : st.commands.getLast?.any PCmd.isSlide = true
      · simp only [hsl, if_true]
        refine ⟨rfl, ?_⟩
        rintro st' h
        cases h
        exact ⟨hw.off, hsum, fun s h => by cases h⟩
      · simp only [hsl, if_false]
        cases addU8 n 0x68 with
        | error e => exact ⟨rfl, fun _ h => by cases h⟩
        | ok m =>
          refine ⟨rfl, ?_⟩
          rintro st' h
          cases h
          exact ⟨hw.off, hsum, fun s h => by cases h⟩
    · have h1 : subU t s = panicked := by unfold subU; rw [if_neg hst]
      have h2 : subU (k * t) (k * s) = panicked := by
        unfold subU
        rw [if_neg]
        intro h
        exact hst (Nat.le_of_mul_le_mul_left h hk)
      rw [h1, h2]
      exact ⟨rfl, fun _ h => by cases h⟩

theorem trackNoteOn_finer (st : TrackState) (n v : UInt8) (t : Nat) (ht : t ≤ T) (hw : TrackWithin p T st) :
    trackNoteOn (k * p) (finerState k st) n v (k * t) = (trackNoteOn p st n v t).map (finerState k) ∧ ∀ st', trackNoteOn p st n v t = .ok st' → TrackWithin p T st' := by
  unfold trackNoteOn
  obtain ⟨cs, l, h1, h2, h3⟩ := insertRest_finer k p T hk hp h24 hkp hT st.commands st.lastNoteEnd t hw.last ht
  have e1 : (finerState k st).commands = st.commands := rfl
  have e2 : (finerState k st).lastNoteEnd = k * st.lastNoteEnd := rfl
  have e3 : (finerState k st).portamento = false := hw.off
  have e4 : (finerState k st).noteStart.isSome = st.noteStart.isSome := by simp [finerState]
  rw [e1, e2, e4, h1, h2]
  simp only [bind, Except.bind, e3, hw.off]
  cases hl : cs.getLast? with
  | none =>
    simp only [pure, Except.pure]
    cases hn : st.noteStart.isSome with
    | true => exact ⟨rfl, fun _ h => by cases h⟩
    | false =>
      refine ⟨rfl, ?_⟩
      rintro st' h
      cases h
      exact ⟨rfl, h3, fun s h => by cases h; exact h3⟩
  | some x =>
    simp only [pure, Except.pure, Bool.false_eq_true, if_false]
    cases hn : st.noteStart.isSome with
    | true => exact ⟨rfl, fun _ h => by cases h⟩
    | false =>
      refine ⟨rfl, ?_⟩
      rintro st' h
      cases h
      exact ⟨rfl, h3, fun s h => by cases h; exact h3⟩

theorem trackProgram_finer (st : TrackState) (ch : Fin 16) (pr : UInt8) (t : Nat) (ht : t ≤ T) (hw : TrackWithin p T st) :
    trackProgram (k * p) (finerState k st) ch pr (k * t) = (trackProgram p st ch pr t).map (finerState k) ∧
      ∀ st', trackProgram p st ch pr t = .ok st' → TrackWithin p T st' := by
  unfold trackProgram
  obtain ⟨cs, l, h1, h2, h3⟩ := insertRest_finer k p T hk hp h24 hkp hT st.commands st.lastNoteEnd t hw.last ht
  have e1 : (finerState k st).commands = st.commands := rfl
  have e2 : (finerState k st).lastNoteEnd = k * st.lastNoteEnd := rfl
  rw [e1, e2, h1, h2]
  simp only [bind, Except.bind]
  by_cases h9 : ch = 9
  · simp only [h9, if_true]
    refine ⟨rfl, ?_⟩
    rintro st' h
    cases h
    exact ⟨hw.off, h3, hw.start⟩
  · simp only [h9, if_false]
    cases Instr.instrumentMap[pr.toNat]? with
    | none => exact ⟨rfl, fun _ h => by cases h⟩
    | some i =>
      refine ⟨rfl, ?_⟩
      rintro st' h
      cases h
      exact ⟨hw.off, h3, hw.start⟩

omit hk hp h24 hkp hT in
theorem trackControl_finer (st : TrackState) (c d : UInt8) (hc : ¬ (c = 65 ∧ d ≥ 64)) (hw : TrackWithin p T st) :
    trackControl (finerState k st) c d = (trackControl st c d).map (finerState k) ∧ ∀ st', trackControl st c d = .ok st' → TrackWithin p T st' := by
  unfold trackControl
  split_ifs with h1 h2 h3 h4
  · refine ⟨rfl, ?_⟩
    rintro st' h
    cases h
    exact ⟨hw.off, hw.last, hw.start⟩
  · cases mulU8 d 2 with
    | error e => exact ⟨rfl, fun _ h => by cases h⟩
    | ok v =>
      refine ⟨rfl, ?_⟩
      rintro st' h
      cases h
      exact ⟨hw.off, hw.last, hw.start⟩
  · refine ⟨rfl, ?_⟩
    rintro st' h
    cases h
    exact ⟨hw.off, hw.last, hw.start⟩
  · refine ⟨rfl, ?_⟩
    rintro st' h
    cases h
    exact ⟨by simpa using fun h => hc ⟨h4, h⟩, hw.last, hw.start⟩
  · refine ⟨rfl, ?_⟩
    rintro st' h
    cases h
    exact hw

theorem trackStep_finer (f : F32) (st : TrackState) (m : TMsg) (ht : ∀ d e, m.1 = .midiEvent d e → m.2 ≤ T) (hs : noSlides m.1 = true) (hw : TrackWithin p T st) :
    trackStep (k * p) f (finerState k st) (rewriteAt k (fun _ n => n) m) = (trackStep p f st m).map (finerState k) ∧
      ∀ st', trackStep p f st m = .ok st' → TrackWithin p T st' := by
  obtain ⟨m, t⟩ := m
  have same : (.ok (finerState k st) : Res TrackState) = (Except.ok st : Res TrackState).map (finerState k) ∧ ∀ st', (.ok st : Res TrackState) = .ok st' → TrackWithin p T st' :=
    ⟨rfl, fun _ h => by cases h; exact hw⟩
  cases m with
  | metaEvent d e data =>
    cases e with
    | setTempo =>
      simp only [rewriteAt, rewrite, trackStep, bind, Except.bind]
      cases usecPerBeat data with
      | error e => exact ⟨rfl, fun _ h => by cases h⟩
      | ok u =>
        refine ⟨rfl, ?_⟩
        rintro st' h
        cases h
        exact ⟨hw.off, hw.last, hw.start⟩
    | _ => exact same
  | sysEx d data => exact same
  | trackChange => exact same
  | midiEvent d e =>
    have ht := ht d e rfl
    cases e with
    | noteOff ch n v => exact trackNoteOff_finer hk hp h24 hkp hT st n t ht hw
    | noteOn ch n v => exact trackNoteOn_finer hk hp h24 hkp hT st n v t ht hw
    | controlChange ch c x =>
      refine trackControl_finer st c x ?_ hw
      rintro ⟨rfl, h⟩
      simp only [noSlides, decide_eq_true_eq] at hs
      exact absurd h (UInt8.not_le.2 hs)
    | programChange ch pr => exact trackProgram_finer hk hp h24 hkp hT st ch pr t ht hw
    | _ => exact same

theorem trackNew_finer (f : F32) (evs : List TMsg) (ht : ∀ m ∈ evs, ∀ d e, m.1 = .midiEvent d e → m.2 ≤ T) (hs : ∀ m ∈ evs, noSlides m.1 = true) :
    trackNew (evs.map (rewriteAt k fun _ n => n)) (k * p) (k * T) f = trackNew evs p T f := by
  have key : ∀ (evs : List TMsg) (st : TrackState), (∀ m ∈ evs, ∀ d e, m.1 = .midiEvent d e → m.2 ≤ T) → (∀ m ∈ evs, noSlides m.1 = true) → TrackWithin p T st →
      (evs.map (rewriteAt k fun _ n => n)).foldlM (trackStep (k * p) f) (finerState k st) = (evs.foldlM (trackStep p f) st).map (finerState k) ∧
      ∀ st', evs.foldlM (trackStep p f) st = .ok st' → TrackWithin p T st' := by
    intro evs
    induction evs with
    | nil =>
      intro st _ _ hw
      exact ⟨rfl, fun _ h => by cases h; exact hw⟩
    | cons m evs ih =>
      intro st ht hs hw
      obtain ⟨h1, h2⟩ := trackStep_finer hk hp h24 hkp hT f st m (ht m (by simp)) (hs m (by simp)) hw
      rw [List.map_cons, List.foldlM_cons, List.foldlM_cons, h1]
      cases e : trackStep p f st m with
      | error e => exact ⟨rfl, fun _ h => by cases h⟩
      | ok st1 => exact ih st1 (fun m hm => ht m (by simp [hm])) (fun m hm => hs m (by simp [hm])) (h2 st1 e)
  obtain ⟨h1, h2⟩ := key evs {} ht hs ⟨rfl, by simp; omega, fun s h => by cases h⟩
  unfold trackNew
  rw [show finerState k {} = {} from rfl] at h1
  rw [h1]
  cases e : evs.foldlM (trackStep p f) {} with
  | error e => rfl
  | ok st =>
    have hw := h2 st e
    simp only [Except.map, bind, Except.bind]
    have e1 : (finerState k st).commands = st.commands := rfl
    have e2 : (finerState k st).lastNoteEnd = k * st.lastNoteEnd := rfl
    rw [e1, e2]
    split
    · rfl
    · obtain ⟨cs, l, g1, g2, g3⟩ := insertRest_finer k p T hk hp h24 hkp hT st.commands st.lastNoteEnd T hw.last (Nat.le_refl T)
      rw [g1, g2]
      simp only [Nat.mul_lt_mul_left hk, gt_iff_lt]

end
end M2S
