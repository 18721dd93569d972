import Verif.Proofs.TrackNew
import Mathlib.Algebra.Order.Floor.Semifield
/-
Properties C06 - C16, C52: conversion of the events of one voice to commands.
-/
namespace M2S
open Timing

/-- A note-on event of channel 1. -/
def evOn (t : Nat) (n v : UInt8) : Message × Nat := (.midiEvent 0 (.noteOn 0 n v), t)
/-- A note-off event of channel 1. -/
def evOff (t : Nat) (n : UInt8) : Message × Nat := (.midiEvent 0 (.noteOff 0 n 0), t)
/-- A program change of channel 1. -/
def evProgram (t : Nat) (p : UInt8) : Message × Nat := (.midiEvent 0 (.programChange 0 p), t)
/-- A control change of channel 1. -/
def evControl (t : Nat) (c d : UInt8) : Message × Nat := (.midiEvent 0 (.controlChange 0 c d), t)

/-- A voice used in the examples: 480 ticks per beat, a tempo, an instrument, a volume, a long note, a rest, a short note. -/
def demoVoice : List (Message × Nat) :=
  [(.metaEvent 0 .setTempo [7, 0xa1, 0x20], 0), evProgram 0 40, evControl 0 7 100, evOn 480 60 100, evOff 5001 60,
   evOn 5300 62 80, evOff 5400 62, evControl 5400 65 0]

/-! ## C06 -/

/-- **C06, partial**: for durations that fit the duration byte (missing: durations above 0x7F, for which it is false, see `C06_large_false`).
`set_sustain` either changes nothing and answers false, or it was given a note (length `a`) and a rest (length `b`) and the note now has length
`a + b` and a sustain of at most 7, which is not 0 unless the note had no length; the sounding fraction `sustain/8` differs from `a/(a+b)` by at most 1/8.
It fails only if one of the durations is missing or both are 0. -/
theorem C06_set_sustain_partial (c next : PCmd) (hc : ∀ d, c.duration = some d → d.toNat ≤ 0x7f)
    (hn : ∀ d, next.duration = some d → d.toNat ≤ 0x7f) :
    (∀ c' b, c.setSustain next = .ok (c', b) →
      (b = false ∧ c' = c) ∨
      (b = true ∧ ∃ p a r s d : UInt8, c.command = .note p ∧ next.command = .rest ∧ c.duration = some a ∧ next.duration = some r ∧
        c' = { c with duration := some d, sustain := some s } ∧ d.toNat = a.toNat + r.toNat ∧ s.toNat ≤ 7 ∧ (0 < a.toNat → 1 ≤ s.toNat) ∧
        |(s.toNat : ℚ) / 8 - a.toNat / (a.toNat + r.toNat)| ≤ 1 / 8)) ∧
    (∀ e, c.setSustain next = .error e → e = .panic ∧ c.command.isNote = true ∧ next.command = .rest ∧
      (c.duration = none ∨ next.duration = none ∨ (c.duration = some 0 ∧ next.duration = some 0))) := by
  constructor
  · intro c' b h
    rcases setSustain_cases c next c' b h with h | ⟨rfl, p, a, r, va, sa, vr, sr, rfl, rfl, h0, hf, rfl⟩
    · exact .inl h
    · right
      have b1 := hc _ rfl
      have b2 := hn _ rfl
      have hm : (UInt8.ofNat (min (a.toNat * 8 / (a.toNat + r.toNat)) 7)).toNat = min (a.toNat * 8 / (a.toNat + r.toNat)) 7 := by
        rw [UInt8.toNat_ofNat']
        have := Nat.min_le_right (a.toNat * 8 / (a.toNat + r.toNat)) 7
        exact Nat.mod_eq_of_lt (by omega)
      have hb := sus_bounds a.toNat r.toNat h0 hf
      refine ⟨rfl, p, a, r, _, _, rfl, rfl, rfl, rfl, rfl, by rw [UInt8.toNat_ofNat']; omega, by rw [hm]; exact Nat.min_le_right _ _, ?_, ?_⟩
      · intro ha
        rw [hm]
        refine le_min ?_ (by norm_num)
        rw [Nat.le_div_iff_mul_le h0]
        rcases hf with hf | hf
        · have := Nat.div_add_mod (a.toNat * 8) (a.toNat + r.toNat)
          rw [hf, Nat.add_zero] at this
          rcases Nat.eq_zero_or_pos (a.toNat * 8 / (a.toNat + r.toNat)) with hz | hz
          · rw [hz] at this; omega
          · have := Nat.mul_le_mul_left (a.toNat + r.toNat) hz
            omega
        · omega
      · rw [hm]
        set s := min (a.toNat * 8 / (a.toNat + r.toNat)) 7
        have h0' : (0 : ℚ) < (a.toNat : ℚ) + r.toNat := by exact_mod_cast h0
        have q1 : (8 * a.toNat : ℚ) ≤ (s + 1) * (a.toNat + r.toNat) := by exact_mod_cast hb.1
        have q2 : (s : ℚ) * (a.toNat + r.toNat) ≤ 8 * a.toNat := by exact_mod_cast hb.2
        rw [abs_le]
        constructor
        · have : (a.toNat : ℚ) / (a.toNat + r.toNat) ≤ (s + 1) / 8 := by
            rw [div_le_div_iff₀ h0' (by norm_num)]; linarith
          linarith
        · have : (s : ℚ) / 8 ≤ (a.toNat : ℚ) / (a.toNat + r.toNat) := by
            rw [div_le_div_iff₀ (by norm_num) h0']; linarith
          linarith
  · intro e h
    obtain ⟨dc, vc, sc, cc⟩ := c
    obtain ⟨dn, vn, sn, cn⟩ := next
    have h1 : ∃ p, cc = .note p := by
      by_contra hcc
      cases cc <;> first | (simp [PCmd.setSustain] at h; done) | exact hcc ⟨_, rfl⟩
    obtain ⟨p, rfl⟩ := h1
    have h2 : cn = .rest := by
      by_contra hcn
      cases cn <;> first | (simp [PCmd.setSustain] at h; done) | exact hcn rfl
    subst h2
    rcases dc with _ | dc
    · simp [PCmd.setSustain, panicked] at h; exact ⟨h.symm, rfl, rfl, .inl rfl⟩
    rcases dn with _ | dn
    · simp [PCmd.setSustain, panicked] at h; exact ⟨h.symm, rfl, rfl, .inr (.inl rfl)⟩
    by_cases h0 : dc.toNat + dn.toNat = 0
    · simp only [PCmd.setSustain, if_pos h0, panicked, Except.error.injEq] at h
      refine ⟨h.symm, rfl, rfl, .inr (.inr ⟨?_, ?_⟩)⟩
      · rw [UInt8.toNat_inj.1 (show dc.toNat = (0 : UInt8).toNat by simp; omega)]
      · rw [UInt8.toNat_inj.1 (show dn.toNat = (0 : UInt8).toNat by simp; omega)]
    · rw [setSustain_note _ _ _ _ _ _ _ (by omega)] at h
      simp at h

/-- A fused and an unfused pair. -/
example : PCmd.setSustain ⟨some 36, some 10, some 7, .note 0xa4⟩ (restCmd 12) = .ok (⟨some 48, some 10, some 6, .note 0xa4⟩, true) ∧
    PCmd.setSustain ⟨some 35, some 10, some 7, .note 0xa4⟩ (restCmd 12) = .ok (⟨some 35, some 10, some 7, .note 0xa4⟩, false) := by decide

/-- C06 is false for unrepresentable durations: 200 + 200 units become 144. -/
theorem C06_large_false : PCmd.setSustain ⟨some 200, none, none, .note 0xa4⟩ (restCmd 200) = .ok (⟨some 144, none, some 4, .note 0xa4⟩, true) := by
  decide

/-! ## C07 -/

/-- Fusing keeps durations at least 1, and only a fused note can exceed 0x7F (it stays below 0xFF). -/
theorem fused_durations {a b : List PCmd} (h : Fused a b) (ha : ∀ c ∈ a, CmdOk c) :
    ∀ c ∈ b, ∀ d, c.duration = some d → 1 ≤ d.toNat ∧ d.toNat ≤ 0xfe ∧ (c.command.isNote = false → d.toNat ≤ 0x7f) := by
  have one : ∀ c : PCmd, CmdOk c → ∀ d, c.duration = some d → 1 ≤ d.toNat ∧ d.toNat ≤ 0x7f := by
    intro c hc d hd
    have := hc.dur
    unfold durOk at this
    split at this
    · obtain ⟨u, hu, h1, h2⟩ := this; rw [hu] at hd; cases hd; exact ⟨h1, h2⟩
    · obtain ⟨u, hu, h1, h2⟩ := this; rw [hu] at hd; cases hd; exact ⟨h1, h2⟩
    · obtain ⟨u, hu, h1, h2⟩ := this; rw [hu] at hd; cases hd; exact ⟨h1, h2⟩
    · rw [this] at hd; cases hd
  induction h with
  | nil => simp
  | keep c _ ih =>
    intro x hx d hd
    rcases List.mem_cons.1 hx with rfl | hx
    · obtain ⟨h1, h2⟩ := one x (ha x (by simp)) d hd
      exact ⟨h1, by omega, fun _ => h2⟩
    · exact ih (fun y hy => ha y (by simp [hy])) x hx d hd
  | fuse p dn dr s dt vn sn vr sr hdt _ _ _ _ ih =>
    intro x hx d hd
    rcases List.mem_cons.1 hx with rfl | hx
    · simp only [Option.some.injEq] at hd
      subst hd
      have h1 := one _ (ha ⟨some dn, vn, sn, .note p⟩ (by simp)) _ rfl
      have h2 := one _ (ha ⟨some dr, vr, sr, .rest⟩ (by simp)) _ rfl
      exact ⟨by omega, by omega, by simp [Command.isNote]⟩
    · exact ih (fun y hy => ha y (by simp [hy])) x hx d hd

/-- **C07, partial** (missing: fused notes, for which the upper bound 0x7F is false, see `C07_durations_false`): every duration in a track converted from a
well-formed voice is at least 1; it is at most 0x7F for everything but notes; notes have at most 0xFE. -/
theorem C07_durations_partial (evs : List (Message × Nat)) (p G T : Nat) (f : F32) (hp : 0 < p) (hp2 : p < 65536) (hG : G + 3525 ≤ exactTicks p)
    (hT : T < 2 ^ 31) (hv : voiceOk p G T 0 0 none evs = true) (cs : List PCmd) (h : trackNew evs p T f = .ok cs) :
    ∀ c ∈ cs, ∀ d, c.duration = some d → 1 ≤ d.toNat ∧ d.toNat ≤ 0xfe ∧ (c.command.isNote = false → d.toNat ≤ 0x7f) := by
  obtain ⟨cs0, cs', h1, h2, h3, -⟩ := trackNew_ok evs p G T f hp hp2 hG hT hv
  rw [h1] at h
  cases h
  exact fused_durations h2 h3

example : voiceOk 480 8000000 5520 0 0 none demoVoice = true := by decide

/-- **C07 is false of the code**: a note of 64 units and a rest of 64 units are fused to a note of 128 units, which is not a duration byte. -/
theorem C07_durations_false : ∃ (evs : List (Message × Nat)) (c : PCmd) (rest : List PCmd), voiceOk 24 346000 152 0 0 none evs = true ∧
    trackNew evs 24 152 (.fin (1 / 5)) = .ok (c :: rest) ∧ c.duration = some 0x80 :=
  ⟨[evOn 0 60 100, evOff 64 60, evOn 128 62 100, evOff 152 62], ⟨some 128, some 12, some 4, .note 164⟩,
    [⟨some 24, some 12, some 7, .note 166⟩], by decide, by decide +kernel, rfl⟩

/-! ## C08 -/

/-- **C08.** The `f32` computation of the length of `ticks` ticks in units is exact: the floor of `24 * ticks / ticksPerBeat` when rounding down
(rests), the ceiling when rounding up (notes). -/
theorem C08_length_exact (ticks tpb : Nat) (ht : ticks < exactTicks tpb) (hp : 0 < tpb) (hp2 : tpb < 65536) :
    quantizedLength ticks tpb false = ⌊(24 * ticks : ℚ) / tpb⌋₊ ∧ quantizedLength ticks tpb true = ⌈(24 * ticks : ℚ) / tpb⌉₊ := by
  rw [quantizedLength_eq ticks tpb ht hp hp2, quantizedLength_eq ticks tpb ht hp hp2]
  have e : (24 * ticks : ℚ) / tpb = ((24 * ticks : ℕ) : ℚ) / (tpb : ℕ) := by push_cast; ring
  rw [e]
  constructor
  · simp only [exactLength, Bool.false_eq_true, if_false]
    exact (Nat.floor_div_eq_div (24 * ticks) tpb).symm
  · simp only [exactLength, if_true]
    have hpq : (0 : ℚ) < tpb := by exact_mod_cast hp
    apply le_antisymm
    · rw [Nat.div_le_iff_le_mul_add_pred hp]
      have h := Nat.le_ceil (((24 * ticks : ℕ) : ℚ) / (tpb : ℕ))
      rw [div_le_iff₀ hpq] at h
      have h' : 24 * ticks ≤ ⌈((24 * ticks : ℕ) : ℚ) / (tpb : ℕ)⌉₊ * tpb := by exact_mod_cast h
      rw [mul_comm tpb]
      omega
    · rw [Nat.ceil_le, div_le_iff₀ hpq]
      have h := Nat.lt_div_mul_add hp (a := 24 * ticks + tpb - 1)
      have h' : 24 * ticks ≤ (24 * ticks + tpb - 1) / tpb * tpb := by omega
      exact_mod_cast h'

example : quantizedLength 349500 480 false = 17475 ∧ quantizedLength 7 480 true = 1 ∧ quantizedLength 349524 96 true = 87381 ∧
    quantizedLength 8388599 480 false = 419429 ∧ quantizedLength 8388599 480 true = 419430 := by
  decide +kernel

/-! ## C09 -/

/-- **C09.** Rests and notes of any length up to 32512 units (the range of the 8-bit piece counter) are split into pieces of 1 to 0x7F units that
add up to the length: first for `insert_rest`, then for the note-off, whose pieces are a note (or, after a pitch slide, a tie) and ties. -/
theorem C09_split (cs : List PCmd) (clock t tpb : Nat) (hp : 0 < tpb) (hp2 : tpb < 65536) (ht2 : t < 2 ^ 31) (note : UInt8) (hn : note ≤ 127)
    (st : TrackState) :
    (clock < t → t - clock < exactTicks tpb → 24 * (t - clock) / tpb ≤ 32512 → ∃ rests clock', insertRest cs clock t tpb = .ok (cs ++ rests, clock') ∧
      (∀ c ∈ rests, ∃ u : UInt8, c = restCmd u ∧ 1 ≤ u.toNat ∧ u.toNat ≤ 0x7f) ∧ total rests = ⌊(24 * (t - clock : ℕ) : ℚ) / tpb⌋₊) ∧
    (∀ start, st.noteStart = some start → start < t → t - start < exactTicks tpb → 24 * (t - start) / tpb ≤ 32511 →
      ∃ st' first ties, trackNoteOff tpb st note t = .ok st' ∧ st'.commands = st.commands ++ first :: ties ∧
      (first.command = .note (note + 0x68) ∨ first.command = .tie ∧ (st.commands.getLast?).any PCmd.isSlide = true) ∧ (∀ c ∈ ties, c.command = .tie) ∧
      (∀ c ∈ first :: ties, ∃ u : UInt8, c.duration = some u ∧ 1 ≤ u.toNat ∧ u.toNat ≤ 0x7f) ∧
      total (first :: ties) = ⌈(24 * (t - start : ℕ) : ℚ) / tpb⌉₊) := by
  constructor
  · intro h hd hq
    rw [insertRest_eq cs clock t tpb hd ht2 hp hp2, if_pos h]
    refine ⟨_, _, rfl, restsOf_mem _ (splitLength_le _ _), ?_⟩
    rw [total_restsOf_split _ _ hq]
    have := (C08_length_exact (t - clock) tpb hd hp hp2).1
    rw [quantizedLength_eq _ _ hd hp hp2] at this
    rw [← this]; simp [exactLength]
  · intro start hst h hd hq
    have hx := (C08_length_exact (t - start) tpb hd hp hp2).2
    rw [quantizedLength_eq _ _ hd hp hp2] at hx
    have hq' : exactLength (t - start) tpb true ≤ 32512 := by
      simp only [exactLength, if_true]
      have h1 := Nat.div_le_div_right (c := tpb) (show 24 * (t - start) + tpb - 1 ≤ 24 * (t - start) + tpb by omega)
      rw [Nat.add_div_right _ hp] at h1
      omega
    have hq0 : 0 < exactLength (t - start) tpb true := by
      simp only [exactLength, if_true]
      exact Nat.div_pos (by omega) hp
    obtain ⟨st', h1, h2⟩ : ∃ st', trackNoteOff tpb st note t = .ok st' ∧ st'.commands = st.commands ++
        noteGroup (if (st.commands.getLast?).any PCmd.isSlide then .tie else .note (note + 0x68)) st.noteVelocity
          (splitLength (exactLength (t - start) tpb true) (exactLength (t - start) tpb true * tpb / 24)) := by
      obtain ⟨cmd, rfl, q, q1, q2, q3⟩ := noteOff_eq tpb st note t start hd ht2 hp hp2 (UInt8.le_iff_toNat_le.1 hn) hst h.le
      have hqe : exactLength (t - start) tpb true = q := by
        simp only [exactLength, if_true]
        rw [Nat.div_eq_iff hp]
        constructor
        · omega
        · omega
      exact ⟨_, q3, by rw [hqe]⟩
    refine ⟨st', _, _, h1, h2, ?_, ?_, ?_, ?_⟩
    · by_cases hsl : (st.commands.getLast?).any PCmd.isSlide = true
      · right; simp [hsl]
      · left; simp [hsl]
    · intro c hc
      simp only [noteTies, List.mem_map] at hc
      obtain ⟨i, -, rfl⟩ := hc
      rfl
    · intro c hc
      obtain ⟨l1, l2⟩ := splitLength_len _ (exactLength (t - start) tpb true * tpb / 24) hq0
      exact (noteGroup_mem _ _ _ l1 l2 c hc).2
    · have := total_group_split (if (st.commands.getLast?).any PCmd.isSlide then .tie else .note (note + 0x68)) st.noteVelocity
        (exactLength (t - start) tpb true) (exactLength (t - start) tpb true * tpb / 24) hq'
      rw [← hx]
      exact this

/-- 300 units: two full pieces and the remainder, as rests and as a note. -/
example : insertRest [] 0 6010 480 = .ok ([restCmd 127, restCmd 127, restCmd 46], 6000) ∧
    trackNoteOff 480 { noteStart := some 0, noteVelocity := 80 } 60 5990 =
      .ok { commands := [⟨some 127, some 10, some 7, .note 164⟩, ⟨some 127, none, none, .tie⟩, ⟨some 46, none, none, .tie⟩],
            lastNoteEnd := 6000, noteVelocity := 80 } := by
  decide +kernel

/-- Beyond the range of the piece counter the split loses time: 32513 units become a single unit. -/
theorem C09_range_sharp : insertRest [] 0 32513 24 = .ok ([restCmd 1], 32513) := by decide +kernel

/-! ## C10 -/

/-- **C10, partial** (missing: gaps of `exactTicks` ticks or more, for which it is false, see `C10_far_false`): inserting a rest up to time `t` keeps the commands and
appends rests only; the clock does not pass `t` (or stays, if it was past `t`), is less than one unit plus one tick before `t`, and nothing happens if the
clock is already at or past `t`. A tick is 24 and a unit `tpb` in the scale used. -/
theorem C10_insert_rest_partial (cs : List PCmd) (clock t tpb : Nat) (hp : 0 < tpb) (hp2 : tpb < 65536) (ht : t - clock < exactTicks tpb) (ht2 : t < 2 ^ 31) :
    ∃ rests clock', insertRest cs clock t tpb = .ok (cs ++ rests, clock') ∧ (∀ c ∈ rests, c.command = .rest) ∧
      (t ≤ clock → rests = [] ∧ clock' = clock) ∧ (clock < t → clock ≤ clock' ∧ clock' ≤ t ∧ 24 * t < 24 * clock' + tpb + 24) := by
  rw [insertRest_eq cs clock t tpb ht ht2 hp hp2]
  split_ifs with h
  · refine ⟨_, _, rfl, ?_, by omega, fun _ => ?_⟩
    · intro c hc
      obtain ⟨u, rfl, -⟩ := restsOf_mem _ (splitLength_le _ _) c hc
      rfl
    · have := Nat.div_mul_le_self (24 * (t - clock)) tpb
      have := Nat.lt_div_mul_add hp (a := 24 * (t - clock))
      omega
  · exact ⟨[], clock, by simp, by simp, fun _ => ⟨rfl, rfl⟩, by omega⟩

/-- A gap that is not a whole number of units: 1 tick is left over. -/
example : insertRest [restCmd 3] 60 181 480 = .ok ([restCmd 3, restCmd 6], 180) := by decide +kernel

/-- C10 is false for very long gaps: the `f32` rounds 16777219 ticks up, and the clock passes the target. -/
theorem C10_far_false : ∃ rests clock', insertRest [] 0 16777219 1 = .ok (rests, clock') ∧ 16777219 < clock' :=
  ⟨(insertRest [] 0 16777219 1).toOption.get!.1, 16777220, by decide +kernel, by decide⟩

/-! ## C11 -/

/-- **C11, partial** (missing: program changes during a note, for which it is false, see `C11_program_false`; pieces above 32511 units or `exactTicks` ticks):
after every prefix of the events of a well-formed voice the durations emitted so far (times the ticks per unit, in 1/24 ticks) equal the internal
clock if `tpb` is a multiple of 24, and otherwise exceed it by at most 23/24 tick per event. -/
theorem C11_no_drift_partial (pre suf : List (Message × Nat)) (tpb G T : Nat) (f : F32) (hp : 0 < tpb) (hp2 : tpb < 65536) (hG : G + 3525 ≤ exactTicks tpb)
    (hG2 : 24 * (G + 1) ≤ 32511 * tpb) (hT : T < 2 ^ 31) (hv : voiceOk tpb G T 0 0 none (pre ++ suf) = true)
    (hpr : programsBetweenNotes false (pre ++ suf) = true) :
    ∃ st, pre.foldlM (trackStep tpb f) {} = .ok st ∧ 24 * st.lastNoteEnd ≤ total st.commands * tpb ∧
      total st.commands * tpb ≤ 24 * st.lastNoteEnd + slack tpb * pre.length ∧ (24 ∣ tpb → total st.commands * tpb = 24 * st.lastNoteEnd) := by
  obtain ⟨st, o, h1, h2⟩ := sync_prefix tpb G T f hp hp2 hG hG2 hT suf pre 0 0 0 none {} hv hpr (safe_init tpb hp) (sync_init tpb)
  rw [Nat.zero_add] at h2
  refine ⟨st, h1, h2.lo, h2.hi, fun hd => ?_⟩
  have h3 := h2.hi
  have h4 := h2.lo
  have : slack tpb = 0 := by unfold slack; rw [if_pos (by omega)]
  rw [this] at h3
  omega

example : voiceOk 480 8000000 5520 0 0 none demoVoice = true ∧ programsBetweenNotes false demoVoice = true := by decide

/-- C11 is false if the program changes while a note sounds: a rest is inserted into the note without moving its start. 5 + 24 units are emitted for 480
ticks, at 20 ticks per unit. -/
theorem C11_program_false : ∃ (evs : List (Message × Nat)) (st : TrackState), voiceOk 480 8000000 480 0 0 none evs = true ∧
    evs.foldlM (trackStep 480 (.fin (1 / 5))) {} = .ok st ∧ total st.commands * 480 = 24 * st.lastNoteEnd + 2400 :=
  ⟨[evOn 0 60 100, evProgram 100 40, evOff 480 60], ⟨[restCmd 5, plainCmd (.setInstrument 9), ⟨some 24, some 12, some 7, .note 164⟩], none, 100, 480, false, 0⟩,
    by decide, by decide +kernel, by decide⟩

/-! ## C12 -/

/-- **C12, partial** (missing: resolutions that are not multiples of 24, for which it is false, see `C12_drift_false`; program changes during a note;
portamento; pieces above 32511 units or `exactTicks` ticks): the notes of a converted voice are the MIDI notes, in order, with the right pitch byte and velocity,
each starting less than one unit from its note-on. They also end less than one unit from the note-off, before the sustain pass shortens some of them by fusing
them with the following rest (`Fused`), which changes no start. `Near tpb k` allows the extra deviation `k`, here 0 or 23/24 tick per event. -/
theorem C12_notes_on_time_partial (evs : List (Message × Nat)) (tpb G T : Nat) (f : F32) (hp : 0 < tpb) (hp2 : tpb < 65536) (hG : G + 3525 ≤ exactTicks tpb)
    (hG2 : 24 * (G + 1) ≤ 32511 * tpb) (hT : T < 2 ^ 31) (hv : voiceOk tpb G T 0 0 none evs = true)
    (hpr : programsBetweenNotes false evs = true) (hno : noPortamento evs = true) :
    ∃ cs0 cs, trackNew evs tpb T f = .ok cs ∧ Fused cs0 cs ∧
      List.Forall₂ (Near tpb (slack tpb * evs.length)) (spans cs0) (midiNotes none evs) ∧
      List.Forall₂ (fun (o : Nat × UInt8) (n : MidiNote) => o.2 = n.note + 0x68 ∧ o.1 * tpb < 24 * n.on + tpb + slack tpb * evs.length ∧
        24 * n.on < o.1 * tpb + tpb + slack tpb * evs.length) (noteOnsets cs) (midiNotes none evs) := by
  obtain ⟨cs0, cs, h1, h2, -, h4⟩ := trackNew_ok evs tpb G T f hp hp2 hG hT hv
  obtain ⟨-, h6⟩ := h4 hG2 hpr
  refine ⟨cs0, cs, h1, h2, h6 hno, ?_⟩
  have e : noteOnsets cs = noteOnsets cs0 := by unfold noteOnsets; rw [fused_onsets h2]
  rw [e, ← spans_onsets, List.forall₂_map_left_iff]
  exact (h6 hno).imp fun x n hn => ⟨hn.pitch, hn.startLate, hn.startEarly⟩

/-- With the usual resolutions the deviation is less than one unit, however many events precede the note. -/
theorem C12_notes_on_time_24_partial (evs : List (Message × Nat)) (tpb G T : Nat) (f : F32) (h24 : 24 ∣ tpb) (hp : 0 < tpb) (hp2 : tpb < 65536) (hG : G + 3525 ≤ exactTicks tpb)
    (hG2 : 24 * (G + 1) ≤ 32511 * tpb) (hT : T < 2 ^ 31) (hv : voiceOk tpb G T 0 0 none evs = true)
    (hpr : programsBetweenNotes false evs = true) (hno : noPortamento evs = true) :
    ∃ cs, trackNew evs tpb T f = .ok cs ∧
      List.Forall₂ (fun (o : Nat × UInt8) (n : MidiNote) => o.2 = n.note + 0x68 ∧ |(o.1 : ℚ) - 24 * n.on / tpb| < 1) (noteOnsets cs) (midiNotes none evs) := by
  obtain ⟨cs0, cs, h1, -, -, h4⟩ := C12_notes_on_time_partial evs tpb G T f hp hp2 hG hG2 hT hv hpr hno
  refine ⟨cs, h1, h4.imp ?_⟩
  rintro o n ⟨e1, e2, e3⟩
  have : slack tpb = 0 := by unfold slack; rw [if_pos (by omega)]
  rw [this, Nat.zero_mul, Nat.add_zero] at e2 e3
  have hpq : (0 : ℚ) < tpb := by exact_mod_cast hp
  have q2 : (o.1 : ℚ) * tpb < 24 * n.on + tpb := by exact_mod_cast e2
  have q3 : (24 * n.on : ℚ) < o.1 * tpb + tpb := by exact_mod_cast e3
  refine ⟨e1, ?_⟩
  rw [abs_lt]
  constructor
  · have : (24 * n.on : ℚ) / tpb < o.1 + 1 := by rw [div_lt_iff₀ hpq]; linarith
    linarith
  · have : (o.1 : ℚ) - 1 < 24 * n.on / tpb := by rw [lt_div_iff₀ hpq]; linarith
    linarith

example : 24 * (600000 + 1) ≤ 32511 * 480 ∧ voiceOk 480 600000 5520 0 0 none demoVoice = true ∧ programsBetweenNotes false demoVoice = true ∧ noPortamento demoVoice = true ∧
    midiNotes none demoVoice = [⟨480, 5001, 60, 100⟩, ⟨5300, 5400, 62, 80⟩] := by decide

/-- The converted example: starts at units 24 (480 ticks) and 265 (5300 ticks). -/
example : ∃ cs, trackNew demoVoice 480 5520 (.fin (1 / 5)) = .ok cs ∧ noteOnsets cs = [(24, 164), (265, 166)] :=
  ⟨(trackNew demoVoice 480 5520 (.fin (1 / 5))).toOption.get!, by decide +kernel, by decide +kernel⟩

/-- Back-to-back notes of two ticks each, from time `t`. -/
def shortNotes : Nat → Nat → List (Message × Nat)
  | 0, _ => []
  | k + 1, t => evOn t 60 100 :: evOff (t + 2) 60 :: shortNotes k (t + 2)

/-- **C12 is false of the code** when the resolution is not a multiple of 24: with 25 ticks per beat, the 14th of a row of two-tick notes starts at unit 26 instead
of 24.96, and 100 notes later the deviation has grown to 9 units. -/
theorem C12_drift_false : voiceOk 25 346000 228 0 0 none (shortNotes 114 0) = true ∧ ∃ cs, trackNew (shortNotes 114 0) 25 228 (.fin (1 / 5)) = .ok cs ∧
    (noteOnsets cs)[13]? = some (26, 164) ∧ (midiNotes none (shortNotes 114 0))[13]? = some ⟨26, 28, 60, 100⟩ ∧
    (noteOnsets cs)[113]? = some (226, 164) ∧ (midiNotes none (shortNotes 114 0))[113]? = some ⟨226, 228, 60, 100⟩ :=
  ⟨by decide +kernel, (trackNew (shortNotes 114 0) 25 228 (.fin (1 / 5))).toOption.get!, by decide +kernel, by decide +kernel, by decide +kernel, by decide +kernel, by decide +kernel⟩

/-! ## C13 -/

/-- **C13.** For every list of events whatsoever: if the conversion succeeds, its result is obtained from the commands emitted by the event loop (and the final rest) by
fusing note-rest pairs only. So the total time, the start and kind of every command that is not a rest, and all velocities are unchanged. -/
theorem C13_sustain_pass (evs : List (Message × Nat)) (tpb T : Nat) (f : F32) (cs : List PCmd) (h : trackNew evs tpb T f = .ok cs) :
    ∃ st cs0 clock, evs.foldlM (trackStep tpb f) {} = .ok st ∧ (st.commands = [] ∧ cs0 = [] ∨ insertRest st.commands st.lastNoteEnd T tpb = .ok (cs0, clock)) ∧
      Fused cs0 cs ∧ total cs = total cs0 ∧ onsets 0 cs = onsets 0 cs0 ∧
      (cs.filter (fun c => c.command ≠ .rest)).map (fun c => (c.velocity, c.command)) =
        (cs0.filter (fun c => c.command ≠ .rest)).map (fun c => (c.velocity, c.command)) := by
  obtain ⟨st, cs0, h1, h2, h3, h4⟩ := trackNew_pre evs tpb T f cs h
  have hf := sustainPass_fused' cs0 cs h4 h3
  rcases h2 with h2 | ⟨-, e, h2⟩
  · exact ⟨st, cs0, 0, h1, .inl h2, hf, fused_total hf, fused_onsets hf 0, fused_velocities hf⟩
  · exact ⟨st, cs0, e, h1, .inr h2, hf, fused_total hf, fused_onsets hf 0, fused_velocities hf⟩

/-- **C13** for the pass itself, on every list of commands with durations up to 0x7F: it fails only at a note-rest pair with a missing duration or two zero durations. -/
theorem C13_pass (cs : List PCmd) (hs : ∀ c ∈ cs, ∀ d, c.duration = some d → d.toNat ≤ 0x7f) (r : List PCmd) (h : sustainPass cs = .ok r) :
    Fused cs r ∧ total r = total cs ∧ onsets 0 r = onsets 0 cs := by
  have hf := sustainPass_fused' cs r hs h
  exact ⟨hf, fused_total hf, fused_onsets hf 0⟩

example : sustainPass [⟨some 12, some 9, some 7, .note 0xa4⟩, restCmd 12, plainCmd (.tempo 30), ⟨some 127, some 9, some 7, .note 0xa4⟩, ⟨some 6, none, none, .tie⟩, restCmd 2] =
    .ok [⟨some 24, some 9, some 4, .note 0xa4⟩, plainCmd (.tempo 30), ⟨some 127, some 9, some 7, .note 0xa4⟩, ⟨some 6, none, none, .tie⟩, restCmd 2] := by decide

/-! ## C14 -/

/-- **C14, partial** (missing as in C12; see `C14_program_false`): a non-empty converted track lasts until the end `T` of the song, less than one unit more or
less, if the resolution is a multiple of 24. -/
theorem C14_end_together_partial (evs : List (Message × Nat)) (tpb G T : Nat) (f : F32) (hp : 0 < tpb) (hp2 : tpb < 65536) (h24 : 24 ∣ tpb) (hG : G + 3525 ≤ exactTicks tpb)
    (hG2 : 24 * (G + 1) ≤ 32511 * tpb) (hT : T < 2 ^ 31) (hv : voiceOk tpb G T 0 0 none evs = true)
    (hpr : programsBetweenNotes false evs = true) :
    ∃ cs, trackNew evs tpb T f = .ok cs ∧ (cs ≠ [] → |(total cs : ℚ) - 24 * T / tpb| < 1) := by
  obtain ⟨cs0, cs, h1, h2, -, h4⟩ := trackNew_ok evs tpb G T f hp hp2 hG hT hv
  obtain ⟨h5, -⟩ := h4 hG2 hpr
  refine ⟨cs, h1, fun hne => ?_⟩
  obtain ⟨e2, e3⟩ := h5 hne
  have : slack tpb = 0 := by unfold slack; rw [if_pos (by omega)]
  rw [this, Nat.zero_mul, Nat.add_zero] at e2 e3
  rw [fused_total h2]
  have hpq : (0 : ℚ) < tpb := by exact_mod_cast hp
  have q2 : (total cs0 : ℚ) * tpb < 24 * T + tpb := by exact_mod_cast e2
  have q3 : (24 * T : ℚ) < total cs0 * tpb + tpb := by exact_mod_cast e3
  rw [abs_lt]
  constructor
  · have : (24 * T : ℚ) / tpb < total cs0 + 1 := by rw [div_lt_iff₀ hpq]; linarith
    linarith
  · have : (total cs0 : ℚ) - 1 < 24 * T / tpb := by rw [lt_div_iff₀ hpq]; linarith
    linarith

/-- Without the assumption on the resolution, the bound grows with the number of events. -/
theorem C14_end_together_any_partial (evs : List (Message × Nat)) (tpb G T : Nat) (f : F32) (hp : 0 < tpb) (hp2 : tpb < 65536) (hG : G + 3525 ≤ exactTicks tpb)
    (hG2 : 24 * (G + 1) ≤ 32511 * tpb) (hT : T < 2 ^ 31) (hv : voiceOk tpb G T 0 0 none evs = true)
    (hpr : programsBetweenNotes false evs = true) :
    ∃ cs, trackNew evs tpb T f = .ok cs ∧ (cs ≠ [] → total cs * tpb < 24 * T + tpb + slack tpb * (evs.length + 1) ∧
      24 * T < total cs * tpb + tpb + slack tpb * (evs.length + 1)) := by
  obtain ⟨cs0, cs, h1, h2, -, h4⟩ := trackNew_ok evs tpb G T f hp hp2 hG hT hv
  obtain ⟨h5, -⟩ := h4 hG2 hpr
  refine ⟨cs, h1, fun hne => ?_⟩
  rw [fused_total h2]
  exact h5 hne

/-- The example voice lasts 276 units: 5520 ticks at 20 ticks per unit. -/
example : ∃ cs, trackNew demoVoice 480 5520 (.fin (1 / 5)) = .ok cs ∧ total cs = 276 :=
  ⟨(trackNew demoVoice 480 5520 (.fin (1 / 5))).toOption.get!, by decide +kernel, by decide +kernel⟩

/-- **C14 is false of the code** if the program changes while a note sounds: 29 units instead of 24. -/
theorem C14_program_false : ∃ (evs : List (Message × Nat)) (cs : List PCmd), voiceOk 480 8000000 480 0 0 none evs = true ∧
    trackNew evs 480 480 (.fin (1 / 5)) = .ok cs ∧ total cs = 29 :=
  ⟨[evOn 0 60 100, evProgram 100 40, evOff 480 60], [restCmd 5, plainCmd (.setInstrument 9), ⟨some 24, some 12, some 7, .note 164⟩], by decide, by decide +kernel, by decide⟩

/-! ## C15 -/

/-- **C15.** Every list of events with MIDI-range velocities, if converted, gives commands with velocity at most 15 and sustain at most 7, and every note command carries `n + 0x68` for the
number `n` of some note-off event (in order for well-formed voices: C12). That byte is a legal N-SPC note exactly if `24 ≤ n ≤ 95`. -/
theorem C15_ranges (evs : List (Message × Nat)) (hvel : ∀ t dl ch n v, (Message.midiEvent dl (.noteOn ch n v), t) ∈ evs → v.toNat ≤ 127)
    (tpb T : Nat) (f : F32) (cs : List PCmd) (h : trackNew evs tpb T f = .ok cs) :
    ∀ c ∈ cs, (∀ v, c.velocity = some v → v.toNat ≤ 15) ∧ (∀ s, c.sustain = some s → s.toNat ≤ 7) ∧
      (∀ p, c.command = .note p → ∃ n : UInt8, (∃ t dl ch v, (Message.midiEvent dl (.noteOff ch n v), t) ∈ evs) ∧ p.toNat = n.toNat + 0x68 ∧
        (0x80 ≤ p.toNat ∧ p.toNat ≤ 0xc7 ↔ 24 ≤ n.toNat ∧ n.toNat ≤ 95)) := by
  obtain ⟨st, cs0, h1, h2, h3, h4⟩ := trackNew_pre evs tpb T f cs h
  have hf := sustainPass_fused' cs0 cs h4 h3
  have hst : ∀ c ∈ st.commands, Ranged evs c :=
    ranged_loop evs hvel tpb f evs (fun _ h => h) {} st (by simp) (by simp) h1
  have h0 : ∀ c ∈ cs0, Ranged evs c := by
    rcases h2 with ⟨-, rfl⟩ | ⟨-, e, h2⟩
    · simp
    · obtain ⟨new, e1, e2⟩ := emits_insertRest 0 (.sysEx 0 []) _ _ _ _ _ _ h2
      rw [e1]
      intro c hc
      rcases List.mem_append.1 hc with hc | hc
      · exact hst c hc
      · cases e2 c hc with
        | rest u hu => exact ⟨by simp [restCmd], by simp [restCmd], by simp [restCmd]⟩
        | tempo => exact ⟨by simp [plainCmd], by simp [plainCmd], by simp [plainCmd]⟩
        | volume => exact ⟨by simp [plainCmd], by simp [plainCmd], by simp [plainCmd]⟩
        | instrument => exact ⟨by simp [plainCmd], by simp [plainCmd], by simp [plainCmd]⟩
  intro c hc
  have hr := fused_ranged evs hf h0 c hc
  refine ⟨hr.vel, hr.sus, fun p hp => ?_⟩
  obtain ⟨n, hn, hpn⟩ := hr.pitch p hp
  exact ⟨n, hn, hpn, by omega⟩

/-- Note numbers at the edge of the legal range. -/
example : trackNew [evOn 0 24 127, evOff 480 24, evOn 480 96 7, evOff 960 96] 480 960 (.fin (1 / 5)) =
    .ok [⟨some 24, some 15, some 7, .note 0x80⟩, ⟨some 24, some 0, some 7, .note 0xc8⟩] := by decide +kernel

/-! ## C16 -/

/-- **C16, partial** (missing: notes or gaps above `exactTicks` ticks and songs above `2^31` ticks, for which it is false, see `C16_long_gap_false`): conversion of a well-formed voice succeeds. -/
theorem C16_track_new_ok_partial (evs : List (Message × Nat)) (tpb G T : Nat) (f : F32) (hp : 0 < tpb) (hp2 : tpb < 65536) (hG : G + 3525 ≤ exactTicks tpb) (hT : T < 2 ^ 31)
    (hv : voiceOk tpb G T 0 0 none evs = true) : ∃ cs, trackNew evs tpb T f = .ok cs := by
  obtain ⟨cs0, cs, h, -⟩ := trackNew_ok evs tpb G T f hp hp2 hG hT hv
  exact ⟨cs, h⟩

/-- **C16 is false of the code** for very long gaps: 178956971 ticks of silence overflow the `u32` multiplication (four days at 480 ticks per beat and 60 beats per minute). -/
theorem C16_long_gap_false : voiceOk 480 178956971 178957451 0 0 none [evOn 178956971 60 100, evOff 178957451 60] = true ∧
    trackNew [evOn 178956971 60 100, evOff 178957451 60] 480 178957451 (.fin (1 / 5)) = .error .panic := by
  constructor
  · decide
  · decide +kernel

/-- The assumption that a note is at least one unit long cannot be dropped: a note of 1 tick after a note that was rounded up ends before its start, and the subtraction panics. -/
theorem C16_short_note_panics : trackNew [evOn 0 60 100, evOff 21 60, evOn 22 62 100, evOff 30 62] 480 480 (.fin (1 / 5)) = .error .panic := by
  decide +kernel

/-! ## C52 -/

/-- **C52.** A slide made from the previous command has delay + min(time, length) equal to that command's length, keeps the time and targets the given byte; rests never slide, and
everything else with a duration does. -/
theorem C52_slide (c : PCmd) (time target : UInt8) :
    (∀ s, c.createPitchSlide time target = some s → c.command ≠ .rest ∧ ∃ d delay, c.duration = some d ∧ s = plainCmd (.pitchSlide delay time target) ∧
      delay.toNat + min time.toNat d.toNat = d.toNat) ∧
    (c.createPitchSlide time target = none ↔ c.command = .rest ∨ c.duration = none) := by
  constructor
  · intro s h
    unfold PCmd.createPitchSlide at h
    split at h
    · simp at h
    · rename_i hne
      obtain ⟨d, hd, rfl⟩ := Option.map_eq_some_iff.1 h
      refine ⟨hne, d, _, hd, rfl, ?_⟩
      have hmin : min time d = if time ≤ d then time else d := rfl
      have hle : time ≤ d ↔ time.toNat ≤ d.toNat := UInt8.le_iff_toNat_le
      rw [hmin]
      split_ifs with h
      · rw [UInt8.toNat_sub_of_le _ _ h]; rw [hle] at h; omega
      · rw [UInt8.toNat_sub_of_le _ _ (UInt8.le_refl d)]; rw [hle] at h; omega
  · unfold PCmd.createPitchSlide
    split
    · rename_i h; simp [h]
    · rename_i h; simpa using fun hr => (h hr).elim

/-- **C52** at the note-on: with portamento on, a note-on right after a note (no rest needed) appends exactly a slide to the pitch byte of the new note; the subtraction in the delay never underflows. -/
theorem C52_note_on (tpb : Nat) (st : TrackState) (note velocity : UInt8) (t : Nat) (last : PCmd) (st' : TrackState) (d : UInt8)
    (hport : st.portamento = true) (hlast : st.commands.getLast? = some last) (hcmd : last.command ≠ .rest) (hd : last.duration = some d) (ht : t ≤ st.lastNoteEnd)
    (h : trackNoteOn tpb st note velocity t = .ok st') :
    ∃ delay time target : UInt8, st'.commands = st.commands ++ [plainCmd (.pitchSlide delay time target)] ∧ target.toNat = note.toNat + 0x68 ∧
      delay.toNat + min time.toNat d.toNat = d.toNat := by
  have hr : insertRest st.commands st.lastNoteEnd t tpb = .ok (st.commands, st.lastNoteEnd) := by
    unfold insertRest; rw [if_neg (by omega)]; rfl
  unfold trackNoteOn at h
  rw [hr] at h
  simp only [bind, Except.bind, hlast, hport, if_true] at h
  rcases hg : getDuration st.portTime tpb true with _ | dur
  · simp [hg] at h
  rcases hn : addU8 note 0x68 with _ | n'
  · simp [hg, hn] at h
  simp only [hg, hn, pure, Except.pure] at h
  split_ifs at h
  · simp [failed] at h
  simp only [Except.ok.injEq] at h
  subst h
  obtain ⟨s, hs⟩ : ∃ s, last.createPitchSlide dur.length n' = some s := by
    by_contra hc
    have : last.createPitchSlide dur.length n' = none := by
      rcases hx : last.createPitchSlide dur.length n' with _ | s
      · rfl
      · exact absurd ⟨s, hx⟩ hc
    rcases ((C52_slide last dur.length n').2.1 this) with h1 | h1
    · exact hcmd h1
    · rw [hd] at h1; cases h1
  obtain ⟨-, d', delay, hd', rfl, hsum⟩ := (C52_slide last dur.length n').1 s hs
  rw [hd] at hd'
  cases hd'
  refine ⟨delay, dur.length, n', by simp [hs], ?_, hsum⟩
  unfold addU8 at hn
  split_ifs at hn with hlt
  · simp only [Except.ok.injEq] at hn
    subst hn
    rw [UInt8.toNat_add]
    have : (0x68 : UInt8).toNat = 0x68 := rfl
    omega
  · simp [panicked] at hn

/-- Two slurred notes: the second is a slide during the last 12 units of the first, and a tie. -/
example : trackNew [evControl 0 37 120, evControl 0 65 127, evControl 0 5 1, evOn 0 60 100, evOff 480 60, evOn 480 62 100, evOff 960 62] 480 960 (.fin (1 / 5)) =
    .ok [⟨some 24, some 12, some 7, .note 164⟩, plainCmd (.pitchSlide 5 19 166), ⟨some 24, some 12, some 7, .tie⟩] := by decide +kernel

end M2S
