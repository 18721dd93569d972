import Verif.Proofs.Sustain
/-
Invariants of the event loop of `Track::new`.
-/
namespace M2S
open Timing

theorem splitLength_len (q x : Nat) (hq : 0 < q) :
    0 < (splitLength q x).length.toNat ∧ (splitLength q x).length.toNat ≤ 127 := by
  unfold splitLength
  dsimp only
  split_ifs with h1 h2
  · exact ⟨by simp, by simp⟩
  · simp only [UInt8.toNat_ofNat']; omega
  · simp only [UInt8.toNat_ofNat']; omega

theorem splitLength_le (q x : Nat) : (splitLength q x).length.toNat ≤ 127 := by
  rcases Nat.eq_zero_or_pos q with rfl | h
  · unfold splitLength; simp
  · exact (splitLength_len q x h).2

/-- The open note-on after an event. -/
def openAfter (o : Option Nat) (ev : Message × Nat) : Option Nat :=
  match ev.1 with
  | .midiEvent _ (.noteOn _ _ _) => some ev.2
  | .midiEvent _ (.noteOff _ _ _) => none
  | _ => o

/-- The time of the last note or program change after an event. -/
def advAfter (adv : Nat) (o : Option Nat) (ev : Message × Nat) : Nat :=
  match ev.1 with
  | .midiEvent _ (.noteOn _ _ _) => ev.2
  | .midiEvent _ (.noteOff _ _ _) => if o.isSome then ev.2 else adv
  | .midiEvent _ (.programChange _ _) => ev.2
  | _ => adv

/-- A command as the converter makes it. -/
structure CmdOk (c : PCmd) : Prop where
  dur : durOk c
  vel : ∀ v, c.velocity = some v → v.toNat ≤ 15
  sus : ∀ s, c.sustain = some s → s.toNat ≤ 7
  pitch : ∀ p, c.command = .note p → 0x68 ≤ p.toNat ∧ p.toNat ≤ 0xe7

/-- What keeps the loop from failing. -/
structure Safe (p now adv : Nat) (o : Option Nat) (st : TrackState) : Prop where
  clock : 24 * st.lastNoteEnd < 24 * now + p
  lag : 24 * adv < 24 * st.lastNoteEnd + p + 24
  idle : o = none → st.noteStart = none
  busy : ∀ on, o = some on → on ≤ now ∧ ∃ s, st.noteStart = some s ∧ 24 * s < 24 * on + p ∧ 24 * on < 24 * s + p + 24
  port : st.portTime < 65536
  vel : st.noteVelocity.toNat ≤ 127
  cmds : ∀ c ∈ st.commands, CmdOk c

theorem safe_init (p : Nat) (hp : 0 < p) : Safe p 0 0 none {} :=
  ⟨by simpa using hp, by simp, fun _ => rfl, by simp, by simp, by simp, by simp⟩

theorem restCmd_ok (u : UInt8) (h1 : 1 ≤ u.toNat) (h2 : u.toNat ≤ 127) : CmdOk (restCmd u) :=
  ⟨⟨u, rfl, h1, h2⟩, by simp [restCmd], by simp [restCmd], by simp [restCmd]⟩

theorem restsOf_ok (q x : Nat) : ∀ c ∈ restsOf (splitLength q x), CmdOk c := by
  intro c hc
  obtain ⟨u, rfl, h1, h2⟩ := restsOf_mem _ (splitLength_le q x) c hc
  exact restCmd_ok u h1 h2

theorem plainCmd_ok (c : Command) (h : ∀ d, ¬ (c = .note d)) (h1 : c ≠ .rest) (h2 : c ≠ .tie) : CmdOk (plainCmd c) := by
  refine ⟨?_, by simp [plainCmd], by simp [plainCmd], ?_⟩
  · unfold durOk plainCmd
    cases c <;> simp_all
  · intro p hp
    exact absurd hp (h p)

theorem slide_ok (last : PCmd) (a b : UInt8) : ∀ c ∈ (last.createPitchSlide a b).toList, CmdOk c := by
  intro c hc
  unfold PCmd.createPitchSlide at hc
  split at hc
  · simp at hc
  · rcases hd : last.duration with _ | d
    · simp [hd] at hc
    · simp only [hd, Option.map_some, Option.toList_some, List.mem_singleton] at hc
      subst hc
      exact ⟨rfl, by simp, by simp, by simp⟩

theorem group_ok (cmd : Command) (hcmd : cmd = .tie ∨ ∃ n, cmd = .note n ∧ 0x68 ≤ n.toNat ∧ n.toNat ≤ 0xe7)
    (vel : UInt8) (hvel : vel.toNat ≤ 127) (q x : Nat) (hq : 0 < q) : ∀ c ∈ noteGroup cmd vel (splitLength q x), CmdOk c := by
  intro c hc
  obtain ⟨hl1, hl2⟩ := splitLength_len q x hq
  obtain ⟨hk, u, hu, h1, h2⟩ := noteGroup_mem cmd vel _ hl1 hl2 c hc
  have hvs : (∀ v, c.velocity = some v → v.toNat ≤ 15) ∧ (∀ s, c.sustain = some s → s.toNat ≤ 7) := by
    unfold noteGroup at hc
    rw [List.mem_cons] at hc
    rcases hc with rfl | hc
    · refine ⟨?_, ?_⟩
      · intro v hv
        simp only [Option.some.injEq] at hv
        subst hv
        rw [UInt8.toNat_div]
        simp
        omega
      · intro s hs
        simp only [Option.some.injEq] at hs
        subst hs
        decide
    · simp only [noteTies, List.mem_map] at hc
      obtain ⟨i, -, rfl⟩ := hc
      simp
  refine ⟨?_, hvs.1, hvs.2, ?_⟩
  · unfold durOk
    rcases hk with hk | hk
    · rcases hcmd with h | ⟨n, h, -⟩ <;> rw [hk, h] <;> exact ⟨u, hu, h1, h2⟩
    · rw [hk]; exact ⟨u, hu, h1, h2⟩
  · intro p hp
    rcases hk with hk | hk
    · rcases hcmd with h | ⟨n, h, hn⟩
      · rw [hk, h] at hp; simp at hp
      · rw [hk, h] at hp
        simp only [Command.note.injEq] at hp
        subst hp; exact hn
    · rw [hk] at hp; simp at hp

/-- `insert_rest` and the clock. -/
theorem insertRest_facts (cs : List PCmd) (e t p : Nat) (ht : t - e < exactTicks p) (ht2 : t < 2 ^ 31) (hp : 0 < p) (hp2 : p < 65536)
    (hcs : ∀ c ∈ cs, CmdOk c) :
    ∃ rs e', insertRest cs e t p = .ok (cs ++ rs, e') ∧ (∀ c ∈ cs ++ rs, CmdOk c) ∧
      (∃ q, rs = restsOf (splitLength q (q * p / 24)) ∧ e' = e + q * p / 24 ∧
        (t ≤ e → q = 0) ∧ (e < t → q * p ≤ 24 * (t - e) ∧ 24 * (t - e) < q * p + p)) ∧ e' ≤ max e t ∧
      24 * t < 24 * e' + p + 24 := by
  rw [insertRest_eq cs e t p ht ht2 hp hp2]
  split_ifs with h
  · refine ⟨_, _, rfl, ?_, ⟨_, rfl, rfl, by omega, ?_⟩, ?_⟩
    · intro c hc
      rcases List.mem_append.1 hc with hc | hc
      · exact hcs c hc
      · exact restsOf_ok _ _ c hc
    · intro _
      exact ⟨Nat.div_mul_le_self _ _, Nat.lt_div_mul_add hp⟩
    · have := Nat.div_mul_le_self (24 * (t - e)) p
      have := Nat.lt_div_mul_add hp (a := 24 * (t - e))
      omega
  · refine ⟨[], e, by simp, by simpa using hcs, ⟨0, ?_, by simp, fun _ => rfl, by omega⟩, by omega⟩
    simp [restsOf, splitLength]

/-- The note-off arm. -/
theorem noteOff_eq (p : Nat) (st : TrackState) (n : UInt8) (t s : Nat) (ht : t - s < exactTicks p) (ht2 : t < 2 ^ 31) (hp : 0 < p) (hp2 : p < 65536)
    (hn : n.toNat ≤ 127) (hs : st.noteStart = some s) (hst : s ≤ t) :
    ∃ cmd, cmd = (if (st.commands.getLast?).any PCmd.isSlide then Command.tie else .note (n + 0x68)) ∧
    ∃ q, q * p < 24 * (t - s) + p ∧ 24 * (t - s) ≤ q * p ∧
      trackNoteOff p st n t = .ok { st with
        commands := st.commands ++ noteGroup cmd st.noteVelocity (splitLength q (q * p / 24))
        lastNoteEnd := s + q * p / 24
        noteStart := none } := by
  refine ⟨_, rfl, exactLength (t - s) p true, ?_, ?_, ?_⟩
  · simp only [exactLength, if_true]
    have := Nat.div_mul_le_self (24 * (t - s) + p - 1) p
    omega
  · simp only [exactLength, if_true]
    have := Nat.lt_div_mul_add hp (a := 24 * (t - s) + p - 1)
    omega
  · have hb := exactLength_lt (t - s) p (by omega) hp hp2 true
    have hb2 : exactLength (t - s) p true * p / 24 ≤ exactLength (t - s) p true * p := Nat.div_le_self _ _
    unfold trackNoteOff
    simp only [hs, subU, if_pos hst, bind, Except.bind, getDuration_eq (t - s) p (by omega) hp hp2, splitLength_ticks, addU32]
    rw [if_pos (by omega : s + exactLength (t - s) p true * p / 24 < 2 ^ 32)]
    cases ha : (st.commands.getLast?).any PCmd.isSlide
    · simp only [Bool.false_eq_true, if_false, addU8]
      rw [if_pos (by simp; omega)]
      rfl
    · rfl

theorem note_pitch (n : UInt8) (hn : n.toNat ≤ 127) : (n + 0x68).toNat = n.toNat + 0x68 := by
  rw [UInt8.toNat_add]; simp; omega

/-- The note-on arm. -/
theorem noteOn_eq (p : Nat) (st : TrackState) (n v : UInt8) (t : Nat) (hp : 0 < p) (hp2 : p < 65536)
    (hn : n.toNat ≤ 127) (hs : st.noteStart = none) (hport : st.portTime < 65536) (rs : List PCmd) (e' : Nat)
    (hr : insertRest st.commands st.lastNoteEnd t p = .ok (st.commands ++ rs, e')) :
    ∃ sl, (∀ c ∈ sl, CmdOk c) ∧ (∀ c ∈ sl, c.isSlide = true) ∧ (st.portamento = false → sl = []) ∧
      trackNoteOn p st n v t = .ok { st with
        commands := st.commands ++ rs ++ sl, lastNoteEnd := e', noteStart := some e', noteVelocity := v } := by
  unfold trackNoteOn
  simp only [hr, bind, Except.bind, hs, Option.isSome_none, Bool.false_eq_true, if_false]
  rcases hl : (st.commands ++ rs).getLast? with _ | last
  · exact ⟨[], by simp, by simp, fun _ => rfl, by simp [pure, Except.pure]⟩
  · cases hpm : st.portamento with
    | false => exact ⟨[], by simp, by simp, fun _ => rfl, by simp [pure, Except.pure]⟩
    | true =>
      simp only [if_true, getDuration_eq st.portTime p (by have := exactTicks_ge p; omega) hp hp2, addU8]
      rw [if_pos (by simp; omega)]
      refine ⟨_, slide_ok last _ _, ?_, by simp, rfl⟩
      intro c hc
      unfold PCmd.createPitchSlide at hc
      split at hc
      · simp at hc
      · rcases hd : last.duration with _ | d
        · simp [hd] at hc
        · simp only [hd, Option.map_some, Option.toList_some, List.mem_singleton] at hc
          subst hc
          rfl

theorem instrumentMap_length : Instr.instrumentMap.length = 128 := by decide +kernel

/-- The program-change arm. -/
theorem program_eq (p : Nat) (st : TrackState) (ch : Fin 16) (pr : UInt8) (t : Nat) (hpr : pr.toNat ≤ 127) (rs : List PCmd) (e' : Nat)
    (hr : insertRest st.commands st.lastNoteEnd t p = .ok (st.commands ++ rs, e')) :
    ∃ i, trackProgram p st ch pr t = .ok { st with
        commands := st.commands ++ rs ++ [plainCmd (.setInstrument i)], lastNoteEnd := e' } := by
  unfold trackProgram
  simp only [hr, bind, Except.bind]
  split_ifs with h9
  · exact ⟨_, rfl⟩
  · have : pr.toNat < Instr.instrumentMap.length := by rw [instrumentMap_length]; omega
    simp only [List.getElem?_eq_getElem this]
    exact ⟨_, rfl⟩

theorem usec_ok (data : List UInt8) (h : 3 ≤ data.length) : ∃ u, usecPerBeat data = .ok u := by
  match data, h with
  | a :: b :: c :: _, _ => exact ⟨_, rfl⟩

/-- The time of the latest channel event. -/
def nowAfter (now : Nat) (ev : Message × Nat) : Nat :=
  match ev.1 with
  | .midiEvent _ _ => ev.2
  | _ => now

/-- One event of a well-formed voice is converted, and the state stays safe. -/
theorem safe_step (p G T : Nat) (f : F32) (hp : 0 < p) (hp2 : p < 65536) (hG : G + 3525 ≤ exactTicks p) (hT : T < 2 ^ 31) (now adv : Nat) (o : Option Nat)
    (st : TrackState) (ev : Message × Nat) (evs : List (Message × Nat)) (hv : voiceOk p G T now adv o (ev :: evs) = true)
    (hs : Safe p now adv o st) :
    ∃ st', trackStep p f st ev = .ok st' ∧ Safe p (nowAfter now ev) (advAfter adv o ev) (openAfter o ev) st' ∧
      voiceOk p G T (nowAfter now ev) (advAfter adv o ev) (openAfter o ev) evs = true ∧ now ≤ nowAfter now ev ∧ (now ≤ T → nowAfter now ev ≤ T) := by
  obtain ⟨m, t⟩ := ev
  have hclock : ∀ {e}, 24 * e < 24 * now + p → now ≤ t → 24 * e < 24 * t + p := by intros; omega
  have hlag := hs.lag
  have keep : now ≤ t → Safe p t adv o st := fun h1 => ⟨hclock hs.clock h1, hs.lag, hs.idle, fun on hon => ⟨by have := (hs.busy on hon).1; omega, (hs.busy on hon).2⟩, hs.port, hs.vel, hs.cmds⟩
  rcases m with ⟨dl, e, data⟩ | ⟨dl, e⟩ | ⟨dl, data⟩ | _
  · -- meta event
    rcases e with _ | k
    · simp only [voiceOk, Bool.and_eq_true, decide_eq_true_eq] at hv
      obtain ⟨h3, h4⟩ := hv
      obtain ⟨u, hu⟩ := usec_ok data h3
      have hstep : trackStep p f st (.metaEvent dl .setTempo data, t) =
          .ok { st with commands := st.commands ++ [plainCmd (.tempo (tempoByte u f))] } := by
        simp only [trackStep, hu]; rfl
      refine ⟨_, hstep, ⟨hs.clock, hs.lag, hs.idle, hs.busy, hs.port, hs.vel, ?_⟩, h4, le_rfl, id⟩
      intro c hc
      rcases List.mem_append.1 hc with hc | hc
      · exact hs.cmds c hc
      · simp only [List.mem_singleton] at hc
        subst hc
        exact plainCmd_ok _ (by simp) (by simp) (by simp)
    · simp only [voiceOk] at hv
      exact ⟨st, rfl, hs, hv, le_rfl, id⟩
  · -- channel event
    rcases e with ⟨ch, n, v⟩ | ⟨ch, n, v⟩ | ⟨ch, n, v⟩ | ⟨ch, c, d⟩ | ⟨ch, pr⟩ | ⟨ch, pr⟩ | ⟨ch, x⟩ | ⟨ch⟩
    · -- note off
      simp only [voiceOk, Bool.and_eq_true, decide_eq_true_eq] at hv
      obtain ⟨⟨h1, h2⟩, hn, hv⟩ := hv
      have hn' : n.toNat ≤ 127 := by simpa [UInt8.le_iff_toNat_le] using hn
      rcases o with _ | on
      · have : st.noteStart = none := hs.idle rfl
        exact ⟨st, by simp [trackStep, trackNoteOff, this], keep h1, hv, h1, fun _ => h2⟩
      · obtain ⟨ho1, s, hss, hsb, hsb2⟩ := hs.busy on rfl
        simp only [Bool.and_eq_true, decide_eq_true_eq] at hv
        obtain ⟨⟨hlen, hgap⟩, h4⟩ := hv
        obtain ⟨cmd, hcmd, q, hq1, hq2, hstep⟩ := noteOff_eq p st n t s (by omega) (by omega) hp hp2 hn' hss (by omega)
        refine ⟨_, hstep, ⟨?_, ?_, fun _ => rfl, by simp [openAfter], hs.port, hs.vel, ?_⟩, h4, h1, fun _ => h2⟩
        · simp only [nowAfter]
          omega
        · simp only [advAfter, Option.isSome_some, if_true]
          omega
        · intro c hc
          rcases List.mem_append.1 hc with hc | hc
          · exact hs.cmds c hc
          · refine group_ok cmd ?_ _ hs.vel q _ ?_ c hc
            · rw [hcmd]
              split_ifs
              · exact .inl rfl
              · exact .inr ⟨_, rfl, by rw [note_pitch n hn']; omega, by rw [note_pitch n hn']; omega⟩
            · by_contra h0
              have : q = 0 := by omega
              subst this
              omega
    · -- note on
      simp only [voiceOk, Bool.and_eq_true, decide_eq_true_eq, Option.isNone_iff_eq_none] at hv
      obtain ⟨⟨h1, h2⟩, ⟨⟨⟨ho, hn⟩, hv'⟩, hgap⟩, h4⟩ := hv
      subst ho
      have hv' : v.toNat ≤ 127 := by simpa [UInt8.le_iff_toNat_le] using hv'
      have hn' : n.toNat ≤ 127 := by simpa [UInt8.le_iff_toNat_le] using hn
      obtain ⟨rs, e', hr, hok, -, hmax, hlag'⟩ := insertRest_facts st.commands st.lastNoteEnd t p (by omega) (by omega) hp hp2 hs.cmds
      obtain ⟨sl, hsl, -, -, hstep⟩ := noteOn_eq p st n v t hp hp2 hn' (hs.idle rfl) hs.port rs e' hr
      have := hs.clock
      have he' : 24 * e' < 24 * t + p := by omega
      refine ⟨_, hstep, ⟨he', hlag', by simp [openAfter], ?_, hs.port, hv', ?_⟩, h4, h1, fun _ => h2⟩
      · intro on hon
        simp only [openAfter, Option.some.injEq] at hon
        subst hon
        exact ⟨le_refl _, e', rfl, he', hlag'⟩
      · intro c hc
        rcases List.mem_append.1 hc with hc | hc
        · exact hok c hc
        · exact hsl c hc
    · simp only [voiceOk, Bool.and_eq_true, decide_eq_true_eq] at hv
      exact ⟨st, rfl, keep hv.1.1, hv.2, hv.1.1, fun _ => hv.1.2⟩
    · -- control change
      simp only [voiceOk, Bool.and_eq_true, decide_eq_true_eq] at hv
      obtain ⟨⟨h1, h2⟩, hd, h4⟩ := hv
      have hd' : d.toNat ≤ 127 := by simpa [UInt8.le_iff_toNat_le] using hd
      have k := keep h1
      simp only [trackStep, trackControl]
      split_ifs
      · refine ⟨_, rfl, ⟨k.clock, k.lag, k.idle, k.busy, ?_, k.vel, k.cmds⟩, h4, h1, fun _ => h2⟩
        simp only
        omega
      · simp only [mulU8]
        rw [if_pos (by simp; omega)]
        refine ⟨_, rfl, ⟨k.clock, k.lag, k.idle, k.busy, k.port, k.vel, ?_⟩, h4, h1, fun _ => h2⟩
        intro c hc
        rcases List.mem_append.1 hc with hc | hc
        · exact hs.cmds c hc
        · simp only [List.mem_singleton] at hc
          subst hc
          exact plainCmd_ok _ (by simp) (by simp) (by simp)
      · refine ⟨_, rfl, ⟨k.clock, k.lag, k.idle, k.busy, ?_, k.vel, k.cmds⟩, h4, h1, fun _ => h2⟩
        have := hs.port
        simp only
        omega
      · exact ⟨_, rfl, ⟨k.clock, k.lag, k.idle, k.busy, k.port, k.vel, k.cmds⟩, h4, h1, fun _ => h2⟩
      · exact ⟨_, rfl, k, h4, h1, fun _ => h2⟩
    · -- program change
      simp only [voiceOk, Bool.and_eq_true, decide_eq_true_eq] at hv
      obtain ⟨⟨h1, h2⟩, ⟨hpr, hgap⟩, h4⟩ := hv
      have hpr' : pr.toNat ≤ 127 := by simpa [UInt8.le_iff_toNat_le] using hpr
      obtain ⟨rs, e', hr, hok, -, hmax, hlag'⟩ := insertRest_facts st.commands st.lastNoteEnd t p (by omega) (by omega) hp hp2 hs.cmds
      obtain ⟨i, hstep⟩ := program_eq p st ch pr t hpr' rs e' hr
      have k := keep h1
      refine ⟨_, hstep, ⟨?_, hlag', k.idle, k.busy, k.port, k.vel, ?_⟩, h4, h1, fun _ => h2⟩
      · have := hs.clock
        simp only [nowAfter]
        omega
      · intro c hc
        rcases List.mem_append.1 hc with hc | hc
        · exact hok c hc
        · simp only [List.mem_singleton] at hc
          subst hc
          exact plainCmd_ok _ (by simp) (by simp) (by simp)
    · simp only [voiceOk, Bool.and_eq_true, decide_eq_true_eq] at hv
      exact ⟨st, rfl, keep hv.1.1, hv.2, hv.1.1, fun _ => hv.1.2⟩
    · simp only [voiceOk, Bool.and_eq_true, decide_eq_true_eq] at hv
      exact ⟨st, rfl, keep hv.1.1, hv.2, hv.1.1, fun _ => hv.1.2⟩
    · simp only [voiceOk, Bool.and_eq_true, decide_eq_true_eq] at hv
      exact ⟨st, rfl, keep hv.1.1, hv.2, hv.1.1, fun _ => hv.1.2⟩
  all_goals
    simp only [voiceOk] at hv
    exact ⟨st, rfl, hs, hv, le_rfl, id⟩

/-- The whole loop. -/
theorem safe_loop (p G T : Nat) (f : F32) (hp : 0 < p) (hp2 : p < 65536) (hG : G + 3525 ≤ exactTicks p) (hT : T < 2 ^ 31) (evs : List (Message × Nat)) :
    ∀ (now adv : Nat) (o : Option Nat) (st : TrackState), now ≤ T → voiceOk p G T now adv o evs = true → Safe p now adv o st →
    ∃ st' now' adv' o', evs.foldlM (trackStep p f) st = .ok st' ∧ Safe p now' adv' o' st' ∧ now' ≤ T ∧ T - adv' ≤ G := by
  induction evs with
  | nil =>
    intro now adv o st h1 hv h2
    exact ⟨st, now, adv, o, rfl, h2, h1, by simpa [voiceOk] using hv⟩
  | cons ev evs ih =>
    intro now adv o st h0 hv hs
    obtain ⟨st', h1, h2, h3, h4, h5⟩ := safe_step p G T f hp hp2 hG hT now adv o st ev evs hv hs
    obtain ⟨st'', n', a', o', h6, h7, h8⟩ := ih _ _ _ _ (h5 h0) h3 h2
    refine ⟨st'', n', a', o', ?_, h7, h8⟩
    simp only [List.foldlM_cons, h1]
    exact h6

end M2S
