import Verif.Spec.Grid
import Verif.Proofs.TrackNew
/-
The converter follows the clock of `Spec/Clock.lean`, and fails exactly where a note is started twice or ends too early.
-/
namespace M2S
open Timing MidiSpec

/-- What the sustain pass needs of a command. -/
def Passable (c : PCmd) : Prop :=
  (∀ n, c.command = .note n → ∃ d, c.duration = some d) ∧ (c.command = .rest → ∃ d, c.duration = some d ∧ 0 < d.toNat)

theorem passable_plain (c : Command) (h1 : ∀ n, c ≠ .note n) (h2 : c ≠ .rest) : Passable (plainCmd c) :=
  ⟨fun n h => absurd h (h1 n), fun h => absurd h h2⟩

theorem passable_rests (q x : Nat) : ∀ c ∈ restsOf (splitLength q x), Passable c := by
  intro c hc
  obtain ⟨u, rfl, h1, -⟩ := restsOf_mem _ (splitLength_le q x) c hc
  exact ⟨fun n h => by simp [restCmd] at h, fun _ => ⟨u, rfl, h1⟩⟩

theorem passable_group (cmd : Command) (h : cmd ≠ .rest) (v : UInt8) (d : Duration) : ∀ c ∈ noteGroup cmd v d, Passable c := by
  intro c hc
  unfold noteGroup at hc
  rw [List.mem_cons] at hc
  rcases hc with rfl | hc
  · exact ⟨fun _ _ => ⟨_, rfl⟩, fun hc => absurd hc h⟩
  · simp only [noteTies, List.mem_map] at hc
    obtain ⟨i, -, rfl⟩ := hc
    exact ⟨fun _ h => by simp at h, fun h => by simp at h⟩

theorem passable_slides (sl : List PCmd) (h : ∀ c ∈ sl, c.isSlide = true) : ∀ c ∈ sl, Passable c := by
  intro c hc
  have := h c hc
  unfold PCmd.isSlide at this
  constructor
  · intro n hn; simp [hn] at this
  · intro hn; simp [hn] at this

theorem setSustain_passable (c n : PCmd) (hc : Passable c) (hn : Passable n) : ∃ r, c.setSustain n = .ok r := by
  unfold PCmd.setSustain
  split
  · rename_i k h1 h2
    obtain ⟨d, hd⟩ := hc.1 _ h1
    obtain ⟨e, he, h0⟩ := hn.2 h2
    simp only [hd, he]
    rw [if_neg (by omega)]
    split_ifs <;> exact ⟨_, rfl⟩
  · exact ⟨_, rfl⟩

theorem sustainPass_passable (cs : List PCmd) (h : ∀ c ∈ cs, Passable c) : ∃ r, sustainPass cs = .ok r := by
  induction cs using sustainPass.induct with
  | case1 => exact ⟨_, rfl⟩
  | case2 c => exact ⟨_, rfl⟩
  | case3 c n rest ih1 ih2 =>
    obtain ⟨⟨c', b⟩, hs⟩ := setSustain_passable c n (h c (by simp)) (h n (by simp))
    unfold sustainPass
    simp only [hs, bind, Except.bind]
    cases b with
    | true =>
      obtain ⟨r, hr⟩ := ih1 (fun x hx => h x (by simp [hx]))
      simp only [if_true, hr]
      exact ⟨_, rfl⟩
    | false =>
      obtain ⟨r, hr⟩ := ih2 (fun x hx => h x (by simpa using Or.inr (by simpa using hx)))
      simp only [Bool.false_eq_true, if_false, hr]
      exact ⟨_, rfl⟩

/-- The converter's state shows the clock. -/
structure Shows (k : Nat × Option Nat) (st : TrackState) : Prop where
  clock : st.lastNoteEnd = k.1
  start : st.noteStart = k.2
  port : st.portTime < 65536
  cmds : ∀ c ∈ st.commands, Passable c

/-- The failure at an event. -/
def stepFault (k : Nat × Option Nat) (ev : Message × Nat) : Option Fault :=
  match ev with
  | (.midiEvent _ (.noteOn _ _ _), _) => if k.2.isSome then some (.err .moreThanOneVoice) else none
  | (.midiEvent _ (.noteOff _ _ _), t) =>
    match k.2 with
    | some s => if t < s then some .panic else none
    | none => none
  | _ => none

/-- Resting up to a time moves the clock down to the grid. -/
theorem insertRest_clock (cs : List PCmd) (e t p : Nat) (ht : t < exactTicks p) (hp : 0 < p) (hp2 : p < 65536) :
    ∃ rs, insertRest cs e t p = .ok (cs ++ rs, gridDown p e t) ∧ ∀ c ∈ rs, Passable c := by
  have h31 := exactTicks_le p
  rw [insertRest_eq cs e t p (by omega) (by omega) hp hp2]
  split_ifs with h
  · exact ⟨_, rfl, passable_rests _ _⟩
  · refine ⟨[], ?_, by simp⟩
    have : t - e = 0 := by omega
    simp [gridDown, this]

/-- Starting a note while another sounds is refused. -/
theorem noteOn_refused (p : Nat) (st : TrackState) (n v : UInt8) (t : Nat) (hp : 0 < p) (hp2 : p < 65536)
    (hn : n.toNat ≤ 127) (hs : st.noteStart.isSome = true) (hport : st.portTime < 65536) (rs : List PCmd) (e' : Nat)
    (hr : insertRest st.commands st.lastNoteEnd t p = .ok (st.commands ++ rs, e')) :
    trackNoteOn p st n v t = .error (.err .moreThanOneVoice) := by
  unfold trackNoteOn
  simp only [hr, bind, Except.bind, hs, if_true]
  rcases hl : (st.commands ++ rs).getLast? with _ | last
  · rfl
  · cases hpm : st.portamento with
    | false => rfl
    | true =>
      simp only [if_true, getDuration_eq st.portTime p (by have := exactTicks_ge p; omega) hp hp2, addU8]
      rw [if_pos (by simp; omega)]
      rfl

/-- One event. -/
theorem clock_step (p : Nat) (f : F32) (hp : 0 < p) (hp2 : p < 65536) (k : Nat × Option Nat) (st : TrackState) (ev : Message × Nat)
    (hd : dataOk ev.1 = true) (ht : ∀ d e, ev.1 = .midiEvent d e → ev.2 < exactTicks p) (hs : Shows k st) :
    match stepFault k ev with
    | some e => trackStep p f st ev = .error e
    | none => ∃ st', trackStep p f st ev = .ok st' ∧ Shows (clockStep p k ev) st' := by
  obtain ⟨m, t⟩ := ev
  have h31 := exactTicks_le p
  simp only at hd ht
  match m, hd, ht with
  | .midiEvent d (.noteOn c n v), hd, ht =>
    replace ht := ht _ _ rfl
    simp only [dataOk, Bool.and_eq_true, decide_eq_true_eq, UInt8.le_iff_toNat_le] at hd
    obtain ⟨rs, hr, hrs⟩ := insertRest_clock st.commands st.lastNoteEnd t p ht hp hp2
    have hn : n.toNat ≤ 127 := hd.1
    simp only [stepFault, trackStep]
    rcases hk : k.2 with _ | s
    · simp only [Option.isSome_none, Bool.false_eq_true, if_false]
      obtain ⟨sl, -, hsl, -, h⟩ := noteOn_eq p st n v t hp hp2 hn (by rw [hs.start, hk]) hs.port rs _ hr
      refine ⟨_, h, ?_, ?_, hs.port, ?_⟩
      · simp [clockStep, hs.clock]
      · simp [clockStep, hs.clock]
      · intro x hx
        simp only [List.mem_append] at hx
        rcases hx with (hx | hx) | hx
        · exact hs.cmds x hx
        · exact hrs x hx
        · exact passable_slides sl hsl x hx
    · simp only [Option.isSome_some, if_true]
      exact noteOn_refused p st n v t hp hp2 hn (by rw [hs.start, hk]; rfl) hs.port rs _ hr
  | .midiEvent d (.noteOff c n v), hd, ht =>
    replace ht := ht _ _ rfl
    simp only [dataOk, decide_eq_true_eq, UInt8.le_iff_toNat_le] at hd
    simp only [stepFault, trackStep]
    rcases hk : k.2 with _ | s
    · refine ⟨st, by simp [trackNoteOff, hs.start, hk], ?_⟩
      simpa [clockStep, hk] using hs
    · simp only
      split_ifs with hlt
      · simp only [trackNoteOff, hs.start, hk, subU]
        rw [if_neg (by omega)]
        rfl
      · have hs' : st.noteStart = some s := by rw [hs.start, hk]
        have hb := exactLength_lt (t - s) p (by omega) hp hp2 true
        have hb2 : exactLength (t - s) p true * p / 24 ≤ exactLength (t - s) p true * p := Nat.div_le_self _ _
        have hg : s + exactLength (t - s) p true * p / 24 = gridUp p s t := by simp [gridUp, exactLength]
        have heq : ∃ cmd, cmd ≠ Command.rest ∧ trackNoteOff p st n t = .ok { st with
            commands := st.commands ++ noteGroup cmd st.noteVelocity (splitLength (exactLength (t - s) p true) (exactLength (t - s) p true * p / 24))
            lastNoteEnd := gridUp p s t
            noteStart := none } := by
          unfold trackNoteOff
          rw [← hg]
          simp only [hs', subU, if_pos (show s ≤ t by omega), bind, Except.bind, getDuration_eq (t - s) p (by omega) hp hp2, splitLength_ticks, addU32]
          rw [if_pos (by omega : s + exactLength (t - s) p true * p / 24 < 2 ^ 32)]
          cases ha : (st.commands.getLast?).any PCmd.isSlide
          · simp only [Bool.false_eq_true, if_false, addU8]
            rw [if_pos (by have : n.toNat ≤ 127 := hd; simp; omega)]
            exact ⟨.note (n + 0x68), by simp, rfl⟩
          · exact ⟨.tie, by simp, rfl⟩
        obtain ⟨cmd, hcmd, h⟩ := heq
        refine ⟨_, h, ?_, ?_, hs.port, ?_⟩
        · simp [clockStep, hk]
        · simp [clockStep, hk]
        · intro x hx
          simp only [List.mem_append] at hx
          rcases hx with hx | hx
          · exact hs.cmds x hx
          · exact passable_group cmd hcmd _ _ x hx
  | .midiEvent d (.programChange c pr), hd, ht =>
    replace ht := ht _ _ rfl
    simp only [dataOk, decide_eq_true_eq, UInt8.le_iff_toNat_le] at hd
    obtain ⟨rs, hr, hrs⟩ := insertRest_clock st.commands st.lastNoteEnd t p ht hp hp2
    obtain ⟨i, h⟩ := program_eq p st c pr t hd rs _ hr
    simp only [stepFault, trackStep]
    refine ⟨_, h, ?_, ?_, hs.port, ?_⟩
    · simp [clockStep, hs.clock]
    · simp [clockStep, hs.start]
    · intro x hx
      simp only [List.mem_append, List.mem_singleton] at hx
      rcases hx with (hx | hx) | rfl
      · exact hs.cmds x hx
      · exact hrs x hx
      · exact passable_plain _ (by simp) (by simp)
  | .midiEvent d (.controlChange c ctl b), hd, _ =>
    simp only [dataOk, decide_eq_true_eq, UInt8.le_iff_toNat_le] at hd
    have hb : b.toNat ≤ 127 := hd
    simp only [stepFault, trackStep, trackControl]
    split_ifs
    · exact ⟨_, rfl, hs.clock, hs.start, by simp only; omega, hs.cmds⟩
    · simp only [mulU8, bind, Except.bind]
      rw [if_pos (by simp; omega)]
      refine ⟨_, rfl, hs.clock, hs.start, hs.port, ?_⟩
      intro x hx
      simp only [List.mem_append, List.mem_singleton] at hx
      rcases hx with hx | rfl
      · exact hs.cmds x hx
      · exact passable_plain _ (by simp) (by simp)
    · exact ⟨_, rfl, hs.clock, hs.start, by have := hs.port; simp only; omega, hs.cmds⟩
    · exact ⟨_, rfl, hs.clock, hs.start, hs.port, hs.cmds⟩
    · exact ⟨_, rfl, hs⟩
  | .metaEvent d .setTempo data, hd, _ =>
    simp only [dataOk, ge_iff_le, decide_eq_true_eq] at hd
    obtain ⟨u, hu⟩ := usec_ok data hd
    simp only [stepFault, trackStep, hu, bind, Except.bind]
    refine ⟨_, rfl, hs.clock, hs.start, hs.port, ?_⟩
    intro x hx
    simp only [List.mem_append, List.mem_singleton] at hx
    rcases hx with hx | rfl
    · exact hs.cmds x hx
    · exact passable_plain _ (by simp) (by simp)
  | .midiEvent _ (.polyphonicKeyPressure _ _ _), _, _ => exact ⟨st, rfl, hs⟩
  | .midiEvent _ (.channelPressure _ _), _, _ => exact ⟨st, rfl, hs⟩
  | .midiEvent _ (.pitchBendChange _ _), _, _ => exact ⟨st, rfl, hs⟩
  | .midiEvent _ (.unknown _), _, _ => exact ⟨st, rfl, hs⟩
  | .metaEvent _ (.other _) _, _, _ => exact ⟨st, rfl, hs⟩
  | .sysEx _ _, _, _ => exact ⟨st, rfl, hs⟩
  | .trackChange, _, _ => exact ⟨st, rfl, hs⟩

/-- No event of the list fails, starting from a clock. -/
def faultFree (p : Nat) : Nat × Option Nat → List (Message × Nat) → Prop
  | _, [] => True
  | k, ev :: evs => stepFault k ev = none ∧ faultFree p (clockStep p k ev) evs

theorem faultFree_append (p : Nat) (a b : List (Message × Nat)) : ∀ k, faultFree p k (a ++ b) ↔ faultFree p k a ∧ faultFree p (a.foldl (clockStep p) k) b := by
  induction a with
  | nil => intro k; simp [faultFree]
  | cons ev a ih => intro k; simp [faultFree, ih, and_assoc]

/-- All events: the loop gets through, or stops at the first event that fails. -/
theorem clock_loop (p : Nat) (f : F32) (hp : 0 < p) (hp2 : p < 65536) (evs : List (Message × Nat)) (hd : ∀ ev ∈ evs, dataOk ev.1 = true ∧ ∀ d e, ev.1 = .midiEvent d e → ev.2 < exactTicks p) :
    ∀ (k : Nat × Option Nat) (st : TrackState), Shows k st →
      (faultFree p k evs ∧ ∃ st', evs.foldlM (trackStep p f) st = .ok st' ∧ Shows (evs.foldl (clockStep p) k) st') ∨
      ∃ pre ev post e, evs = pre ++ ev :: post ∧ faultFree p k pre ∧ stepFault (pre.foldl (clockStep p) k) ev = some e ∧
        evs.foldlM (trackStep p f) st = .error e := by
  induction evs with
  | nil => intro k st hs; exact .inl ⟨trivial, st, rfl, hs⟩
  | cons ev evs ih =>
    intro k st hs
    have h := clock_step p f hp hp2 k st ev (hd ev (by simp)).1 (hd ev (by simp)).2 hs
    cases hf : stepFault k ev with
    | some e =>
      rw [hf] at h
      exact .inr ⟨[], ev, evs, e, rfl, trivial, hf, by rw [List.foldlM_cons, h]; rfl⟩
    | none =>
      rw [hf] at h
      obtain ⟨st1, h1, h2⟩ := h
      rcases ih (fun x hx => hd x (by simp [hx])) _ _ h2 with ⟨g1, st', g2, g3⟩ | ⟨pre, x, post, e, g1, g2, g3, g4⟩
      · refine .inl ⟨⟨hf, g1⟩, st', ?_, g3⟩
        rw [List.foldlM_cons, h1]; exact g2
      · refine .inr ⟨ev :: pre, x, post, e, by rw [g1]; rfl, ⟨hf, g2⟩, g3, ?_⟩
        rw [List.foldlM_cons, h1]; exact g4

/-- The conversion of a voice gets through, or stops at the first event that fails. -/
theorem trackNew_clock (evs : List (Message × Nat)) (p T : Nat) (f : F32) (hp : 0 < p) (hp2 : p < 65536) (hd : ∀ ev ∈ evs, dataOk ev.1 = true ∧ ∀ d e, ev.1 = .midiEvent d e → ev.2 < exactTicks p)
    (hT : T < exactTicks p) :
    (faultFree p (0, none) evs ∧ ∃ cs, trackNew evs p T f = .ok cs) ∨
    ∃ pre ev post e, evs = pre ++ ev :: post ∧ faultFree p (0, none) pre ∧ stepFault (clockOf p pre) ev = some e ∧ trackNew evs p T f = .error e := by
  rcases clock_loop p f hp hp2 evs hd (0, none) {} ⟨rfl, rfl, by simp, by simp⟩ with ⟨h1, st, h2, h3⟩ | ⟨pre, ev, post, e, h1, h2, h3, h4⟩
  · refine .inl ⟨h1, ?_⟩
    by_cases he : st.commands = []
    · exact ⟨[], by rw [trackNew_eq evs p T f st [] h2 (.inl ⟨he, rfl⟩)]; rfl⟩
    · obtain ⟨rs, hr, hrs⟩ := insertRest_clock st.commands st.lastNoteEnd T p hT hp hp2
      rw [trackNew_eq evs p T f st _ h2 (.inr ⟨he, _, hr⟩)]
      apply sustainPass_passable
      intro c hc
      rcases List.mem_append.1 hc with hc | hc
      · exact h3.cmds c hc
      · exact hrs c hc
  · refine .inr ⟨pre, ev, post, e, h1, h2, h3, ?_⟩
    unfold trackNew
    rw [h4]; rfl

theorem stepFault_clash (k : Nat × Option Nat) (ev : Message × Nat) :
    stepFault k ev = some (.err .moreThanOneVoice) ↔ ∃ d c n v, ev.1 = .midiEvent d (.noteOn c n v) ∧ k.2.isSome := by
  obtain ⟨m, t⟩ := ev
  unfold stepFault
  split
  · rename_i h; cases h; split_ifs with h <;> simp [h]
  · rename_i h; cases h
    split
    · split_ifs <;> simp
    · simp
  · rename_i h1 h2
    simp only [reduceCtorEq, false_iff, not_exists, not_and]
    rintro d c n v rfl
    exact absurd rfl (h1 _ _ _ _ _)

theorem stepFault_early (k : Nat × Option Nat) (ev : Message × Nat) :
    stepFault k ev = some .panic ↔ ∃ d c n v s, ev.1 = .midiEvent d (.noteOff c n v) ∧ k.2 = some s ∧ ev.2 < s := by
  obtain ⟨m, t⟩ := ev
  unfold stepFault
  split
  · rename_i h; cases h; split_ifs with h <;> simp
  · rename_i h; cases h
    split
    · rename_i s hs; split_ifs with h <;> simp [hs, h]
    · rename_i hs; simp [hs]
  · rename_i h1 h2
    simp only [reduceCtorEq, false_iff, not_exists, not_and]
    rintro d c n v s rfl
    exact absurd rfl (h2 _ _ _ _ _)

theorem stepFault_cases (k : Nat × Option Nat) (ev : Message × Nat) (e : Fault) (h : stepFault k ev = some e) : e = .panic ∨ e = .err .moreThanOneVoice := by
  unfold stepFault at h
  split at h
  · split_ifs at h; exact .inr (by simpa using h.symm)
  · split at h
    · split_ifs at h; exact .inl (by simpa using h.symm)
    · simp at h
  · simp at h

/-- No failure means neither kind of event. -/
theorem faultFree_iff (p : Nat) (evs : List (Message × Nat)) : faultFree p (0, none) evs ↔ ¬ Clash p evs ∧ ¬ Premature p evs := by
  have key : faultFree p (0, none) evs ↔ ∀ pre ev post, evs = pre ++ ev :: post → stepFault (clockOf p pre) ev = none := by
    unfold clockOf
    generalize ((0, none) : Nat × Option Nat) = k
    induction evs generalizing k with
    | nil => simp [faultFree]
    | cons ev evs ih =>
      rw [faultFree, ih]
      constructor
      · rintro ⟨h1, h2⟩ pre x post h
        cases pre with
        | nil => simp only [List.nil_append, List.cons.injEq] at h; rw [← h.1]; exact h1
        | cons y pre =>
          simp only [List.cons_append, List.cons.injEq] at h
          rw [← h.1]
          exact h2 pre x post h.2
      · intro h
        exact ⟨h [] ev evs rfl, fun pre x post hx => h (ev :: pre) x post (by rw [hx]; rfl)⟩
  rw [key]
  constructor
  · intro h
    constructor
    · rintro ⟨pre, d, c, n, v, t, post, h1, h2⟩
      have := h _ _ _ h1
      rw [(stepFault_clash _ _).2 ⟨d, c, n, v, rfl, h2⟩] at this
      simp at this
    · rintro ⟨pre, d, c, n, v, t, post, s, h1, h2, h3⟩
      have := h _ _ _ h1
      rw [(stepFault_early _ _).2 ⟨d, c, n, v, s, rfl, h2, h3⟩] at this
      simp at this
  · rintro ⟨h1, h2⟩ pre ⟨m, t⟩ post h
    cases hf : stepFault (clockOf p pre) (m, t) with
    | none => rfl
    | some e =>
      exfalso
      rcases stepFault_cases _ _ _ hf with rfl | rfl
      · obtain ⟨d, c, n, v, s, g1, g2, g3⟩ := (stepFault_early _ _).1 hf
        simp only at g1; subst g1
        exact h2 ⟨pre, d, c, n, v, t, post, s, h, g2, g3⟩
      · obtain ⟨d, c, n, v, g1, g2⟩ := (stepFault_clash _ _).1 hf
        simp only at g1; subst g1
        exact h1 ⟨pre, d, c, n, v, t, post, h, g2⟩

theorem Timing.Clash.mono {p : Nat} {a b : List (Message × Nat)} (h : a <+: b) (hc : Clash p a) : Clash p b := by
  obtain ⟨r, rfl⟩ := h
  obtain ⟨pre, d, c, n, v, t, post, h1, h2⟩ := hc
  exact ⟨pre, d, c, n, v, t, post ++ r, by rw [h1]; simp, h2⟩

theorem Timing.Premature.mono {p : Nat} {a b : List (Message × Nat)} (h : a <+: b) (hc : Premature p a) : Premature p b := by
  obtain ⟨r, rfl⟩ := h
  obtain ⟨pre, d, c, n, v, t, post, s, h1, h2⟩ := hc
  exact ⟨pre, d, c, n, v, t, post ++ r, s, by rw [h1]; simp, h2⟩

/-- The first failure: everything before it is free of failures. -/
theorem first_fault {p : Nat} {pre : List (Message × Nat)} {ev : Message × Nat} {e : Fault} (hf : faultFree p (0, none) pre) (he : stepFault (clockOf p pre) ev = some e) :
    (e = .panic ∧ Premature p (pre ++ [ev]) ∧ ¬ Clash p (pre ++ [ev])) ∨ (e = .err .moreThanOneVoice ∧ Clash p (pre ++ [ev]) ∧ ¬ Premature p (pre ++ [ev])) := by
  obtain ⟨n1, n2⟩ := (faultFree_iff p pre).1 hf
  obtain ⟨m, t⟩ := ev
  rcases stepFault_cases _ _ _ he with rfl | rfl
  · left
    obtain ⟨d, c, n, v, s, g1, g2, g3⟩ := (stepFault_early _ _).1 he
    simp only at g1; subst g1
    refine ⟨rfl, ⟨pre, d, c, n, v, t, [], s, rfl, g2, g3⟩, ?_⟩
    rintro ⟨pre', d', c', n', v', t', post', h1, h2⟩
    rcases List.eq_nil_or_concat post' with rfl | ⟨l, x, rfl⟩
    · have := List.append_inj_right' h1 rfl
      simp at this
    · apply n1
      refine ⟨pre', d', c', n', v', t', l, ?_, h2⟩
      rw [List.concat_eq_append, ← List.cons_append, ← List.append_assoc] at h1
      exact List.append_inj_left' h1 rfl
  · right
    obtain ⟨d, c, n, v, g1, g2⟩ := (stepFault_clash _ _).1 he
    simp only at g1; subst g1
    refine ⟨rfl, ⟨pre, d, c, n, v, t, [], rfl, g2⟩, ?_⟩
    rintro ⟨pre', d', c', n', v', t', post', s', h1, h2⟩
    rcases List.eq_nil_or_concat post' with rfl | ⟨l, x, rfl⟩
    · have := List.append_inj_right' h1 rfl
      simp at this
    · apply n2
      refine ⟨pre', d', c', n', v', t', l, s', ?_, h2⟩
      rw [List.concat_eq_append, ← List.cons_append, ← List.append_assoc] at h1
      exact List.append_inj_left' h1 rfl

/-- A prefix of a list cut just after an event ends before or at the event, or reaches beyond it. -/
theorem prefix_cut {α : Type} {a pre post l : List α} {x : α} (hl : l = pre ++ x :: post) (ha : a <+: l) : a <+: pre ∨ (pre ++ [x]) <+: a := by
  have hb : (pre ++ [x]) <+: l := ⟨post, by rw [hl]; simp⟩
  rcases List.prefix_or_prefix_of_prefix ha hb with h | h
  · obtain ⟨r, hr⟩ := h
    rcases List.eq_nil_or_concat r with rfl | ⟨r', y, rfl⟩
    · right; rw [← hr]; simp
    · left
      refine ⟨r', ?_⟩
      have : (a ++ r') ++ [y] = pre ++ [x] := by rw [← hr]; simp
      exact List.append_inj_left' this rfl
  · exact .inr h

/-! ### How far the clock is ahead -/

theorem gridDown_le (p e t : Nat) : gridDown p e t ≤ max e t := by
  unfold gridDown
  have := Nat.div_mul_le_self (24 * (t - e)) p
  omega

theorem gridUp_lt (p s t : Nat) (hp : 0 < p) : gridUp p s t = s ∨ 24 * gridUp p s t < 24 * t + p := by
  unfold gridUp
  rcases Nat.le_total t s with h | h
  · left
    have : t - s = 0 := by omega
    have hz : (24 * 0 + p - 1) / p = 0 := Nat.div_eq_of_lt (by omega)
    rw [this, hz]
    simp
  · right
    have := Nat.div_mul_le_self (24 * (t - s) + p - 1) p
    omega

/-- The clock of events in time order is less than a unit ahead. -/
theorem clock_ahead (p : Nat) (hp : 0 < p) (evs : List (Message × Nat)) (now : Nat) (h : ∀ ev ∈ evs, ev.2 ≤ now) :
    24 * (clockOf p evs).1 < 24 * now + p ∧ ∀ s, (clockOf p evs).2 = some s → 24 * s < 24 * now + p := by
  unfold clockOf
  have gen : ∀ k : Nat × Option Nat, (24 * k.1 < 24 * now + p ∧ ∀ s, k.2 = some s → 24 * s < 24 * now + p) →
      (24 * (evs.foldl (clockStep p) k).1 < 24 * now + p ∧ ∀ s, (evs.foldl (clockStep p) k).2 = some s → 24 * s < 24 * now + p) := by
    induction evs with
    | nil => intro k hk; exact hk
    | cons ev evs ih =>
      intro k hk
      rw [List.foldl_cons]
      apply ih (fun x hx => h x (by simp [hx]))
      have ht := h ev (by simp)
      obtain ⟨h1, h2⟩ := hk
      obtain ⟨m, t⟩ := ev
      unfold clockStep
      have hg := gridDown_le p k.1 t
      simp only at ht
      split
      · rename_i heq; cases heq
        simp only [Option.some.injEq, forall_eq']
        omega
      · rename_i heq; cases heq
        split
        · rename_i s hs
          have := gridUp_lt p s t hp
          have := h2 s hs
          simp only [reduceCtorEq, false_implies, implies_true, and_true]
          omega
        · exact ⟨h1, h2⟩
      · rename_i heq; cases heq
        exact ⟨by simp only; omega, h2⟩
      · exact ⟨h1, h2⟩
  exact gen (0, none) ⟨by simpa using by omega, by simp⟩

/-- The note that sounds was started at the clock. -/
theorem clock_start (p : Nat) (evs : List (Message × Nat)) (s : Nat) (h : (clockOf p evs).2 = some s) :
    ∃ pre d c n v t mid, evs = pre ++ (.midiEvent d (.noteOn c n v), t) :: mid ∧ s = gridDown p (clockOf p pre).1 t := by
  induction evs using List.reverseRecOn with
  | nil => simp [clockOf] at h
  | append_singleton evs ev ih =>
    have keep : (clockOf p evs).2 = some s → ∃ pre d c n v t mid, evs ++ [ev] = pre ++ (.midiEvent d (.noteOn c n v), t) :: mid ∧ s = gridDown p (clockOf p pre).1 t := by
      intro h
      obtain ⟨pre, d, c, n, v, t, mid, h1, h2⟩ := ih h
      exact ⟨pre, d, c, n, v, t, mid ++ [ev], by rw [h1]; simp, h2⟩
    have hstep : clockOf p (evs ++ [ev]) = clockStep p (clockOf p evs) ev := by simp [clockOf]
    rw [hstep] at h
    obtain ⟨m, t⟩ := ev
    unfold clockStep at h
    split at h
    · rename_i d c n v t' heq
      cases heq
      exact ⟨evs, d, c, n, v, t, [], rfl, by simpa using h.symm⟩
    · split at h
      · simp at h
      · exact keep h
    · exact keep h
    · exact keep h

/-- If starts and ends of notes alternate, no note is started while another one sounds. -/
theorem alternates_clash (p : Nat) (evs : List (Message × Nat)) (ha : Alternates evs) (hz : ∀ m ∈ evs, ∀ d c n v, m.1 = .midiEvent d (.noteOn c n v) → v ≠ 0) : ¬ Clash p evs := by
  have key : ∀ (evs : List (Message × Nat)) (k : Nat × Option Nat), (∀ m ∈ evs, ∀ d c n v, m.1 = .midiEvent d (.noteOn c n v) → v ≠ 0) →
      ∀ b, evs.foldlM altStep k.2.isSome = some b → b = (evs.foldl (clockStep p) k).2.isSome := by
    intro evs
    induction evs with
    | nil => intro k _ b hb; simpa using hb.symm
    | cons ev evs ih =>
      intro k hz b hb
      rw [List.foldlM_cons] at hb
      have hstep : ∀ b', altStep k.2.isSome ev = some b' → b' = (clockStep p k ev).2.isSome := by
        intro b' hb'
        obtain ⟨m, t⟩ := ev
        have hz0 := hz (m, t) (by simp)
        unfold altStep at hb'
        unfold clockStep
        split
        · rename_i d c n v t' heq
          cases heq
          have hv := hz0 d c n v rfl
          simp only [starts, hv, ne_eq, not_false_eq_true, decide_true, if_true] at hb'
          split_ifs at hb'
          simpa using hb'.symm
        · rename_i d c n v t' heq
          cases heq
          simp only [starts, ends, Bool.false_eq_true, if_false, if_true] at hb'
          split_ifs at hb' with hk
          split
          · simpa using hb'.symm
          · rename_i hk'; simp [hk'] at hk
        · rename_i heq
          cases heq
          simpa [starts, ends] using hb'.symm
        · rename_i h1 h2 h3
          have : starts m = false ∧ ends m = false := by
            match m with
            | .midiEvent d (.noteOn c n v) => exact absurd rfl (h1 d c n v t)
            | .midiEvent d (.noteOff c n v) => exact absurd rfl (h2 d c n v t)
            | .midiEvent d (.programChange c n) => exact ⟨rfl, rfl⟩
            | .midiEvent _ (.polyphonicKeyPressure _ _ _) => exact ⟨rfl, rfl⟩
            | .midiEvent _ (.controlChange _ _ _) => exact ⟨rfl, rfl⟩
            | .midiEvent _ (.channelPressure _ _) => exact ⟨rfl, rfl⟩
            | .midiEvent _ (.pitchBendChange _ _) => exact ⟨rfl, rfl⟩
            | .midiEvent _ (.unknown _) => exact ⟨rfl, rfl⟩
            | .metaEvent _ _ _ => exact ⟨rfl, rfl⟩
            | .sysEx _ _ => exact ⟨rfl, rfl⟩
            | .trackChange => exact ⟨rfl, rfl⟩
          simpa [this] using hb'.symm
      cases hs : altStep k.2.isSome ev with
      | none => rw [hs] at hb; cases hb
      | some b' =>
        rw [hs, hstep b' hs] at hb
        exact ih _ (fun m hm => hz m (by simp [hm])) b hb
  rintro ⟨pre, d, c, n, v, t, post, rfl, h2⟩
  unfold Alternates at ha
  rw [List.foldlM_append] at ha
  cases hpre : pre.foldlM altStep false with
  | none => rw [hpre] at ha; simp at ha
  | some b =>
    rw [hpre] at ha
    have hb : b = true := by
      rw [key pre (0, none) (fun m hm => hz m (by simp [hm])) b hpre]; exact h2
    subst hb
    have hv := hz (.midiEvent d (.noteOn c n v), t) (by simp) d c n v rfl
    simp [altStep, starts, hv] at ha

end M2S
