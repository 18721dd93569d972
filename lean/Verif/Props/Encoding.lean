import Verif.Proofs.WriteTrack
/-
Properties C01, C02, C03, C04, C05, C50: the bytes written for a track.
-/
namespace M2S
open Nspc

/-- A track with a bit of everything, used in the examples. -/
def demoTrack : List PCmd :=
  [⟨none, none, none, .tempo 30⟩, ⟨none, none, none, .setInstrument 9⟩, ⟨some 24, some 10, some 7, .note 0xa4⟩,
   ⟨some 24, none, none, .rest⟩, ⟨some 0, some 0, some 0, .callLoop 2 3⟩, ⟨some 127, some 10, some 7, .note 0xa5⟩,
   ⟨some 12, none, none, .tie⟩, ⟨none, none, some 3, .note 0xa6⟩, ⟨none, none, none, .pitchSlide 1 2 0xa7⟩]

/-- A song in which `demoTrack` is the first track of the part and track 2 is a subroutine. -/
def demoSong : Song := ⟨[[0, 1]], [demoTrack, [⟨some 12, some 15, none, .note 0x80⟩], [⟨some 48, none, none, .rest⟩]]⟩

/-- **C01.** Parsing what `Song::write_track` emits for an encodable track, followed by anything, gives exactly the preamble
and the track's commands with their operands (CallLoop addresses still being the placeholder), and stops exactly at the end mark. -/
theorem C01_parse_write_track (s : Song) (i : Nat) (track : List PCmd) (htrack : s.tracks[i]? = some track)
    (hne : track ≠ []) (henc : Encodable 0xff track) (o : Out) (ho : s.writeTrack i = .ok o)
    (target : UInt8 → UInt8 → Nat) (extra : List UInt8) :
    ∃ toks, parse (o.bytes ++ extra) = some (toks, extra) ∧
      commands target toks =
        preambleFor s.parts i ++ track.map fun c => retarget (fun _ => target 0x00 0xd0) c.command := by
  obtain ⟨hb, -⟩ := writeTrack_eq s i track htrack hne o ho
  refine ⟨_, by rw [hb]; exact parse_written placeholder s.parts i track henc extra, ?_⟩
  have hc := commands_enc placeholder target track 0xff none henc
  have hp : commands target ((preambleFor s.parts i).map (cmdTok placeholder)) = preambleFor s.parts i := by
    unfold preambleFor
    split_ifs <;> rfl
  unfold commands at hc hp ⊢
  rw [List.filterMap_append, hp, hc]
  rfl

/-- C01, consequence: the bytes determine the commands (up to the targets of CallLoops, which are in the reference list). -/
theorem C01_unambiguous (t₁ t₂ : List PCmd) (h₁ : Encodable 0xff t₁) (h₂ : Encodable 0xff t₂)
    (h : (trackWrite t₁ ⟨[], []⟩).bytes = (trackWrite t₂ ⟨[], []⟩).bytes) :
    (t₁.map fun c => retarget (fun _ => 0) c.command) = (t₂.map fun c => retarget (fun _ => 0) c.command) := by
  simp only [trackWrite, writeCmds_bytes, List.nil_append] at h
  have p₁ := parse_enc placeholder t₁ 0xff none 13 7 VSRel.init h₁ ((encBytes placeholder t₁ 0xff none).length + 1) [] (by omega)
  have p₂ := parse_enc placeholder t₂ 0xff none 13 7 VSRel.init h₂ ((encBytes placeholder t₂ 0xff none).length + 1) [] (by omega)
  rw [h, p₂] at p₁
  simp only [Option.some.injEq, Prod.mk.injEq, and_true] at p₁
  have c₁ := commands_enc placeholder (fun _ _ => 0) t₁ 0xff none h₁
  have c₂ := commands_enc placeholder (fun _ _ => 0) t₂ 0xff none h₂
  rw [← c₁, ← c₂, p₁]

example : demoSong.tracks[0]? = some demoTrack ∧ demoTrack ≠ [] ∧ Encodable 0xff demoTrack ∧
    (demoSong.writeTrack 0).toOption.isSome := by decide

/-- The volume fade is rightly excluded: the engine takes two operands, one is written, so the end mark is swallowed. -/
theorem C01_volume_fade_ambiguous : ∃ o, (Song.mk [[0]] [[⟨none, none, none, .channelVolumeFade 5⟩]]).writeTrack 0 = .ok o ∧
    parse o.bytes = none := ⟨⟨[0xfa, 0x19, 0xe5, 0xc8, 0xed, 0xc8, 0xee, 5, 0], []⟩, by decide, by decide⟩

/-- **C02.** Playing the bytes emitted for an encodable track without CallLoops, from any register contents, sounds as
the commands ask: every note, tie and rest has the duration last asked for, every note the velocity and sustain last asked for
(initially 13 and 7, i.e. 7D). -/
theorem C02_playback (s : Song) (i : Nat) (track : List PCmd) (htrack : s.tracks[i]? = some track)
    (hne : track ≠ []) (henc : Encodable 0xff track) (hloop : ∀ c ∈ track, isCall c.command = false)
    (o : Out) (ho : s.writeTrack i = .ok o) (call : UInt8 → UInt8 → UInt8 → Regs → Regs) (r : Regs) (dur : UInt8)
    (addr : Nat → UInt8 × UInt8) :
    ∃ toks, parse o.bytes = some (toks, []) ∧
      play call toks r =
        (preambleFor s.parts i).map (fun c => .cmd (encodeCmd addr c).1 (encodeCmd addr c).2) ++ intended addr track dur 13 7 := by
  obtain ⟨hb, -⟩ := writeTrack_eq s i track htrack hne o ho
  have hp := parse_written placeholder s.parts i track henc []
  rw [List.append_nil] at hp
  refine ⟨_, by rw [hb]; exact hp, ?_⟩
  rw [play_append]
  have hf : ∀ r, play call ((preambleFor s.parts i).map (cmdTok placeholder)) r =
      (preambleFor s.parts i).map (fun c => .cmd (encodeCmd addr c).1 (encodeCmd addr c).2) := by
    intro r
    unfold preambleFor
    split_ifs <;> rfl
  rw [hf, play_full placeholder call track 0xff none dur 13 7 _ VSRel.init henc (fun h => absurd h.2 (by decide)) (by simp)
    (fun c hc h => by rw [hloop c hc] at h; simp at h)]
  congr 1
  clear hp hf hb ho henc hne htrack
  have : ∀ (l : List PCmd) (d v s : UInt8), (∀ c ∈ l, isCall c.command = false) →
      intended placeholder l d v s = intended addr l d v s := by
    intro l
    induction l with
    | nil => intros; rfl
    | cons c cs ih =>
      intro d v s h
      have hc := h c List.mem_cons_self
      rw [intended_cons, intended_cons, ih _ _ _ (fun c hc => h c (List.mem_cons_of_mem _ hc))]
      congr 1
      cases hcc : c.command <;> simp_all [cmdEv, encodeCmd, isCall]
  exact this track dur 13 7 hloop

example : Encodable 0xff [⟨some 24, some 10, some 7, .note 0xa4⟩, ⟨none, none, none, .note 0xa4⟩, ⟨some 12, none, some 3, .note 0xa4⟩] ∧
    intended (fun _ => (0, 0)) [⟨some 24, some 10, some 7, .note 0xa4⟩, ⟨none, none, none, .note 0xa4⟩, ⟨some 12, none, some 3, .note 0xa4⟩] 0 13 7
      = [.note 0xa4 24 10 7, .note 0xa4 24 10 7, .note 0xa4 12 10 3] := by decide

/-- **C03.** In a track whose CallLoops are like the optimiser's (duration 0), all durations come out as asked for,
whatever the called subroutines do to the engine's registers (in particular to the duration), and wherever the CallLoops are. -/
theorem C03_duration_after_call (s : Song) (i : Nat) (track : List PCmd) (htrack : s.tracks[i]? = some track)
    (hne : track ≠ []) (henc : Encodable 0xff track)
    (hloop : ∀ c ∈ track, isCall c.command = true → c.duration = some 0)
    (o : Out) (ho : s.writeTrack i = .ok o) (call : UInt8 → UInt8 → UInt8 → Regs → Regs) (r : Regs) (dur : UInt8) :
    ∃ toks, parse o.bytes = some (toks, []) ∧
      (play call toks r).map Ev.timing =
        (preambleFor s.parts i).map (fun c => .cmd (encodeCmd (fun _ => (0x00, 0xd0)) c).1 (encodeCmd (fun _ => (0x00, 0xd0)) c).2) ++
          (intended (fun _ => (0x00, 0xd0)) track dur 13 7).map Ev.timing := by
  obtain ⟨hb, -⟩ := writeTrack_eq s i track htrack hne o ho
  have hp := parse_written placeholder s.parts i track henc []
  rw [List.append_nil] at hp
  refine ⟨_, by rw [hb]; exact hp, ?_⟩
  rw [play_append, List.map_append]
  have hf : ∀ r, (play call ((preambleFor s.parts i).map (cmdTok placeholder)) r).map Ev.timing =
      (preambleFor s.parts i).map (fun c => .cmd (encodeCmd (fun _ => (0x00, 0xd0)) c).1 (encodeCmd (fun _ => (0x00, 0xd0)) c).2) := by
    intro r
    unfold preambleFor
    split_ifs <;> rfl
  rw [hf]
  congr 1
  exact play_timing placeholder call track 0xff none dur 13 7 _ VSRel.init henc (fun h => absurd h.2 (by decide)) hloop

example : Encodable 0xff demoTrack ∧ (∀ c ∈ demoTrack, isCall c.command = true → c.duration = some 0) := by decide

/-- C03 is about the reset: a CallLoop command that carries no duration (possible in a hand-written JSON song) is not followed by an
explicit duration. -/
theorem C03_needs_reset : ∃ (track : List PCmd) (call : UInt8 → UInt8 → UInt8 → Regs → Regs) (toks : List Tok), Encodable 0xff track ∧
    parse ((trackWrite track ⟨[], []⟩).bytes ++ [0]) = some (toks, []) ∧
    (play call toks ⟨0, 0, 0⟩).map Ev.timing ≠ (intended (fun _ => (0x00, 0xd0)) track 0 13 7).map Ev.timing :=
  ⟨[⟨some 24, some 10, some 7, .note 0xa4⟩, ⟨none, none, none, .callLoop 1 1⟩, ⟨some 24, some 10, some 7, .note 0xa4⟩],
   fun _ _ _ r => { r with dur := 5 },
   [.dur 24 (some 0x7a), .note 0xa4, .cmd 0xef [0x00, 0xd0, 1], .note 0xa4], by decide, by decide, by decide⟩

/-- **C04, partial**: a note after a CallLoop plays with the velocity and sustain it asks for if the called subroutines leave these registers
as they found them. Missing from the full claim: arbitrary subroutines, for which it is false, see
`C04_velocity_after_call_false`. -/
theorem C04_velocity_after_call_partial (s : Song) (i : Nat) (track : List PCmd) (htrack : s.tracks[i]? = some track)
    (hne : track ≠ []) (henc : Encodable 0xff track)
    (hloop : ∀ c ∈ track, isCall c.command = true → c.duration = some 0)
    (o : Out) (ho : s.writeTrack i = .ok o) (call : UInt8 → UInt8 → UInt8 → Regs → Regs)
    (hcall : ∀ lo hi k r, (call lo hi k r).vel = r.vel ∧ (call lo hi k r).sus = r.sus) (r : Regs) (dur : UInt8) :
    ∃ toks, parse o.bytes = some (toks, []) ∧
      play call toks r =
        (preambleFor s.parts i).map (fun c => .cmd (encodeCmd (fun _ => (0x00, 0xd0)) c).1 (encodeCmd (fun _ => (0x00, 0xd0)) c).2) ++
          intended (fun _ => (0x00, 0xd0)) track dur 13 7 := by
  obtain ⟨hb, -⟩ := writeTrack_eq s i track htrack hne o ho
  have hp := parse_written placeholder s.parts i track henc []
  rw [List.append_nil] at hp
  refine ⟨_, by rw [hb]; exact hp, ?_⟩
  rw [play_append]
  have hf : ∀ r, play call ((preambleFor s.parts i).map (cmdTok placeholder)) r =
      (preambleFor s.parts i).map (fun c => .cmd (encodeCmd (fun _ => (0x00, 0xd0)) c).1 (encodeCmd (fun _ => (0x00, 0xd0)) c).2) := by
    intro r
    unfold preambleFor
    split_ifs <;> rfl
  rw [hf]
  congr 1
  exact play_full placeholder call track 0xff none dur 13 7 _ VSRel.init henc (fun h => absurd h.2 (by decide)) (by simp)
    (fun c hc h => ⟨hloop c hc h, hcall⟩)

/-- The effect of calling a subroutine `k` times. -/
def callSub (body : List Tok) (k : UInt8) (r : Regs) : Regs :=
  (List.replicate k.toNat ()).foldl (fun r _ => finalRegs (fun _ _ _ r => r) body r) r

/-- **C04 is false of the code.** The optimiser's own kind of output: a note of velocity 8, a call of a subroutine ending with a note of velocity
15, a note of velocity 8. The second note is played with velocity 15, because the writer does not forget the velocity at a
CallLoop (`src/nspc/command.rs:318-337` with `Some(0)` parameters). -/
theorem C04_velocity_after_call_false :
    ∃ (s : Song) (o sub : Out) (toks subToks : List Tok),
      s.writeTrack 0 = .ok o ∧ s.writeTrack 1 = .ok sub ∧
      parse o.bytes = some (toks, []) ∧ parse sub.bytes = some (subToks, []) ∧
      (∃ track, s.tracks[0]? = some track ∧ Encodable 0xff track ∧
        (∀ c ∈ track, isCall c.command = true → c = loopCmd 1 1) ∧
        (intended (fun _ => (0x00, 0xd0)) track 0 13 7).getLast? = some (.note 0xa4 24 8 7)) ∧
      (play (fun _ _ k r => callSub subToks k r) toks ⟨0, 13, 7⟩).getLast? = some (.note 0xa4 24 15 7) := by
  refine ⟨⟨[[0]], [[⟨some 24, some 8, some 7, .note 0xa4⟩, loopCmd 1 1, ⟨some 24, some 8, some 7, .note 0xa4⟩],
      [⟨some 12, some 15, some 7, .note 0x90⟩]]⟩,
    ⟨[0xfa, 0x19, 0xe5, 0xc8, 0xed, 0xc8, 24, 0x78, 0xa4, 0xef, 0x00, 0xd0, 1, 24, 0xa4, 0], [⟨1, 10⟩]⟩,
    ⟨[12, 0x7f, 0x90, 0], []⟩,
    [.cmd 0xfa [0x19], .cmd 0xe5 [0xc8], .cmd 0xed [0xc8], .dur 24 (some 0x78), .note 0xa4, .cmd 0xef [0x00, 0xd0, 1],
      .dur 24 none, .note 0xa4],
    [.dur 12 (some 0x7f), .note 0x90], by decide, by decide, by decide, by decide,
    ⟨_, rfl, by decide, by decide, by decide⟩, by decide⟩

/-- The targets of the CallLoops of a track, in order. -/
def callTargets (track : List PCmd) : List Nat :=
  track.filterMap fun c => match c.command with
    | .callLoop t _ => some t
    | _ => none

theorem encRefs_targets (cs : List PCmd) (d : UInt8) (vs : Option UInt8) (pos : Nat) :
    (encRefs cs d vs pos).map (·.targetTrack) = callTargets cs := by
  induction cs generalizing d vs pos with
  | nil => rfl
  | cons c cs ih =>
    have ih' := ih (c.duration.getD d) (nextVS c vs) (pos + (preBytes c d vs).length + (cmdBytes placeholder c.command).length)
    simp only [encRefs, List.map_append, ih']
    cases hc : c.command <;> simp [callTargets, cmdRefs, hc]

theorem encRefs_point (cs : List PCmd) (p tail : List UInt8) (d : UInt8) (vs : Option UInt8) :
    ∀ r ∈ encRefs cs d vs p.length,
      p.length + 1 ≤ r.refPos ∧ (p ++ encBytes placeholder cs d vs ++ tail)[r.refPos - 1]? = some 0xef ∧
      (p ++ encBytes placeholder cs d vs ++ tail)[r.refPos]? = some 0x00 ∧
      (p ++ encBytes placeholder cs d vs ++ tail)[r.refPos + 1]? = some 0xd0 := by
  induction cs generalizing p d vs with
  | nil => simp [encRefs]
  | cons c cs ih =>
    intro r hr
    simp only [encRefs, List.mem_append] at hr
    rcases hr with hr | hr
    · cases hc : c.command <;> simp only [cmdRefs, hc, List.not_mem_nil] at hr
      simp only [List.mem_singleton] at hr
      subst hr
      have hx : p ++ encBytes placeholder (c :: cs) d vs ++ tail =
          (p ++ preBytes c d vs) ++ (cmdBytes placeholder c.command ++ (encBytes placeholder cs (c.duration.getD d) (nextVS c vs) ++ tail)) := by
        simp [encBytes]
      have hl : p.length + (preBytes c d vs).length = (p ++ preBytes c d vs).length := by simp
      simp only [hx, hl]
      refine ⟨by simp, ?_, ?_, ?_⟩
      · simp [hc, cmdBytes, encodeCmd]
      · rw [List.getElem?_append_right (by omega)]
        simp [hc, cmdBytes, encodeCmd, placeholder]
      · rw [List.getElem?_append_right (by omega)]
        rw [show (p ++ preBytes c d vs).length + 1 + 1 - (p ++ preBytes c d vs).length = 2 by omega]
        simp [hc, cmdBytes, encodeCmd, placeholder]
    · have := ih (p ++ preBytes c d vs ++ cmdBytes placeholder c.command) (c.duration.getD d) (nextVS c vs) r
        (by simpa [List.length_append, Nat.add_assoc] using hr)
      simp only [encBytes, List.append_assoc, List.length_append] at this ⊢
      exact ⟨by omega, this.2⟩

/-- **C05.** Writing a track reports one reference per CallLoop, in order, with its target; each reported position is that of the two
(placeholder) address bytes behind an EF byte; and after filling in the address of the target at all reported positions the bytes parse to exactly the
track's commands, every CallLoop's operand being the address of its target. -/
theorem C05_call_refs (s : Song) (i : Nat) (track : List PCmd) (htrack : s.tracks[i]? = some track) (hne : track ≠ [])
    (o : Out) (ho : s.writeTrack i = .ok o) :
    o.refs.map (·.targetTrack) = callTargets track ∧
    (∀ r ∈ o.refs, 1 ≤ r.refPos ∧ o.bytes[r.refPos - 1]? = some 0xef ∧ o.bytes[r.refPos]? = some 0x00 ∧
      o.bytes[r.refPos + 1]? = some 0xd0) ∧
    (Encodable 0xff track → ∀ (addr : Nat → UInt8 × UInt8) (target : UInt8 → UInt8 → Nat) (extra : List UInt8),
      (∀ t ∈ callTargets track, target (addr t).1 (addr t).2 = t) →
      ∃ toks, parse (o.refs.foldl (patchOne addr) o.bytes ++ extra) = some (toks, extra) ∧
        commands target toks = preambleFor s.parts i ++ track.map (·.command)) := by
  obtain ⟨hb, hr⟩ := writeTrack_eq s i track htrack hne o ho
  refine ⟨by rw [hr]; exact encRefs_targets _ _ _ _, ?_, ?_⟩
  · intro r hr'
    rw [hr] at hr'
    have := encRefs_point track _ [0] 0xff none r hr'
    rw [hb]
    exact ⟨by omega, this.2⟩
  · intro henc addr target extra ht
    have hpatch := patch_enc addr track ((preambleFor s.parts i).flatMap (cmdBytes placeholder)) [0] 0xff none
    have hpre : (preambleFor s.parts i).flatMap (cmdBytes placeholder) = (preambleFor s.parts i).flatMap (cmdBytes addr) := by
      unfold preambleFor; split_ifs <;> rfl
    have hp := parse_written addr s.parts i track henc extra
    rw [hr, hb, hpatch, hpre]
    refine ⟨_, hp, ?_⟩
    have hc := commands_enc addr target track 0xff none henc
    have hp : commands target ((preambleFor s.parts i).map (cmdTok addr)) = preambleFor s.parts i := by
      unfold preambleFor
      split_ifs <;> rfl
    unfold commands at hc hp ⊢
    rw [List.filterMap_append, hp, hc]
    congr 1
    apply List.map_congr_left
    intro c hcm
    cases hcc : c.command <;> simp only [retarget]
    case callLoop t k =>
      rw [ht t]
      simp only [callTargets, List.mem_filterMap]
      exact ⟨c, hcm, by rw [hcc]⟩

example : (demoSong.writeTrack 0).toOption.map (fun o => (o.refs, callTargets demoTrack)) = some ([⟨2, 15⟩], [2]) := by decide

/-- **C50.** A non-empty first track of a part starts with percussion base, master volume and channel volume, another part track with channel
volume, any other track with nothing; then come the bytes of its commands (the same for the same track wherever it is), then the end mark.
An empty track has no bytes at all. Writing fails only if some part is empty. -/
theorem C50_preambles (s : Song) (i : Nat) (track : List PCmd) (htrack : s.tracks[i]? = some track) (hparts : ∀ p ∈ s.parts, p ≠ []) :
    ∃ o, s.writeTrack i = .ok o ∧
      (track = [] → o.bytes = []) ∧
      (track ≠ [] → o.bytes = (if ∃ p ∈ s.parts, p.head? = some i then [0xfa, 0x19, 0xe5, 0xc8, 0xed, 0xc8]
        else if ∃ p ∈ s.parts, i ∈ p then [0xed, 0xc8] else []) ++ (trackWrite track ⟨[], []⟩).bytes ++ [0x00]) := by
  obtain ⟨o, ho⟩ := writeTrack_ok s i track htrack hparts
  refine ⟨o, ho, ?_, ?_⟩
  · rintro rfl
    simp [Song.writeTrack, htrack] at ho
    rw [← ho]
  · intro hne
    rw [(writeTrack_eq s i track htrack hne o ho).1]
    simp only [trackWrite, writeCmds_bytes, List.nil_append]
    congr 2
    unfold preambleFor
    simp only [List.any_eq_true, decide_eq_true_eq, List.contains_iff_mem]
    split_ifs <;> rfl

example : demoSong.tracks[0]? = some demoTrack ∧ (∀ p ∈ demoSong.parts, p ≠ []) ∧
    (demoSong.writeTrack 0).toOption.map (·.bytes.take 6) = some [0xfa, 0x19, 0xe5, 0xc8, 0xed, 0xc8] ∧
    (demoSong.writeTrack 1).toOption.map (·.bytes) = some [0xed, 0xc8, 12, 0x7f, 0x80, 0] ∧
    (demoSong.writeTrack 2).toOption.map (·.bytes) = some [48, 0xc9, 0] := by decide

end M2S
