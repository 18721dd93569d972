import Verif.Spec.Strike
import Verif.Proofs.TrackNew
import Verif.Proofs.Sustain
import Verif.Proofs.Portamento
import Verif.Spec.Playback
/-
How notes are struck: the event loop.
-/
namespace M2S
open Timing Nspc

/-- The settings after a command list. -/
def setByCmds (s : Settings) (cs : List PCmd) : Settings := cs.foldl (fun s c => setByCmd s c.command) s

theorem struck_append (s : Settings) (a b : List PCmd) : struck s (a ++ b) = struck s a ++ struck (setByCmds s a) b := by
  induction a generalizing s with
  | nil => rfl
  | cons c a ih => simp only [List.cons_append, struck, ih, List.append_assoc, setByCmds, List.foldl_cons]

theorem setByCmds_append (s : Settings) (a b : List PCmd) : setByCmds s (a ++ b) = setByCmds (setByCmds s a) b := by
  simp only [setByCmds, List.foldl_append]

/-- Commands that strike and set nothing. -/
def inert (c : Command) : Prop := c = .rest ∨ c = .tie

theorem struck_inert (s : Settings) (b : List PCmd) (h : ∀ c ∈ b, inert c.command) : struck s b = [] ∧ setByCmds s b = s := by
  induction b generalizing s with
  | nil => exact ⟨rfl, rfl⟩
  | cons c b ih =>
    have ih := ih s (fun x hx => h x (List.mem_cons_of_mem _ hx))
    simp only [struck, setByCmds, List.foldl_cons]
    rcases h c List.mem_cons_self with hc | hc
    · simp only [hc, setByCmd, List.nil_append]; exact ih
    · simp only [hc, setByCmd, List.nil_append]; exact ih

theorem noteTies_inert (d : Duration) : ∀ c ∈ noteTies d, inert c.command := by
  intro c hc
  simp only [noteTies, List.mem_map] at hc
  obtain ⟨i, -, rfl⟩ := hc
  exact .inr rfl

theorem struck_fused {a b : List PCmd} (h : Fused a b) (s : Settings) : struck s b = struck s a := by
  induction h generalizing s with
  | nil => rfl
  | keep c _ ih => simp only [struck, ih]
  | fuse p dn dr x dt vn sn vr sr hd _ _ _ _ ih => simp [struck, ih, setByCmd]

/-- What the loop keeps: portamento is off, and no command is a slide. -/
structure Level (st : TrackState) : Prop where
  off : st.portamento = false
  slides : ∀ c ∈ st.commands, c.isSlide = false

theorem insertRest_rests (cs cs' : List PCmd) (e t p e' : Nat) (h : insertRest cs e t p = .ok (cs', e')) : ∃ rs, cs' = cs ++ rs ∧ ∀ c ∈ rs, c.command = .rest := by
  unfold insertRest at h
  split_ifs at h with hgt
  · simp only [res_bind, res_pure, Prod.mk.injEq] at h
    obtain ⟨d, hd, t', ht', h1, rfl⟩ := h
    refine ⟨restsOf d, ?_, ?_⟩
    · rw [← h1]; unfold restsOf; split_ifs <;> simp
    · intro c hc
      unfold restsOf at hc
      rw [List.mem_append] at hc
      rcases hc with hc | hc
      · rw [List.eq_of_mem_replicate hc]; rfl
      · split_ifs at hc
        · simp only [List.mem_singleton] at hc; subst hc; rfl
        · simp at hc
  · simp only [res_pure, Prod.mk.injEq] at h
    obtain ⟨rfl, rfl⟩ := h
    exact ⟨[], by simp, by simp⟩

theorem strike_step (s0 : Settings) (p : Nat) (f : F32) (st st' : TrackState) (ev : Message × Nat) (evs : List (Message × Nat)) (hl : Level st)
    (hno : noPortamento [ev] = true) (h : trackStep p f st ev = .ok st') :
    Level st' ∧ struck s0 st.commands ++ strikesAtEnd (setByCmds s0 st.commands) (st.noteStart.map fun _ => st.noteVelocity) (ev :: evs) =
      struck s0 st'.commands ++ strikesAtEnd (setByCmds s0 st'.commands) (st'.noteStart.map fun _ => st'.noteVelocity) evs := by
  obtain ⟨m, t⟩ := ev
  have same : strikesAtEnd (setByCmds s0 st.commands) (st.noteStart.map fun _ => st.noteVelocity) ((m, t) :: evs) =
      strikesAtEnd (setByCmds s0 st.commands) (st.noteStart.map fun _ => st.noteVelocity) evs → st' = st → Level st' ∧
      struck s0 st.commands ++ strikesAtEnd (setByCmds s0 st.commands) (st.noteStart.map fun _ => st.noteVelocity) ((m, t) :: evs) =
      struck s0 st'.commands ++ strikesAtEnd (setByCmds s0 st'.commands) (st'.noteStart.map fun _ => st'.noteVelocity) evs := by
    rintro h0 rfl
    exact ⟨hl, by rw [h0]⟩
  rcases m with ⟨dl, e, data⟩ | ⟨dl, e⟩ | ⟨dl, data⟩ | _
  · rcases e with _ | k
    · simp only [trackStep, res_bind, res_pure] at h
      obtain ⟨u, -, rfl⟩ := h
      refine ⟨⟨hl.off, ?_⟩, ?_⟩
      · intro c hc
        rw [List.mem_append, List.mem_singleton] at hc
        rcases hc with hc | rfl
        · exact hl.slides c hc
        · rfl
      · simp only [struck_append, setByCmds_append]
        simp [struck, plainCmd, setByCmds, setByCmd, strikesAtEnd, setByEvent]
    · simp only [trackStep, Except.ok.injEq] at h
      exact same rfl h.symm
  · rcases e with ⟨ch, n, v⟩ | ⟨ch, n, v⟩ | ⟨ch, n, v⟩ | ⟨ch, c, d⟩ | ⟨ch, pr⟩ | ⟨ch, pr⟩ | ⟨ch, x⟩ | ⟨ch⟩
    · -- note off
      simp only [trackStep, trackNoteOff] at h
      cases hns : st.noteStart with
      | none =>
        rw [hns] at h
        simp only [Except.ok.injEq] at h
        subst h
        refine ⟨hl, ?_⟩
        rw [hns]
        rfl
      | some start =>
        rw [hns] at h
        have hnt : (st.commands.getLast?).any PCmd.isSlide = false := by
          cases hg : st.commands.getLast? with
          | none => rfl
          | some c => exact hl.slides c (List.mem_of_getLast? hg)
        simp only [hnt, Bool.false_eq_true, if_false, res_bind, res_pure] at h
        obtain ⟨dt, -, d, -, n', hn', cmd, rfl, t', -, rfl⟩ := h
        have hn' : n' = n + 0x68 := by
          unfold addU8 at hn'
          split_ifs at hn'
          · simpa using hn'.symm
          · cases hn'
        subst hn'
        refine ⟨⟨hl.off, ?_⟩, ?_⟩
        · intro c hc
          rw [List.mem_append, List.mem_cons] at hc
          rcases hc with hc | rfl | hc
          · exact hl.slides c hc
          · rfl
          · rcases noteTies_inert d c hc with h | h <;> simp [PCmd.isSlide, h]
        · obtain ⟨i1, i2⟩ := struck_inert (setByCmds s0 st.commands) (noteTies d) (noteTies_inert d)
          have e1 : struck (setByCmds s0 st.commands)
              (⟨some (if d.overflowCount > 0 then 0x7f else d.length), some (st.noteVelocity / 8), some 7, .note (n + 0x68)⟩ :: noteTies d) =
              [⟨n + 0x68, some (st.noteVelocity / 8), setByCmds s0 st.commands⟩] := by
            show [_] ++ struck (setByCmds s0 st.commands) (noteTies d) = _
            rw [i1, List.append_nil]
          have e2 : setByCmds (setByCmds s0 st.commands)
              (⟨some (if d.overflowCount > 0 then 0x7f else d.length), some (st.noteVelocity / 8), some 7, .note (n + 0x68)⟩ :: noteTies d) =
              setByCmds s0 st.commands := i2
          simp only [struck_append, setByCmds_append, e1, e2]
          simp [strikesAtEnd]
    · -- note on
      simp only [trackStep, trackNoteOn, res_bind] at h
      obtain ⟨⟨cs1, e'⟩, hr, h⟩ := h
      have h : (if st.noteStart.isSome then failed .moreThanOneVoice
          else (pure { st with commands := cs1, lastNoteEnd := e', noteStart := some e', noteVelocity := v } : Res TrackState)) = .ok st' := by
        simp only [hl.off, Bool.false_eq_true, if_false] at h
        split at h
        · simpa only [res_bind, res_pure, exists_eq_left', hl.off] using h
        · simpa only [res_bind, res_pure, exists_eq_left', hl.off] using h
      split_ifs at h with hns
      · cases h
      simp only [res_pure] at h
      subst h
      obtain ⟨rs, rfl, hrs⟩ := insertRest_rests _ _ _ _ _ _ hr
      have hin : ∀ c ∈ rs, inert c.command := fun c hc => .inl (hrs c hc)
      obtain ⟨i1, i2⟩ := struck_inert (setByCmds s0 st.commands) rs hin
      refine ⟨⟨hl.off, ?_⟩, ?_⟩
      · intro c hc
        rw [List.mem_append] at hc
        rcases hc with hc | hc
        · exact hl.slides c hc
        · simp [PCmd.isSlide, hrs c hc]
      · simp only [struck_append, setByCmds_append, i1, i2]
        simp [strikesAtEnd]
    · simp only [trackStep, Except.ok.injEq] at h
      exact same rfl h.symm
    · -- control change
      simp only [trackStep, trackControl] at h
      have hev : c ≠ 7 → strikesAtEnd (setByCmds s0 st.commands) (st.noteStart.map fun _ => st.noteVelocity) ((.midiEvent dl (.controlChange ch c d), t) :: evs) =
          strikesAtEnd (setByCmds s0 st.commands) (st.noteStart.map fun _ => st.noteVelocity) evs := by
        intro h7
        simp only [strikesAtEnd, setByEvent, if_neg h7]
      split_ifs at h with h5 h7 h37 h65
      · simp only [Except.ok.injEq] at h
        subst h
        exact ⟨⟨hl.off, hl.slides⟩, by rw [hev (by rw [h5]; decide)]⟩
      · subst h7
        simp only [res_bind, res_pure] at h
        obtain ⟨v, hv, rfl⟩ := h
        have hv : v = 2 * d := by
          unfold mulU8 at hv
          split_ifs at hv
          · rw [UInt8.mul_comm]; simpa using hv.symm
          · cases hv
        subst hv
        refine ⟨⟨hl.off, ?_⟩, ?_⟩
        · intro c hc
          rw [List.mem_append, List.mem_singleton] at hc
          rcases hc with hc | rfl
          · exact hl.slides c hc
          · rfl
        · simp only [struck_append, setByCmds_append]
          simp [struck, plainCmd, setByCmds, setByCmd, strikesAtEnd, setByEvent]
      · simp only [Except.ok.injEq] at h
        subst h
        exact ⟨⟨hl.off, hl.slides⟩, by rw [hev h7]⟩
      · simp only [Except.ok.injEq] at h
        subst h65
        subst h
        refine ⟨⟨?_, hl.slides⟩, by rw [hev h7]⟩
        simpa [noPortamento, UInt8.not_le] using hno
      · simp only [Except.ok.injEq] at h
        exact same (hev h7) h.symm
    · -- program change
      simp only [trackStep, trackProgram, res_bind] at h
      obtain ⟨⟨cs1, e'⟩, hr, h⟩ := h
      have h : st' = { st with commands := cs1 ++ [plainCmd (.setInstrument (instrumentFor ch pr))], lastNoteEnd := e' } := by
        unfold instrumentFor
        split_ifs at h ⊢ with h9
        · simp only [res_bind, res_pure] at h
          obtain ⟨i, rfl, rfl⟩ := h
          rfl
        · cases hg : Instr.instrumentMap[pr.toNat]? with
          | none => rw [hg] at h; cases h
          | some j =>
            rw [hg] at h
            rw [List.getD_eq_getElem?_getD, hg]
            simp only [res_bind, res_pure] at h
            obtain ⟨i, rfl, rfl⟩ := h
            rfl
      subst h
      obtain ⟨rs, rfl, hrs⟩ := insertRest_rests _ _ _ _ _ _ hr
      have hin : ∀ c ∈ rs, inert c.command := fun c hc => .inl (hrs c hc)
      obtain ⟨i1, i2⟩ := struck_inert (setByCmds s0 st.commands) rs hin
      refine ⟨⟨hl.off, ?_⟩, ?_⟩
      · intro c hc
        simp only [List.mem_append, List.mem_singleton] at hc
        rcases hc with (hc | hc) | rfl
        · exact hl.slides c hc
        · simp [PCmd.isSlide, hrs c hc]
        · rfl
      · simp only [struck_append, setByCmds_append, i1, i2]
        simp [struck, plainCmd, setByCmds, setByCmd, strikesAtEnd, setByEvent]
    all_goals
      simp only [trackStep, Except.ok.injEq] at h
      exact same rfl h.symm
  all_goals
    simp only [trackStep, Except.ok.injEq] at h
    exact same rfl h.symm

theorem noPortamento_cons (ev : Message × Nat) (evs : List (Message × Nat)) : noPortamento (ev :: evs) = (noPortamento [ev] && noPortamento evs) := by
  simp [noPortamento]

theorem strike_loop (s0 : Settings) (p : Nat) (f : F32) (evs : List (Message × Nat)) : ∀ (st st' : TrackState), Level st → noPortamento evs = true → evs.foldlM (trackStep p f) st = .ok st' →
    struck s0 st.commands ++ strikesAtEnd (setByCmds s0 st.commands) (st.noteStart.map fun _ => st.noteVelocity) evs = struck s0 st'.commands := by
  induction evs with
  | nil =>
    intro st st' _ _ h
    simp only [List.foldlM_nil, res_pure] at h
    subst h
    simp [strikesAtEnd]
  | cons ev evs ih =>
    intro st st' hl hno h
    rw [List.foldlM_cons, res_bind] at h
    obtain ⟨st1, h1, h2⟩ := h
    rw [noPortamento_cons, Bool.and_eq_true] at hno
    obtain ⟨hl1, he⟩ := strike_step s0 p f st st1 ev evs hl hno.1 h1
    rw [he]
    exact ih st1 st' hl1 hno.2 h2

/-- The notes struck by a converted voice, with the settings at their ends. -/
theorem trackNew_struck (s0 : Settings) (evs : List (Message × Nat)) (tpb T : Nat) (f : F32) (cs : List PCmd) (h : trackNew evs tpb T f = .ok cs) (hno : noPortamento evs = true) :
    struck s0 cs = strikesAtEnd s0 none evs := by
  obtain ⟨st, cs0, h1, h2, h3, h4⟩ := trackNew_pre evs tpb T f cs h
  rw [struck_fused (sustainPass_fused' cs0 cs h4 h3)]
  have := strike_loop s0 tpb f evs {} st ⟨rfl, by simp⟩ hno h1
  simp only [struck, setByCmds, List.foldl_nil, List.nil_append, Option.map_none] at this
  rw [this]
  rcases h2 with ⟨e1, rfl⟩ | ⟨-, e, h2⟩
  · rw [e1]
  · obtain ⟨rs, rfl, hrs⟩ := insertRest_rests _ _ _ _ _ _ h2
    rw [struck_append, (struck_inert _ rs fun c hc => .inl (hrs c hc)).1, List.append_nil]

/-- When settings change only between notes, those at the end of a note are those at its start. -/
theorem strikesAtEnd_eq (evs : List (Message × Nat)) : ∀ (s : Settings) (o : Option UInt8), settingsBetweenNotes o.isSome evs = true →
    strikesAtEnd s o evs = strikes s (o.map fun v => (v, s)) evs := by
  induction evs with
  | nil => intros; rfl
  | cons ev evs ih =>
    intro s o h
    obtain ⟨m, t⟩ := ev
    rcases m with ⟨dl, e, data⟩ | ⟨dl, e⟩ | ⟨dl, data⟩ | _
    · exact ih s o h
    · rcases e with ⟨ch, n, v⟩ | ⟨ch, n, v⟩ | ⟨ch, n, v⟩ | ⟨ch, c, d⟩ | ⟨ch, pr⟩ | ⟨ch, pr⟩ | ⟨ch, x⟩ | ⟨ch⟩
      · simp only [strikesAtEnd, strikes]
        rw [ih s none h]
        cases o <;> rfl
      · exact ih s (some v) h
      · exact ih s o h
      · simp only [settingsBetweenNotes, Bool.and_eq_true, Bool.not_eq_true', Bool.and_eq_false_iff, beq_eq_false_iff_ne] at h
        simp only [strikesAtEnd, strikes, setByEvent]
        by_cases h7 : c = 7
        · rcases h with ⟨h1 | h1, h2⟩
          · have : o = none := by simpa using h1
            subst this
            exact ih _ none h2
          · exact absurd h7 h1
        · rw [if_neg h7]; exact ih s o h.2
      · simp only [settingsBetweenNotes, Bool.and_eq_true, Bool.not_eq_true'] at h
        have : o = none := by simpa using h.1
        subst this
        exact ih _ none h.2
      all_goals exact ih s o h
    all_goals exact ih s o h

theorem setByOp_encode (addr : Nat → UInt8 × UInt8) (s : Settings) (c : Command) (hn : ∀ p, c ≠ .note p) (ht : c ≠ .tie) (hr : c ≠ .rest) :
    setByOp s (encodeCmd addr c).1 (encodeCmd addr c).2 = setByCmd s c := by
  cases c <;> first | rfl | exact absurd rfl (hn _)

/-- What is heard of a command list, if every note asks for a velocity. -/
theorem heardStrikes_intended (addr : Nat → UInt8 × UInt8) (cs : List PCmd) (hv : ∀ c ∈ cs, ∀ p, c.command = .note p → ∃ v, c.velocity = some v ∧ v ≠ 0) :
    ∀ (s : Settings) (d v u : UInt8), heardStrikes s (intended addr cs d v u) = struck s cs := by
  induction cs with
  | nil => intros; rfl
  | cons c cs ih =>
    intro s d v u
    have ih := ih (fun x hx => hv x (List.mem_cons_of_mem _ hx))
    cases hc : c.command
    case note n =>
      obtain ⟨x, hx, hx0⟩ := hv c List.mem_cons_self n hc
      simp only [intended, struck, hc, heardStrikes, ih, setByCmd, hx, asked, hx0, if_false, Option.getD_some, List.cons_append, List.nil_append]
    case tie => simp only [intended, struck, hc, heardStrikes, ih, setByCmd, List.nil_append]
    case rest => simp only [intended, struck, hc, heardStrikes, ih, setByCmd, List.nil_append]
    all_goals
      simp only [intended, struck, hc, heardStrikes, ih, List.nil_append]
      rw [setByOp_encode _ _ _ (by simp) (by simp) (by simp)]

/-- The same for everything but the velocities, without this assumption. -/
theorem heardStrikes_intended_quiet (addr : Nat → UInt8 × UInt8) (cs : List PCmd) :
    ∀ (s : Settings) (d v u : UInt8), (heardStrikes s (intended addr cs d v u)).map Strike.quiet = (struck s cs).map Strike.quiet := by
  induction cs with
  | nil => intros; rfl
  | cons c cs ih =>
    intro s d v u
    cases hc : c.command
    case note n => simp only [intended, struck, hc, heardStrikes, ih, setByCmd, List.map_cons, List.cons_append, List.nil_append, Strike.quiet]
    case tie => simp only [intended, struck, hc, heardStrikes, ih, setByCmd, List.nil_append]
    case rest => simp only [intended, struck, hc, heardStrikes, ih, setByCmd, List.nil_append]
    all_goals
      simp only [intended, struck, hc, heardStrikes, ih, List.nil_append]
      rw [setByOp_encode _ _ _ (by simp) (by simp) (by simp)]

/-- What is struck, apart from the velocity, can be told from the timing. -/
theorem heardStrikes_timing (l : List Ev) : ∀ s, (heardStrikes s (l.map Ev.timing)).map Strike.quiet = (heardStrikes s l).map Strike.quiet := by
  induction l with
  | nil => intro s; rfl
  | cons e l ih => intro s; cases e <;> simp [Ev.timing, heardStrikes, ih, Strike.quiet]

/-- The preamble sets the volume to 200. -/
theorem heardStrikes_preamble (parts : List (List Nat)) (i : Nat) (hi : (parts.any fun p => p.contains i) = true) (l : List Ev) :
    heardStrikes (none, none) ((preambleFor parts i).map (fun c => Ev.cmd (encodeCmd Engine.noAddr c).1 (encodeCmd Engine.noAddr c).2) ++ l) = heardStrikes (none, some 200) l := by
  unfold preambleFor
  rw [if_pos hi]
  split <;> rfl

theorem strikesAtEnd_velocity (evs : List (Message × Nat)) (hv : ∀ t dl ch n x, (Message.midiEvent dl (.noteOn ch n x), t) ∈ evs → 8 ≤ x.toNat) :
    ∀ (s : Settings) (o : Option UInt8), (∀ x ∈ o, 8 ≤ x.toNat) → ∀ y ∈ strikesAtEnd s o evs, ∃ v, y.velocity = some v ∧ v ≠ 0 := by
  induction evs with
  | nil => intro s o _ y hy; cases hy
  | cons ev evs ih =>
    intro s o ho y hy
    obtain ⟨m, t⟩ := ev
    have ih := ih (fun t dl ch n x h => hv t dl ch n x (List.mem_cons_of_mem _ h))
    rcases m with ⟨dl, e, data⟩ | ⟨dl, e⟩ | ⟨dl, data⟩ | _
    · exact ih _ o ho y hy
    · rcases e with ⟨ch, n, v⟩ | ⟨ch, n, v⟩ | ⟨ch, n, v⟩ | ⟨ch, c, d⟩ | ⟨ch, pr⟩ | ⟨ch, pr⟩ | ⟨ch, x⟩ | ⟨ch⟩
      · simp only [strikesAtEnd, List.mem_append] at hy
        rcases hy with hy | hy
        · cases o with
          | none => cases hy
          | some x =>
            simp only [List.mem_singleton] at hy
            subst hy
            refine ⟨_, rfl, ?_⟩
            have := ho x rfl
            intro h0
            have h0 := congrArg UInt8.toNat h0
            rw [UInt8.toNat_div] at h0
            have e8 : (8 : UInt8).toNat = 8 := rfl
            have e0 : (0 : UInt8).toNat = 0 := rfl
            rw [e8, e0] at h0
            omega
        · exact ih s none (by simp) y hy
      · exact ih s (some v) (by intro x hx; simp only [Option.mem_some_iff] at hx; subst hx; exact hv _ _ _ _ _ List.mem_cons_self) y hy
      all_goals exact ih _ o ho y hy
    all_goals exact ih _ o ho y hy

theorem mem_struck (cs : List PCmd) : ∀ (s : Settings), ∀ c ∈ cs, ∀ p, c.command = .note p → ∃ y ∈ struck s cs, y.velocity = c.velocity := by
  induction cs with
  | nil => intro s c hc; cases hc
  | cons a cs ih =>
    intro s c hc p hp
    rcases List.mem_cons.1 hc with rfl | hc
    · refine ⟨⟨p, c.velocity, s⟩, ?_, rfl⟩
      simp [struck, hp]
    · obtain ⟨y, h1, h2⟩ := ih (setByCmd s a.command) c hc p hp
      exact ⟨y, List.mem_append_right _ h1, h2⟩

end M2S
