import Verif.Proofs.Nspc
/-
Helper lemmas on playing encoded tracks.
-/
namespace M2S.Nspc

abbrev CallEffect := UInt8 → UInt8 → UInt8 → Regs → Regs

/-- A duration register value the writer knows. -/
def Known (d : UInt8) : Prop := 0 < d ∧ d < 0x80

theorem not_known_zero : ¬ Known 0 := by unfold Known; decide

theorem preDur {c : PCmd} {d : UInt8} {vs : Option UInt8} {vel sus dur : UInt8} (call : CallEffect) (r : Regs)
    (h : HeadOk d c) (hr : VSRel vs vel sus) (hd : Known d → r.dur = d ∧ dur = d) :
    (timed c.command = true → (finalRegs call (preTok c d vs) r).dur = (asked c.duration).getD dur) ∧
    (Known (c.duration.getD d) →
      (finalRegs call (preTok c d vs) r).dur = c.duration.getD d ∧ (asked c.duration).getD dur = c.duration.getD d) := by
  have askedSome : ∀ x, asked c.duration = some x → c.duration = some x := by
    intro x hx
    cases hc : c.duration with
    | none => rw [hc] at hx; simp [asked] at hx
    | some y =>
      rw [hc] at hx
      by_cases hy : y = 0 <;> simp_all [asked]
  have askedNone : asked c.duration = none → c.duration = none ∨ c.duration = some 0 := by
    intro hx
    cases hc : c.duration with
    | none => simp
    | some y =>
      rw [hc] at hx
      by_cases hy : y = 0 <;> simp_all [asked]
  rcases pre_cases h hr with ⟨hp, -, ha⟩ | ⟨d', hp, -, ha, h0, h8⟩ | ⟨d', hp, -, ha, h0, h8⟩
  · simp only [preTok, hp, finalRegs]
    rcases ha with ha | ha
    · refine ⟨fun ht => ?_, fun hk => ?_⟩
      · have := h.2.2.2.2 (Or.inl ht)
        rw [ha] at this
        have := hd this
        simp [ha, this.1, this.2]
      · rcases askedNone ha with hc | hc
        · rw [hc] at hk ⊢
          simpa [asked] using hd hk
        · rw [hc] at hk
          exact absurd hk not_known_zero
    · have hc := askedSome _ ha
      have hk : Known d := by
        refine ⟨?_, h.2.1 d (by simp [hc])⟩
        rw [← gt_iff_lt, pos_iff]
        rintro rfl
        simp [hc, asked] at ha
      have := hd hk
      rw [ha]
      simp [hc, this.1]
  · have hc := askedSome _ ha
    rw [ha]
    simp [preTok, hp, finalRegs, Tok.regs, hc]
  · simp only [preTok, hp, finalRegs, Tok.regs]
    cases hx : asked c.duration with
    | none =>
      rw [hx] at ha
      have ha : d' = d := ha
      subst ha
      have := hd ⟨h0, h8⟩
      refine ⟨fun _ => by simp [this.2], fun hk => ?_⟩
      rcases askedNone hx with hc | hc
      · simp [hc, this.2]
      · rw [hc] at hk
        exact absurd hk not_known_zero
    | some x =>
      rw [hx] at ha
      have hc := askedSome _ hx
      simp at ha
      simp [hc, ha]

theorem preVel {c : PCmd} {d : UInt8} {vs : Option UInt8} {vel sus : UInt8} (call : CallEffect) (r : Regs)
    (h : HeadOk d c) (hr : VSRel vs vel sus) (hv : vs.isSome = true → r.vel = vel ∧ r.sus = sus) :
    (nextVS c vs).isSome = true →
      (finalRegs call (preTok c d vs) r).vel = (asked c.velocity).getD vel ∧
      (finalRegs call (preTok c d vs) r).sus = (asked c.sustain).getD sus := by
  intro hs
  have hn := hr.next h.2.2.1 h.2.2.2.1
  have same : vs = nextVS c vs → vel = (asked c.velocity).getD vel ∧ sus = (asked c.sustain).getD sus := by
    intro he
    have h1 := hr.2.2
    have h2 := hn.2.2
    rw [← he, h1] at h2
    have d1 := vs_decode _ _ hr.1 hr.2.1
    have d2 := vs_decode _ _ hn.1 hn.2.1
    rw [← h2] at d2
    exact ⟨d1.1.symm.trans d2.1, d1.2.1.symm.trans d2.2.1⟩
  rcases pre_cases h hr with ⟨hp, he, -⟩ | ⟨d', hp, he, -, -, -⟩ | ⟨d', hp, -, -, -, -⟩
  · simp only [preTok, hp, finalRegs]
    rw [← he] at hs
    obtain ⟨e1, e2⟩ := same he
    rw [← e1, ← e2]
    exact hv hs
  · simp only [preTok, hp, finalRegs, Tok.regs]
    rw [← he] at hs
    obtain ⟨e1, e2⟩ := same he
    rw [← e1, ← e2]
    exact hv hs
  · simp only [preTok, hp, finalRegs, Tok.regs]
    have d2 := vs_decode _ _ hn.1 hn.2.1
    exact ⟨d2.1, d2.2.1⟩

theorem play_append (call : CallEffect) (a b : List Tok) (r : Regs) :
    play call (a ++ b) r = play call a r ++ play call b (finalRegs call a r) := by
  induction a generalizing r with
  | nil => rfl
  | cons t ts ih => simp [play, finalRegs, ih]

theorem play_pre (call : CallEffect) (c : PCmd) (d : UInt8) (vs : Option UInt8) (r : Regs) :
    play call (preTok c d vs) r = [] := by
  unfold preTok
  split <;> simp [play, Tok.ev]

/-- The event a command should produce. -/
def cmdEv (addr : Nat → UInt8 × UInt8) (c : Command) (dur vel sus : UInt8) : Ev :=
  match c with
  | .note n => .note n dur vel sus
  | .tie => .tie dur
  | .rest => .rest dur
  | cmd => .cmd (encodeCmd addr cmd).1 (encodeCmd addr cmd).2

theorem intended_cons (addr : Nat → UInt8 × UInt8) (c : PCmd) (cs : List PCmd) (dur vel sus : UInt8) :
    intended addr (c :: cs) dur vel sus =
      cmdEv addr c.command ((asked c.duration).getD dur) ((asked c.velocity).getD vel) ((asked c.sustain).getD sus) ::
        intended addr cs ((asked c.duration).getD dur) ((asked c.velocity).getD vel) ((asked c.sustain).getD sus) := rfl

theorem cmdTok_ev (addr : Nat → UInt8 × UInt8) (c : Command) (r : Regs) :
    (cmdTok addr c).ev r = [cmdEv addr c r.dur r.vel r.sus] := by
  cases c <;> rfl

theorem cmdTok_regs (addr : Nat → UInt8 × UInt8) (c : Command) (call : CallEffect) (r : Regs) (h : isCall c = false) :
    (cmdTok addr c).regs call r = r := by
  cases c <;> simp_all [cmdTok, Tok.regs, encodeCmd, isCall]

theorem cmdTok_regs_call (addr : Nat → UInt8 × UInt8) (t : Nat) (k : UInt8) (call : CallEffect) (r : Regs) :
    (cmdTok addr (.callLoop t k)).regs call r = call (addr t).1 (addr t).2 k r := by
  simp [cmdTok, Tok.regs, encodeCmd]

theorem cmdEv_timing (addr : Nat → UInt8 × UInt8) (c : Command) (d d' v v' s s' : UInt8) (h : timed c = true → d = d') :
    (cmdEv addr c d v s).timing = (cmdEv addr c d' v' s').timing := by
  cases c <;> simp_all [cmdEv, timed, Ev.timing]

theorem cmdEv_eq (addr : Nat → UInt8 × UInt8) (c : Command) (d d' v v' s s' : UInt8) (h : timed c = true → d = d')
    (h2 : c.isNote = true → v = v' ∧ s = s') :
    cmdEv addr c d v s = cmdEv addr c d' v' s' := by
  cases c <;> simp_all [cmdEv, timed, Command.isNote]

/-- Durations come out right provided every CallLoop resets the writer's duration. -/
theorem play_timing (addr : Nat → UInt8 × UInt8) (call : CallEffect) (cs : List PCmd) (d : UInt8) (vs : Option UInt8)
    (dur vel sus : UInt8) (r : Regs) (hr : VSRel vs vel sus) (hE : Encodable d cs)
    (hd : Known d → r.dur = d ∧ dur = d)
    (hc : ∀ c ∈ cs, isCall c.command = true → c.duration = some 0) :
    (play call (encToks addr cs d vs) r).map Ev.timing = (intended addr cs dur vel sus).map Ev.timing := by
  induction cs generalizing d vs dur vel sus r with
  | nil => rfl
  | cons c cs ih =>
    rw [encodable_cons] at hE
    obtain ⟨hh, hE⟩ := hE
    have hn := hr.next hh.2.2.1 hh.2.2.2.1
    have hD := preDur call r hh hr hd
    simp only [encToks, play_append, play_pre, List.nil_append, play, cmdTok_ev, intended_cons, List.singleton_append,
      List.map_cons]
    congr 1
    · exact cmdEv_timing _ _ _ _ _ _ _ _ hD.1
    · apply ih _ _ _ _ _ _ hn hE _ (fun c' hc' => hc c' (List.mem_cons_of_mem _ hc'))
      intro hk
      by_cases hcall : isCall c.command = true
      · have := hc c List.mem_cons_self hcall
        rw [this] at hk
        exact absurd hk not_known_zero
      · rw [cmdTok_regs _ _ _ _ (by simpa using hcall)]
        exact hD.2 hk

/-- Everything comes out right provided the called subroutines restore velocity and sustain. -/
theorem play_full (addr : Nat → UInt8 × UInt8) (call : CallEffect) (cs : List PCmd) (d : UInt8) (vs : Option UInt8)
    (dur vel sus : UInt8) (r : Regs) (hr : VSRel vs vel sus) (hE : Encodable d cs)
    (hd : Known d → r.dur = d ∧ dur = d) (hv : vs.isSome = true → r.vel = vel ∧ r.sus = sus)
    (hc : ∀ c ∈ cs, isCall c.command = true → c.duration = some 0 ∧
      ∀ lo hi k r, (call lo hi k r).vel = r.vel ∧ (call lo hi k r).sus = r.sus) :
    play call (encToks addr cs d vs) r = intended addr cs dur vel sus := by
  induction cs generalizing d vs dur vel sus r with
  | nil => rfl
  | cons c cs ih =>
    rw [encodable_cons] at hE
    obtain ⟨hh, hE⟩ := hE
    have hn := hr.next hh.2.2.1 hh.2.2.2.1
    have hD := preDur call r hh hr hd
    have hV := preVel call r hh hr hv
    have hnote : c.command.isNote = true → (nextVS c vs).isSome = true := by
      intro hi
      unfold nextVS
      split
      · rfl
      · cases vs <;> simp [hi]
    simp only [encToks, play_append, play_pre, List.nil_append, play, cmdTok_ev, intended_cons, List.singleton_append]
    congr 1
    · exact cmdEv_eq _ _ _ _ _ _ _ _ hD.1 (fun hi => hV (hnote hi))
    · apply ih _ _ _ _ _ _ hn hE _ _ (fun c' hc' => hc c' (List.mem_cons_of_mem _ hc'))
      · intro hk
        by_cases hcall : isCall c.command = true
        · have := (hc c List.mem_cons_self hcall).1
          rw [this] at hk
          exact absurd hk not_known_zero
        · rw [cmdTok_regs _ _ _ _ (by simpa using hcall)]
          exact hD.2 hk
      · intro hs
        by_cases hcall : isCall c.command = true
        · have hp := (hc c List.mem_cons_self hcall).2
          cases hcc : c.command <;> simp only [hcc, isCall] at hcall <;> try exact absurd hcall (by decide)
          rw [cmdTok_regs_call, (hp _ _ _ _).1, (hp _ _ _ _).2]
          exact hV hs
        · rw [cmdTok_regs _ _ _ _ (by simpa using hcall)]
          exact hV hs

end M2S.Nspc
