import Verif.Proofs.TrackLoop
/-
The clock of `Track::new` and the time its commands really take.
-/
namespace M2S
open Timing

theorem slack_bounds (q p : Nat) : 24 * (q * p / 24) ≤ q * p ∧ q * p ≤ 24 * (q * p / 24) + slack p := by
  unfold slack
  split_ifs with h
  · obtain ⟨k, hk⟩ : ∃ k, p = 24 * k := ⟨p / 24, by omega⟩
    subst hk
    have : q * (24 * k) = 24 * (q * k) := by ring
    rw [this]
    omega
  · omega

/-- Commands that are neither note nor tie do not change what is heard. -/
theorem listen_quiet (c : PCmd) (h1 : ∀ p, c.command ≠ .note p) (h2 : c.command ≠ .tie) (s : Nat × List Span) :
    listen s c = (s.1 + units c, s.2) := by
  unfold listen
  obtain ⟨d, v, su, cmd⟩ := c
  cases cmd <;> simp_all

theorem heard_quiet (cs : List PCmd) (h : ∀ c ∈ cs, (∀ p, c.command ≠ .note p) ∧ c.command ≠ .tie) (s : Nat × List Span) :
    cs.foldl listen s = (s.1 + total cs, s.2) := by
  induction cs generalizing s with
  | nil => simp [total]
  | cons c cs ih =>
    rw [List.foldl_cons, listen_quiet c (h c (by simp)).1 (h c (by simp)).2, ih (fun x hx => h x (by simp [hx])), total_cons]
    simp [Nat.add_assoc]

theorem heard_ties (cs : List PCmd) (h : ∀ c ∈ cs, c.command = .tie) (t : Nat) (x : Span) (l : List Span) (hx : x.stop = t) :
    cs.foldl listen (t, x :: l) = (t + total cs, { x with stop := t + total cs } :: l) := by
  induction cs generalizing t x with
  | nil => subst hx; simp [total]
  | cons c cs ih =>
    have hc := h c (by simp)
    rw [List.foldl_cons]
    have : listen (t, x :: l) c = (t + units c, { x with stop := t + units c } :: l) := by
      unfold listen; rw [hc]
    rw [this, ih (fun y hy => h y (by simp [hy])) (t + units c) ⟨x.start, t + units c, x.pitch, x.velocity⟩ rfl, total_cons]
    simp [Nat.add_assoc]

theorem heard_group (pi v : UInt8) (d : Duration) (s : Nat × List Span) :
    (noteGroup (.note pi) v d).foldl listen s =
      (s.1 + total (noteGroup (.note pi) v d), ⟨s.1, s.1 + total (noteGroup (.note pi) v d), pi, some (v / 8)⟩ :: s.2) := by
  unfold noteGroup
  rw [List.foldl_cons]
  have h : ∀ c : PCmd, c.command = .note pi → listen s c = (s.1 + units c, ⟨s.1, s.1 + units c, pi, c.velocity⟩ :: s.2) := by
    intro c hc; unfold listen; rw [hc]
  rw [h _ rfl, heard_ties (noteTies d) ?_ _ ⟨s.1, _, pi, some (v / 8)⟩ s.2 rfl, total_cons]
  · simp [Nat.add_assoc]
  · intro c hc
    simp only [noteTies, List.mem_map] at hc
    obtain ⟨i, -, rfl⟩ := hc
    rfl

theorem heard_fst (cs : List PCmd) (s : Nat × List Span) : (cs.foldl listen s).1 = s.1 + total cs := by
  induction cs generalizing s with
  | nil => simp [total]
  | cons c cs ih =>
    rw [List.foldl_cons, ih, total_cons]
    have : (listen s c).1 = s.1 + units c := by
      unfold listen
      dsimp only
      split <;> rfl
    rw [this, Nat.add_assoc]

theorem spans_quiet (a b : List PCmd) (h : ∀ c ∈ b, (∀ p, c.command ≠ .note p) ∧ c.command ≠ .tie) : spans (a ++ b) = spans a := by
  unfold spans; rw [List.foldl_append, heard_quiet b h]

theorem spans_group (a : List PCmd) (pi v : UInt8) (d : Duration) :
    spans (a ++ noteGroup (.note pi) v d) =
      spans a ++ [⟨total a, total a + total (noteGroup (.note pi) v d), pi, some (v / 8)⟩] := by
  unfold spans
  rw [List.foldl_append, heard_group, heard_fst]
  simp

theorem restsOf_quiet (d : Duration) : ∀ c ∈ restsOf d, (∀ p, c.command ≠ .note p) ∧ c.command ≠ .tie := by
  intro c hc
  unfold restsOf at hc
  rw [List.mem_append] at hc
  rcases hc with hc | hc
  · rw [List.eq_of_mem_replicate hc]; simp [restCmd]
  · split_ifs at hc
    · simp only [List.mem_singleton] at hc; subst hc; simp [restCmd]
    · simp at hc

theorem slides_quiet (sl : List PCmd) (h : ∀ c ∈ sl, c.isSlide = true) :
    ∀ c ∈ sl, (∀ p, c.command ≠ .note p) ∧ c.command ≠ .tie := by
  intro c hc
  have := h c hc
  obtain ⟨d, v, s, cmd⟩ := c
  cases cmd <;> simp_all [PCmd.isSlide]

theorem slides_total (sl : List PCmd) (h : ∀ c ∈ sl, c.isSlide = true) (h2 : ∀ c ∈ sl, CmdOk c) : total sl = 0 := by
  induction sl with
  | nil => rfl
  | cons c cs ih =>
    rw [total_cons, ih (fun x hx => h x (by simp [hx])) (fun x hx => h2 x (by simp [hx]))]
    have h1 := h c (by simp)
    have h3 := (h2 c (by simp)).dur
    obtain ⟨d, v, s, cmd⟩ := c
    cases cmd <;> simp_all [PCmd.isSlide, durOk, units]

/-- The clock and the emitted durations agree up to `slack` per event; a note in progress started at the clock. -/
structure Sync (p g : Nat) (o : Option Nat) (st : TrackState) : Prop where
  lo : 24 * st.lastNoteEnd ≤ total st.commands * p
  hi : total st.commands * p ≤ 24 * st.lastNoteEnd + slack p * g
  start : ∀ s, st.noteStart = some s → s = st.lastNoteEnd
  lag : ∀ on, o = some on → 24 * on < 24 * st.lastNoteEnd + p + slack p

theorem sync_init (p : Nat) : Sync p 0 none {} := ⟨by simp, by simp [total], by simp, by simp⟩

/-- Adding a rest or a note group keeps the clock in step. -/
theorem sync_add (p g e x q : Nat) (h1 : 24 * e ≤ x * p) (h2 : x * p ≤ 24 * e + slack p * g) :
    24 * (e + q * p / 24) ≤ (x + q) * p ∧ (x + q) * p ≤ 24 * (e + q * p / 24) + slack p * (g + 1) := by
  have := slack_bounds q p
  rw [Nat.add_mul, Nat.mul_add, Nat.mul_add, Nat.mul_one]
  omega

theorem sync_mono (p g : Nat) (o : Option Nat) (st : TrackState) (h : Sync p g o st) : Sync p (g + 1) o st :=
  ⟨h.lo, by have := h.hi; rw [Nat.mul_add]; omega, h.start, h.lag⟩

/-- Appending commands without duration keeps the clock in step. -/
theorem sync_plain (p g : Nat) (o : Option Nat) (st st' : TrackState) (h : Sync p g o st) (ht : total st'.commands = total st.commands)
    (hc : st'.lastNoteEnd = st.lastNoteEnd) (hn : st'.noteStart = st.noteStart) : Sync p (g + 1) o st' := by
  have := sync_mono p g o st h
  exact ⟨by rw [ht, hc]; exact this.lo, by rw [ht, hc]; exact this.hi, by rw [hn, hc]; exact this.start, by rw [hc]; exact this.lag⟩

theorem total_restsOf_split (q x : Nat) (hq : q ≤ 32512) : total (restsOf (splitLength q x)) = q := by
  rw [total_restsOf]; exact (splitLength_spec q x hq).1

theorem total_group_split (cmd : Command) (v : UInt8) (q x : Nat) (hq : q ≤ 32512) : total (noteGroup cmd v (splitLength q x)) = q := by
  rw [total_noteGroup]; exact (splitLength_spec q x hq).1

theorem total_plain (cs : List PCmd) (c : Command) : total (cs ++ [plainCmd c]) = total cs := by
  rw [total_append]; simp [total, units, plainCmd]

theorem plain_quiet (c : Command) (h1 : ∀ p, c ≠ .note p) (h2 : c ≠ .tie) :
    ∀ x ∈ [plainCmd c], (∀ p, x.command ≠ .note p) ∧ x.command ≠ .tie := by
  intro x hx
  simp only [List.mem_singleton] at hx
  subst hx
  exact ⟨h1, h2⟩

/-- No portamento so far. -/
def Dry (st : TrackState) : Prop := st.portamento = false ∧ ∀ c ∈ st.commands, c.isSlide = false

theorem near_mono (p k k' : Nat) (h : k ≤ k') (x : Span) (n : MidiNote) (hn : Near p k x n) : Near p k' x n :=
  ⟨by have := hn.startLate; omega, by have := hn.startEarly; omega, by have := hn.stopLate; omega, hn.stopEarly, hn.pitch, hn.velocity⟩

/-- The open note-on with its velocity after an event, and the note that an event completes. -/
def openVel (o : Option (Nat × UInt8)) (ev : Message × Nat) : Option (Nat × UInt8) :=
  match ev.1 with
  | .midiEvent _ (.noteOn _ _ v) => o.or (some (ev.2, v))
  | .midiEvent _ (.noteOff _ _ _) => none
  | _ => o

def completed (o : Option (Nat × UInt8)) (ev : Message × Nat) : List MidiNote :=
  match o, ev.1 with
  | some (on, v), .midiEvent _ (.noteOff _ n _) => [⟨on, ev.2, n, v⟩]
  | _, _ => []

theorem midiNotes_cons (o : Option (Nat × UInt8)) (ev : Message × Nat) (evs : List (Message × Nat)) :
    midiNotes o (ev :: evs) = completed o ev ++ midiNotes (openVel o ev) evs := by
  obtain ⟨m, t⟩ := ev
  rcases m with ⟨dl, e, data⟩ | ⟨dl, e⟩ | ⟨dl, data⟩ | _ <;> try (rcases o with _ | ⟨on, v⟩ <;> rfl)
  cases e <;> (rcases o with _ | ⟨on, v⟩ <;> rfl)

theorem dry_last (st : TrackState) (h : Dry st) : (st.commands.getLast?).any PCmd.isSlide = false := by
  rcases hl : st.commands.getLast? with _ | c
  · rfl
  · simp [h.2 c (List.mem_of_getLast? hl)]

/-- One event: the clock stays in step, and what is heard grows by the completed note. -/
theorem sync_step (p G T : Nat) (f : F32) (hp : 0 < p) (hp2 : p < 65536) (hG : G + 3525 ≤ exactTicks p) (hG2 : 24 * (G + 1) ≤ 32511 * p) (hT : T < 2 ^ 31)
    (now adv g : Nat)
    (o : Option (Nat × UInt8)) (st st' : TrackState) (ev : Message × Nat) (evs : List (Message × Nat))
    (hv : voiceOk p G T now adv (o.map Prod.fst) (ev :: evs) = true)
    (hpr : programsBetweenNotes o.isSome (ev :: evs) = true)
    (hs : Safe p now adv (o.map Prod.fst) st) (hy : Sync p g (o.map Prod.fst) st) (hst : trackStep p f st ev = .ok st') :
    Sync p (g + 1) (openAfter (o.map Prod.fst) ev) st' ∧ programsBetweenNotes (openVel o ev).isSome evs = true ∧
      openAfter (o.map Prod.fst) ev = (openVel o ev).map Prod.fst ∧
      (Dry st → noPortamento [ev] = true → (∀ w, o = some w → st.noteVelocity = w.2) →
        Dry st' ∧ (∀ w, openVel o ev = some w → st'.noteVelocity = w.2) ∧
        ∃ new, spans st'.commands = spans st.commands ++ new ∧ List.Forall₂ (Near p (slack p * (g + 1))) new (completed o ev)) := by
  obtain ⟨m, t⟩ := ev
  have plain : ∀ (c : Command), (∀ p, c ≠ .note p) → c ≠ .tie → (∀ a b c', c ≠ .pitchSlide a b c') → st' = { st with commands := st.commands ++ [plainCmd c] } →
      Sync p (g + 1) (o.map Prod.fst) st' ∧ (Dry st → Dry st') ∧ spans st'.commands = spans st.commands := by
    intro c h1 h2 h3 h
    subst h
    refine ⟨sync_plain p g _ st _ hy (total_plain _ _) rfl rfl, ?_, spans_quiet _ _ (plain_quiet c h1 h2)⟩
    rintro ⟨d1, d2⟩
    refine ⟨d1, ?_⟩
    intro x hx
    rcases List.mem_append.1 hx with hx | hx
    · exact d2 x hx
    · simp only [List.mem_singleton] at hx
      subst hx
      cases c <;> simp_all [plainCmd, PCmd.isSlide]
  have same : st' = st → Sync p (g + 1) (o.map Prod.fst) st' ∧
      (Dry st → noPortamento [(m, t)] = true → (∀ w, o = some w → st.noteVelocity = w.2) →
        Dry st' ∧ (∀ w, o = some w → st'.noteVelocity = w.2) ∧
        ∃ new, spans st'.commands = spans st.commands ++ new ∧ List.Forall₂ (Near p (slack p * (g + 1))) new []) := by
    rintro rfl
    exact ⟨sync_mono _ _ _ _ hy, fun hd _ hw => ⟨hd, hw, [], by simp, .nil⟩⟩
  rcases m with ⟨dl, e, data⟩ | ⟨dl, e⟩ | ⟨dl, data⟩ | _
  · rcases e with _ | k
    · simp only [voiceOk, Bool.and_eq_true, decide_eq_true_eq] at hv
      obtain ⟨u, hu⟩ := usec_ok data hv.1
      have hstep : trackStep p f st (.metaEvent dl .setTempo data, t) =
          .ok { st with commands := st.commands ++ [plainCmd (.tempo (tempoByte u f))] } := by
        simp only [trackStep, hu]; rfl
      rw [hstep] at hst
      simp only [Except.ok.injEq] at hst
      obtain ⟨a, b, c⟩ := plain _ (by simp) (by simp) (by simp) hst.symm
      refine ⟨a, hpr, by cases o <;> rfl, fun hd _ hw => ⟨b hd, ?_, [], by simpa using c, by cases o <;> exact .nil⟩⟩
      intro w hw'
      rw [← hst]
      exact hw w hw'
    · simp only [trackStep, Except.ok.injEq] at hst
      obtain ⟨a, b⟩ := same hst.symm
      exact ⟨a, hpr, by cases o <;> rfl, by cases o <;> exact b⟩
  · rcases e with ⟨ch, n, v⟩ | ⟨ch, n, v⟩ | ⟨ch, n, v⟩ | ⟨ch, c, d⟩ | ⟨ch, pr⟩ | ⟨ch, pr⟩ | ⟨ch, x⟩ | ⟨ch⟩
    · -- note off
      simp only [voiceOk, Bool.and_eq_true, decide_eq_true_eq] at hv
      obtain ⟨⟨h1, h2⟩, hn, hv⟩ := hv
      have hn' : n.toNat ≤ 127 := by simpa [UInt8.le_iff_toNat_le] using hn
      rcases o with _ | ⟨on, vel⟩
      · have : st.noteStart = none := hs.idle rfl
        simp only [trackStep, trackNoteOff, this, Except.ok.injEq] at hst
        obtain ⟨a, b⟩ := same hst.symm
        exact ⟨a, hpr, rfl, b⟩
      · obtain ⟨ho1, s, hss, hsb, hsb2⟩ := hs.busy on rfl
        simp only [Option.map_some, Bool.and_eq_true, decide_eq_true_eq] at hv
        obtain ⟨⟨hlen, hgap⟩, h4⟩ := hv
        have hsc := hy.start s hss
        obtain ⟨cmd, hcmd, q, hq1, hq2, hstep⟩ := noteOff_eq p st n t s (by omega) (by omega) hp hp2 hn' hss (by omega)
        simp only [trackStep, hstep, Except.ok.injEq] at hst
        have hq : q ≤ 32512 := by
          by_contra hc
          have : 32513 * p ≤ q * p := Nat.mul_le_mul_right _ (by omega)
          omega
        subst hsc
        have hadd := sync_add p g _ _ q hy.lo hy.hi
        have htot : total st'.commands = total st.commands + q := by
          rw [← hst]
          simp only [total_append, total_group_split _ _ _ _ hq]
        have hclk : st'.lastNoteEnd = st.lastNoteEnd + q * p / 24 := by rw [← hst]
        refine ⟨⟨?_, ?_, ?_, ?_⟩, hpr, rfl, ?_⟩
        · rw [htot, hclk]; exact hadd.1
        · rw [htot, hclk]; exact hadd.2
        · rw [← hst]; simp
        · simp [openAfter]
        · intro hd hno hw
          have hcmd' : cmd = .note (n + 0x68) := by rw [hcmd, dry_last st hd]; simp
          subst hcmd'
          refine ⟨?_, by simp [openVel], [⟨total st.commands, total st.commands + q, n + 0x68, some (vel / 8)⟩], ?_, ?_⟩
          · rw [← hst]
            refine ⟨hd.1, ?_⟩
            intro x hx
            rcases List.mem_append.1 hx with hx | hx
            · exact hd.2 x hx
            · unfold noteGroup at hx
              rw [List.mem_cons] at hx
              rcases hx with rfl | hx
              · rfl
              · simp only [noteTies, List.mem_map] at hx
                obtain ⟨i, -, rfl⟩ := hx
                rfl
          · have := spans_group st.commands (n + 0x68) st.noteVelocity (splitLength q (q * p / 24))
            rw [total_group_split _ _ _ _ hq, hw _ rfl] at this
            rw [← hst]
            simp only [← this, hw _ rfl]
          · refine .cons ⟨?_, ?_, ?_, ?_, rfl, rfl⟩ .nil
            · have := hy.hi
              rw [Nat.mul_add]
              simp only
              omega
            · have := hy.lo
              have := hy.lag on rfl
              rw [Nat.mul_add]
              simp only
              omega
            · simp only
              have := hadd.2
              omega
            · simp only
              have := hadd.1
              omega
    · -- note on
      simp only [voiceOk, Bool.and_eq_true, decide_eq_true_eq, Option.isNone_iff_eq_none, Option.map_eq_none_iff] at hv
      obtain ⟨⟨h1, h2⟩, ⟨⟨⟨ho, hn⟩, hv'⟩, hgap⟩, h4⟩ := hv
      subst ho
      have hn' : n.toNat ≤ 127 := by simpa [UInt8.le_iff_toNat_le] using hn
      have hlag := hs.lag
      obtain ⟨rs, e', hr, hok, ⟨q, hrs, he', hqa, hqb⟩, hmax, -⟩ := insertRest_facts st.commands st.lastNoteEnd t p (by omega) (by omega) hp hp2 hs.cmds
      obtain ⟨sl, hsl, hsl2, hsl3, hstep⟩ := noteOn_eq p st n v t hp hp2 hn' (hs.idle rfl) hs.port rs e' hr
      simp only [trackStep, hstep, Except.ok.injEq] at hst
      have hq : q ≤ 32512 := by
        by_contra hc
        have h3 : 32513 * p ≤ q * p := Nat.mul_le_mul_right _ (by omega)
        rcases Nat.lt_or_ge st.lastNoteEnd t with hlt | hge
        · have := (hqb hlt).1; omega
        · have := hqa hge; omega
      have hadd := sync_add p g _ _ q hy.lo hy.hi
      have htot : total st'.commands = total st.commands + q := by
        rw [← hst]
        simp only [total_append, slides_total sl hsl2 hsl, hrs, total_restsOf_split _ _ hq, Nat.add_zero]
      refine ⟨⟨?_, ?_, ?_, ?_⟩, hpr, rfl, ?_⟩
      · rw [htot, ← hst]; simp only [he']; exact hadd.1
      · rw [htot, ← hst]; simp only [he']; exact hadd.2
      · rw [← hst]; simp
      · intro on hon
        simp only [openAfter, Option.some.injEq] at hon
        subst hon
        rw [← hst]
        simp only [he']
        have hsl := slack_bounds q p
        rcases Nat.lt_or_ge st.lastNoteEnd t with hlt | hge
        · have := (hqb hlt).2; omega
        · omega
      · intro hd hno hw
        have hsl0 := hsl3 hd.1
        subst hsl0
        refine ⟨?_, ?_, [], ?_, .nil⟩
        · rw [← hst]
          refine ⟨hd.1, ?_⟩
          intro x hx
          simp only [List.append_nil] at hx
          rcases List.mem_append.1 hx with hx | hx
          · exact hd.2 x hx
          · rw [hrs] at hx
            obtain ⟨u, rfl, -, -⟩ := restsOf_mem _ (splitLength_le q _) x hx
            rfl
        · rw [← hst]; simp [openVel]
        · rw [← hst]
          simp only [List.append_nil]
          exact spans_quiet _ _ (by rw [hrs]; exact restsOf_quiet _)
    · simp only [trackStep, Except.ok.injEq] at hst
      obtain ⟨a, b⟩ := same hst.symm
      exact ⟨a, hpr, by cases o <;> rfl, by cases o <;> exact b⟩
    · -- control change
      simp only [voiceOk, Bool.and_eq_true, decide_eq_true_eq] at hv
      obtain ⟨⟨h1, h2⟩, hd, h4⟩ := hv
      have hd' : d.toNat ≤ 127 := by simpa [UInt8.le_iff_toNat_le] using hd
      have hcomp : completed o (Message.midiEvent dl (.controlChange ch c d), t) = [] := by cases o <;> rfl
      rw [hcomp]
      by_cases h7 : c = 7
      · have hstep : trackStep p f st (.midiEvent dl (.controlChange ch c d), t) =
            .ok { st with commands := st.commands ++ [plainCmd (.channelVolume (d * 2))] } := by
          subst h7
          simp only [trackStep, trackControl, mulU8]
          rw [if_neg (by decide), if_pos trivial, if_pos (by simp; omega)]
          rfl
        rw [hstep] at hst
        simp only [Except.ok.injEq] at hst
        obtain ⟨a, b, e⟩ := plain _ (by simp) (by simp) (by simp) hst.symm
        refine ⟨a, hpr, rfl, fun hd _ hw => ⟨b hd, ?_, [], by simpa using e, .nil⟩⟩
        intro w hw'
        rw [← hst]
        exact hw w hw'
      · have hcmds : st'.commands = st.commands ∧ st'.lastNoteEnd = st.lastNoteEnd ∧ st'.noteStart = st.noteStart ∧
            st'.noteVelocity = st.noteVelocity ∧ (c = 65 → st'.portamento = decide (d ≥ 64)) ∧ (c ≠ 65 → st'.portamento = st.portamento) := by
          simp only [trackStep, trackControl] at hst
          split_ifs at hst with h5 h37 h65
          · simp only [Except.ok.injEq] at hst; subst hst; subst h5; simp
          · simp only [Except.ok.injEq] at hst; subst hst; subst h37; simp
          · simp only [Except.ok.injEq] at hst; subst hst; subst h65; simp
          · simp only [Except.ok.injEq] at hst; subst hst; simp [h65]
        obtain ⟨e1, e2, e3, e4, e5, e6⟩ := hcmds
        refine ⟨sync_plain p g _ st _ hy (by rw [e1]) e2 e3, hpr, rfl, fun hdry hno hw => ⟨⟨?_, by rw [e1]; exact hdry.2⟩, ?_, [], by rw [e1]; simp, .nil⟩⟩
        · by_cases h65 : c = 65
          · rw [e5 h65]
            subst h65
            simp [noPortamento] at hno
            simpa using hno
          · rw [e6 h65]; exact hdry.1
        · intro w hw'
          rw [e4]
          exact hw w hw'
    · -- program change
      simp only [programsBetweenNotes, Bool.and_eq_true, Bool.not_eq_true', Option.isSome_eq_false_iff, Option.isNone_iff_eq_none] at hpr
      obtain ⟨ho, hpr⟩ := hpr
      subst ho
      simp only [voiceOk, Bool.and_eq_true, decide_eq_true_eq] at hv
      obtain ⟨⟨h1, h2⟩, ⟨hpr1, hgap⟩, h4⟩ := hv
      have hpr' : pr.toNat ≤ 127 := by simpa [UInt8.le_iff_toNat_le] using hpr1
      have hlag := hs.lag
      obtain ⟨rs, e', hr, hok, ⟨q, hrs, he', hqa, hqb⟩, hmax, -⟩ := insertRest_facts st.commands st.lastNoteEnd t p (by omega) (by omega) hp hp2 hs.cmds
      obtain ⟨i, hstep⟩ := program_eq p st ch pr t hpr' rs e' hr
      simp only [trackStep, hstep, Except.ok.injEq] at hst
      have hq : q ≤ 32512 := by
        by_contra hc
        have h3 : 32513 * p ≤ q * p := Nat.mul_le_mul_right _ (by omega)
        rcases Nat.lt_or_ge st.lastNoteEnd t with hlt | hge
        · have := (hqb hlt).1; omega
        · have := hqa hge; omega
      have hadd := sync_add p g _ _ q hy.lo hy.hi
      have htot : total st'.commands = total st.commands + q := by
        rw [← hst]
        simp only [total_plain]
        rw [total_append, hrs, total_restsOf_split _ _ hq]
      have hidle : st.noteStart = none := hs.idle rfl
      refine ⟨⟨?_, ?_, ?_, ?_⟩, hpr, rfl, ?_⟩
      · rw [htot, ← hst]; simp only [he']; exact hadd.1
      · rw [htot, ← hst]; simp only [he']; exact hadd.2
      · rw [← hst]; simp [hidle]
      · simp [openAfter]
      · intro hd hno hw
        refine ⟨?_, by simp [openVel], [], ?_, .nil⟩
        · rw [← hst]
          refine ⟨hd.1, ?_⟩
          intro x hx
          rcases List.mem_append.1 hx with hx | hx
          · rcases List.mem_append.1 hx with hx | hx
            · exact hd.2 x hx
            · rw [hrs] at hx
              obtain ⟨u, rfl, -, -⟩ := restsOf_mem _ (splitLength_le q _) x hx
              rfl
          · simp only [List.mem_singleton] at hx
            subst hx
            rfl
        · rw [← hst]
          simp only [List.append_nil]
          rw [spans_quiet _ _ (plain_quiet _ (by simp) (by simp)), spans_quiet _ _ (by rw [hrs]; exact restsOf_quiet _)]
    · simp only [trackStep, Except.ok.injEq] at hst
      obtain ⟨a, b⟩ := same hst.symm
      exact ⟨a, hpr, by cases o <;> rfl, by cases o <;> exact b⟩
    · simp only [trackStep, Except.ok.injEq] at hst
      obtain ⟨a, b⟩ := same hst.symm
      exact ⟨a, hpr, by cases o <;> rfl, by cases o <;> exact b⟩
    · simp only [trackStep, Except.ok.injEq] at hst
      obtain ⟨a, b⟩ := same hst.symm
      exact ⟨a, hpr, by cases o <;> rfl, by cases o <;> exact b⟩
  all_goals
    simp only [trackStep, Except.ok.injEq] at hst
    obtain ⟨a, b⟩ := same hst.symm
    exact ⟨a, hpr, by cases o <;> rfl, by cases o <;> exact b⟩

/-- The whole loop. -/
theorem sync_loop (p G T : Nat) (f : F32) (hp : 0 < p) (hp2 : p < 65536) (hG : G + 3525 ≤ exactTicks p) (hG2 : 24 * (G + 1) ≤ 32511 * p) (hT : T < 2 ^ 31)
    (evs : List (Message × Nat)) :
    ∀ (now adv g : Nat) (o : Option (Nat × UInt8)) (st st' : TrackState), now ≤ T → voiceOk p G T now adv (o.map Prod.fst) evs = true →
      programsBetweenNotes o.isSome evs = true → Safe p now adv (o.map Prod.fst) st → Sync p g (o.map Prod.fst) st →
      evs.foldlM (trackStep p f) st = .ok st' →
      ∃ (now' adv' : Nat) (o' : Option (Nat × UInt8)), Safe p now' adv' (o'.map Prod.fst) st' ∧ Sync p (g + evs.length) (o'.map Prod.fst) st' ∧ now' ≤ T ∧ T - adv' ≤ G ∧
        (Dry st → noPortamento evs = true → (∀ w, o = some w → st.noteVelocity = w.2) →
          Dry st' ∧ ∃ new, spans st'.commands = spans st.commands ++ new ∧
            List.Forall₂ (Near p (slack p * (g + evs.length))) new (midiNotes o evs)) := by
  induction evs with
  | nil =>
    intro now adv g o st st' h1 hv _ hs hy hst
    simp only [List.foldlM_nil, pure, Except.pure, Except.ok.injEq] at hst
    subst hst
    exact ⟨now, adv, o, hs, by simpa using hy, h1, by simpa [voiceOk] using hv, fun hd _ _ => ⟨hd, [], by simp, by simp [midiNotes]⟩⟩
  | cons ev evs ih =>
    intro now adv g o st st' h0 hv hpr hs hy hst
    obtain ⟨st1, h1, h2, h3, h4, h5⟩ := safe_step p G T f hp hp2 hG hT now adv _ st ev evs hv hs
    simp only [List.foldlM_cons, h1] at hst
    obtain ⟨k1, k2, k3, k4⟩ := sync_step p G T f hp hp2 hG hG2 hT now adv g o st st1 ev evs hv hpr hs hy h1
    rw [k3] at h2 h3 k1
    obtain ⟨n', a', o', i1, i2, i3, i3', i4⟩ := ih _ _ _ _ _ _ (h5 h0) h3 k2 h2 k1 hst
    refine ⟨n', a', o', i1, ?_, i3, i3', ?_⟩
    · rw [List.length_cons, show g + (evs.length + 1) = g + 1 + evs.length by omega]; exact i2
    · intro hd hno hw
      have hno1 : noPortamento [ev] = true := by simp only [noPortamento, List.all_cons, Bool.and_eq_true, List.all_nil] at hno ⊢; exact ⟨hno.1, trivial⟩
      have hno2 : noPortamento evs = true := by simp only [noPortamento, List.all_cons, Bool.and_eq_true] at hno ⊢; exact hno.2
      obtain ⟨d1, d2, new1, d3, d4⟩ := k4 hd hno1 hw
      obtain ⟨e1, new2, e2, e3⟩ := i4 d1 hno2 d2
      refine ⟨e1, new1 ++ new2, by rw [e2, d3, List.append_assoc], ?_⟩
      rw [midiNotes_cons]
      apply List.rel_append
      · exact d4.imp (fun x n hn => near_mono p _ _ (Nat.mul_le_mul_left _ (by simp)) x n hn)
      · rw [List.length_cons, show g + (evs.length + 1) = g + 1 + evs.length by omega]; exact e3

end M2S
