import Verif.Proofs.TrackNew
import Verif.Proofs.Sustain
import Verif.Spec.Portamento
/-
Portamento only adds slides: the run with portamento and the run without, side by side.
-/
namespace M2S
open Timing

/-- The slide target pending after a command list. -/
def pend : Option UInt8 → List PCmd → Option UInt8
  | o, [] => o
  | _, c :: cs => pend (match c.command with
    | .pitchSlide _ _ p => some p
    | _ => none) cs

theorem unglide_append (a b : List PCmd) : ∀ o, unglide o (a ++ b) = unglide o a ++ unglide (pend o a) b := by
  induction a with
  | nil => intro o; rfl
  | cons c cs ih =>
    intro o
    obtain ⟨d, v, s, cmd⟩ := c
    cases cmd <;> simp only [List.cons_append, unglide, pend, ih]

theorem pend_append (a b : List PCmd) : ∀ o, pend o (a ++ b) = pend (pend o a) b := by
  induction a with
  | nil => intro o; rfl
  | cons c cs ih => intro o; simp only [List.cons_append, pend, ih]

/-- Neither slide nor tie. -/
def Solid (cs : List PCmd) : Prop := ∀ c ∈ cs, c.command ≠ .tie ∧ c.isSlide = false

theorem unglide_solid (cs : List PCmd) (h : Solid cs) : ∀ o, unglide o cs = cs := by
  induction cs with
  | nil => intro o; rfl
  | cons c cs ih =>
    intro o
    have h1 := h c (by simp)
    have ih := ih (fun x hx => h x (by simp [hx]))
    obtain ⟨d, v, s, cmd⟩ := c
    cases cmd <;> simp_all [unglide, PCmd.isSlide]

theorem unglide_ties (cs : List PCmd) (h : ∀ c ∈ cs, c.command = .tie) : unglide none cs = cs := by
  induction cs with
  | nil => rfl
  | cons c cs ih =>
    have h1 := h c (by simp)
    have ih := ih (fun x hx => h x (by simp [hx]))
    obtain ⟨d, v, s, cmd⟩ := c
    cases cmd <;> simp_all [unglide]

theorem pend_solid (cs : List PCmd) (h : ∀ c ∈ cs, c.isSlide = false) (hne : cs ≠ []) : ∀ o, pend o cs = none := by
  induction cs with
  | nil => exact absurd rfl hne
  | cons c cs ih =>
    intro o
    have h1 := h c (by simp)
    have e : (match c.command with
      | .pitchSlide _ _ p => some p
      | _ => none) = (none : Option UInt8) := by
      obtain ⟨d, v, s, cmd⟩ := c
      cases cmd <;> simp_all [PCmd.isSlide]
    rw [pend, e]
    rcases cs with _ | ⟨c', cs⟩
    · rfl
    · exact ih (fun x hx => h x (by simp [hx])) (by simp) _

theorem pend_last (cs : List PCmd) : (cs.getLast?).any PCmd.isSlide = (pend none cs).isSome := by
  rcases List.eq_nil_or_concat cs with rfl | ⟨l, c, rfl⟩
  · rfl
  · rw [List.concat_eq_append, pend_append]
    obtain ⟨d, v, s, cmd⟩ := c
    cases cmd <;> simp [pend, PCmd.isSlide]

/-- A voice with portamento always switched off. -/
def dryEv : Message × Nat → Message × Nat
  | (.midiEvent dl (.controlChange ch 65 _), t) => (.midiEvent dl (.controlChange ch 65 0), t)
  | ev => ev

theorem dryEv_other (m : Message) (t : Nat) (h : ∀ dl ch d, m ≠ .midiEvent dl (.controlChange ch 65 d)) : dryEv (m, t) = (m, t) := by
  unfold dryEv
  split
  · rename_i dl ch d t' heq
    simp only [Prod.mk.injEq] at heq
    exact absurd heq.1 (h _ _ _)
  · rfl

/-- Two runs, the first with portamento; `o` is the open note. -/
structure Twin (o : Option UInt8) (st st' : TrackState) : Prop where
  cmds : unglide none st.commands = st'.commands
  empty : st.commands = [] ↔ st'.commands = []
  start : st.noteStart = st'.noteStart
  vel : st.noteVelocity = st'.noteVelocity
  clock : st.lastNoteEnd = st'.lastNoteEnd
  port : st.portTime = st'.portTime
  dry : st'.portamento = false
  isOpen : st.noteStart.isSome = o.isSome
  target : ∀ p, pend none st.commands = some p → ∃ n, o = some n ∧ n.toNat + 0x68 < 256 ∧ p = n + 0x68

/-- The open note after an event. -/
def openNote (o : Option UInt8) (ev : Message × Nat) : Option UInt8 :=
  match ev.1 with
  | .midiEvent _ (.noteOn _ n _) => some n
  | .midiEvent _ (.noteOff _ _ _) => none
  | _ => o

theorem endsMatch_cons (o : Option UInt8) (ev : Message × Nat) (evs : List (Message × Nat)) (h : endsMatch o (ev :: evs) = true) :
    (∀ dl ch n v, ev.1 = .midiEvent dl (.noteOff ch n v) → o = none ∨ o = some n) ∧ endsMatch (openNote o ev) evs = true := by
  obtain ⟨m, t⟩ := ev
  rcases m with ⟨dl, e, data⟩ | ⟨dl, e⟩ | ⟨dl, data⟩ | _
  · exact ⟨by simp, h⟩
  · cases e <;> first | exact ⟨by simp, h⟩ | skip
    simp only [endsMatch, Bool.and_eq_true, Bool.or_eq_true, decide_eq_true_eq] at h
    refine ⟨?_, h.2⟩
    rintro dl' ch' n' v' heq
    simp only [Message.midiEvent.injEq, MidiEvent.noteOff.injEq] at heq
    obtain ⟨-, -, rfl, -⟩ := heq
    exact h.1
  · exact ⟨by simp, h⟩
  · exact ⟨by simp, h⟩

theorem insertRest_shape (cs cs' : List PCmd) (e t p e' : Nat) (h : insertRest cs e t p = .ok (cs', e')) :
    ∃ rs, cs' = cs ++ rs ∧ Solid rs ∧ ∀ cs2, insertRest cs2 e t p = .ok (cs2 ++ rs, e') := by
  unfold insertRest at h ⊢
  split_ifs at h ⊢ with hgt
  · simp only [res_bind, res_pure, Prod.mk.injEq] at h
    obtain ⟨d, hd, t', ht', h1, rfl⟩ := h
    refine ⟨restsOf d, ?_, ?_, ?_⟩
    · rw [← h1]; unfold restsOf; split_ifs <;> simp
    · intro c hc
      unfold restsOf at hc
      rw [List.mem_append] at hc
      rcases hc with hc | hc
      · rw [List.eq_of_mem_replicate hc]; simp [restCmd, PCmd.isSlide]
      · split_ifs at hc
        · simp only [List.mem_singleton] at hc; subst hc; simp [restCmd, PCmd.isSlide]
        · simp at hc
    · intro cs2
      simp only [hd, ht', bind, Except.bind, pure, Except.pure]
      unfold restsOf
      split_ifs <;> simp
  · simp only [res_pure, Prod.mk.injEq] at h
    obtain ⟨rfl, rfl⟩ := h
    exact ⟨[], by simp, by simp [Solid], fun cs2 => by simp [pure, Except.pure]⟩

theorem unglide_noSlide (cs : List PCmd) : ∀ o, ∀ c ∈ unglide o cs, c.isSlide = false := by
  induction cs with
  | nil => simp [unglide]
  | cons c cs ih =>
    intro o x hx
    obtain ⟨d, v, s, cmd⟩ := c
    cases cmd <;> simp only [unglide, List.mem_cons] at hx <;> first
      | exact ih _ x hx
      | (rcases hx with rfl | hx
         · first | rfl | (cases o <;> rfl)
         · exact ih _ x hx)

theorem pend_slides (cs : List PCmd) (o : Option PCmd) (t : UInt8) (n : UInt8) (last : PCmd) (ho : o = last.createPitchSlide t n) :
    unglide none o.toList = [] ∧ ∀ w, (w = pend none cs) → ∀ p, pend w o.toList = some p → p = n ∨ (o = none ∧ w = some p) := by
  subst ho
  unfold PCmd.createPitchSlide
  split
  · exact ⟨rfl, fun w _ p hp => .inr ⟨rfl, hp⟩⟩
  · rcases last.duration with _ | d'
    · exact ⟨rfl, fun w _ p hp => .inr ⟨rfl, hp⟩⟩
    · refine ⟨rfl, fun w _ p hp => .inl ?_⟩
      simp only [Option.map_some, Option.toList_some, pend, Option.some.injEq] at hp
      exact hp.symm

/-- Appending commands that are neither slides nor ties to both. -/
theorem twin_append (st st' : TrackState) (o : Option UInt8) (h : Twin o st st') (rs : List PCmd) (hr : Solid rs) :
    unglide none (st.commands ++ rs) = st'.commands ++ rs ∧ (st.commands ++ rs = [] ↔ st'.commands ++ rs = []) ∧
    (∀ p, pend none (st.commands ++ rs) = some p → pend none st.commands = some p) := by
  refine ⟨by rw [unglide_append, unglide_solid rs hr, h.cmds], by simp [h.empty], ?_⟩
  intro p hp
  rw [pend_append] at hp
  rcases rs with _ | ⟨c, rs⟩
  · exact hp
  · rw [pend_solid _ (fun c hc => (hr c hc).2) (by simp)] at hp
    simp at hp

theorem twin_step (p : Nat) (f : F32) (o : Option UInt8) (st st' st1 : TrackState) (ev : Message × Nat) (evs : List (Message × Nat))
    (h : Twin o st st') (hm : endsMatch o (ev :: evs) = true) (hst : trackStep p f st ev = .ok st1) :
    ∃ st1', trackStep p f st' (dryEv ev) = .ok st1' ∧ Twin (openNote o ev) st1 st1' := by
  obtain ⟨hm1, -⟩ := endsMatch_cons o ev evs hm
  obtain ⟨m, t⟩ := ev
  have plain : ∀ c : Command, (∀ a b d, c ≠ .pitchSlide a b d) → c ≠ .tie → st1 = { st with commands := st.commands ++ [plainCmd c] } →
      Twin o st1 { st' with commands := st'.commands ++ [plainCmd c] } := by
    rintro c h1 h2 rfl
    have hs : Solid [plainCmd c] := by
      intro x hx
      simp only [List.mem_singleton] at hx
      subst hx
      cases c <;> simp_all [plainCmd, PCmd.isSlide]
    obtain ⟨e1, e2, e3⟩ := twin_append st st' o h _ hs
    exact ⟨e1, e2, h.start, h.vel, h.clock, h.port, h.dry, h.isOpen, fun q hq => h.target q (e3 q hq)⟩
  rcases m with ⟨dl, e, data⟩ | ⟨dl, e⟩ | ⟨dl, data⟩ | _
  · rw [dryEv_other _ _ (by simp)]
    rcases e with _ | k
    · simp only [trackStep, res_bind, res_pure] at hst ⊢
      obtain ⟨u, hu, hst⟩ := hst
      exact ⟨_, ⟨u, hu, rfl⟩, plain _ (by simp) (by simp) hst.symm⟩
    · simp only [trackStep, Except.ok.injEq] at hst ⊢
      subst hst
      exact ⟨_, rfl, h⟩
  · rcases e with ⟨ch, n, v⟩ | ⟨ch, n, v⟩ | ⟨ch, n, v⟩ | ⟨ch, c, d⟩ | ⟨ch, pr⟩ | ⟨ch, pr⟩ | ⟨ch, x⟩ | ⟨ch⟩
    · rw [dryEv_other _ _ (by simp)]
      simp only [trackStep, trackNoteOff] at hst ⊢
      rw [← h.start]
      rcases hs : st.noteStart with _ | s
      · rw [hs] at hst
        simp only [Except.ok.injEq] at hst
        subst hst
        have ho : o = none := by have := h.isOpen; rw [hs] at this; cases o <;> [rfl; cases this]
        subst ho
        exact ⟨_, rfl, h⟩
      · rw [hs] at hst
        have ho : o = some n := by
          have := h.isOpen
          rw [hs] at this
          rcases hm1 dl ch n v rfl with h1 | h1
          · rw [h1] at this; simp at this
          · exact h1
        have hlast' : (st'.commands.getLast?).any PCmd.isSlide = false := by
          rcases hl : st'.commands.getLast? with _ | c
          · rfl
          · have := List.mem_of_getLast? hl
            rw [← h.cmds] at this
            simp [unglide_noSlide _ _ c this]
        have hties : ∀ d : Duration, ∀ c ∈ noteTies d, c.command = .tie := by
          intro d c hc
          simp only [noteTies, List.mem_map] at hc
          obtain ⟨i, -, rfl⟩ := hc
          rfl
        have hpl := pend_last st.commands
        simp only [hlast', Bool.false_eq_true, if_false]
        rcases hb : (st.commands.getLast?).any PCmd.isSlide with _ | _
        · simp only [hb, Bool.false_eq_true, if_false, res_bind, res_pure] at hst
          obtain ⟨dt, h1, d, h2, m, h3, cmd, rfl, t', h4, rfl⟩ := hst
          refine ⟨_, by simp only [h1, h2, h3, h4, bind, Except.bind, pure, Except.pure]; rfl, ?_⟩
          refine ⟨?_, by simp, rfl, h.vel, rfl, h.port, h.dry, rfl, ?_⟩
          · simp only [unglide_append, h.cmds, unglide, unglide_ties _ (hties d), h.vel]
          · intro q hq
            simp only [pend_append] at hq
            rw [pend_solid _ ?_ (by simp)] at hq
            · simp at hq
            · intro c hc
              rcases List.mem_cons.1 hc with rfl | hc
              · rfl
              · have := hties d c hc
                simp [PCmd.isSlide, this]
        · simp only [hb, if_true, res_bind, res_pure] at hst
          obtain ⟨dt, h1, d, h2, cmd, rfl, t', h4, rfl⟩ := hst
          rw [hb] at hpl
          obtain ⟨q, hq⟩ := Option.isSome_iff_exists.1 hpl.symm
          obtain ⟨n', ho', hn', rfl⟩ := h.target q hq
          rw [ho] at ho'
          injection ho' with ho'
          subst ho'
          have h3 : addU8 n 0x68 = .ok (n + 0x68) := by
            unfold addU8
            rw [if_pos (by simpa using hn')]
          refine ⟨_, by simp only [h1, h2, h3, h4, bind, Except.bind, pure, Except.pure]; rfl, ?_⟩
          refine ⟨?_, by simp, rfl, h.vel, rfl, h.port, h.dry, rfl, ?_⟩
          · simp only [unglide_append, h.cmds, hq, unglide, unglide_ties _ (hties d), h.vel]
          · intro q hq
            simp only [pend_append] at hq
            rw [pend_solid _ ?_ (by simp)] at hq
            · simp at hq
            · intro c hc
              rcases List.mem_cons.1 hc with rfl | hc
              · rfl
              · have := hties d c hc
                simp [PCmd.isSlide, this]
    · rw [dryEv_other _ _ (by simp)]
      simp only [trackStep, trackNoteOn, res_bind] at hst
      obtain ⟨⟨cs, t'⟩, h1, hst⟩ := hst
      obtain ⟨rs, rfl, hrs, hr2⟩ := insertRest_shape _ _ _ _ _ _ h1
      obtain ⟨e1, e2, e3⟩ := twin_append st st' o h rs hrs
      simp only at hst
      cases hns : st.noteStart with
      | some s =>
        simp only [hns, Option.isSome_some, if_true] at hst
        cases hl : (st.commands ++ rs).getLast? with
        | none => rw [hl] at hst; cases hst
        | some last =>
          rw [hl] at hst
          cases hpm : st.portamento with
          | false => rw [hpm] at hst; cases hst
          | true =>
            simp only [hpm, if_true, res_bind] at hst
            obtain ⟨-, -, -, -, -, -, hst⟩ := hst
            cases hst
      | none =>
        simp only [hns, Option.isSome_none, Bool.false_eq_true, if_false] at hst
        have key : ∃ sl : Option PCmd, st1 = { st with commands := st.commands ++ rs ++ sl.toList, lastNoteEnd := t', noteStart := some t', noteVelocity := v } ∧
            (sl = none ∨ ∃ last d n', (st.commands ++ rs).getLast? = some last ∧ addU8 n 0x68 = .ok n' ∧ sl = last.createPitchSlide d n') := by
          cases hl : (st.commands ++ rs).getLast? with
          | none =>
            rw [hl] at hst
            injection hst with hst
            exact ⟨none, by rw [← hst]; simp, .inl rfl⟩
          | some last =>
            rw [hl] at hst
            cases hpm : st.portamento with
            | false =>
              rw [hpm] at hst
              injection hst with hst
              exact ⟨none, by rw [← hst]; simp, .inl rfl⟩
            | true =>
              simp only [hpm, if_true, res_bind, res_pure] at hst
              obtain ⟨d, h4, n', h5, cs', rfl, rfl⟩ := hst
              exact ⟨_, rfl, .inr ⟨last, _, n', rfl, h5, rfl⟩⟩
        obtain ⟨sl, rfl, hsl⟩ := key
        have hr2' := hr2 st'.commands
        rw [h.clock] at hr2'
        have hns' : st'.noteStart = none := by rw [← h.start]; exact hns
        have ho : o = none := by have := h.isOpen; rw [hns] at this; cases o <;> [rfl; cases this]
        have hd := h.dry
        have hpn : pend none (st.commands ++ rs) = none := by
          cases hp : pend none (st.commands ++ rs) with
          | none => rfl
          | some q =>
            obtain ⟨n', hn', -⟩ := h.target q (e3 q hp)
            rw [ho] at hn'
            cases hn'
        refine ⟨{ st' with commands := st'.commands ++ rs, lastNoteEnd := t', noteStart := some t', noteVelocity := v }, ?_, ?_⟩
        · simp only [trackStep, trackNoteOn, hr2', bind, Except.bind, hns', hd, Bool.false_eq_true, if_false, Option.isSome_none]
          split <;> rfl
        · rcases hsl with rfl | ⟨last, d, n', hl, h5, rfl⟩
          · simp only [Option.toList_none, List.append_nil]
            exact ⟨e1, e2, rfl, rfl, rfl, h.port, h.dry, rfl, fun q hq => by simp only at hq; rw [hpn] at hq; cases hq⟩
          · have hn' : n.toNat + 0x68 < 256 ∧ n' = n + 0x68 := by
              unfold addU8 at h5
              split_ifs at h5 with hlt
              · injection h5 with h5
                exact ⟨by simpa using hlt, h5.symm⟩
              · cases h5
            obtain ⟨g1, g2⟩ := pend_slides (st.commands ++ rs) _ d n' last rfl
            refine ⟨?_, ?_, rfl, rfl, rfl, h.port, h.dry, rfl, ?_⟩
            · simp only [unglide_append _ (last.createPitchSlide d n').toList, hpn, g1, e1, List.append_nil]
            · have hne : st.commands ++ rs ≠ [] := by intro h0; rw [h0] at hl; cases hl
              constructor
              · intro h0
                exact absurd (List.append_eq_nil_iff.1 h0).1 hne
              · intro h0
                exact absurd (e2.2 h0) hne
            · intro q hq
              simp only [pend_append _ (last.createPitchSlide d n').toList] at hq
              rcases g2 _ rfl q hq with h0 | ⟨-, h0⟩
              · exact ⟨n, rfl, hn'.1, by rw [h0, hn'.2]⟩
              · rw [hpn] at h0; cases h0
    · rw [dryEv_other _ _ (by simp)]
      simp only [trackStep, Except.ok.injEq] at hst ⊢
      subst hst
      exact ⟨_, rfl, h⟩
    · by_cases h65 : c = 65
      · subst h65
        have hst' : st1 = { st with portamento := decide (d ≥ 64) } := by
          simp only [trackStep, trackControl] at hst
          rw [if_neg (by decide), if_neg (by decide), if_neg (by decide), if_pos trivial] at hst
          injection hst with hst
          exact hst.symm
        subst hst'
        refine ⟨st', ?_, ⟨h.cmds, h.empty, h.start, h.vel, h.clock, h.port, h.dry, h.isOpen, h.target⟩⟩
        simp only [dryEv, trackStep, trackControl]
        rw [if_neg (by decide), if_neg (by decide), if_neg (by decide), if_pos trivial]
        have hd := h.dry
        obtain ⟨a1, a2, a3, a4, a5, a6⟩ := st'
        simp only at hd
        subst hd
        rfl
      · rw [dryEv_other _ _ (by simp [h65])]
        simp only [trackStep, trackControl] at hst ⊢
        by_cases h5 : c = 5
        · rw [if_pos h5] at hst ⊢
          injection hst with hst
          subst hst
          exact ⟨_, rfl, ⟨h.cmds, h.empty, h.start, h.vel, h.clock, by simp only [h.port], h.dry, h.isOpen, h.target⟩⟩
        · rw [if_neg h5] at hst ⊢
          by_cases h7 : c = 7
          · rw [if_pos h7] at hst ⊢
            simp only [res_bind, res_pure] at hst ⊢
            obtain ⟨u, hu, hst⟩ := hst
            exact ⟨_, ⟨u, hu, rfl⟩, plain _ (by simp) (by simp) hst.symm⟩
          · rw [if_neg h7] at hst ⊢
            by_cases h37 : c = 37
            · rw [if_pos h37] at hst ⊢
              injection hst with hst
              subst hst
              exact ⟨_, rfl, ⟨h.cmds, h.empty, h.start, h.vel, h.clock, by simp only [h.port], h.dry, h.isOpen, h.target⟩⟩
            · rw [if_neg h37, if_neg h65] at hst ⊢
              injection hst with hst
              subst hst
              exact ⟨_, rfl, h⟩
    · rw [dryEv_other _ _ (by simp)]
      simp only [trackStep, trackProgram, res_bind] at hst
      obtain ⟨⟨cs, t'⟩, h1, hst⟩ := hst
      obtain ⟨rs, rfl, hrs, hr2⟩ := insertRest_shape _ _ _ _ _ _ h1
      have hr2' := hr2 st'.commands
      rw [h.clock] at hr2'
      have key : ∃ i, st1 = { st with commands := st.commands ++ rs ++ [plainCmd (.setInstrument i)], lastNoteEnd := t' } ∧
          trackStep p f st' (.midiEvent dl (.programChange ch pr), t) =
            .ok { st' with commands := st'.commands ++ rs ++ [plainCmd (.setInstrument i)], lastNoteEnd := t' } := by
        simp only [trackStep, trackProgram, hr2', bind, Except.bind] at hst ⊢
        split_ifs at hst ⊢
        · injection hst with hst
          exact ⟨_, hst.symm, rfl⟩
        · cases hi : Instr.instrumentMap[pr.toNat]? with
          | none => rw [hi] at hst; cases hst
          | some i =>
            rw [hi] at hst
            injection hst with hst
            exact ⟨_, hst.symm, rfl⟩
      obtain ⟨i, rfl, hst'⟩ := key
      have hs : Solid (rs ++ [plainCmd (.setInstrument i)]) := by
        intro x hx
        rcases List.mem_append.1 hx with hx | hx
        · exact hrs x hx
        · simp only [List.mem_singleton] at hx
          subst hx
          exact ⟨by simp [plainCmd], rfl⟩
      obtain ⟨e1, e2, e3⟩ := twin_append st st' o h _ hs
      simp only [← List.append_assoc] at e1 e2 e3
      exact ⟨_, hst', e1, e2, h.start, h.vel, rfl, h.port, h.dry, h.isOpen, fun q hq => h.target q (e3 q hq)⟩
    all_goals
      rw [dryEv_other _ _ (by simp)]
      simp only [trackStep, Except.ok.injEq] at hst ⊢
      subst hst
      exact ⟨_, rfl, h⟩
  all_goals
    rw [dryEv_other _ _ (by simp)]
    simp only [trackStep, Except.ok.injEq] at hst ⊢
    subst hst
    exact ⟨_, rfl, h⟩

theorem twin_loop (p : Nat) (f : F32) (evs : List (Message × Nat)) : ∀ (o : Option UInt8) (st st' st1 : TrackState), Twin o st st' →
    endsMatch o evs = true → evs.foldlM (trackStep p f) st = .ok st1 →
    ∃ o' st1', (evs.map dryEv).foldlM (trackStep p f) st' = .ok st1' ∧ Twin o' st1 st1' := by
  induction evs with
  | nil =>
    intro o st st' st1 h _ hst
    simp only [List.foldlM_nil, res_pure] at hst
    subst hst
    exact ⟨o, st', rfl, h⟩
  | cons ev evs ih =>
    intro o st st' st1 h hm hst
    simp only [List.foldlM_cons, res_bind] at hst
    obtain ⟨st2, h1, h2⟩ := hst
    obtain ⟨st2', h3, h4⟩ := twin_step p f o st st' st2 ev evs h hm h1
    obtain ⟨o', st1', h5, h6⟩ := ih _ _ _ _ h4 (endsMatch_cons o ev evs hm).2 h2
    refine ⟨o', st1', ?_, h6⟩
    rw [List.map_cons, List.foldlM_cons, h3]
    exact h5

theorem twin_init : Twin none {} {} := ⟨rfl, Iff.rfl, rfl, rfl, rfl, rfl, rfl, rfl, by simp [pend]⟩

/-! The dry voice has the same notes. -/

theorem dryEv_cases (ev : Message × Nat) : dryEv ev = ev ∨ ∃ dl ch d t, ev = (.midiEvent dl (.controlChange ch 65 d), t) ∧ dryEv ev = (.midiEvent dl (.controlChange ch 65 0), t) := by
  unfold dryEv
  split
  · exact .inr ⟨_, _, _, _, rfl, rfl⟩
  · exact .inl rfl

theorem dry_notes (evs : List (Message × Nat)) : ∀ o, midiNotes o (evs.map dryEv) = midiNotes o evs := by
  induction evs with
  | nil => intro o; rfl
  | cons ev evs ih =>
    intro o
    rw [List.map_cons]
    rcases dryEv_cases ev with h | ⟨dl, ch, d, t, rfl, h⟩
    · rw [h, midiNotes_cons, midiNotes_cons, ih]
    · rw [h, midiNotes_cons, midiNotes_cons, ih]
      cases o <;> rfl

theorem dry_noPortamento (evs : List (Message × Nat)) : noPortamento (evs.map dryEv) = true := by
  unfold noPortamento
  rw [List.all_map, List.all_eq_true]
  rintro ⟨m, t⟩ -
  simp only [Function.comp]
  by_cases h : ∃ dl ch d, m = .midiEvent dl (.controlChange ch 65 d)
  · obtain ⟨dl, ch, d, rfl⟩ := h
    simp [dryEv]
  · rw [dryEv_other m t (fun dl ch d hm => h ⟨dl, ch, d, hm⟩)]
    simp only
    split
    · rename_i dl ch d
      exact absurd ⟨dl, ch, d, rfl⟩ h
    · rfl

theorem dry_programs (evs : List (Message × Nat)) : ∀ b, programsBetweenNotes b (evs.map dryEv) = programsBetweenNotes b evs := by
  induction evs with
  | nil => intro o; rfl
  | cons ev evs ih =>
    intro b
    rw [List.map_cons]
    rcases dryEv_cases ev with h | ⟨dl, ch, d, t, rfl, h⟩
    · rw [h]
      obtain ⟨m, t⟩ := ev
      rcases m with ⟨dl, e, data⟩ | ⟨dl, e⟩ | ⟨dl, data⟩ | _ <;> try exact ih b
      cases e <;> simp only [programsBetweenNotes, ih]
    · rw [h]
      simp only [programsBetweenNotes, ih]

theorem dry_ok (p G T : Nat) (evs : List (Message × Nat)) : ∀ now adv o, voiceOk p G T now adv o evs = true → voiceOk p G T now adv o (evs.map dryEv) = true := by
  induction evs with
  | nil => intro now adv o h; exact h
  | cons ev evs ih =>
    intro now adv o hv
    rw [List.map_cons]
    rcases dryEv_cases ev with h | ⟨dl, ch, d, t, rfl, h⟩
    · rw [h]
      obtain ⟨m, t⟩ := ev
      rcases m with ⟨dl, e, data⟩ | ⟨dl, e⟩ | ⟨dl, data⟩ | _
      · cases e <;> simp only [voiceOk, Bool.and_eq_true] at hv ⊢
        · exact ⟨hv.1, ih _ _ _ hv.2⟩
        · exact ih _ _ _ hv
      · cases e <;> simp only [voiceOk, Bool.and_eq_true] at hv ⊢
        case noteOff =>
          refine ⟨hv.1, hv.2.1, ?_⟩
          have := hv.2.2
          cases o <;> simp only [Bool.and_eq_true] at this ⊢
          · exact ih _ _ _ this
          · exact ⟨this.1, ih _ _ _ this.2⟩
        case polyphonicKeyPressure => exact ⟨hv.1, ih _ _ _ hv.2⟩
        case channelPressure => exact ⟨hv.1, ih _ _ _ hv.2⟩
        case pitchBendChange => exact ⟨hv.1, ih _ _ _ hv.2⟩
        case unknown => exact ⟨hv.1, ih _ _ _ hv.2⟩
        all_goals exact ⟨hv.1, hv.2.1, ih _ _ _ hv.2.2⟩
      · exact ih _ _ _ hv
      · exact ih _ _ _ hv
    · rw [h]
      simp only [voiceOk, Bool.and_eq_true] at hv ⊢
      exact ⟨hv.1, by decide, ih _ _ _ hv.2.2⟩

theorem unglide_fused {a b : List PCmd} (h : Fused a b) : ∀ o, Fused (unglide o a) (unglide o b) := by
  induction h with
  | nil => intro o; exact .nil
  | keep c _ ih =>
    intro o
    obtain ⟨d, v, s, cmd⟩ := c
    cases cmd <;> simp only [unglide] <;> first | exact ih _ | exact .keep _ (ih _)
  | fuse p dn dr s dt vn sn vr sr h1 h2 h3 h4 _ ih =>
    intro o
    simp only [unglide]
    exact .fuse p dn dr s dt vn sn vr sr h1 h2 h3 h4 (ih _)

/-- A well-formed voice whose notes are ended by their own note number: with slides written as notes, the commands before the sustain pass are those of the voice with portamento
switched off. -/
theorem trackNew_portamento (evs : List (Message × Nat)) (p G T : Nat) (f : F32) (hp : 0 < p) (hp2 : p < 65536) (hG : G + 3525 ≤ exactTicks p)
    (hG2 : 24 * (G + 1) ≤ 32511 * p) (hT : T < 2 ^ 31) (hv : voiceOk p G T 0 0 none evs = true) (hpr : programsBetweenNotes false evs = true)
    (hm : endsMatch none evs = true) :
    ∃ cs0 cs, trackNew evs p T f = .ok cs ∧ Fused cs0 cs ∧
      List.Forall₂ (Near p (slack p * evs.length)) (spans (unglide none cs0)) (midiNotes none evs) := by
  obtain ⟨st, cs0, cs, h1, h2, h3, h4, -, -⟩ := trackNew_state evs p G T f hp hp2 hG hT hv
  obtain ⟨st', cs0', cs', g1, g2, g3, g4, -, g6⟩ := trackNew_state (evs.map dryEv) p G T f hp hp2 hG hT (dry_ok _ _ _ _ _ _ _ hv)
  obtain ⟨o', st1', k1, k2⟩ := twin_loop p f evs none {} {} st twin_init hm h1
  rw [g1] at k1
  injection k1 with k1
  subst k1
  have hsp := (g6 hG2 (by rw [dry_programs]; exact hpr)).2 (dry_noPortamento evs)
  rw [dry_notes, List.length_map] at hsp
  refine ⟨cs0, cs, h3, h4, ?_⟩
  have : spans (unglide none cs0) = spans cs0' := by
    rcases h2 with ⟨e1, rfl⟩ | ⟨e1, e', e2⟩
    · have := k2.empty.1 e1
      rcases g2 with ⟨-, rfl⟩ | ⟨e3, -⟩
      · rfl
      · exact absurd this e3
    · rcases g2 with ⟨e3, -⟩ | ⟨-, e'', e4⟩
      · exact absurd (k2.empty.2 e3) e1
      · obtain ⟨rs, rfl, r1, r2⟩ := insertRest_shape _ _ _ _ _ _ e2
        have r3 := r2 st'.commands
        rw [k2.clock, e4] at r3
        injection r3 with r3
        simp only [Prod.mk.injEq] at r3
        rw [r3.1, unglide_append, unglide_solid _ r1, k2.cmds]
  rw [this]
  exact hsp

end M2S
