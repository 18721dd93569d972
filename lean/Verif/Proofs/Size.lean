import Verif.Spec.Size
import Verif.Proofs.Bytes
import Verif.Proofs.Held
import Verif.Proofs.TrackNew
/-
Bounds on the bytes of converted tracks.
-/
namespace M2S
open MidiSpec Timing Nspc

/-- The most bytes a command can take. -/
def cost (c : PCmd) : Nat :=
  (if c.velocity.isSome ∨ c.sustain.isSome ∨ c.command.isNote then 2 else if c.duration.isSome then 1 else 0) + (cmdBytes placeholder c.command).length

def costs (cs : List PCmd) : Nat := (cs.map cost).sum

theorem costs_append (a b : List PCmd) : costs (a ++ b) = costs a + costs b := by simp [costs]

theorem size_le_costs (cs : List PCmd) : ∀ (d : UInt8) (vs : Option UInt8), size cs d vs ≤ costs cs := by
  induction cs with
  | nil => intro d vs; simp [size, encBytes, costs]
  | cons c cs ih =>
    intro d vs
    rw [size_cons]
    have h := ih (c.duration.getD d) (nextVS c vs)
    have hp : (preBytes c d vs).length ≤ if c.velocity.isSome ∨ c.sustain.isSome ∨ c.command.isNote then 2 else if c.duration.isSome then 1 else 0 := by
      have two : (preBytes c d vs).length ≤ 2 := by
        unfold preBytes
        rw [List.length_append]
        have one : ∀ o : Option UInt8, o.toList.length ≤ 1 := by intro o; cases o <;> simp
        have := one (preParts c d vs).1
        have := one (preParts c d vs).2
        omega
      split_ifs with h1 h2
      · exact two
      all_goals
        simp only [not_or, Bool.not_eq_true, Option.isSome_eq_false_iff, Option.isNone_iff_eq_none] at h1
        have hv : c.velSus vs = none := by unfold PCmd.velSus; rw [h1.1, h1.2.1]; rfl
        have e : preParts c d vs = (durToWrite c d, none) := by
          unfold preParts
          rw [hv]
          simp only [h1.2.2]
          cases durToWrite c d <;> cases vs <;> rfl
        unfold preBytes
        rw [e]
      · cases durToWrite c d <;> simp
      · have : durToWrite c d = none := by
          unfold durToWrite
          cases hd : c.duration with
          | none => rfl
          | some x => simp [hd] at h2
        rw [this]; simp
    unfold costs cost at *
    rw [List.map_cons, List.sum_cons]
    omega

theorem fused_costs {a b : List PCmd} (h : Fused a b) : costs b ≤ costs a := by
  induction h with
  | nil => exact le_rfl
  | keep c _ ih => unfold costs at *; simp only [List.map_cons, List.sum_cons]; omega
  | fuse p dn dr s dt vn sn vr sr _ _ _ _ _ ih =>
    have e : ∀ x y z, cost ⟨x, y, z, .note p⟩ = 3 := by intro x y z; simp [cost, Command.isNote, cmdBytes, encodeCmd]
    unfold costs at *
    simp only [List.map_cons, List.sum_cons, e]
    omega

/-- Commands that take at most `2 / 127` bytes per unit, and `w` bytes besides. -/
def SizedBy (w : Nat) (cs : List PCmd) : Prop := 127 * costs cs ≤ 127 * w + 2 * Timing.total cs

theorem total_append' (a b : List PCmd) : Timing.total (a ++ b) = Timing.total a + Timing.total b := by simp [Timing.total]

theorem SizedBy.append {w v : Nat} {a b : List PCmd} (ha : SizedBy w a) (hb : SizedBy v b) : SizedBy (w + v) (a ++ b) := by
  unfold SizedBy at *
  rw [costs_append, total_append']
  omega

theorem SizedBy.mono {w v : Nat} {a : List PCmd} (ha : SizedBy w a) (h : w ≤ v) : SizedBy v a := by
  unfold SizedBy at *
  omega

theorem within_nil : SizedBy 0 [] := by simp [SizedBy, costs]

theorem within_rests (n : Nat) : SizedBy 0 (List.replicate n (restCmd 0x7f)) := by
  have e : cost (restCmd 0x7f) = 2 := by decide
  have e2 : units (restCmd 0x7f) = 127 := by decide
  unfold SizedBy costs Timing.total
  rw [List.map_replicate, List.map_replicate, List.sum_replicate, List.sum_replicate, e, e2]
  simp only [smul_eq_mul]
  omega

theorem within_one (c : PCmd) : SizedBy (cost c) [c] := by
  unfold SizedBy costs Timing.total
  simp

theorem cost_rest (d : UInt8) : cost (restCmd d) = 2 := rfl

/-- A rest takes two bytes besides its full pieces. -/
theorem within_insertRest (cs : List PCmd) (w e t p : Nat) (cs' : List PCmd) (e' : Nat) (h : SizedBy w cs) (hr : insertRest cs e t p = .ok (cs', e')) :
    SizedBy (w + 2) cs' := by
  unfold insertRest at hr
  split_ifs at hr with h1
  · rw [res_bind] at hr
    obtain ⟨d, -, hr⟩ := hr
    rw [res_bind] at hr
    obtain ⟨t', -, hr⟩ := hr
    rw [res_pure] at hr
    simp only [Prod.mk.injEq] at hr
    rw [← hr.1]
    split_ifs
    · exact ((h.append (within_rests _)).append (within_one _)).mono (by rw [cost_rest])
    · exact (h.append (within_rests _)).mono (by omega)
  · rw [res_pure] at hr
    simp only [Prod.mk.injEq] at hr
    rw [← hr.1]
    exact h.mono (by omega)

/-- A note takes three bytes besides its full pieces. -/
theorem within_note (d : Duration) (v s : UInt8) (cmd : Command) (hc : (cmdBytes placeholder cmd).length = 1) :
    SizedBy 3 (⟨some (if d.overflowCount > 0 then 0x7f else d.length), some v, some s, cmd⟩ :: noteTies d) := by
  have hf : ∀ x, cost ⟨some x, some v, some s, cmd⟩ = 3 := by intro x; unfold cost; simp [hc]
  have ht : ∀ x, cost ⟨some x, none, none, .tie⟩ = 2 := fun x => rfl
  cases hk : d.overflowCount with
  | zero =>
    unfold noteTies
    rw [hk]
    exact (within_one _).mono (by rw [hf])
  | succ n =>
    have e : noteTies d = List.replicate n ⟨some 0x7f, none, none, .tie⟩ ++ [⟨some d.length, none, none, .tie⟩] := by
      unfold noteTies
      rw [hk, List.range_succ, List.map_append, List.map_singleton]
      congr 1
      · rw [List.eq_replicate_iff]
        refine ⟨by simp, ?_⟩
        intro b hb
        obtain ⟨i, hi, rfl⟩ := List.mem_map.1 hb
        rw [List.mem_range] at hi
        rw [if_pos (by omega)]
      · rw [if_neg (by omega)]
    rw [e, if_pos (by omega)]
    unfold SizedBy costs Timing.total
    simp only [List.map_cons, List.sum_cons, List.map_append, List.sum_append, List.map_replicate, List.sum_replicate, smul_eq_mul, List.map_nil, List.sum_nil, hf, ht, units,
      Option.map_some, Option.getD_some]
    have : (0x7f : UInt8).toNat = 127 := rfl
    rw [this]
    omega

theorem within_step (glide : Bool) (p : Nat) (f : F32) (st st' : TrackState) (ev : Message × Nat) (w : Nat) (h : SizedBy w st.commands)
    (hg : st.portamento = true → glide = true) (hm : glideOn ev.1 = true → glide = true) (hs : trackStep p f st ev = .ok st') :
    SizedBy (w + eventBytes glide ev.1) st'.commands ∧ (st'.portamento = true → glide = true) := by
  obtain ⟨m, t⟩ := ev
  have same : ∀ {m : Message}, SizedBy (w + eventBytes glide m) st.commands := h.mono (by omega)
  cases m with
  | metaEvent dt k data =>
    cases k <;> simp only [trackStep] at hs
    case setTempo =>
      rw [res_bind] at hs
      obtain ⟨u, -, hs⟩ := hs
      rw [res_pure] at hs
      subst hs
      exact ⟨h.append (within_one _), hg⟩
    all_goals (cases hs; exact ⟨same, hg⟩)
  | sysEx dt data => simp only [trackStep] at hs; cases hs; exact ⟨same, hg⟩
  | trackChange => simp only [trackStep] at hs; cases hs; exact ⟨same, hg⟩
  | midiEvent dt e =>
    cases e with
    | noteOff ch note vel =>
      simp only [trackStep, trackNoteOff] at hs
      cases hn : st.noteStart with
      | none => rw [hn] at hs; cases hs; exact ⟨same, hg⟩
      | some s =>
        rw [hn] at hs
        simp only at hs
        rw [res_bind] at hs
        obtain ⟨q, -, hs⟩ := hs
        rw [res_bind] at hs
        obtain ⟨d, -, hs⟩ := hs
        have fin : ∀ cmd, (cmdBytes placeholder cmd).length = 1 → (do
            let t ← addU32 s d.quantizedTicks
            pure { st with commands := st.commands ++ (⟨some (if d.overflowCount > 0 then 0x7f else d.length), some (st.noteVelocity / 8), some 7, cmd⟩ : PCmd) :: noteTies d, lastNoteEnd := t, noteStart := none } : Res TrackState) = .ok st' →
            SizedBy (w + eventBytes glide (.midiEvent dt (.noteOff ch note vel))) st'.commands ∧ (st'.portamento = true → glide = true) := by
          intro cmd hc hs
          rw [res_bind] at hs
          obtain ⟨t', -, hs⟩ := hs
          rw [res_pure] at hs
          subst hs
          exact ⟨h.append (within_note d _ _ cmd hc), hg⟩
        cases hb : (st.commands.getLast?).any PCmd.isSlide with
        | true =>
          rw [hb] at hs
          simp only [if_true] at hs
          exact fin .tie rfl hs
        | false =>
          rw [hb] at hs
          simp only [Bool.false_eq_true, if_false] at hs
          rw [res_bind] at hs
          obtain ⟨n, -, hs⟩ := hs
          exact fin (.note n) rfl hs
    | noteOn ch note vel =>
      simp only [trackStep, trackNoteOn] at hs
      rw [res_bind] at hs
      obtain ⟨⟨cs, t'⟩, hr, hs⟩ := hs
      have h2 := within_insertRest _ _ _ _ _ _ _ h hr
      simp only at hs
      have fin : ∀ cs', SizedBy (w + eventBytes glide (.midiEvent dt (.noteOn ch note vel))) cs' →
          (if st.noteStart.isSome then failed .moreThanOneVoice
            else pure { st with commands := cs', lastNoteEnd := t', noteStart := some t', noteVelocity := vel } : Res TrackState) = .ok st' →
          SizedBy (w + eventBytes glide (.midiEvent dt (.noteOn ch note vel))) st'.commands ∧ (st'.portamento = true → glide = true) := by
        intro cs' hw hs
        split_ifs at hs with hq
        · simp [failed] at hs
        · rw [res_pure] at hs
          subst hs
          exact ⟨hw, hg⟩
      have plain : SizedBy (w + eventBytes glide (.midiEvent dt (.noteOn ch note vel))) cs := h2.mono (by simp only [eventBytes]; split_ifs <;> omega)
      cases hl : cs.getLast? with
      | none =>
        rw [hl] at hs
        exact fin cs plain hs
      | some last =>
        rw [hl] at hs
        simp only at hs
        cases hp : st.portamento with
        | false =>
          rw [hp] at hs
          simp only [Bool.false_eq_true, if_false] at hs
          exact fin cs plain (by simpa [hp] using hs)
        | true =>
          have hgl := hg hp
          rw [hp] at hs
          simp only [if_true] at hs
          rw [res_bind] at hs
          obtain ⟨d, -, hs⟩ := hs
          rw [res_bind] at hs
          obtain ⟨n, -, hs⟩ := hs
          refine fin _ ?_ (by simpa [hp] using hs)
          have hslide : SizedBy 4 (last.createPitchSlide d.length n).toList := by
            unfold PCmd.createPitchSlide
            have key : SizedBy 4 ((last.duration.map fun x => (⟨none, none, none, .pitchSlide (x - min d.length x) d.length n⟩ : PCmd)).toList) := by
              cases last.duration with
              | none => exact within_nil.mono (by omega)
              | some x => exact within_one _
            split
            · exact within_nil.mono (by omega)
            · exact key
          exact (h2.append hslide).mono (by simp only [eventBytes, hgl, if_true]; omega)
    | controlChange ch c x =>
      simp only [trackStep, trackControl] at hs
      split_ifs at hs with h1 h2 h3 h4
      · cases hs; exact ⟨same, hg⟩
      · rw [res_bind] at hs
        obtain ⟨u, -, hs⟩ := hs
        rw [res_pure] at hs
        subst hs
        refine ⟨?_, hg⟩
        simp only [eventBytes, h2, if_true]
        exact h.append (within_one _)
      · cases hs; exact ⟨same, hg⟩
      · cases hs
        refine ⟨same, fun hx => hm ?_⟩
        simp only [decide_eq_true_eq] at hx
        simp [glideOn, h4, hx]
      · cases hs; exact ⟨same, hg⟩
    | programChange ch pr =>
      simp only [trackStep, trackProgram] at hs
      rw [res_bind] at hs
      obtain ⟨⟨cs, t'⟩, hr, hs⟩ := hs
      have h2 := within_insertRest _ _ _ _ _ _ _ h hr
      simp only at hs
      have fin : ∀ i, (pure { st with commands := cs ++ [plainCmd (.setInstrument i)], lastNoteEnd := t' } : Res TrackState) = .ok st' →
          SizedBy (w + eventBytes glide (.midiEvent dt (.programChange ch pr))) st'.commands ∧ (st'.portamento = true → glide = true) := by
        intro i hs
        rw [res_pure] at hs
        subst hs
        exact ⟨(h2.append (within_one _)).mono (by simp only [eventBytes]; show w + 2 + 2 ≤ _; omega), hg⟩
      by_cases hch : ch = 9
      · rw [if_pos hch] at hs
        exact fin pr hs
      · rw [if_neg hch] at hs
        cases hi : Instr.instrumentMap[pr.toNat]? with
        | none => rw [hi] at hs; simp [panicked, bind, Except.bind] at hs
        | some i => rw [hi] at hs; exact fin i hs
    | polyphonicKeyPressure _ _ _ => simp only [trackStep] at hs; cases hs; exact ⟨same, hg⟩
    | channelPressure _ _ => simp only [trackStep] at hs; cases hs; exact ⟨same, hg⟩
    | pitchBendChange _ _ => simp only [trackStep] at hs; cases hs; exact ⟨same, hg⟩
    | unknown _ => simp only [trackStep] at hs; cases hs; exact ⟨same, hg⟩

theorem within_loop (glide : Bool) (p : Nat) (f : F32) (evs : List (Message × Nat)) : ∀ (st st' : TrackState) (w : Nat), SizedBy w st.commands →
    (st.portamento = true → glide = true) → (∀ ev ∈ evs, glideOn ev.1 = true → glide = true) → evs.foldlM (trackStep p f) st = .ok st' →
    SizedBy (w + (evs.map fun ev => eventBytes glide ev.1).sum) st'.commands := by
  induction evs with
  | nil =>
    intro st st' w h _ _ hs
    rw [List.foldlM_nil, res_pure] at hs
    subst hs
    exact h.mono (by omega)
  | cons ev evs ih =>
    intro st st' w h hg hm hs
    rw [List.foldlM_cons, res_bind] at hs
    obtain ⟨st1, h1, hs⟩ := hs
    obtain ⟨h2, h3⟩ := within_step glide p f st st1 ev w h hg (hm ev (by simp)) h1
    refine (ih st1 st' _ h2 h3 (fun e he => hm e (by simp [he])) hs).mono ?_
    rw [List.map_cons, List.sum_cons]
    omega

theorem within_track (glide : Bool) (p T : Nat) (f : F32) (evs : List (Message × Nat)) (cs : List PCmd) (hm : ∀ ev ∈ evs, glideOn ev.1 = true → glide = true)
    (h : trackNew evs p T f = .ok cs) : SizedBy ((evs.map fun ev => eventBytes glide ev.1).sum + 2) cs := by
  obtain ⟨st, cs0, h1, h2, h3, h4⟩ := trackNew_pre evs p T f cs h
  have hf := sustainPass_fused' cs0 cs h4 h3
  have hw := within_loop glide p f evs {} st 0 within_nil (by simp) hm h1
  rw [Nat.zero_add] at hw
  have h0 : SizedBy ((evs.map fun ev => eventBytes glide ev.1).sum + 2) cs0 := by
    rcases h2 with ⟨-, rfl⟩ | ⟨-, e, h2⟩
    · exact within_nil.mono (by omega)
    · exact within_insertRest _ _ _ _ _ _ _ hw h2
  unfold SizedBy at *
  rw [fused_total hf]
  have := fused_costs hf
  omega

end M2S
