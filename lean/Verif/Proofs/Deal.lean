import Verif.Proofs.Merge
/-
Dealing events to voices, with the voices turned into a list of emitted messages: the voices are only ever appended to.
-/
namespace M2S
open MidiSpec

/-- The state of `channels_to_voices` without the voices. -/
structure Ctl where
  lastCtrl : Fin 16 → Option Message := fun _ => none
  lastProg : Fin 16 → Option Message := fun _ => none
  lastBend : Fin 16 → Option Message := fun _ => none
  lastChan : Fin 8 → Option (Fin 16)
  active : Fin 16 → List (UInt8 × Fin 8) := fun _ => []
  lastPerc : UInt8 := 0

def DealState.ctl (st : DealState) : Ctl := ⟨st.lastCtrl, st.lastProg, st.lastBend, st.lastChan, st.active, st.lastPerc⟩

/-- Messages sent to a channel's voices. -/
def outChannel (ord : EnumOrder) (base : Fin 16 → Fin 8) (k : Ctl) (ch : Fin 16) (m : Message) : List (Fin 8 × Message) :=
  ((ord (k.active ch)).map fun p => (p.2, m)) ++ if (ord (k.active ch)).any (fun p => p.2 = base ch) then [] else [(base ch, m)]

def outOpt (v : Fin 8) (m : Option Message) : List (Fin 8 × Message) := (m.map fun m => (v, m)).toList

def outSwitch (k : Ctl) (ch : Fin 16) (v : Fin 8) : List (Fin 8 × Message) :=
  if k.lastChan v ≠ some ch then outOpt v (k.lastCtrl ch) ++ outOpt v (k.lastProg ch) ++ outOpt v (k.lastBend ch) else []

def outPerc (k : Ctl) (d : Nat) (ch : Fin 16) (note : UInt8) (v : Fin 8) : List (Fin 8 × Message) :=
  if ch = 9 ∧ k.lastPerc ≠ percInstr note then [(v, .midiEvent d (.programChange ch (percInstr note)))] else []

/-- The note number written for a note of a channel. -/
def drumNote (ch : Fin 16) (note : UInt8) : UInt8 := if ch = 9 then percNote note else note

def outClose (k : Ctl) (d : Nat) (ch : Fin 16) (note vel : UInt8) : List (Fin 8 × Message) :=
  match (k.active ch).lookup note with
  | some v => [(v, .midiEvent d (.noteOff ch note vel))]
  | none => []

def ctlClose (k : Ctl) (ch : Fin 16) (note : UInt8) : Ctl :=
  match (k.active ch).lookup note with
  | some _ => { k with active := Function.update k.active ch (removeNote (k.active ch) note) }
  | none => k

/-- The state after a note-on on voice `v`. -/
def ctlOpen (k : Ctl) (d : Nat) (ch : Fin 16) (note : UInt8) (v : Fin 8) : Ctl :=
  { lastCtrl := k.lastCtrl
    lastProg := if ch = 9 ∧ k.lastPerc ≠ percInstr note then Function.update k.lastProg ch (some (.midiEvent d (.programChange ch (percInstr note)))) else k.lastProg
    lastBend := k.lastBend
    lastChan := Function.update k.lastChan v (some ch)
    active := Function.update k.active ch (insertNote (k.active ch) note v)
    lastPerc := if ch = 9 then percInstr note else k.lastPerc }

/-- The messages an event puts on voices, and the new state; `none` if no voice is free. -/
def emit (ord : EnumOrder) (base : Fin 16 → Fin 8) (k : Ctl) (m : Message) : Option (List (Fin 8 × Message) × Ctl) :=
  match m with
  | .metaEvent _ .setTempo _ => some ([(0, m)], k)
  | .metaEvent _ _ _ => some ([], k)
  | .midiEvent d e =>
    match e with
    | .noteOff ch note vel =>
      match (k.active ch).lookup note with
      | some v => some ([(v, .midiEvent d (.noteOff ch (drumNote ch note) vel))], ctlClose k ch note)
      | none => some ([], k)
    | .noteOn ch note vel =>
      if vel > 0 then
        match chooseVoice base (ctlClose k ch note).active ch with
        | none => none
        | some v =>
          some (outClose k d ch note vel ++ (outSwitch k ch v ++ outPerc k d ch note v ++ [(v, .midiEvent d (.noteOn ch (drumNote ch note) vel))]),
            ctlOpen (ctlClose k ch note) d ch note v)
      else some (outClose k d ch note vel, ctlClose k ch note)
    | .polyphonicKeyPressure ch note _ =>
      match (k.active ch).lookup note with
      | some v => some ([(v, m)], k)
      | none => some ([], k)
    | .controlChange ch control _ =>
      some (outChannel ord base k ch m, if control = 7 then { k with lastCtrl := Function.update k.lastCtrl ch (some m) } else k)
    | .programChange ch _ => some (outChannel ord base k ch m, { k with lastProg := Function.update k.lastProg ch (some m) })
    | .channelPressure ch _ => some (outChannel ord base k ch m, k)
    | .pitchBendChange ch _ => some (outChannel ord base k ch m, { k with lastBend := Function.update k.lastBend ch (some m) })
    | .unknown _ => some ([], k)
  | .sysEx _ _ => some ([(0, m)], k)
  | .trackChange => some ([], k)

/-- What a list of emitted messages puts on voice `v`. -/
def onVoice {α : Type} (outs : List (Fin 8 × α)) (v : Fin 8) : List α := (outs.filter fun p => p.1 = v).map (·.2)

theorem onVoice_append {α : Type} (a b : List (Fin 8 × α)) (v : Fin 8) : onVoice (a ++ b) v = onVoice a v ++ onVoice b v := by
  simp [onVoice]

/-- A state with messages emitted at time `t` and another control state. -/
def DealState.after (st : DealState) (outs : List (Fin 8 × Message)) (t : Nat) (k : Ctl) : DealState :=
  { voices := fun v => st.voices v ++ (onVoice outs v).map fun m => (m, t)
    lastCtrl := k.lastCtrl, lastProg := k.lastProg, lastBend := k.lastBend, lastChan := k.lastChan, active := k.active, lastPerc := k.lastPerc }

theorem after_nil (st : DealState) (t : Nat) : st.after [] t st.ctl = st := by
  unfold DealState.after DealState.ctl onVoice
  simp

theorem after_ctl (st : DealState) (outs : List (Fin 8 × Message)) (t : Nat) (k : Ctl) : (st.after outs t k).ctl = k := rfl

theorem after_append (st : DealState) (a b : List (Fin 8 × Message)) (t : Nat) (k k' : Ctl) :
    (st.after a t k).after b t k' = st.after (a ++ b) t k' := by
  unfold DealState.after
  simp [onVoice_append]

theorem push_after (st : DealState) (v : Fin 8) (m : Message) (t : Nat) : st.push v (m, t) = st.after [(v, m)] t st.ctl := by
  unfold DealState.push DealState.after DealState.ctl
  congr 1
  funext w
  by_cases h : w = v
  · subst h; simp [onVoice]
  · have : ¬ v = w := fun e => h e.symm
    simp [Function.update_of_ne h, onVoice, this]

theorem after_push (st : DealState) (outs : List (Fin 8 × Message)) (t : Nat) (k : Ctl) (v : Fin 8) (m : Message) :
    (st.after outs t k).push v (m, t) = st.after (outs ++ [(v, m)]) t k := by
  rw [push_after, after_append, after_ctl]

theorem after_pushOpt (st : DealState) (outs : List (Fin 8 × Message)) (t : Nat) (k : Ctl) (v : Fin 8) (m : Option Message) :
    (st.after outs t k).pushOpt v m t = st.after (outs ++ outOpt v m) t k := by
  cases m with
  | none => simp [DealState.pushOpt, outOpt]
  | some m => simp only [DealState.pushOpt, outOpt, after_push]; rfl

theorem close_after (st : DealState) (d : Nat) (ch : Fin 16) (note vel : UInt8) (t : Nat) :
    dealCloseSame st d ch note vel t = st.after (outClose st.ctl d ch note vel) t (ctlClose st.ctl ch note) := by
  unfold dealCloseSame outClose ctlClose
  simp only [show st.ctl.active = st.active from rfl]
  cases (st.active ch).lookup note with
  | none => exact (after_nil st t).symm
  | some v =>
    simp only
    rw [push_after]
    rfl

theorem switch_after (st : DealState) (outs : List (Fin 8 × Message)) (t : Nat) (k : Ctl) (ch : Fin 16) (v : Fin 8) :
    dealSwitchChannel (st.after outs t k) ch v t = st.after (outs ++ outSwitch k ch v) t { k with lastChan := Function.update k.lastChan v (some ch) } := by
  unfold dealSwitchChannel outSwitch
  by_cases h : k.lastChan v ≠ some ch
  · rw [if_pos (by exact h), if_pos h]
    rw [show (st.after outs t k).lastCtrl = k.lastCtrl from rfl, after_pushOpt]
    simp only
    rw [show (st.after (outs ++ outOpt v (k.lastCtrl ch)) t k).lastProg = k.lastProg from rfl, after_pushOpt]
    rw [show ∀ o, (st.after o t k).lastBend = k.lastBend from fun _ => rfl]
    simp only [after_pushOpt, List.append_assoc]
    rfl
  · rw [if_neg (by exact h), if_neg h]
    have : k.lastChan v = some ch := by simpa using h
    have e : Function.update k.lastChan v (some ch) = k.lastChan := by
      rw [← this]; exact Function.update_eq_self v k.lastChan
    rw [e]; simp

theorem perc_after (st : DealState) (outs : List (Fin 8 × Message)) (t : Nat) (k : Ctl) (d : Nat) (note : UInt8) (v : Fin 8) :
    dealPercussion (st.after outs t k) d 9 note v t = st.after (outs ++ outPerc k d 9 note v) t
      { k with lastProg := if k.lastPerc ≠ percInstr note then Function.update k.lastProg 9 (some (.midiEvent d (.programChange 9 (percInstr note)))) else k.lastProg
               lastPerc := percInstr note } := by
  unfold dealPercussion outPerc
  simp only
  by_cases h : k.lastPerc ≠ percInstr note
  · rw [if_pos (by exact h), if_pos ⟨trivial, h⟩, if_pos h]
    rw [push_after]
    rw [← after_append st outs _ t k]
    rfl
  · rw [if_neg (by exact h), if_neg (by tauto), if_neg h]
    have : k.lastPerc = percInstr note := by simpa using h
    rw [← this]; simp

theorem toChannel_after (ord : EnumOrder) (base : Fin 16 → Fin 8) (st : DealState) (ch : Fin 16) (m : Message) (t : Nat) :
    dealToChannel ord base st ch (m, t) = st.after (outChannel ord base st.ctl ch m) t st.ctl := by
  unfold dealToChannel outChannel
  have key : ∀ (l : List (UInt8 × Fin 8)) (o : List (Fin 8 × Message)),
      (l.map (·.2)).foldl (fun st v => st.push v (m, t)) (st.after o t st.ctl) = st.after (o ++ l.map fun p => (p.2, m)) t st.ctl := by
    intro l
    induction l with
    | nil => intro o; simp
    | cons p l ih => intro o; simp only [List.map_cons, List.foldl_cons, after_push, ih]; simp
  have h0 := key (ord (st.active ch)) []
  rw [after_nil] at h0
  simp only [show st.ctl.active = st.active from rfl]
  rw [h0]
  simp only [List.any_map, Function.comp_def, List.nil_append]
  split_ifs with h
  · simp
  · rw [after_push]

/-- Dealing an event is emitting. -/
theorem dealEvent_emit (ord : EnumOrder) (base : Fin 16 → Fin 8) (st : DealState) (m : Message) (t : Nat) :
    dealEvent ord base st (m, t) =
      match emit ord base st.ctl m with
      | none => failed .couldntFit
      | some (outs, k) => .ok (st.after outs t k) := by
  cases m with
  | metaEvent d e data =>
    cases e <;> simp only [dealEvent, emit, push_after, after_nil]
  | sysEx d data => simp only [dealEvent, emit, push_after]
  | trackChange => simp only [dealEvent, emit, after_nil]
  | midiEvent d e =>
    cases e with
    | unknown ch => simp only [dealEvent, emit, after_nil]
    | channelPressure ch v => simp only [dealEvent, emit, toChannel_after]
    | pitchBendChange ch v => simp only [dealEvent, emit, toChannel_after]; rfl
    | programChange ch v => simp only [dealEvent, emit, toChannel_after]; rfl
    | controlChange ch c v =>
      simp only [dealEvent, emit, toChannel_after]
      by_cases hc : c = 7
      · rw [if_pos hc, if_pos hc]; rfl
      · rw [if_neg hc, if_neg hc]
    | polyphonicKeyPressure ch n v =>
      simp only [dealEvent, emit, show st.ctl.active = st.active from rfl]
      cases (st.active ch).lookup n with
      | none => simp only [after_nil]
      | some w => simp only [push_after]
    | noteOff ch n v =>
      simp only [dealEvent, emit, dealNoteOff, show st.ctl.active = st.active from rfl]
      cases hl : (st.active ch).lookup n with
      | none => simp only [after_nil]
      | some w =>
        simp only [drumNote, ctlClose, show st.ctl.active = st.active from rfl, hl]
        split_ifs <;> rw [push_after] <;> rfl
    | noteOn ch n vel =>
      simp only [dealEvent, emit, dealNoteOn, close_after]
      by_cases hv : vel > 0
      · rw [if_pos hv, if_pos hv]
        rw [show (st.after (outClose st.ctl d ch n vel) t (ctlClose st.ctl ch n)).active = (ctlClose st.ctl ch n).active from rfl]
        cases hch : chooseVoice base (ctlClose st.ctl ch n).active ch with
        | none => rfl
        | some v =>
          simp only
          have e1 : ({ (st.after (outClose st.ctl d ch n vel) t (ctlClose st.ctl ch n)) with
              active := Function.update (ctlClose st.ctl ch n).active ch (insertNote ((ctlClose st.ctl ch n).active ch) n v) } : DealState)
              = st.after (outClose st.ctl d ch n vel) t { (ctlClose st.ctl ch n) with
                  active := Function.update (ctlClose st.ctl ch n).active ch (insertNote ((ctlClose st.ctl ch n).active ch) n v) } := rfl
          rw [e1, switch_after]
          have e2 : ∀ a, outSwitch { (ctlClose st.ctl ch n) with active := a } ch v = outSwitch st.ctl ch v := by
            intro a; unfold outSwitch ctlClose; split <;> rfl
          have e3 : ∀ a l, outPerc { (ctlClose st.ctl ch n) with active := a, lastChan := l } d ch n v = outPerc st.ctl d ch n v := by
            intro a l; unfold outPerc ctlClose; split <;> rfl
          rw [e2]
          by_cases h9 : ch = 9
          · subst h9
            rw [if_pos rfl, perc_after, after_push, e3]
            simp only [drumNote, if_pos]
            congr 1
            rw [List.append_assoc, List.append_assoc]
            simp only [ctlOpen, if_pos, true_and]
            rw [List.append_assoc]
          · rw [if_neg h9, after_push]
            simp only [drumNote, if_neg h9, outPerc, ctlOpen, h9, false_and, if_false, List.append_nil, List.append_assoc]
      · rw [if_neg hv, if_neg hv]

end M2S
