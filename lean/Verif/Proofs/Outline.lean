import Verif.Spec.Outline
import Verif.Proofs.Layout
import Verif.Proofs.Relabel
/-
Values of velocities, volumes, programs and tempos have no influence on anything else.
-/
namespace M2S
open MidiSpec Nspc

/-- Messages with the same outline. -/
inductive Akin : Message → Message → Prop
  | same (m) : Akin m m
  | off (d ch n v v') : Akin (.midiEvent d (.noteOff ch n v)) (.midiEvent d (.noteOff ch n v'))
  | on (d ch n v v') (h : v = 0 ↔ v' = 0) : Akin (.midiEvent d (.noteOn ch n v)) (.midiEvent d (.noteOn ch n v'))
  | program (d ch p p') : Akin (.midiEvent d (.programChange ch p)) (.midiEvent d (.programChange ch p'))
  | volume (d ch x x') : Akin (.midiEvent d (.controlChange ch 7 x)) (.midiEvent d (.controlChange ch 7 x'))
  | tempo (d data data') : Akin (.metaEvent d .setTempo data) (.metaEvent d .setTempo data')

theorem akin_of (m m' : Message) (h : outline m = outline m') : Akin m m' := by
  cases m with
  | midiEvent d e =>
    cases m' with
    | midiEvent d' e' =>
      cases e <;> cases e' <;> simp only [outline, Message.midiEvent.injEq, reduceCtorEq, and_false, MidiEvent.noteOff.injEq, MidiEvent.noteOn.injEq,
        MidiEvent.controlChange.injEq, MidiEvent.programChange.injEq, and_true, MidiEvent.polyphonicKeyPressure.injEq, MidiEvent.channelPressure.injEq,
        MidiEvent.pitchBendChange.injEq, MidiEvent.unknown.injEq] at h
      · obtain ⟨rfl, rfl, rfl⟩ := h; exact .off ..
      · obtain ⟨rfl, rfl, rfl, h⟩ := h
        refine .on _ _ _ _ _ ?_
        split at h <;> split at h <;> simp_all
      · obtain ⟨rfl, rfl, rfl, rfl⟩ := h; exact .same _
      · obtain ⟨rfl, rfl, rfl, h⟩ := h
        split at h
        · rename_i hc; subst hc; exact .volume ..
        · subst h; exact .same _
      · obtain ⟨rfl, rfl⟩ := h; exact .program ..
      · obtain ⟨rfl, rfl, rfl⟩ := h; exact .same _
      · obtain ⟨rfl, rfl, rfl⟩ := h; exact .same _
      · obtain ⟨rfl, rfl⟩ := h; exact .same _
    | metaEvent d' e' data' => cases e <;> cases e' <;> simp [outline] at h
    | _ => cases e <;> simp [outline] at h
  | metaEvent d e data =>
    cases m' with
    | metaEvent d' e' data' =>
      cases e <;> cases e' <;> simp only [outline, Message.metaEvent.injEq, reduceCtorEq, and_false, false_and, and_true, MetaEvent.other.injEq] at h
      · subst h; exact .tempo ..
      · obtain ⟨rfl, rfl, rfl⟩ := h; exact .same _
    | midiEvent d' e' => cases e <;> cases e' <;> simp [outline] at h
    | _ => cases e <;> simp [outline] at h
  | sysEx d data =>
    cases m' with
    | sysEx d' data' =>
      simp only [outline, Message.sysEx.injEq] at h
      obtain ⟨rfl, rfl⟩ := h
      exact .same _
    | midiEvent d' e' => cases e' <;> simp [outline] at h
    | metaEvent d' e' data' => cases e' <;> simp [outline] at h
    | trackChange => simp [outline] at h
  | trackChange =>
    cases m' with
    | trackChange => exact .same _
    | midiEvent d' e' => cases e' <;> simp [outline] at h
    | metaEvent d' e' data' => cases e' <;> simp [outline] at h
    | sysEx d' data' => simp [outline] at h

theorem home_outline (m : Message) : home (outline m) = home m := by
  cases m with
  | midiEvent d e => cases e <;> rfl
  | metaEvent d e data => cases e <;> rfl
  | _ => rfl

theorem priority_outline (m : Message) : priority (outline m) = priority m := by
  cases m with
  | midiEvent d e =>
    cases e with
    | noteOn ch n v => by_cases hv : v = 0 <;> simp [outline, priority, hv]
    | _ => rfl
  | metaEvent d e data => cases e <;> rfl
  | _ => rfl

theorem sort_outline (l : List TMsg) : sortMessages (l.map outlined) = (sortMessages l).map outlined := by
  unfold sortMessages
  refine (List.map_insertionSort (r := keyLe) (s := keyLe) outlined l fun a _ b _ => ?_).symm
  simp only [keyLe, outlined, priority_outline]

theorem ofChannel_outline (l : List TMsg) (c : Fin 16) : ofChannel (l.map outlined) c = (ofChannel l c).map outlined := by
  unfold ofChannel
  rw [List.filter_map]
  congr 1
  apply List.filter_congr
  intro m _
  simp [outlined, home_outline]

theorem scanMessage_outline (i : Fin 16) (s : ScanState) (m : TMsg) : scanMessage i s (outlined m) = scanMessage i s m := by
  obtain ⟨m, t⟩ := m
  cases m with
  | midiEvent d e =>
    cases e with
    | noteOn ch n v => by_cases hv : v = 0 <;> simp [outlined, outline, scanMessage, hv]
    | _ => rfl
  | metaEvent d e data => cases e <;> rfl
  | _ => rfl

theorem scanChannels_outline (cs : ChanMsgs) (t : Nat) : scanChannels (fun c => (cs c).map outlined) t = scanChannels cs t := by
  have h : ∀ i m0, scanChannel i ((cs i).map outlined) m0 = scanChannel i (cs i) m0 := by
    intro i m0
    unfold scanChannel
    rw [List.foldlM_map]
    simp only [scanMessage_outline]
  unfold scanChannels
  simp only [h]

/-! ## Dealing -/

/-- States of the dealing loop with the same outline. -/
structure LikeDeal (s s' : DealState) : Prop where
  voices : ∀ v, (s.voices v).map outlined = (s'.voices v).map outlined
  ctrl : ∀ c, (s.lastCtrl c).map outline = (s'.lastCtrl c).map outline
  prog : ∀ c, (s.lastProg c).map outline = (s'.lastProg c).map outline
  bend : ∀ c, (s.lastBend c).map outline = (s'.lastBend c).map outline
  chan : s.lastChan = s'.lastChan
  active : s.active = s'.active
  perc : s.lastPerc = s'.lastPerc

theorem LikeDeal.push {s s' : DealState} (h : LikeDeal s s') (v : Fin 8) (m m' : TMsg) (hm : outlined m = outlined m') : LikeDeal (s.push v m) (s'.push v m') := by
  refine { h with voices := fun w => ?_ }
  by_cases hw : w = v
  · subst hw
    simp only [DealState.push, Function.update_self, List.map_append, h.voices w, List.map_cons, hm, List.map_nil]
  · simp only [DealState.push, Function.update_of_ne hw, h.voices w]

theorem LikeDeal.pushOpt {s s' : DealState} (h : LikeDeal s s') (v : Fin 8) (o o' : Option Message) (t : Nat) (ho : o.map outline = o'.map outline) :
    LikeDeal (s.pushOpt v o t) (s'.pushOpt v o' t) := by
  cases o with
  | none =>
    cases o' with
    | none => exact h
    | some m' => simp at ho
  | some m =>
    cases o' with
    | none => simp at ho
    | some m' =>
      simp only [Option.map_some, Option.some.injEq] at ho
      exact h.push v (m, t) (m', t) (by simp [outlined, ho])

theorem LikeDeal.setActive {s s' : DealState} (h : LikeDeal s s') (a : Fin 16 → List (UInt8 × Fin 8)) : LikeDeal { s with active := a } { s' with active := a } :=
  ⟨h.voices, h.ctrl, h.prog, h.bend, h.chan, rfl, h.perc⟩

theorem LikeDeal.noteOff {s s' : DealState} (h : LikeDeal s s') (d : Nat) (ch : Fin 16) (n v v' : UInt8) (t : Nat) :
    LikeDeal (dealNoteOff s d ch n v t) (dealNoteOff s' d ch n v' t) := by
  unfold dealNoteOff
  rw [h.active]
  cases (s'.active ch).lookup n with
  | none => exact h
  | some w =>
    simp only
    split
    · exact (h.setActive _).push _ _ _ rfl
    · exact (h.setActive _).push _ _ _ rfl

theorem LikeDeal.closeSame {s s' : DealState} (h : LikeDeal s s') (d : Nat) (ch : Fin 16) (n v v' : UInt8) (t : Nat) :
    LikeDeal (dealCloseSame s d ch n v t) (dealCloseSame s' d ch n v' t) := by
  unfold dealCloseSame
  rw [h.active]
  cases (s'.active ch).lookup n with
  | none => exact h
  | some w => exact (h.setActive _).push _ _ _ rfl

theorem LikeDeal.switch {s s' : DealState} (h : LikeDeal s s') (ch : Fin 16) (v : Fin 8) (t : Nat) :
    LikeDeal (dealSwitchChannel s ch v t) (dealSwitchChannel s' ch v t) := by
  unfold dealSwitchChannel
  rw [h.chan]
  split
  · have h1 := h.pushOpt v _ _ t (h.ctrl ch)
    have h2 := h1.pushOpt v _ _ t (h1.prog ch)
    have h3 := h2.pushOpt v _ _ t (h2.bend ch)
    exact ⟨h3.voices, h3.ctrl, h3.prog, h3.bend, congrArg (fun f => Function.update f v (some ch)) h3.chan, h3.active, h3.perc⟩
  · exact h

theorem update_like {f g : Fin 16 → Option Message} (h : ∀ c, (f c).map outline = (g c).map outline) (c : Fin 16) (m m' : Message) (hm : outline m = outline m') (d : Fin 16) :
    (Function.update f c (some m) d).map outline = (Function.update g c (some m') d).map outline := by
  by_cases hd : d = c
  · subst hd; simp [hm]
  · simp [Function.update_of_ne hd, h d]

theorem LikeDeal.percussion {s s' : DealState} (h : LikeDeal s s') (d : Nat) (ch : Fin 16) (n : UInt8) (v : Fin 8) (t : Nat) :
    LikeDeal (dealPercussion s d ch n v t) (dealPercussion s' d ch n v t) := by
  unfold dealPercussion
  rw [h.perc]
  simp only
  split
  · refine LikeDeal.push ?_ _ _ _ rfl
    exact { h with prog := update_like h.prog _ _ _ rfl, perc := rfl }
  · exact h

theorem LikeDeal.toChannel {s s' : DealState} (h : LikeDeal s s') (ord : EnumOrder) (base : Fin 16 → Fin 8) (ch : Fin 16) (m m' : TMsg) (hm : outlined m = outlined m') :
    LikeDeal (dealToChannel ord base s ch m) (dealToChannel ord base s' ch m') := by
  unfold dealToChannel
  rw [h.active]
  generalize (ord (s'.active ch)).map (·.2) = vs
  have hf : ∀ (l : List (Fin 8)) (s s' : DealState), LikeDeal s s' → LikeDeal (l.foldl (fun st v => st.push v m) s) (l.foldl (fun st v => st.push v m') s') := by
    intro l
    induction l with
    | nil => intro s s' h; exact h
    | cons v l ih => intro s s' h; exact ih _ _ (h.push v _ _ hm)
  simp only
  split
  · exact hf vs s s' h
  · exact (hf vs s s' h).push _ _ _ hm

theorem LikeDeal.noteOn {s s' : DealState} (h : LikeDeal s s') (base : Fin 16 → Fin 8) (d : Nat) (ch : Fin 16) (n v v' : UInt8) (hv : v = 0 ↔ v' = 0) (t : Nat) :
    Both LikeDeal (dealNoteOn base s d ch n v t) (dealNoteOn base s' d ch n v' t) := by
  unfold dealNoteOn
  have hc := h.closeSame d ch n v v' t
  generalize dealCloseSame s d ch n v t = s at hc
  generalize dealCloseSame s' d ch n v' t = s' at hc
  have pos : ∀ v : UInt8, v > 0 ↔ ¬ v = 0 := fun v => by
    rw [gt_iff_lt, UInt8.lt_iff_toNat_lt, ← UInt8.toNat_inj]
    show 0 < v.toNat ↔ ¬ v.toNat = 0
    omega
  simp only [pos, hv]
  split
  · rw [hc.active]
    cases chooseVoice base s'.active ch with
    | none => exact .error _
    | some w =>
      simp only
      have h1 := (hc.setActive (Function.update s'.active ch (insertNote (s'.active ch) n w))).switch ch w t
      have he : ∀ k, outlined (.midiEvent d (.noteOn ch k v), t) = outlined (.midiEvent d (.noteOn ch k v'), t) := by
        intro k
        simp only [outlined, outline, hv]
      split
      · exact .ok ((h1.percussion d ch n w t).push w _ _ (he _))
      · exact .ok (h1.push w _ _ (he _))
  · exact .ok hc

theorem LikeDeal.event {s s' : DealState} (h : LikeDeal s s') (ord : EnumOrder) (base : Fin 16 → Fin 8) (m m' : TMsg) (hm : outlined m = outlined m') :
    Both LikeDeal (dealEvent ord base s m) (dealEvent ord base s' m') := by
  obtain ⟨m, t⟩ := m
  obtain ⟨m', t'⟩ := m'
  simp only [outlined, Prod.mk.injEq] at hm
  obtain ⟨ho, rfl⟩ := hm
  cases akin_of m m' ho with
  | off d ch n v v' => exact .ok (h.noteOff d ch n v v' t)
  | on d ch n v v' hv => exact h.noteOn base d ch n v v' hv t
  | program d ch p p' =>
    have h1 := h.toChannel ord base ch (.midiEvent d (.programChange ch p), t) (.midiEvent d (.programChange ch p'), t) rfl
    exact .ok { h1 with prog := update_like h1.prog _ _ _ rfl }
  | volume d ch x x' =>
    have h1 := h.toChannel ord base ch (.midiEvent d (.controlChange ch 7 x), t) (.midiEvent d (.controlChange ch 7 x'), t) rfl
    exact .ok { h1 with ctrl := update_like h1.ctrl _ _ _ rfl }
  | tempo d data data' => exact .ok (h.push 0 _ _ rfl)
  | same =>
    cases m with
    | metaEvent d e data =>
      cases e with
      | setTempo => exact .ok (h.push 0 _ _ rfl)
      | other kind => exact .ok h
    | midiEvent d e =>
      cases e with
      | noteOff ch n v => exact .ok (h.noteOff d ch n v v t)
      | noteOn ch n v => exact h.noteOn base d ch n v v Iff.rfl t
      | polyphonicKeyPressure ch n v =>
        simp only [dealEvent, h.active]
        cases (s'.active ch).lookup n with
        | none => exact .ok h
        | some w => exact .ok (h.push w _ _ rfl)
      | controlChange ch c x =>
        have h1 := h.toChannel ord base ch (.midiEvent d (.controlChange ch c x), t) _ rfl
        simp only [dealEvent]
        split
        · exact .ok { h1 with ctrl := update_like h1.ctrl _ _ _ rfl }
        · exact .ok h1
      | programChange ch x =>
        have h1 := h.toChannel ord base ch (.midiEvent d (.programChange ch x), t) _ rfl
        exact .ok { h1 with prog := update_like h1.prog _ _ _ rfl }
      | channelPressure ch x => exact .ok (h.toChannel ord base ch _ _ rfl)
      | pitchBendChange ch x =>
        have h1 := h.toChannel ord base ch (.midiEvent d (.pitchBendChange ch x), t) _ rfl
        exact .ok { h1 with bend := update_like h1.bend _ _ _ rfl }
      | unknown ch => exact .ok h
    | sysEx d data => exact .ok (h.push 0 _ _ rfl)
    | trackChange => exact .ok h

theorem headKey_outline {a b : List TMsg} (h : a.map outlined = b.map outlined) : headKey a = headKey b := by
  cases a with
  | nil =>
    cases b with
    | nil => rfl
    | cons y b => simp at h
  | cons x a =>
    cases b with
    | nil => simp at h
    | cons y b =>
      simp only [List.map_cons, List.cons.injEq, outlined, Prod.mk.injEq] at h
      simp only [headKey, sortKey, Prod.mk.injEq]
      exact ⟨h.1.2, by rw [← priority_outline, h.1.1, priority_outline]⟩

theorem merge_outline (ord : EnumOrder) (base : Fin 16 → Fin 8) (fuel : Nat) : ∀ (rem rem' : ChanMsgs) (done : Nat) (s s' : DealState),
    (∀ c, (rem c).map outlined = (rem' c).map outlined) → LikeDeal s s' → Both LikeDeal (mergeLoop ord base fuel rem done s) (mergeLoop ord base fuel rem' done s') := by
  induction fuel with
  | zero =>
    intro rem rem' done s s' _ h
    unfold mergeLoop
    split
    · exact .error _
    · exact .ok h
  | succ fuel ih =>
    intro rem rem' done s s' hr h
    unfold mergeLoop
    split
    · have hn : nextChannel rem = nextChannel rem' := by
        unfold nextChannel
        congr 1
        funext best i
        rw [headKey_outline (hr i), headKey_outline (hr best)]
      simp only [hn]
      generalize nextChannel rem' = c
      have hc := hr c
      cases e : rem c with
      | nil =>
        rw [e] at hc
        cases e' : rem' c with
        | nil => exact .error _
        | cons y l' => rw [e'] at hc; simp at hc
      | cons x l =>
        rw [e] at hc
        cases e' : rem' c with
        | nil => rw [e'] at hc; simp at hc
        | cons y l' =>
          rw [e'] at hc
          simp only [List.map_cons, List.cons.injEq] at hc
          refine (h.event ord base x y hc.1).bind fun s1 s1' h1 => ?_
          have hl : l.isEmpty = l'.isEmpty := by
            rw [← List.isEmpty_map (f := outlined) (l := l), hc.2, List.isEmpty_map]
          rw [hl]
          refine ih _ _ _ _ _ (fun d => ?_) h1
          by_cases hd : d = c
          · subst hd; simp [hc.2]
          · simp [Function.update_of_ne hd, hr d]
    · exact .ok h

theorem channelsToVoices_outline (ord : EnumOrder) (cs cs' : ChanMsgs) (h : ∀ c, (cs c).map outlined = (cs' c).map outlined) (base : Fin 16 → Fin 8) :
    Both (fun vs vs' => ∀ v, (vs v).map outlined = (vs' v).map outlined) (channelsToVoices ord cs base fun _ => []) (channelsToVoices ord cs' base fun _ => []) := by
  unfold channelsToVoices
  have hl : ∀ c, (cs c).length = (cs' c).length := fun c => by rw [← List.length_map (f := outlined), h c, List.length_map]
  have hc : countMsgs cs = countMsgs cs' := by unfold countMsgs; simp only [hl]
  have hd : (fun c => (cs c).isEmpty) = fun c => (cs' c).isEmpty := by
    funext c
    rw [← List.isEmpty_map (f := outlined), h c, List.isEmpty_map]
  rw [hc, hd]
  exact (merge_outline ord base _ cs cs' _ _ _ h ⟨fun _ => rfl, fun _ => rfl, fun _ => rfl, fun _ => rfl, rfl, rfl, rfl⟩).bind fun s s' h => .ok h.voices

/-! ## Voices to tracks -/

theorem both_refl {α : Type} {R : α → α → Prop} (hR : ∀ a, R a a) (x : Res α) : Both R x x := by
  cases x
  · exact .error _
  · exact .ok (hR _)

theorem both_same {α β γ : Type} {S : β → γ → Prop} (x : Res α) {f : α → Res β} {g : α → Res γ} (h : ∀ a, Both S (f a) (g a)) : Both S (x >>= f) (x >>= g) :=
  (both_refl (R := Eq) (fun _ => rfl) x).bind fun a b hab => hab ▸ h a

theorem isSlide_outline (c : PCmd) : (outlineCmd c).isSlide = c.isSlide := by
  obtain ⟨d, v, s, c⟩ := c
  cases c <;> rfl

theorem createPitchSlide_outline (c : PCmd) (x n : UInt8) : (outlineCmd c).createPitchSlide x n = c.createPitchSlide x n := by
  obtain ⟨d, v, s, c⟩ := c
  cases c <;> rfl

theorem setSustain_outline (c n : PCmd) : (outlineCmd c).setSustain (outlineCmd n) = (c.setSustain n).map fun x => (outlineCmd x.1, x.2) := by
  obtain ⟨d, v, s, c⟩ := c
  obtain ⟨d', v', s', c'⟩ := n
  cases c with
  | note x =>
    cases c' with
    | rest =>
      cases d with
      | none => rfl
      | some d =>
        cases d' with
        | none => rfl
        | some d' =>
          simp only [PCmd.setSustain, outlineCmd]
          split_ifs <;> rfl
    | _ => rfl
  | _ => cases c' <;> rfl

theorem sustainPass_outline (cs : List PCmd) : sustainPass (cs.map outlineCmd) = (sustainPass cs).map (List.map outlineCmd) := by
  induction cs using sustainPass.induct with
  | case1 => rfl
  | case2 c => rfl
  | case3 c n rest ih1 ih2 =>
    simp only [List.map_cons, sustainPass] at ih2 ⊢
    rw [setSustain_outline]
    cases c.setSustain n with
    | error e => rfl
    | ok x =>
      obtain ⟨c', b⟩ := x
      simp only [Except.map, bind, Except.bind]
      cases b with
      | true =>
        simp only [if_true, ih1]
        cases sustainPass rest <;> rfl
      | false =>
        simp only [Bool.false_eq_true, if_false]
        rw [ih2]
        cases sustainPass (n :: rest) <;> rfl

/-- Commands with the same outline. -/
def LikeCmds (l l' : List PCmd) : Prop := l.map outlineCmd = l'.map outlineCmd

theorem LikeCmds.append {a a' b b' : List PCmd} (h : LikeCmds a a') (k : LikeCmds b b') : LikeCmds (a ++ b) (a' ++ b') := by
  unfold LikeCmds at *
  rw [List.map_append, List.map_append, h, k]

theorem LikeCmds.last {l l' : List PCmd} (h : LikeCmds l l') : l.getLast?.map outlineCmd = l'.getLast?.map outlineCmd := by
  rw [← List.getLast?_map, h, List.getLast?_map]

theorem insertRest_outline {l l' : List PCmd} (h : LikeCmds l l') (e t p : Nat) :
    Both (fun r r' => LikeCmds r.1 r'.1 ∧ r.2 = r'.2) (insertRest l e t p) (insertRest l' e t p) := by
  unfold insertRest
  split
  · refine both_same _ fun d => ?_
    have h1 : LikeCmds (l ++ List.replicate d.overflowCount (restCmd 0x7f)) (l' ++ List.replicate d.overflowCount (restCmd 0x7f)) := h.append rfl
    split
    · refine both_same _ fun t => .ok ⟨h1.append rfl, rfl⟩
    · refine both_same _ fun t => .ok ⟨h1, rfl⟩
  · exact .ok ⟨h, rfl⟩

/-- States of the conversion of a voice with the same outline. -/
structure LikeTrack (s s' : TrackState) : Prop where
  commands : LikeCmds s.commands s'.commands
  start : s.noteStart = s'.noteStart
  clock : s.lastNoteEnd = s'.lastNoteEnd
  portamento : s.portamento = s'.portamento
  portTime : s.portTime = s'.portTime

theorem LikeTrack.noteOff {s s' : TrackState} (h : LikeTrack s s') (p : Nat) (n : UInt8) (t : Nat) : Both LikeTrack (trackNoteOff p s n t) (trackNoteOff p s' n t) := by
  unfold trackNoteOff
  rw [h.start]
  cases s'.noteStart with
  | none => exact .ok h
  | some start =>
    have hl : s.commands.getLast?.any PCmd.isSlide = s'.commands.getLast?.any PCmd.isSlide := by
      have := h.commands.last
      cases e : s.commands.getLast? with
      | none =>
        cases e' : s'.commands.getLast? with
        | none => rfl
        | some y => rw [e, e'] at this; simp at this
      | some x =>
        cases e' : s'.commands.getLast? with
        | none => rw [e, e'] at this; simp at this
        | some y =>
          rw [e, e'] at this
          simp only [Option.map_some, Option.some.injEq] at this
          simp only [Option.any_some]
          rw [← isSlide_outline x, this, isSlide_outline]
    simp only [hl]
    refine both_same _ fun dt => both_same _ fun d => ?_
    generalize (if s'.commands.getLast?.any PCmd.isSlide = true then pure Command.tie else do let n ← addU8 n 104; pure (Command.note n) : Res Command) = x
    have key : ∀ cmd : Command, Both LikeTrack
        (addU32 start d.quantizedTicks >>= fun t => pure { s with
          commands := s.commands ++ ⟨some (if d.overflowCount > 0 then 0x7f else d.length), some (s.noteVelocity / 8), some 7, cmd⟩ :: noteTies d
          lastNoteEnd := t, noteStart := none })
        (addU32 start d.quantizedTicks >>= fun t => pure { s' with
          commands := s'.commands ++ ⟨some (if d.overflowCount > 0 then 0x7f else d.length), some (s'.noteVelocity / 8), some 7, cmd⟩ :: noteTies d
          lastNoteEnd := t, noteStart := none }) :=
      fun cmd => both_same _ fun t => .ok { h with commands := h.commands.append rfl, start := rfl, clock := rfl }
    split
    · exact key _
    · exact both_same _ fun n => key _

theorem LikeTrack.noteOn {s s' : TrackState} (h : LikeTrack s s') (p : Nat) (n v v' : UInt8) (t : Nat) : Both LikeTrack (trackNoteOn p s n v t) (trackNoteOn p s' n v' t) := by
  unfold trackNoteOn
  rw [h.clock]
  refine (insertRest_outline h.commands _ t p).bind fun r r' hr => ?_
  obtain ⟨l, t1⟩ := r
  obtain ⟨l', t1'⟩ := r'
  obtain ⟨hl, rfl⟩ : LikeCmds l l' ∧ t1 = t1' := hr
  have fin : ∀ k k' : List PCmd, LikeCmds k k' → Both LikeTrack
      (if s.noteStart.isSome then failed .moreThanOneVoice else return ({ commands := k, lastNoteEnd := t1, noteStart := some t1, noteVelocity := v, portamento := s'.portamento, portTime := s'.portTime } : TrackState))
      (if s'.noteStart.isSome then failed .moreThanOneVoice else return { s' with commands := k', lastNoteEnd := t1, noteStart := some t1, noteVelocity := v' }) := by
    intro k k' hk
    rw [h.start]
    split
    · exact .error _
    · exact .ok ⟨hk, rfl, rfl, rfl, rfl⟩
  have hlast := hl.last
  simp only
  cases e : l.getLast? with
  | none =>
    cases e' : l'.getLast? with
    | none =>
      simp only [h.portamento, h.portTime]
      exact fin _ _ hl
    | some y => rw [e, e'] at hlast; simp at hlast
  | some x =>
    cases e' : l'.getLast? with
    | none => rw [e, e'] at hlast; simp at hlast
    | some y =>
      rw [e, e'] at hlast
      simp only [Option.map_some, Option.some.injEq] at hlast
      simp only [h.portamento, h.portTime]
      split
      · refine both_same _ fun d => both_same _ fun n => ?_
        refine fin _ _ (hl.append ?_)
        rw [← createPitchSlide_outline x, hlast, createPitchSlide_outline]
        rfl
      · exact fin _ _ hl

theorem LikeTrack.control {s s' : TrackState} (h : LikeTrack s s') (c x : UInt8) : Both LikeTrack (trackControl s c x) (trackControl s' c x) := by
  unfold trackControl
  rw [h.portTime]
  split
  · exact .ok { h with portTime := rfl }
  split
  · exact both_same _ fun v => .ok { h with commands := h.commands.append rfl, portTime := rfl }
  split
  · exact .ok { h with portTime := rfl }
  split
  · exact .ok { h with portamento := rfl, portTime := rfl }
  · exact .ok h

theorem mulU8_two (x : UInt8) (h : x ≤ 127) : mulU8 x 2 = .ok (x * 2) := by
  unfold mulU8
  rw [if_pos]
  have := UInt8.le_iff_toNat_le.1 h
  have e : (127 : UInt8).toNat = 127 := rfl
  rw [show (2 : UInt8).toNat = 2 from rfl]
  omega

theorem LikeTrack.volume {s s' : TrackState} (h : LikeTrack s s') (x x' : UInt8) (hx : x ≤ 127) (hx' : x' ≤ 127) :
    Both LikeTrack (trackControl s 7 x) (trackControl s' 7 x') := by
  have e : ∀ (s : TrackState) (x : UInt8), x ≤ 127 → trackControl s 7 x = .ok { s with commands := s.commands ++ [plainCmd (.channelVolume (x * 2))] } := by
    intro s x hx
    unfold trackControl
    rw [if_neg (by decide), if_pos rfl, mulU8_two x hx]
    rfl
  rw [e s x hx, e s' x' hx']
  exact .ok { h with commands := h.commands.append rfl }

theorem instrument_total (p : UInt8) (hp : p ≤ 127) : ∃ i, Instr.instrumentMap[p.toNat]? = some i := by
  have hl : p.toNat < Instr.instrumentMap.length := lt_of_le_of_lt (UInt8.le_iff_toNat_le.1 hp) (by decide +kernel)
  exact ⟨_, List.getElem?_eq_getElem hl⟩

theorem LikeTrack.program {s s' : TrackState} (h : LikeTrack s s') (p : Nat) (ch : Fin 16) (x x' : UInt8) (hx : x ≤ 127) (hx' : x' ≤ 127) (t : Nat) :
    Both LikeTrack (trackProgram p s ch x t) (trackProgram p s' ch x' t) := by
  unfold trackProgram
  rw [h.clock]
  refine (insertRest_outline h.commands _ t p).bind fun r r' hr => ?_
  obtain ⟨l, t1⟩ := r
  obtain ⟨l', t1'⟩ := r'
  obtain ⟨hl, rfl⟩ : LikeCmds l l' ∧ t1 = t1' := hr
  obtain ⟨i, hi⟩ := instrument_total x hx
  obtain ⟨i', hi'⟩ := instrument_total x' hx'
  simp only [hi, hi']
  split <;> exact .ok { h with commands := hl.append rfl, clock := rfl }

theorem usecPerBeat_total (d : List UInt8) (h : d.length ≥ 3) : ∃ u, usecPerBeat d = .ok u := by
  match d, h with
  | a :: b :: c :: _, _ => exact ⟨_, rfl⟩

theorem LikeTrack.step {s s' : TrackState} (h : LikeTrack s s') (p : Nat) (f f' : F32) (m m' : TMsg) (hm : outlined m = outlined m') (hd : dataOk m.1 = true) (hd' : dataOk m'.1 = true) :
    Both LikeTrack (trackStep p f s m) (trackStep p f' s' m') := by
  obtain ⟨m, t⟩ := m
  obtain ⟨m', t'⟩ := m'
  simp only [outlined, Prod.mk.injEq] at hm
  obtain ⟨ho, rfl⟩ := hm
  have tempo : ∀ d data data', dataOk (.metaEvent d .setTempo data) = true → dataOk (.metaEvent d .setTempo data') = true →
      Both LikeTrack (trackStep p f s (.metaEvent d .setTempo data, t)) (trackStep p f' s' (.metaEvent d .setTempo data', t)) := by
    intro d data data' hd hd'
    obtain ⟨u, hu⟩ := usecPerBeat_total data (by simpa [dataOk] using hd)
    obtain ⟨u', hu'⟩ := usecPerBeat_total data' (by simpa [dataOk] using hd')
    simp only [trackStep, hu, hu']
    exact .ok { h with commands := h.commands.append rfl }
  cases akin_of m m' ho with
  | off d ch n v v' => exact h.noteOff p n t
  | on d ch n v v' hv => exact h.noteOn p n v v' t
  | program d ch x x' => exact h.program p ch x x' (by simpa [dataOk] using hd) (by simpa [dataOk] using hd') t
  | volume d ch x x' => exact h.volume x x' (by simpa [dataOk] using hd) (by simpa [dataOk] using hd')
  | tempo d data data' => exact tempo d data data' hd hd'
  | same =>
    cases m with
    | metaEvent d e data =>
      cases e with
      | setTempo => exact tempo d data data hd hd'
      | other kind => exact .ok h
    | midiEvent d e =>
      cases e with
      | noteOff ch n v => exact h.noteOff p n t
      | noteOn ch n v => exact h.noteOn p n v v t
      | controlChange ch c x => exact h.control c x
      | programChange ch x => exact h.program p ch x x (by simpa [dataOk] using hd) (by simpa [dataOk] using hd') t
      | _ => exact .ok h
    | _ => exact .ok h

theorem steps_outline (p : Nat) (f f' : F32) : ∀ (l l' : List TMsg) (s s' : TrackState), l.map outlined = l'.map outlined → (∀ m ∈ l, dataOk m.1 = true) → (∀ m ∈ l', dataOk m.1 = true) →
    LikeTrack s s' → Both LikeTrack (l.foldlM (trackStep p f) s) (l'.foldlM (trackStep p f') s') := by
  intro l
  induction l with
  | nil =>
    intro l' s s' hl _ _ h
    cases l' with
    | nil => exact .ok h
    | cons y l' => simp at hl
  | cons x l ih =>
    intro l' s s' hl hd hd' h
    cases l' with
    | nil => simp at hl
    | cons y l' =>
      simp only [List.map_cons, List.cons.injEq] at hl
      rw [List.foldlM_cons, List.foldlM_cons]
      exact (h.step p f f' x y hl.1 (hd x (by simp)) (hd' y (by simp))).bind fun s s' h =>
        ih l' s s' hl.2 (fun m hm => hd m (by simp [hm])) (fun m hm => hd' m (by simp [hm])) h

theorem sustainPass_like {l l' : List PCmd} (h : LikeCmds l l') : Both LikeCmds (sustainPass l) (sustainPass l') := by
  have e := sustainPass_outline l
  rw [h, sustainPass_outline] at e
  cases h1 : sustainPass l <;> cases h2 : sustainPass l' <;> rw [h1, h2] at e
  · cases e; exact .error _
  · cases e
  · cases e
  · exact .ok (Except.ok.inj e).symm

theorem trackNew_outline (l l' : List TMsg) (hl : l.map outlined = l'.map outlined) (hd : ∀ m ∈ l, dataOk m.1 = true) (hd' : ∀ m ∈ l', dataOk m.1 = true) (p T : Nat) (f f' : F32) :
    Both LikeCmds (trackNew l p T f) (trackNew l' p T f') := by
  unfold trackNew
  refine (steps_outline p f f' l l' {} {} hl hd hd' ⟨rfl, rfl, rfl, rfl, rfl⟩).bind fun s s' h => ?_
  have he : s.commands.isEmpty = s'.commands.isEmpty := by
    rw [← List.isEmpty_map (f := outlineCmd), h.commands, List.isEmpty_map]
  rw [he, h.clock]
  split
  · exact .ok rfl
  · split
    · refine (insertRest_outline h.commands _ T p).bind fun r r' hr => ?_
      exact sustainPass_like hr.1
    · exact sustainPass_like h.commands

end M2S
