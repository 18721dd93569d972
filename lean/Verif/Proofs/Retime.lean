import Verif.Spec.Retime
import Verif.Proofs.Relabel
/-
Reading depends on times only through their order.
-/
namespace M2S
open MidiSpec

variable {τ : Nat → Nat}

theorem home_bare (m : Message) : home (withDelta 0 m) = home m := by
  cases m with
  | midiEvent d e => cases e <;> rfl
  | _ => rfl

theorem priority_bare (m : Message) : priority (withDelta 0 m) = priority m := by
  cases m with
  | midiEvent d e => cases e <;> rfl
  | _ => rfl

theorem keyLe_bare (hτ : StrictMono τ) (a b : TMsg) : keyLe a b ↔ keyLe (bare τ a) (bare τ b) := by
  simp only [keyLe, bare, priority_bare, hτ.lt_iff_lt, hτ.injective.eq_iff]

theorem sort_bare (hτ : StrictMono τ) (l : List TMsg) : sortMessages (l.map (bare τ)) = (sortMessages l).map (bare τ) := by
  unfold sortMessages
  exact (List.map_insertionSort (r := keyLe) (s := keyLe) (bare τ) l fun a _ b _ => keyLe_bare hτ a b).symm

theorem ofChannel_bare (l : List TMsg) (c : Fin 16) : ofChannel (l.map (bare τ)) c = (ofChannel l c).map (bare τ) := by
  unfold ofChannel
  rw [List.filter_map]
  congr 1
  apply List.filter_congr
  intro m _
  simp [bare, home_bare]

theorem max_moved (hτ : StrictMono τ) (a b : Nat) : max (τ a) (τ b) = τ (max a b) := (hτ.monotone.map_max).symm

/-! ## Dealing -/

/-- The state of the dealing, moved. -/
def bareDeal (τ : Nat → Nat) (st : DealState) : DealState where
  voices v := (st.voices v).map (bare τ)
  lastCtrl c := (st.lastCtrl c).map (withDelta 0)
  lastProg c := (st.lastProg c).map (withDelta 0)
  lastBend c := (st.lastBend c).map (withDelta 0)
  lastChan := st.lastChan
  active := st.active
  lastPerc := st.lastPerc

theorem push_bare (st : DealState) (v : Fin 8) (m : TMsg) : (bareDeal τ st).push v (bare τ m) = bareDeal τ (st.push v m) := by
  unfold DealState.push bareDeal
  congr 1
  funext w
  by_cases hw : w = v
  · subst hw; simp
  · simp [Function.update_of_ne hw]

theorem pushOpt_bare (st : DealState) (v : Fin 8) (m : Option Message) (t : Nat) :
    (bareDeal τ st).pushOpt v (m.map (withDelta 0)) (τ t) = bareDeal τ (st.pushOpt v m t) := by
  cases m with
  | none => rfl
  | some m => exact push_bare st v (m, t)

theorem noteOff_bare (st : DealState) (d : Nat) (ch : Fin 16) (n v : UInt8) (t : Nat) :
    dealNoteOff (bareDeal τ st) 0 ch n v (τ t) = bareDeal τ (dealNoteOff st d ch n v t) := by
  unfold dealNoteOff
  rw [show (bareDeal τ st).active = st.active from rfl]
  cases (st.active ch).lookup n with
  | none => rfl
  | some w =>
    simp only
    split
    · exact push_bare { st with active := Function.update st.active ch (removeNote (st.active ch) n) } w (.midiEvent d (.noteOff ch (percNote n) v), t)
    · exact push_bare { st with active := Function.update st.active ch (removeNote (st.active ch) n) } w (.midiEvent d (.noteOff ch n v), t)

theorem close_bare (st : DealState) (d : Nat) (ch : Fin 16) (n v : UInt8) (t : Nat) :
    dealCloseSame (bareDeal τ st) 0 ch n v (τ t) = bareDeal τ (dealCloseSame st d ch n v t) := by
  unfold dealCloseSame
  rw [show (bareDeal τ st).active = st.active from rfl]
  cases (st.active ch).lookup n with
  | none => rfl
  | some w => exact push_bare { st with active := Function.update st.active ch (removeNote (st.active ch) n) } w (.midiEvent d (.noteOff ch n v), t)

theorem switch_bare (st : DealState) (ch : Fin 16) (v : Fin 8) (t : Nat) :
    dealSwitchChannel (bareDeal τ st) ch v (τ t) = bareDeal τ (dealSwitchChannel st ch v t) := by
  unfold dealSwitchChannel
  rw [show (bareDeal τ st).lastChan = st.lastChan from rfl]
  split
  · simp only
    rw [show (bareDeal τ st).lastCtrl ch = (st.lastCtrl ch).map (withDelta 0) from rfl, pushOpt_bare,
      show (bareDeal τ (st.pushOpt v (st.lastCtrl ch) t)).lastProg ch = ((st.pushOpt v (st.lastCtrl ch) t).lastProg ch).map (withDelta 0) from rfl,
      pushOpt_bare,
      show (bareDeal τ ((st.pushOpt v (st.lastCtrl ch) t).pushOpt v ((st.pushOpt v (st.lastCtrl ch) t).lastProg ch) t)).lastBend ch =
        (((st.pushOpt v (st.lastCtrl ch) t).pushOpt v ((st.pushOpt v (st.lastCtrl ch) t).lastProg ch) t).lastBend ch).map (withDelta 0) from rfl,
      pushOpt_bare]
    rfl
  · rfl

theorem update_bare (f : Fin 16 → Option Message) (c : Fin 16) (m : Message) :
    Function.update (fun c => (f c).map (withDelta 0)) c (some (withDelta 0 m)) = fun d => (Function.update f c (some m) d).map (withDelta 0) := by
  funext d
  by_cases hd : d = c
  · subst hd; simp
  · simp [Function.update_of_ne hd]

theorem perc_bare (st : DealState) (d : Nat) (ch : Fin 16) (n : UInt8) (v : Fin 8) (t : Nat) :
    dealPercussion (bareDeal τ st) 0 ch n v (τ t) = bareDeal τ (dealPercussion st d ch n v t) := by
  unfold dealPercussion
  rw [show (bareDeal τ st).lastPerc = st.lastPerc from rfl]
  simp only
  split
  · rw [← push_bare]
    congr 1
    simp only [bareDeal]
    congr 1
    exact update_bare st.lastProg ch (.midiEvent d (.programChange ch (percInstr n)))
  · rfl

theorem noteOn_bare (base : Fin 16 → Fin 8) (st : DealState) (d : Nat) (ch : Fin 16) (n v : UInt8) (t : Nat) :
    dealNoteOn base (bareDeal τ st) 0 ch n v (τ t) = (dealNoteOn base st d ch n v t).map (bareDeal τ) := by
  unfold dealNoteOn
  simp only [close_bare _ d]
  generalize dealCloseSame st d ch n v t = st
  rw [show (bareDeal τ st).active = st.active from rfl]
  split
  · cases chooseVoice base st.active ch with
    | none => rfl
    | some w =>
      simp only
      have hsw := switch_bare (τ := τ) { st with active := Function.update st.active ch (insertNote (st.active ch) n w) } ch w t
      rw [show { bareDeal τ st with active := Function.update st.active ch (insertNote (st.active ch) n w) } =
        bareDeal τ { st with active := Function.update st.active ch (insertNote (st.active ch) n w) } from rfl, hsw]
      split
      · rw [perc_bare _ d]
        simp only [Except.map]
        exact congrArg Except.ok (push_bare _ w (.midiEvent d (.noteOn ch (percNote n) v), t))
      · simp only [Except.map]
        exact congrArg Except.ok (push_bare _ w (.midiEvent d (.noteOn ch n v), t))
  · rfl

theorem toChannel_bare (ord : EnumOrder) (base : Fin 16 → Fin 8) (st : DealState) (ch : Fin 16) (m : TMsg) :
    dealToChannel ord base (bareDeal τ st) ch (bare τ m) = bareDeal τ (dealToChannel ord base st ch m) := by
  unfold dealToChannel
  rw [show (bareDeal τ st).active = st.active from rfl]
  generalize (ord (st.active ch)).map (·.2) = vs
  have hf : ∀ (l : List (Fin 8)) (st : DealState), l.foldl (fun st v => st.push v (bare τ m)) (bareDeal τ st) =
      bareDeal τ (l.foldl (fun st v => st.push v m) st) := by
    intro l
    induction l with
    | nil => intro st; rfl
    | cons v l ih => intro st; simp only [List.foldl_cons, push_bare, ih]
  simp only [hf]
  split
  · rfl
  · exact push_bare _ _ _

theorem dealEvent_bare (ord : EnumOrder) (base : Fin 16 → Fin 8) (st : DealState) (m : TMsg) :
    dealEvent ord base (bareDeal τ st) (bare τ m) = (dealEvent ord base st m).map (bareDeal τ) := by
  obtain ⟨m, t⟩ := m
  cases m with
  | metaEvent d e data =>
    cases e with
    | setTempo => exact congrArg Except.ok (push_bare st 0 (.metaEvent d .setTempo data, t))
    | other kind => rfl
  | midiEvent d e =>
    cases e with
    | noteOff ch n v => exact congrArg Except.ok (noteOff_bare st d ch n v t)
    | noteOn ch n v => exact noteOn_bare base st d ch n v t
    | polyphonicKeyPressure ch n v =>
      simp only [bare, withDelta, dealEvent]
      rw [show (bareDeal τ st).active = st.active from rfl]
      cases (st.active ch).lookup n with
      | none => rfl
      | some w => exact congrArg Except.ok (push_bare st w (.midiEvent d (.polyphonicKeyPressure ch n v), t))
    | controlChange ch c x =>
      have h := toChannel_bare (τ := τ) ord base st ch (.midiEvent d (.controlChange ch c x), t)
      simp only [bare, withDelta, dealEvent] at h ⊢
      rw [h]
      split
      · simp only [Except.map]
        congr 1
        generalize dealToChannel ord base st ch (.midiEvent d (.controlChange ch c x), t) = st
        simp only [bareDeal]
        congr 1
        exact update_bare st.lastCtrl ch (.midiEvent d (.controlChange ch c x))
      · rfl
    | programChange ch x =>
      have h := toChannel_bare (τ := τ) ord base st ch (.midiEvent d (.programChange ch x), t)
      simp only [bare, withDelta, dealEvent] at h ⊢
      rw [h]
      simp only [Except.map]
      congr 1
      generalize dealToChannel ord base st ch (.midiEvent d (.programChange ch x), t) = st
      simp only [bareDeal]
      congr 1
      exact update_bare st.lastProg ch (.midiEvent d (.programChange ch x))
    | channelPressure ch x => exact congrArg Except.ok (toChannel_bare ord base st ch (.midiEvent d (.channelPressure ch x), t))
    | pitchBendChange ch x =>
      have h := toChannel_bare (τ := τ) ord base st ch (.midiEvent d (.pitchBendChange ch x), t)
      simp only [bare, withDelta, dealEvent] at h ⊢
      rw [h]
      simp only [Except.map]
      congr 1
      generalize dealToChannel ord base st ch (.midiEvent d (.pitchBendChange ch x), t) = st
      simp only [bareDeal]
      congr 1
      exact update_bare st.lastBend ch (.midiEvent d (.pitchBendChange ch x))
    | unknown ch => rfl
  | sysEx d data => exact congrArg Except.ok (push_bare st 0 (.sysEx d data, t))
  | trackChange => rfl

/-! ## Merging -/

/-- All times fit in 32 bits after moving. -/
def MovedFits (τ : Nat → Nat) (l : List TMsg) : Prop := ∀ m ∈ l, τ m.2 < 2 ^ 32

theorem headKey_bare (hτ : StrictMono τ) (a b : List TMsg) (ha : MovedFits τ a) (hb : MovedFits τ b) :
    keyLt (headKey (a.map (bare τ))) (headKey (b.map (bare τ))) = keyLt (headKey a) (headKey b) := by
  have le : ∀ t : Nat, t ≤ τ t := fun t => hτ.le_apply
  rw [Bool.eq_iff_iff, keyLt_iff, keyLt_iff]
  cases a with
  | nil =>
    cases b with
    | nil => exact Iff.rfl
    | cons y b =>
      have h1 := hb y (by simp)
      have h2 := le y.2
      have h3 := priority_le y.1
      simp only [List.map_nil, List.map_cons, headKey, sortKey, bare, priority_bare]
      omega
  | cons x a =>
    have h1 := ha x (by simp)
    have h2 := le x.2
    have h3 := priority_le x.1
    cases b with
    | nil =>
      simp only [List.map_nil, List.map_cons, headKey, sortKey, bare, priority_bare]
      omega
    | cons y b =>
      simp only [List.map_cons, headKey, sortKey, bare, priority_bare, hτ.lt_iff_lt, hτ.injective.eq_iff]

theorem nextChannel_bare (hτ : StrictMono τ) (rem : ChanMsgs) (h : ∀ c, MovedFits τ (rem c)) :
    nextChannel (fun c => (rem c).map (bare τ)) = nextChannel rem := by
  unfold nextChannel
  congr 1
  funext best i
  rw [headKey_bare hτ _ _ (h i) (h best)]

theorem mergeLoop_bare (hτ : StrictMono τ) (ord : EnumOrder) (base : Fin 16 → Fin 8) (fuel : Nat) :
    ∀ (rem : ChanMsgs) (done : Nat) (st : DealState), (∀ c, MovedFits τ (rem c)) →
    mergeLoop ord base fuel (fun c => (rem c).map (bare τ)) done (bareDeal τ st) = (mergeLoop ord base fuel rem done st).map (bareDeal τ) := by
  induction fuel with
  | zero => intro rem done st h; unfold mergeLoop; split <;> rfl
  | succ fuel ih =>
    intro rem done st h
    unfold mergeLoop
    split
    · simp only [nextChannel_bare hτ rem h]
      generalize hc : nextChannel rem = c
      cases hr : rem c with
      | nil => rfl
      | cons m ms =>
        simp only [List.map_cons, dealEvent_bare]
        cases dealEvent ord base st m with
        | error e => rfl
        | ok st' =>
          have hu : Function.update (fun c => (rem c).map (bare τ)) c (ms.map (bare τ)) =
              fun d => (Function.update rem c ms d).map (bare τ) := by
            funext d
            by_cases hd : d = c
            · subst hd; simp
            · simp [Function.update_of_ne hd]
          simp only [Except.map, bind, Except.bind, List.isEmpty_map, hu]
          refine ih _ _ _ ?_
          intro d
          by_cases hd : d = c
          · subst hd
            simp only [Function.update_self]
            intro x hx
            exact h d x (by rw [hr]; simp [hx])
          · rw [Function.update_of_ne hd]; exact h d
    · rfl

theorem channelsToVoices_bare (hτ : StrictMono τ) (ord : EnumOrder) (cs : ChanMsgs) (base : Fin 16 → Fin 8) (h : ∀ c, MovedFits τ (cs c)) :
    channelsToVoices ord (fun c => (cs c).map (bare τ)) base (fun _ => []) =
      (channelsToVoices ord cs base (fun _ => [])).map fun vs v => (vs v).map (bare τ) := by
  unfold channelsToVoices countMsgs
  simp only [List.isEmpty_map, List.length_map]
  have := mergeLoop_bare hτ ord base (((List.finRange 16).map fun c => (cs c).length).sum) cs ((List.finRange 16).countP fun c => (cs c).isEmpty)
    { voices := fun _ => [], lastChan := fun v => (List.finRange 16).find? fun c => base c = v } h
  rw [show bareDeal τ { voices := fun _ => [], lastChan := fun v => (List.finRange 16).find? fun c => base c = v } =
    { voices := fun _ => [], lastChan := fun v => (List.finRange 16).find? fun c => base c = v } from rfl] at this
  rw [this]
  cases mergeLoop ord base _ cs _ _ <;> rfl

end M2S
