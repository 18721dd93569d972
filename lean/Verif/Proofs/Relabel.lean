import Verif.Spec.Relabel
import Verif.Proofs.Routing
import Mathlib.Data.List.Sort
/-
Reading a rewritten file: the same as rewriting what was read.
-/
namespace M2S
open MidiSpec

theorem res_map_bind {α β γ : Type} (x : Res α) (f : α → Res β) (g : β → γ) : (x >>= f).map g = x >>= fun a => (f a).map g := by
  cases x <;> rfl

/-- A fold over a rewritten list. -/
theorem foldlM_rewrite {α β σ τ : Type} (step : σ → α → Res σ) (step' : τ → β → Res τ) (φ : α → β) (g : σ → τ) (l : List α)
    (h : ∀ s, ∀ a ∈ l, step' (g s) (φ a) = (step s a).map g) : ∀ s, (l.map φ).foldlM step' (g s) = (l.foldlM step s).map g := by
  induction l with
  | nil => intro s; rfl
  | cons a l ih =>
    intro s
    rw [List.map_cons, List.foldlM_cons, List.foldlM_cons, h s a (by simp), res_map_bind]
    cases step s a with
    | error e => rfl
    | ok s' => exact ih (fun s a ha => h s a (by simp [ha])) s'

variable {k : Nat} {ν : Fin 16 → UInt8 → UInt8}

/-! ## Collecting and routing -/

theorem pushMessage_map (φ : Message → Message) (ts : List (List Message)) (m : Message) :
    pushMessage (ts.map (List.map φ)) (φ m) = (pushMessage ts m).map (List.map (List.map φ)) := by
  unfold pushMessage
  rw [List.getLast?_map]
  cases ts.getLast? with
  | none => rfl
  | some t => simp [Except.map, List.map_dropLast]

/-- The handler after collecting a rewritten file. -/
def collected (k : Nat) (ν : Fin 16 → UInt8 → UInt8) (h : MidiHandler) : MidiHandler :=
  { h with tracks := h.tracks.map (List.map (rewrite k ν)), ticksPerBeat := k * h.ticksPerBeat }

theorem handle_rewrite (h : MidiHandler) (c : Callback) :
    (collected k ν h).handle (rewriteCall k ν c) = (h.handle c).map (collected k ν) := by
  cases c with
  | header f tb => simp only [rewriteCall, MidiHandler.handle]; split <;> rfl
  | metaEvent d e data =>
    simp only [rewriteCall, MidiHandler.handle, collected]
    rw [show (Message.metaEvent (k * d) e data) = rewrite k ν (.metaEvent d e data) from rfl, pushMessage_map]
    cases pushMessage h.tracks (.metaEvent d e data) <;> rfl
  | midiEvent d e =>
    simp only [rewriteCall, MidiHandler.handle, collected]
    rw [show (Message.midiEvent (k * d) (renameEvent ν e)) = rewrite k ν (.midiEvent d e) from rfl, pushMessage_map]
    cases pushMessage h.tracks (.midiEvent d e) <;> rfl
  | sysExEvent d data =>
    simp only [rewriteCall, MidiHandler.handle, collected]
    rw [show (Message.sysEx (k * d) data) = rewrite k ν (.sysEx d data) from rfl, pushMessage_map]
    cases pushMessage h.tracks (.sysEx d data) <;> rfl
  | trackChange => simp [rewriteCall, MidiHandler.handle, collected, Except.map]

theorem delta_rewrite (m : Message) : delta (rewrite k ν m) = k * delta m := by cases m <;> simp [rewrite, delta]

theorem stamp_rewrite (l : List Message) : ∀ t, stamp (k * t) (l.map (rewrite k ν)) = (stamp t l).map (rewriteAt k ν) := by
  induction l with
  | nil => intro t; rfl
  | cons m l ih =>
    intro t
    simp only [List.map_cons, stamp, delta_rewrite, ← Nat.mul_add, ih]
    simp [rewriteAt]

theorem fileMessages_rewrite (ts : List (List Message)) :
    fileMessages (ts.map (List.map (rewrite k ν))) = (fileMessages ts).map (rewriteAt k ν) := by
  unfold fileMessages
  rw [List.map_flatMap, List.flatMap_map]
  congr 1
  funext l
  have := stamp_rewrite (k := k) (ν := ν) l 0
  simpa using this

theorem home_rewrite (m : Message) : home (rewrite k ν m) = home m := by
  cases m with
  | midiEvent d e => cases e <;> rfl
  | _ => rfl

theorem priority_rewrite (m : Message) : priority (rewrite k ν m) = priority m := by
  cases m with
  | midiEvent d e => cases e <;> rfl
  | _ => rfl

theorem keyLe_rewrite (hk : 0 < k) (a b : TMsg) : keyLe a b ↔ keyLe (rewriteAt k ν a) (rewriteAt k ν b) := by
  simp only [keyLe, rewriteAt, priority_rewrite, Nat.mul_lt_mul_left hk, Nat.mul_right_inj (Nat.ne_of_gt hk)]

theorem sort_rewrite (hk : 0 < k) (l : List TMsg) : sortMessages (l.map (rewriteAt k ν)) = (sortMessages l).map (rewriteAt k ν) := by
  unfold sortMessages
  exact (List.map_insertionSort (r := keyLe) (s := keyLe) (rewriteAt k ν) l fun a _ b _ => keyLe_rewrite hk a b).symm

theorem toChan_rewrite (l : List TMsg) (c : Fin 16) : toChan (l.map (rewriteAt k ν)) c = (toChan l c).map (rewriteAt k ν) := by
  unfold toChan ofChannel
  rw [List.filter_map]
  congr 1
  apply List.filter_congr
  intro m _
  simp [rewriteAt, home_rewrite]

/-! ## Intervals and base voices -/

/-- An interval stretched. -/
def stretch (k : Nat) (i : VoiceInterval) : VoiceInterval := { i with start := k * i.start, stop := k * i.stop }

/-- The scan, stretched. -/
def stretchScan (k : Nat) (s : ScanState) : ScanState := ⟨s.intervals.map (stretch k), k * s.lastEnd, s.active, k * s.maxTime⟩

theorem pushInterval_stretch (hk : 0 < k) (i : Fin 16) (s : ScanState) (t : Nat) :
    pushInterval i (stretchScan k s) (k * t) = (pushInterval i s t).map (stretch k) := by
  unfold pushInterval stretchScan
  simp only [gt_iff_lt, Nat.mul_lt_mul_left hk]
  split <;> simp [stretch]

theorem max_stretch (a b : Nat) : max (k * a) (k * b) = k * max a b := (Nat.mul_max_mul_left ..)

theorem scanMessage_rewrite (hk : 0 < k) (i : Fin 16) (s : ScanState) (m : TMsg) :
    scanMessage i (stretchScan k s) (rewriteAt k ν m) = (scanMessage i s m).map (stretchScan k) := by
  obtain ⟨m, t⟩ := m
  cases m with
  | midiEvent d e =>
    cases e with
    | noteOff ch n v =>
      simp only [rewriteAt, rewrite, renameEvent, scanMessage, pushInterval_stretch hk]
      rw [show (stretchScan k s).active = s.active from rfl]
      cases subU s.active 1 with
      | error e => rfl
      | ok a => simp [Except.map, bind, Except.bind, pure, Except.pure, stretchScan, max_stretch]
    | noteOn ch n v =>
      simp only [rewriteAt, rewrite, renameEvent, scanMessage, pushInterval_stretch hk]
      rw [show (stretchScan k s).active = s.active from rfl]
      by_cases hv : v = 0
      · rw [if_pos hv, if_pos hv]
        cases subU s.active 1 with
        | error e => rfl
        | ok a => simp [Except.map, bind, Except.bind, pure, Except.pure, stretchScan, max_stretch]
      · rw [if_neg hv, if_neg hv]
        simp [Except.map, bind, Except.bind, pure, Except.pure, stretchScan, max_stretch]
    | _ => simp [rewriteAt, rewrite, renameEvent, scanMessage, Except.map, bind, Except.bind, pure, Except.pure, stretchScan, max_stretch]
  | _ => rfl

theorem scanChannels_rewrite (hk : 0 < k) (cs : ChanMsgs) :
    scanChannels (fun c => (cs c).map (rewriteAt k ν)) 0 = (scanChannels cs 0).map fun r => (fun c => (r.1 c).map (stretch k), k * r.2) := by
  unfold scanChannels
  have h := foldlM_rewrite (σ := (Fin 16 → List VoiceInterval) × Nat) (τ := (Fin 16 → List VoiceInterval) × Nat)
    (fun acc i => do
      let st ← scanChannel i (cs i) acc.2
      return (Function.update acc.1 i st.intervals, st.maxTime))
    (fun acc i => do
      let st ← scanChannel i ((cs i).map (rewriteAt k ν)) acc.2
      return (Function.update acc.1 i st.intervals, st.maxTime))
    id (fun r => (fun c => (r.1 c).map (stretch k), k * r.2)) (List.finRange 16)
    (by
      rintro ⟨ivs, mt⟩ i -
      have hs : scanChannel i ((cs i).map (rewriteAt k ν)) (k * mt) = (scanChannel i (cs i) mt).map (stretchScan k) :=
        foldlM_rewrite (scanMessage i) (scanMessage i) (rewriteAt k ν) (stretchScan k) (cs i)
          (fun s m _ => scanMessage_rewrite hk i s m) { maxTime := mt }
      simp only [id]
      rw [hs]
      cases scanChannel i (cs i) mt with
      | error e => rfl
      | ok st =>
        simp only [Except.map, bind, Except.bind, pure, Except.pure, stretchScan]
        congr 2
        funext c
        by_cases hc : c = i
        · subst hc; simp
        · simp [Function.update_of_ne hc])
    (fun _ => [], 0)
  rw [List.map_id] at h
  simpa using h

theorem clash_stretch (hk : 0 < k) (a b : VoiceInterval) : intervalsClash (stretch k a) (stretch k b) = intervalsClash a b := by
  simp only [intervalsClash, stretch, gt_iff_lt, Nat.mul_lt_mul_left hk]

theorem overlap_stretch (hk : 0 < k) (ch act : List VoiceInterval) :
    overlappingInterval (ch.map (stretch k)) (act.map (stretch k)) = (overlappingInterval ch act).map (stretch k) := by
  unfold overlappingInterval
  induction ch with
  | nil => rfl
  | cons i ch ih =>
    have h : (act.map (stretch k)).find? (fun existing => intervalsClash (stretch k i) existing) =
        (act.find? fun existing => intervalsClash i existing).map (stretch k) := by
      rw [List.find?_map]
      congr 2
      funext e; exact clash_stretch hk i e
    simp only [List.map_cons, List.findSome?_cons, h]
    cases act.find? fun existing => intervalsClash i existing with
    | none => exact ih
    | some e => rfl

theorem valid_stretch (hk : 0 < k) (ch : List VoiceInterval) (act : ActiveIntervals) :
    validVoices (ch.map (stretch k)) (fun v => (act v).map (stretch k)) = validVoices ch act := by
  unfold validVoices
  congr 2
  funext st i
  simp only [List.isEmpty_map, overlap_stretch hk]
  cases overlappingInterval ch (act i) <;> rfl

theorem find_stretch (hk : 0 < k) (chs : List (List VoiceInterval)) : ∀ act : ActiveIntervals,
    findBaseVoices (chs.map (List.map (stretch k))) (fun v => (act v).map (stretch k)) = findBaseVoices chs act := by
  induction chs with
  | nil => intro act; rfl
  | cons ch chs ih =>
    intro act
    simp only [List.map_cons, findBaseVoices, valid_stretch hk]
    congr 1
    funext v
    have : Function.update (fun v => (act v).map (stretch k)) v ((act v).map (stretch k) ++ ch.map (stretch k)) =
        fun w => (Function.update act v (act v ++ ch) w).map (stretch k) := by
      funext w
      by_cases hw : w = v
      · subst hw; simp
      · simp [Function.update_of_ne hw]
    rw [this, ih]

/-! ## Dealing -/

/-- The state of the dealing, rewritten. -/
def rewriteDeal (k : Nat) (ν : Fin 16 → UInt8 → UInt8) (st : DealState) : DealState where
  voices v := (st.voices v).map (rewriteAt k ν)
  lastCtrl c := (st.lastCtrl c).map (rewrite k ν)
  lastProg c := (st.lastProg c).map (rewrite k ν)
  lastBend c := (st.lastBend c).map (rewrite k ν)
  lastChan := st.lastChan
  active c := (st.active c).map fun p => (ν c p.1, p.2)
  lastPerc := st.lastPerc

theorem push_rewrite (st : DealState) (v : Fin 8) (m : TMsg) : (rewriteDeal k ν st).push v (rewriteAt k ν m) = rewriteDeal k ν (st.push v m) := by
  unfold DealState.push rewriteDeal
  congr 1
  funext w
  by_cases hw : w = v
  · subst hw; simp
  · simp [Function.update_of_ne hw]

theorem pushOpt_rewrite (st : DealState) (v : Fin 8) (m : Option Message) (t : Nat) :
    (rewriteDeal k ν st).pushOpt v (m.map (rewrite k ν)) (k * t) = rewriteDeal k ν (st.pushOpt v m t) := by
  cases m with
  | none => rfl
  | some m => exact push_rewrite st v (m, t)

theorem lookup_rename (hν : ∀ c, Function.Injective (ν c)) (c : Fin 16) (l : List (UInt8 × Fin 8)) (n : UInt8) :
    (l.map fun p => (ν c p.1, p.2)).lookup (ν c n) = l.lookup n := by
  induction l with
  | nil => rfl
  | cons p l ih =>
    obtain ⟨a, b⟩ := p
    simp only [List.map_cons, List.lookup_cons, ih]
    by_cases h : n = a
    · subst h; simp
    · have : ν c n ≠ ν c a := fun e => h (hν c e)
      have h1 : (n == a) = false := by simpa using h
      have h2 : (ν c n == ν c a) = false := by simpa using this
      rw [h1, h2]

theorem remove_rename (hν : ∀ c, Function.Injective (ν c)) (c : Fin 16) (l : List (UInt8 × Fin 8)) (n : UInt8) :
    removeNote (l.map fun p => (ν c p.1, p.2)) (ν c n) = (removeNote l n).map fun p => (ν c p.1, p.2) := by
  unfold removeNote
  rw [List.filter_map]
  congr 1
  apply List.filter_congr
  intro p _
  simp [(hν c).eq_iff]

theorem busy_rename (st : DealState) (v : Fin 8) : voiceBusy (rewriteDeal k ν st).active v = voiceBusy st.active v := by
  unfold voiceBusy rewriteDeal
  simp [List.any_map, Function.comp_def]

theorem choose_rename (base : Fin 16 → Fin 8) (st : DealState) (ch : Fin 16) :
    chooseVoice base (rewriteDeal k ν st).active ch = chooseVoice base st.active ch := by
  unfold chooseVoice
  simp only [busy_rename]

theorem setActive_rewrite (st : DealState) (c : Fin 16) (l : List (UInt8 × Fin 8)) :
    { rewriteDeal k ν st with active := Function.update (rewriteDeal k ν st).active c (l.map fun p => (ν c p.1, p.2)) } =
      rewriteDeal k ν { st with active := Function.update st.active c l } := by
  have : Function.update (rewriteDeal k ν st).active c (l.map fun p => (ν c p.1, p.2)) =
      fun d => (Function.update st.active c l d).map fun p => (ν d p.1, p.2) := by
    funext d
    by_cases hd : d = c
    · subst hd; simp
    · simp [Function.update_of_ne hd, rewriteDeal]
  rw [this]
  rfl

theorem noteOff_rewrite (hν : ∀ c, Function.Injective (ν c)) (h9 : ν 9 = id) (st : DealState) (d : Nat) (ch : Fin 16) (n v : UInt8) (t : Nat) :
    dealNoteOff (rewriteDeal k ν st) (k * d) ch (ν ch n) v (k * t) = rewriteDeal k ν (dealNoteOff st d ch n v t) := by
  unfold dealNoteOff
  rw [show (rewriteDeal k ν st).active ch = (st.active ch).map fun p => (ν ch p.1, p.2) from rfl, lookup_rename hν, remove_rename hν]
  cases (st.active ch).lookup n with
  | none => rfl
  | some w =>
    simp only
    have hs := setActive_rewrite (k := k) (ν := ν) st ch (removeNote (st.active ch) n)
    split
    · rename_i h
      rw [hs]
      have := push_rewrite (k := k) (ν := ν) { st with active := Function.update st.active ch (removeNote (st.active ch) n) } w
        (.midiEvent d (.noteOff ch (percNote n) v), t)
      rw [← this]
      simp [rewriteAt, rewrite, renameEvent, h, h9]
    · rw [hs]
      exact push_rewrite (k := k) (ν := ν) _ w (.midiEvent d (.noteOff ch n v), t)

theorem close_rewrite (hν : ∀ c, Function.Injective (ν c)) (st : DealState) (d : Nat) (ch : Fin 16) (n v : UInt8) (t : Nat) :
    dealCloseSame (rewriteDeal k ν st) (k * d) ch (ν ch n) v (k * t) = rewriteDeal k ν (dealCloseSame st d ch n v t) := by
  unfold dealCloseSame
  rw [show (rewriteDeal k ν st).active ch = (st.active ch).map fun p => (ν ch p.1, p.2) from rfl, lookup_rename hν, remove_rename hν]
  cases (st.active ch).lookup n with
  | none => rfl
  | some w =>
    simp only
    rw [setActive_rewrite]
    exact push_rewrite (k := k) (ν := ν) _ w (.midiEvent d (.noteOff ch n v), t)

theorem switch_rewrite (st : DealState) (ch : Fin 16) (v : Fin 8) (t : Nat) :
    dealSwitchChannel (rewriteDeal k ν st) ch v (k * t) = rewriteDeal k ν (dealSwitchChannel st ch v t) := by
  unfold dealSwitchChannel
  rw [show (rewriteDeal k ν st).lastChan = st.lastChan from rfl]
  split
  · simp only
    rw [show (rewriteDeal k ν st).lastCtrl ch = (st.lastCtrl ch).map (rewrite k ν) from rfl, pushOpt_rewrite,
      show (rewriteDeal k ν (st.pushOpt v (st.lastCtrl ch) t)).lastProg ch = ((st.pushOpt v (st.lastCtrl ch) t).lastProg ch).map (rewrite k ν) from rfl,
      pushOpt_rewrite,
      show (rewriteDeal k ν ((st.pushOpt v (st.lastCtrl ch) t).pushOpt v ((st.pushOpt v (st.lastCtrl ch) t).lastProg ch) t)).lastBend ch =
        (((st.pushOpt v (st.lastCtrl ch) t).pushOpt v ((st.pushOpt v (st.lastCtrl ch) t).lastProg ch) t).lastBend ch).map (rewrite k ν) from rfl,
      pushOpt_rewrite]
    rfl
  · rfl

theorem update_map (f : Fin 16 → Option Message) (c : Fin 16) (m : Message) :
    Function.update (fun c => (f c).map (rewrite k ν)) c (some (rewrite k ν m)) = fun d => (Function.update f c (some m) d).map (rewrite k ν) := by
  funext d
  by_cases hd : d = c
  · subst hd; simp
  · simp [Function.update_of_ne hd]

theorem perc_rewrite (h9 : ν 9 = id) (st : DealState) (d : Nat) (n : UInt8) (v : Fin 8) (t : Nat) :
    dealPercussion (rewriteDeal k ν st) (k * d) 9 (ν 9 n) v (k * t) = rewriteDeal k ν (dealPercussion st d 9 n v t) := by
  unfold dealPercussion
  rw [h9, show (rewriteDeal k ν st).lastPerc = st.lastPerc from rfl]
  simp only [id]
  split
  · rw [← push_rewrite]
    congr 1
    simp only [rewriteDeal]
    congr 1
    exact update_map st.lastProg 9 (.midiEvent d (.programChange 9 (percInstr n)))
  · rfl

theorem noteOn_rewrite (hν : ∀ c, Function.Injective (ν c)) (h9 : ν 9 = id) (base : Fin 16 → Fin 8) (st : DealState) (d : Nat) (ch : Fin 16) (n v : UInt8) (t : Nat) :
    dealNoteOn base (rewriteDeal k ν st) (k * d) ch (ν ch n) v (k * t) = (dealNoteOn base st d ch n v t).map (rewriteDeal k ν) := by
  unfold dealNoteOn
  simp only [close_rewrite hν, choose_rename]
  generalize dealCloseSame st d ch n v t = st
  split
  · cases chooseVoice base st.active ch with
    | none => rfl
    | some w =>
      simp only
      have hins : insertNote ((rewriteDeal k ν st).active ch) (ν ch n) w = (insertNote (st.active ch) n w).map fun p => (ν ch p.1, p.2) := by
        unfold insertNote
        rw [show (rewriteDeal k ν st).active ch = (st.active ch).map fun p => (ν ch p.1, p.2) from rfl, remove_rename hν]
        rfl
      rw [hins, setActive_rewrite, switch_rewrite]
      split
      · rename_i h
        subst h
        rw [perc_rewrite h9]
        simp only [Except.map]
        rw [← push_rewrite]
        simp [rewriteAt, rewrite, renameEvent, h9]
      · simp only [Except.map]
        rw [← push_rewrite]
        rfl
  · rfl

theorem toChannel_rewrite (base : Fin 16 → Fin 8) (st : DealState) (ch : Fin 16) (m : TMsg) :
    dealToChannel id base (rewriteDeal k ν st) ch (rewriteAt k ν m) = rewriteDeal k ν (dealToChannel id base st ch m) := by
  unfold dealToChannel
  have hvs : (id ((rewriteDeal k ν st).active ch)).map (·.2) = (id (st.active ch)).map (·.2) := by simp [rewriteDeal]
  simp only [hvs]
  generalize (id (st.active ch)).map (·.2) = vs
  have hf : ∀ (l : List (Fin 8)) (st : DealState), l.foldl (fun st v => st.push v (rewriteAt k ν m)) (rewriteDeal k ν st) =
      rewriteDeal k ν (l.foldl (fun st v => st.push v m) st) := by
    intro l
    induction l with
    | nil => intro st; rfl
    | cons v l ih => intro st; simp only [List.foldl_cons, push_rewrite, ih]
  rw [hf]
  split
  · rfl
  · exact push_rewrite _ _ _

theorem dealEvent_rewrite (hν : ∀ c, Function.Injective (ν c)) (h9 : ν 9 = id) (base : Fin 16 → Fin 8) (st : DealState) (m : TMsg) :
    dealEvent id base (rewriteDeal k ν st) (rewriteAt k ν m) = (dealEvent id base st m).map (rewriteDeal k ν) := by
  obtain ⟨m, t⟩ := m
  cases m with
  | metaEvent d e data =>
    cases e with
    | setTempo => exact congrArg Except.ok (push_rewrite st 0 (.metaEvent d .setTempo data, t))
    | other kind => rfl
  | midiEvent d e =>
    cases e with
    | noteOff ch n v => exact congrArg Except.ok (noteOff_rewrite hν h9 st d ch n v t)
    | noteOn ch n v => exact noteOn_rewrite hν h9 base st d ch n v t
    | polyphonicKeyPressure ch n v =>
      simp only [rewriteAt, rewrite, renameEvent, dealEvent]
      rw [show (rewriteDeal k ν st).active ch = (st.active ch).map fun p => (ν ch p.1, p.2) from rfl, lookup_rename hν]
      cases (st.active ch).lookup n with
      | none => rfl
      | some w => exact congrArg Except.ok (push_rewrite st w (.midiEvent d (.polyphonicKeyPressure ch n v), t))
    | controlChange ch c x =>
      have h := toChannel_rewrite (k := k) (ν := ν) base st ch (.midiEvent d (.controlChange ch c x), t)
      simp only [rewriteAt, rewrite, renameEvent, dealEvent] at h ⊢
      rw [h]
      split
      · simp only [Except.map]
        congr 1
        generalize dealToChannel id base st ch (.midiEvent d (.controlChange ch c x), t) = st
        simp only [rewriteDeal]
        congr 1
        exact update_map st.lastCtrl ch (.midiEvent d (.controlChange ch c x))
      · rfl
    | programChange ch x =>
      have h := toChannel_rewrite (k := k) (ν := ν) base st ch (.midiEvent d (.programChange ch x), t)
      simp only [rewriteAt, rewrite, renameEvent, dealEvent] at h ⊢
      rw [h]
      simp only [Except.map]
      congr 1
      generalize dealToChannel id base st ch (.midiEvent d (.programChange ch x), t) = st
      simp only [rewriteDeal]
      congr 1
      exact update_map st.lastProg ch (.midiEvent d (.programChange ch x))
    | channelPressure ch x => exact congrArg Except.ok (toChannel_rewrite base st ch (.midiEvent d (.channelPressure ch x), t))
    | pitchBendChange ch x =>
      have h := toChannel_rewrite (k := k) (ν := ν) base st ch (.midiEvent d (.pitchBendChange ch x), t)
      simp only [rewriteAt, rewrite, renameEvent, dealEvent] at h ⊢
      rw [h]
      simp only [Except.map]
      congr 1
      generalize dealToChannel id base st ch (.midiEvent d (.pitchBendChange ch x), t) = st
      simp only [rewriteDeal]
      congr 1
      exact update_map st.lastBend ch (.midiEvent d (.pitchBendChange ch x))
    | unknown ch => rfl
  | sysEx d data => exact congrArg Except.ok (push_rewrite st 0 (.sysEx d data, t))
  | trackChange => rfl

/-! ## Merging -/

/-- All times fit in 32 bits after multiplication. -/
def Fits32 (k : Nat) (l : List TMsg) : Prop := ∀ m ∈ l, k * m.2 < 2 ^ 32

theorem priority_le (m : Message) : priority m ≤ 2 := by
  unfold priority; split <;> (try split) <;> omega

theorem keyLt_iff (a b : Nat × Nat) : keyLt a b = true ↔ a.1 < b.1 ∨ (a.1 = b.1 ∧ a.2 < b.2) := by simp [keyLt]

theorem headKey_rewrite (hk : 0 < k) (a b : List TMsg) (ha : Fits32 k a) (hb : Fits32 k b) :
    keyLt (headKey (a.map (rewriteAt k ν))) (headKey (b.map (rewriteAt k ν))) = keyLt (headKey a) (headKey b) := by
  have le : ∀ t : Nat, t ≤ k * t := fun t => Nat.le_mul_of_pos_left t hk
  rw [Bool.eq_iff_iff, keyLt_iff, keyLt_iff]
  cases a with
  | nil =>
    cases b with
    | nil => exact Iff.rfl
    | cons y b =>
      have h1 := hb y (by simp)
      have h2 := le y.2
      have h3 := priority_le y.1
      simp only [List.map_nil, List.map_cons, headKey, sortKey, rewriteAt, priority_rewrite]
      omega
  | cons x a =>
    have h1 := ha x (by simp)
    have h2 := le x.2
    have h3 := priority_le x.1
    cases b with
    | nil =>
      simp only [List.map_nil, List.map_cons, headKey, sortKey, rewriteAt, priority_rewrite]
      omega
    | cons y b =>
      simp only [List.map_cons, headKey, sortKey, rewriteAt, priority_rewrite, Nat.mul_lt_mul_left hk,
        Nat.mul_right_inj (Nat.ne_of_gt hk)]

theorem nextChannel_rewrite (hk : 0 < k) (rem : ChanMsgs) (h : ∀ c, Fits32 k (rem c)) :
    nextChannel (fun c => (rem c).map (rewriteAt k ν)) = nextChannel rem := by
  unfold nextChannel
  congr 1
  funext best i
  rw [headKey_rewrite hk _ _ (h i) (h best)]

theorem mergeLoop_rewrite (hk : 0 < k) (hν : ∀ c, Function.Injective (ν c)) (h9 : ν 9 = id) (base : Fin 16 → Fin 8) (fuel : Nat) :
    ∀ (rem : ChanMsgs) (done : Nat) (st : DealState), (∀ c, Fits32 k (rem c)) →
    mergeLoop id base fuel (fun c => (rem c).map (rewriteAt k ν)) done (rewriteDeal k ν st) = (mergeLoop id base fuel rem done st).map (rewriteDeal k ν) := by
  induction fuel with
  | zero => intro rem done st h; unfold mergeLoop; split <;> rfl
  | succ fuel ih =>
    intro rem done st h
    unfold mergeLoop
    split
    · simp only [nextChannel_rewrite hk rem h]
      generalize hc : nextChannel rem = c
      cases hr : rem c with
      | nil => rfl
      | cons m ms =>
        simp only [List.map_cons, dealEvent_rewrite hν h9]
        cases dealEvent id base st m with
        | error e => rfl
        | ok st' =>
          have hu : Function.update (fun c => (rem c).map (rewriteAt k ν)) c (ms.map (rewriteAt k ν)) =
              fun d => (Function.update rem c ms d).map (rewriteAt k ν) := by
            funext d
            by_cases hd : d = c
            · subst hd; simp
            · simp [Function.update_of_ne hd]
          simp only [Except.map, bind, Except.bind, List.isEmpty_map, hu]
          refine ih _ _ _ ?_
          intro d
          by_cases hd : d = c
          · subst hd
            simp only [Function.update_self]
            intro x hx
            exact h d x (by rw [hr]; simp [hx])
          · rw [Function.update_of_ne hd]; exact h d
    · rfl

theorem channelsToVoices_rewrite (hk : 0 < k) (hν : ∀ c, Function.Injective (ν c)) (h9 : ν 9 = id) (cs : ChanMsgs) (base : Fin 16 → Fin 8)
    (h : ∀ c, Fits32 k (cs c)) :
    channelsToVoices id (fun c => (cs c).map (rewriteAt k ν)) base (fun _ => []) =
      (channelsToVoices id cs base (fun _ => [])).map fun vs v => (vs v).map (rewriteAt k ν) := by
  unfold channelsToVoices countMsgs
  simp only [List.isEmpty_map, List.length_map]
  have := mergeLoop_rewrite hk hν h9 base (((List.finRange 16).map fun c => (cs c).length).sum) cs ((List.finRange 16).countP fun c => (cs c).isEmpty)
    { voices := fun _ => [], lastChan := fun v => (List.finRange 16).find? fun c => base c = v } h
  rw [show rewriteDeal k ν { voices := fun _ => [], lastChan := fun v => (List.finRange 16).find? fun c => base c = v } =
    { voices := fun _ => [], lastChan := fun v => (List.finRange 16).find? fun c => base c = v } from rfl] at this
  rw [this]
  cases mergeLoop id base _ cs _ _ <;> rfl

/-! ## Reading -/

/-- What has been read, rewritten. -/
def rewriteHandler (k : Nat) (ν : Fin 16 → UInt8 → UInt8) (h : MidiHandler) : MidiHandler where
  tracks := h.tracks.map (List.map (rewrite k ν))
  channels c := { messages := (h.channels c).messages.map (rewriteAt k ν), intervals := (h.channels c).intervals.map (stretch k), baseVoice := (h.channels c).baseVoice }
  voices v := (h.voices v).map (rewriteAt k ν)
  ticksPerBeat := k * h.ticksPerBeat
  maxTime := k * h.maxTime

theorem process_rewrite (hk : 0 < k) (hν : ∀ c, Function.Injective (ν c)) (h9 : ν 9 = id) (h : MidiHandler) (hc : ∀ c, (h.channels c).messages = [])
    (hv : h.voices = fun _ => []) (hm : h.maxTime = 0) (hfit : Fits32 k (fileMessages h.tracks)) :
    (collected k ν h).process id = (h.process id).map (rewriteHandler k ν) := by
  have hfit1 : timesFit (fileMessages h.tracks) := fun m hm => Nat.lt_of_le_of_lt (Nat.le_mul_of_pos_left m.2 hk) (hfit m hm)
  have hfit2 : timesFit (fileMessages (collected k ν h).tracks) := by
    rw [show (collected k ν h).tracks = h.tracks.map (List.map (rewrite k ν)) from rfl, fileMessages_rewrite]
    intro m hm
    obtain ⟨x, hx, rfl⟩ := List.mem_map.1 hm
    exact hfit x hx
  obtain ⟨cs, hcs⟩ : ∃ cs : ChanMsgs, cs = fun c => sortMessages ((h.channels c).messages ++ toChan (fileMessages h.tracks) c) := ⟨_, rfl⟩
  have e1 := (tracksToChannels_ok h.tracks (fun c => (h.channels c).messages) cs).2 ⟨hfit1, hcs⟩
  have e2 : tracksToChannels (collected k ν h).tracks (fun c => ((collected k ν h).channels c).messages) = .ok fun c => (cs c).map (rewriteAt k ν) := by
    refine (tracksToChannels_ok _ _ _).2 ⟨hfit2, ?_⟩
    rw [hcs]
    funext c
    beta_reduce
    rw [show (collected k ν h).channels c = h.channels c from rfl, hc c,
      show (collected k ν h).tracks = h.tracks.map (List.map (rewrite k ν)) from rfl, fileMessages_rewrite, List.nil_append, List.nil_append, toChan_rewrite,
      sort_rewrite hk]
  have hcfit : ∀ c, Fits32 k (cs c) := by
    intro c m hm
    rw [hcs] at hm
    simp only at hm
    rw [(sort_perm _).mem_iff, hc c, List.nil_append] at hm
    exact hfit m (List.mem_filter.1 hm).1
  unfold MidiHandler.process
  rw [e1, e2]
  simp only [bind, Except.bind]
  rw [show (collected k ν h).maxTime = 0 from hm, hm, scanChannels_rewrite hk]
  cases scanChannels cs 0 with
  | error e => rfl
  | ok r =>
    obtain ⟨ivs, mt⟩ := r
    simp only [Except.map]
    have hf := find_stretch hk ((List.finRange 16).map ivs) (fun _ => [])
    rw [List.map_map] at hf
    rw [show ((List.finRange 16).map fun c => (ivs c).map (stretch k)) = (List.finRange 16).map (List.map (stretch k) ∘ ivs) from rfl]
    rw [show (fun _ : Fin 8 => ([] : List VoiceInterval).map (stretch k)) = fun _ => [] from rfl] at hf
    rw [hf]
    cases findBaseVoices ((List.finRange 16).map ivs) (fun _ => []) with
    | none => rfl
    | some bs =>
      simp only
      rw [show (collected k ν h).voices = h.voices from rfl, hv, channelsToVoices_rewrite hk hν h9 cs _ hcfit]
      cases channelsToVoices id cs (fun c => bs.getD c 0) (fun _ => []) with
      | error e => rfl
      | ok vs => rfl

theorem readMidi_rewrite_id (hk : 0 < k) (hν : ∀ c, Function.Injective (ν c)) (h9 : ν 9 = id) (calls : List Callback)
    (hfit : Fits32 k (file calls)) : readMidi id (calls.map (rewriteCall k ν)) = (readMidi id calls).map (rewriteHandler k ν) := by
  unfold readMidi
  have h := foldlM_rewrite MidiHandler.handle MidiHandler.handle (rewriteCall k ν) (collected k ν) calls (fun h c _ => handle_rewrite h c) {}
  rw [show collected k ν {} = {} from rfl] at h
  rw [h]
  cases e : calls.foldlM MidiHandler.handle {} with
  | error e => rfl
  | ok h0 =>
    obtain ⟨i1, -, i3, i4, i5⟩ := handle_tracks calls {} h0 e
    obtain ⟨i1, -⟩ := i1 rfl
    refine process_rewrite hk hν h9 h0 (fun c => by rw [i3]) i4 i5 ?_
    rw [i1]
    exact hfit

end M2S
