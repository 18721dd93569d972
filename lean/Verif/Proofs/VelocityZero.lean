import Verif.Proofs.OneVoice
import Verif.Song
/-
Reading a file does not depend on whether ends of notes are written as note-offs or as note-ons of velocity 0 (snares excepted).
-/
namespace M2S
open MidiSpec

/-- Write every end of a note as a note-off of velocity 0, except velocity-0 note-ons of snares. -/
def normE : MidiEvent → MidiEvent
  | .noteOff ch n _ => .noteOff ch n 0
  | .noteOn ch n v => if v = 0 ∧ ¬ (ch = 9 ∧ isSnare n = true) then .noteOff ch n 0 else .noteOn ch n v
  | e => e

def norm : Message → Message
  | .midiEvent d e => .midiEvent d (normE e)
  | m => m

def normC : Callback → Callback
  | .midiEvent d e => .midiEvent d (normE e)
  | c => c

def nm (m : TMsg) : TMsg := (norm m.1, m.2)

theorem norm_channel (e : MidiEvent) : (normE e).channel = e.channel := by
  cases e <;> simp only [normE]
  · rfl
  · split_ifs <;> rfl

theorem norm_priority (m : Message) : priority (norm m) = priority m := by
  cases m with
  | midiEvent d e =>
    cases e with
    | noteOn ch n v =>
      simp only [norm, normE]
      split_ifs with h
      · simp [priority, h.1]
      · rfl
    | _ => rfl
  | _ => rfl

theorem norm_idem (m : Message) : norm (norm m) = norm m := by
  cases m with
  | midiEvent d e =>
    cases e with
    | noteOn ch n v =>
      simp only [norm, normE]
      by_cases h : v = 0 ∧ ¬ (ch = 9 ∧ isSnare n = true)
      · rw [if_pos h]
      · rw [if_neg h]; simp only [if_neg h]
    | _ => rfl
  | _ => rfl

theorem foldlM_sim {σ σ' α α' : Type} (f : σ → α → Res σ) (f' : σ' → α' → Res σ') (F : σ → σ') (G : α → α')
    (h : ∀ s a, f' (F s) (G a) = (f s a).map F) (l : List α) : ∀ s, (l.map G).foldlM f' (F s) = (l.foldlM f s).map F := by
  induction l with
  | nil => intro s; rfl
  | cons a l ih =>
    intro s
    rw [List.map_cons, List.foldlM_cons, List.foldlM_cons, h]
    cases f s a with
    | error e => rfl
    | ok s' => exact ih s'

/-- The tracks of a handler rewritten. -/
def hnorm (h : MidiHandler) : MidiHandler := { h with tracks := h.tracks.map (·.map norm) }

theorem push_norm (ts : List (List Message)) (m : Message) :
    pushMessage (ts.map (·.map norm)) (norm m) = (pushMessage ts m).map (·.map (·.map norm)) := by
  unfold pushMessage
  rw [List.getLast?_map]
  cases ts.getLast? with
  | none => rfl
  | some t => simp [Except.map, List.map_dropLast]

theorem handle_norm (h : MidiHandler) (c : Callback) : (hnorm h).handle (normC c) = (h.handle c).map hnorm := by
  cases c with
  | header f t => simp only [normC, MidiHandler.handle]; split_ifs <;> rfl
  | metaEvent d e data =>
    simp only [normC, MidiHandler.handle, hnorm]
    have := push_norm h.tracks (.metaEvent d e data)
    rw [show norm (.metaEvent d e data) = .metaEvent d e data from rfl] at this
    rw [this]
    cases pushMessage h.tracks (.metaEvent d e data) <;> rfl
  | midiEvent d e =>
    simp only [normC, MidiHandler.handle, hnorm]
    rw [show (.midiEvent d (normE e) : Message) = norm (.midiEvent d e) from rfl, push_norm]
    cases pushMessage h.tracks (.midiEvent d e) <;> rfl
  | sysExEvent d data =>
    simp only [normC, MidiHandler.handle, hnorm]
    have := push_norm h.tracks (.sysEx d data)
    rw [show norm (.sysEx d data) = .sysEx d data from rfl] at this
    rw [this]
    cases pushMessage h.tracks (.sysEx d data) <;> rfl
  | trackChange => simp [normC, MidiHandler.handle, hnorm, Except.map]

/-- Channels rewritten. -/
def cnorm (cs : ChanMsgs) : ChanMsgs := fun c => (cs c).map nm

theorem pushChan_norm (cs : ChanMsgs) (c : Fin 16) (m : TMsg) : pushChan (cnorm cs) c (nm m) = cnorm (pushChan cs c m) := by
  funext c'
  rw [pushChan_apply]
  unfold cnorm
  rw [pushChan_apply]
  split_ifs <;> simp

theorem route_norm (st : ChanMsgs × Nat) (m : Message) :
    routeMessage (cnorm st.1, st.2) (norm m) = (routeMessage st m).map fun r => (cnorm r.1, r.2) := by
  cases m with
  | metaEvent d e data =>
    simp only [routeMessage, norm]
    cases addU32 st.2 d with
    | error e => rfl
    | ok t =>
      simp only [bind, Except.bind, pure, Except.pure, Except.map, Except.ok.injEq, Prod.mk.injEq, and_true]
      exact pushChan_norm st.1 0 (.metaEvent d e data, t)
  | midiEvent d e =>
    simp only [routeMessage, norm]
    cases addU32 st.2 d with
    | error e => rfl
    | ok t =>
      simp only [bind, Except.bind, pure, Except.pure, Except.map, Except.ok.injEq, Prod.mk.injEq, and_true]
      rw [norm_channel]
      exact pushChan_norm st.1 _ (.midiEvent d e, t)
  | sysEx d data =>
    simp only [routeMessage, norm]
    cases addU32 st.2 d with
    | error e => rfl
    | ok t =>
      simp only [bind, Except.bind, pure, Except.pure, Except.map, Except.ok.injEq, Prod.mk.injEq, and_true]
      exact pushChan_norm st.1 0 (.sysEx d data, t)
  | trackChange => rfl

theorem routeTracks_norm (ts : List (List Message)) (cs : ChanMsgs) : routeTracks (ts.map (·.map norm)) (cnorm cs) = (routeTracks ts cs).map cnorm := by
  unfold routeTracks
  apply foldlM_sim
  intro cs track
  have := foldlM_sim routeMessage routeMessage (fun r => (cnorm r.1, r.2)) norm (fun s a => route_norm s a) track (cs, 0)
  simp only at this
  rw [this]
  cases track.foldlM routeMessage (cs, 0) <;> rfl

theorem sort_norm (l : List TMsg) : sortMessages (l.map nm) = (sortMessages l).map nm := by
  unfold sortMessages
  refine (List.map_insertionSort (r := keyLe) (s := keyLe) nm l ?_).symm
  intro a _ b _
  unfold keyLe nm
  simp only [norm_priority]

theorem tracksToChannels_norm (ts : List (List Message)) (cs : ChanMsgs) :
    tracksToChannels (ts.map (·.map norm)) (cnorm cs) = (tracksToChannels ts cs).map cnorm := by
  unfold tracksToChannels
  rw [routeTracks_norm]
  cases routeTracks ts cs with
  | error e => rfl
  | ok cs =>
    simp only [bind, Except.bind, pure, Except.pure, Except.map, Except.ok.injEq]
    funext c
    exact sort_norm _

theorem scan_norm (i : Fin 16) (st : ScanState) (m : TMsg) : scanMessage i st (nm m) = scanMessage i st m := by
  obtain ⟨m, t⟩ := m
  cases m with
  | midiEvent d e =>
    cases e with
    | noteOn ch n v =>
      simp only [nm, norm, normE]
      split_ifs with h
      · simp only [scanMessage, h.1, if_true]
      · rfl
    | _ => rfl
  | _ => rfl

theorem scanChannel_norm (i : Fin 16) (l : List TMsg) (mt : Nat) : scanChannel i (l.map nm) mt = scanChannel i l mt := by
  unfold scanChannel
  have := foldlM_sim (scanMessage i) (scanMessage i) id nm (fun s a => by
    simp only [id]; rw [scan_norm]; cases scanMessage i s a <;> rfl) l { maxTime := mt }
  simp only [id] at this
  rw [this]
  cases l.foldlM (scanMessage i) { maxTime := mt } <;> rfl

theorem scanChannels_norm (cs : ChanMsgs) (mt : Nat) : scanChannels (cnorm cs) mt = scanChannels cs mt := by
  unfold scanChannels cnorm
  simp only [scanChannel_norm]

/-- Voices rewritten. -/
def vnorm (v : Fin 8 → List TMsg) : Fin 8 → List TMsg := fun i => (v i).map nm
def dnorm (st : DealState) : DealState := { st with voices := vnorm st.voices }
def onorm (r : List (Fin 8 × Message) × Ctl) : List (Fin 8 × Message) × Ctl := (r.1.map fun p => (p.1, norm p.2), r.2)

theorem emit_norm (ord : EnumOrder) (base : Fin 16 → Fin 8) (k : Ctl) (m : Message) :
    (emit ord base k (norm m)).map onorm = (emit ord base k m).map onorm := by
  cases m with
  | midiEvent d e =>
    cases e with
    | noteOff ch n v =>
      simp only [norm, normE, emit]
      cases (k.active ch).lookup n with
      | none => rfl
      | some x => simp [onorm, norm, normE]
    | noteOn ch n v =>
      simp only [norm, normE]
      split_ifs with h
      · obtain ⟨rfl, h2⟩ := h
        have h3 : drumNote ch n = n := by
          unfold drumNote percNote
          by_cases h9 : ch = 9
          · have : isSnare n = false := by
              by_contra hc; exact h2 ⟨h9, by simpa using hc⟩
            simp [h9, this]
          · simp [h9]
        simp only [emit, outClose, ctlClose, h3]
        rw [if_neg (by decide)]
        cases (k.active ch).lookup n <;> rfl
      · rfl
    | _ => rfl
  | _ => rfl

theorem onVoice_norm (o : List (Fin 8 × Message)) (v : Fin 8) : onVoice (o.map fun p => (p.1, norm p.2)) v = (onVoice o v).map norm := by
  unfold onVoice
  rw [List.filter_map, List.map_map, List.map_map]
  rfl

theorem deal_norm (ord : EnumOrder) (base : Fin 16 → Fin 8) (st st' : DealState) (hs : dnorm st' = dnorm st) (m : TMsg) :
    (dealEvent ord base st' (nm m)).map dnorm = (dealEvent ord base st m).map dnorm := by
  obtain ⟨m, t⟩ := m
  have hc : (dnorm st').ctl = (dnorm st).ctl := congrArg DealState.ctl hs
  replace hc : st'.ctl = st.ctl := hc
  have hv : vnorm st'.voices = vnorm st.voices := congrArg DealState.voices hs
  unfold nm
  simp only
  rw [dealEvent_emit, dealEvent_emit, hc]
  have he := emit_norm ord base st.ctl m
  cases h1 : emit ord base st.ctl m with
  | none =>
    rw [h1] at he
    cases h2 : emit ord base st.ctl (norm m) with
    | none => rfl
    | some r => rw [h2] at he; cases he
  | some r =>
    obtain ⟨o, k⟩ := r
    rw [h1] at he
    cases h2 : emit ord base st.ctl (norm m) with
    | none => rw [h2] at he; cases he
    | some r' =>
      obtain ⟨o', k'⟩ := r'
      rw [h2] at he
      simp only [Option.map_some, onorm, Option.some.injEq, Prod.mk.injEq] at he
      obtain ⟨ho, rfl⟩ := he
      simp only [Except.map, Except.ok.injEq]
      unfold dnorm DealState.after
      simp only [DealState.mk.injEq, and_true]
      funext v
      have e1 : (st'.voices v).map nm = (st.voices v).map nm := congrFun hv v
      have e2 : (onVoice o' v).map norm = (onVoice o v).map norm := by rw [← onVoice_norm, ← onVoice_norm, ho]
      unfold vnorm
      rw [List.map_append, List.map_append, e1, List.map_map, List.map_map]
      congr 1
      have e3 : ∀ l : List Message, l.map (nm ∘ fun m => (m, t)) = (l.map norm).map fun m => (m, t) := by
        intro l; rw [List.map_map]; rfl
      rw [e3, e3, e2]

theorem next_norm (rem : ChanMsgs) : nextChannel (cnorm rem) = nextChannel rem := by
  have : ∀ c, headKey (cnorm rem c) = headKey (rem c) := by
    intro c
    unfold cnorm
    cases rem c with
    | nil => rfl
    | cons m ms => simp [headKey, sortKey, nm, norm_priority]
  unfold nextChannel
  simp only [this]

theorem merge_norm (ord : EnumOrder) (base : Fin 16 → Fin 8) (fuel : Nat) : ∀ rem done st st', dnorm st' = dnorm st →
    (mergeLoop ord base fuel (cnorm rem) done st').map dnorm = (mergeLoop ord base fuel rem done st).map dnorm := by
  induction fuel with
  | zero =>
    intro rem done st st' hs
    rw [mergeLoop, mergeLoop]
    split_ifs
    · rfl
    · simp only [Except.map, hs]
  | succ n ih =>
    intro rem done st st' hs
    rw [mergeLoop, mergeLoop]
    split_ifs
    · simp only [next_norm]
      have hc : cnorm rem (nextChannel rem) = (rem (nextChannel rem)).map nm := rfl
      rw [hc]
      cases hr : rem (nextChannel rem) with
      | nil => rfl
      | cons m ms =>
        simp only [List.map_cons]
        have h1 := deal_norm ord base st st' hs m
        have h2 : Function.update (cnorm rem) (nextChannel rem) (ms.map nm) = cnorm (Function.update rem (nextChannel rem) ms) := by
          funext c
          unfold cnorm
          by_cases h : c = nextChannel rem
          · subst h; simp
          · simp [Function.update_of_ne h]
        rw [h2, show (ms.map nm).isEmpty = ms.isEmpty from by cases ms <;> rfl]
        cases e1 : dealEvent ord base st m with
        | error e =>
          rw [e1] at h1
          cases e2 : dealEvent ord base st' (nm m) with
          | error e' => rw [e2] at h1; simp only [Except.map, Except.error.injEq] at h1; rw [h1]; rfl
          | ok a => rw [e2] at h1; cases h1
        | ok a =>
          rw [e1] at h1
          cases e2 : dealEvent ord base st' (nm m) with
          | error e' => rw [e2] at h1; cases h1
          | ok a' =>
            rw [e2] at h1
            simp only [Except.map, Except.ok.injEq] at h1
            simp only [bind, Except.bind]
            exact ih _ _ _ _ h1
    · simp only [Except.map, hs]

theorem count_norm (cs : ChanMsgs) : countMsgs (cnorm cs) = countMsgs cs := by
  unfold countMsgs cnorm; simp

theorem voices_norm (ord : EnumOrder) (base : Fin 16 → Fin 8) (cs : ChanMsgs) (voices voices' : Fin 8 → List TMsg) (hv : vnorm voices' = vnorm voices) :
    (channelsToVoices ord (cnorm cs) base voices').map vnorm = (channelsToVoices ord cs base voices).map vnorm := by
  unfold channelsToVoices
  simp only
  rw [count_norm]
  have he : ((List.finRange 16).countP fun c => (cnorm cs c).isEmpty) = (List.finRange 16).countP fun c => (cs c).isEmpty := by
    congr 1; funext c; unfold cnorm; cases cs c <;> rfl
  rw [he]
  have hm := merge_norm ord base (countMsgs cs) cs ((List.finRange 16).countP fun c => (cs c).isEmpty)
    { voices := voices, lastChan := fun v => (List.finRange 16).find? fun c => base c = v }
    { voices := voices', lastChan := fun v => (List.finRange 16).find? fun c => base c = v } (by unfold dnorm; simp only [hv])
  generalize mergeLoop ord base (countMsgs cs) (cnorm cs) _ _ = a at hm
  generalize mergeLoop ord base (countMsgs cs) cs _ _ = b at hm
  cases a with
  | error e =>
    cases b with
    | error e' => simpa [Except.map, bind, Except.bind] using hm
    | ok b => cases hm
  | ok a =>
    cases b with
    | error e' => cases hm
    | ok b =>
      simp only [Except.map, Except.ok.injEq] at hm
      simp only [bind, Except.bind, pure, Except.pure, Except.map, Except.ok.injEq]
      exact congrArg DealState.voices hm

/-- The result of a read as far as the song depends on it, up to the rewriting. -/
def essence (h : MidiHandler) : (Fin 8 → List TMsg) × Nat × Nat := (vnorm h.voices, h.ticksPerBeat, h.maxTime)

theorem vnorm_idem (v : Fin 8 → List TMsg) : vnorm (vnorm v) = vnorm v := by
  funext i
  unfold vnorm
  rw [List.map_map]
  congr 1
  funext m
  simp [nm, norm_idem]

theorem handle_ctl (calls : List Callback) : ∀ h h', calls.foldlM MidiHandler.handle h = .ok h' → h'.channels = h.channels ∧ h'.voices = h.voices := by
  induction calls with
  | nil => intro h h' he; simp only [List.foldlM_nil, res_pure] at he; subst he; exact ⟨rfl, rfl⟩
  | cons c cs ih =>
    intro h h' he
    rw [List.foldlM_cons, res_bind] at he
    obtain ⟨h1, e1, e2⟩ := he
    obtain ⟨i1, i2⟩ := ih _ _ e2
    rw [i1, i2]
    cases c with
    | header f t =>
      simp only [MidiHandler.handle] at e1
      split_ifs at e1
      · cases e1
      · cases e1; exact ⟨rfl, rfl⟩
    | trackChange => simp only [MidiHandler.handle] at e1; cases e1; exact ⟨rfl, rfl⟩
    | metaEvent d e data =>
      simp only [MidiHandler.handle, res_bind, res_pure] at e1
      obtain ⟨_, _, rfl⟩ := e1; exact ⟨rfl, rfl⟩
    | midiEvent d e =>
      simp only [MidiHandler.handle, res_bind, res_pure] at e1
      obtain ⟨_, _, rfl⟩ := e1; exact ⟨rfl, rfl⟩
    | sysExEvent d data =>
      simp only [MidiHandler.handle, res_bind, res_pure] at e1
      obtain ⟨_, _, rfl⟩ := e1; exact ⟨rfl, rfl⟩

theorem read_norm (ord : EnumOrder) (calls : List Callback) :
    (readMidi ord (calls.map normC)).map essence = (readMidi ord calls).map essence := by
  unfold readMidi
  have hh := foldlM_sim MidiHandler.handle MidiHandler.handle hnorm normC handle_norm calls {}
  rw [show hnorm {} = {} from rfl] at hh
  rw [hh]
  cases he : calls.foldlM MidiHandler.handle {} with
  | error e => rfl
  | ok h =>
    obtain ⟨hc, hv⟩ := handle_ctl _ _ _ he
    simp only [Except.map, bind, Except.bind]
    unfold MidiHandler.process
    have hcs : (fun c => ((hnorm h).channels c).messages) = cnorm fun c => (h.channels c).messages := by
      funext c
      show (h.channels c).messages = _
      unfold cnorm
      rw [hc]; rfl
    rw [hcs, show (hnorm h).tracks = h.tracks.map (·.map norm) from rfl, tracksToChannels_norm]
    cases tracksToChannels h.tracks fun c => (h.channels c).messages with
    | error e => rfl
    | ok cs =>
      simp only [Except.map, bind, Except.bind]
      rw [scanChannels_norm, show (hnorm h).maxTime = h.maxTime from rfl]
      cases scanChannels cs h.maxTime with
      | error e => rfl
      | ok r =>
        obtain ⟨ivs, mt⟩ := r
        simp only
        cases findBaseVoices ((List.finRange 16).map ivs) fun _ => [] with
        | none => rfl
        | some bs =>
          simp only
          have hn := voices_norm ord (fun c => bs.getD c 0) cs h.voices (hnorm h).voices rfl
          generalize channelsToVoices ord (cnorm cs) (fun c => bs.getD c 0) (hnorm h).voices = a at hn
          generalize channelsToVoices ord cs (fun c => bs.getD c 0) h.voices = b at hn
          cases a with
          | error e => cases b with
            | error e' => simpa [Except.map] using hn
            | ok b => cases hn
          | ok a => cases b with
            | error e' => cases hn
            | ok b =>
              simp only [Except.map, Except.ok.injEq] at hn
              simp only [pure, Except.pure, essence, hn]
              rfl

/-- The converter treats a message and its rewriting alike, unless it is a note-on of velocity 0. -/
theorem trackStep_norm (tpb : Nat) (f : F32) (st : TrackState) (m : TMsg) (hm : ∀ d ch n v, m.1 = .midiEvent d (.noteOn ch n v) → v ≠ 0) :
    trackStep tpb f st (nm m) = trackStep tpb f st m := by
  obtain ⟨m, t⟩ := m
  cases m with
  | midiEvent d e =>
    cases e with
    | noteOn ch n v =>
      have := hm d ch n v rfl
      simp only [nm, norm, normE]
      rw [if_neg (by tauto)]
    | _ => rfl
  | _ => rfl

theorem trackNew_norm (l : List TMsg) (tpb mt : Nat) (f : F32) (hm : ∀ m ∈ l, ∀ d ch n v, m.1 = .midiEvent d (.noteOn ch n v) → v ≠ 0) :
    trackNew (l.map nm) tpb mt f = trackNew l tpb mt f := by
  have : ∀ st, (l.map nm).foldlM (trackStep tpb f) st = l.foldlM (trackStep tpb f) st := by
    induction l with
    | nil => intro st; rfl
    | cons m l ih =>
      intro st
      rw [List.map_cons, List.foldlM_cons, List.foldlM_cons, trackStep_norm tpb f st m (hm m (by simp))]
      congr 1
      funext s
      exact ih (fun x hx => hm x (by simp [hx])) s
  unfold trackNew
  rw [this]

theorem voices_velocity (ord : EnumOrder) (calls : List Callback) (h : MidiHandler) (hr : readMidi ord calls = .ok h) (v : Fin 8) :
    ∀ m ∈ h.voices v, ∀ d ch n v, m.1 = .midiEvent d (.noteOn ch n v) → v ≠ 0 := by
  obtain ⟨seq, outs, k, s1, s2, s3, s4⟩ := read_emits ord calls h hr
  intro m hm
  rw [s4] at hm
  obtain ⟨p, hp, rfl⟩ := List.mem_map.1 hm
  exact starts_velocity ord _ _ _ _ s3 p (List.mem_of_mem_filter hp)

/-- The song of a file does not change under the rewriting. -/
theorem song_norm (ord : EnumOrder) (calls calls' : List Callback) (hc : calls.map normC = calls'.map normC) (f : F32) (opt : Bool) :
    (readMidi ord calls >>= fun h => songFromMidi h f opt) = (readMidi ord calls' >>= fun h => songFromMidi h f opt) := by
  have he : (readMidi ord calls).map essence = (readMidi ord calls').map essence := by
    rw [← read_norm, hc, read_norm]
  cases h1 : readMidi ord calls with
  | error e =>
    rw [h1] at he
    cases h2 : readMidi ord calls' with
    | error e' => rw [h2] at he; simp only [Except.map, Except.error.injEq] at he; rw [he]
    | ok h' => rw [h2] at he; cases he
  | ok h =>
    rw [h1] at he
    cases h2 : readMidi ord calls' with
    | error e' => rw [h2] at he; cases he
    | ok h' =>
      rw [h2] at he
      simp only [Except.map, Except.ok.injEq, essence, Prod.mk.injEq] at he
      obtain ⟨e1, e2, e3⟩ := he
      simp only [bind, Except.bind]
      have ht : ∀ v, trackNew (h.voices v) h.ticksPerBeat h.maxTime f = trackNew (h'.voices v) h'.ticksPerBeat h'.maxTime f := by
        intro v
        rw [← trackNew_norm _ _ _ _ (voices_velocity ord calls h h1 v), ← trackNew_norm _ _ _ _ (voices_velocity ord calls' h' h2 v), e2, e3]
        congr 1
        exact congrFun e1 v
      unfold songFromMidi voiceTracks
      simp only [ht]

end M2S
