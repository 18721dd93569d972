import Verif.Spec.ReadReport
import Verif.Proofs.Reading
/-
The messages of the reader: leaving them out gives `Verif/Midi.lean` and `Verif/Song.lean`; each of them is true.
-/
namespace M2S
open MidiSpec

/-! Results and silence. -/

theorem said_result {α β : Type} (x : Said α) (f : α → Said β) : (x >>= f).result = x.result >>= fun a => (f a).result := by
  show (match x.result with | .ok a => (⟨x.lines ++ (f a).lines, (f a).result⟩ : Said β) | .error e => ⟨x.lines, .error e⟩).result = _
  cases x.result <;> rfl

theorem said_unit {β : Type} (ls : List ReadLine) (f : Unit → Said β) : ((⟨ls, .ok ()⟩ : Said Unit) >>= f).result = (f ()).result := rfl

theorem said_lines {α β : Type} {x : Said α} {f : α → Said β} {a : α} (h : x.result = .ok a) : (x >>= f).lines = x.lines ++ (f a).lines := by
  show (match x.result with | .ok a => (⟨x.lines ++ (f a).lines, (f a).result⟩ : Said β) | .error e => ⟨x.lines, .error e⟩).lines = _
  rw [h]

theorem said_lines_error {α β : Type} {x : Said α} {f : α → Said β} {e : Fault} (h : x.result = .error e) : (x >>= f).lines = x.lines := by
  show (match x.result with | .ok a => (⟨x.lines ++ (f a).lines, (f a).result⟩ : Said β) | .error e => ⟨x.lines, .error e⟩).lines = _
  rw [h]

theorem said_foldlM {α β : Type} {f : β → α → Said β} {g : β → α → Res β} (h : ∀ b a, (f b a).result = g b a) :
    ∀ (l : List α) (b : β), (l.foldlM f b).result = l.foldlM g b := by
  intro l
  induction l with
  | nil => intro b; rfl
  | cons a l ih =>
    intro b
    rw [List.foldlM_cons, List.foldlM_cons, said_result, h]
    congr 1
    funext x
    exact ih x

/-- Nothing is printed. -/
def Hush {α : Type} (x : Said α) : Prop := x.lines = []

theorem hush_pure {α : Type} (a : α) : Hush (pure a : Said α) := rfl

theorem hush_mute {α : Type} (r : Res α) : Hush (mute r) := rfl

theorem hush_bind {α β : Type} {x : Said α} {f : α → Said β} (h : Hush x) (hf : ∀ a, Hush (f a)) : Hush (x >>= f) := by
  unfold Hush at *
  cases hr : x.result with
  | ok a => rw [said_lines hr, h, hf a]; rfl
  | error e => rw [said_lines_error hr, h]

theorem hush_foldlM {α β : Type} {f : β → α → Said β} (h : ∀ b a, Hush (f b a)) : ∀ (l : List α) (b : β), Hush (l.foldlM f b) := by
  intro l
  induction l with
  | nil => intro b; exact hush_pure b
  | cons a l ih => intro b; rw [List.foldlM_cons]; exact hush_bind (h b a) ih

theorem result_tellTracks (v : Bool) (ts : List (List Message)) (cs : ChanMsgs) : (tellTracks v ts cs).result = tracksToChannels ts cs := by
  have key : ∀ (ts : List (List Message)) (k : Nat) (cs : ChanMsgs), ((ts.zipIdx k).foldlM (fun cs (x : List Message × Nat) => (do
      let _ ← (⟨shown v (.track x.2), .ok ()⟩ : Said Unit)
      let (cs, _) ← mute (x.1.foldlM routeMessage (cs, 0))
      return cs : Said ChanMsgs)) cs).result = routeTracks ts cs := by
    intro ts
    induction ts with
    | nil => intro k cs; rfl
    | cons t ts ih =>
      intro k cs
      rw [List.zipIdx_cons, List.foldlM_cons, said_result]
      unfold routeTracks
      rw [List.foldlM_cons]
      simp only [said_result]
      congr 1
      funext x
      exact ih (k + 1) x
  unfold tellTracks tracksToChannels
  rw [said_result]
  have := key ts 0 cs
  unfold routeTracks at this
  erw [this]
  rfl

theorem tellValid_step (v : Bool) (ch : List VoiceInterval) (active : ActiveIntervals) : tellValid v ch active =
    (((List.finRange 8).foldl (tellVoice v ch active) ([], [], false)).1 ++ shown v (.candidates ((List.finRange 8).foldl (tellVoice v ch active) ([], [], false)).2.1),
      ((List.finRange 8).foldl (tellVoice v ch active) ([], [], false)).2.1) := by unfold tellValid; rfl

theorem result_tellValid (v : Bool) (ch : List VoiceInterval) (active : ActiveIntervals) : (tellValid v ch active).2 = validVoices ch active := by
  rw [tellValid_step]
  show ((List.finRange 8).foldl (tellVoice v ch active) ([], [], false)).2.1 = _
  show _ = ((List.finRange 8).foldl (validStep ch active) ([], false)).1
  suffices H : ∀ (l : List (Fin 8)) (st : List ReadLine × List (Fin 8) × Bool), (l.foldl (tellVoice v ch active) st).2 = l.foldl (validStep ch active) st.2 by rw [H]
  intro l
  induction l with
  | nil => intro st; rfl
  | cons i l ih =>
    intro st
    rw [List.foldl_cons, List.foldl_cons, ih]
    congr 1
    unfold tellVoice validStep
    simp only
    by_cases h : (!st.2.2 || !(active i).isEmpty) = true
    · rw [if_pos h, if_pos h]
      cases overlappingInterval ch (active i) <;> rfl
    · rw [if_neg h, if_neg h]

theorem result_tellTries (v : Bool) (c : Fin 16) (next : Fin 8 → List ReadLine × Option (List (Fin 8))) (vs : List (Fin 8)) :
    (tellTries v c next vs).2 = vs.findSome? fun w => (next w).2.map (w :: ·) := by
  induction vs with
  | nil => rfl
  | cons w vs ih =>
    rw [tellTries, List.findSome?_cons]
    cases h : next w with
    | mk ls r =>
      cases r with
      | none => simp only [Option.map_none]; exact ih
      | some bs => rfl

theorem result_tellFind (v : Bool) : ∀ (chs : List (Fin 16 × List VoiceInterval)) (active : ActiveIntervals),
    (tellFind v chs active).2 = findBaseVoices (chs.map (·.2)) active := by
  intro chs
  induction chs with
  | nil => intro active; rfl
  | cons x chs ih =>
    intro active
    obtain ⟨c, ch⟩ := x
    rw [tellFind, List.map_cons, findBaseVoices]
    show (tellTries v c (fun w => tellFind v chs (Function.update active w (active w ++ ch))) (tellValid v ch active).2).2 = _
    rw [result_tellTries, result_tellValid]
    congr 1
    funext w
    rw [ih]

theorem result_tellChoose (ord : EnumOrder) (v : Bool) (base : Fin 16 → Fin 8) (active : Fin 16 → List (UInt8 × Fin 8)) (ch : Fin 16) (t : Nat) :
    (tellChoose ord v base active ch t).2 = chooseVoice base active ch := by
  unfold tellChoose chooseVoice
  by_cases h : voiceBusy active (base ch) = true
  · rw [if_pos h, if_pos h]
    simp only
    cases List.find? (fun v => !((List.finRange 16).any fun c => base c = v) && !voiceBusy active v) (List.finRange 8) <;> rfl
  · rw [if_neg h, if_neg h]

theorem result_tellEvent (ord : EnumOrder) (v : Bool) (base : Fin 16 → Fin 8) (st : DealState) (m : TMsg) : (tellEvent ord v base st m).result = dealEvent ord base st m := by
  obtain ⟨m, t⟩ := m
  cases m with
  | midiEvent d e =>
    cases e with
    | noteOn ch n vel =>
      show (tellNoteOn ord v base st d ch n vel t).result = dealNoteOn base st d ch n vel t
      unfold tellNoteOn dealNoteOn
      simp only
      by_cases hv : vel > 0
      · rw [if_pos hv, if_pos hv]
        rw [← result_tellChoose ord v base (dealCloseSame st d ch n vel t).active ch t]
        rcases tellChoose ord v base (dealCloseSame st d ch n vel t).active ch t with ⟨ls, r⟩
        cases r with
        | none => rfl
        | some w =>
          simp only
          by_cases h9 : ch = 9
          · rw [if_pos h9, if_pos h9]
          · rw [if_neg h9, if_neg h9]
      · rw [if_neg hv, if_neg hv]
    | _ => rfl
  | _ => rfl

theorem tellMerge_with (ord : EnumOrder) (v : Bool) (base : Fin 16 → Fin 8) : ∀ (n : Nat) (rem : ChanMsgs) (done : Nat) (st : DealState),
    tellMerge ord v base n rem done st = mergeWith (mute (.error .diverged)) (mute panicked) (tellEvent ord v base) n rem done st := by
  intro n
  induction n with
  | zero => intro rem done st; rw [tellMerge, mergeWith]
  | succ n ih =>
    intro rem done st
    rw [tellMerge, mergeWith]
    simp only [ih]
    rfl

theorem result_tellMerge (ord : EnumOrder) (v : Bool) (base : Fin 16 → Fin 8) : ∀ (n : Nat) (rem : ChanMsgs) (done : Nat) (st : DealState),
    (tellMerge ord v base n rem done st).result = mergeLoop ord base n rem done st := by
  intro n
  induction n with
  | zero => intro rem done st; rw [tellMerge, mergeLoop]; split_ifs <;> rfl
  | succ n ih =>
    intro rem done st
    rw [tellMerge, mergeLoop]
    by_cases h : done < 16
    · rw [if_pos h, if_pos h]
      simp only
      cases rem (nextChannel rem) with
      | nil => rfl
      | cons m ms =>
        simp only
        rw [said_result, result_tellEvent]
        congr 1
        funext st1
        exact ih _ _ st1
    · rw [if_neg h, if_neg h]; rfl

theorem result_tellVoices (ord : EnumOrder) (v : Bool) (cs : ChanMsgs) (base : Fin 16 → Fin 8) (voices : Fin 8 → List TMsg) :
    (tellVoices ord v cs base voices).result = channelsToVoices ord cs base voices := by
  unfold tellVoices channelsToVoices
  simp only
  rw [said_result, result_tellMerge]
  rfl

theorem result_tellProcess (ord : EnumOrder) (v : Bool) (h : MidiHandler) : (tellProcess ord v h).result = h.process ord := by
  unfold tellProcess MidiHandler.process
  rw [said_result, result_tellTracks]
  congr 1
  funext cs
  rw [said_result]
  show (scanChannels cs h.maxTime >>= _) = _
  congr 1
  funext x
  obtain ⟨ivs, mt⟩ := x
  have hm : ((List.finRange 16).map fun c => (c, ivs c)).map (·.2) = (List.finRange 16).map ivs := by rw [List.map_map]; rfl
  have := result_tellFind v ((List.finRange 16).map fun c => (c, ivs c)) (fun _ => [])
  rw [hm] at this
  simp only
  rw [← this]
  cases tellFind v ((List.finRange 16).map fun c => (c, ivs c)) (fun _ => []) with
  | mk ls r =>
    cases r with
    | none => rfl
    | some bs =>
      simp only
      rw [said_unit, said_result, result_tellVoices]
      rfl

theorem result_tellRead (ord : EnumOrder) (v : Bool) (path : String) (calls : List Callback) : (tellRead ord v path calls).result = readMidi ord calls := by
  unfold tellRead readMidi
  rw [said_unit, said_result]
  show (calls.foldlM MidiHandler.handle {} >>= _) = _
  congr 1
  funext h
  exact result_tellProcess ord v h

theorem result_tellOptimise (v : Bool) : ∀ (n : Nat) (tracks : List (List PCmd)) (top : Nat), (tellOptimise v n tracks top).result = optimizeFuel n tracks top := by
  intro n
  induction n with
  | zero => intro tracks top; rfl
  | succ n ih =>
    intro tracks top
    rw [tellOptimise, optimizeFuel, said_result]
    show (buildTree tracks top >>= _) = _
    congr 1
    funext tree
    rw [said_result]
    show (bestSequence tree >>= _) = _
    congr 1
    funext seq
    rw [said_result]
    cases seq with
    | none => rfl
    | some s =>
      show (mute (extractSequence tracks s top) >>= _ : Said _).result = _
      rw [said_result]
      show (extractSequence tracks s top >>= _) = _
      congr 1
      funext tracks'
      exact ih tracks' top

theorem result_tellSongOf (v : Bool) (h : MidiHandler) (f : F32) (o : Bool) : (tellSongOf v h f o).result = songFromMidi h f o := by
  unfold tellSongOf songFromMidi
  rw [said_result]
  show (voiceTracks h f >>= _) = _
  congr 1
  funext tracks
  cases o with
  | false => rfl
  | true =>
    simp only [if_true]
    rw [said_result, result_tellOptimise]
    rfl

theorem hush_tellTracks (ts : List (List Message)) (cs : ChanMsgs) : Hush (tellTracks false ts cs) := by
  unfold tellTracks
  refine hush_bind (hush_foldlM (fun b a => ?_) _ _) (fun _ => hush_pure _)
  exact hush_bind rfl fun _ => hush_bind (hush_mute _) fun _ => hush_pure _

theorem hush_tellValid (ch : List VoiceInterval) (active : ActiveIntervals) : (tellValid false ch active).1 = [] := by
  rw [tellValid_step]
  show _ ++ [] = _
  rw [List.append_nil]
  suffices H : ∀ (l : List (Fin 8)) (st : List ReadLine × List (Fin 8) × Bool), st.1 = [] → (l.foldl (tellVoice false ch active) st).1 = [] from H _ _ rfl
  intro l
  induction l with
  | nil => intro st h; exact h
  | cons i l ih =>
    intro st h
    rw [List.foldl_cons]
    apply ih
    unfold tellVoice
    simp only
    split_ifs
    · cases overlappingInterval ch (active i) with
      | some x => show st.1 ++ [] = []; rw [h]; rfl
      | none => exact h
    · exact h

theorem hush_tellTries (c : Fin 16) (next : Fin 8 → List ReadLine × Option (List (Fin 8))) (hn : ∀ w, (next w).1 = []) (vs : List (Fin 8)) :
    (tellTries false c next vs).1 = [] := by
  induction vs with
  | nil => rfl
  | cons w vs ih =>
    rw [tellTries]
    have := hn w
    cases h : next w with
    | mk ls r =>
      rw [h] at this
      simp only at this
      subst this
      cases r with
      | none => simp only; rw [ih]; rfl
      | some bs => rfl

theorem hush_tellFind : ∀ (chs : List (Fin 16 × List VoiceInterval)) (active : ActiveIntervals), (tellFind false chs active).1 = [] := by
  intro chs
  induction chs with
  | nil => intro active; rfl
  | cons x chs ih =>
    intro active
    obtain ⟨c, ch⟩ := x
    rw [tellFind]
    show [] ++ (tellValid false ch active).1 ++ (tellTries false c (fun w => tellFind false chs (Function.update active w (active w ++ ch))) (tellValid false ch active).2).1 = _
    rw [hush_tellValid, hush_tellTries _ _ (fun w => ih _)]
    rfl

theorem hush_tellEvent (ord : EnumOrder) (base : Fin 16 → Fin 8) (st : DealState) (m : TMsg) : Hush (tellEvent ord false base st m) := by
  obtain ⟨m, t⟩ := m
  cases m with
  | midiEvent d e =>
    cases e with
    | noteOn ch n vel =>
      show Hush (tellNoteOn ord false base st d ch n vel t)
      have hc : ∀ active, (tellChoose ord false base active ch t).1 = [] := by
        intro active
        unfold tellChoose
        split_ifs
        · simp only; split <;> rfl
        · rfl
      unfold tellNoteOn Hush
      simp only
      split_ifs
      · have := hc (dealCloseSame st d ch n vel t).active
        rcases h : tellChoose ord false base (dealCloseSame st d ch n vel t).active ch t with ⟨ls, r⟩
        rw [h] at this
        cases r with
        | none => exact this
        | some w => exact this
      · have := hc (dealCloseSame st d ch n vel t).active
        rcases h : tellChoose ord false base (dealCloseSame st d ch n vel t).active ch t with ⟨ls, r⟩
        rw [h] at this
        cases r with
        | none => exact this
        | some w => exact this
      · rfl
    | _ => rfl
  | _ => rfl

theorem hush_tellMerge (ord : EnumOrder) (base : Fin 16 → Fin 8) : ∀ (n : Nat) (rem : ChanMsgs) (done : Nat) (st : DealState),
    Hush (tellMerge ord false base n rem done st) := by
  intro n
  induction n with
  | zero => intro rem done st; rw [tellMerge]; split_ifs <;> rfl
  | succ n ih =>
    intro rem done st
    rw [tellMerge]
    split_ifs with h
    · simp only
      cases rem (nextChannel rem) with
      | nil => rfl
      | cons m ms => exact hush_bind (hush_tellEvent ..) fun _ => ih _ _ _
    · rfl

theorem hush_tellRead (ord : EnumOrder) (path : String) (calls : List Callback) : Hush (tellRead ord false path calls) := by
  unfold tellRead
  refine hush_bind rfl fun _ => hush_bind (hush_mute _) fun h => ?_
  unfold tellProcess
  refine hush_bind (hush_tellTracks _ _) fun cs => hush_bind (hush_mute _) fun x => ?_
  obtain ⟨ivs, mt⟩ := x
  have := hush_tellFind ((List.finRange 16).map fun c => (c, ivs c)) (fun _ => [])
  simp only
  rcases hf : tellFind false ((List.finRange 16).map fun c => (c, ivs c)) (fun _ => []) with ⟨ls, r⟩
  rw [hf] at this
  cases r with
  | none => exact this
  | some bs =>
    refine hush_bind this fun _ => hush_bind ?_ fun _ => hush_pure _
    unfold tellVoices
    exact hush_bind (hush_tellMerge ..) fun _ => hush_pure _

theorem hush_tellOptimise : ∀ (n : Nat) (tracks : List (List PCmd)) (top : Nat), Hush (tellOptimise false n tracks top) := by
  intro n
  induction n with
  | zero => intro tracks top; rfl
  | succ n ih =>
    intro tracks top
    rw [tellOptimise]
    refine hush_bind (hush_mute _) fun tree => hush_bind (hush_mute _) fun seq => hush_bind rfl fun _ => ?_
    cases seq with
    | none => rfl
    | some s => exact hush_bind (hush_mute _) fun _ => ih _ _

theorem hush_tellSongOf (h : MidiHandler) (f : F32) (o : Bool) : Hush (tellSongOf false h f o) := by
  unfold tellSongOf
  refine hush_bind (hush_mute _) fun tracks => ?_
  cases o with
  | false => rfl
  | true => exact hush_bind (hush_tellOptimise _ _ _) fun _ => hush_pure _

theorem result_tellSongFile (x : Ext) (v : Bool) (fs : FS) (path : String) (tempo : F32) (optimize : Bool) :
    (x.tellSongFile v fs path tempo optimize).result = x.songFromMidiFile fs path tempo optimize := by
  unfold Ext.tellSongFile Ext.songFromMidiFile
  cases fs path with
  | none => rfl
  | some bytes =>
    dsimp only
    cases x.parseMidi bytes with
    | none => rfl
    | some calls =>
      dsimp only
      rw [said_result, result_tellRead]
      congr 1
      funext h
      exact result_tellSongOf v h tempo optimize

theorem hush_tellSongFile (x : Ext) (fs : FS) (path : String) (tempo : F32) (optimize : Bool) : Hush (x.tellSongFile false fs path tempo optimize) := by
  unfold Ext.tellSongFile
  cases fs path with
  | none => rfl
  | some bytes =>
    dsimp only
    cases x.parseMidi bytes with
    | none => rfl
    | some calls => exact hush_bind (hush_tellRead _ _ _) fun h => hush_tellSongOf _ _ _

end M2S
