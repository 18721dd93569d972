import Verif.Proofs.ReleaseSong
import Verif.Props.FileToSound
/-
The voices of the build without overflow checks.
-/
namespace M2S
open MidiSpec Timing

theorem release_scan_max (i : Fin 16) (msgs : List TMsg) : ∀ st : ScanState, st.maxTime ≤ (msgs.foldl (Release.scanMessage i) st).maxTime ∧
    ∀ m ∈ msgs, ∀ d e, m.1 = .midiEvent d e → m.2 ≤ (msgs.foldl (Release.scanMessage i) st).maxTime := by
  induction msgs with
  | nil => intro st; simp
  | cons m msgs ih =>
    intro st
    rw [List.foldl_cons]
    obtain ⟨h1, h2⟩ := ih (Release.scanMessage i st m)
    have h3 : st.maxTime ≤ (Release.scanMessage i st m).maxTime := by
      unfold Release.scanMessage
      split
      · simp only
        split <;> simp
      · exact le_rfl
    refine ⟨by omega, ?_⟩
    intro x hx d e hxe
    rcases List.mem_cons.1 hx with rfl | hx
    · refine le_trans ?_ h1
      obtain ⟨x, t⟩ := x
      simp only at hxe
      subst hxe
      unfold Release.scanMessage
      simp only
      split <;> simp
    · exact h2 x hx d e hxe

theorem release_scans_max (cs : ChanMsgs) (l : List (Fin 16)) : ∀ a : (Fin 16 → List VoiceInterval) × Nat,
    a.2 ≤ (l.foldl (fun (acc : (Fin 16 → List VoiceInterval) × Nat) i =>
      let st := (cs i).foldl (Release.scanMessage i) { maxTime := acc.2 }
      (Function.update acc.1 i st.intervals, st.maxTime)) a).2 ∧
    ∀ i ∈ l, ∀ m ∈ cs i, ∀ d e, m.1 = .midiEvent d e → m.2 ≤ (l.foldl (fun (acc : (Fin 16 → List VoiceInterval) × Nat) i =>
      let st := (cs i).foldl (Release.scanMessage i) { maxTime := acc.2 }
      (Function.update acc.1 i st.intervals, st.maxTime)) a).2 := by
  induction l with
  | nil => intro a; simp
  | cons j l ih =>
    intro a
    rw [List.foldl_cons]
    obtain ⟨g1, g2⟩ := release_scan_max j (cs j) { maxTime := a.2 }
    have := ih (Function.update a.1 j ((cs j).foldl (Release.scanMessage j) { maxTime := a.2 }).intervals, ((cs j).foldl (Release.scanMessage j) { maxTime := a.2 }).maxTime)
    obtain ⟨h1, h2⟩ := this
    simp only at h1 g1
    refine ⟨le_trans g1 h1, ?_⟩
    intro i hi m hm d e hme
    rcases List.mem_cons.1 hi with rfl | hi
    · exact le_trans (g2 m hm d e hme) h1
    · exact h2 i hi m hm d e hme

/-- No message of a channel comes after the end of the song. -/
theorem release_max (ord : EnumOrder) (calls : List Callback) (h : MidiHandler) (hr : Release.readMidi ord calls = .ok h) (c : Fin 16) :
    ∀ m ∈ (h.channels c).messages, ∀ d e, m.1 = .midiEvent d e → m.2 ≤ h.maxTime := by
  unfold Release.readMidi at hr
  rw [res_bind] at hr
  obtain ⟨h0, -, hr⟩ := hr
  unfold Release.process at hr
  generalize hcs : Release.tracksToChannels h0.tracks (fun c => (h0.channels c).messages) = cs at hr
  simp only at hr
  generalize hsc : Release.scanChannels cs h0.maxTime = sc at hr
  obtain ⟨ivs, mt⟩ := sc
  simp only at hr
  cases hb : findBaseVoices ((List.finRange 16).map ivs) (fun _ => []) with
  | none => rw [hb] at hr; cases hr
  | some bs =>
    rw [hb] at hr
    simp only [res_bind, res_pure] at hr
    obtain ⟨vs, -, rfl⟩ := hr
    have := (release_scans_max cs (List.finRange 16) (fun _ => [], h0.maxTime)).2 c (List.mem_finRange c)
    unfold Release.scanChannels at hsc
    rw [hsc] at this
    exact this

/-- What is dealt is the file, with times in 32 bits. -/
theorem release_dealt (ord : EnumOrder) (calls : List Callback) (h : MidiHandler) (hr : Release.readMidi ord calls = .ok h) :
    (∃ (seq : List (Fin 16 × TMsg)) (outs : List (Fin 8 × TMsg)) (k : Ctl), (seq.map (·.2)).Perm (((file calls).map wrapTime).filter fun m => (home m.1).isSome) ∧ seq.Pairwise MergeOrder ∧
      emits ord (fun c => (h.channels c).baseVoice) (ctl0 fun c => (h.channels c).baseVoice) (seq.map (·.2)) = some (outs, k) ∧ ∀ v, h.voices v = onVoice outs v) ∧
    ∀ m ∈ (file calls).map wrapTime, ∀ d e, m.1 = .midiEvent d e → m.2 ≤ h.maxTime := by
  have hh : ∃ h0, calls.foldlM MidiHandler.handle ({} : MidiHandler) = .ok h0 := by
    unfold Release.readMidi at hr
    rw [res_bind] at hr
    obtain ⟨h0, h1, -⟩ := hr
    exact ⟨h0, h1⟩
  obtain ⟨h0, h1⟩ := hh
  have hf := handle_headers calls _ _ h1
  have ht := ((handle_tracks calls {} h0 h1).1 rfl).2
  rcases release_read ord calls hf ht with e | ⟨h', seq, outs, k, e, s0, s1, s2, s3, s4⟩
  · rw [hr] at e; cases e
  rw [hr] at e; cases e
  refine ⟨⟨seq, outs, k, ?_, s2, s3, s4⟩, ?_⟩
  · refine (channels_perm seq).symm.trans (List.Perm.trans ?_ (ofChannel_perm _))
    apply List.Perm.flatMap_left
    intro c _
    rw [s1, s0]
    exact sort_perm _
  · intro m hm d e hme
    refine release_max ord calls h hr e.channel m ?_ d e hme
    rw [s0]
    refine (sort_perm _).mem_iff.2 (List.mem_filter.2 ⟨hm, ?_⟩)
    rw [hme]
    simp [channel_home]

theorem wrap_file (l : List TMsg) (h : ∀ m ∈ l, m.2 < 2 ^ 32) : l.map wrapTime = l := by
  rw [List.map_congr_left (g := id), List.map_id]
  intro m hm
  unfold wrapTime
  rw [Nat.mod_eq_of_lt (h m hm)]
  rfl

end M2S
