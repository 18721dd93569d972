import Verif.Proofs.ReleaseLoops
import Verif.Proofs.Sound
import Verif.Props.Failures
/-
Reading and converting without overflow checks.
-/
namespace M2S
open MidiSpec

/-! ### Reading -/

/-- A time as it is in 32 bits. -/
def wrapTime (m : TMsg) : TMsg := (m.1, m.2 % 2 ^ 32)

theorem ofChannel_wrap (l : List TMsg) (c : Fin 16) : ofChannel (l.map wrapTime) c = (ofChannel l c).map wrapTime := by
  unfold ofChannel
  rw [List.filter_map]
  rfl

theorem routeMessage_wrap (cs : ChanMsgs) (t : Nat) (m : Message) : Release.routeMessage (cs, t % 2 ^ 32) m =
    (fun c => cs c ++ toChan [wrapTime (m, t + delta m)] c, (t + delta m) % 2 ^ 32) := by
  have e : ∀ d, Release.addU32 (t % 2 ^ 32) d = (t + d) % 2 ^ 32 := by intro d; unfold Release.addU32; omega
  cases m with
  | metaEvent d k data =>
    simp only [Release.routeMessage, e, delta, Prod.mk.injEq, and_true]
    funext c
    rw [pushChan_apply]
    simp [toChan, ofChannel, home, List.filter_cons, wrapTime]
  | midiEvent d k =>
    simp only [Release.routeMessage, e, delta, Prod.mk.injEq, and_true]
    funext c
    rw [pushChan_apply]
    simp [toChan, ofChannel, channel_home, List.filter_cons, wrapTime]
  | sysEx d data =>
    simp only [Release.routeMessage, e, delta, Prod.mk.injEq, and_true]
    funext c
    rw [pushChan_apply]
    simp [toChan, ofChannel, home, List.filter_cons, wrapTime]
  | trackChange =>
    simp [Release.routeMessage, delta, toChan, ofChannel, home, wrapTime]

theorem routeTrack_wrap (track : List Message) : ∀ (cs : ChanMsgs) (t : Nat),
    (track.foldl Release.routeMessage (cs, t % 2 ^ 32)).1 = fun c => cs c ++ toChan ((stamp t track).map wrapTime) c := by
  induction track with
  | nil => intro cs t; simp [stamp, toChan, ofChannel]
  | cons m ms ih =>
    intro cs t
    rw [List.foldl_cons, routeMessage_wrap, ih]
    funext c
    simp only [stamp, List.map_cons, toChan, ofChannel, List.filter_cons, List.filter_nil, List.append_assoc]
    split_ifs <;> simp

theorem routeTracks_wrap (tracks : List (List Message)) : ∀ cs : ChanMsgs,
    tracks.foldl (fun cs track => (track.foldl Release.routeMessage (cs, 0)).1) cs = fun c => cs c ++ toChan ((fileMessages tracks).map wrapTime) c := by
  induction tracks with
  | nil => intro cs; simp [fileMessages, toChan, ofChannel]
  | cons tr trs ih =>
    intro cs
    rw [List.foldl_cons, ih, show (0 : Nat) = 0 % 2 ^ 32 from rfl, routeTrack_wrap]
    funext c
    simp [fileMessages, toChan, ofChannel, List.append_assoc]

/-- Reading without overflow checks, step by step. -/
theorem release_read (ord : EnumOrder) (calls : List Callback) (hf : ∀ f tb, Callback.header f tb ∈ calls → f = 1) (ht : (split calls).1 = []) :
    Release.readMidi ord calls = .error (.err .couldntFit) ∨
    ∃ (h : MidiHandler) (seq : List (Fin 16 × TMsg)) (outs : List (Fin 8 × TMsg)) (k : Ctl), Release.readMidi ord calls = .ok h ∧
      (∀ c, (h.channels c).messages = sortMessages (ofChannel ((file calls).map wrapTime) c)) ∧
      (∀ c, (seq.filter fun p => p.1 = c).map (·.2) = (h.channels c).messages) ∧ seq.Pairwise MergeOrder ∧
      emits ord (fun c => (h.channels c).baseVoice) (ctl0 fun c => (h.channels c).baseVoice) (seq.map (·.2)) = some (outs, k) ∧
      (∀ v, h.voices v = onVoice outs v) := by
  obtain ⟨h0, h1⟩ := handle_ok calls {} hf (fun _ => ht)
  obtain ⟨i1, -, i3, i4, i5⟩ := handle_tracks calls {} h0 h1
  obtain ⟨i1, -⟩ := i1 rfl
  unfold Release.readMidi
  rw [h1, show ∀ {α β : Type} (a : α) (f : α → Res β), ((Except.ok a : Res α) >>= f) = f a from fun _ _ => rfl]
  have hcs : Release.tracksToChannels h0.tracks (fun c => (h0.channels c).messages) = fun c => sortMessages (ofChannel ((file calls).map wrapTime) c) := by
    unfold Release.tracksToChannels
    simp only
    rw [routeTracks_wrap, i3, i1]
    funext c
    simp [file]
  unfold Release.process
  rw [hcs]
  simp only
  generalize hsc : Release.scanChannels (fun c => sortMessages (ofChannel ((file calls).map wrapTime) c)) h0.maxTime = sc
  obtain ⟨ivs, mt⟩ := sc
  simp only
  cases h4 : findBaseVoices ((List.finRange 16).map ivs) (fun _ => []) with
  | none => exact .inl rfl
  | some bs =>
    obtain ⟨seq, s1, s2, s3⟩ := merge_seq _ (fun c => sortMessages (toChan ((file calls).map wrapTime) c)) rfl (fun c => sort_pairwise _)
      (by
        intro c m hm
        have := List.mem_of_mem_filter ((sort_perm _).mem_iff.1 hm)
        obtain ⟨x, -, rfl⟩ := List.mem_map.1 this
        exact Nat.mod_lt _ (by decide))
    simp only
    unfold channelsToVoices
    rw [show ((List.finRange 16).countP fun c => (sortMessages (ofChannel ((file calls).map wrapTime) c)).isEmpty) =
      emptyCount (fun c => sortMessages (toChan ((file calls).map wrapTime) c)) from rfl]
    simp only
    rw [s3, deal_emits, i4]
    cases hem : emits ord (fun c => bs.getD c 0) (ctl0 fun c => bs.getD c 0) (seq.map (·.2)) with
    | none =>
      left
      have hem' := hem
      unfold ctl0 at hem'
      simp only [DealState.ctl]
      rw [hem']
      rfl
    | some r =>
      obtain ⟨os, k⟩ := r
      right
      have hem' := hem
      unfold ctl0 at hem'
      simp only [DealState.ctl]
      rw [hem']
      exact ⟨_, seq, os, k, rfl, fun c => rfl, s1, s2, hem, fun v => by simp⟩

end M2S
