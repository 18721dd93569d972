import Verif.Spec.Midi
import Verif.Proofs.Res
/-
Reading a file into channels.
-/
namespace M2S
open MidiSpec

theorem priority_rank (m : Message) : priority m = rank m := by
  cases m with
  | midiEvent d e =>
    cases e with
    | noteOn ch n v =>
      by_cases h : v = 0
      · simp [priority, rank, ends, h]
      · simp [priority, rank, ends, starts, h]
    | _ => rfl
  | _ => rfl

theorem keyLe_before (a b : TMsg) : keyLe a b ↔ Before a b := by
  unfold keyLe Before; rw [priority_rank, priority_rank]

theorem channel_home (d : Nat) (e : MidiEvent) : home (.midiEvent d e) = some e.channel := by
  cases e <;> rfl

/-- Messages of a list that belong to a channel. -/
abbrev toChan (l : List TMsg) (c : Fin 16) : List TMsg := ofChannel l c

theorem pushChan_apply (cs : ChanMsgs) (c : Fin 16) (m : TMsg) (c' : Fin 16) :
    pushChan cs c m c' = cs c' ++ if c = c' then [m] else [] := by
  unfold pushChan
  by_cases h : c = c'
  · subst h; simp
  · rw [Function.update_of_ne (Ne.symm h)]; simp [h]

theorem routeMessage_ok (st st' : ChanMsgs × Nat) (m : Message) (ht : st.2 < 2 ^ 32) : routeMessage st m = .ok st' ↔
    st.2 + delta m < 2 ^ 32 ∧ st'.2 = st.2 + delta m ∧ st'.1 = fun c => st.1 c ++ toChan [(m, st.2 + delta m)] c := by
  obtain ⟨cs', t'⟩ := st'
  cases m with
  | metaEvent d e data =>
    simp only [routeMessage, res_bind, addU32_ok, res_pure, delta, Prod.mk.injEq]
    constructor
    · rintro ⟨t, ⟨h1, rfl⟩, rfl, rfl⟩
      refine ⟨h1, rfl, ?_⟩
      funext c
      rw [pushChan_apply]
      simp [toChan, ofChannel, home, List.filter_cons]
    · rintro ⟨h1, rfl, rfl⟩
      refine ⟨_, ⟨h1, rfl⟩, ?_, rfl⟩
      funext c
      rw [pushChan_apply]
      simp [toChan, ofChannel, home, List.filter_cons]
  | midiEvent d e =>
    simp only [routeMessage, res_bind, addU32_ok, res_pure, delta, Prod.mk.injEq]
    constructor
    · rintro ⟨t, ⟨h1, rfl⟩, rfl, rfl⟩
      refine ⟨h1, rfl, ?_⟩
      funext c
      rw [pushChan_apply]
      simp [toChan, ofChannel, channel_home, List.filter_cons]
    · rintro ⟨h1, rfl, rfl⟩
      refine ⟨_, ⟨h1, rfl⟩, ?_, rfl⟩
      funext c
      rw [pushChan_apply]
      simp [toChan, ofChannel, channel_home, List.filter_cons]
  | sysEx d data =>
    simp only [routeMessage, res_bind, addU32_ok, res_pure, delta, Prod.mk.injEq]
    constructor
    · rintro ⟨t, ⟨h1, rfl⟩, rfl, rfl⟩
      refine ⟨h1, rfl, ?_⟩
      funext c
      rw [pushChan_apply]
      simp [toChan, ofChannel, home, List.filter_cons]
    · rintro ⟨h1, rfl, rfl⟩
      refine ⟨_, ⟨h1, rfl⟩, ?_, rfl⟩
      funext c
      rw [pushChan_apply]
      simp [toChan, ofChannel, home, List.filter_cons]
  | trackChange =>
    simp only [routeMessage, delta, Nat.add_zero, Except.ok.injEq]
    constructor
    · rintro rfl
      exact ⟨ht, rfl, by funext c; simp [toChan, ofChannel, home]⟩
    · rintro ⟨-, rfl, rfl⟩
      simp [toChan, ofChannel, home]

/-- All absolute times fit in 32 bits. -/
def timesFit (l : List TMsg) : Prop := ∀ m ∈ l, m.2 < 2 ^ 32

theorem routeTrack_ok (track : List Message) : ∀ (st : ChanMsgs × Nat) (cs' : ChanMsgs), st.2 < 2 ^ 32 →
    ((∃ t', track.foldlM routeMessage st = .ok (cs', t')) ↔
      timesFit (stamp st.2 track) ∧ cs' = fun c => st.1 c ++ toChan (stamp st.2 track) c) := by
  induction track with
  | nil =>
    intro st cs' ht
    simp only [List.foldlM_nil, res_pure, stamp, timesFit, List.not_mem_nil, IsEmpty.forall_iff, implies_true, true_and]
    constructor
    · rintro ⟨t', rfl⟩; simp [toChan, ofChannel]
    · rintro rfl; exact ⟨st.2, by simp [toChan, ofChannel]⟩
  | cons m ms ih =>
    intro st cs' ht
    simp only [List.foldlM_cons, res_bind, stamp]
    constructor
    · rintro ⟨t', st1, h1, h2⟩
      rw [routeMessage_ok _ _ _ ht] at h1
      obtain ⟨e1, e2, e3⟩ := h1
      obtain ⟨f1, f2⟩ := (ih st1 cs' (by omega)).1 ⟨t', h2⟩
      rw [e2] at f1 f2
      refine ⟨?_, ?_⟩
      · intro x hx
        rcases List.mem_cons.1 hx with rfl | hx
        · exact e1
        · exact f1 x hx
      · rw [f2, e3]
        funext c
        simp only [toChan, ofChannel, List.filter_cons, List.filter_nil, List.append_assoc]
        split_ifs <;> simp
    · rintro ⟨h1, h2⟩
      have e1 : st.2 + delta m < 2 ^ 32 := h1 _ List.mem_cons_self
      have hst := (routeMessage_ok st (fun c => st.1 c ++ toChan [(m, st.2 + delta m)] c, st.2 + delta m) m ht).2 ⟨e1, rfl, rfl⟩
      obtain ⟨t', f⟩ := (ih (fun c => st.1 c ++ toChan [(m, st.2 + delta m)] c, st.2 + delta m) cs' e1).2
        ⟨fun x hx => h1 x (List.mem_cons_of_mem _ hx), by
          rw [h2]
          funext c
          simp only [toChan, ofChannel, List.filter_cons, List.filter_nil, List.append_assoc]
          split_ifs <;> simp⟩
      exact ⟨t', _, hst, f⟩

theorem routeTracks_ok (tracks : List (List Message)) : ∀ (cs cs' : ChanMsgs),
    routeTracks tracks cs = .ok cs' ↔ timesFit (fileMessages tracks) ∧ cs' = fun c => cs c ++ toChan (fileMessages tracks) c := by
  induction tracks with
  | nil =>
    intro cs cs'
    simp [routeTracks, fileMessages, timesFit, toChan, ofChannel, pure, Except.pure, eq_comm]
  | cons tr trs ih =>
    intro cs cs'
    have hr : routeTracks (tr :: trs) cs = .ok cs' ↔ ∃ cs1, (∃ t, tr.foldlM routeMessage (cs, 0) = .ok (cs1, t)) ∧ routeTracks trs cs1 = .ok cs' := by
      unfold routeTracks
      simp only [List.foldlM_cons, res_bind, res_pure]
      constructor
      · rintro ⟨cs1, ⟨⟨a, b⟩, h1, h2⟩, h3⟩
        exact ⟨cs1, ⟨b, by rw [h1]; simp at h2; rw [h2]⟩, h3⟩
      · rintro ⟨cs1, ⟨t, h1⟩, h3⟩
        exact ⟨cs1, ⟨(cs1, t), h1, rfl⟩, h3⟩
    rw [hr]
    constructor
    · rintro ⟨cs1, h1, h2⟩
      obtain ⟨a1, a2⟩ := (routeTrack_ok tr (cs, 0) cs1 (by simp)).1 h1
      obtain ⟨b1, b2⟩ := (ih cs1 cs').1 h2
      refine ⟨?_, ?_⟩
      · intro x hx
        simp only [fileMessages, List.flatMap_cons, List.mem_append] at hx
        rcases hx with hx | hx
        · exact a1 x hx
        · exact b1 x hx
      · rw [b2, a2]
        funext c
        simp [fileMessages, toChan, ofChannel, List.append_assoc]
    · rintro ⟨h1, h2⟩
      refine ⟨_, (routeTrack_ok tr (cs, 0) _ (by simp)).2 ⟨fun x hx => h1 x (by simp [fileMessages, hx]), rfl⟩, ?_⟩
      rw [ih]
      refine ⟨fun x hx => h1 x (by simp only [fileMessages, List.flatMap_cons, List.mem_append]; exact .inr hx), ?_⟩
      rw [h2]
      funext c
      simp [fileMessages, toChan, ofChannel, List.append_assoc]

instance : Std.Total keyLe := ⟨fun a b => by unfold keyLe; omega⟩
instance : IsTrans TMsg keyLe := ⟨fun a b c => by unfold keyLe; omega⟩

theorem sort_pairwise (l : List TMsg) : (sortMessages l).Pairwise Before := by
  have h := List.pairwise_insertionSort keyLe l
  exact h.imp fun {a b} hab => (keyLe_before a b).1 hab

theorem sort_perm (l : List TMsg) : (sortMessages l).Perm l := List.perm_insertionSort keyLe l

/-- The sort is stable. -/
theorem sort_stable (l : List TMsg) (t r : Nat) :
    (sortMessages l).filter (fun m => m.2 = t ∧ rank m.1 = r) = l.filter (fun m => m.2 = t ∧ rank m.1 = r) := by
  have hp : (l.filter (fun m => m.2 = t ∧ rank m.1 = r)).Pairwise keyLe := by
    rw [List.pairwise_filter]
    refine List.Pairwise.imp (R := fun _ _ => True) ?_ (List.pairwise_of_forall (fun _ _ => trivial))
    intro a b _ ha hb
    rw [keyLe_before]
    simp only [decide_eq_true_eq] at ha hb
    right
    omega
  have hs := List.sublist_insertionSort hp List.filter_sublist
  have hs2 := hs.filter (fun m => m.2 = t ∧ rank m.1 = r)
  rw [List.filter_filter] at hs2
  simp only [Bool.and_self] at hs2
  refine (hs2.eq_of_length ?_).symm
  exact ((sort_perm l).filter _).length_eq.symm

theorem tracksToChannels_ok (tracks : List (List Message)) (cs cs' : ChanMsgs) :
    tracksToChannels tracks cs = .ok cs' ↔ timesFit (fileMessages tracks) ∧ cs' = fun c => sortMessages (cs c ++ toChan (fileMessages tracks) c) := by
  unfold tracksToChannels
  simp only [res_bind, res_pure, routeTracks_ok]
  constructor
  · rintro ⟨a, ⟨h1, rfl⟩, rfl⟩; exact ⟨h1, rfl⟩
  · rintro ⟨h1, rfl⟩; exact ⟨_, ⟨h1, rfl⟩, rfl⟩

/-- The callbacks, for a handler that has tracks already. -/
theorem handle_tracks (calls : List Callback) : ∀ (h h' : MidiHandler), calls.foldlM MidiHandler.handle h = .ok h' →
    (h.tracks = [] → h'.tracks = (split calls).2 ∧ (split calls).1 = []) ∧
    (∀ ts t, h.tracks = ts ++ [t] → h'.tracks = ts ++ (t ++ (split calls).1) :: (split calls).2) ∧
    h'.channels = h.channels ∧ h'.voices = h.voices ∧ h'.maxTime = h.maxTime := by
  have push : ∀ (tracks ts' : List (List Message)) (m : Message), pushMessage tracks m = .ok ts' →
      ∃ ts t, tracks = ts ++ [t] ∧ ts' = ts ++ [t ++ [m]] := by
    intro tracks ts' m hm
    unfold pushMessage at hm
    split at hm
    · simp [panicked] at hm
    · rename_i t ht
      simp only [Except.ok.injEq] at hm
      refine ⟨tracks.dropLast, t, ?_, hm.symm⟩
      exact (List.dropLast_append_getLast? t (by simpa using ht)).symm
  induction calls with
  | nil =>
    intro h h' hh
    simp only [List.foldlM_nil, res_pure] at hh
    subst hh
    refine ⟨fun h0 => by simp [h0, split], ?_, rfl, rfl, rfl⟩
    intro ts t h0
    simp [h0, split]
  | cons c cs ih =>
    intro h h' hh
    simp only [List.foldlM_cons, res_bind] at hh
    obtain ⟨h1, hc, hh⟩ := hh
    obtain ⟨i1, i2, i3, i4, i5⟩ := ih h1 h' hh
    have event : ∀ m, split (c :: cs) = (m :: (split cs).1, (split cs).2) → (∃ ts', pushMessage h.tracks m = .ok ts' ∧ h1 = { h with tracks := ts' }) →
        (h.tracks = [] → h'.tracks = (split (c :: cs)).2 ∧ (split (c :: cs)).1 = []) ∧
        (∀ ts t, h.tracks = ts ++ [t] → h'.tracks = ts ++ (t ++ (split (c :: cs)).1) :: (split (c :: cs)).2) ∧
        h'.channels = h.channels ∧ h'.voices = h.voices ∧ h'.maxTime = h.maxTime := by
      rintro m hs ⟨ts', hp, rfl⟩
      obtain ⟨ts0, t0, e1, e2⟩ := push _ _ _ hp
      refine ⟨?_, ?_, i3, i4, i5⟩
      · intro h0; rw [h0] at e1; simp at e1
      · intro ts t h0
        have : ts = ts0 ∧ t = t0 := by
          rw [h0] at e1
          have := List.append_inj' e1 rfl
          exact ⟨this.1, by simpa using this.2⟩
        obtain ⟨rfl, rfl⟩ := this
        rw [hs]
        have := i2 ts (t ++ [m]) e2
        rw [this]
        simp
    cases c with
    | header f tb =>
      simp only [MidiHandler.handle] at hc
      split_ifs at hc
      · simp [panicked] at hc
      · simp only [Except.ok.injEq] at hc
        subst hc
        exact ⟨i1, i2, i3, i4, i5⟩
    | metaEvent d e data =>
      simp only [MidiHandler.handle, res_bind, res_pure] at hc
      obtain ⟨ts', hp, rfl⟩ := hc
      exact event _ rfl ⟨ts', hp, rfl⟩
    | midiEvent d e =>
      simp only [MidiHandler.handle, res_bind, res_pure] at hc
      obtain ⟨ts', hp, rfl⟩ := hc
      exact event _ rfl ⟨ts', hp, rfl⟩
    | sysExEvent d data =>
      simp only [MidiHandler.handle, res_bind, res_pure] at hc
      obtain ⟨ts', hp, rfl⟩ := hc
      exact event _ rfl ⟨ts', hp, rfl⟩
    | trackChange =>
      simp only [MidiHandler.handle, Except.ok.injEq] at hc
      subst hc
      refine ⟨?_, ?_, i3, i4, i5⟩
      · intro h0
        have := i2 [] [] (by simp [h0])
        simpa [split] using this
      · intro ts t h0
        have := i2 (ts ++ [t]) [] (by simp [h0])
        rw [this]
        simp [split]

/-- What a successful `read` did. -/
theorem readMidi_ok (ord : EnumOrder) (calls : List Callback) (h : MidiHandler) (hr : readMidi ord calls = .ok h) :
    timesFit (file calls) ∧ (split calls).1 = [] ∧ ∃ (ivs : Fin 16 → List VoiceInterval) (bs : List (Fin 8)),
      (∀ c, (h.channels c).messages = sortMessages (toChan (file calls) c)) ∧
      scanChannels (fun c => sortMessages (toChan (file calls) c)) 0 = .ok (ivs, h.maxTime) ∧
      (∀ c, (h.channels c).intervals = ivs c) ∧
      findBaseVoices ((List.finRange 16).map ivs) (fun _ => []) = some bs ∧
      (∀ c, (h.channels c).baseVoice = bs.getD c 0) ∧
      channelsToVoices ord (fun c => sortMessages (toChan (file calls) c)) (fun c => (h.channels c).baseVoice) (fun _ => []) = .ok h.voices := by
  unfold readMidi at hr
  rw [res_bind] at hr
  obtain ⟨h0, e1, hr⟩ := hr
  obtain ⟨i1, -, i3, i4, i5⟩ := handle_tracks calls {} h0 e1
  obtain ⟨i1, i1'⟩ := i1 rfl
  unfold MidiHandler.process at hr
  rw [res_bind] at hr
  obtain ⟨cs, e2, hr⟩ := hr
  rw [tracksToChannels_ok] at e2
  obtain ⟨e2, e3⟩ := e2
  rw [i3] at e3
  rw [i1] at e2 e3
  have e3' : cs = fun c => sortMessages (toChan (file calls) c) := by rw [e3]; funext c; simp [file]
  subst e3'
  rw [res_bind] at hr
  obtain ⟨⟨ivs, mt⟩, e4, hr⟩ := hr
  rw [i5] at e4
  simp only at hr
  split at hr
  · simp [failed] at hr
  · rename_i bs hbs
    rw [res_bind] at hr
    obtain ⟨vs, e5, hr⟩ := hr
    rw [res_pure] at hr
    subst hr
    rw [i4] at e5
    exact ⟨e2, i1', ivs, bs, fun _ => rfl, e4, fun _ => rfl, hbs, fun _ => rfl, e5⟩

end M2S
