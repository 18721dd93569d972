import Verif.Proofs.ReleaseNotes
/-
The interval scan of the build without overflow checks.
-/
namespace M2S
open MidiSpec

/-- The scan after the messages `done`, with a count modulo 2^64. -/
structure Counted (i : Fin 16) (done : List TMsg) (st : ScanState) : Prop where
  chain : Chain 0 st.intervals st.lastEnd
  chan : ∀ iv ∈ st.intervals, iv.channel = i
  count : ((done.countP fun m => starts m.1 : Nat) - (done.countP fun m => ends m.1 : Nat) : Int) % 2 ^ 64 = st.active
  voices : ∀ iv ∈ st.intervals, ∀ t, iv.start ≤ t → t < iv.stop → sounding done t % 2 ^ 64 = iv.voices
  before : ∀ m ∈ done, (starts m.1 || ends m.1) → m.2 ≤ st.lastEnd
  lastNote : st.lastEnd = 0 ∨ ∃ m ∈ done, (starts m.1 || ends m.1) ∧ m.2 = st.lastEnd

theorem counted_init (i : Fin 16) (m0 : Nat) : Counted i [] { maxTime := m0 } :=
  ⟨rfl, by simp, by simp, by simp, by simp, .inl rfl⟩

theorem counted_note (i : Fin 16) (done : List TMsg) (st : ScanState) (h : Counted i done st) (m : Message) (t : Nat)
    (hord : ∀ x ∈ done, x.2 ≤ t) (hn : (starts m || ends m) = true) (a mt : Nat)
    (ha : ((st.active : Int) + ((if starts m then 1 else 0) - (if ends m then 1 else 0))) % 2 ^ 64 = a) :
    Counted i (done ++ [(m, t)]) { st with intervals := pushInterval i st t, active := a, lastEnd := t, maxTime := mt } := by
  have hle : st.lastEnd ≤ t := by
    rcases h.lastNote with h0 | ⟨x, hx, -, h1⟩
    · omega
    · rw [← h1]; exact hord x hx
  have hcnt : ∀ t', t' < t → sounding (done ++ [(m, t)]) t' = sounding done t' := by
    intro t' ht'
    obtain ⟨e1, e2⟩ := by_append done (m, t) t'
    have : ¬ t ≤ t' := by omega
    unfold sounding
    rw [e1, e2]
    simp [this]
  refine ⟨?_, ?_, ?_, ?_, ?_, .inr ⟨_, List.mem_append_right _ (List.mem_singleton.2 rfl), hn, rfl⟩⟩
  · simp only [pushInterval]
    split_ifs with hgt
    · exact chain_append _ _ _ ⟨st.lastEnd, t, i, st.active⟩ h.chain rfl hgt
    · have : st.lastEnd = t := by omega
      rw [← this]; exact h.chain
  · simp only [pushInterval]
    split_ifs with hgt
    · intro iv hiv
      rcases List.mem_append.1 hiv with hiv | hiv
      · exact h.chan iv hiv
      · simp only [List.mem_singleton] at hiv; subst hiv; rfl
    · exact h.chan
  · rw [List.countP_append, List.countP_append, List.countP_singleton, List.countP_singleton]
    have := h.count
    simp only at ha ⊢
    rw [← ha, ← this]
    push_cast
    split_ifs <;> omega
  · have old : ∀ iv ∈ st.intervals, ∀ t', iv.start ≤ t' → t' < iv.stop → sounding (done ++ [(m, t)]) t' % 2 ^ 64 = iv.voices := by
      intro iv hiv t' h1 h2
      have := ((chain_le _ _ _ h.chain).2 iv hiv).2
      rw [hcnt t' (by omega)]
      exact h.voices iv hiv t' h1 h2
    simp only [pushInterval]
    split_ifs with hgt
    · intro iv hiv t' h1 h2
      rcases List.mem_append.1 hiv with hiv | hiv
      · exact old iv hiv t' h1 h2
      · simp only [List.mem_singleton] at hiv
        subst hiv
        simp only at h1 h2 ⊢
        obtain ⟨f1, f2⟩ := by_all done t' (fun m hm hx => le_trans (h.before m hm hx) h1)
        rw [hcnt t' h2, ← h.count]
        unfold sounding
        rw [f1, f2]
    · exact old
  · intro x hx _
    rcases List.mem_append.1 hx with hx | hx
    · exact hord x hx
    · simp only [List.mem_singleton] at hx; subst hx; exact le_refl _

theorem counted_other (i : Fin 16) (done : List TMsg) (st : ScanState) (h : Counted i done st) (m : TMsg)
    (hs : starts m.1 = false) (he : ends m.1 = false) (mt : Nat) : Counted i (done ++ [m]) { st with maxTime := mt } := by
  refine ⟨h.chain, h.chan, ?_, ?_, ?_, ?_⟩
  · rw [List.countP_append, List.countP_append, List.countP_singleton, List.countP_singleton]
    simp only [hs, he]
    simpa using h.count
  · intro iv hiv t h1 h2
    obtain ⟨e1, e2⟩ := by_append done m t
    have := h.voices iv hiv t h1 h2
    unfold sounding at this ⊢
    rw [e1, e2, hs, he]
    simpa using this
  · intro x hx hn
    rcases List.mem_append.1 hx with hx | hx
    · exact h.before x hx hn
    · simp only [List.mem_singleton] at hx; subst hx; simp [hs, he] at hn
  · rcases h.lastNote with h0 | ⟨x, hx, h1⟩
    · exact .inl h0
    · exact .inr ⟨x, by simp [hx], h1⟩

theorem count_down (x : Nat) (h : x < 2 ^ 64) : ((x : Int) + (0 - 1)) % 2 ^ 64 = (Release.subUsize x 1 : Nat) := by
  unfold Release.subUsize
  split_ifs <;> omega

theorem count_up (x : Nat) : ((x : Int) + (1 - 0)) % 2 ^ 64 = (Release.addUsize x 1 : Nat) := by
  unfold Release.addUsize
  omega

theorem counted_step (i : Fin 16) (done : List TMsg) (st : ScanState) (h : Counted i done st) (m : TMsg)
    (hord : ∀ x ∈ done, x.2 ≤ m.2) : Counted i (done ++ [m]) (Release.scanMessage i st m) := by
  obtain ⟨m, t⟩ := m
  have hlt : st.active < 2 ^ 64 := by have := h.count; omega
  have down := count_down st.active hlt
  have up := count_up st.active
  unfold Release.scanMessage
  generalize Release.subUsize st.active 1 = lo at down ⊢
  generalize Release.addUsize st.active 1 = hi at up ⊢
  cases m with
  | midiEvent d e =>
    cases e with
    | noteOff ch n v =>
      exact counted_note i done st h (.midiEvent d (.noteOff ch n v)) t hord rfl lo _ (by simpa only [starts, ends, if_true, if_false, Bool.false_eq_true] using down)
    | noteOn ch n v =>
      by_cases hv : v = 0
      · simp only [if_pos hv]
        exact counted_note i done st h (.midiEvent d (.noteOn ch n v)) t hord (by simp [starts, ends, hv]) lo _ (by subst hv; exact down)
      · simp only [if_neg hv]
        refine counted_note i done st h (.midiEvent d (.noteOn ch n v)) t hord (by simp [starts, ends, hv]) hi _ ?_
        have e1 : starts (.midiEvent d (.noteOn ch n v)) = true := by simp [starts, hv]
        have e2 : ends (.midiEvent d (.noteOn ch n v)) = false := by simp [ends, hv]
        rw [e1, e2]
        exact up
    | polyphonicKeyPressure ch n v => exact counted_other i done st h _ rfl rfl _
    | controlChange ch n v => exact counted_other i done st h _ rfl rfl _
    | programChange ch n => exact counted_other i done st h _ rfl rfl _
    | channelPressure ch n => exact counted_other i done st h _ rfl rfl _
    | pitchBendChange ch n => exact counted_other i done st h _ rfl rfl _
    | unknown ch => exact counted_other i done st h _ rfl rfl _
  | metaEvent d e data => exact counted_other i done st h _ rfl rfl st.maxTime
  | sysEx d data => exact counted_other i done st h _ rfl rfl st.maxTime
  | trackChange => exact counted_other i done st h _ rfl rfl st.maxTime

theorem counted_loop (i : Fin 16) (msgs : List TMsg) : ∀ (done : List TMsg) (st : ScanState), Counted i done st →
    (done ++ msgs).Pairwise (fun a b => a.2 ≤ b.2) → Counted i (done ++ msgs) (msgs.foldl (Release.scanMessage i) st) := by
  induction msgs with
  | nil => intro done st h _; simpa using h
  | cons m ms ih =>
    intro done st h hp
    have hord : ∀ x ∈ done, x.2 ≤ m.2 := fun x hx => (List.pairwise_append.1 hp).2.2 x hx m (by simp)
    have := ih (done ++ [m]) _ (counted_step i done st h m hord) (by simpa using hp)
    simpa using this

theorem counted_channels (cs : ChanMsgs) (hcs : ∀ c, (cs c).Pairwise fun a b => a.2 ≤ b.2) (l : List (Fin 16)) (hl : l.Nodup) : ∀ a : (Fin 16 → List VoiceInterval) × Nat,
    (∀ c ∈ l, ∃ st, st.intervals = (l.foldl (fun (acc : (Fin 16 → List VoiceInterval) × Nat) i =>
      let st := (cs i).foldl (Release.scanMessage i) { maxTime := acc.2 }
      (Function.update acc.1 i st.intervals, st.maxTime)) a).1 c ∧ Counted c (cs c) st) ∧
    ∀ c, c ∉ l → (l.foldl (fun (acc : (Fin 16 → List VoiceInterval) × Nat) i =>
      let st := (cs i).foldl (Release.scanMessage i) { maxTime := acc.2 }
      (Function.update acc.1 i st.intervals, st.maxTime)) a).1 c = a.1 c := by
  induction l with
  | nil => intro a; simp
  | cons j l ih =>
    intro a
    rw [List.foldl_cons]
    rw [List.nodup_cons] at hl
    have := ih hl.2 (Function.update a.1 j ((cs j).foldl (Release.scanMessage j) { maxTime := a.2 }).intervals, ((cs j).foldl (Release.scanMessage j) { maxTime := a.2 }).maxTime)
    obtain ⟨h1, h2⟩ := this
    refine ⟨?_, ?_⟩
    · intro c hc
      rcases List.mem_cons.1 hc with rfl | hc
      · refine ⟨(cs c).foldl (Release.scanMessage c) { maxTime := a.2 }, ?_, ?_⟩
        · refine Eq.trans ?_ (h2 c hl.1).symm
          simp
        · simpa using counted_loop c (cs c) [] _ (counted_init c a.2) (by simpa using hcs c)
      · exact h1 c hc
    · intro c hc
      rw [List.mem_cons, not_or] at hc
      refine (h2 c hc.2).trans ?_
      simp [hc.1]

/-- What the base voices are chosen by. -/
theorem release_choice (ord : EnumOrder) (calls : List Callback) (hf : ∀ f tb, Callback.header f tb ∈ calls → f = 1) (ht : (split calls).1 = []) :
    ∃ ivs : Fin 16 → List VoiceInterval, (∀ c, ∃ st, st.intervals = ivs c ∧ Counted c (sortMessages (ofChannel ((file calls).map wrapTime) c)) st) ∧
      (findBaseVoices ((List.finRange 16).map ivs) (fun _ => []) = none → Release.readMidi ord calls = .error (.err .couldntFit)) ∧
      ∀ h, Release.readMidi ord calls = .ok h → ∃ bs, findBaseVoices ((List.finRange 16).map ivs) (fun _ => []) = some bs ∧
        ∀ c : Fin 16, (h.channels c).intervals = ivs c ∧ (h.channels c).baseVoice = bs.getD c 0 := by
  obtain ⟨h0, h1⟩ := handle_ok calls {} hf (fun _ => ht)
  obtain ⟨i1, -, i3, i4, i5⟩ := handle_tracks calls {} h0 h1
  obtain ⟨i1, -⟩ := i1 rfl
  have hcs : Release.tracksToChannels h0.tracks (fun c => (h0.channels c).messages) = fun c => sortMessages (ofChannel ((file calls).map wrapTime) c) := by
    unfold Release.tracksToChannels
    simp only
    rw [routeTracks_wrap, i3, i1]
    funext c
    simp [file]
  unfold Release.readMidi
  rw [h1, show ∀ {α β : Type} (a : α) (f : α → Res β), ((Except.ok a : Res α) >>= f) = f a from fun _ _ => rfl]
  unfold Release.process
  rw [hcs]
  simp only
  generalize hsc : Release.scanChannels (fun c => sortMessages (ofChannel ((file calls).map wrapTime) c)) h0.maxTime = sc
  obtain ⟨ivs, mt⟩ := sc
  simp only
  refine ⟨ivs, ?_, ?_, ?_⟩
  · intro c
    have := (counted_channels _ (fun c => before_time (sort_pairwise (ofChannel ((file calls).map wrapTime) c))) (List.finRange 16) (List.nodup_finRange 16) (fun _ => [], h0.maxTime)).1 c
      (List.mem_finRange c)
    unfold Release.scanChannels at hsc
    rw [hsc] at this
    exact this
  · intro hb
    rw [hb]
    rfl
  · intro h hr
    cases hb : findBaseVoices ((List.finRange 16).map ivs) (fun _ => []) with
    | none => rw [hb] at hr; cases hr
    | some bs =>
      rw [hb] at hr
      simp only [res_bind, res_pure] at hr
      obtain ⟨vs, -, rfl⟩ := hr
      exact ⟨bs, rfl, fun c => ⟨rfl, rfl⟩⟩

theorem read_shape (ord : EnumOrder) (calls : List Callback) (h : MidiHandler) (hr : Release.readMidi ord calls = .ok h) :
    (∀ f tb, Callback.header f tb ∈ calls → f = 1) ∧ (split calls).1 = [] := by
  unfold Release.readMidi at hr
  rw [res_bind] at hr
  obtain ⟨h0, h1, -⟩ := hr
  exact ⟨handle_headers calls _ _ h1, ((handle_tracks calls {} h0 h1).1 rfl).2⟩

/-- A count that is less than 2^64 either way is seen by the search. -/
theorem seen_iff (l : List TMsg) (hl : l.length < 2 ^ 64) (t : Nat) : sounding l t % 2 ^ 64 = 0 ↔ sounding l t = 0 := by
  have h1 : startsBy l t ≤ l.length := List.countP_le_length
  have h2 : endsBy l t ≤ l.length := List.countP_le_length
  unfold sounding
  omega

theorem seen_interval (c : Fin 16) (l : List TMsg) (hl : l.length < 2 ^ 64) (st : ScanState) (h : Counted c (sortMessages l) st) (t : Nat) :
    SoundsAt st.intervals t ↔ sounding l t ≠ 0 ∧ ∃ m ∈ l, (starts m.1 || ends m.1) ∧ t < m.2 := by
  have hp := sort_perm l
  have hsound : ∀ t, sounding (sortMessages l) t = sounding l t := by
    intro t
    unfold sounding
    rw [startsBy_perm hp, endsBy_perm hp]
  constructor
  · rintro ⟨i, hi, i1, i2, i3⟩
    have hv := h.voices i hi t i1 i2
    rw [hsound] at hv
    refine ⟨?_, ?_⟩
    · intro h0
      rw [h0] at hv
      simp at hv
      omega
    · by_contra hc
      push Not at hc
      have hstop := ((chain_le _ _ _ h.chain).2 i hi).2
      rcases h.lastNote with h0 | ⟨m, hm, hn, hme⟩
      · omega
      · have := hc m (hp.mem_iff.1 hm) hn
        omega
  · rintro ⟨h0, m, hm, hn, hlt⟩
    have hb := h.before m (hp.mem_iff.2 hm) hn
    obtain ⟨i, hi, i1, i2⟩ := chain_cover _ _ _ t h.chain (by omega) (by omega)
    refine ⟨i, hi, i1, i2, ?_⟩
    have hv := h.voices i hi t i1 i2
    rw [hsound] at hv
    rcases Nat.eq_zero_or_pos i.voices with hz | hz
    · rw [hz] at hv
      exact absurd ((seen_iff l hl t).1 hv) h0
    · exact hz

end M2S
