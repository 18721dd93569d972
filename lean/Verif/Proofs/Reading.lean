import Verif.Spec.Polyphony
import Verif.Proofs.Programs
import Verif.Proofs.Tidy
import Verif.Proofs.BaseVoices
import Verif.Proofs.Scan
import Mathlib.Data.List.Perm.Subperm
import Mathlib.Data.Finset.Card
/-
When reading a file succeeds.
-/
namespace M2S
open MidiSpec

/-! ## The steps of reading -/

theorem push_ok (tracks : List (List Message)) (m : Message) (h : tracks ≠ []) : ∃ ts, pushMessage tracks m = .ok ts ∧ ts ≠ [] := by
  unfold pushMessage
  cases hl : tracks.getLast? with
  | none => exact absurd (List.getLast?_eq_none_iff.1 hl) h
  | some t => exact ⟨_, rfl, by simp⟩

theorem handle_ok (calls : List Callback) : ∀ h : MidiHandler, (∀ f tb, Callback.header f tb ∈ calls → f = 1) → (h.tracks = [] → (split calls).1 = []) →
    ∃ h', calls.foldlM MidiHandler.handle h = .ok h' := by
  induction calls with
  | nil => intro h _ _; exact ⟨h, rfl⟩
  | cons c cs ih =>
    intro h hf ht
    have hf' : ∀ f tb, Callback.header f tb ∈ cs → f = 1 := fun f tb hm => hf f tb (List.mem_cons_of_mem _ hm)
    have event : ∀ m, split (c :: cs) = (m :: (split cs).1, (split cs).2) →
        (∀ ts, pushMessage h.tracks m = .ok ts → h.handle c = .ok { h with tracks := ts }) → ∃ h', (c :: cs).foldlM MidiHandler.handle h = .ok h' := by
      intro m hs hh
      have hne : h.tracks ≠ [] := by
        intro h0
        have := ht h0
        rw [hs] at this
        cases this
      obtain ⟨ts, e1, e2⟩ := push_ok h.tracks m hne
      obtain ⟨h', e3⟩ := ih { h with tracks := ts } hf' (fun h0 => absurd h0 e2)
      exact ⟨h', by rw [List.foldlM_cons, hh ts e1]; exact e3⟩
    cases c with
    | header f tb =>
      have hf1 := hf f tb (by simp)
      obtain ⟨h', e⟩ := ih { h with ticksPerBeat := tb } hf' ht
      refine ⟨h', ?_⟩
      rw [List.foldlM_cons]
      simp only [MidiHandler.handle, hf1, ne_eq, not_true_eq_false, if_false]
      exact e
    | metaEvent d e data => exact event _ rfl fun ts h1 => by simp only [MidiHandler.handle, h1]; rfl
    | midiEvent d e => exact event _ rfl fun ts h1 => by simp only [MidiHandler.handle, h1]; rfl
    | sysExEvent d data => exact event _ rfl fun ts h1 => by simp only [MidiHandler.handle, h1]; rfl
    | trackChange =>
      obtain ⟨h', e⟩ := ih { h with tracks := h.tracks ++ [[]] } hf' (fun h0 => by simp at h0)
      exact ⟨h', by rw [List.foldlM_cons]; exact e⟩

theorem scanAll_ok (cs : ChanMsgs) (h : ∀ i m0, ∃ st, scanChannel i (cs i) m0 = .ok st) (m0 : Nat) : ∃ r, scanChannels cs m0 = .ok r := by
  unfold scanChannels
  generalize List.finRange 16 = l
  generalize ((fun _ => [] : Fin 16 → List VoiceInterval), m0) = acc
  induction l generalizing acc with
  | nil => exact ⟨acc, rfl⟩
  | cons i l ih =>
    obtain ⟨st, hst⟩ := h i acc.2
    obtain ⟨r, hr⟩ := ih (Function.update acc.1 i st.intervals, st.maxTime)
    refine ⟨r, ?_⟩
    rw [List.foldlM_cons]
    simp only [hst]
    exact hr

/-- Reading succeeds if the scan, the search for base voices and the dealing do. -/
theorem read_succeeds (ord : EnumOrder) (calls : List Callback) (hr : Readable calls) (ivs : Fin 16 → List VoiceInterval) (mt : Nat)
    (hscan : scanChannels (fun c => sortMessages (ofChannel (file calls) c)) 0 = .ok (ivs, mt)) (bs : List (Fin 8))
    (hfind : findBaseVoices ((List.finRange 16).map ivs) (fun _ => []) = some bs)
    (hdeal : ∀ seq : List (Fin 16 × TMsg), (∀ c, (seq.filter fun p => p.1 = c).map (·.2) = sortMessages (ofChannel (file calls) c)) → seq.Pairwise MergeOrder →
      ∃ r, emits ord (fun c => bs.getD c 0) (ctl0 fun c => bs.getD c 0) (seq.map (·.2)) = some r) : ∃ h, readMidi ord calls = .ok h := by
  obtain ⟨h0, e1⟩ := handle_ok calls {} hr.format (fun _ => hr.tracks)
  obtain ⟨i1, -, i3, i4, i5⟩ := handle_tracks calls {} h0 e1
  obtain ⟨i1, -⟩ := i1 rfl
  have hr2 : tracksToChannels h0.tracks (fun c => (h0.channels c).messages) = .ok (fun c => sortMessages (ofChannel (file calls) c)) := by
    rw [tracksToChannels_ok]
    rw [i3, i1]
    exact ⟨hr.times, by funext c; simp [file]⟩
  obtain ⟨seq, s1, s2, s3⟩ := merge_seq _ (fun c => sortMessages (toChan (file calls) c)) rfl (fun c => sort_pairwise _)
    (by
      intro c m hm
      have := (sort_perm _).mem_iff.1 hm
      exact hr.times m (List.mem_of_mem_filter this))
  obtain ⟨r, he⟩ := hdeal seq s1 s2
  have hv : ∃ vs, channelsToVoices ord (fun c => sortMessages (ofChannel (file calls) c)) (fun c => bs.getD c 0) h0.voices = .ok vs := by
    unfold channelsToVoices
    rw [show ((List.finRange 16).countP fun c => (sortMessages (ofChannel (file calls) c)).isEmpty) = emptyCount (fun c => sortMessages (toChan (file calls) c)) from rfl]
    simp only
    rw [s3, deal_emits]
    rw [show DealState.ctl { voices := h0.voices, lastChan := fun v => (List.finRange 16).find? fun c : Fin 16 => bs.getD c 0 = v }
      = ctl0 (fun c : Fin 16 => bs.getD c 0) from rfl, he]
    exact ⟨_, rfl⟩
  obtain ⟨vs, hv⟩ := hv
  unfold readMidi
  rw [e1]
  refine ⟨{ h0 with channels := fun c => { messages := sortMessages (ofChannel (file calls) c), intervals := ivs c, baseVoice := bs.getD c 0 }, voices := vs, maxTime := mt }, ?_⟩
  show h0.process ord = _
  unfold MidiHandler.process
  rw [hr2]
  show (do
    let (ivs, maxTime) ← scanChannels (fun c => sortMessages (ofChannel (file calls) c)) h0.maxTime
    _) = _
  rw [i5]
  rw [show (({} : MidiHandler).maxTime) = 0 from rfl, hscan]
  show (match findBaseVoices ((List.finRange 16).map ivs) (fun _ => []) with | none => _ | some bs => _) = _
  rw [hfind]
  show (do let voices ← channelsToVoices ord (fun c => sortMessages (ofChannel (file calls) c)) (fun c => bs.getD c 0) h0.voices
           _) = _
  rw [hv]
  rfl

/-! ## Counting starts and ends -/

/-- Fewer of one kind for every key means fewer altogether. -/
theorem countP_by_key {α κ : Type} [DecidableEq κ] (l : List α) (key : α → κ) (p q : α → Bool)
    (h : ∀ x, (l.countP fun a => p a && key a = x) ≤ l.countP fun a => q a && key a = x) :
    l.countP p ≤ l.countP q ∧ ((∃ x, (l.countP fun a => p a && key a = x) < l.countP fun a => q a && key a = x) → l.countP p < l.countP q) := by
  have hc : ∀ (r : α → Bool) (x : κ), ((l.filter r).map key).count x = l.countP fun a => r a && key a = x := by
    intro r x
    rw [List.count, List.countP_map, List.countP_filter]
    congr 1
    funext a
    simp only [Function.comp, Bool.and_comm]
    rfl
  have hs : ((l.filter p).map key).Subperm ((l.filter q).map key) := by
    rw [List.subperm_ext_iff]
    intro x _
    rw [hc, hc]
    exact h x
  have hl : ∀ r : α → Bool, ((l.filter r).map key).length = l.countP r := by
    intro r
    rw [List.length_map, List.countP_eq_length_filter]
  have h1 := hs.length_le
  rw [hl, hl] at h1
  refine ⟨h1, ?_⟩
  rintro ⟨x, hx⟩
  by_contra hlt
  have := (hs.perm_of_length_le (by rw [hl, hl]; omega)).count_eq x
  rw [hc, hc] at this
  omega

/-- At every instant no more notes of one number have ended than had started strictly before. -/
theorem paired_at (l : List TMsg) (hp : Paired l) (x : Option (Fin 16 × UInt8)) (t : Nat) :
    (l.countP fun m => ends m.1 && noteOf m.1 = x && m.2 ≤ t) ≤ l.countP fun m => starts m.1 && noteOf m.1 = x && m.2 < t := by
  induction t with
  | zero =>
    by_cases he : ∃ e ∈ l, ends e.1 = true ∧ noteOf e.1 = x ∧ e.2 = 0
    · obtain ⟨e, h1, h2, h3, h4⟩ := he
      have := hp.ended e h1 h2
      rw [h3, h4] at this
      exact this
    · have : (l.countP fun m => ends m.1 && noteOf m.1 = x && m.2 ≤ 0) = 0 := by
        rw [List.countP_eq_zero]
        intro m hm hh
        simp only [Bool.and_eq_true, decide_eq_true_eq] at hh
        exact he ⟨m, hm, hh.1.1, hh.1.2, by omega⟩
      omega
  | succ t ih =>
    by_cases he : ∃ e ∈ l, ends e.1 = true ∧ noteOf e.1 = x ∧ e.2 = t + 1
    · obtain ⟨e, h1, h2, h3, h4⟩ := he
      have := hp.ended e h1 h2
      rw [h3, h4] at this
      exact this
    · have e1 : (l.countP fun m => ends m.1 && noteOf m.1 = x && m.2 ≤ t + 1) = l.countP fun m => ends m.1 && noteOf m.1 = x && m.2 ≤ t := by
        apply List.countP_congr
        intro m hm
        simp only [Bool.and_eq_true, decide_eq_true_eq]
        constructor
        · rintro ⟨h1, h2⟩
          refine ⟨h1, ?_⟩
          by_contra h3
          exact he ⟨m, hm, h1.1, h1.2, by omega⟩
        · rintro ⟨h1, h2⟩; exact ⟨h1, by omega⟩
      have e2 : (l.countP fun m => starts m.1 && noteOf m.1 = x && m.2 < t) ≤ l.countP fun m => starts m.1 && noteOf m.1 = x && m.2 < t + 1 := by
        apply List.countP_mono_left
        intro m hm
        simp only [Bool.and_eq_true, decide_eq_true_eq]
        rintro ⟨h1, h2⟩
        exact ⟨h1, by omega⟩
      omega

theorem home_note {m : Message} {c : Fin 16} {n : UInt8} (h : noteOf m = some (c, n)) : home m = some c := by
  unfold noteOf at h
  split at h <;> simp_all [home]

theorem note_some {m : Message} (h : starts m = true ∨ ends m = true) : ∃ c n, noteOf m = some (c, n) := by
  unfold starts ends at h
  rcases h with h | h <;> split at h <;> simp_all [noteOf]

/-- The notes of a channel, counted per number. -/
theorem chan_key (l : List TMsg) (c : Fin 16) (p : TMsg → Bool) (hp : ∀ m, p m = true → ∃ d n, noteOf m.1 = some (d, n)) (x : Option (Fin 16 × UInt8)) :
    ((ofChannel l c).countP fun m => p m && noteOf m.1 = x) = if x.map (·.1) = some c then l.countP fun m => p m && noteOf m.1 = x else 0 := by
  unfold ofChannel
  rw [List.countP_filter]
  split_ifs with h
  · obtain ⟨⟨c', n⟩, rfl, h0⟩ := Option.map_eq_some_iff.1 h
    simp only at h0
    subst h0
    apply List.countP_congr
    intro m hm
    simp only [Bool.and_eq_true, decide_eq_true_eq]
    constructor
    · rintro ⟨h1, -⟩; exact h1
    · rintro h1; exact ⟨h1, home_note h1.2⟩
  · rw [List.countP_eq_zero]
    intro m hm hh
    simp only [Bool.and_eq_true, decide_eq_true_eq] at hh
    obtain ⟨⟨h1, h2⟩, h3⟩ := hh
    obtain ⟨d, n, h4⟩ := hp m h1
    have := home_note h4
    rw [h3] at this
    cases this
    exact h (by rw [← h2, h4]; rfl)

/-- The scan of every channel of a paired file goes through. -/
theorem paired_scan (l : List TMsg) (hp : Paired l) (c : Fin 16) (t : Nat) :
    endsBy (ofChannel l c) t ≤ (ofChannel l c).countP fun m => starts m.1 && m.2 < t := by
  unfold endsBy
  refine (countP_by_key (ofChannel l c) (fun m => noteOf m.1) _ _ ?_).1
  intro x
  rw [chan_key l c _ (by intro m h; simp only [Bool.and_eq_true] at h; exact note_some (.inr h.1)),
    chan_key l c _ (by intro m h; simp only [Bool.and_eq_true] at h; exact note_some (.inl h.1))]
  split_ifs
  · have := paired_at l hp x t
    simp only [Bool.and_right_comm _ (decide (_ ≤ t)), Bool.and_right_comm _ (decide (_ < t))]
    exact this
  · exact le_refl _

/-- Membership in the held notes. -/
theorem mem_heldAt (l : List TMsg) (t : Nat) (x : Fin 16 × UInt8) : x ∈ heldAt l t ↔ ∃ a ∈ l, starts a.1 = true ∧ noteOf a.1 = some x ∧ a.2 ≤ t ∧ ¬ EndedBy l a t := by
  unfold heldAt
  rw [List.mem_dedup, List.mem_filterMap]
  constructor
  · rintro ⟨a, ha, hx⟩
    rw [List.mem_filter] at ha
    simp only [decide_eq_true_eq] at ha
    exact ⟨a, ha.1, ha.2.1, hx, ha.2.2.1, ha.2.2.2⟩
  · rintro ⟨a, h1, h2, h3, h4, h5⟩
    exact ⟨a, List.mem_filter.2 ⟨h1, by simp only [decide_eq_true_eq]; exact ⟨h2, h4, h5⟩⟩, h3⟩

/-- A channel that holds a note sounds. -/
theorem held_sounds (l : List TMsg) (hp : Paired l) (c : Fin 16) (n : UInt8) (t : Nat) (h : (c, n) ∈ heldAt l t) : 0 < sounding (ofChannel l c) t := by
  obtain ⟨a, h1, h2, h3, h4, h5⟩ := (mem_heldAt l t _).1 h
  suffices endsBy (ofChannel l c) t < startsBy (ofChannel l c) t by unfold sounding; omega
  have hle : ∀ x, (l.countP fun m => starts m.1 && noteOf m.1 = x && m.2 < t) ≤ l.countP fun m => starts m.1 && noteOf m.1 = x && m.2 ≤ t := by
    intro x
    apply List.countP_mono_left
    intro m hm
    simp only [Bool.and_eq_true, decide_eq_true_eq]
    rintro ⟨h1, h2⟩
    exact ⟨h1, by omega⟩
  unfold endsBy startsBy
  have key := countP_by_key (ofChannel l c) (fun m => noteOf m.1) (fun m => ends m.1 && m.2 ≤ t) (fun m => starts m.1 && m.2 ≤ t) ?_
  · refine key.2 ⟨some (c, n), ?_⟩
    rw [chan_key l c _ (by intro m h; simp only [Bool.and_eq_true] at h; exact note_some (.inr h.1)),
      chan_key l c _ (by intro m h; simp only [Bool.and_eq_true] at h; exact note_some (.inl h.1))]
    simp only [Option.map_some, if_true, Bool.and_right_comm _ (decide (_ ≤ t))]
    -- no end of the note between `a` and `t`
    have e1 : (l.countP fun m => ends m.1 && noteOf m.1 = some (c, n) && m.2 ≤ t) ≤ l.countP fun m => ends m.1 && noteOf m.1 = some (c, n) && m.2 ≤ a.2 := by
      apply List.countP_mono_left
      intro m hm
      simp only [Bool.and_eq_true, decide_eq_true_eq]
      rintro ⟨g1, g2⟩
      refine ⟨g1, ?_⟩
      by_contra g3
      exact h5 ⟨m, hm, g1.1, by rw [g1.2, h3], by omega, g2⟩
    have e2 := paired_at l hp (some (c, n)) a.2
    have e3 : (l.countP fun m => starts m.1 && noteOf m.1 = some (c, n) && m.2 < a.2) < l.countP fun m => starts m.1 && noteOf m.1 = some (c, n) && m.2 ≤ t := by
      obtain ⟨l1, l2, rfl⟩ := List.append_of_mem h1
      have mono : ∀ l' : List TMsg, (l'.countP fun m => starts m.1 && noteOf m.1 = some (c, n) && m.2 < a.2) ≤ l'.countP fun m => starts m.1 && noteOf m.1 = some (c, n) && m.2 ≤ t := by
        intro l'
        apply List.countP_mono_left
        intro m hm
        simp only [Bool.and_eq_true, decide_eq_true_eq]
        rintro ⟨g1, g2⟩
        exact ⟨g1, by omega⟩
      have m1 := mono l1
      have m2 := mono l2
      rw [List.countP_append, List.countP_append, List.countP_cons, List.countP_cons]
      simp only [h2, h3, h4, Bool.true_and, decide_true, if_true, lt_irrefl, decide_false, Bool.and_false, Bool.false_eq_true, if_false]
      omega
    omega
  · intro x
    rw [chan_key l c _ (by intro m h; simp only [Bool.and_eq_true] at h; exact note_some (.inr h.1)),
      chan_key l c _ (by intro m h; simp only [Bool.and_eq_true] at h; exact note_some (.inl h.1))]
    split_ifs
    · have g1 := paired_at l hp x t
      have g2 := hle x
      simp only [Bool.and_right_comm _ (decide (_ ≤ t))]
      omega
    · exact le_refl _

/-! ## Base voices when there are at most eight playing channels -/

/-- One voice of the loop over valid voices. -/
def validStep (ch : List VoiceInterval) (active : ActiveIntervals) (st : List (Fin 8) × Bool) (i : Fin 8) : List (Fin 8) × Bool :=
  if !st.2 || !(active i).isEmpty then
    match overlappingInterval ch (active i) with
    | some _ => st
    | none => (st.1 ++ [i], st.2 || (active i).isEmpty)
  else st

theorem valid_prefix (ch : List VoiceInterval) (active : ActiveIntervals) (l : List (Fin 8)) : ∀ st, ∃ xs, (l.foldl (validStep ch active) st).1 = st.1 ++ xs := by
  induction l with
  | nil => intro st; exact ⟨[], by simp⟩
  | cons i l ih =>
    intro st
    rw [List.foldl_cons]
    obtain ⟨xs, hxs⟩ := ih (validStep ch active st i)
    have : ∃ ys, (validStep ch active st i).1 = st.1 ++ ys := by
      unfold validStep
      split_ifs
      · split
        · exact ⟨[], by simp⟩
        · exact ⟨[i], rfl⟩
      · exact ⟨[], by simp⟩
    obtain ⟨ys, hys⟩ := this
    exact ⟨ys ++ xs, by rw [hxs, hys, List.append_assoc]⟩

/-- The first valid voice is at most any voice that fits. -/
theorem valid_first (ch : List VoiceInterval) (active : ActiveIntervals) (e : Fin 8) (he : NoClash ch (active e)) :
    ∃ w ws, validVoices ch active = w :: ws ∧ w ≤ e := by
  suffices H : ∀ l : List (Fin 8), l.Pairwise (· < ·) → e ∈ l → ∃ w ws, (l.foldl (validStep ch active) ([], false)).1 = w :: ws ∧ w ≤ e from
    H (List.finRange 8) (by decide) (List.mem_finRange e)
  intro l
  induction l with
  | nil => intro _ h; cases h
  | cons i l ih =>
    intro hp hm
    rw [List.foldl_cons]
    cases ho : overlappingInterval ch (active i) with
    | none =>
      obtain ⟨xs, hxs⟩ := valid_prefix ch active l (validStep ch active ([], false) i)
      refine ⟨i, xs, ?_, ?_⟩
      · rw [hxs]; simp [validStep, ho]
      · rcases List.mem_cons.1 hm with rfl | hm
        · exact le_refl _
        · exact le_of_lt ((List.pairwise_cons.1 hp).1 e hm)
    | some x =>
      have h1 : validStep ch active ([], false) i = ([], false) := by simp [validStep, ho]
      rw [h1]
      refine ih (List.pairwise_cons.1 hp).2 ?_
      rcases List.mem_cons.1 hm with rfl | hm
      · rw [(overlapping_none _ _).2 he] at ho; cases ho
      · exact hm

/-- The number of channels with intervals. -/
def busyCount (chs : List (List VoiceInterval)) : Nat := chs.countP fun c => !c.isEmpty

/-- With at most eight channels that have intervals the search succeeds without backtracking and uses at most as many voices. -/
theorem find_few (chs : List (List VoiceInterval)) : ∀ (active : ActiveIntervals) (j : Nat), (∀ v : Fin 8, active v ≠ [] ↔ v.val < j) → j + busyCount chs ≤ 8 →
    ∃ bs, findBaseVoices chs active = some bs ∧ ∀ b ∈ bs, b.val = 0 ∨ b.val < j + busyCount chs := by
  induction chs with
  | nil => intro active j _ _; exact ⟨[], rfl, by simp⟩
  | cons ch chs ih =>
    intro active j hj hle
    have head : ∀ w ws, validVoices ch active = w :: ws → ∀ bs, findBaseVoices chs (Function.update active w (active w ++ ch)) = some bs →
        findBaseVoices (ch :: chs) active = some (w :: bs) := by
      intro w ws h1 bs h2
      simp [findBaseVoices, h1, h2]
    by_cases hch : ch = []
    · subst hch
      have hb : busyCount ([] :: chs) = busyCount chs := by simp [busyCount]
      rw [hb] at hle ⊢
      obtain ⟨w, ws, e1, e2⟩ := valid_first [] active 0 (by simp [NoClash])
      obtain ⟨bs, g1, g2⟩ := ih active j hj hle
      refine ⟨w :: bs, head w ws e1 bs (by simpa using g1), ?_⟩
      intro b hm
      rcases List.mem_cons.1 hm with rfl | hm
      · left
        have := Fin.le_def.1 e2
        simpa using this
      · exact g2 b hm
    · have hb : busyCount (ch :: chs) = busyCount chs + 1 := by simp [busyCount, hch]
      rw [hb] at hle ⊢
      obtain ⟨w, ws, e1, e2⟩ := valid_first ch active ⟨j, by omega⟩ (by
        have : active ⟨j, by omega⟩ = [] := by
          by_contra h
          exact absurd ((hj _).1 h) (lt_irrefl j)
        rw [this]
        simp [NoClash])
      have e2 : w.val ≤ j := Fin.le_def.1 e2
      by_cases hw : w.val = j
      · obtain ⟨bs, g1, g2⟩ := ih (Function.update active w (active w ++ ch)) (j + 1) (by
          intro v
          by_cases hv : v = w
          · subst hv
            simp only [Function.update_self, ne_eq, List.append_eq_nil_iff, hch, and_false, not_false_eq_true, true_iff]
            omega
          · rw [Function.update_of_ne hv, hj v]
            have : v.val ≠ j := fun h => hv (Fin.ext (by omega))
            omega) (by omega)
        refine ⟨w :: bs, head w ws e1 bs g1, ?_⟩
        intro b hm
        rcases List.mem_cons.1 hm with rfl | hm
        · right; omega
        · rcases g2 b hm with h | h
          · exact .inl h
          · right; omega
      · obtain ⟨bs, g1, g2⟩ := ih (Function.update active w (active w ++ ch)) j (by
          intro v
          by_cases hv : v = w
          · subst hv
            simp only [Function.update_self, ne_eq, List.append_eq_nil_iff, hch, and_false, not_false_eq_true, true_iff]
            omega
          · rw [Function.update_of_ne hv, hj v]) (by omega)
        refine ⟨w :: bs, head w ws e1 bs g1, ?_⟩
        intro b hm
        rcases List.mem_cons.1 hm with rfl | hm
        · right; omega
        · rcases g2 b hm with h | h
          · exact .inl h
          · right; omega

/-! ## Dealing -/

theorem emit_none (ord : EnumOrder) (base : Fin 16 → Fin 8) (k : Ctl) (m : Message) (h : emit ord base k m = none) :
    ∃ ch n, starts m = true ∧ noteOf m = some (ch, n) ∧ chooseVoice base (ctlClose k ch n).active ch = none := by
  cases m with
  | metaEvent d e data => cases e <;> simp [emit] at h
  | sysEx d data => simp [emit] at h
  | trackChange => simp [emit] at h
  | midiEvent d e =>
    cases e with
    | noteOn ch n vel =>
      simp only [emit] at h
      split_ifs at h with hv
      split at h
      · rename_i hc
        refine ⟨ch, n, ?_, rfl, hc⟩
        have hv0 : vel ≠ 0 := by rintro rfl; simp at hv
        simp [starts, hv0]
      · cases h
    | noteOff ch n vel => simp only [emit] at h; split at h <;> cases h
    | polyphonicKeyPressure ch n vel => simp only [emit] at h; split at h <;> cases h
    | _ => simp [emit] at h

theorem emit_placed (ord : EnumOrder) (base : Fin 16 → Fin 8) (k : Ctl) (m : Message) (o : List (Fin 8 × Message)) (k' : Ctl)
    (he : emit ord base k m = some (o, k')) (c : Fin 16) (n : UInt8) (v : Fin 8) (h : (n, v) ∈ k'.active c) :
    (n, v) ∈ k.active c ∨ (starts m = true ∧ noteOf m = some (c, n) ∧ chooseVoice base (ctlClose k c n).active c = some v) := by
  rcases active_step ord base k m o k' he c n v h with ⟨h1, h2⟩ | ⟨h1, -⟩
  · cases m with
    | midiEvent d e =>
      cases e with
      | noteOn ch nn vel =>
        simp only [noteOf, Option.some.injEq, Prod.mk.injEq] at h2
        obtain ⟨rfl, rfl⟩ := h2
        have hv0 : vel ≠ 0 := by simpa [starts] using h1
        have hv : vel > 0 := by
          rw [gt_iff_lt, UInt8.lt_iff_toNat_lt]
          have : vel.toNat ≠ 0 := fun e => hv0 (UInt8.toNat_inj.1 (by simpa using e))
          simp; omega
        simp only [emit, if_pos hv] at he
        split at he
        · cases he
        · rename_i w hw
          simp only [Option.some.injEq, Prod.mk.injEq] at he
          rw [← he.2] at h
          rcases mem_open _ _ _ _ _ _ _ h with ⟨-, e⟩ | h
          · simp only [Prod.mk.injEq, true_and] at e
            subst e
            exact .inr ⟨h1, rfl, hw⟩
          · exact .inl (mem_close _ _ _ _ _ h)
      | _ => simp [starts] at h1
    | _ => simp [starts] at h1
  · exact .inl h1

/-- Voices that are nobody's base voice. -/
def spare (base : Fin 16 → Fin 8) : List (Fin 8) := (List.finRange 8).filter fun v => ∀ c, base c ≠ v

/-- Voices that are some channel's base voice. -/
def based (base : Fin 16 → Fin 8) : List (Fin 8) := (List.finRange 8).filter fun v => ∃ c, base c = v

theorem spare_based (base : Fin 16 → Fin 8) : (spare base).length + (based base).length = 8 := by
  have h : (List.finRange 8).length = _ := List.length_eq_length_filter_add (fun v : Fin 8 => decide (∃ c, base c = v))
  unfold spare based
  rw [List.length_finRange] at h
  have e : (List.filter (fun v => !decide (∃ c, base c = v)) (List.finRange 8)) = (List.filter (fun v => decide (∀ c, base c ≠ v)) (List.finRange 8)) := by
    apply List.filter_congr
    intro v _
    by_cases h : ∃ c, base c = v
    · obtain ⟨c, hc⟩ := h
      have : ¬ ∀ c, base c ≠ v := fun h => h c hc
      simp only [this, decide_false, Bool.not_eq_false', decide_eq_true_eq]
      exact ⟨c, hc⟩
    · have h' : ∀ c, base c ≠ v := fun c hc => h ⟨c, hc⟩
      simp only [decide_eq_true h', decide_eq_false h, Bool.not_false]
  rw [e] at h
  omega

/-- What holds while dealing: notes on voices that are nobody's base belong to channels that play chords. -/
structure Dealt (l : List TMsg) (base : Fin 16 → Fin 8) (done : List TMsg) (k : Ctl) : Prop where
  held : ∃ outs, Held outs k
  places : Places base k
  since : Since done k
  over : ∀ c n v, (n, v) ∈ k.active c → (∀ c', base c' ≠ v) → Chords l c

theorem two_chords (l : List TMsg) (c : Fin 16) (n n' : UInt8) (a : TMsg) (ha : a ∈ l) (hs : starts a.1 = true) (h1 : (c, n) ∈ heldAt l a.2) (h2 : (c, n') ∈ heldAt l a.2)
    (hne : n ≠ n') : Chords l c := by
  refine ⟨a, ha, hs, ?_⟩
  have : ([(c, n), (c, n')] : List (Fin 16 × UInt8)).Subperm (heldOn l c a.2) := by
    refine List.Nodup.subperm (by simp [hne]) ?_
    intro x hx
    unfold heldOn
    rw [List.mem_filter]
    simp only [List.mem_cons, List.not_mem_nil, or_false] at hx
    rcases hx with rfl | rfl
    · exact ⟨h1, by simp⟩
    · exact ⟨h2, by simp⟩
  simpa using this.length_le

/-- Sounding notes are held when a note starts. -/
theorem held_when (l seq : List TMsg) (hperm : seq.Perm (l.filter fun m => (home m.1).isSome)) (hbef : seq.Pairwise Before)
    (done : List TMsg) (m : TMsg) (rest : List TMsg) (k : Ctl) (hsplit : seq = done ++ m :: rest) (hsince : Since done k) (hst : starts m.1 = true)
    (c : Fin 16) (n : UInt8) (v : Fin 8) (hm : (n, v) ∈ k.active c) : (c, n) ∈ heldAt l m.2 := by
  have hmem : ∀ x ∈ seq, x ∈ l := fun x hx => List.mem_of_mem_filter (hperm.mem_iff.1 hx)
  have hmem' : ∀ x ∈ l, (home x.1).isSome = true → x ∈ seq := fun x hx hh => hperm.mem_iff.2 (List.mem_filter.2 ⟨hx, hh⟩)
  obtain ⟨pre, a, post, rfl, e2, e3, e4⟩ := hsince.since c n v hm
  rw [hsplit] at hbef
  rw [List.pairwise_append] at hbef
  obtain ⟨b1, b2, b3⟩ := hbef
  have ham := b3 a (by simp) m (by simp)
  rw [List.pairwise_append] at b1
  obtain ⟨-, -, b4⟩ := b1
  have hmr := (starts_rank hst).1
  refine (mem_heldAt l m.2 _).2 ⟨a, hmem a (by rw [hsplit]; simp), e2, e3, by rcases ham with h | h <;> omega, ?_⟩
  rintro ⟨e, g1, g2, g3, g4, g5⟩
  have hes := hmem' e g1 (ends_noteOf g2).1
  have her : rank e.1 = 0 := by simp [rank, g2]
  rw [hsplit] at hes
  simp only [List.mem_append, List.mem_cons] at hes
  rcases hes with (hes | rfl | hes) | rfl | hes
  · rcases b4 e hes a (by simp) with h | h <;> omega
  · exact absurd g4 (lt_irrefl _)
  · exact e4 e hes g2 (by rw [g3, e3])
  · omega
  · rcases (List.pairwise_cons.1 b2).1 e hes with h | h <;> omega

/-- A note is held when it starts. -/
theorem held_self (l : List TMsg) (m : TMsg) (hm : m ∈ l) (hst : starts m.1 = true) (c : Fin 16) (n : UInt8) (hn : noteOf m.1 = some (c, n)) : (c, n) ∈ heldAt l m.2 := by
  refine (mem_heldAt l m.2 _).2 ⟨m, hm, hst, hn, le_refl _, ?_⟩
  rintro ⟨e, -, -, -, g4, g5⟩
  omega

/-- A busy base voice is held by the channel itself. -/
theorem busy_base (base : Fin 16 → Fin 8) (l seq : List TMsg) (hperm : seq.Perm (l.filter fun m => (home m.1).isSome)) (hbef : seq.Pairwise Before)
    (hshare : ∀ c c' n n' t, base c = base c' → (c, n) ∈ heldAt l t → (c', n') ∈ heldAt l t → c = c')
    (done : List TMsg) (m : TMsg) (rest : List TMsg) (k : Ctl) (hsplit : seq = done ++ m :: rest) (hd : Dealt l base done k) (hst : starts m.1 = true)
    (ch : Fin 16) (n : UInt8) (hn : noteOf m.1 = some (ch, n)) (hb : voiceBusy (ctlClose k ch n).active (base ch) = true) :
    ∃ n', n' ≠ n ∧ (n', base ch) ∈ (ctlClose k ch n).active ch ∧ Chords l ch := by
  have hml : m ∈ l := List.mem_of_mem_filter (hperm.mem_iff.1 (by rw [hsplit]; simp))
  obtain ⟨c, n', hm⟩ := (voiceBusy_iff _ _).1 hb
  have hm0 := mem_close _ _ _ _ _ hm
  have h1 := held_when l seq hperm hbef done m rest k hsplit hd.since hst c n' _ hm0
  have h2 := held_self l m hml hst ch n hn
  have hbc : base c = base ch := by
    rcases hd.places.place c n' _ hm0 with h | h
    · exact h.symm
    · exact absurd rfl (h ch)
  have hcc := hshare c ch n' n m.2 hbc h1 h2
  subst hcc
  have hne : n' ≠ n := by
    have := (close_active k c n c n' _ hm).2
    intro e; exact this (by rw [e])
  exact ⟨n', hne, hm, two_chords l c n' n m hml hst h1 h2 hne⟩

theorem dealt_init (l : List TMsg) (base : Fin 16 → Fin 8) : Dealt l base [] (ctl0 base) :=
  ⟨⟨[], held_init base⟩, places_init base, ⟨by simp [ctl0]⟩, by simp [ctl0]⟩

theorem dealt_step (ord : EnumOrder) (base : Fin 16 → Fin 8) (l seq : List TMsg) (hperm : seq.Perm (l.filter fun m => (home m.1).isSome)) (hbef : seq.Pairwise Before)
    (hshare : ∀ c c' n n' t, base c = base c' → (c, n) ∈ heldAt l t → (c', n') ∈ heldAt l t → c = c')
    (done : List TMsg) (m : Message) (t : Nat) (rest : List TMsg) (k : Ctl) (hsplit : seq = done ++ (m, t) :: rest) (hd : Dealt l base done k)
    (o : List (Fin 8 × Message)) (k' : Ctl) (he : emit ord base k m = some (o, k')) : Dealt l base (done ++ [(m, t)]) k' := by
  obtain ⟨outs, hh⟩ := hd.held
  refine ⟨⟨_, held_step ord base outs k m t o k' hh he⟩, places_step ord base k m o k' hd.places he, since_step ord base done k m t o k' hd.since he, ?_⟩
  intro c n v hm hv
  rcases emit_placed ord base k m o k' he c n v hm with h | ⟨h1, h2, h3⟩
  · exact hd.over c n v h hv
  · by_cases hb : voiceBusy (ctlClose k c n).active (base c) = true
    · obtain ⟨n', -, -, h4⟩ := busy_base base l seq hperm hbef hshare done (m, t) rest k hsplit hd h1 c n h2 hb
      exact h4
    · unfold chooseVoice at h3
      rw [if_neg hb] at h3
      simp only [Option.some.injEq] at h3
      exact absurd h3 (hv c)

/-- Dealing a paired file succeeds if channels sharing a base voice never hold notes at the same time and the notes of channels that play chords are few enough. -/
theorem deal_ok (ord : EnumOrder) (base : Fin 16 → Fin 8) (l seq : List TMsg) (hperm : seq.Perm (l.filter fun m => (home m.1).isSome)) (hbef : seq.Pairwise Before)
    (hshare : ∀ c c' n n' t, base c = base c' → (c, n) ∈ heldAt l t → (c', n') ∈ heldAt l t → c = c')
    (hfew : ∀ a ∈ l, starts a.1 = true → ((heldAt l a.2).filter fun x => Chords l x.1).length + (based base).length ≤ 9) :
    ∃ r, emits ord base (ctl0 base) seq = some r := by
  have hmem : ∀ x ∈ seq, x ∈ l := fun x hx => List.mem_of_mem_filter (hperm.mem_iff.1 hx)
  have fact := held_when l seq hperm hbef
  have self := held_self l
  have busy := busy_base base l seq hperm hbef hshare
  suffices H : ∀ rest done k, seq = done ++ rest → Dealt l base done k → ∃ r, emits ord base k rest = some r from
    H seq [] (ctl0 base) rfl (dealt_init l base)
  intro rest
  induction rest with
  | nil => intro done k _ _; exact ⟨_, rfl⟩
  | cons m rest ih =>
    intro done k hsplit hd
    obtain ⟨m, t⟩ := m
    have hml : (m, t) ∈ l := hmem _ (by rw [hsplit]; simp)
    cases he : emit ord base k m with
    | some r =>
      obtain ⟨o, k'⟩ := r
      obtain ⟨r, hr⟩ := ih (done ++ [(m, t)]) k' (by rw [hsplit]; simp) (dealt_step ord base l seq hperm hbef hshare done m t rest k hsplit hd o k' he)
      obtain ⟨os, k2⟩ := r
      exact ⟨(o.map (fun p => (p.1, (p.2, t))) ++ os, k2), by simp only [emits, he, hr]⟩
    | none =>
      exfalso
      obtain ⟨ch, n, h1, h2, h3⟩ := emit_none ord base k m he
      have hb : voiceBusy (ctlClose k ch n).active (base ch) = true := by
        by_contra hb
        unfold chooseVoice at h3
        rw [if_neg hb] at h3
        cases h3
      obtain ⟨n', hne, hn', hch⟩ := busy done (m, t) rest k hsplit hd h1 ch n h2 hb
      unfold chooseVoice at h3
      rw [if_pos hb, List.find?_eq_none] at h3
      have hold : ∀ v : Fin 8, ∃ x : Fin 16 × UInt8, v ∈ spare base → (x.2, v) ∈ (ctlClose k ch n).active x.1 := by
        intro v
        by_cases hv : v ∈ spare base
        · have hs : ∀ c, base c ≠ v := by simpa [spare] using hv
          have := h3 v (List.mem_finRange v)
          have hvb : voiceBusy (ctlClose k ch n).active v = true := by
            by_contra hvb
            apply this
            simp only [Bool.and_eq_true, Bool.not_eq_true']
            refine ⟨?_, by simpa using hvb⟩
            rw [List.any_eq_false]
            intro c _
            simp [hs c]
          obtain ⟨c, x, hx⟩ := (voiceBusy_iff _ _).1 hvb
          exact ⟨(c, x), fun _ => hx⟩
        · exact ⟨(0, 0), fun h => absurd h hv⟩
      choose f hf using hold
      obtain ⟨outs, hh⟩ := hd.held
      have keys : ∀ (x : Fin 16 × UInt8) v w, (x.2, v) ∈ (ctlClose k ch n).active x.1 → (x.2, w) ∈ (ctlClose k ch n).active x.1 → v = w := by
        intro x v w h1 h2
        have := hh.keys x.1 _ _ (mem_close _ _ _ _ _ h1) (mem_close _ _ _ _ _ h2) rfl
        simpa using this
      have hsub : ((spare base).map f ++ [(ch, n'), (ch, n)]).Subperm ((heldAt l t).filter fun x => Chords l x.1) := by
        apply List.Nodup.subperm
        · rw [List.nodup_append]
          refine ⟨?_, by simp [hne], ?_⟩
          · refine List.Nodup.map_on ?_ ((List.nodup_finRange 8).filter _)
            intro v hv w hw e
            have h5 := hf v hv
            rw [e] at h5
            exact keys (f w) v w h5 (hf w hw)
          · intro x hx y hy e
            subst e
            obtain ⟨v, hv, rfl⟩ := List.mem_map.1 hx
            have hs : ∀ c, base c ≠ v := by simpa [spare] using hv
            simp only [List.mem_cons, List.not_mem_nil, or_false] at hy
            rcases hy with hy | hy
            · have h5 := hf v hv
              rw [hy] at h5
              exact hs ch (keys (ch, n') _ _ hn' h5)
            · have h5 := hf v hv
              rw [hy] at h5
              exact (close_active k ch n ch n v h5).2 rfl
        · intro x hx
          rw [List.mem_filter]
          rcases List.mem_append.1 hx with hx | hx
          · obtain ⟨v, hv, rfl⟩ := List.mem_map.1 hx
            have hs : ∀ c, base c ≠ v := by simpa [spare] using hv
            have h5 := mem_close _ _ _ _ _ (hf v hv)
            exact ⟨fact done (m, t) rest k hsplit hd.since h1 _ _ v h5, by simpa using hd.over _ _ v h5 hs⟩
          · simp only [List.mem_cons, List.not_mem_nil, or_false] at hx
            rcases hx with rfl | rfl
            · exact ⟨fact done (m, t) rest k hsplit hd.since h1 _ _ _ (mem_close _ _ _ _ _ hn'), by simpa using hch⟩
            · exact ⟨self (m, t) hml h1 _ _ h2, by simpa using hch⟩
      have hlen := hsub.length_le
      have h9 := hfew (m, t) hml h1
      have h8 := spare_based base
      simp only [List.length_append, List.length_map, List.length_cons, List.length_nil] at hlen
      simp only at h9
      omega

end M2S
