import Verif.Proofs.Routing
/-
The interval scan.
-/
namespace M2S
open MidiSpec

theorem chain_append (l : List VoiceInterval) (a b : Nat) (i : VoiceInterval) (h : Chain a l b) (h1 : i.start = b) (h2 : i.start < i.stop) :
    Chain a (l ++ [i]) i.stop := by
  induction l generalizing a with
  | nil => simp only [Chain] at h; simp [Chain, h1, h2, h]
           omega
  | cons x l ih => exact ⟨h.1, h.2.1, ih _ h.2.2⟩

theorem chain_le (l : List VoiceInterval) (a b : Nat) (h : Chain a l b) : a ≤ b ∧ ∀ i ∈ l, i.start < i.stop ∧ i.stop ≤ b := by
  induction l generalizing a with
  | nil => simp only [Chain] at h; exact ⟨h.le, by simp⟩
  | cons x l ih =>
    obtain ⟨h1, h2, h3⟩ := h
    obtain ⟨i1, i2⟩ := ih _ h3
    refine ⟨by omega, ?_⟩
    intro i hi
    rcases List.mem_cons.1 hi with rfl | hi
    · exact ⟨h2, i1⟩
    · exact i2 i hi

/-- Every instant before the end of a chain lies in one of its intervals. -/
theorem chain_cover (l : List VoiceInterval) (a b t : Nat) (h : Chain a l b) (h1 : a ≤ t) (h2 : t < b) : ∃ i ∈ l, i.start ≤ t ∧ t < i.stop := by
  induction l generalizing a with
  | nil => simp only [Chain] at h; omega
  | cons x l ih =>
    obtain ⟨e1, e2, e3⟩ := h
    by_cases ht : t < x.stop
    · exact ⟨x, by simp, by omega, ht⟩
    · obtain ⟨i, hi, h3⟩ := ih _ e3 (by omega)
      exact ⟨i, by simp [hi], h3⟩

/-- The scan after the messages `done`. -/
structure Scanned (i : Fin 16) (m0 : Nat) (done : List TMsg) (st : ScanState) : Prop where
  chain : Chain 0 st.intervals st.lastEnd
  chan : ∀ iv ∈ st.intervals, iv.channel = i
  count : st.active + (done.countP fun m => ends m.1) = done.countP fun m => starts m.1
  voices : ∀ iv ∈ st.intervals, ∀ t, iv.start ≤ t → t < iv.stop → iv.voices + endsBy done t = startsBy done t
  before : ∀ m ∈ done, (starts m.1 || ends m.1) → m.2 ≤ st.lastEnd
  last : st.lastEnd = 0 ∨ ∃ m ∈ done, (starts m.1 || ends m.1) ∧ m.2 = st.lastEnd
  maxGe : m0 ≤ st.maxTime ∧ ∀ m ∈ done, (∃ d e, m.1 = .midiEvent d e) → m.2 ≤ st.maxTime
  maxMem : st.maxTime = m0 ∨ ∃ m ∈ done, (∃ d e, m.1 = .midiEvent d e) ∧ m.2 = st.maxTime

theorem scanned_init (i : Fin 16) (m0 : Nat) : Scanned i m0 [] { maxTime := m0 } :=
  ⟨rfl, by simp, by simp, by simp, by simp, .inl rfl, by simp, .inl rfl⟩

theorem by_append (done : List TMsg) (m : TMsg) (t : Nat) :
    startsBy (done ++ [m]) t = startsBy done t + (if starts m.1 && m.2 ≤ t then 1 else 0) ∧
    endsBy (done ++ [m]) t = endsBy done t + (if ends m.1 && m.2 ≤ t then 1 else 0) := by
  constructor
  · unfold startsBy; rw [List.countP_append, List.countP_singleton]
  · unfold endsBy; rw [List.countP_append, List.countP_singleton]

/-- Counts up to an instant when all note messages are earlier. -/
theorem by_all (done : List TMsg) (t : Nat) (h : ∀ m ∈ done, (starts m.1 || ends m.1) → m.2 ≤ t) :
    (startsBy done t = done.countP fun m => starts m.1) ∧ (endsBy done t = done.countP fun m => ends m.1) := by
  constructor
  · unfold startsBy
    apply List.countP_congr
    intro m hm
    have := h m hm
    cases hs : starts m.1 <;> simp_all
  · unfold endsBy
    apply List.countP_congr
    intro m hm
    have := h m hm
    cases hs : ends m.1 <;> simp_all

/-- A note message in the scan. -/
theorem scanned_note (i : Fin 16) (m0 : Nat) (done : List TMsg) (st : ScanState) (h : Scanned i m0 done st) (d : Nat) (e : MidiEvent) (t : Nat)
    (hord : ∀ m ∈ done, m.2 ≤ t) (hn : (starts (.midiEvent d e) || ends (.midiEvent d e)) = true) (a : Nat)
    (ha : a + (if ends (.midiEvent d e) then 1 else 0) = st.active + (if starts (.midiEvent d e) then 1 else 0)) :
    Scanned i m0 (done ++ [(.midiEvent d e, t)])
      { st with intervals := pushInterval i st t, active := a, lastEnd := t, maxTime := max st.maxTime t } := by
  have hle : st.lastEnd ≤ t := by
    rcases h.last with h0 | ⟨m, hm, -, h1⟩
    · omega
    · rw [← h1]; exact hord m hm
  have hcnt : ∀ t', t' < t → startsBy (done ++ [(Message.midiEvent d e, t)]) t' = startsBy done t' ∧ endsBy (done ++ [(Message.midiEvent d e, t)]) t' = endsBy done t' := by
    intro t' ht'
    obtain ⟨e1, e2⟩ := by_append done (.midiEvent d e, t) t'
    rw [e1, e2]
    have : ¬ t ≤ t' := by omega
    simp [this]
  have hmem : ∀ m ∈ done ++ [(Message.midiEvent d e, t)], m ∈ done ∨ m = (.midiEvent d e, t) := by simp
  refine ⟨?_, ?_, ?_, ?_, ?_, .inr ⟨_, List.mem_append_right _ (List.mem_singleton.2 rfl), hn, rfl⟩, ?_, ?_⟩
  · simp only [pushInterval]
    split_ifs with hgt
    · exact chain_append _ _ _ ⟨st.lastEnd, t, i, st.active⟩ h.chain rfl hgt
    · have : st.lastEnd = t := by omega
      rw [← this]; exact h.chain
  · simp only [pushInterval]
    split_ifs with hgt
    · intro iv hiv
      rcases List.mem_append.1 hiv with hiv | hiv
      · exact h.chan iv hiv
      · simp only [List.mem_singleton] at hiv; subst hiv; rfl
    · exact h.chan
  · rw [List.countP_append, List.countP_append, List.countP_singleton, List.countP_singleton]
    have := h.count
    simp only at ha ⊢
    omega
  · have old : ∀ iv ∈ st.intervals, ∀ t', iv.start ≤ t' → t' < iv.stop →
        iv.voices + endsBy (done ++ [(Message.midiEvent d e, t)]) t' = startsBy (done ++ [(Message.midiEvent d e, t)]) t' := by
      intro iv hiv t' h1 h2
      have := ((chain_le _ _ _ h.chain).2 iv hiv).2
      obtain ⟨e1, e2⟩ := hcnt t' (by omega)
      rw [e1, e2]
      exact h.voices iv hiv t' h1 h2
    simp only [pushInterval]
    split_ifs with hgt
    · intro iv hiv t' h1 h2
      rcases List.mem_append.1 hiv with hiv | hiv
      · exact old iv hiv t' h1 h2
      · simp only [List.mem_singleton] at hiv
        subst hiv
        simp only at h1 h2 ⊢
        obtain ⟨e1, e2⟩ := hcnt t' h2
        obtain ⟨f1, f2⟩ := by_all done t' (fun m hm hx => le_trans (h.before m hm hx) h1)
        rw [e1, e2, f1, f2]
        exact h.count
    · exact old
  · intro m hm _
    rcases hmem m hm with hm | rfl
    · exact hord m hm
    · exact le_refl _
  · refine ⟨le_trans h.maxGe.1 (le_max_left _ _), ?_⟩
    intro m hm hx
    rcases hmem m hm with hm | rfl
    · exact le_trans (h.maxGe.2 m hm hx) (le_max_left _ _)
    · exact le_max_right _ _
  · rcases le_total t st.maxTime with hm | hm
    · simp only [max_eq_left hm]
      rcases h.maxMem with h1 | ⟨m, h1, h2⟩
      · exact .inl h1
      · exact .inr ⟨m, by simp [h1], h2⟩
    · simp only [max_eq_right hm]
      exact .inr ⟨_, List.mem_append_right _ (List.mem_singleton.2 rfl), ⟨d, e, rfl⟩, rfl⟩

/-- Any other message in the scan. -/
theorem scanned_other (i : Fin 16) (m0 : Nat) (done : List TMsg) (st : ScanState) (h : Scanned i m0 done st) (m : TMsg)
    (hs : starts m.1 = false) (he : ends m.1 = false) (mt : Nat)
    (hmt : (∃ d e, m.1 = .midiEvent d e) ∧ mt = max st.maxTime m.2 ∨ (¬ ∃ d e, m.1 = .midiEvent d e) ∧ mt = st.maxTime) :
    Scanned i m0 (done ++ [m]) { st with maxTime := mt } := by
  have hmem : ∀ x ∈ done ++ [m], x ∈ done ∨ x = m := by simp
  refine ⟨h.chain, h.chan, ?_, ?_, ?_, ?_, ?_, ?_⟩
  · rw [List.countP_append, List.countP_append, List.countP_singleton, List.countP_singleton]
    simp only [hs, he]
    simpa using h.count
  · intro iv hiv t h1 h2
    obtain ⟨e1, e2⟩ := by_append done m t
    rw [e1, e2, hs, he]
    simpa using h.voices iv hiv t h1 h2
  · intro x hx hn
    rcases hmem x hx with hx | rfl
    · exact h.before x hx hn
    · simp [hs, he] at hn
  · rcases h.last with h0 | ⟨x, hx, h1, h2⟩
    · exact .inl h0
    · exact .inr ⟨x, by simp [hx], h1, h2⟩
  · rcases hmt with ⟨hm, rfl⟩ | ⟨hm, rfl⟩
    · refine ⟨le_trans h.maxGe.1 (le_max_left _ _), ?_⟩
      intro x hx hn
      rcases hmem x hx with hx | rfl
      · exact le_trans (h.maxGe.2 x hx hn) (le_max_left _ _)
      · exact le_max_right _ _
    · refine ⟨h.maxGe.1, ?_⟩
      intro x hx hn
      rcases hmem x hx with hx | rfl
      · exact h.maxGe.2 x hx hn
      · exact absurd hn hm
  · have keep : st.maxTime = m0 ∨ ∃ x ∈ done ++ [m], (∃ d e, x.1 = .midiEvent d e) ∧ x.2 = st.maxTime := by
      rcases h.maxMem with h1 | ⟨x, h1, h2⟩
      · exact .inl h1
      · exact .inr ⟨x, by simp [h1], h2⟩
    rcases hmt with ⟨hm, rfl⟩ | ⟨hm, rfl⟩
    · rcases le_total m.2 st.maxTime with hle | hle
      · simp only [max_eq_left hle]; exact keep
      · simp only [max_eq_right hle]; exact .inr ⟨m, by simp, hm, rfl⟩
    · exact keep

theorem scanned_step (i : Fin 16) (m0 : Nat) (done : List TMsg) (st st' : ScanState) (h : Scanned i m0 done st) (m : TMsg)
    (hord : ∀ x ∈ done, x.2 ≤ m.2) (hs : scanMessage i st m = .ok st') : Scanned i m0 (done ++ [m]) st' := by
  obtain ⟨m, t⟩ := m
  have other : ∀ d e, m = .midiEvent d e → starts m = false → ends m = false → { st with maxTime := max st.maxTime t } = st' →
      Scanned i m0 (done ++ [(m, t)]) st' := by
    rintro d e rfl h1 h2 rfl
    exact scanned_other i m0 done st h _ h1 h2 _ (.inl ⟨⟨d, e, rfl⟩, rfl⟩)
  have none' : (¬ ∃ d e, m = .midiEvent d e) → starts m = false → ends m = false → st = st' → Scanned i m0 (done ++ [(m, t)]) st' := by
    rintro h0 h1 h2 rfl
    exact scanned_other i m0 done st h (m, t) h1 h2 st.maxTime (.inr ⟨h0, rfl⟩)
  cases m with
  | midiEvent d e =>
    cases e with
    | noteOff ch n v =>
      simp only [scanMessage, res_bind, res_pure, subU_ok] at hs
      obtain ⟨a, ⟨h1, rfl⟩, st1, rfl, rfl⟩ := hs
      exact scanned_note i m0 done st h d _ t hord rfl _ (by simp [ends, starts]; omega)
    | noteOn ch n v =>
      by_cases hv : v = 0
      · simp only [scanMessage, res_bind, res_pure, if_pos hv, subU_ok] at hs
        obtain ⟨a, ⟨h1, rfl⟩, st1, rfl, rfl⟩ := hs
        exact scanned_note i m0 done st h d _ t hord (by simp [starts, ends, hv]) _ (by simp [ends, starts, hv]; omega)
      · simp only [scanMessage, res_bind, res_pure, if_neg hv] at hs
        obtain ⟨a, rfl, st1, rfl, rfl⟩ := hs
        exact scanned_note i m0 done st h d _ t hord (by simp [starts, ends, hv]) _ (by simp [ends, starts, hv])
    | polyphonicKeyPressure ch n v =>
      simp only [scanMessage, res_bind, res_pure] at hs
      obtain ⟨st1, rfl, rfl⟩ := hs
      exact other _ _ rfl rfl rfl rfl
    | controlChange ch n v =>
      simp only [scanMessage, res_bind, res_pure] at hs
      obtain ⟨st1, rfl, rfl⟩ := hs
      exact other _ _ rfl rfl rfl rfl
    | programChange ch n =>
      simp only [scanMessage, res_bind, res_pure] at hs
      obtain ⟨st1, rfl, rfl⟩ := hs
      exact other _ _ rfl rfl rfl rfl
    | channelPressure ch n =>
      simp only [scanMessage, res_bind, res_pure] at hs
      obtain ⟨st1, rfl, rfl⟩ := hs
      exact other _ _ rfl rfl rfl rfl
    | pitchBendChange ch n =>
      simp only [scanMessage, res_bind, res_pure] at hs
      obtain ⟨st1, rfl, rfl⟩ := hs
      exact other _ _ rfl rfl rfl rfl
    | unknown ch =>
      simp only [scanMessage, res_bind, res_pure] at hs
      obtain ⟨st1, rfl, rfl⟩ := hs
      exact other _ _ rfl rfl rfl rfl
  | metaEvent d e data =>
    simp only [scanMessage, Except.ok.injEq] at hs
    exact none' (by simp) rfl rfl hs
  | sysEx d data =>
    simp only [scanMessage, Except.ok.injEq] at hs
    exact none' (by simp) rfl rfl hs
  | trackChange =>
    simp only [scanMessage, Except.ok.injEq] at hs
    exact none' (by simp) rfl rfl hs

theorem scanned_loop (i : Fin 16) (m0 : Nat) (msgs : List TMsg) : ∀ (done : List TMsg) (st st' : ScanState), Scanned i m0 done st →
    (done ++ msgs).Pairwise (fun a b => a.2 ≤ b.2) → msgs.foldlM (scanMessage i) st = .ok st' → Scanned i m0 (done ++ msgs) st' := by
  induction msgs with
  | nil =>
    intro done st st' h _ hs
    simp only [List.foldlM_nil, res_pure] at hs
    subst hs
    simpa using h
  | cons m ms ih =>
    intro done st st' h hp hs
    simp only [List.foldlM_cons, res_bind] at hs
    obtain ⟨st1, h1, h2⟩ := hs
    have hord : ∀ x ∈ done, x.2 ≤ m.2 := by
      intro x hx
      exact (List.pairwise_append.1 hp).2.2 x hx m (by simp)
    have := ih (done ++ [m]) st1 st' (scanned_step i m0 done st st1 h m hord h1) (by simpa using hp) h2
    simpa using this

theorem scanChannel_ok (i : Fin 16) (msgs : List TMsg) (m0 : Nat) (st : ScanState) (hp : msgs.Pairwise (fun a b => a.2 ≤ b.2))
    (h : scanChannel i msgs m0 = .ok st) : Scanned i m0 msgs st := by
  have := scanned_loop i m0 msgs [] { maxTime := m0 } st (scanned_init i m0) (by simpa using hp) h
  simpa using this

/-- The scan succeeds exactly if no note ends before it starts. -/
theorem scan_succeeds (i : Fin 16) (msgs : List TMsg) : ∀ st : ScanState, (∃ st', msgs.foldlM (scanMessage i) st = .ok st') ↔
    ∀ k, ((msgs.take k).countP fun m => ends m.1) ≤ st.active + ((msgs.take k).countP fun m => starts m.1) := by
  induction msgs with
  | nil => intro st; simp [pure, Except.pure]
  | cons m ms ih =>
    intro st
    -- one step
    have step : (∃ st1, scanMessage i st m = .ok st1 ∧ st1.active + (if ends m.1 then 1 else 0) = st.active + (if starts m.1 then 1 else 0)) ∨
        ((∀ st1, scanMessage i st m ≠ .ok st1) ∧ ends m.1 = true ∧ starts m.1 = false ∧ st.active = 0) := by
      obtain ⟨m, t⟩ := m
      cases m with
      | midiEvent d e =>
        cases e with
        | noteOff ch n v =>
          by_cases ha : 1 ≤ st.active
          · left
            refine ⟨_, by simp only [scanMessage, subU, if_pos ha]; rfl, ?_⟩
            simp [ends, starts]; omega
          · right
            refine ⟨?_, rfl, rfl, by omega⟩
            intro st1
            simp [scanMessage, subU, if_neg ha, panicked, bind, Except.bind]
        | noteOn ch n v =>
          by_cases hv : v = 0
          · by_cases ha : 1 ≤ st.active
            · left
              refine ⟨_, by simp only [scanMessage, subU, if_pos ha, if_pos hv]; rfl, ?_⟩
              simp [ends, starts, hv]; omega
            · right
              refine ⟨?_, by simp [ends, hv], by simp [starts, hv], by omega⟩
              intro st1
              simp [scanMessage, subU, if_neg ha, hv, panicked, bind, Except.bind]
          · left
            refine ⟨_, by simp only [scanMessage, if_neg hv]; rfl, ?_⟩
            simp [ends, starts, hv]
        | _ => left; exact ⟨_, rfl, by simp [starts, ends]⟩
      | _ => left; exact ⟨_, rfl, by simp [starts, ends]⟩
    simp only [List.foldlM_cons, res_bind]
    rcases step with ⟨st1, h1, h2⟩ | ⟨h1, h2, h3, h4⟩
    · constructor
      · rintro ⟨st', st1', e1, e2⟩
        rw [h1] at e1
        cases e1
        have := (ih st1).1 ⟨st', e2⟩
        intro k
        cases k with
        | zero => simp
        | succ k =>
          have := this k
          simp only [List.take_succ_cons, List.countP_cons]
          omega
      · intro hk
        obtain ⟨st', h⟩ := (ih st1).2 (by
          intro k
          have := hk (k + 1)
          simp only [List.take_succ_cons, List.countP_cons] at this
          omega)
        exact ⟨st', st1, h1, h⟩
    · constructor
      · rintro ⟨st', st1', e1, -⟩
        exact absurd e1 (h1 st1')
      · intro hk
        have := hk 1
        simp [List.countP_cons, h2, h3, h4] at this

/-- All channels. -/
theorem scanChannels_ok (cs : ChanMsgs) (hp : ∀ c, (cs c).Pairwise (fun a b => a.2 ≤ b.2)) (m0 : Nat) (ivs : Fin 16 → List VoiceInterval) (mt : Nat)
    (h : scanChannels cs m0 = .ok (ivs, mt)) :
    (∀ c, ∃ m1 st, st.intervals = ivs c ∧ Scanned c m1 (cs c) st) ∧ m0 ≤ mt ∧
    (∀ c, ∀ m ∈ cs c, (∃ d e, m.1 = .midiEvent d e) → m.2 ≤ mt) ∧
    (mt = m0 ∨ ∃ c, ∃ m ∈ cs c, (∃ d e, m.1 = .midiEvent d e) ∧ m.2 = mt) := by
  have key : ∀ (l : List (Fin 16)) (acc acc' : (Fin 16 → List VoiceInterval) × Nat), l.Nodup →
      l.foldlM (fun (acc : (Fin 16 → List VoiceInterval) × Nat) i => do
        let st ← scanChannel i (cs i) acc.2
        return (Function.update acc.1 i st.intervals, st.maxTime)) acc = .ok acc' →
      (∀ c ∈ l, ∃ m1 st, st.intervals = acc'.1 c ∧ Scanned c m1 (cs c) st) ∧ (∀ c, c ∉ l → acc'.1 c = acc.1 c) ∧ acc.2 ≤ acc'.2 ∧
      (∀ c ∈ l, ∀ m ∈ cs c, (∃ d e, m.1 = .midiEvent d e) → m.2 ≤ acc'.2) ∧
      (acc'.2 = acc.2 ∨ ∃ c ∈ l, ∃ m ∈ cs c, (∃ d e, m.1 = .midiEvent d e) ∧ m.2 = acc'.2) := by
    intro l
    induction l with
    | nil =>
      intro acc acc' _ hs
      simp only [List.foldlM_nil, res_pure] at hs
      subst hs
      exact ⟨by simp, fun _ _ => rfl, le_refl _, by simp, .inl rfl⟩
    | cons i l ih =>
      intro acc acc' hnd hs
      simp only [List.foldlM_cons, res_bind, res_pure] at hs
      obtain ⟨acc1, ⟨st, h1, rfl⟩, h2⟩ := hs
      obtain ⟨hni, hnd⟩ := List.nodup_cons.1 hnd
      obtain ⟨j1, j2, j3, j4, j5⟩ := ih _ acc' hnd h2
      have hsc := scanChannel_ok i (cs i) acc.2 st (hp i) h1
      refine ⟨?_, ?_, le_trans hsc.maxGe.1 j3, ?_, ?_⟩
      · intro c hc
        rcases List.mem_cons.1 hc with rfl | hc
        · refine ⟨acc.2, st, ?_, hsc⟩
          rw [j2 c hni]; simp
        · exact j1 c hc
      · intro c hc
        simp only [List.mem_cons, not_or] at hc
        rw [j2 c hc.2]
        simp [Function.update_of_ne hc.1]
      · intro c hc m hm hx
        rcases List.mem_cons.1 hc with rfl | hc
        · exact le_trans (hsc.maxGe.2 m hm hx) j3
        · exact j4 c hc m hm hx
      · rcases j5 with j5 | ⟨c, hc, j5⟩
        · rcases hsc.maxMem with h3 | ⟨m, hm, h3, h4⟩
          · left; rw [j5]; exact h3
          · right; exact ⟨i, by simp, m, hm, h3, by rw [h4, j5]⟩
        · right; exact ⟨c, by simp [hc], j5⟩
  obtain ⟨k1, -, k3, k4, k5⟩ := key (List.finRange 16) (fun _ => [], m0) (ivs, mt) (List.nodup_finRange 16) h
  refine ⟨fun c => k1 c (List.mem_finRange c), k3, fun c => k4 c (List.mem_finRange c), ?_⟩
  rcases k5 with k5 | ⟨c, -, k5⟩
  · exact .inl k5
  · exact .inr ⟨c, k5⟩

end M2S
