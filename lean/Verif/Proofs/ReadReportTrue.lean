import Verif.Proofs.ReadReportDeal
/-
The messages of the reader are true: assembly.
-/
namespace M2S
open MidiSpec

/-! Failures before the search are panics. -/

theorem panicOnly_push (ts : List (List Message)) (m : Message) : PanicOnly (pushMessage ts m) := by
  unfold pushMessage
  split
  · exact panicOnly_panicked
  · exact panicOnly_ok _

theorem panicOnly_handle (calls : List Callback) (h : MidiHandler) : PanicOnly (calls.foldlM MidiHandler.handle h) := by
  refine panicOnly_foldlM _ _ (fun h c => ?_) h
  cases c with
  | header f tb => simp only [MidiHandler.handle]; split_ifs; exacts [panicOnly_panicked, panicOnly_ok _]
  | trackChange => exact panicOnly_ok _
  | metaEvent d e data => exact PanicOnly.bind (panicOnly_push _ _) fun _ _ => panicOnly_pure _
  | midiEvent d e => exact PanicOnly.bind (panicOnly_push _ _) fun _ _ => panicOnly_pure _
  | sysExEvent d data => exact PanicOnly.bind (panicOnly_push _ _) fun _ _ => panicOnly_pure _

theorem panicOnly_route (msgs : List Message) (st : ChanMsgs × Nat) : PanicOnly (msgs.foldlM routeMessage st) := by
  refine panicOnly_foldlM _ _ (fun st m => ?_) st
  cases m with
  | trackChange => exact panicOnly_ok _
  | metaEvent d e data => exact PanicOnly.bind (panicOnly_addU32 _ _) fun _ _ => panicOnly_pure _
  | midiEvent d e => exact PanicOnly.bind (panicOnly_addU32 _ _) fun _ _ => panicOnly_pure _
  | sysEx d data => exact PanicOnly.bind (panicOnly_addU32 _ _) fun _ _ => panicOnly_pure _

theorem panicOnly_tracks (ts : List (List Message)) (cs : ChanMsgs) : PanicOnly (tracksToChannels ts cs) := by
  unfold tracksToChannels
  refine PanicOnly.bind ?_ fun _ _ => panicOnly_pure _
  exact panicOnly_foldlM _ _ (fun cs t => PanicOnly.bind (panicOnly_route _ _) fun _ _ => panicOnly_pure _) _

theorem panicOnly_scanChannel (i : Fin 16) (msgs : List TMsg) (m0 : Nat) : PanicOnly (scanChannel i msgs m0) := by
  refine panicOnly_foldlM _ _ (fun st m => ?_) _
  obtain ⟨m, t⟩ := m
  cases m with
  | midiEvent d e =>
    simp only [scanMessage]
    cases e with
    | noteOff ch n v => exact PanicOnly.bind (panicOnly_subU _ _) fun _ _ => panicOnly_ok _
    | noteOn ch n v =>
      simp only
      split_ifs
      · exact PanicOnly.bind (panicOnly_subU _ _) fun _ _ => panicOnly_ok _
      · exact panicOnly_ok _
    | _ => exact panicOnly_ok _
  | _ => exact panicOnly_ok _

theorem panicOnly_scan (cs : ChanMsgs) (m0 : Nat) : PanicOnly (scanChannels cs m0) :=
  panicOnly_foldlM _ _ (fun _ _ => PanicOnly.bind (panicOnly_scanChannel _ _ _) fun _ _ => panicOnly_pure _) _

/-! The tracks. -/

theorem tracks_lines (ts : List (List Message)) (cs : ChanMsgs) :
    ∃ j ≤ ts.length, (tellTracks true ts cs).lines = (List.range j).map .track ∧ (∀ cs', (tellTracks true ts cs).result = .ok cs' → j = ts.length) := by
  have key : ∀ (ts : List (List Message)) (k : Nat) (cs : ChanMsgs), ∃ j ≤ ts.length, ((ts.zipIdx k).foldlM (fun cs (x : List Message × Nat) => (do
      let _ ← (⟨shown true (.track x.2), .ok ()⟩ : Said Unit)
      let (cs, _) ← mute (x.1.foldlM routeMessage (cs, 0))
      return cs : Said ChanMsgs)) cs).lines = (List.range' k j).map .track ∧ (∀ cs', ((ts.zipIdx k).foldlM (fun cs (x : List Message × Nat) => (do
      let _ ← (⟨shown true (.track x.2), .ok ()⟩ : Said Unit)
      let (cs, _) ← mute (x.1.foldlM routeMessage (cs, 0))
      return cs : Said ChanMsgs)) cs).result = .ok cs' → j = ts.length) := by
    intro ts
    induction ts with
    | nil => intro k cs; exact ⟨0, le_refl _, rfl, fun _ _ => rfl⟩
    | cons t ts ih =>
      intro k cs
      rw [List.zipIdx_cons, List.foldlM_cons]
      have hstep : ∀ cs : ChanMsgs, (do
          let _ ← (⟨shown true (.track k), .ok ()⟩ : Said Unit)
          let (cs, _) ← mute (t.foldlM routeMessage (cs, 0))
          return cs : Said ChanMsgs) = ⟨[.track k], (t.foldlM routeMessage (cs, 0)).map (·.1)⟩ := by
        intro cs
        show (⟨[.track k] ++ _, _⟩ : Said ChanMsgs) = _
        cases t.foldlM routeMessage (cs, 0) <;> rfl
      simp only
      rw [hstep cs]
      cases hr : (t.foldlM routeMessage (cs, 0)).map (·.1) with
      | error e =>
        refine ⟨1, by simp, ?_, ?_⟩
        · rw [said_lines_error (e := e) rfl]; rfl
        · intro cs' h
          rw [said_result] at h
          cases h
      | ok cs1 =>
        obtain ⟨j, h1, h2, h3⟩ := ih (k + 1) cs1
        refine ⟨j + 1, by simpa using h1, ?_, ?_⟩
        · rw [said_lines (a := cs1) rfl, List.range'_succ, List.map_cons, ← h2]
          rfl
        · intro cs' h
          rw [said_result] at h
          rw [h3 cs' h]
          rfl
  obtain ⟨j, h1, h2, h3⟩ := key ts 0 cs
  refine ⟨j, h1, ?_, ?_⟩
  · rw [List.range_eq_range', ← h2]
    unfold tellTracks
    generalize hx : (ts.zipIdx.foldlM (fun cs (x : List Message × Nat) => (do
      let _ ← (⟨shown true (.track x.2), .ok ()⟩ : Said Unit)
      let (cs, _) ← mute (x.1.foldlM routeMessage (cs, 0))
      return cs : Said ChanMsgs)) cs) = x
    cases hr : x.result with
    | error e => rw [said_lines_error hr]
    | ok a => rw [said_lines hr]; exact List.append_nil _
  · intro cs' h
    unfold tellTracks at h
    rw [said_result] at h
    obtain ⟨a, ha, -⟩ := res_bind.1 h
    exact h3 a ha

theorem tracks_good (path : String) (calls : List Callback) (j : Nat) (hj : j ≤ (split calls).2.length) :
    AllGood (Truthful path calls) [.reading path] ((List.range j).map .track) := by
  induction j with
  | zero => trivial
  | succ j ih =>
    rw [List.range_succ, List.map_append, good_append]
    exact ⟨ih (by omega), ⟨rfl, by omega⟩, trivial⟩

/-! Counting the notes that are not on a base voice. -/

/-- The note starts on voice `v` of channels with another base voice. -/
def offBase (base : Fin 16 → Fin 8) (v : Fin 8) (l : List TMsg) : Nat := l.countP fun m => starts m.1 && (home m.1).any fun c => base c ≠ v

theorem home_drum' (m : Message) : home (drum m) = home m := by
  cases m with
  | midiEvent d e => cases e <;> rfl
  | _ => rfl

theorem choose_lines (ord : EnumOrder) (base : Fin 16 → Fin 8) (active : Fin 16 → List (UInt8 × Fin 8)) (c : Fin 16) (t : Nat) (w : Fin 8)
    (h : chooseVoice base active c = some w) (v : Fin 8) :
    (tellChoose ord true base active c t).1.count (.chosen v) = if w = v ∧ base c ≠ v then 1 else 0 := by
  unfold tellChoose
  unfold chooseVoice at h
  by_cases hb : voiceBusy active (base c) = true
  · rw [if_pos hb] at h ⊢
    simp only
    have hp := List.find?_some h
    simp only [Bool.and_eq_true, Bool.not_eq_true', List.any_eq_false, decide_eq_true_eq] at hp
    have hbw : base c ≠ w := hp.1 c (List.mem_finRange c)
    rw [h]
    simp only [shown, if_true]
    by_cases hv : w = v
    · rw [if_pos ⟨hv, by rw [← hv]; exact hbw⟩, hv]
      simp
    · rw [if_neg (fun e => hv e.1)]
      simp [hv]
  · rw [if_neg hb] at h ⊢
    simp only [Option.some.injEq] at h
    rw [if_neg (by rintro ⟨e1, e2⟩; exact e2 (by rw [h, e1]))]
    rfl

theorem event_count (ord : EnumOrder) (base : Fin 16 → Fin 8) (st st' : DealState) (m : TMsg) (hl : Lasts st.ctl) (hr : (tellEvent ord true base st m).result = .ok st') (v : Fin 8) :
    (tellEvent ord true base st m).lines.count (.chosen v) + offBase base v (st.voices v) = offBase base v (st'.voices v) := by
  rw [result_tellEvent] at hr
  have h2 := dealEvent_emit ord base st m.1 m.2
  rw [show (m.1, m.2) = m from rfl, hr] at h2
  cases hem : emit ord base st.ctl m.1 with
  | none => rw [hem] at h2; cases h2
  | some r =>
    obtain ⟨o, k⟩ := r
    rw [hem] at h2
    simp only [Except.ok.injEq] at h2
    rw [h2]
    show _ = offBase base v (st.voices v ++ (onVoice o v).map fun x => (x, m.2))
    unfold offBase
    rw [List.countP_append, List.countP_map]
    obtain ⟨⟨w, hw⟩, -⟩ := emit_filter starts ord base st.ctl m.1 o k hl hem (by
      intro d e h
      cases e with
      | noteOn ch n v => exact ⟨ch, n, v, rfl⟩
      | _ => simp [starts] at h)
    have hcount : (onVoice o v).countP ((fun m : TMsg => starts m.1 && (home m.1).any fun c => decide (base c ≠ v)) ∘ fun x => (x, m.2)) =
        (o.filter fun p => starts p.2).countP fun p => decide (p.1 = v) && (home p.2).any fun c => decide (base c ≠ v) := by
      unfold onVoice
      rw [List.countP_filter, List.countP_map, List.countP_filter]
      apply List.countP_congr
      intro p _
      simp only [Function.comp, Bool.and_eq_true, decide_eq_true_eq]
      tauto
    rw [hcount, hw]
    have hsd : ∀ m : Message, starts (drum m) = starts m := by
      intro m
      cases m with
      | midiEvent d e => cases e <;> rfl
      | _ => rfl
    by_cases hs : starts m.1 = true
    · obtain ⟨c, n, hn⟩ := note_some (.inl hs)
      rw [tell_start ord base st m c n hs hn]
      rw [if_pos ⟨by rw [hsd]; exact hs, .inl hs⟩] at hw ⊢
      have hmem : (w, drum m.1) ∈ o := by
        have : (w, drum m.1) ∈ o.filter fun p => starts p.2 := by rw [hw]; simp
        exact List.mem_of_mem_filter this
      obtain ⟨o1, o2, rfl⟩ := List.append_of_mem hmem
      obtain ⟨d, ch, n', vel, e1, -, -, e4, -⟩ := emit_start ord base st.ctl hl m.1 o1 o2 k w (drum m.1) hem (by rw [hsd]; exact hs)
      rw [e1] at hn
      simp only [noteOf, Option.some.injEq, Prod.mk.injEq] at hn
      obtain ⟨rfl, rfl⟩ := hn
      rw [choose_lines ord base _ ch m.2 w e4 v]
      have hh : home (drum m.1) = some ch := by rw [home_drum', e1]; rfl
      rw [List.countP_singleton, Nat.add_comm]
      congr 1
      simp [hh]
    · have hs' : starts m.1 = false := by simpa using hs
      rw [tell_other ord base st m hs', if_neg (by rw [hsd]; exact fun e => hs e.1)]
      simp

theorem deal_count (ord : EnumOrder) (base : Fin 16 → Fin 8) : ∀ (rest : List TMsg) (st st' : DealState), Lasts st.ctl →
    (rest.foldlM (tellEvent ord true base) st).result = .ok st' → ∀ v,
      (rest.foldlM (tellEvent ord true base) st).lines.count (.chosen v) + offBase base v (st.voices v) = offBase base v (st'.voices v) := by
  intro rest
  induction rest with
  | nil =>
    intro st st' _ hr v
    have : st = st' := by cases hr; rfl
    subst this
    exact Nat.zero_add _
  | cons m rest ih =>
    intro st st' hl hr v
    rw [List.foldlM_cons] at hr ⊢
    rw [said_result] at hr
    obtain ⟨st1, h1, h2⟩ := res_bind.1 hr
    rw [said_lines h1, List.count_append]
    have h3 := event_count ord base st st1 m hl h1 v
    have hl1 : Lasts st1.ctl := by
      rw [result_tellEvent] at h1
      have h4 := dealEvent_emit ord base st m.1 m.2
      rw [show (m.1, m.2) = m from rfl, h1] at h4
      cases hem : emit ord base st.ctl m.1 with
      | none => rw [hem] at h4; cases h4
      | some r =>
        obtain ⟨o, k⟩ := r
        rw [hem] at h4
        simp only [Except.ok.injEq] at h4
        rw [h4, after_ctl]
        exact lasts_step ord base st.ctl m.1 o k hl hem
    have h5 := ih st1 st' hl1 h2 v
    omega

/-! The whole. -/

/-- What the reader says. -/
structure Report (path : String) (calls : List Callback) (r : Said MidiHandler) : Prop where
  good : AllGood (Truthful path calls) [] r.lines
  base : ∀ h, r.result = .ok h → ∀ c, placed r.lines c = some (h.channels c).baseVoice
  count : ∀ h, r.result = .ok h → ∀ v, r.lines.count (.chosen v) = offBase (fun c => (h.channels c).baseVoice) v (h.voices v)
  stuck : ∀ e, r.result = .error (.err e) → r.lines.getLast? = some (.candidates []) ∨
    ∃ c t bases active, r.lines.getLast? = some (.occupied c t bases active) ∧ ∀ v, v ∈ bases ∨ Occupied active v

theorem voices_good (path : String) (calls : List Callback) (ord : EnumOrder) (hord : ∀ l, (ord l).Perm l) (hfit : timesFit (file calls)) (base : Fin 16 → Fin 8)
    (pre : List ReadLine) (hpre : ∀ c, placed pre c = some (base c)) :
    AllGood (Truthful path calls) pre (tellVoices ord true (fun c => sortMessages (ofChannel (file calls) c)) base (fun _ => [])).lines ∧
    (∀ x ∈ (tellVoices ord true (fun c => sortMessages (ofChannel (file calls) c)) base (fun _ => [])).lines,
      (∃ c t bases active, x = .occupied c t bases active) ∨ ∃ v, x = .chosen v) ∧
    (∀ e, (tellVoices ord true (fun c => sortMessages (ofChannel (file calls) c)) base (fun _ => [])).result = .error e → e = .err .couldntFit ∧
      ∃ c t bases active, (tellVoices ord true (fun c => sortMessages (ofChannel (file calls) c)) base (fun _ => [])).lines.getLast? = some (.occupied c t bases active) ∧
        ∀ v, v ∈ bases ∨ Occupied active v) ∧
    ∀ vs, (tellVoices ord true (fun c => sortMessages (ofChannel (file calls) c)) base (fun _ => [])).result = .ok vs → ∀ v,
      (tellVoices ord true (fun c => sortMessages (ofChannel (file calls) c)) base (fun _ => [])).lines.count (.chosen v) = offBase base v (vs v) := by
  obtain ⟨seq, s1, s2, s3⟩ := merge_with _ (fun c => sortMessages (toChan (file calls) c)) rfl (fun c => sort_pairwise _)
    (by
      intro c m hm
      have := (sort_perm _).mem_iff.1 hm
      exact hfit m (List.mem_of_mem_filter this))
  have hperm : (seq.map (·.2)).Perm ((file calls).filter fun m => (home m.1).isSome) := by
    refine (channels_perm seq).symm.trans (List.Perm.trans ?_ (ofChannel_perm _))
    apply List.Perm.flatMap_left
    intro c _
    rw [s1]
    exact sort_perm _
  have hbef := merge_before s2
  have e : tellVoices ord true (fun c => sortMessages (ofChannel (file calls) c)) base (fun _ => []) = (do
      let st ← (seq.map (·.2)).foldlM (tellEvent ord true base)
        { voices := fun _ => [], lastChan := fun v => (List.finRange 16).find? fun c => base c = v }
      return st.voices) := by
    unfold tellVoices
    simp only
    rw [tellMerge_with]
    rw [show ((List.finRange 16).countP fun c => (sortMessages (ofChannel (file calls) c)).isEmpty) = emptyCount (fun c => sortMessages (toChan (file calls) c)) from rfl]
    rw [s3]
  rw [e]
  have hd := deal_good path calls ord hord base (seq.map (·.2)) hperm hbef (seq.map (·.2)) []
    { voices := fun _ => [], lastChan := fun v => (List.finRange 16).find? fun c => base c = v } pre rfl ⟨by simp [DealState.ctl]⟩
    (by intro p a q c n h; simp at h) hpre
  have hc := deal_count ord base (seq.map (·.2)) { voices := fun _ => [], lastChan := fun v => (List.finRange 16).find? fun c => base c = v }
  generalize (seq.map (·.2)).foldlM (tellEvent ord true base)
    ({ voices := fun _ => [], lastChan := fun v => (List.finRange 16).find? fun c => base c = v } : DealState) = r at hd hc ⊢
  have hl : (do let st ← r; return st.voices : Said (Fin 8 → List TMsg)).lines = r.lines := by
    cases hr : r.result with
    | error e => rw [said_lines_error hr]
    | ok a => rw [said_lines hr]; exact List.append_nil _
  refine ⟨by rw [hl]; exact hd.good, by rw [hl]; exact hd.lines, ?_, ?_⟩
  · intro e he
    rw [said_result] at he
    rw [hl]
    apply hd.stuck
    cases hr : r.result with
    | error e' => rw [hr] at he; cases he; rfl
    | ok a => rw [hr] at he; cases he
  · intro vs hv v
    rw [said_result] at hv
    obtain ⟨st', h1, h2⟩ := res_bind.1 hv
    cases h2
    have := hc st' (lasts_init base) h1 v
    rw [hl]
    simpa [offBase] using this

set_option linter.constructorNameAsVariable false in
theorem read_good (ord : EnumOrder) (hord : ∀ l, (ord l).Perm l) (path : String) (calls : List Callback) : Report path calls (tellRead ord true path calls) := by
  have hread : AllGood (Truthful path calls) [] [.reading path] := ⟨⟨rfl, rfl⟩, trivial⟩
  have hlr : ∀ (x : Said MidiHandler), ((⟨shown true (.reading path), .ok ()⟩ : Said Unit) >>= fun _ => x) = ⟨[.reading path] ++ x.lines, x.result⟩ := fun _ => rfl
  unfold tellRead
  rw [hlr]
  cases h1 : calls.foldlM MidiHandler.handle ({} : MidiHandler) with
  | error e =>
    have he := panicOnly_handle calls {} e h1
    subst he
    exact ⟨hread, fun h hh => (by cases hh), fun h hh => (by cases hh), fun e hh => (by cases hh)⟩
  | ok h0 =>
    rw [show (mute (.ok h0) >>= fun h => tellProcess ord true h : Said MidiHandler) = tellProcess ord true h0 from rfl]
    obtain ⟨i1, -, i3, i4, i5⟩ := handle_tracks calls {} h0 h1
    obtain ⟨i1, -⟩ := i1 rfl
    unfold tellProcess
    obtain ⟨j, j1, j2, j3⟩ := tracks_lines h0.tracks (fun c => (h0.channels c).messages)
    rw [i1] at j1
    have hgt := tracks_good path calls j j1
    cases h2 : (tellTracks true h0.tracks (fun c => (h0.channels c).messages)).result with
    | error e =>
      rw [said_lines_error h2, said_result, h2, j2]
      have he : e = .panic := by
        rw [result_tellTracks] at h2
        exact panicOnly_tracks _ _ e h2
      subst he
      refine ⟨?_, fun h hh => (by cases hh), fun h hh => (by cases hh), fun e hh => (by cases hh)⟩
      rw [good_append]
      exact ⟨hread, hgt⟩
    | ok cs =>
      rw [said_lines h2, said_result, h2, j2]
      have hj := j3 cs h2
      rw [result_tellTracks, i3, tracksToChannels_ok] at h2
      obtain ⟨hfit, hcs⟩ := h2
      rw [i1] at hfit hcs hj
      have hcs : cs = fun c => sortMessages (ofChannel (file calls) c) := by rw [hcs]; funext c; simp [file]
      subst hcs
      subst hj
      have hgood0 : AllGood (Truthful path calls) [] ([.reading path] ++ (List.range (split calls).2.length).map .track) := by
        rw [good_append]
        exact ⟨hread, hgt⟩
      rw [show ∀ {α β : Type} (a : α) (f : α → Res β), ((Except.ok a : Res α) >>= f) = f a from fun _ _ => rfl]
      rw [i5]
      cases h3 : scanChannels (fun c => sortMessages (ofChannel (file calls) c)) ({} : MidiHandler).maxTime with
      | error e =>
        have he := panicOnly_scan _ _ e h3
        subst he
        refine ⟨?_, fun h hh => (by cases hh), fun h hh => (by cases hh), fun e hh => (by cases hh)⟩
        rw [show ∀ (f : ((Fin 16 → List VoiceInterval) × Nat) → Said MidiHandler), (mute (.error .panic : Res ((Fin 16 → List VoiceInterval) × Nat)) >>= f).lines = [] from fun _ => rfl,
          List.append_nil]
        exact hgood0
      | ok x =>
        obtain ⟨ivs, mt⟩ := x
        have hf := scan_facts (file calls) ivs mt h3
        rw [show ∀ (f : ((Fin 16 → List VoiceInterval) × Nat) → Said MidiHandler), (mute (.ok (ivs, mt)) >>= f) = f (ivs, mt) from fun _ => rfl]
        simp only
        have hs := find_good (path := path) hf ((List.finRange 16).map fun c => (c, ivs c)) 0 ([.reading path] ++ (List.range (split calls).2.length).map .track) (fun _ => [])
          (by omega) (by simp) (by intro v i; simp) (by
            intro c hc
            exact .inl ⟨Fin.ext hc, rfl⟩)
        generalize hT : ([.reading path] ++ (List.range (split calls).2.length).map .track : List ReadLine) = T at hs hgood0
        rw [← List.append_assoc, hT]
        obtain ⟨t1, t2, t3, t4⟩ := hs
        generalize tellFind true ((List.finRange 16).map fun c => (c, ivs c)) (fun _ => []) = fr at t1 t2 t3 t4 ⊢
        obtain ⟨ls, r⟩ := fr
        simp only at t1 t2 t3 t4
        cases r with
        | none =>
          refine ⟨?_, fun h hh => (by cases hh), fun h hh => (by cases hh), fun e hh => ?_⟩
          · rw [good_append]
            exact ⟨hgood0, t1⟩
          · left
            show (T ++ ls).getLast? = _
            rw [List.getLast?_append, t4 rfl]
            rfl
        | some bs =>
          obtain ⟨hlen, hpl⟩ := t3 bs rfl
          simp only
          have hpre : ∀ c, placed (T ++ ls) c = some ((fun c : Fin 16 => bs.getD c 0) c) := by
            intro c
            show _ = some (bs.getD c.val 0)
            rw [placed_append, hpl c (Nat.zero_le _), Nat.sub_zero, List.getD_eq_getElem?_getD, List.getElem?_eq_getElem (by rw [hlen]; exact c.isLt)]
            rfl
          obtain ⟨v1, v2, v3, v4⟩ := voices_good path calls ord hord hfit (fun c : Fin 16 => bs.getD c 0) (T ++ ls) hpre
          rw [i4]
          rw [show ((({} : MidiHandler).voices) : Fin 8 → List TMsg) = fun _ => [] from rfl]
          generalize tellVoices ord true (fun c => sortMessages (ofChannel (file calls) c)) (fun c : Fin 16 => bs.getD c 0) (fun _ => []) = r at v1 v2 v3 v4 ⊢
          obtain ⟨rl, rr⟩ := r
          simp only at v1 v2 v3 v4
          cases rr with
          | error e =>
            obtain ⟨rfl, c, t, b, a, g2, g3⟩ := v3 e rfl
            refine ⟨?_, fun h hh => (by cases hh), fun h hh => (by cases hh), fun e hh => ?_⟩
            · show AllGood _ _ (T ++ (ls ++ rl))
              rw [← List.append_assoc, good_append, good_append]
              exact ⟨⟨hgood0, t1⟩, v1⟩
            · right
              refine ⟨c, t, b, a, ?_, g3⟩
              show (T ++ (ls ++ rl)).getLast? = _
              rw [List.getLast?_append, List.getLast?_append, g2]
              rfl
          | ok vs =>
            have hlines : ∀ y : MidiHandler, ((⟨ls, .ok ()⟩ : Said Unit) >>= fun _ => (⟨rl, .ok vs⟩ : Said (Fin 8 → List TMsg)) >>= fun _ => (pure y : Said MidiHandler)).lines = ls ++ rl := by
              intro y
              show ls ++ (rl ++ []) = _
              rw [List.append_nil]
            refine ⟨?_, ?_, ?_, fun e hh => (by cases hh)⟩
            · show AllGood _ _ (T ++ (ls ++ (rl ++ [])))
              rw [List.append_nil, ← List.append_assoc, good_append, good_append]
              exact ⟨⟨hgood0, t1⟩, v1⟩
            · intro h hh c
              cases hh
              show placed (T ++ (ls ++ (rl ++ []))) c = _
              rw [List.append_nil, ← List.append_assoc, deal_lines v2]
              exact hpre c
            · intro h hh v
              cases hh
              show (T ++ (ls ++ (rl ++ []))).count (ReadLine.chosen v) = offBase (fun c : Fin 16 => bs.getD c 0) v (vs v)
              rw [List.append_nil, List.count_append, List.count_append, v4 vs rfl v]
              have z1 : T.count (.chosen v) = 0 := by
                rw [List.count_eq_zero, ← hT]
                simp
              have z2 : ls.count (.chosen v) = 0 := by
                rw [List.count_eq_zero]
                intro hm
                exact t2 _ hm
              omega

end M2S
