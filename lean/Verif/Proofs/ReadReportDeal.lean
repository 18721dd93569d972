import Verif.Proofs.ReadReportFind
/-
The messages printed while notes are dealt to voices are true.
-/
namespace M2S
open MidiSpec

/-! Notes stay until they end. -/

theorem close_keep (k : Ctl) (ch : Fin 16) (note : UInt8) (c : Fin 16) (n : UInt8) (v : Fin 8) (h : (n, v) ∈ k.active c) (hne : (c, n) ≠ (ch, note)) :
    (n, v) ∈ (ctlClose k ch note).active c := by
  unfold ctlClose
  split
  · by_cases hc : c = ch
    · subst hc
      simp only [Function.update_self, mem_removeNote]
      exact ⟨h, fun e => hne (by rw [← e])⟩
    · simpa [Function.update_of_ne hc] using h
  · exact h

theorem open_keep (k : Ctl) (d : Nat) (ch : Fin 16) (note : UInt8) (w : Fin 8) (c : Fin 16) (n : UInt8) (v : Fin 8) (h : (n, v) ∈ k.active c) :
    ∃ v', (n, v') ∈ (ctlOpen k d ch note w).active c := by
  unfold ctlOpen
  simp only
  by_cases hc : c = ch
  · subst hc
    rw [Function.update_self]
    unfold insertNote
    by_cases hn : n = note
    · exact ⟨w, by simp [hn]⟩
    · exact ⟨v, List.mem_cons_of_mem _ ((mem_removeNote _ _ _).2 ⟨h, hn⟩)⟩
  · rw [Function.update_of_ne hc]
    exact ⟨v, h⟩

/-- A sounding note goes on unless the event ends it. -/
theorem active_keep (ord : EnumOrder) (base : Fin 16 → Fin 8) (k : Ctl) (m : Message) (o : List (Fin 8 × Message)) (k' : Ctl)
    (he : emit ord base k m = some (o, k')) (c : Fin 16) (n : UInt8) (v : Fin 8) (h : (n, v) ∈ k.active c) (hne : ends m = true → noteOf m ≠ some (c, n)) :
    ∃ v', (n, v') ∈ k'.active c := by
  have same : k'.active = k.active → ∃ v', (n, v') ∈ k'.active c := fun e => ⟨v, by rw [e]; exact h⟩
  cases m with
  | metaEvent d e data =>
    cases e <;> (simp only [emit, Option.some.injEq, Prod.mk.injEq] at he; exact same (by rw [← he.2]))
  | sysEx d data => simp only [emit, Option.some.injEq, Prod.mk.injEq] at he; exact same (by rw [← he.2])
  | trackChange => simp only [emit, Option.some.injEq, Prod.mk.injEq] at he; exact same (by rw [← he.2])
  | midiEvent d e =>
    cases e with
    | unknown ch => simp only [emit, Option.some.injEq, Prod.mk.injEq] at he; exact same (by rw [← he.2])
    | polyphonicKeyPressure ch n v =>
      simp only [emit] at he
      split at he <;> (simp only [Option.some.injEq, Prod.mk.injEq] at he; exact same (by rw [← he.2]))
    | channelPressure ch v => simp only [emit, Option.some.injEq, Prod.mk.injEq] at he; exact same (by rw [← he.2])
    | controlChange ch c v =>
      simp only [emit, Option.some.injEq, Prod.mk.injEq] at he
      refine same ?_
      rw [← he.2]
      split_ifs <;> rfl
    | programChange ch v => simp only [emit, Option.some.injEq, Prod.mk.injEq] at he; exact same (by rw [← he.2])
    | pitchBendChange ch v => simp only [emit, Option.some.injEq, Prod.mk.injEq] at he; exact same (by rw [← he.2])
    | noteOff ch nn vv =>
      have hcn : (c, n) ≠ (ch, nn) := fun e => hne rfl (by rw [e]; rfl)
      simp only [emit] at he
      cases hl : (k.active ch).lookup nn with
      | none =>
        rw [hl] at he
        simp only [Option.some.injEq, Prod.mk.injEq] at he
        exact same (by rw [← he.2])
      | some w =>
        rw [hl] at he
        simp only [Option.some.injEq, Prod.mk.injEq] at he
        rw [← he.2]
        exact ⟨v, close_keep k ch nn c n v h hcn⟩
    | noteOn ch nn vel =>
      simp only [emit] at he
      by_cases hv : vel > 0
      · rw [if_pos hv] at he
        split at he
        · cases he
        · rename_i w hw
          simp only [Option.some.injEq, Prod.mk.injEq] at he
          rw [← he.2]
          by_cases hcn : (c, n) = (ch, nn)
          · simp only [Prod.mk.injEq] at hcn
            obtain ⟨rfl, rfl⟩ := hcn
            exact ⟨w, by simp [ctlOpen, insertNote]⟩
          · exact open_keep _ _ _ _ _ _ _ _ (close_keep k ch nn c n v h hcn)
      · rw [if_neg hv] at he
        have hv0 : vel = 0 := by
          rw [gt_iff_lt, UInt8.lt_iff_toNat_lt] at hv
          exact UInt8.toNat_inj.1 (by simpa using hv)
        have hcn : (c, n) ≠ (ch, nn) := fun e => hne (by simp [ends, hv0]) (by rw [e]; rfl)
        simp only [Option.some.injEq, Prod.mk.injEq] at he
        rw [← he.2]
        exact ⟨v, close_keep k ch nn c n v h hcn⟩

/-- A note that starts sounds. -/
theorem active_new (ord : EnumOrder) (base : Fin 16 → Fin 8) (k : Ctl) (m : Message) (o : List (Fin 8 × Message)) (k' : Ctl)
    (he : emit ord base k m = some (o, k')) (c : Fin 16) (n : UInt8) (hs : starts m = true) (hn : noteOf m = some (c, n)) : ∃ v, (n, v) ∈ k'.active c := by
  cases m with
  | midiEvent d e =>
    cases e with
    | noteOn ch nn vel =>
      simp only [noteOf, Option.some.injEq, Prod.mk.injEq] at hn
      obtain ⟨rfl, rfl⟩ := hn
      have hv0 : vel ≠ 0 := by simpa [starts] using hs
      have hv : vel > 0 := by
        rw [gt_iff_lt, UInt8.lt_iff_toNat_lt]
        have : vel.toNat ≠ 0 := fun e => hv0 (UInt8.toNat_inj.1 (by simpa using e))
        simp; omega
      simp only [emit, if_pos hv] at he
      split at he
      · cases he
      · rename_i w hw
        simp only [Option.some.injEq, Prod.mk.injEq] at he
        rw [← he.2]
        exact ⟨w, by simp [ctlOpen, insertNote]⟩
    | _ => simp [starts] at hs
  | _ => simp [starts] at hs

/-- Every note started and not ended sounds. -/
def Kept (done : List TMsg) (k : Ctl) : Prop :=
  ∀ pre a post c n, done = pre ++ a :: post → starts a.1 = true → noteOf a.1 = some (c, n) → (∀ e ∈ post, ends e.1 = true → noteOf e.1 ≠ some (c, n)) →
    ∃ v, (n, v) ∈ k.active c

theorem keep_step (ord : EnumOrder) (base : Fin 16 → Fin 8) (done : List TMsg) (k : Ctl) (m : Message) (t : Nat) (o : List (Fin 8 × Message)) (k' : Ctl)
    (h : Kept done k) (he : emit ord base k m = some (o, k')) : Kept (done ++ [(m, t)]) k' := by
  intro pre a post c n e hs hn hp
  rcases List.eq_nil_or_concat post with rfl | ⟨post', x, rfl⟩
  · have := List.append_inj' e rfl
    simp only [List.cons.injEq, and_true] at this
    obtain ⟨-, rfl⟩ := this
    exact active_new ord base k m o k' he c n hs hn
  · rw [List.concat_eq_append, ← List.cons_append, ← List.append_assoc] at e
    have := List.append_inj' e rfl
    simp only [List.cons.injEq, and_true] at this
    obtain ⟨e1, rfl⟩ := this
    obtain ⟨v, hv⟩ := h pre a post' c n e1 hs hn (fun y hy => hp y (by simp [hy]))
    exact active_keep ord base k m o k' he c n v hv (fun g => hp (m, t) (by simp) g)

/-- A note of the file that started earlier and has not ended sounds when another note starts. -/
theorem kept_when (l seq : List TMsg) (hperm : seq.Perm (l.filter fun m => (home m.1).isSome)) (hbef : seq.Pairwise Before)
    (done : List TMsg) (m : TMsg) (rest : List TMsg) (k : Ctl) (hsplit : seq = done ++ m :: rest) (hk : Kept done k)
    (c : Fin 16) (n : UInt8) (a : TMsg) (ha : a ∈ l) (hs : starts a.1 = true) (hn : noteOf a.1 = some (c, n)) (hlt : a.2 < m.2) (hne : ¬ EndedBy l a m.2) :
    ∃ v, (n, v) ∈ k.active c := by
  have hmem : ∀ x ∈ seq, x ∈ l := fun x hx => List.mem_of_mem_filter (hperm.mem_iff.1 hx)
  have has : a ∈ seq := hperm.mem_iff.2 (List.mem_filter.2 ⟨ha, by rw [home_note hn]; rfl⟩)
  rw [hsplit, List.pairwise_append] at hbef
  obtain ⟨b1, b2, b3⟩ := hbef
  have had : a ∈ done := by
    rw [hsplit] at has
    rcases List.mem_append.1 has with h | h
    · exact h
    · exfalso
      rcases List.mem_cons.1 h with rfl | h
      · omega
      · rcases (List.pairwise_cons.1 b2).1 a h with h | h <;> omega
  obtain ⟨p, q, rfl⟩ := List.append_of_mem had
  refine hk p a q c n rfl hs hn ?_
  intro e heq he1 he2
  have hel : e ∈ l := hmem e (by rw [hsplit]; simp [heq])
  have hae : Before a e := (List.pairwise_cons.1 (List.pairwise_append.1 b1).2.1).1 e heq
  have hem : Before e m := b3 e (by simp [heq]) m (by simp)
  have r1 := (starts_rank hs).1
  have r2 : rank e.1 = 0 := by simp [rank, he1]
  exact hne ⟨e, hel, he1, by rw [he2, hn], by rcases hae with h | h <;> omega, by rcases hem with h | h <;> omega⟩

/-! The messages of the events. -/

theorem tell_start (ord : EnumOrder) (base : Fin 16 → Fin 8) (st : DealState) (m : TMsg) (c : Fin 16) (n : UInt8) (hs : starts m.1 = true) (hn : noteOf m.1 = some (c, n)) :
    (tellEvent ord true base st m).lines = (tellChoose ord true base (ctlClose st.ctl c n).active c m.2).1 := by
  obtain ⟨m, t⟩ := m
  cases m with
  | midiEvent d e =>
    cases e with
    | noteOn ch nn vel =>
      simp only [noteOf, Option.some.injEq, Prod.mk.injEq] at hn
      obtain ⟨rfl, rfl⟩ := hn
      have hv0 : vel ≠ 0 := by simpa [starts] using hs
      have hv : vel > 0 := by
        rw [gt_iff_lt, UInt8.lt_iff_toNat_lt]
        have : vel.toNat ≠ 0 := fun e => hv0 (UInt8.toNat_inj.1 (by simpa using e))
        simp; omega
      show (tellNoteOn ord true base st d ch nn vel t).lines = _
      unfold tellNoteOn
      simp only
      rw [if_pos hv, close_after]
      rw [show (st.after (outClose st.ctl d ch nn vel) t (ctlClose st.ctl ch nn)).active = (ctlClose st.ctl ch nn).active from rfl]
      rcases tellChoose ord true base (ctlClose st.ctl ch nn).active ch t with ⟨ls, r⟩
      cases r with
      | none => rfl
      | some w => simp only; split_ifs <;> rfl
    | _ => simp [starts] at hs
  | _ => simp [starts] at hs

theorem tell_other (ord : EnumOrder) (base : Fin 16 → Fin 8) (st : DealState) (m : TMsg) (hs : starts m.1 = false) : (tellEvent ord true base st m).lines = [] := by
  obtain ⟨m, t⟩ := m
  cases m with
  | midiEvent d e =>
    cases e with
    | noteOn ch nn vel =>
      have hv0 : vel = 0 := by simpa [starts] using hs
      show (tellNoteOn ord true base st d ch nn vel t).lines = _
      unfold tellNoteOn
      simp only
      rw [if_neg (by rw [hv0]; simp)]
    | _ => rfl
  | _ => rfl

/-- The lines of dealing, and the last one if it fails. -/
structure Deals (path : String) (calls : List Callback) (pre : List ReadLine) (r : Said DealState) : Prop where
  good : AllGood (Truthful path calls) pre r.lines
  lines : ∀ x ∈ r.lines, (∃ c t bases active, x = .occupied c t bases active) ∨ ∃ v, x = .chosen v
  stuck : ∀ e, r.result = .error e → e = .err .couldntFit ∧
    ∃ c t bases active, r.lines.getLast? = some (.occupied c t bases active) ∧ ∀ v, v ∈ bases ∨ Occupied active v

theorem deal_lines {ls : List ReadLine} (h : ∀ x ∈ ls, (∃ c t bases active, x = ReadLine.occupied c t bases active) ∨ ∃ v, x = .chosen v) (pre : List ReadLine) (c : Fin 16) :
    placed (pre ++ ls) c = placed pre c := by
  apply placed_skip
  intro x hx
  rcases h x hx with ⟨c', t, b, a, rfl⟩ | ⟨v, rfl⟩ <;> rfl

theorem deal_event (path : String) (calls : List Callback) (ord : EnumOrder) (hord : ∀ l, (ord l).Perm l) (base : Fin 16 → Fin 8) (seq : List TMsg)
    (hperm : seq.Perm ((file calls).filter fun m => (home m.1).isSome)) (hbef : seq.Pairwise Before) (done : List TMsg) (m : TMsg) (rest : List TMsg) (st : DealState)
    (hsplit : seq = done ++ m :: rest) (hsince : Since done st.ctl) (hkept : Kept done st.ctl) (pre : List ReadLine) (hpre : ∀ c, placed pre c = some (base c)) :
    Deals path calls pre (tellEvent ord true base st m) := by
  by_cases hs : starts m.1 = true
  · obtain ⟨c, n, hn⟩ := note_some (.inl hs)
    have hres : (tellEvent ord true base st m).result = dealEvent ord base st m := result_tellEvent ord true base st m
    have herr : ∀ e, (tellEvent ord true base st m).result = .error e → e = .err .couldntFit ∧ (tellChoose ord true base (ctlClose st.ctl c n).active c m.2).2 = none := by
      intro e he
      rw [hres] at he
      have h2 := dealEvent_emit ord base st m.1 m.2
      rw [show (m.1, m.2) = m from rfl, he] at h2
      cases hem : emit ord base st.ctl m.1 with
      | some r => rw [hem] at h2; cases h2
      | none =>
        rw [hem] at h2
        obtain ⟨c', n', h3, h4, h5⟩ := emit_none ord base st.ctl m.1 hem
        rw [hn] at h4
        simp only [Option.some.injEq, Prod.mk.injEq] at h4
        obtain ⟨rfl, rfl⟩ := h4
        refine ⟨?_, by rw [result_tellChoose]; exact h5⟩
        simp only [failed, Except.error.injEq] at h2
        exact h2
    have hlines := tell_start ord base st m c n hs hn
    -- the list of notes printed
    have hget : ∀ (c' : Fin 16) ns, ((List.finRange 16).map fun c' => ord ((ctlClose st.ctl c n).active c'))[c'.val]? = some ns →
        ∀ p, p ∈ ns ↔ p ∈ (ctlClose st.ctl c n).active c' := by
      intro c' ns h p
      rw [List.getElem?_map, List.getElem?_eq_getElem (by simp)] at h
      simp only [Option.map_some, Option.some.injEq, List.getElem_finRange] at h
      rw [← h]
      exact (hord _).mem_iff
    have hocc : ∀ v, Occupied ((List.finRange 16).map fun c' => ord ((ctlClose st.ctl c n).active c')) v ↔ voiceBusy (ctlClose st.ctl c n).active v = true := by
      intro v
      rw [voiceBusy_iff]
      unfold Occupied
      constructor
      · rintro ⟨ns, hns, n', h⟩
        obtain ⟨c', -, rfl⟩ := List.mem_map.1 hns
        exact ⟨c', n', (hord _).mem_iff.1 h⟩
      · rintro ⟨c', n', h⟩
        exact ⟨_, List.mem_map.2 ⟨c', List.mem_finRange c', rfl⟩, n', (hord _).mem_iff.2 h⟩
    have hbase : ∀ v, v ∈ (List.finRange 16).map base ↔ ((List.finRange 16).any fun c => decide (base c = v)) = true := by
      intro v
      simp
    have hml : m ∈ file calls := List.mem_of_mem_filter (hperm.mem_iff.1 (by rw [hsplit]; simp))
    have htrue : voiceBusy (ctlClose st.ctl c n).active (base c) = true →
        Truthful path calls pre (.occupied c m.2 ((List.finRange 16).map base) ((List.finRange 16).map fun c' => ord ((ctlClose st.ctl c n).active c'))) := by
      intro hb
      refine ⟨n, ⟨m, hml, hs, hn, rfl⟩, ⟨by simp, ?_⟩, ⟨base c, hpre c, (hocc _).2 hb⟩, by simp, ?_, ?_⟩
      · intro c'
        rw [hpre c', List.getElem?_map, List.getElem?_eq_getElem (by simp)]
        simp
      · intro c' ns n' v h1 h2
        have h3 := (hget c' ns h1 _).1 h2
        exact held_when (file calls) seq hperm hbef done m rest st.ctl hsplit hsince hs c' n' v (mem_close _ _ _ _ _ h3)
      · rintro c' ns n' h1 hne ⟨a, h2, h3, h4, h5, h6⟩
        obtain ⟨v, hv⟩ := kept_when (file calls) seq hperm hbef done m rest st.ctl hsplit hkept c' n' a h2 h3 h4 h5 h6
        exact ⟨v, (hget c' ns h1 _).2 (close_keep _ _ _ _ _ _ hv hne)⟩
    unfold tellChoose at hlines herr
    by_cases hb : voiceBusy (ctlClose st.ctl c n).active (base c) = true
    · rw [if_pos hb] at hlines herr
      simp only at hlines herr
      cases hfd : (List.finRange 8).find? fun v => !((List.finRange 16).any fun c => base c = v) && !voiceBusy (ctlClose st.ctl c n).active v with
      | some v =>
        rw [hfd] at hlines herr
        simp only [shown, if_true] at hlines
        refine ⟨?_, ?_, ?_⟩
        · rw [hlines, good_append]
          refine ⟨⟨htrue hb, trivial⟩, ?_, trivial⟩
          have hp := List.find?_some hfd
          simp only [Bool.and_eq_true, Bool.not_eq_true', ← Bool.not_eq_true] at hp
          refine ⟨c, m.2, _, _, by rw [List.getLast?_append]; rfl, ?_, ?_, ?_⟩
          · rw [hbase]; exact hp.1
          · rw [hocc]; exact hp.2
          · intro w hw
            rw [hbase, hocc]
            by_contra hno
            push Not at hno
            obtain ⟨as, bs, e1, e2⟩ := (List.find?_eq_some_iff_append.1 hfd).2
            have hsorted : (List.finRange 8).Pairwise (· < ·) := by decide
            have hwm : w ∈ List.finRange 8 := List.mem_finRange w
            rw [e1] at hwm hsorted
            rcases List.mem_append.1 hwm with h | h
            · have := e2 w h
              simp only [Bool.not_eq_true', Bool.and_eq_false_iff, Bool.not_eq_false'] at this
              rcases this with h | h
              · exact hno.1 h
              · exact hno.2 h
            · rcases List.mem_cons.1 h with rfl | h
              · exact absurd hw (lt_irrefl _)
              · have := (List.pairwise_cons.1 (List.pairwise_append.1 hsorted).2.1).1 w h
                exact absurd hw (not_lt.2 this.le)
        · intro x hx
          rw [hlines] at hx
          simp only [List.mem_append, List.mem_singleton] at hx
          rcases hx with rfl | rfl
          · exact .inl ⟨_, _, _, _, rfl⟩
          · exact .inr ⟨_, rfl⟩
        · intro e he
          have := (herr e he).2
          simp at this
      | none =>
        rw [hfd] at hlines herr
        simp only [shown, if_true] at hlines
        refine ⟨?_, ?_, ?_⟩
        · rw [hlines]
          exact ⟨htrue hb, trivial⟩
        · intro x hx
          rw [hlines] at hx
          simp only [List.mem_singleton] at hx
          exact .inl ⟨_, _, _, _, hx⟩
        · intro e he
          refine ⟨(herr e he).1, c, m.2, _, _, by rw [hlines]; rfl, ?_⟩
          intro v
          rw [hbase, hocc]
          have := List.find?_eq_none.1 hfd v (List.mem_finRange v)
          simp only [Bool.not_eq_true, Bool.and_eq_false_iff, Bool.not_eq_false'] at this
          exact this
    · rw [if_neg hb] at hlines herr
      refine ⟨by rw [hlines]; trivial, by rw [hlines]; simp, ?_⟩
      intro e he
      have := (herr e he).2
      simp at this
  · have hs : starts m.1 = false := by simpa using hs
    have hl := tell_other ord base st m hs
    refine ⟨by rw [hl]; trivial, by rw [hl]; simp, ?_⟩
    intro e he
    rw [result_tellEvent] at he
    have h2 := dealEvent_emit ord base st m.1 m.2
    rw [show (m.1, m.2) = m from rfl, he] at h2
    cases hem : emit ord base st.ctl m.1 with
    | some r => rw [hem] at h2; cases h2
    | none =>
      obtain ⟨c', n', h3, -⟩ := emit_none ord base st.ctl m.1 hem
      rw [hs] at h3
      cases h3

theorem deal_good (path : String) (calls : List Callback) (ord : EnumOrder) (hord : ∀ l, (ord l).Perm l) (base : Fin 16 → Fin 8) (seq : List TMsg)
    (hperm : seq.Perm ((file calls).filter fun m => (home m.1).isSome)) (hbef : seq.Pairwise Before) :
    ∀ (rest done : List TMsg) (st : DealState) (pre : List ReadLine), seq = done ++ rest → Since done st.ctl → Kept done st.ctl → (∀ c, placed pre c = some (base c)) →
      Deals path calls pre (rest.foldlM (tellEvent ord true base) st) := by
  intro rest
  induction rest with
  | nil =>
    intro done st pre _ _ _ _
    exact ⟨trivial, fun x hx => absurd hx (List.not_mem_nil), fun e he => by cases he⟩
  | cons m rest ih =>
    intro done st pre hsplit hsince hkept hpre
    have h1 := deal_event path calls ord hord base seq hperm hbef done m rest st hsplit hsince hkept pre hpre
    rw [List.foldlM_cons]
    cases hr : (tellEvent ord true base st m).result with
    | error e =>
      have hl := said_lines_error (f := fun st => rest.foldlM (tellEvent ord true base) st) hr
      refine ⟨by rw [hl]; exact h1.good, by rw [hl]; exact h1.lines, ?_⟩
      intro e' he'
      rw [said_result, hr] at he'
      cases he'
      rw [hl]
      exact h1.stuck e hr
    | ok st' =>
      have hl := said_lines (f := fun st => rest.foldlM (tellEvent ord true base) st) hr
      have hr' := hr
      rw [result_tellEvent] at hr'
      have h2 := dealEvent_emit ord base st m.1 m.2
      rw [show (m.1, m.2) = m from rfl, hr'] at h2
      cases hem : emit ord base st.ctl m.1 with
      | none => rw [hem] at h2; cases h2
      | some r =>
        obtain ⟨o, k⟩ := r
        rw [hem] at h2
        simp only [Except.ok.injEq] at h2
        have hctl : st'.ctl = k := by rw [h2]; exact after_ctl ..
        have h3 := ih (done ++ [m]) st' (pre ++ (tellEvent ord true base st m).lines) (by rw [hsplit]; simp)
          (by rw [hctl]; exact since_step ord base done st.ctl m.1 m.2 o k hsince hem)
          (by rw [hctl]; exact keep_step ord base done st.ctl m.1 m.2 o k hkept hem)
          (by intro c; rw [deal_lines h1.lines]; exact hpre c)
        refine ⟨?_, ?_, ?_⟩
        · rw [hl, good_append]
          exact ⟨h1.good, h3.good⟩
        · intro x hx
          rw [hl] at hx
          rcases List.mem_append.1 hx with hx | hx
          · exact h1.lines x hx
          · exact h3.lines x hx
        · intro e he
          rw [said_result, hr] at he
          obtain ⟨g1, c, t, b, a, g2, g3⟩ := h3.stuck e he
          refine ⟨g1, c, t, b, a, ?_, g3⟩
          rw [hl, List.getLast?_append, g2]
          rfl

end M2S
