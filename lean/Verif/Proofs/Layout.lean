import Verif.Spec.Layout
import Verif.Proofs.Merge
import Verif.Proofs.Reading
import Verif.Proofs.Sane
import Verif.Proofs.Relabel
/-
Two files with the same music are read and converted alike.
-/
namespace M2S
open MidiSpec

/-! ## Lists determined by their classes -/

/-- A list sorted by a key is determined by its classes of equal keys. -/
theorem sorted_classes {α κ : Type} [LinearOrder κ] (key : α → κ) (l : List α) : ∀ (l' : List α),
    l.Pairwise (fun a b => key a ≤ key b) → l'.Pairwise (fun a b => key a ≤ key b) →
    (∀ x, l.filter (fun a => key a = x) = l'.filter (fun a => key a = x)) → l = l' := by
  induction l with
  | nil =>
    intro l' _ _ h
    cases l' with
    | nil => rfl
    | cons b l' => have := h (key b); simp at this
  | cons a l ih =>
    intro l' hl hl' h
    cases l' with
    | nil => have := h (key a); simp at this
    | cons b l' =>
      rw [List.pairwise_cons] at hl hl'
      have hab : key a = key b := by
        apply le_antisymm
        · have hb : b ∈ (a :: l).filter (fun x => key x = key b) := by rw [h (key b)]; simp
          rcases List.mem_cons.1 (List.mem_of_mem_filter hb) with rfl | hb
          · exact le_refl _
          · exact hl.1 b hb
        · have ha : a ∈ (b :: l').filter (fun x => key x = key a) := by rw [← h (key a)]; simp
          rcases List.mem_cons.1 (List.mem_of_mem_filter ha) with rfl | ha
          · exact le_refl _
          · exact hl'.1 a ha
      have h1 := h (key a)
      rw [List.filter_cons_of_pos (by simp), List.filter_cons_of_pos (by simp [hab])] at h1
      obtain ⟨rfl, h2⟩ := List.cons.inj h1
      congr 1
      refine ih l' hl.2 hl'.2 fun x => ?_
      by_cases hx : key a = x
      · subst hx; exact h2
      · have := h x
        rwa [List.filter_cons_of_neg (by simpa using hx), List.filter_cons_of_neg (by simpa using hx)] at this

/-! ## Two runs side by side -/

/-- The same fault, or results related by `R`. -/
inductive Both {α β : Type} (R : α → β → Prop) : Res α → Res β → Prop
  | ok {a : α} {b : β} (h : R a b) : Both R (.ok a) (.ok b)
  | error (e : Fault) : Both R (.error e) (.error e)

theorem Both.bind {α β γ δ : Type} {R : α → β → Prop} {S : γ → δ → Prop} {x : Res α} {y : Res β} {f : α → Res γ} {g : β → Res δ} (h : Both R x y)
    (hf : ∀ a b, R a b → Both S (f a) (g b)) : Both S (x >>= f) (y >>= g) := by
  cases h with
  | ok h => exact hf _ _ h
  | error e => exact .error e

theorem Both.eq {α : Type} {x y : Res α} (h : Both (fun a b => a = b) x y) : x = y := by
  cases h with
  | ok h => rw [h]
  | error e => rfl

/-- A message with its time, as far as it matters. -/
def musicAt (m : TMsg) : Option TMsg := (music m.1).map (·, m.2)

theorem musicOf_nil : musicOf [] = [] := rfl
theorem musicOf_cons (m : TMsg) (l : List TMsg) : musicOf (m :: l) = (musicAt m).toList ++ musicOf l := by
  unfold musicOf
  rw [List.filterMap_cons]
  unfold musicAt
  cases (music m.1).map (·, m.2) <;> rfl
theorem musicOf_append (l l' : List TMsg) : musicOf (l ++ l') = musicOf l ++ musicOf l' := List.filterMap_append

/-- Running over two lists with the same music. -/
theorem both_foldlM {σ τ : Type} (R : σ → τ → Prop) (step : σ → TMsg → Res σ) (step' : τ → TMsg → Res τ)
    (hl : ∀ s s' m, musicAt m = none → R s s' → ∃ s1, step s m = .ok s1 ∧ R s1 s')
    (hr : ∀ s s' m, musicAt m = none → R s s' → ∃ s1, step' s' m = .ok s1 ∧ R s s1)
    (hs : ∀ s s' a b e, musicAt a = some e → musicAt b = some e → R s s' → Both R (step s a) (step' s' b)) :
    ∀ (l l' : List TMsg) (s : σ) (s' : τ), musicOf l = musicOf l' → R s s' → Both R (l.foldlM step s) (l'.foldlM step' s') := by
  intro l
  induction l with
  | nil =>
    intro l'
    induction l' with
    | nil => intro s s' _ h; exact .ok h
    | cons b l' ih =>
      intro s s' hm h
      rw [musicOf_nil, musicOf_cons] at hm
      obtain ⟨h1, h2⟩ := List.append_eq_nil_iff.1 hm.symm
      have h0 : musicAt b = none := by cases hb : musicAt b with | none => rfl | some e => simp [hb] at h1
      obtain ⟨s1, e1, r1⟩ := hr s s' b h0 h
      rw [List.foldlM_cons, e1]
      exact ih s s1 (by rw [h2]; rfl) r1
  | cons a l ih =>
    intro l' s s' hm h
    cases ha : musicAt a with
    | none =>
      obtain ⟨s1, e1, r1⟩ := hl s s' a ha h
      rw [List.foldlM_cons, e1]
      exact ih l' s1 s' (by rw [← hm, musicOf_cons, ha]; rfl) r1
    | some e =>
      induction l' generalizing s' with
      | nil => rw [musicOf_cons, ha] at hm; simp [musicOf_nil] at hm
      | cons b l' ih' =>
        cases hb : musicAt b with
        | none =>
          obtain ⟨s1, e1, r1⟩ := hr s s' b hb h
          rw [show (b :: l').foldlM step' s' = step' s' b >>= fun s => l'.foldlM step' s from List.foldlM_cons, e1]
          exact ih' s1 (by rw [hm, musicOf_cons, hb]; rfl) r1
        | some e' =>
          rw [musicOf_cons, musicOf_cons, ha, hb] at hm
          simp only [Option.toList_some, List.singleton_append, List.cons.injEq] at hm
          obtain ⟨rfl, hm⟩ := hm
          rw [List.foldlM_cons, List.foldlM_cons]
          exact (hs s s' a b e ha hb h).bind fun s1 s1' h1 => ih l' s1 s1' hm h1

/-- Messages that matter in the same way. -/
inductive MusicAlike : Message → Message → Prop
  | off (d d' ch n v v') : MusicAlike (.midiEvent d (.noteOff ch n v)) (.midiEvent d' (.noteOff ch n v'))
  | on (d d' ch n v) : MusicAlike (.midiEvent d (.noteOn ch n v)) (.midiEvent d' (.noteOn ch n v))
  | program (d d' ch p) : MusicAlike (.midiEvent d (.programChange ch p)) (.midiEvent d' (.programChange ch p))
  | control (d d' ch c x) (h : c = 5 ∨ c = 7 ∨ c = 37 ∨ c = 65) : MusicAlike (.midiEvent d (.controlChange ch c x)) (.midiEvent d' (.controlChange ch c x))
  | tempo (d d' data data') (h : data.take 3 = data'.take 3) : MusicAlike (.metaEvent d .setTempo data) (.metaEvent d' .setTempo data')

theorem alike (a b e : TMsg) (ha : musicAt a = some e) (hb : musicAt b = some e) : MusicAlike a.1 b.1 ∧ a.2 = b.2 := by
  obtain ⟨a, t⟩ := a
  obtain ⟨b, u⟩ := b
  obtain ⟨e, w⟩ := e
  simp only [musicAt, Option.map_eq_some_iff, Prod.mk.injEq] at ha hb
  obtain ⟨x, hx, rfl, rfl⟩ := ha
  obtain ⟨y, hy, rfl, rfl⟩ := hb
  refine ⟨?_, rfl⟩
  simp only
  unfold music at hx hy
  split at hx <;> (try split at hx) <;> simp only [Option.some.injEq, reduceCtorEq] at hx <;> subst hx <;> split at hy <;> (try split at hy) <;>
    simp only [Option.some.injEq, reduceCtorEq, Message.midiEvent.injEq, MidiEvent.noteOff.injEq, MidiEvent.noteOn.injEq, MidiEvent.programChange.injEq,
      MidiEvent.controlChange.injEq, Message.metaEvent.injEq, true_and, and_true, and_false] at hy
  · obtain ⟨rfl, rfl⟩ := hy; exact .off ..
  · obtain ⟨rfl, rfl, rfl⟩ := hy; exact .on ..
  · obtain ⟨rfl, rfl⟩ := hy; exact .program ..
  · obtain ⟨rfl, rfl, rfl⟩ := hy; exact .control _ _ _ _ _ (by assumption)
  · exact .tempo _ _ _ _ hy.symm

theorem not_alike (m : TMsg) (h : musicAt m = none) : starts m.1 = false ∧ ends m.1 = false ∧ programOf m.1 = none ∧
    (∀ d ch c x, m.1 = .midiEvent d (.controlChange ch c x) → c ≠ 5 ∧ c ≠ 7 ∧ c ≠ 37 ∧ c ≠ 65) ∧ ∀ d data, m.1 ≠ .metaEvent d .setTempo data := by
  obtain ⟨m, t⟩ := m
  simp only [musicAt, Option.map_eq_none_iff] at h
  cases m with
  | midiEvent d e =>
    cases e with
    | controlChange ch c x =>
      simp only [music, ite_eq_right_iff, reduceCtorEq, imp_false, not_or] at h
      refine ⟨rfl, rfl, rfl, ?_, by simp⟩
      rintro _ _ _ _ ⟨⟩
      exact h
    | _ => simp_all [music, starts, ends, programOf]
  | metaEvent d e data => cases e <;> simp_all [music, starts, ends, programOf]
  | sysEx d data => simp [starts, ends, programOf]
  | trackChange => simp [starts, ends, programOf]

/-! ## Scanning -/

/-- Scans that found the same intervals. -/
def SameScan (s s' : ScanState) : Prop := s.intervals = s'.intervals ∧ s.lastEnd = s'.lastEnd ∧ s.active = s'.active

theorem scan_skip (i : Fin 16) (s : ScanState) (m : TMsg) (h : musicAt m = none) : ∃ s1, scanMessage i s m = .ok s1 ∧ SameScan s1 s := by
  obtain ⟨h1, h2, -⟩ := not_alike m h
  obtain ⟨m, t⟩ := m
  cases m with
  | midiEvent d e =>
    cases e with
    | noteOff ch n v => simp [ends] at h2
    | noteOn ch n v => simp only [starts, ends, ne_eq, decide_not, Bool.not_eq_false', decide_eq_true_eq, decide_eq_false_iff_not] at h1 h2; exact absurd h1 h2
    | _ => exact ⟨_, rfl, rfl, rfl, rfl⟩
  | _ => exact ⟨_, rfl, rfl, rfl, rfl⟩

theorem pushInterval_same {s s' : ScanState} (h : SameScan s s') (i : Fin 16) (t : Nat) : pushInterval i s t = pushInterval i s' t := by
  unfold pushInterval
  rw [h.1, h.2.1, h.2.2]

theorem scan_both (i : Fin 16) (s s' : ScanState) (a b e : TMsg) (ha : musicAt a = some e) (hb : musicAt b = some e) (h : SameScan s s') :
    Both SameScan (scanMessage i s a) (scanMessage i s' b) := by
  obtain ⟨hab, ht⟩ := alike a b e ha hb
  obtain ⟨a, t⟩ := a
  obtain ⟨b, u⟩ := b
  simp only at hab ht
  subst ht
  have hp := pushInterval_same h i t
  cases hab with
  | off d d' ch n v v' =>
    simp only [scanMessage, h.2.2]
    cases subU s'.active 1 with
    | error e => exact .error _
    | ok x => exact .ok ⟨hp, rfl, rfl⟩
  | on d d' ch n v =>
    simp only [scanMessage, h.2.2]
    by_cases hv : v = 0
    · simp only [hv, if_true]
      cases subU s'.active 1 with
      | error e => exact .error _
      | ok x => exact .ok ⟨hp, rfl, rfl⟩
    · simp only [hv, if_false]
      exact .ok ⟨hp, rfl, rfl⟩
  | program d d' ch p => exact .ok h
  | control d d' ch c x hc => exact .ok h
  | tempo d d' data data' hd => exact .ok h

theorem scanChannel_both (i : Fin 16) (l l' : List TMsg) (h : musicOf l = musicOf l') (t t' : Nat) : Both SameScan (scanChannel i l t) (scanChannel i l' t') := by
  unfold scanChannel
  refine both_foldlM SameScan _ _ ?_ ?_ (scan_both i) l l' _ _ h ⟨rfl, rfl, rfl⟩
  · intro s s' m hm hs
    obtain ⟨s1, e1, a, b, c⟩ := scan_skip i s m hm
    exact ⟨s1, e1, a.trans hs.1, b.trans hs.2.1, c.trans hs.2.2⟩
  · intro s s' m hm hs
    obtain ⟨s1, e1, a, b, c⟩ := scan_skip i s' m hm
    exact ⟨s1, e1, hs.1.trans a.symm, hs.2.1.trans b.symm, hs.2.2.trans c.symm⟩

theorem scanChannels_both (cs cs' : ChanMsgs) (h : ∀ c, musicOf (cs c) = musicOf (cs' c)) (t t' : Nat) :
    Both (fun a b => a.1 = b.1) (scanChannels cs t) (scanChannels cs' t') := by
  unfold scanChannels
  suffices H : ∀ (l : List (Fin 16)) (a b : (Fin 16 → List VoiceInterval) × Nat), a.1 = b.1 → Both (fun a b => a.1 = b.1)
      (l.foldlM (fun (acc : (Fin 16 → List VoiceInterval) × Nat) i => do
        let st ← scanChannel i (cs i) acc.2
        return (Function.update acc.1 i st.intervals, st.maxTime)) a)
      (l.foldlM (fun (acc : (Fin 16 → List VoiceInterval) × Nat) i => do
        let st ← scanChannel i (cs' i) acc.2
        return (Function.update acc.1 i st.intervals, st.maxTime)) b) from H _ _ _ rfl
  intro l
  induction l with
  | nil => intro a b hab; exact .ok hab
  | cons i l ih =>
    intro a b hab
    rw [List.foldlM_cons, List.foldlM_cons]
    refine Both.bind (R := fun a b => a.1 = b.1) ?_ fun x y hxy => ih x y hxy
    refine (scanChannel_both i _ _ (h i) a.2 b.2).bind fun s s' hs => ?_
    refine .ok ?_
    show Function.update a.1 i s.intervals = Function.update b.1 i s'.intervals
    rw [hab, hs.1]

/-! ## Dealing -/

/-- Messages of which the same matters, remembered for a channel. -/
def recall (o : Option Message) : Option Message := o.bind music

/-- States of the dealing loop that differ only in what does not matter. -/
structure SameDeal (s s' : DealState) : Prop where
  voices : ∀ v, musicOf (s.voices v) = musicOf (s'.voices v)
  ctrl : ∀ c, recall (s.lastCtrl c) = recall (s'.lastCtrl c)
  prog : ∀ c, recall (s.lastProg c) = recall (s'.lastProg c)
  bend : ∀ c, recall (s.lastBend c) = none
  bend' : ∀ c, recall (s'.lastBend c) = none
  chan : s.lastChan = s'.lastChan
  active : s.active = s'.active
  perc : s.lastPerc = s'.lastPerc

theorem musicOf_snoc (l : List TMsg) (m : TMsg) : musicOf (l ++ [m]) = musicOf l ++ (musicAt m).toList := by
  rw [musicOf_append, musicOf_cons, musicOf_nil, List.append_nil]

theorem SameDeal.push {s s' : DealState} (h : SameDeal s s') (v : Fin 8) (m m' : TMsg) (hm : musicAt m = musicAt m') : SameDeal (s.push v m) (s'.push v m') := by
  refine { h with voices := fun w => ?_ }
  by_cases hw : w = v
  · subst hw
    simp only [DealState.push, Function.update_self, musicOf_snoc, h.voices w, hm]
  · simp only [DealState.push, Function.update_of_ne hw, h.voices w]

theorem SameDeal.pushLeft {s s' : DealState} (h : SameDeal s s') (v : Fin 8) (m : TMsg) (hm : musicAt m = none) : SameDeal (s.push v m) s' := by
  refine { h with voices := fun w => ?_ }
  by_cases hw : w = v
  · subst hw
    simp only [DealState.push, Function.update_self, musicOf_snoc, h.voices w, hm, Option.toList_none, List.append_nil]
  · simp only [DealState.push, Function.update_of_ne hw, h.voices w]

theorem SameDeal.symm {s s' : DealState} (h : SameDeal s s') : SameDeal s' s :=
  ⟨fun v => (h.voices v).symm, fun c => (h.ctrl c).symm, fun c => (h.prog c).symm, h.bend', h.bend, h.chan.symm, h.active.symm, h.perc.symm⟩

theorem SameDeal.pushOpt {s s' : DealState} (h : SameDeal s s') (v : Fin 8) (o o' : Option Message) (t : Nat) (ho : recall o = recall o') :
    SameDeal (s.pushOpt v o t) (s'.pushOpt v o' t) := by
  cases o with
  | none =>
    cases o' with
    | none => exact h
    | some m' => exact (h.symm.pushLeft v (m', t) (by simp only [recall, Option.bind_none, Option.bind_some] at ho; simp [musicAt, ← ho])).symm
  | some m =>
    cases o' with
    | none => exact h.pushLeft v (m, t) (by simp only [recall, Option.bind_none, Option.bind_some] at ho; simp [musicAt, ho])
    | some m' => exact h.push v (m, t) (m', t) (by simp only [recall, Option.bind_some] at ho; simp [musicAt, ho])

theorem SameDeal.setActive {s s' : DealState} (h : SameDeal s s') (a : Fin 16 → List (UInt8 × Fin 8)) : SameDeal { s with active := a } { s' with active := a } :=
  ⟨h.voices, h.ctrl, h.prog, h.bend, h.bend', h.chan, rfl, h.perc⟩

theorem SameDeal.noteOff {s s' : DealState} (h : SameDeal s s') (d d' : Nat) (ch : Fin 16) (n v v' : UInt8) (t : Nat) :
    SameDeal (dealNoteOff s d ch n v t) (dealNoteOff s' d' ch n v' t) := by
  unfold dealNoteOff
  rw [h.active]
  cases (s'.active ch).lookup n with
  | none => exact h
  | some w =>
    simp only
    split
    · exact (h.setActive _).push _ _ _ rfl
    · exact (h.setActive _).push _ _ _ rfl

theorem SameDeal.closeSame {s s' : DealState} (h : SameDeal s s') (d d' : Nat) (ch : Fin 16) (n v v' : UInt8) (t : Nat) :
    SameDeal (dealCloseSame s d ch n v t) (dealCloseSame s' d' ch n v' t) := by
  unfold dealCloseSame
  rw [h.active]
  cases (s'.active ch).lookup n with
  | none => exact h
  | some w => exact (h.setActive _).push _ _ _ rfl

theorem SameDeal.switch {s s' : DealState} (h : SameDeal s s') (ch : Fin 16) (v : Fin 8) (t : Nat) :
    SameDeal (dealSwitchChannel s ch v t) (dealSwitchChannel s' ch v t) := by
  unfold dealSwitchChannel
  rw [h.chan]
  split
  · have h1 := h.pushOpt v _ _ t (h.ctrl ch)
    have h2 := h1.pushOpt v _ _ t (h1.prog ch)
    have h3 := h2.pushOpt v _ _ t ((h2.bend ch).trans (h2.bend' ch).symm)
    exact ⟨h3.voices, h3.ctrl, h3.prog, h3.bend, h3.bend', congrArg (fun f => Function.update f v (some ch)) h3.chan, h3.active, h3.perc⟩
  · exact h

theorem recall_update {f g : Fin 16 → Option Message} (h : ∀ c, recall (f c) = recall (g c)) (c : Fin 16) (m m' : Message) (hm : music m = music m') (d : Fin 16) :
    recall (Function.update f c (some m) d) = recall (Function.update g c (some m') d) := by
  by_cases hd : d = c
  · subst hd; simpa [recall] using hm
  · simp only [Function.update_of_ne hd, h d]

theorem SameDeal.percussion {s s' : DealState} (h : SameDeal s s') (d d' : Nat) (ch : Fin 16) (n : UInt8) (v : Fin 8) (t : Nat) :
    SameDeal (dealPercussion s d ch n v t) (dealPercussion s' d' ch n v t) := by
  unfold dealPercussion
  rw [h.perc]
  simp only
  split
  · have h0 : SameDeal { s with lastProg := Function.update s.lastProg ch (some (.midiEvent d (.programChange ch (percInstr n)))), lastPerc := percInstr n }
        { s' with lastProg := Function.update s'.lastProg ch (some (.midiEvent d' (.programChange ch (percInstr n)))), lastPerc := percInstr n } :=
      ⟨h.voices, h.ctrl, recall_update h.prog ch _ _ rfl, h.bend, h.bend', h.chan, h.active, rfl⟩
    exact h0.push _ _ _ rfl
  · exact h

theorem SameDeal.noteOn {s s' : DealState} (h : SameDeal s s') (base : Fin 16 → Fin 8) (d d' : Nat) (ch : Fin 16) (n v : UInt8) (t : Nat) :
    Both SameDeal (dealNoteOn base s d ch n v t) (dealNoteOn base s' d' ch n v t) := by
  unfold dealNoteOn
  have h1 := h.closeSame d d' ch n v v t
  revert h1
  generalize dealCloseSame s d ch n v t = s
  generalize dealCloseSame s' d' ch n v t = s'
  intro h
  simp only
  split
  · rw [h.active]
    cases chooseVoice base s'.active ch with
    | none => exact .error _
    | some w =>
      have h2 := (h.setActive (Function.update s'.active ch (insertNote (s'.active ch) n w))).switch ch w t
      simp only
      split
      · exact .ok ((h2.percussion d d' ch n w t).push _ _ _ rfl)
      · exact .ok (h2.push _ _ _ rfl)
  · exact .ok h

theorem SameDeal.pushes {s s' : DealState} (h : SameDeal s s') (m m' : TMsg) (hm : musicAt m = musicAt m') (vs : List (Fin 8)) :
    SameDeal (vs.foldl (fun st v => st.push v m) s) (vs.foldl (fun st v => st.push v m') s') := by
  induction vs generalizing s s' with
  | nil => exact h
  | cons v vs ih => exact ih (h.push v m m' hm)

theorem SameDeal.toChannel {s s' : DealState} (h : SameDeal s s') (ord : EnumOrder) (base : Fin 16 → Fin 8) (ch : Fin 16) (m m' : TMsg) (hm : musicAt m = musicAt m') :
    SameDeal (dealToChannel ord base s ch m) (dealToChannel ord base s' ch m') := by
  unfold dealToChannel
  rw [h.active]
  simp only
  split
  · exact h.pushes m m' hm _
  · exact (h.pushes m m' hm _).push _ _ _ hm

theorem pushes_left {s s' : DealState} (h : SameDeal s s') (m : TMsg) (hm : musicAt m = none) (vs : List (Fin 8)) :
    SameDeal (vs.foldl (fun st v => st.push v m) s) s' := by
  induction vs generalizing s with
  | nil => exact h
  | cons v vs ih => exact ih (h.pushLeft v m hm)

theorem toChannel_left {s s' : DealState} (h : SameDeal s s') (ord : EnumOrder) (base : Fin 16 → Fin 8) (ch : Fin 16) (m : TMsg) (hm : musicAt m = none) :
    SameDeal (dealToChannel ord base s ch m) s' := by
  unfold dealToChannel
  simp only
  split
  · exact pushes_left h m hm _
  · exact (pushes_left h m hm _).pushLeft _ _ hm

theorem deal_skip (ord : EnumOrder) (base : Fin 16 → Fin 8) (s s' : DealState) (m : TMsg) (hm : musicAt m = none) (h : SameDeal s s') :
    ∃ s1, dealEvent ord base s m = .ok s1 ∧ SameDeal s1 s' := by
  obtain ⟨h1, h2, h3, h4, h5⟩ := not_alike m hm
  obtain ⟨m, t⟩ := m
  cases m with
  | midiEvent d e =>
    cases e with
    | noteOff ch n v => simp [ends] at h2
    | noteOn ch n v => simp only [starts, ends, ne_eq, decide_not, Bool.not_eq_false', decide_eq_true_eq, decide_eq_false_iff_not] at h1 h2; exact absurd h1 h2
    | polyphonicKeyPressure ch n v =>
      simp only [dealEvent]
      cases (s.active ch).lookup n with
      | none => exact ⟨_, rfl, h⟩
      | some w => exact ⟨_, rfl, h.pushLeft _ _ hm⟩
    | controlChange ch c x =>
      have hc := (h4 d ch c x rfl).2.1
      simp only [dealEvent, hc, if_false]
      exact ⟨_, rfl, toChannel_left h ord base ch _ hm⟩
    | programChange ch p => simp [programOf] at h3
    | channelPressure ch x => exact ⟨_, rfl, toChannel_left h ord base ch _ hm⟩
    | pitchBendChange ch x =>
      have h0 := toChannel_left h ord base ch _ hm
      refine ⟨_, rfl, h0.voices, h0.ctrl, h0.prog, ?_, h0.bend', h0.chan, h0.active, h0.perc⟩
      intro c
      by_cases hc : c = ch
      · subst hc; simp [recall, music]
      · simp only [Function.update_of_ne hc]; exact h0.bend c
    | unknown ch => exact ⟨_, rfl, h⟩
  | metaEvent d e data =>
    cases e with
    | setTempo => exact absurd rfl (h5 d data)
    | other k => exact ⟨_, rfl, h⟩
  | sysEx d data => exact ⟨_, rfl, h.pushLeft _ _ hm⟩
  | trackChange => exact ⟨_, rfl, h⟩

theorem deal_both (ord : EnumOrder) (base : Fin 16 → Fin 8) (s s' : DealState) (a b e : TMsg) (ha : musicAt a = some e) (hb : musicAt b = some e) (h : SameDeal s s') :
    Both SameDeal (dealEvent ord base s a) (dealEvent ord base s' b) := by
  obtain ⟨hab, ht⟩ := alike a b e ha hb
  have hm : musicAt a = musicAt b := ha.trans hb.symm
  obtain ⟨a, t⟩ := a
  obtain ⟨b, u⟩ := b
  simp only at hab ht
  subst ht
  cases hab with
  | off d d' ch n v v' => exact .ok (h.noteOff d d' ch n v v' t)
  | on d d' ch n v => exact h.noteOn base d d' ch n v t
  | program d d' ch p =>
    have h0 := h.toChannel ord base ch _ _ hm
    exact .ok ⟨h0.voices, h0.ctrl, recall_update h0.prog ch _ _ rfl, h0.bend, h0.bend', h0.chan, h0.active, h0.perc⟩
  | control d d' ch c x hc =>
    have h0 := h.toChannel ord base ch _ _ hm
    simp only [dealEvent]
    by_cases h7 : c = 7
    · simp only [h7, if_true] at h0 ⊢
      exact .ok ⟨h0.voices, recall_update h0.ctrl ch _ _ rfl, h0.prog, h0.bend, h0.bend', h0.chan, h0.active, h0.perc⟩
    · simp only [h7, if_false]
      exact .ok h0
  | tempo d d' data data' hd => exact .ok (h.push _ _ _ hm)

theorem deal_seq_both (ord : EnumOrder) (base : Fin 16 → Fin 8) (l l' : List TMsg) (h : musicOf l = musicOf l') (s s' : DealState) (hs : SameDeal s s') :
    Both SameDeal (l.foldlM (dealEvent ord base) s) (l'.foldlM (dealEvent ord base) s') := by
  refine both_foldlM SameDeal _ _ (fun s s' m => deal_skip ord base s s' m) ?_ (deal_both ord base) l l' s s' h hs
  intro s s' m hm h
  obtain ⟨s1, e1, h1⟩ := deal_skip ord base s' s m hm h.symm
  exact ⟨s1, e1, h1.symm⟩

/-! ## Tracks -/

theorem track_skip (tpb : Nat) (f : F32) (s : TrackState) (m : TMsg) (hm : musicAt m = none) : trackStep tpb f s m = .ok s := by
  obtain ⟨h1, h2, h3, h4, h5⟩ := not_alike m hm
  obtain ⟨m, t⟩ := m
  cases m with
  | midiEvent d e =>
    cases e with
    | noteOff ch n v => simp [ends] at h2
    | noteOn ch n v => simp only [starts, ends, ne_eq, decide_not, Bool.not_eq_false', decide_eq_true_eq, decide_eq_false_iff_not] at h1 h2; exact absurd h1 h2
    | controlChange ch c x =>
      obtain ⟨c1, c2, c3, c4⟩ := h4 d ch c x rfl
      simp only [trackStep, trackControl, c1, c2, c3, c4, if_false]
    | programChange ch p => simp [programOf] at h3
    | _ => rfl
  | metaEvent d e data =>
    cases e with
    | setTempo => exact absurd rfl (h5 d data)
    | other k => rfl
  | _ => rfl

theorem usecPerBeat_take (data : List UInt8) : usecPerBeat data = usecPerBeat (data.take 3) := by
  match data with
  | [] => rfl
  | [_] => rfl
  | [_, _] => rfl
  | _ :: _ :: _ :: _ => simp [usecPerBeat]

theorem track_both (tpb : Nat) (f : F32) (s : TrackState) (a b e : TMsg) (ha : musicAt a = some e) (hb : musicAt b = some e) :
    trackStep tpb f s a = trackStep tpb f s b := by
  obtain ⟨hab, ht⟩ := alike a b e ha hb
  obtain ⟨a, t⟩ := a
  obtain ⟨b, u⟩ := b
  simp only at hab ht
  subst ht
  cases hab with
  | tempo d d' data data' hd =>
    simp only [trackStep]
    rw [usecPerBeat_take data, usecPerBeat_take data', hd]
  | _ => rfl

theorem trackNew_same (l l' : List TMsg) (h : musicOf l = musicOf l') (tpb maxTime : Nat) (f : F32) : trackNew l tpb maxTime f = trackNew l' tpb maxTime f := by
  unfold trackNew
  have : l.foldlM (trackStep tpb f) {} = l'.foldlM (trackStep tpb f) {} := by
    apply Both.eq
    refine both_foldlM (fun a b => a = b) _ _ ?_ ?_ ?_ l l' _ _ h rfl
    · rintro s _ m hm rfl; exact ⟨s, track_skip tpb f s m hm, rfl⟩
    · rintro s _ m hm rfl; exact ⟨s, track_skip tpb f s m hm, rfl⟩
    · rintro s _ a b e ha hb rfl
      rw [track_both tpb f s a b e ha hb]
      cases trackStep tpb f s b
      · exact .error _
      · exact .ok rfl
  rw [this]

end M2S
