import Verif.Proofs.Retime
import Verif.Props.Layout
import Verif.Props.FirstVoices
/-
Property C96: reading a MIDI file depends on times only through their order.
-/
namespace M2S
open MidiSpec Timing

variable {τ : Nat → Nat}

theorem redelta_bare {l l' : List TMsg} (h : Redelta l l') : l'.map (bare id) = l.map (bare id) := by
  induction h with
  | nil => rfl
  | @cons m m' l l' hm _ ih =>
    obtain ⟨h1, d, h2⟩ := hm
    rw [List.map_cons, List.map_cons, ih]
    congr 1
    unfold bare
    rw [h1, h2]
    cases m.1 <;> rfl

theorem retime_track (hτ : StrictMono τ) (l : List Message) (hw : Message.trackChange ∉ l) :
    Redelta ((stamp 0 l).map (moved τ)) (stamp 0 (retime 0 ((stamp 0 l).map (moved τ)))) := by
  refine stamp_retime _ 0 ?_ (fun _ _ => Nat.zero_le _) ?_
  · rw [List.pairwise_map]
    exact (stamp_sorted l 0).imp fun h => hτ.monotone h
  · intro m hm hc
    obtain ⟨x, hx, rfl⟩ := List.mem_map.1 hm
    have := (stamp_mem l 0 x hx).1
    rw [show x.1 = .trackChange from hc] at this
    exact hw this

theorem retimed_whole (calls : List Callback) : Whole ((split calls).2.map fun track => retime 0 ((stamp 0 track).map (moved τ))) := by
  intro t ht
  obtain ⟨l, hl, rfl⟩ := List.mem_map.1 ht
  refine retime_whole _ 0 ?_
  intro m hm hc
  obtain ⟨x, hx, rfl⟩ := List.mem_map.1 hm
  have := (stamp_mem l 0 x hx).1
  rw [show x.1 = .trackChange from hc] at this
  exact (split_whole calls).2 l hl this

theorem redelta_tracks (hτ : StrictMono τ) (tracks : List (List Message)) (hw : Whole tracks) :
    Redelta ((fileMessages tracks).map (moved τ)) (fileMessages (tracks.map fun track => retime 0 ((stamp 0 track).map (moved τ)))) := by
  induction tracks with
  | nil => exact .nil
  | cons t ts ih =>
    simp only [fileMessages, List.map_cons, List.flatMap_cons, List.map_append]
    exact redelta_append (retime_track hτ t (hw t (by simp))) (ih fun x hx => hw x (List.mem_cons_of_mem _ hx))

/-- The messages of the moved file are those of the file, moved. -/
theorem file_retimed (hτ : StrictMono τ) (calls : List Callback) : Redelta ((file calls).map (moved τ)) (file (retimed τ calls)) := by
  unfold retimed
  rw [file_fileOf _ _ (retimed_whole calls)]
  exact redelta_tracks hτ _ (split_whole calls).2

theorem file_bare (hτ : StrictMono τ) (calls : List Callback) : (file (retimed τ calls)).map (bare id) = (file calls).map (bare τ) := by
  rw [redelta_bare (file_retimed hτ calls), List.map_map]
  rfl

theorem readable_retimed (hτ : StrictMono τ) (calls : List Callback) (ht : ∀ m ∈ file calls, τ m.2 < 2 ^ 32) : Readable (retimed τ calls) := by
  refine readable_fileOf _ _ (retimed_whole calls) ?_
  intro m hm
  obtain ⟨x, hx, h, -⟩ := (redelta_mem (redelta_tracks hτ _ (split_whole calls).2)).2 m hm
  obtain ⟨y, hy, rfl⟩ := List.mem_map.1 hx
  rw [h]
  exact ht y hy

theorem channel_bare (hτ : StrictMono τ) (calls : List Callback) (c : Fin 16) :
    (sortMessages (ofChannel (file (retimed τ calls)) c)).map (bare id) = (sortMessages (ofChannel (file calls) c)).map (bare τ) := by
  rw [← sort_bare strictMono_id, ← ofChannel_bare, file_bare hτ, ofChannel_bare, sort_bare hτ]

/-! ## Which channels sound when -/

theorem ofChannel_retimed (hτ : StrictMono τ) (calls : List Callback) (c : Fin 16) :
    (ofChannel (file (retimed τ calls)) c).map (bare id) = (ofChannel (file calls) c).map (bare τ) := by
  rw [← ofChannel_bare, file_bare hτ, ofChannel_bare]

theorem starts_withDelta (d : Nat) (m : Message) : starts (withDelta d m) = starts m := by
  cases m with
  | midiEvent _ e => cases e <;> rfl
  | _ => rfl

theorem ends_withDelta (d : Nat) (m : Message) : ends (withDelta d m) = ends m := by
  cases m with
  | midiEvent _ e => cases e <;> rfl
  | _ => rfl

/-- Counting messages by kind and time. -/
theorem countP_bare {l l' : List TMsg} (h : l'.map (bare id) = l.map (bare τ)) (p : Message → Bool) (hp : ∀ d m, p (withDelta d m) = p m) (q : Nat → Bool) :
    (l'.countP fun m => p m.1 && q m.2) = l.countP fun m => p m.1 && q (τ m.2) := by
  have e : ∀ (σ : Nat → Nat) (l : List TMsg), (l.countP fun m => p m.1 && q (σ m.2)) = (l.map (bare σ)).countP fun m => p m.1 && q m.2 := by
    intro σ l
    rw [List.countP_map]
    congr 1
    funext m
    simp only [Function.comp, bare, hp]
  have := e id l'
  simp only [id] at this
  rw [this, h, ← e]

theorem mem_bare {l l' : List TMsg} (h : l'.map (bare id) = l.map (bare τ)) (p : Message → Bool) (hp : ∀ d m, p (withDelta d m) = p m) (q : Nat → Prop) :
    (∃ m ∈ l', p m.1 = true ∧ q m.2) ↔ ∃ m ∈ l, p m.1 = true ∧ q (τ m.2) := by
  have e : ∀ (σ : Nat → Nat) (l : List TMsg), (∃ m ∈ l, p m.1 = true ∧ q (σ m.2)) ↔ ∃ m ∈ l.map (bare σ), p m.1 = true ∧ q m.2 := by
    intro σ l
    simp only [List.mem_map, exists_exists_and_eq_and, bare, hp]
  have := e id l'
  simp only [id] at this
  rw [this, h, ← e]

/-- The last instant that is not moved beyond `s`. -/
theorem last_before (hτ : StrictMono τ) (t s : Nat) (h : τ t ≤ s) : ∃ k, ∀ x, τ x ≤ s ↔ x ≤ k := by
  refine ⟨Nat.findGreatest (fun x => τ x ≤ s) s, fun x => ⟨fun hx => ?_, fun hx => ?_⟩⟩
  · exact Nat.le_findGreatest (le_trans hτ.le_apply hx) hx
  · exact le_trans (hτ.monotone hx) (Nat.findGreatest_spec (P := fun x => τ x ≤ s) (le_trans hτ.le_apply h) h)

theorem sounds_retimed (hτ : StrictMono τ) (calls : List Callback) (c : Fin 16) (s k : Nat) (hk : ∀ x, τ x ≤ s ↔ x ≤ k) :
    SoundsOn (file (retimed τ calls)) c s ↔ SoundsOn (file calls) c k := by
  have h := ofChannel_retimed hτ calls c
  unfold SoundsOn sounding startsBy endsBy
  rw [countP_bare h starts starts_withDelta fun x => decide (x ≤ s), countP_bare h ends ends_withDelta fun x => decide (x ≤ s),
    mem_bare h (fun m => starts m || ends m) (fun d m => by rw [starts_withDelta, ends_withDelta]) fun x => s < x]
  simp only [hk]
  refine and_congr_right fun _ => exists_congr fun m => and_congr_right fun _ => and_congr_right fun _ => ?_
  have := hk m.2
  omega

theorem sounds_after (hτ : StrictMono τ) (calls : List Callback) (c : Fin 16) (s : Nat) (h : SoundsOn (file (retimed τ calls)) c s) : ∃ t, τ t ≤ s := by
  have hs := h.1
  unfold sounding startsBy at hs
  rw [countP_bare (ofChannel_retimed hτ calls c) starts starts_withDelta fun x => decide (x ≤ s)] at hs
  have : 0 < (ofChannel (file calls) c).countP fun m => starts m.1 && decide (τ m.2 ≤ s) :=
    Int.natCast_pos.1 (lt_of_lt_of_le hs (Int.sub_le_self _ (Int.natCast_nonneg _)))
  rw [List.countP_pos_iff] at this
  obtain ⟨m, -, hm⟩ := this
  simp only [Bool.and_eq_true, decide_eq_true_eq] at hm
  exact ⟨m.2, hm.2⟩

/-- The same choices of voices separate the channels. -/
theorem separates_retimed (hτ : StrictMono τ) (calls : List Callback) (f : Fin 16 → Fin 8) : Separates (file (retimed τ calls)) f ↔ Separates (file calls) f := by
  refine forall_congr' fun c => forall_congr' fun c' => imp_congr_right fun _ => imp_congr_right fun _ => ⟨fun h t ht => ?_, fun h s hs => ?_⟩
  · have hk : ∀ x, τ x ≤ τ t ↔ x ≤ t := fun x => hτ.le_iff_le
    exact h (τ t) ⟨(sounds_retimed hτ calls c _ t hk).2 ht.1, (sounds_retimed hτ calls c' _ t hk).2 ht.2⟩
  · obtain ⟨t, ht⟩ := sounds_after hτ calls c s hs.1
    obtain ⟨k, hk⟩ := last_before hτ t s ht
    exact h k ⟨(sounds_retimed hτ calls c s k hk).1 hs.1, (sounds_retimed hτ calls c' s k hk).1 hs.2⟩

theorem stray_retimed (hτ : StrictMono τ) (calls : List Callback) : StrayEnd (file (retimed τ calls)) ↔ StrayEnd (file calls) := by
  refine exists_congr fun c => ?_
  have h := ofChannel_retimed hτ calls c
  unfold endsBy
  constructor
  · rintro ⟨s, hs⟩
    rw [countP_bare h starts starts_withDelta fun x => decide (x < s), countP_bare h ends ends_withDelta fun x => decide (x ≤ s)] at hs
    have hp : 0 < (ofChannel (file calls) c).countP fun m => ends m.1 && decide (τ m.2 ≤ s) := Nat.lt_of_le_of_lt (Nat.zero_le _) hs
    rw [List.countP_pos_iff] at hp
    obtain ⟨m, -, hm⟩ := hp
    simp only [Bool.and_eq_true, decide_eq_true_eq] at hm
    obtain ⟨k, hk⟩ := last_before hτ m.2 s hm.2
    refine ⟨k, lt_of_le_of_lt (List.countP_mono_left ?_) (lt_of_lt_of_eq hs (by simp only [hk]))⟩
    intro x _ hx
    simp only [Bool.and_eq_true, decide_eq_true_eq] at hx ⊢
    exact ⟨hx.1, lt_of_lt_of_le (hτ hx.2) ((hk k).2 (le_refl _))⟩
  · rintro ⟨t, ht⟩
    refine ⟨τ t, ?_⟩
    rw [countP_bare h starts starts_withDelta fun x => decide (x < τ t), countP_bare h ends ends_withDelta fun x => decide (x ≤ τ t)]
    simpa only [hτ.lt_iff_lt, hτ.le_iff_le] using ht

theorem foldr_max_map (hτ : StrictMono τ) (l : List Nat) (h : l ≠ []) : (l.map τ).foldr max 0 = τ (l.foldr max 0) := by
  induction l with
  | nil => exact absurd rfl h
  | cons a l ih =>
    rw [List.map_cons, List.foldr_cons, List.foldr_cons]
    by_cases hl : l = []
    · subst hl; simp
    · rw [ih hl, max_moved hτ]

theorem lastEvent_retimed (hτ : StrictMono τ) (calls : List Callback) (h : ∃ m ∈ file calls, isSystem m.1 = false) : lastEvent (file (retimed τ calls)) = τ (lastEvent (file calls)) := by
  unfold lastEvent
  have e : ∀ (σ : Nat → Nat) (l : List TMsg), ((l.filter fun m => !isSystem m.1).map (·.2)).map σ = ((l.map (bare σ)).filter fun m => !isSystem m.1).map (·.2) := by
    intro σ l
    rw [List.filter_map, List.map_map, List.map_map]
    congr 1
    apply List.filter_congr
    intro m _
    simp [bare, isSystem_withDelta]
  have e1 := e id (file (retimed τ calls))
  rw [List.map_id, file_bare hτ, ← e] at e1
  rw [e1, foldr_max_map hτ]
  obtain ⟨m, hm, hs⟩ := h
  intro h0
  have : m.2 ∈ ((file calls).filter fun m => !isSystem m.1).map (·.2) := List.mem_map.2 ⟨m, List.mem_filter.2 ⟨hm, by simp [hs]⟩, rfl⟩
  rw [h0] at this
  cases this

theorem voices_retimed (hτ : StrictMono τ) (ord : EnumOrder) (calls : List Callback) (ht : ∀ m ∈ file calls, τ m.2 < 2 ^ 32) (base : Fin 16 → Fin 8) :
    Both (fun vs vs' => ∀ v, (vs' v).map (bare id) = (vs v).map (bare τ)) (channelsToVoices ord (fun c => sortMessages (ofChannel (file calls) c)) base (fun _ => []))
      (channelsToVoices ord (fun c => sortMessages (ofChannel (file (retimed τ calls)) c)) base (fun _ => [])) := by
  have mem : ∀ (l : List TMsg) c, ∀ m ∈ sortMessages (ofChannel l c), m ∈ l := fun l c m hm => List.mem_of_mem_filter ((sort_perm _).mem_iff.1 hm)
  have h1 := channelsToVoices_bare hτ ord (fun c => sortMessages (ofChannel (file calls) c)) base fun c m hm => ht m (mem _ c m hm)
  have h2 := channelsToVoices_bare strictMono_id ord (fun c => sortMessages (ofChannel (file (retimed τ calls)) c)) base
    fun c m hm => (readable_retimed hτ calls ht).times m (mem _ c m hm)
  simp only [channel_bare hτ] at h2
  rw [h2] at h1
  generalize channelsToVoices ord (fun c => sortMessages (ofChannel (file calls) c)) base (fun _ => []) = x at h1 ⊢
  generalize channelsToVoices ord (fun c => sortMessages (ofChannel (file (retimed τ calls)) c)) base (fun _ => []) = y at h1 ⊢
  cases x with
  | error e =>
    cases y with
    | error e' => cases h1; exact .error _
    | ok b => cases h1
  | ok a =>
    cases y with
    | error e' => cases h1
    | ok b => exact .ok fun v => congrFun (Except.ok.inj h1) v

/-- **C96.** Let `τ` keep the order of times. If every message of a readable file is moved from `t` to `τ t`, reading fails as before, or gives every channel the same voice
and every voice the same messages, in the same order, moved in the same way. -/
theorem C96_voices (ord : EnumOrder) (calls : List Callback) (hr : Readable calls) (hτ : StrictMono τ) (ht : ∀ m ∈ file calls, τ m.2 < 2 ^ 32) :
    Both (fun h h' => (∀ v, (h'.voices v).map (bare id) = (h.voices v).map (bare τ)) ∧ (∀ c, (h'.channels c).baseVoice = (h.channels c).baseVoice) ∧
        ((∃ m ∈ file calls, isSystem m.1 = false) → h'.maxTime = τ h.maxTime) ∧ h'.ticksPerBeat = h.ticksPerBeat)
      (readMidi ord calls) (readMidi ord (retimed τ calls)) := by
  obtain ⟨ga, a1, a2, a3, a4, a5⟩ := handled calls hr
  obtain ⟨gb, b1, b2, b3, b4, b5⟩ := handled (retimed τ calls) (readable_retimed hτ calls ht)
  unfold readMidi
  rw [a1, b1]
  show Both _ (ga.process ord) (gb.process ord)
  unfold MidiHandler.process
  rw [a5, b5]
  show Both _ (do
    let (ivs, maxTime) ← scanChannels (fun c => sortMessages (ofChannel (file calls) c)) ga.maxTime
    _) (do
    let (ivs, maxTime) ← scanChannels (fun c => sortMessages (ofChannel (file (retimed τ calls)) c)) gb.maxTime
    _)
  rw [a3, b3, a2, b2]
  cases ea : scanChannels (fun c => sortMessages (ofChannel (file calls) c)) 0 with
  | error e =>
    cases eb : scanChannels (fun c => sortMessages (ofChannel (file (retimed τ calls)) c)) 0 with
    | error e' =>
      rw [panicOnly_scan _ _ e ea, panicOnly_scan _ _ e' eb]
      exact .error _
    | ok r =>
      obtain ⟨r', e'⟩ := (scan_stray _).2 fun h => (scan_stray _).1 ⟨r, eb⟩ ((stray_retimed hτ calls).2 h)
      rw [ea] at e'
      cases e'
  | ok r =>
    cases eb : scanChannels (fun c => sortMessages (ofChannel (file (retimed τ calls)) c)) 0 with
    | error e' =>
      obtain ⟨r', e⟩ := (scan_stray _).2 fun h => (scan_stray _).1 ⟨r, ea⟩ ((stray_retimed hτ calls).1 h)
      rw [eb] at e
      cases e
    | ok r' =>
      obtain ⟨ivs, mt⟩ := r
      obtain ⟨ivs', mt'⟩ := r'
      show Both _ (match findBaseVoices ((List.finRange 16).map ivs) (fun _ => []) with | none => _ | some bs => _)
        (match findBaseVoices ((List.finRange 16).map ivs') (fun _ => []) with | none => _ | some bs => _)
      have fa := search_separates _ ivs mt ea
      have fb := search_separates _ ivs' mt' eb
      simp only [separates_retimed hτ] at fb
      cases ha : findBaseVoices ((List.finRange 16).map ivs) (fun _ => []) with
      | none =>
        rw [fb.2 (fa.1 ha)]
        exact .error _
      | some bs =>
        cases hb : findBaseVoices ((List.finRange 16).map ivs') (fun _ => []) with
        | none => rw [fa.2 (fb.1 hb)] at ha; cases ha
        | some bs' =>
          obtain ⟨p1, p2⟩ := search_first (scan_facts _ ivs mt ea) bs ha
          obtain ⟨q1, q2⟩ := search_first (scan_facts _ ivs' mt' eb) bs' hb
          have hbs : (fun c : Fin 16 => bs'.getD c 0) = fun c : Fin 16 => bs.getD c 0 :=
            comesFirst_antisymm (q2 _ ((separates_retimed hτ calls _).2 p1)) (p2 _ ((separates_retimed hτ calls _).1 q1))
          simp only [hbs]
          refine Both.bind (voices_retimed hτ ord calls ht fun c : Fin 16 => bs.getD c 0) ?_
          intro vs vs' h
          refine .ok ⟨h, fun c => congrFun hbs c, fun hm => ?_, ?_⟩
          · show mt' = τ mt
            rw [scan_last _ ivs mt ea, scan_last _ ivs' mt' eb, lastEvent_retimed hτ calls hm]
          · show gb.ticksPerBeat = ga.ticksPerBeat
            rw [a4, b4]
            exact timeBase_fileOf _ _

theorem musicOf_bare (τ : Nat → Nat) (l : List TMsg) : musicOf (l.map (bare τ)) = (musicOf l).map (moved τ) := by
  unfold musicOf
  rw [List.filterMap_map, List.map_filterMap]
  congr 1
  funext m
  simp only [Function.comp, bare, music_withDelta, Option.map_map]
  rfl

/-- **C96 (music).** The same for any readable file with the music of the moved file, however it is laid out in tracks. -/
theorem C96_music (ord : EnumOrder) (a b : List Callback) (ha : Readable a) (hb : Readable b) (hτ : StrictMono τ) (ht : ∀ m ∈ file a, τ m.2 < 2 ^ 32)
    (hs : SameMusic (retimed τ a) b) :
    Both (fun h h' => (∀ v, musicOf (h'.voices v) = (musicOf (h.voices v)).map (moved τ)) ∧ ((∃ m ∈ file a, isSystem m.1 = false) → h'.maxTime = τ h.maxTime) ∧
        h'.ticksPerBeat = h.ticksPerBeat)
      (readMidi ord a) (readMidi ord b) := by
  have h1 := C96_voices ord a ha hτ ht
  have h2 := read_same ord (retimed τ a) b (readable_retimed hτ a ht) hb hs
  generalize readMidi ord a = x at h1
  generalize readMidi ord (retimed τ a) = y at h1 h2
  generalize readMidi ord b = z at h2
  cases h1 with
  | error e => cases h2; exact .error e
  | ok h =>
    cases h2 with
    | ok g =>
      refine .ok ⟨fun v => ?_, fun hm => by rw [← g.2.2, h.2.2.1 hm], by rw [← g.2.1, h.2.2.2]⟩
      rw [← g.1 v, ← musicOf_bare, ← h.1 v, musicOf_bare]
      have : moved id = id := rfl
      rw [this, List.map_id]

/-- **C96 (silence).** In particular silence before the music changes nothing but the times. -/
theorem C96_later (ord : EnumOrder) (calls : List Callback) (hr : Readable calls) (T : Nat) (ht : ∀ m ∈ file calls, m.2 + T < 2 ^ 32) :
    Both (fun h h' => (∀ v, (h'.voices v).map (bare id) = (h.voices v).map (bare (· + T))) ∧ ∀ c, (h'.channels c).baseVoice = (h.channels c).baseVoice)
      (readMidi ord calls) (readMidi ord (retimed (· + T) calls)) := by
  have h := C96_voices ord calls hr (τ := (· + T)) (fun a b hab => Nat.add_lt_add_right hab T) ht
  generalize readMidi ord calls = x at h
  generalize readMidi ord (retimed (· + T) calls) = y at h
  cases h with
  | error e => exact .error e
  | ok h => exact .ok ⟨h.1, h.2.1⟩

/-- A file to which the theorems apply, moved unevenly: the gap before the second chord becomes longer. -/
example : retimed (fun t => t * t) passedCalls =
    [ .header 1 480, .trackChange, .midiEvent 25 (.noteOn 2 60 100), .midiEvent 0 (.noteOn 3 64 100), .midiEvent 200 (.noteOff 3 64 0), .midiEvent 0 (.noteOn 7 60 100),
      .midiEvent 400 (.noteOff 7 60 0), .midiEvent 0 (.noteOff 2 60 0) ] := by decide

example : ∃ h h', readMidi id passedCalls = .ok h ∧ readMidi id (retimed (fun t => t * t) passedCalls) = .ok h' ∧ (h'.voices 1).map (bare id) = (h.voices 1).map (bare fun t => t * t) := by
  have hτ : StrictMono fun t : Nat => t * t := fun a b h => Nat.mul_self_lt_mul_self h
  have h := C96_voices id passedCalls ⟨by simp [passedCalls], by decide, by decide⟩ hτ (by decide)
  have ok : (readMidi id passedCalls).toOption.isSome = true := by decide +kernel
  generalize readMidi id passedCalls = x at h ok
  generalize readMidi id (retimed (fun t => t * t) passedCalls) = y at h
  cases h with
  | error e => cases ok
  | ok h => exact ⟨_, _, rfl, rfl, h.1 1⟩

end M2S
