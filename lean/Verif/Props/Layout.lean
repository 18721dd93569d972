import Verif.Proofs.Layout
import Verif.Props.Success
import Verif.Cli
import Mathlib.Data.Prod.Lex
/-
Properties C78 and C79: only the music in a MIDI file matters, not its layout in tracks and not the messages the converter has no use for.
-/
namespace M2S
open MidiSpec Timing

/-! ## The music of the channels, and of the merged channels -/

theorem music_rank (m e : TMsg) (h : musicAt m = some e) : rank e.1 = rank m.1 ∧ e.2 = m.2 ∧ home e.1 = home m.1 := by
  obtain ⟨m, t⟩ := m
  simp only [musicAt, Option.map_eq_some_iff] at h
  obtain ⟨x, hx, rfl⟩ := h
  unfold music at hx
  split at hx <;> (try split at hx) <;> simp only [Option.some.injEq, reduceCtorEq] at hx <;> subst hx <;> exact ⟨rfl, rfl, rfl⟩

theorem musicOf_filter (p : TMsg → Bool) (hp : ∀ m e, musicAt m = some e → p e = p m) (l : List TMsg) : (musicOf l).filter p = musicOf (l.filter p) := by
  induction l with
  | nil => rfl
  | cons m l ih =>
    rw [musicOf_cons, List.filter_append, ih]
    cases hm : musicAt m with
    | none =>
      by_cases hq : p m = true
      · rw [List.filter_cons_of_pos hq, musicOf_cons, hm]; rfl
      · rw [List.filter_cons_of_neg hq]; rfl
    | some e =>
      have he := hp m e hm
      by_cases hq : p m = true
      · rw [List.filter_cons_of_pos hq, musicOf_cons, hm]
        simp only [Option.toList_some]
        rw [List.filter_cons_of_pos (by rw [he]; exact hq)]; rfl
      · rw [List.filter_cons_of_neg hq]
        simp only [Option.toList_some]
        rw [List.filter_cons_of_neg (by rw [he]; exact hq)]; rfl

theorem musicOf_pairwise (R : TMsg → TMsg → Prop) (h : ∀ a b x y, musicAt a = some x → musicAt b = some y → R a b → R x y) (l : List TMsg) (hl : l.Pairwise R) :
    (musicOf l).Pairwise R := by
  unfold musicOf
  rw [List.pairwise_filterMap]
  exact hl.imp fun {a b} hab x hx y hy => h a b x y hx hy hab

/-- Number of the channel a message belongs to, from 1. -/
def homeNo (m : Message) : Nat := match home m with | none => 0 | some c => c.val + 1

/-- Time, rank and channel of a message. -/
def place (m : TMsg) : ℕ ×ₗ ℕ ×ₗ ℕ := toLex (m.2, toLex (rank m.1, homeNo m.1))

theorem place_eq (m : TMsg) (t r c : Nat) : place m = toLex (t, toLex (r, c)) ↔ m.2 = t ∧ rank m.1 = r ∧ homeNo m.1 = c := by
  unfold place
  rw [toLex_inj, Prod.mk.injEq, toLex_inj, Prod.mk.injEq]

theorem place_music (m e : TMsg) (h : musicAt m = some e) : place e = place m := by
  obtain ⟨h1, h2, h3⟩ := music_rank m e h
  unfold place homeNo
  rw [h1, h2, h3]

/-- The music of a file in processing order is determined by the music of the channels. -/
theorem merged_same (a b : List Callback) (hs : SameMusic a b) (sa sb : List (Fin 16 × TMsg))
    (ha : ∀ c, (sa.filter fun p => p.1 = c).map (·.2) = sortMessages (ofChannel (file a) c)) (ha' : sa.Pairwise MergeOrder)
    (hb : ∀ c, (sb.filter fun p => p.1 = c).map (·.2) = sortMessages (ofChannel (file b) c)) (hb' : sb.Pairwise MergeOrder) :
    musicOf (sa.map (·.2)) = musicOf (sb.map (·.2)) := by
  have mem : ∀ (x : List Callback) (s : List (Fin 16 × TMsg)), (∀ c, (s.filter fun p => p.1 = c).map (·.2) = sortMessages (ofChannel (file x) c)) →
      ∀ p ∈ s, home p.2.1 = some p.1 := by
    intro x s h p hp
    have : p.2 ∈ sortMessages (ofChannel (file x) p.1) := by
      rw [← h p.1]
      exact List.mem_map.2 ⟨p, List.mem_filter.2 ⟨hp, by simp⟩, rfl⟩
    simpa [ofChannel] using List.of_mem_filter ((sort_perm _).mem_iff.1 this)
  have sorted : ∀ (x : List Callback) (s : List (Fin 16 × TMsg)), (∀ c, (s.filter fun p => p.1 = c).map (·.2) = sortMessages (ofChannel (file x) c)) → s.Pairwise MergeOrder →
      (musicOf (s.map (·.2))).Pairwise fun m m' => place m ≤ place m' := by
    intro x s h hp
    apply musicOf_pairwise
    · intro m m' e e' he he' hle; rw [place_music m e he, place_music m' e' he']; exact hle
    · rw [List.pairwise_map]
      refine hp.imp_of_mem ?_
      intro p q hp hq hpq
      have h1 := mem x s h p hp
      have h2 := mem x s h q hq
      unfold place homeNo
      rw [h1, h2]
      simp only [Prod.Lex.toLex_le_toLex]
      rcases hpq with h | ⟨h, h' | ⟨h', h''⟩⟩
      · exact .inl h
      · exact .inr ⟨h, .inl h'⟩
      · exact .inr ⟨h, .inr ⟨h', by have : p.1.val ≤ q.1.val := h''; omega⟩⟩
  have cls : ∀ (x : List Callback) (s : List (Fin 16 × TMsg)), (∀ c, (s.filter fun p => p.1 = c).map (·.2) = sortMessages (ofChannel (file x) c)) →
      ∀ t r, (∀ c : Fin 16, (musicOf (s.map (·.2))).filter (fun m => place m = toLex (t, toLex (r, c.val + 1))) =
        musicOf ((ofChannel (file x) c).filter fun m => m.2 = t ∧ rank m.1 = r)) ∧
        ∀ n, (∀ c : Fin 16, n ≠ c.val + 1) → (musicOf (s.map (·.2))).filter (fun m => place m = toLex (t, toLex (r, n))) = [] := by
    intro x s h t r
    have hm := mem x s h
    have hn : ∀ p ∈ s, homeNo p.2.1 = p.1.val + 1 := fun p hp => by unfold homeNo; rw [hm p hp]
    refine ⟨fun c => ?_, fun n hne => ?_⟩
    · rw [musicOf_filter _ (fun m e he => by rw [place_music m e he])]
      congr 1
      rw [← sort_stable, ← h c, List.filter_map, List.filter_map, List.filter_filter]
      congr 1
      apply List.filter_congr
      intro p hp
      simp only [Function.comp]
      rw [← Bool.decide_and, decide_eq_decide, place_eq, hn p hp, and_assoc, Fin.ext_iff]
      omega
    · rw [List.filter_eq_nil_iff]
      intro e he
      unfold musicOf at he
      rw [List.mem_filterMap] at he
      obtain ⟨m, hm', he⟩ := he
      obtain ⟨p, hp, rfl⟩ := List.mem_map.1 hm'
      rw [decide_eq_true_eq, place_music _ _ he, place_eq, hn p hp]
      rintro ⟨-, -, h3⟩
      exact hne p.1 h3.symm
  refine sorted_classes place _ _ (sorted a sa ha ha') (sorted b sb hb hb') fun x => ?_
  obtain ⟨t, y, rfl⟩ : ∃ t y, x = toLex (t, y) := ⟨(ofLex x).1, (ofLex x).2, rfl⟩
  obtain ⟨r, c, rfl⟩ : ∃ r c, y = toLex (r, c) := ⟨(ofLex y).1, (ofLex y).2, rfl⟩
  by_cases hc : ∃ d : Fin 16, c = d.val + 1
  · obtain ⟨d, rfl⟩ := hc
    rw [(cls a sa ha t r).1 d, (cls b sb hb t r).1 d, hs.same d t r]
  · have hc : ∀ d : Fin 16, c ≠ d.val + 1 := fun d hd => hc ⟨d, hd⟩
    rw [(cls a sa ha t r).2 c hc, (cls b sb hb t r).2 c hc]

/-- The music of a channel is determined by the music at every instant. -/
theorem channel_same (a b : List Callback) (hs : SameMusic a b) (c : Fin 16) :
    musicOf (sortMessages (ofChannel (file a) c)) = musicOf (sortMessages (ofChannel (file b) c)) := by
  have srt : ∀ l : List TMsg, (musicOf (sortMessages l)).Pairwise fun m m' => (toLex (m.2, rank m.1) : ℕ ×ₗ ℕ) ≤ toLex (m'.2, rank m'.1) := by
    intro l
    apply musicOf_pairwise
    · intro m m' e e' he he' hle
      obtain ⟨h1, h2, -⟩ := music_rank m e he
      obtain ⟨h1', h2', -⟩ := music_rank m' e' he'
      rw [h1, h2, h1', h2']; exact hle
    · exact (sort_pairwise l).imp fun {m m'} h => by rw [Prod.Lex.toLex_le_toLex]; exact h
  refine sorted_classes (fun m : TMsg => (toLex (m.2, rank m.1) : ℕ ×ₗ ℕ)) _ _ (srt _) (srt _) fun x => ?_
  obtain ⟨t, r, rfl⟩ : ∃ t r, x = toLex (t, r) := ⟨(ofLex x).1, (ofLex x).2, rfl⟩
  have cls : ∀ l : List TMsg, (musicOf (sortMessages l)).filter (fun m => (toLex (m.2, rank m.1) : ℕ ×ₗ ℕ) = toLex (t, r)) = musicOf (l.filter fun m => m.2 = t ∧ rank m.1 = r) := by
    intro l
    rw [musicOf_filter _ (fun m e he => by obtain ⟨h1, h2, -⟩ := music_rank m e he; rw [h1, h2]), ← sort_stable]
    congr 1
    apply List.filter_congr
    intro m _
    simp only [toLex_inj, Prod.mk.injEq]
  rw [cls, cls, hs.same c t r]

/-! ## Reading -/

/-- Handlers from which the same song is made. -/
def SameHandler (h h' : MidiHandler) : Prop := (∀ v, musicOf (h.voices v) = musicOf (h'.voices v)) ∧ h.ticksPerBeat = h'.ticksPerBeat ∧ h.maxTime = h'.maxTime

theorem foldr_max_le (l : List Nat) (b : Nat) : l.foldr max 0 ≤ b ↔ ∀ x ∈ l, x ≤ b := by
  induction l with
  | nil => simp
  | cons a l ih => simp [ih]

theorem foldr_max_mem (l : List Nat) : l.foldr max 0 = 0 ∨ l.foldr max 0 ∈ l := by
  induction l with
  | nil => simp
  | cons a l ih =>
    rw [List.foldr_cons]
    rcases Nat.le_total a (l.foldr max 0) with h | h
    · rw [max_eq_right h]
      rcases ih with ih | ih
      · exact .inl ih
      · exact .inr (List.mem_cons_of_mem _ ih)
    · rw [max_eq_left h]; exact .inr (by simp)

theorem scan_last (calls : List Callback) (ivs : Fin 16 → List VoiceInterval) (mt : Nat)
    (h : scanChannels (fun c => sortMessages (ofChannel (file calls) c)) 0 = .ok (ivs, mt)) : mt = lastEvent (file calls) := by
  obtain ⟨-, -, h3, h4⟩ := scanChannels_ok _ (fun c => before_time (sort_pairwise _)) 0 ivs mt h
  have sys : ∀ m : Message, isSystem m = false ↔ ∃ d e, m = .midiEvent d e := by intro m; cases m <;> simp [isSystem]
  unfold lastEvent
  apply le_antisymm
  · rcases h4 with h4 | ⟨c, m, hm, he, rfl⟩
    · rw [h4]; exact Nat.zero_le _
    · have hm' : m ∈ file calls := List.mem_of_mem_filter ((sort_perm _).mem_iff.1 hm)
      exact (foldr_max_le _ _).1 (le_refl _) m.2 (List.mem_map.2 ⟨m, List.mem_filter.2 ⟨hm', by simp [(sys m.1).2 he]⟩, rfl⟩)
  · rw [foldr_max_le]
    intro t ht
    obtain ⟨m, hm, rfl⟩ := List.mem_map.1 ht
    obtain ⟨hm, hq⟩ := List.mem_filter.1 hm
    simp only [Bool.not_eq_true'] at hq
    obtain ⟨d, e, he⟩ := (sys _).1 hq
    refine h3 e.channel m ?_ ⟨d, e, he⟩
    apply (sort_perm _).mem_iff.2
    unfold ofChannel
    rw [List.mem_filter]
    exact ⟨hm, by rw [he]; cases e <;> simp [home, MidiEvent.channel]⟩

theorem handled (calls : List Callback) (hr : Readable calls) : ∃ h0 : MidiHandler, calls.foldlM MidiHandler.handle {} = .ok h0 ∧ h0.voices = (fun _ => []) ∧ h0.maxTime = 0 ∧
    h0.ticksPerBeat = timeBase calls ∧ tracksToChannels h0.tracks (fun c => (h0.channels c).messages) = .ok (fun c => sortMessages (ofChannel (file calls) c)) := by
  obtain ⟨h0, e1⟩ := handle_ok calls {} hr.format (fun _ => hr.tracks)
  obtain ⟨i1, -, i3, i4, i5⟩ := handle_tracks calls {} h0 e1
  obtain ⟨i1, -⟩ := i1 rfl
  refine ⟨h0, e1, i4, i5, handle_timeBase calls {} h0 e1, ?_⟩
  rw [tracksToChannels_ok, i3, i1]
  exact ⟨hr.times, by funext c; simp [file]⟩

theorem voices_seq (calls : List Callback) (hr : Readable calls) : ∃ seq : List (Fin 16 × TMsg),
    (∀ c, (seq.filter fun p => p.1 = c).map (·.2) = sortMessages (ofChannel (file calls) c)) ∧ seq.Pairwise MergeOrder ∧
    ∀ ord (base : Fin 16 → Fin 8), channelsToVoices ord (fun c => sortMessages (ofChannel (file calls) c)) base (fun _ => []) =
      (seq.map (·.2)).foldlM (dealEvent ord base) { voices := fun _ => [], lastChan := fun v => (List.finRange 16).find? fun c => base c = v } >>= fun st => .ok st.voices := by
  obtain ⟨seq, s1, s2, s3⟩ := merge_seq _ (fun c => sortMessages (toChan (file calls) c)) rfl (fun c => sort_pairwise _)
    (by
      intro c m hm
      have := (sort_perm _).mem_iff.1 hm
      exact hr.times m (List.mem_of_mem_filter this))
  refine ⟨seq, s1, s2, fun ord base => ?_⟩
  unfold channelsToVoices
  rw [show ((List.finRange 16).countP fun c => (sortMessages (ofChannel (file calls) c)).isEmpty) = emptyCount (fun c => sortMessages (toChan (file calls) c)) from rfl]
  simp only
  rw [← s3]
  rfl

theorem voices_both (ord : EnumOrder) (a b : List Callback) (ha : Readable a) (hb : Readable b) (hs : SameMusic a b) (base : Fin 16 → Fin 8) :
    Both (fun vs vs' => ∀ v, musicOf (vs v) = musicOf (vs' v)) (channelsToVoices ord (fun c => sortMessages (ofChannel (file a) c)) base (fun _ => []))
      (channelsToVoices ord (fun c => sortMessages (ofChannel (file b) c)) base (fun _ => [])) := by
  obtain ⟨sa, s1, s2, s3⟩ := voices_seq a ha
  obtain ⟨sb, t1, t2, t3⟩ := voices_seq b hb
  rw [s3, t3]
  have h0 := deal_seq_both ord base _ _ (merged_same a b hs sa sb s1 s2 t1 t2)
    { voices := fun _ => [], lastChan := fun v => (List.finRange 16).find? fun c => base c = v }
    { voices := fun _ => [], lastChan := fun v => (List.finRange 16).find? fun c => base c = v }
    ⟨fun _ => rfl, fun _ => rfl, fun _ => rfl, fun _ => rfl, fun _ => rfl, rfl, rfl, rfl⟩
  exact h0.bind fun s s' h => .ok h.voices

/-- Two readable files with the same music are read alike. -/
theorem read_same (ord : EnumOrder) (a b : List Callback) (ha : Readable a) (hb : Readable b) (hs : SameMusic a b) : Both SameHandler (readMidi ord a) (readMidi ord b) := by
  obtain ⟨ga, a1, a2, a3, a4, a5⟩ := handled a ha
  obtain ⟨gb, b1, b2, b3, b4, b5⟩ := handled b hb
  unfold readMidi
  rw [a1, b1]
  show Both SameHandler (ga.process ord) (gb.process ord)
  unfold MidiHandler.process
  rw [a5, b5]
  show Both SameHandler (do
    let (ivs, maxTime) ← scanChannels (fun c => sortMessages (ofChannel (file a) c)) ga.maxTime
    _) (do
    let (ivs, maxTime) ← scanChannels (fun c => sortMessages (ofChannel (file b) c)) gb.maxTime
    _)
  rw [a3, b3, a2, b2]
  have hsc := scanChannels_both (fun c => sortMessages (ofChannel (file a) c)) (fun c => sortMessages (ofChannel (file b) c)) (channel_same a b hs) 0 0
  generalize ea : scanChannels (fun c => sortMessages (ofChannel (file a) c)) 0 = x at hsc
  generalize eb : scanChannels (fun c => sortMessages (ofChannel (file b) c)) 0 = y at hsc
  cases hsc with
  | error e => exact .error e
  | @ok r r' hiv =>
      obtain ⟨ivs, mt⟩ := r
      obtain ⟨ivs', mt'⟩ := r'
      simp only at hiv
      subst hiv
      have hmt : mt = mt' := by rw [scan_last a ivs mt ea, scan_last b ivs mt' eb, hs.last]
      subst hmt
      show Both SameHandler (match findBaseVoices ((List.finRange 16).map ivs) (fun _ => []) with | none => _ | some bs => _)
        (match findBaseVoices ((List.finRange 16).map ivs) (fun _ => []) with | none => _ | some bs => _)
      cases findBaseVoices ((List.finRange 16).map ivs) (fun _ => []) with
      | none => exact .error _
      | some bs =>
        refine Both.bind (voices_both ord a b ha hb hs fun c : Fin 16 => bs.getD c 0) ?_
        intro vs vs' h
        exact .ok ⟨h, by show ga.ticksPerBeat = gb.ticksPerBeat; rw [a4, b4]; exact hs.base, rfl⟩

theorem voiceTracks_same {h h' : MidiHandler} (hs : SameHandler h h') (f : F32) : voiceTracks h f = voiceTracks h' f := by
  unfold voiceTracks
  rw [hs.2.1, hs.2.2]
  have : ∀ v, trackNew (h.voices v) h'.ticksPerBeat h'.maxTime f = trackNew (h'.voices v) h'.ticksPerBeat h'.maxTime f := fun v => trackNew_same _ _ (hs.1 v) _ _ f
  simp only [this]

/-- **C78 (song).** Two readable files with the same music give the same song, or fail alike, with or without optimisation. -/
theorem C78_song (ord : EnumOrder) (a b : List Callback) (ha : Readable a) (hb : Readable b) (hs : SameMusic a b) (f : F32) (opt : Bool) :
    (readMidi ord a >>= fun h => songFromMidi h f opt) = readMidi ord b >>= fun h => songFromMidi h f opt := by
  apply Both.eq
  refine (read_same ord a b ha hb hs).bind fun h h' hh => ?_
  unfold songFromMidi
  rw [voiceTracks_same hh f]
  generalize (do let tracks ← voiceTracks h' f; _ : Res Song) = r
  cases r
  · exact .error _
  · exact .ok rfl

/-- **C78.** The tool as a whole looks only at the music: had every MIDI file been replaced by a readable one with the same music, every command would have the same outcome
and leave the same files. -/
theorem C78_tool (x : Ext) (parse : List UInt8 → Option (List Callback)) (fs : FS)
    (hs : ∀ path bytes, fs path = some bytes → (x.parseMidi bytes = none ∧ parse bytes = none) ∨
      ∃ a b, x.parseMidi bytes = some a ∧ parse bytes = some b ∧ Readable a ∧ Readable b ∧ SameMusic a b) (optimize verbose : Bool) (cmd : Cmd) :
    { x with parseMidi := parse }.run fs optimize verbose cmd = x.run fs optimize verbose cmd := by
  have hsong : ∀ path tempo o, Ext.songFromMidiFile { x with parseMidi := parse } fs path tempo o = x.songFromMidiFile fs path tempo o := by
    intro path tempo o
    unfold Ext.songFromMidiFile
    cases e1 : fs path with
    | none => rfl
    | some bytes =>
      rcases hs path bytes e1 with ⟨h1, h2⟩ | ⟨a, b, h1, h2, ha, hb, hab⟩
      · simp only [h1, h2]
      · simp only [h1, h2]
        exact (C78_song x.ord a b ha hb hab tempo o).symm
  have hconv : ∀ o, Ext.converter { x with parseMidi := parse } fs o = x.converter fs o := by
    intro o
    funext path tempo
    unfold Ext.converter
    simp only [hsong]
    rfl
  have hwrite : ∀ m rom addrs o v, Ext.writeRom { x with parseMidi := parse } fs m rom addrs o v = x.writeRom fs m rom addrs o v := by
    intro m rom addrs o v
    unfold Ext.writeRom
    simp only [hconv]
  cases cmd with
  | buildRom manifest rom addrs => unfold Ext.run; simp only [hwrite]; rfl
  | allOverworld input rom addrs => unfold Ext.run; simp only [hwrite]
  | fileSelect input rom addrs => unfold Ext.run; simp only [hwrite]
  | midi2json input output => unfold Ext.run; simp only [hsong]
  | genFakeRom input output addrs => rfl
  | dumpMidi input =>
    cases e1 : fs input with
    | none => simp only [Ext.run, e1, Option.bind_none]
    | some bytes =>
      simp only [Ext.run, e1, Option.bind_some]
      rcases hs input bytes e1 with ⟨h1, h2⟩ | ⟨a, b, h1, h2, ha, hb, hab⟩
      · simp only [h1, h2]
      · simp only [h1, h2]
        have := read_same x.ord a b ha hb hab
        generalize readMidi x.ord a = r at this
        generalize readMidi x.ord b = r' at this
        cases this with
        | ok _ => rfl
        | error e => rfl

/-! ## Files made of tracks -/

/-- No track contains a track change. -/
def Whole (tracks : List (List Message)) : Prop := ∀ t ∈ tracks, Message.trackChange ∉ t

theorem split_append_track (t : List Message) (ht : Message.trackChange ∉ t) (cs : List Callback) : split (t.map callOf ++ cs) = (t ++ (split cs).1, (split cs).2) := by
  induction t with
  | nil => rfl
  | cons m t ih =>
    have ih := ih (fun h => ht (List.mem_cons_of_mem _ h))
    cases m with
    | metaEvent d e data => simp only [List.map_cons, callOf, List.cons_append, split, ih]
    | midiEvent d e => simp only [List.map_cons, callOf, List.cons_append, split, ih]
    | sysEx d data => simp only [List.map_cons, callOf, List.cons_append, split, ih]
    | trackChange => exact absurd (by simp) ht

theorem split_fileOf (base : Nat) (tracks : List (List Message)) (h : Whole tracks) : split (fileOf base tracks) = ([], tracks) := by
  unfold fileOf
  rw [split]
  induction tracks with
  | nil => rfl
  | cons t ts ih =>
    have ih := ih (fun u hu => h u (List.mem_cons_of_mem _ hu))
    rw [List.flatMap_cons, List.cons_append, split, split_append_track t (h t (by simp)), ih]
    simp

theorem file_fileOf (base : Nat) (tracks : List (List Message)) (h : Whole tracks) : file (fileOf base tracks) = fileMessages tracks := by
  unfold file
  rw [split_fileOf base tracks h]

theorem foldl_noHeader (cs : List Callback) (h : ∀ c ∈ cs, ∀ f tb, c ≠ .header f tb) (b : Nat) : cs.foldl (fun b c => match c with | .header _ tb => tb | _ => b) b = b := by
  induction cs generalizing b with
  | nil => rfl
  | cons c cs ih =>
    rw [List.foldl_cons, ih (fun d hd => h d (List.mem_cons_of_mem _ hd))]
    cases c with
    | header f tb => exact absurd rfl (h _ (by simp) f tb)
    | _ => rfl

theorem noHeader_tracks (tracks : List (List Message)) : ∀ c ∈ (tracks.flatMap fun t => Callback.trackChange :: t.map callOf), ∀ f tb, c ≠ .header f tb := by
  rintro c hc f tb rfl
  obtain ⟨t, -, ht⟩ := List.mem_flatMap.1 hc
  rcases List.mem_cons.1 ht with h | h
  · cases h
  · obtain ⟨m, -, hm⟩ := List.mem_map.1 h
    cases m <;> cases hm

theorem timeBase_fileOf (base : Nat) (tracks : List (List Message)) : timeBase (fileOf base tracks) = base := by
  unfold timeBase fileOf
  rw [List.foldl_cons]
  exact foldl_noHeader _ (noHeader_tracks tracks) base

theorem readable_fileOf (base : Nat) (tracks : List (List Message)) (h : Whole tracks) (ht : ∀ m ∈ fileMessages tracks, m.2 < 2 ^ 32) : Readable (fileOf base tracks) := by
  refine ⟨?_, by rw [split_fileOf base tracks h], by rw [file_fileOf base tracks h]; exact ht⟩
  intro f tb hm
  rcases List.mem_cons.1 hm with hm | hm
  · cases hm; rfl
  · exact absurd rfl (noHeader_tracks tracks _ hm f tb)

theorem split_whole (calls : List Callback) : Message.trackChange ∉ (split calls).1 ∧ Whole (split calls).2 := by
  induction calls with
  | nil => exact ⟨by simp [split], by simp [split, Whole]⟩
  | cons c cs ih =>
    cases c with
    | header f tb => exact ih
    | metaEvent d e data => exact ⟨by simpa [split] using ih.1, ih.2⟩
    | midiEvent d e => exact ⟨by simpa [split] using ih.1, ih.2⟩
    | sysExEvent d data => exact ⟨by simpa [split] using ih.1, ih.2⟩
    | trackChange =>
      refine ⟨by simp [split], ?_⟩
      intro t ht
      rcases List.mem_cons.1 ht with rfl | ht
      · exact ih.1
      · exact ih.2 t ht

/-! ## Messages at the same times -/

/-- Lists of messages at the same times that differ at most in delta times. -/
abbrev Redelta : List TMsg → List TMsg → Prop := List.Forall₂ fun m m' => m.2 = m'.2 ∧ ∃ d, m'.1 = withDelta d m.1

theorem music_withDelta (d : Nat) (m : Message) : music (withDelta d m) = music m := by
  cases m with
  | midiEvent _ e => cases e <;> rfl
  | metaEvent _ e _ => cases e <;> rfl
  | _ => rfl
theorem rank_withDelta (d : Nat) (m : Message) : rank (withDelta d m) = rank m := by
  cases m with
  | midiEvent _ e => cases e <;> rfl
  | _ => rfl
theorem home_withDelta (d : Nat) (m : Message) : home (withDelta d m) = home m := by
  cases m with
  | midiEvent _ e => cases e <;> rfl
  | _ => rfl
theorem isSystem_withDelta (d : Nat) (m : Message) : isSystem (withDelta d m) = isSystem m := by cases m <;> rfl

theorem redelta_filter {l l' : List TMsg} (h : Redelta l l') (p : TMsg → Bool) (hp : ∀ m d, p (withDelta d m.1, m.2) = p m) : Redelta (l.filter p) (l'.filter p) := by
  induction h with
  | nil => exact .nil
  | @cons m m' l l' hm _ ih =>
    obtain ⟨h1, d, h2⟩ := hm
    have : p m' = p m := by rw [← hp m d, ← h2, h1]
    by_cases hq : p m = true
    · rw [List.filter_cons_of_pos hq, List.filter_cons_of_pos (this ▸ hq)]
      exact .cons ⟨h1, d, h2⟩ ih
    · rw [List.filter_cons_of_neg hq, List.filter_cons_of_neg (this ▸ hq)]
      exact ih

theorem redelta_musicOf {l l' : List TMsg} (h : Redelta l l') : musicOf l = musicOf l' := by
  induction h with
  | nil => rfl
  | @cons m m' l l' hm _ ih =>
    obtain ⟨h1, d, h2⟩ := hm
    rw [musicOf_cons, musicOf_cons, ih]
    congr 2
    unfold musicAt
    rw [h2, music_withDelta, h1]

theorem redelta_times {l l' : List TMsg} (h : Redelta l l') : l.map (·.2) = l'.map (·.2) := by
  induction h with
  | nil => rfl
  | @cons m m' l l' hm _ ih => rw [List.map_cons, List.map_cons, ih, hm.1]

theorem redelta_append {a a' b b' : List TMsg} (h : Redelta a a') (h' : Redelta b b') : Redelta (a ++ b) (a' ++ b') := by
  induction h with
  | nil => exact h'
  | cons hm _ ih => exact .cons hm ih

/-- A retimed track has its messages at the times given. -/
theorem stamp_retime (l : List TMsg) : ∀ t, l.Pairwise (fun a b => a.2 ≤ b.2) → (∀ m ∈ l, t ≤ m.2) → (∀ m ∈ l, m.1 ≠ .trackChange) → Redelta l (stamp t (retime t l)) := by
  induction l with
  | nil => intro t _ _ _; exact .nil
  | cons m l ih =>
    intro t hs ht hc
    rw [List.pairwise_cons] at hs
    have hd : delta (withDelta (m.2 - t) m.1) = m.2 - t := by
      have := hc m (by simp)
      cases hm : m.1 <;> simp_all [withDelta, delta]
    rw [retime, stamp, hd, Nat.add_sub_cancel' (ht m (by simp))]
    exact .cons ⟨rfl, _, rfl⟩ (ih m.2 hs.2 (fun x hx => hs.1 x hx) fun x hx => hc x (List.mem_cons_of_mem _ hx))

theorem retime_whole (l : List TMsg) : ∀ t, (∀ m ∈ l, m.1 ≠ .trackChange) → Message.trackChange ∉ retime t l := by
  induction l with
  | nil => intro t _; simp [retime]
  | cons m l ih =>
    intro t h
    rw [retime, List.mem_cons, not_or]
    refine ⟨?_, ih m.2 fun x hx => h x (List.mem_cons_of_mem _ hx)⟩
    have := h m (by simp)
    cases hm : m.1 <;> simp_all [withDelta]

theorem stamp_mem (l : List Message) : ∀ t, ∀ m ∈ stamp t l, m.1 ∈ l ∧ t ≤ m.2 := by
  induction l with
  | nil => intro t m hm; simp [stamp] at hm
  | cons a l ih =>
    intro t m hm
    rw [stamp, List.mem_cons] at hm
    rcases hm with rfl | hm
    · exact ⟨by simp, Nat.le_add_right _ _⟩
    · have := ih _ m hm
      exact ⟨List.mem_cons_of_mem _ this.1, by omega⟩

theorem stamp_sorted (l : List Message) : ∀ t, (stamp t l).Pairwise fun a b => a.2 ≤ b.2 := by
  induction l with
  | nil => intro t; exact .nil
  | cons a l ih =>
    intro t
    rw [stamp, List.pairwise_cons]
    exact ⟨fun m hm => (stamp_mem l _ m hm).2, ih _⟩

theorem file_whole (calls : List Callback) : ∀ m ∈ file calls, m.1 ≠ .trackChange := by
  rintro m hm h
  obtain ⟨t, ht, hm⟩ := List.mem_flatMap.1 hm
  have := (stamp_mem t 0 m hm).1
  rw [h] at this
  exact (split_whole calls).2 t ht this

/-! ## C78: layout -/

theorem byTime_perm (l : List TMsg) : (byTime l).Perm l := List.perm_insertionSort _ l

theorem byTime_sorted (l : List TMsg) : (byTime l).Pairwise fun a b => a.2 ≤ b.2 := by
  have : Std.Total (fun a b : TMsg => a.2 ≤ b.2) := ⟨fun a b => Nat.le_total a.2 b.2⟩
  have : IsTrans TMsg (fun a b : TMsg => a.2 ≤ b.2) := ⟨fun a b c h h' => Nat.le_trans h h'⟩
  exact List.pairwise_insertionSort _ l

theorem byTime_stable (l : List TMsg) (t r : Nat) : (byTime l).filter (fun m => m.2 = t ∧ rank m.1 = r) = l.filter (fun m => m.2 = t ∧ rank m.1 = r) := by
  have : Std.Total (fun a b : TMsg => a.2 ≤ b.2) := ⟨fun a b => Nat.le_total a.2 b.2⟩
  have : IsTrans TMsg (fun a b : TMsg => a.2 ≤ b.2) := ⟨fun a b c h h' => Nat.le_trans h h'⟩
  have hp : (l.filter (fun m => m.2 = t ∧ rank m.1 = r)).Pairwise (fun a b => a.2 ≤ b.2) := by
    rw [List.pairwise_filter]
    refine List.Pairwise.imp (R := fun _ _ => True) ?_ (List.pairwise_of_forall (fun _ _ => trivial))
    intro a b _ ha hb
    simp only [decide_eq_true_eq] at ha hb
    omega
  have hs2 := (List.sublist_insertionSort hp List.filter_sublist).filter (fun m => m.2 = t ∧ rank m.1 = r)
  rw [List.filter_filter] at hs2
  simp only [Bool.and_self] at hs2
  refine (hs2.eq_of_length ?_).symm
  exact ((byTime_perm l).filter _).length_eq.symm

theorem lastEvent_le {l l' : List TMsg} (h : ∀ m ∈ l, isSystem m.1 = false → ∃ m' ∈ l', isSystem m'.1 = false ∧ m'.2 = m.2) : lastEvent l ≤ lastEvent l' := by
  unfold lastEvent
  rw [foldr_max_le]
  intro t ht
  obtain ⟨m, hm, rfl⟩ := List.mem_map.1 ht
  obtain ⟨hm, hq⟩ := List.mem_filter.1 hm
  obtain ⟨m', h1, h2, h3⟩ := h m hm (by simpa using hq)
  rw [← h3]
  exact (foldr_max_le _ _).1 (le_refl _) m'.2 (List.mem_map.2 ⟨m', List.mem_filter.2 ⟨h1, by simp [h2]⟩, rfl⟩)

theorem redelta_mem {l l' : List TMsg} (h : Redelta l l') : (∀ m ∈ l, ∃ m' ∈ l', m'.2 = m.2 ∧ ∃ d, m'.1 = withDelta d m.1) ∧ ∀ m' ∈ l', ∃ m ∈ l, m'.2 = m.2 ∧ ∃ d, m'.1 = withDelta d m.1 := by
  induction h with
  | nil => simp
  | @cons m m' l l' hm _ ih =>
    constructor
    · intro x hx
      rcases List.mem_cons.1 hx with rfl | hx
      · exact ⟨m', by simp, hm.1.symm, hm.2⟩
      · obtain ⟨y, hy, h⟩ := ih.1 x hx
        exact ⟨y, List.mem_cons_of_mem _ hy, h⟩
    · intro x hx
      rcases List.mem_cons.1 hx with rfl | hx
      · exact ⟨m, by simp, hm.1.symm, hm.2⟩
      · obtain ⟨y, hy, h⟩ := ih.2 x hx
        exact ⟨y, List.mem_cons_of_mem _ hy, h⟩

theorem flatMap_single {α β : Type} [DecidableEq α] (l : List α) (hl : l.Nodup) (c : α) (hc : c ∈ l) (g : α → List β) (hg : ∀ d ∈ l, d ≠ c → g d = []) : l.flatMap g = g c := by
  induction l with
  | nil => simp at hc
  | cons a l ih =>
    rw [List.nodup_cons] at hl
    rw [List.flatMap_cons]
    by_cases h : c = a
    · subst h
      have : l.flatMap g = [] := by
        rw [List.flatMap_eq_nil_iff]
        intro d hd
        exact hg d (List.mem_cons_of_mem _ hd) fun e => hl.1 (e ▸ hd)
      rw [this, List.append_nil]
    · have hc' : c ∈ l := by rcases List.mem_cons.1 hc with h' | h'; exact absurd h' h; exact h'
      rw [hg a (by simp) (fun e => h e.symm), List.nil_append]
      exact ih hl.2 hc' fun d hd => hg d (List.mem_cons_of_mem _ hd)

/-- The track of a channel in the rearranged file. -/
def channelTrack (calls : List Callback) (c : Fin 16) : List Message := retime 0 (byTime (ofChannel (file calls) c))

theorem channelTrack_redelta (calls : List Callback) (c : Fin 16) : Redelta (byTime (ofChannel (file calls) c)) (stamp 0 (channelTrack calls c)) := by
  refine stamp_retime _ 0 (byTime_sorted _) (fun _ _ => Nat.zero_le _) ?_
  intro m hm
  exact file_whole calls m (List.mem_of_mem_filter ((byTime_perm _).mem_iff.1 hm))

theorem perChannel_whole (calls : List Callback) : Whole ((List.finRange 16).map (channelTrack calls)) := by
  intro t ht
  obtain ⟨c, -, rfl⟩ := List.mem_map.1 ht
  refine retime_whole _ 0 ?_
  intro m hm
  exact file_whole calls m (List.mem_of_mem_filter ((byTime_perm _).mem_iff.1 hm))

theorem perChannel_file (calls : List Callback) : file (perChannel calls) = (List.finRange 16).flatMap fun c => stamp 0 (channelTrack calls c) := by
  unfold perChannel
  rw [show ((List.finRange 16).map fun c => retime 0 (byTime (ofChannel (file calls) c))) = (List.finRange 16).map (channelTrack calls) from rfl,
    file_fileOf _ _ (perChannel_whole calls), fileMessages, List.flatMap_map]

theorem perChannel_home (calls : List Callback) (c : Fin 16) : ∀ m ∈ stamp 0 (channelTrack calls c), home m.1 = some c := by
  intro m hm
  obtain ⟨m0, h1, -, d, h2⟩ := (redelta_mem (channelTrack_redelta calls c)).2 m hm
  rw [h2, home_withDelta]
  simpa [ofChannel] using List.of_mem_filter ((byTime_perm _).mem_iff.1 h1)

theorem perChannel_channel (calls : List Callback) (c : Fin 16) : ofChannel (file (perChannel calls)) c = stamp 0 (channelTrack calls c) := by
  rw [perChannel_file]
  unfold ofChannel
  rw [List.filter_flatMap, flatMap_single _ (List.nodup_finRange 16) c (List.mem_finRange c)]
  · rw [List.filter_eq_self]
    intro m hm
    simpa using perChannel_home calls c m hm
  · intro d _ hd
    rw [List.filter_eq_nil_iff]
    intro m hm
    rw [perChannel_home calls d m hm]
    simpa using hd

theorem home_some (m : Message) (h : m ≠ .trackChange) : ∃ c, home m = some c := by
  cases m <;> simp_all [home]

/-- The rearranged file has the same messages at the same times. -/
theorem perChannel_mem (calls : List Callback) : (∀ m ∈ file calls, ∃ m' ∈ file (perChannel calls), m'.2 = m.2 ∧ ∃ d, m'.1 = withDelta d m.1) ∧
    ∀ m' ∈ file (perChannel calls), ∃ m ∈ file calls, m'.2 = m.2 ∧ ∃ d, m'.1 = withDelta d m.1 := by
  rw [perChannel_file]
  constructor
  · intro m hm
    obtain ⟨c, hc⟩ := home_some m.1 (file_whole calls m hm)
    have : m ∈ byTime (ofChannel (file calls) c) := (byTime_perm _).mem_iff.2 (List.mem_filter.2 ⟨hm, by simp [hc]⟩)
    obtain ⟨m', h1, h2⟩ := (redelta_mem (channelTrack_redelta calls c)).1 m this
    exact ⟨m', List.mem_flatMap.2 ⟨c, List.mem_finRange c, h1⟩, h2⟩
  · intro m' hm'
    obtain ⟨c, -, hm'⟩ := List.mem_flatMap.1 hm'
    obtain ⟨m, h1, h2⟩ := (redelta_mem (channelTrack_redelta calls c)).2 m' hm'
    exact ⟨m, List.mem_of_mem_filter ((byTime_perm _).mem_iff.1 h1), h2⟩

/-- **C78 (one track per channel).** A readable file rearranged to have one track for each channel is readable, has the same music, and so gives the same song. -/
theorem C78_per_channel (ord : EnumOrder) (calls : List Callback) (hr : Readable calls) (f : F32) (opt : Bool) :
    Readable (perChannel calls) ∧ SameMusic calls (perChannel calls) ∧
    (readMidi ord (perChannel calls) >>= fun h => songFromMidi h f opt) = readMidi ord calls >>= fun h => songFromMidi h f opt := by
  obtain ⟨m1, m2⟩ := perChannel_mem calls
  have hread : Readable (perChannel calls) := by
    apply readable_fileOf _ _ (perChannel_whole calls)
    have : fileMessages ((List.finRange 16).map (channelTrack calls)) = file (perChannel calls) := by
      rw [perChannel_file, fileMessages, List.flatMap_map]
    rw [this]
    intro m' hm'
    obtain ⟨m, h1, h2, -⟩ := m2 m' hm'
    rw [h2]
    exact hr.times m h1
  have hsame : SameMusic calls (perChannel calls) := by
    refine ⟨(timeBase_fileOf _ _).symm, ?_, ?_⟩
    · apply le_antisymm
      · apply lastEvent_le
        intro m hm hs
        obtain ⟨m', h1, h2, d, h3⟩ := m1 m hm
        exact ⟨m', h1, by rw [h3, isSystem_withDelta]; exact hs, h2⟩
      · apply lastEvent_le
        intro m' hm' hs
        obtain ⟨m, h1, h2, d, h3⟩ := m2 m' hm'
        exact ⟨m, h1, by rw [h3, isSystem_withDelta] at hs; exact hs, h2.symm⟩
    · intro c t r
      rw [perChannel_channel, ← byTime_stable]
      refine redelta_musicOf (redelta_filter (channelTrack_redelta calls c) _ ?_)
      intro m d
      simp only [rank_withDelta]
  exact ⟨hread, hsame, (C78_song ord calls (perChannel calls) hr hread hsame f opt).symm⟩

theorem flatMap_sparse {α β : Type} (l l' : List α) (hp : l.Perm l') (g : α → List β) (h : (l.filter fun x => !(g x).isEmpty).length ≤ 1) : l.flatMap g = l'.flatMap g := by
  have key : ∀ l : List α, l.flatMap g = (l.filter fun x => !(g x).isEmpty).flatMap g := by
    intro l
    induction l with
    | nil => rfl
    | cons a l ih =>
      by_cases ha : (g a).isEmpty = true
      · rw [List.filter_cons_of_neg (by simp [ha]), List.flatMap_cons, List.isEmpty_iff.1 ha, List.nil_append, ih]
      · rw [List.filter_cons_of_pos (by simp [ha]), List.flatMap_cons, List.flatMap_cons, ih]
  rw [key l, key l']
  have hq := hp.filter fun x => !(g x).isEmpty
  generalize (l.filter fun x => !(g x).isEmpty) = k at hq h
  generalize (l'.filter fun x => !(g x).isEmpty) = k' at hq
  match k with
  | [] => rw [List.nil_perm.1 hq]
  | [a] => rw [List.singleton_perm.1 hq]
  | _ :: _ :: _ => simp at h

/-- **C78 (order of tracks).** The order of the tracks does not matter as long as no two tracks have messages of the same kind for a channel at the same instant (tempo counts for the first channel). -/
theorem C78_track_order (ord : EnumOrder) (base : Nat) (ts ts' : List (List Message)) (hp : ts.Perm ts') (hw : Whole ts) (ht : ∀ m ∈ fileMessages ts, m.2 < 2 ^ 32)
    (h1 : TracksApart ts) (f : F32) (opt : Bool) :
    (readMidi ord (fileOf base ts) >>= fun h => songFromMidi h f opt) = readMidi ord (fileOf base ts') >>= fun h => songFromMidi h f opt := by
  have hw' : Whole ts' := fun t h => hw t (hp.mem_iff.2 h)
  have hpm : (fileMessages ts).Perm (fileMessages ts') := hp.flatMap_right _
  refine C78_song ord _ _ (readable_fileOf _ _ hw ht) (readable_fileOf _ _ hw' fun m hm => ht m (hpm.mem_iff.2 hm)) ⟨by rw [timeBase_fileOf, timeBase_fileOf], ?_, ?_⟩ f opt
  · rw [file_fileOf _ _ hw, file_fileOf _ _ hw']
    apply le_antisymm
    · exact lastEvent_le fun m hm hs => ⟨m, hpm.mem_iff.1 hm, hs, rfl⟩
    · exact lastEvent_le fun m hm hs => ⟨m, hpm.mem_iff.2 hm, hs, rfl⟩
  · intro c t r
    rw [file_fileOf _ _ hw, file_fileOf _ _ hw']
    have e : ∀ us : List (List Message), musicOf ((ofChannel (fileMessages us) c).filter fun m => m.2 = t ∧ rank m.1 = r) =
        us.flatMap fun u => musicOf ((ofChannel (stamp 0 u) c).filter fun m => m.2 = t ∧ rank m.1 = r) := by
      intro us
      unfold fileMessages ofChannel
      rw [List.filter_flatMap, List.filter_flatMap]
      unfold musicOf
      rw [List.filterMap_flatMap]
    rw [e, e]
    apply flatMap_sparse _ _ hp
    refine le_trans (List.Sublist.length_le (List.monotone_filter_right ts ?_)) (h1 c t r)
    intro u hu
    rw [Bool.not_eq_true', ← Bool.not_eq_true, List.isEmpty_iff] at hu
    obtain ⟨e, he⟩ := List.exists_mem_of_ne_nil _ hu
    obtain ⟨m, hm, hme⟩ := List.mem_filterMap.1 he
    obtain ⟨hm, hp⟩ := List.mem_filter.1 hm
    obtain ⟨hm, hc⟩ := List.mem_filter.1 hm
    unfold hasAt
    rw [List.any_eq_true]
    refine ⟨m, hm, ?_⟩
    cases hx : music m.1 with
    | none => simp [hx] at hme
    | some x => simp only [decide_eq_true_eq] at hp hc; simp [hc, hp]

/-! ## C79: messages without use -/

/-- The messages of a file without those that `keep` rejects. -/
theorem without_redelta (keep : Message → Bool) (calls : List Callback) :
    Redelta ((file calls).filter fun m => keep m.1) (file (fileWithout keep calls)) ∧ (Readable calls → Readable (fileWithout keep calls)) := by
  have hw := (split_whole calls).2
  have hrd : ∀ u ∈ (split calls).2, Redelta ((stamp 0 u).filter fun m => keep m.1) (stamp 0 (without keep u)) := by
    intro u hu
    refine stamp_retime _ 0 ((stamp_sorted u 0).filter _) (fun _ _ => Nat.zero_le _) ?_
    intro m hm h
    have := (stamp_mem u 0 m (List.mem_of_mem_filter hm)).1
    rw [h] at this
    exact hw u hu this
  have hw' : Whole ((split calls).2.map (without keep)) := by
    intro t ht
    obtain ⟨u, hu, rfl⟩ := List.mem_map.1 ht
    refine retime_whole _ 0 ?_
    intro m hm h
    have := (stamp_mem u 0 m (List.mem_of_mem_filter hm)).1
    rw [h] at this
    exact hw u hu this
  have hfile : file (fileWithout keep calls) = (split calls).2.flatMap fun u => stamp 0 (without keep u) := by
    unfold fileWithout
    rw [file_fileOf _ _ hw', fileMessages, List.flatMap_map]
  have hall : Redelta ((file calls).filter fun m => keep m.1) (file (fileWithout keep calls)) := by
    rw [hfile]
    unfold file fileMessages
    rw [List.filter_flatMap]
    revert hrd
    generalize (split calls).2 = us
    intro hrd
    induction us with
    | nil => exact .nil
    | cons u us ih =>
      rw [List.flatMap_cons, List.flatMap_cons]
      exact redelta_append (hrd u (by simp)) (ih fun v hv => hrd v (List.mem_cons_of_mem _ hv))
  refine ⟨hall, ?_⟩
  intro hr
  obtain ⟨m1, m2⟩ := redelta_mem hall
  apply readable_fileOf _ _ hw'
  rw [show fileMessages ((split calls).2.map (without keep)) = file (fileWithout keep calls) from (file_fileOf _ _ hw').symm]
  intro m' hm'
  obtain ⟨m, h1, h2, -⟩ := m2 m' hm'
  rw [h2]
  exact hr.times m (List.mem_of_mem_filter h1)

/-- A readable file without some messages that do not matter is readable and, if its last channel message is not earlier, has the same music. -/
theorem without_same (keep : Message → Bool) (calls : List Callback) (hr : Readable calls) (hk : ∀ m ∈ file calls, (music m.1).isSome → keep m.1 = true)
    (hl : ∀ m ∈ file calls, isSystem m.1 = false → ∃ m' ∈ file calls, isSystem m'.1 = false ∧ keep m'.1 = true ∧ m.2 ≤ m'.2) :
    Readable (fileWithout keep calls) ∧ SameMusic calls (fileWithout keep calls) := by
  obtain ⟨hall, hread⟩ := without_redelta keep calls
  obtain ⟨m1, m2⟩ := redelta_mem hall
  refine ⟨hread hr, (timeBase_fileOf _ _).symm, ?_, ?_⟩
  · apply le_antisymm
    · unfold lastEvent
      rw [foldr_max_le]
      intro t ht
      obtain ⟨m, hm, rfl⟩ := List.mem_map.1 ht
      obtain ⟨hm, hq⟩ := List.mem_filter.1 hm
      obtain ⟨x, h1, h2, h3, h4⟩ := hl m hm (by simpa using hq)
      obtain ⟨y, y1, y2, d, y3⟩ := m1 x (List.mem_filter.2 ⟨h1, h3⟩)
      refine le_trans h4 ?_
      rw [← y2]
      exact (foldr_max_le _ _).1 (le_refl _) y.2 (List.mem_map.2 ⟨y, List.mem_filter.2 ⟨y1, by rw [y3, isSystem_withDelta]; simp [h2]⟩, rfl⟩)
    · apply lastEvent_le
      intro m' hm' hs
      obtain ⟨m, h1, h2, d, h3⟩ := m2 m' hm'
      exact ⟨m, List.mem_of_mem_filter h1, by rw [h3, isSystem_withDelta] at hs; exact hs, h2.symm⟩
  · intro c t r
    have hm : ∀ l : List TMsg, (∀ m ∈ l, m ∈ file calls) → musicOf l = musicOf (l.filter fun m => keep m.1) := by
      intro l hl
      induction l with
      | nil => rfl
      | cons m l ih =>
        have ih := ih fun x hx => hl x (List.mem_cons_of_mem _ hx)
        by_cases hq : keep m.1 = true
        · rw [List.filter_cons_of_pos (p := fun m : TMsg => keep m.1) hq, musicOf_cons, musicOf_cons, ih]
        · rw [List.filter_cons_of_neg (p := fun m : TMsg => keep m.1) hq, musicOf_cons, ← ih]
          have : music m.1 = none := by
            cases hx : music m.1 with
            | none => rfl
            | some x => exact absurd (hk m (hl m (by simp)) (by simp [hx])) hq
          simp [musicAt, this]
    rw [hm ((ofChannel (file calls) c).filter fun m => m.2 = t ∧ rank m.1 = r) fun m hm => List.mem_of_mem_filter (List.mem_of_mem_filter hm)]
    unfold ofChannel
    rw [List.filter_filter, List.filter_filter, List.filter_filter]
    rw [show (file calls).filter (fun m => keep m.1 && decide (m.2 = t ∧ rank m.1 = r) && decide (home m.1 = some c)) =
        ((file calls).filter fun m => keep m.1).filter (fun m => decide (m.2 = t ∧ rank m.1 = r) && decide (home m.1 = some c)) by
      rw [List.filter_filter]; apply List.filter_congr; intro m _; rw [Bool.and_assoc, Bool.and_comm]]
    refine redelta_musicOf (redelta_filter hall _ ?_)
    intro m d
    simp only [rank_withDelta, home_withDelta]

/-- **C79.** Removing messages that do not matter, so that the last channel message is not among them (or another one remains that is not earlier), does not change the song. -/
theorem C79_ignored (ord : EnumOrder) (keep : Message → Bool) (calls : List Callback) (hr : Readable calls) (hk : ∀ m ∈ file calls, (music m.1).isSome → keep m.1 = true)
    (hl : ∀ m ∈ file calls, isSystem m.1 = false → ∃ m' ∈ file calls, isSystem m'.1 = false ∧ keep m'.1 = true ∧ m.2 ≤ m'.2) (f : F32) (opt : Bool) :
    (readMidi ord (fileWithout keep calls) >>= fun h => songFromMidi h f opt) = readMidi ord calls >>= fun h => songFromMidi h f opt := by
  obtain ⟨h1, h2⟩ := without_same keep calls hr hk hl
  exact (C78_song ord calls _ hr h1 h2 f opt).symm

/-- **C79 (system messages).** Text, lyrics, key and time signatures, system exclusive messages — all system messages but tempo — can be removed. -/
theorem C79_system (ord : EnumOrder) (calls : List Callback) (hr : Readable calls) (f : F32) (opt : Bool) :
    (readMidi ord (fileWithout (fun m => !isSystem m || (music m).isSome) calls) >>= fun h => songFromMidi h f opt) = readMidi ord calls >>= fun h => songFromMidi h f opt := by
  apply C79_ignored ord _ calls hr
  · intro m _ h; simp [h]
  · intro m hm hs; exact ⟨m, hm, hs, by simp [hs], le_refl _⟩

theorem sameMusic_check (a b : List Callback) (h1 : timeBase a = timeBase b) (h2 : lastEvent (file a) = lastEvent (file b))
    (h3 : ∀ c, ∀ t ∈ (file a ++ file b).map (·.2), ∀ r < 3, musicOf ((ofChannel (file a) c).filter fun m => m.2 = t ∧ rank m.1 = r) = musicOf ((ofChannel (file b) c).filter fun m => m.2 = t ∧ rank m.1 = r)) :
    SameMusic a b := by
  refine ⟨h1, h2, fun c t r => ?_⟩
  by_cases ht : t ∈ (file a ++ file b).map (·.2) ∧ r < 3
  · exact h3 c t ht.1 r ht.2
  · have key : ∀ x, (x = a ∨ x = b) → (ofChannel (file x) c).filter (fun m => m.2 = t ∧ rank m.1 = r) = [] := by
      intro x hx
      rw [List.filter_eq_nil_iff]
      intro m hm
      have hm := List.mem_of_mem_filter hm
      simp only [decide_eq_true_eq]
      rintro ⟨e1, e2⟩
      apply ht
      constructor
      · rw [List.mem_map]
        exact ⟨m, by rcases hx with rfl | rfl <;> simp [hm], e1⟩
      · rw [← e2]
        unfold rank
        split <;> [skip; split] <;> omega
    rw [key a (Or.inl rfl), key b (Or.inr rfl)]

/-! ## Concrete files -/

/-- A tune in one track: two channels, a text, an unused controller. -/
def oneTrack : List Callback := [.header 1 48, .trackChange, .metaEvent 0 .setTempo [7, 161, 32], .metaEvent 0 (.other 1) [65], .midiEvent 0 (.noteOn 0 60 100),
  .midiEvent 0 (.noteOn 1 48 90), .midiEvent 24 (.controlChange 1 10 64), .midiEvent 24 (.noteOff 1 48 64), .midiEvent 0 (.noteOff 0 60 1)]

/-- The same tune with a track for the tempo and one for each channel, in another order, with other note-off velocities and without the text. -/
def manyTracks : List Callback := fileOf 48 [[.metaEvent 0 .setTempo [7, 161, 32, 9]], [.midiEvent 0 (.noteOn 1 48 90), .midiEvent 48 (.noteOff 1 48 0)],
  [.midiEvent 0 (.noteOn 0 60 100), .midiEvent 48 (.noteOff 0 60 0)]]

theorem oneTrack_readable : Readable oneTrack := by
  refine ⟨?_, by decide +kernel, by decide +kernel⟩
  intro f tb h
  simp [oneTrack] at h
  exact h.1

/-- The two are an instance of `C78_song`. -/
theorem oneTrack_same : Readable manyTracks ∧ SameMusic oneTrack manyTracks := by
  constructor
  · apply readable_fileOf
    · unfold Whole; decide
    · decide +kernel
  · exact sameMusic_check _ _ (by decide) (by decide) (by decide +kernel)
example : (perChannel oneTrack).length = 24 := by decide +kernel

/-- The tune converts. -/
example : ((readMidi id manyTracks >>= fun h => songFromMidi h (.fin (1 / 5)) false).toOption.map (·.tracks.length)) = some 2 := by decide +kernel

theorem apart_check (ts : List (List Message)) (h : ∀ c, ∀ t ∈ (fileMessages ts).map (·.2), ∀ r < 3, (ts.filter (hasAt c t r)).length ≤ 1) : TracksApart ts := by
  intro c t r
  by_cases ht : t ∈ (fileMessages ts).map (·.2) ∧ r < 3
  · exact h c t ht.1 r ht.2
  · rw [List.filter_eq_nil_iff.2]
    · simp
    · intro u hu hx
      obtain ⟨m, hm, hq⟩ := List.any_eq_true.1 hx
      simp only [Bool.and_eq_true, decide_eq_true_eq] at hq
      apply ht
      constructor
      · exact List.mem_map.2 ⟨m, List.mem_flatMap.2 ⟨u, hu, hm⟩, hq.1.1.2⟩
      · rw [← hq.1.2]
        unfold rank
        split <;> [skip; split] <;> omega

/-- Its tracks do not compete: they may come in any order. -/
example : TracksApart [[.metaEvent 0 .setTempo [7, 161, 32, 9]], [.midiEvent 0 (.noteOn 1 48 90), .midiEvent 48 (.noteOff 1 48 0)],
    [.midiEvent 0 (.noteOn 0 60 100), .midiEvent 48 (.noteOff 0 60 0)]] := apart_check _ (by decide +kernel)

/-- The unused controller and the text in the tune can go: the hypotheses of `C79_ignored`. -/
example : (∀ m ∈ file oneTrack, (music m.1).isSome → (fun m => (music m).isSome) m.1 = true) ∧
    (∀ m ∈ file oneTrack, isSystem m.1 = false → ∃ m' ∈ file oneTrack, isSystem m'.1 = false ∧ (music m'.1).isSome = true ∧ m.2 ≤ m'.2) ∧
    (file (fileWithout (fun m => (music m).isSome) oneTrack)).length + 2 = (file oneTrack).length := by
  refine ⟨by decide +kernel, by decide +kernel, by decide +kernel⟩

def volumeTracks : List (List Message) :=
  [[.midiEvent 0 (.controlChange 0 7 20), .midiEvent 0 (.noteOn 0 60 100), .midiEvent 48 (.noteOff 0 60 0)], [.midiEvent 0 (.controlChange 0 7 90)]]

/-- **C78 (why the channels must be apart).** Two tracks that set the volume of the same channel at the same instant: their order decides which volume sounds. -/
theorem C78_track_order_false : Whole volumeTracks ∧ (∀ m ∈ fileMessages volumeTracks, m.2 < 2 ^ 32) ∧
    (readMidi id (fileOf 48 volumeTracks) >>= fun h => songFromMidi h (.fin (1 / 5)) false) ≠
      readMidi id (fileOf 48 volumeTracks.reverse) >>= fun h => songFromMidi h (.fin (1 / 5)) false := by
  refine ⟨by unfold Whole; decide, by decide +kernel, ?_⟩
  have h1 : (readMidi id (fileOf 48 volumeTracks) >>= fun h => songFromMidi h (.fin (1 / 5)) false).toOption =
    some ⟨[[0]], [[⟨none, none, none, .channelVolume 40⟩, ⟨none, none, none, .channelVolume 180⟩, ⟨some 24, some 12, some 7, .note 164⟩]]⟩ := by decide +kernel
  have h2 : (readMidi id (fileOf 48 volumeTracks.reverse) >>= fun h => songFromMidi h (.fin (1 / 5)) false).toOption =
    some ⟨[[0]], [[⟨none, none, none, .channelVolume 180⟩, ⟨none, none, none, .channelVolume 40⟩, ⟨some 24, some 12, some 7, .note 164⟩]]⟩ := by decide +kernel
  intro h
  rw [h, h2] at h1
  exact absurd h1 (by decide)

def lateController : List Callback := fileOf 48 [[.midiEvent 0 (.noteOn 0 60 100), .midiEvent 48 (.noteOff 0 60 0), .midiEvent 48 (.controlChange 0 10 64)]]

/-- **C79 (why the last message must stay).** A controller the converter has no use for, one beat after the last note: without it the song is one beat shorter. -/
theorem C79_last_false : Readable lateController ∧
    (readMidi id (fileWithout (fun m => (music m).isSome) lateController) >>= fun h => songFromMidi h (.fin (1 / 5)) false) ≠
      readMidi id lateController >>= fun h => songFromMidi h (.fin (1 / 5)) false := by
  refine ⟨readable_fileOf _ _ (by unfold Whole; decide) (by decide +kernel), ?_⟩
  have h1 : (readMidi id (fileWithout (fun m => (music m).isSome) lateController) >>= fun h => songFromMidi h (.fin (1 / 5)) false).toOption =
    some ⟨[[0]], [[⟨some 24, some 12, some 7, .note 164⟩]]⟩ := by decide +kernel
  have h2 : (readMidi id lateController >>= fun h => songFromMidi h (.fin (1 / 5)) false).toOption = some ⟨[[0]], [[⟨some 48, some 12, some 4, .note 164⟩]]⟩ := by decide +kernel
  intro h
  rw [h, h2] at h1
  exact absurd h1 (by decide)

end M2S
