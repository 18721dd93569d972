import Verif.Release
import Verif.Proofs.Verbose
import Verif.Proofs.Routing
import Verif.Proofs.Counts
/-
The build without overflow checks against the build with them.
-/
namespace M2S

/-- A computation of the checked build against one of the unchecked build that has nothing left to fail. -/
theorem OrPanic.bindTo {α β : Type} {a : Res α} {x : α} {f : α → Res β} {b : Res β} (h : OrPanic a (.ok x)) (hf : OrPanic (f x) b) : OrPanic (a >>= f) b := by
  have := OrPanic.bind (g := fun _ => b) h (fun y hy => by cases hy; exact hf)
  exact this

theorem OrPanic.trans {α : Type} {a b c : Res α} (h : OrPanic a b) (g : OrPanic b c) : OrPanic a c := by
  rcases h with rfl | h
  · exact g
  · exact .inr h

theorem foldl_orPanic {α β : Type} {f : β → α → Res β} {g : β → α → β} (h : ∀ b a, OrPanic (f b a) (.ok (g b a))) :
    ∀ (l : List α) (b : β), OrPanic (l.foldlM f b) (.ok (l.foldl g b))
  | [], b => .inl rfl
  | a :: l, b => by
    rw [List.foldlM_cons, List.foldl_cons]
    exact (h b a).bindTo (foldl_orPanic h l _)

theorem mapM_orPanic {α β : Type} {f g : α → Res β} (h : ∀ a, OrPanic (f a) (g a)) : ∀ (l : List α), OrPanic (l.mapM f) (l.mapM g)
  | [] => .inl rfl
  | a :: l => by
    rw [List.mapM_cons, List.mapM_cons]
    exact OrPanic.bind (h a) fun x _ => OrPanic.bind (mapM_orPanic h l) fun _ _ => .inl rfl

theorem map_orPanic {α β : Type} {f : α → Res β} {g : α → β} (h : ∀ a, OrPanic (f a) (.ok (g a))) : ∀ (l : List α), OrPanic (l.mapM f) (.ok (l.map g))
  | [] => .inl rfl
  | a :: l => by
    rw [List.mapM_cons, List.map_cons]
    exact (h a).bindTo ((map_orPanic h l).bindTo (.inl rfl))

theorem addU32_release (a b : Nat) : OrPanic (addU32 a b) (.ok (Release.addU32 a b)) := by
  unfold addU32 Release.addU32
  split
  · rename_i h; exact .inl (by rw [Nat.mod_eq_of_lt h])
  · exact .inr rfl

theorem mulU32_release (a b : Nat) : OrPanic (mulU32 a b) (.ok (Release.mulU32 a b)) := by
  unfold mulU32 Release.mulU32
  split
  · rename_i h; exact .inl (by rw [Nat.mod_eq_of_lt h])
  · exact .inr rfl

theorem subU_release32 (a b : Nat) : OrPanic (subU a b) (.ok (Release.subU32 a b)) := by
  unfold subU Release.subU32
  split
  · exact .inl rfl
  · exact .inr rfl

theorem subU_release (a b : Nat) : OrPanic (subU a b) (.ok (Release.subUsize a b)) := by
  unfold subU Release.subUsize
  split
  · exact .inl rfl
  · exact .inr rfl

theorem addU8_release (a b : UInt8) : OrPanic (addU8 a b) (.ok (a + b)) := by
  unfold addU8
  split
  · exact .inl rfl
  · exact .inr rfl

theorem mulU8_release (a b : UInt8) : OrPanic (mulU8 a b) (.ok (a * b)) := by
  unfold mulU8
  split
  · exact .inl rfl
  · exact .inr rfl

/-! ### Tracks -/

theorem getDuration_release (t p : Nat) (c : Bool) : OrPanic (getDuration t p c) (.ok (Release.getDuration t p c)) :=
  (mulU32_release _ _).bindTo (.inl rfl)

theorem insertRest_release (l : List PCmd) (e t p : Nat) : OrPanic (insertRest l e t p) (.ok (Release.insertRest l e t p)) := by
  unfold insertRest Release.insertRest
  split
  · exact (getDuration_release _ _ _).bindTo ((addU32_release _ _).bindTo (.inl rfl))
  · exact .inl rfl

theorem trackNoteOff_release (p : Nat) (st : TrackState) (n : UInt8) (t : Nat) : OrPanic (trackNoteOff p st n t) (.ok (Release.trackNoteOff p st n t)) := by
  unfold trackNoteOff Release.trackNoteOff
  cases st.noteStart with
  | none => exact .inl rfl
  | some start =>
    refine (subU_release32 _ _).bindTo ((getDuration_release _ _ _).bindTo ?_)
    by_cases h : (st.commands.getLast?).any PCmd.isSlide = true
    · simp only [h, if_true]
      exact (addU32_release _ _).bindTo (.inl rfl)
    · simp only [h]
      exact (addU8_release _ _).bindTo ((addU32_release _ _).bindTo (.inl rfl))

theorem trackNoteOn_release (p : Nat) (st : TrackState) (n v : UInt8) (t : Nat) : OrPanic (trackNoteOn p st n v t) (Release.trackNoteOn p st n v t) := by
  unfold trackNoteOn Release.trackNoteOn
  refine (insertRest_release _ _ _ _).bindTo ?_
  cases h : (Release.insertRest st.commands st.lastNoteEnd t p).1.getLast? with
  | none =>
    simp only [h]
    exact .inl rfl
  | some last =>
    simp only [h]
    by_cases h' : st.portamento = true
    · simp only [h', if_true]
      exact (getDuration_release _ _ _).bindTo ((addU8_release _ _).bindTo (.inl rfl))
    · simp only [h']
      exact .inl rfl

theorem trackControl_release (st : TrackState) (c d : UInt8) : OrPanic (trackControl st c d) (.ok (Release.trackControl st c d)) := by
  unfold trackControl Release.trackControl
  split
  · exact .inl rfl
  · split
    · exact (mulU8_release _ _).bindTo (.inl rfl)
    · split
      · exact .inl rfl
      · split <;> exact .inl rfl

theorem trackProgram_release (p : Nat) (st : TrackState) (c : Fin 16) (g : UInt8) (t : Nat) : OrPanic (trackProgram p st c g t) (Release.trackProgram p st c g t) := by
  unfold trackProgram Release.trackProgram
  exact (insertRest_release _ _ _ _).bindTo (.inl rfl)

theorem trackStep_release (p : Nat) (f : F32) (st : TrackState) (ev : Message × Nat) : OrPanic (trackStep p f st ev) (Release.trackStep p f st ev) := by
  obtain ⟨m, t⟩ := ev
  cases m with
  | metaEvent d e data => cases e <;> exact .inl rfl
  | sysEx d data => exact .inl rfl
  | trackChange => exact .inl rfl
  | midiEvent d e =>
    cases e with
    | noteOff c n v => exact trackNoteOff_release _ _ _ _
    | noteOn c n v => exact trackNoteOn_release _ _ _ _ _
    | controlChange c n v => exact trackControl_release _ _ _
    | programChange c n => exact trackProgram_release _ _ _ _ _
    | _ => exact .inl rfl

theorem trackNew_release (events : List (Message × Nat)) (p m : Nat) (f : F32) : OrPanic (trackNew events p m f) (Release.trackNew events p m f) := by
  unfold trackNew Release.trackNew
  refine OrPanic.bind (OrPanic.foldlM (trackStep_release p f) _ _) fun st _ => ?_
  split
  · exact .inl rfl
  · split
    · exact (insertRest_release _ _ _ _).bindTo (.inl rfl)
    · exact .inl rfl

/-! ### The tree of sequences -/

theorem addLocation_release (t c n : Nat) : ∀ (ls : List Location), OrPanic (addLocation ls t c n) (.ok (Release.addLocation ls t c n))
  | [] => .inl rfl
  | l :: ls => by
    unfold addLocation Release.addLocation
    split
    · exact (addU8_release _ _).bindTo (.inl rfl)
    · exact (addLocation_release t c n ls).bindTo (.inl rfl)

theorem readdLocations_release (old : List Location) (n : Nat) (acc : List Location) :
    OrPanic (readdLocations old n acc) (.ok (old.foldl (fun acc l => Release.addLocation acc l.trackIdx l.cmdIdx n) acc)) :=
  foldl_orPanic (fun b _ => addLocation_release _ _ _ b) _ _

theorem addCommands_release : ∀ (k : Nat) (tree : SeqTree) (cmds : List PCmd) (t s n : Nat), cmds.length ≤ k →
    OrPanic (addCommands tree cmds t s n) (.ok (Release.addCommands tree cmds t s n)) := by
  intro k
  induction k with
  | zero =>
    intro tree cmds t s n h
    obtain rfl := List.length_eq_zero_iff.mp (Nat.le_zero.mp h)
    rw [addCommands_unfold, Release.addCommands.eq_def]
    refine OrPanic.bindTo (x := if n > 0 then Release.addLocation tree.locations t s n else tree.locations) ?_ (.inl rfl)
    split
    · exact addLocation_release _ _ _ _
    · exact .inl rfl
  | succ k ih =>
    intro tree cmds t s n h
    rw [addCommands_unfold, Release.addCommands.eq_def]
    refine OrPanic.bindTo (x := if n > 0 then Release.addLocation tree.locations t s n else tree.locations) ?_ ?_
    · split
      · exact addLocation_release _ _ _ _
      · exact .inl rfl
    · cases cmds with
      | nil => exact .inl rfl
      | cons c cs =>
        simp only
        cases hf : findEdge c tree.edges with
        | none => exact .inl rfl
        | some i =>
          simp only
          cases he : tree.edges[i]? with
          | none => exact .inl rfl
          | some e =>
            obtain ⟨ecmds, target⟩ := e
            simp only
            by_cases h1 : prefixLen (c :: cs) ecmds ≠ 0 ∧ c.canBeFirst = true
            · rw [if_pos h1, if_pos h1]
              have hk : ((c :: cs).drop (prefixLen (c :: cs) ecmds)).length ≤ k := by
                rw [List.length_drop, List.length_cons]
                rw [List.length_cons] at h
                omega
              by_cases h2 : prefixLen (c :: cs) ecmds = ecmds.length
              · rw [if_pos h2, if_pos h2]
                refine (addLocation_release _ _ _ _).bindTo ?_
                by_cases h3 : prefixLen (c :: cs) ecmds < (c :: cs).length
                · rw [if_pos h3, if_pos h3]
                  exact (ih _ _ _ _ _ hk).bindTo (.inl rfl)
                · rw [if_neg h3, if_neg h3]
                  exact .inl rfl
              · rw [if_neg h2, if_neg h2]
                exact (readdLocations_release _ _ _).bindTo ((ih _ _ _ _ _ hk).bindTo (.inl rfl))
            · rw [if_neg h1, if_neg h1]
              exact .inl rfl

theorem addTrack_release (tree : SeqTree) (track : List PCmd) (i : Nat) : OrPanic (addTrack tree track i) (.ok (Release.addTrack tree track i)) :=
  foldl_orPanic (fun _ _ => addCommands_release _ _ _ _ _ _ le_rfl) _ _

theorem consolidate_go_release (n : Nat) : ∀ (ls : List Location) (cur : Location), OrPanic (consolidate.go n cur ls) (.ok (Release.consolidate.go n cur ls))
  | [], cur => .inl rfl
  | l :: ls, cur => by
    unfold consolidate.go Release.consolidate.go
    split
    · exact consolidate_go_release n ls cur
    · split
      · exact (addU8_release _ _).bindTo (consolidate_go_release n ls _)
      · exact (consolidate_go_release n ls l).bindTo (.inl rfl)

theorem consolidate_release (ls : List Location) (n : Nat) : OrPanic (consolidate ls n) (.ok (Release.consolidate ls n)) := by
  cases ls with
  | nil => exact .inl rfl
  | cons l ls => exact consolidate_go_release n ls l

theorem sequences_release (t : SeqTree) : OrPanic t.sequences (.ok (Release.sequences t)) :=
  map_orPanic (g := fun p : List PCmd × List Location => (⟨p.1, Release.consolidate p.2 p.1.length⟩ : Sequence))
    (fun p => (consolidate_release p.2 p.1.length).bindTo (.inl rfl)) _

theorem worthwhile_release (s : Sequence) : OrPanic s.worthwhile (.ok (Release.worthwhile s)) := by
  unfold Sequence.worthwhile Release.worthwhile
  by_cases h : s.commands.length > 3
  · simp only [h, if_true, true_and]
    exact (foldl_orPanic (fun _ _ => addU8_release _ _) _ _).bindTo (.inl rfl)
  · simp only [h, if_false, false_and]
    exact .inl rfl

theorem score_release (s : Sequence) : OrPanic s.score (.ok (Release.score s)) := subU_release _ _

theorem bestOf_release (seqs : List Sequence) : OrPanic (bestOf seqs) (.ok (Release.bestOf seqs)) := by
  refine foldl_orPanic (fun best s => ?_) _ _
  refine (worthwhile_release s).bindTo ?_
  by_cases h : Release.worthwhile s = true
  · simp only [h, if_true]
    refine (score_release s).bindTo ?_
    cases best with
    | none => exact .inl rfl
    | some b =>
      obtain ⟨b, t⟩ := b
      exact .inl rfl
  · simp only [h]
    exact .inl rfl

theorem bestSequence_release (t : SeqTree) : OrPanic (bestSequence t) (.ok (Release.bestSequence t)) :=
  (sequences_release t).bindTo ((bestOf_release _).bindTo (.inl rfl))

theorem buildTree_release (tracks : List (List PCmd)) (top : Nat) : OrPanic (buildTree tracks top) (.ok (Release.buildTree tracks top)) :=
  foldl_orPanic (fun _ _ => addTrack_release _ _ _) _ _

theorem optimizeFuel_release (fuel : Nat) : ∀ (tracks : List (List PCmd)) (top : Nat), OrPanic (optimizeFuel fuel tracks top) (Release.optimizeFuel fuel tracks top) := by
  induction fuel with
  | zero => intro _ _; exact .inl rfl
  | succ fuel ih =>
    intro tracks top
    rw [optimizeFuel, Release.optimizeFuel]
    refine (buildTree_release tracks top).bindTo ((bestSequence_release _).bindTo ?_)
    cases Release.bestSequence (Release.buildTree tracks top) with
    | none => exact .inl rfl
    | some seq => exact OrPanic.bind (.inl rfl) fun _ _ => ih _ _

theorem voiceTracks_release (h : MidiHandler) (f : F32) : OrPanic (voiceTracks h f) (Release.voiceTracks h f) :=
  OrPanic.bind (mapM_orPanic (fun _ => trackNew_release _ _ _ _) _) fun _ _ => .inl rfl

theorem songFromMidi_release (h : MidiHandler) (f : F32) (opt : Bool) : OrPanic (songFromMidi h f opt) (Release.songFromMidi h f opt) := by
  unfold songFromMidi Release.songFromMidi
  refine OrPanic.bind (voiceTracks_release h f) fun tracks _ => ?_
  split
  · exact OrPanic.bind (optimizeFuel_release _ _ _) fun _ _ => .inl rfl
  · exact .inl rfl

/-! ### Reading -/

theorem routeMessage_release (st : ChanMsgs × Nat) (m : Message) : OrPanic (routeMessage st m) (.ok (Release.routeMessage st m)) := by
  cases m with
  | trackChange => exact .inl rfl
  | _ => exact (addU32_release _ _).bindTo (.inl rfl)

theorem tracksToChannels_release (tracks : List (List Message)) (cs : ChanMsgs) : OrPanic (tracksToChannels tracks cs) (.ok (Release.tracksToChannels tracks cs)) := by
  refine OrPanic.bindTo (foldl_orPanic (fun b a => ?_) _ _) (.inl rfl)
  exact (foldl_orPanic routeMessage_release _ _).bindTo (.inl rfl)

theorem scanMessage_release (i : Fin 16) (st : ScanState) (m : TMsg) (h : st.active + 1 < 2 ^ 64) :
    OrPanic (scanMessage i st m) (.ok (Release.scanMessage i st m)) := by
  obtain ⟨m, t⟩ := m
  cases m with
  | midiEvent d e =>
    cases e with
    | noteOff c n v => exact (subU_release _ _).bindTo (.inl rfl)
    | noteOn c n v =>
      unfold scanMessage Release.scanMessage
      by_cases hv : v = 0
      · simp only [hv, if_true]
        exact (subU_release _ _).bindTo (.inl rfl)
      · simp only [hv, if_false]
        refine .inl ?_
        simp only [Release.addUsize, Nat.mod_eq_of_lt h]
        rfl
    | _ => exact .inl rfl
  | _ => exact .inl rfl

theorem scanMessage_active {i : Fin 16} {st st' : ScanState} {m : TMsg} (h : scanMessage i st m = .ok st') : st'.active ≤ st.active + 1 := by
  obtain ⟨m, t⟩ := m
  cases m with
  | midiEvent d e =>
    cases e with
    | noteOff c n v =>
      simp only [scanMessage, res_bind, res_pure, subU_ok] at h
      obtain ⟨_, ⟨_, rfl⟩, _, rfl, rfl⟩ := h
      simp only
      omega
    | noteOn c n v =>
      unfold scanMessage at h
      by_cases hv : v = 0
      · simp only [hv, if_true, res_bind, res_pure, subU_ok] at h
        obtain ⟨_, ⟨_, rfl⟩, _, rfl, rfl⟩ := h
        simp only
        omega
      · simp only [hv, if_false, res_bind, res_pure] at h
        obtain ⟨_, rfl, _, rfl, rfl⟩ := h
        exact le_rfl
    | _ => simp only [scanMessage, res_bind, res_pure] at h; obtain ⟨_, rfl, rfl⟩ := h; simp
  | _ => simp only [scanMessage, res_ok] at h; subst h; simp

theorem scan_release (i : Fin 16) : ∀ (msgs : List TMsg) (st : ScanState), st.active + msgs.length < 2 ^ 64 →
    OrPanic (msgs.foldlM (scanMessage i) st) (.ok (msgs.foldl (Release.scanMessage i) st))
  | [], _, _ => .inl rfl
  | m :: msgs, st, h => by
    rw [List.length_cons] at h
    rw [List.foldlM_cons, List.foldl_cons]
    have step := scanMessage_release i st m (by omega)
    rcases step with step | step
    · have := scanMessage_active step
      rw [step]
      exact scan_release i msgs _ (by omega)
    · rw [step]
      exact .inr rfl

theorem scanChannels_release (cs : ChanMsgs) (t : Nat) (h : ∀ c, (cs c).length < 2 ^ 64) : OrPanic (scanChannels cs t) (.ok (Release.scanChannels cs t)) := by
  refine foldl_orPanic (fun acc i => ?_) _ _
  exact (scan_release i (cs i) _ (by simpa using h i)).bindTo (.inl rfl)

theorem stamp_length : ∀ (ms : List Message) (t : Nat), (MidiSpec.stamp t ms).length = ms.length
  | [], _ => rfl
  | m :: ms, t => by cases m <;> simp [MidiSpec.stamp, stamp_length ms]

theorem split_length : ∀ (calls : List Callback), (MidiSpec.split calls).1.length + ((MidiSpec.split calls).2.map List.length).sum ≤ calls.length
  | [] => by simp [MidiSpec.split]
  | c :: cs => by
    have := split_length cs
    cases c <;> simp only [MidiSpec.split, List.length_cons, List.map_cons, List.sum_cons, List.length_nil] <;> omega

theorem file_length (calls : List Callback) : (MidiSpec.file calls).length ≤ calls.length := by
  have := split_length calls
  unfold MidiSpec.file MidiSpec.fileMessages
  rw [List.length_flatMap]
  simp only [stamp_length]
  change ((MidiSpec.split calls).2.map List.length).sum ≤ _
  omega

theorem process_release (ord : EnumOrder) (h : MidiHandler)
    (hs : ∀ cs, tracksToChannels h.tracks (fun c => (h.channels c).messages) = .ok cs → ∀ c, (cs c).length < 2 ^ 64) :
    OrPanic (h.process ord) (Release.process ord h) := by
  unfold MidiHandler.process Release.process
  rcases tracksToChannels_release h.tracks (fun c => (h.channels c).messages) with e | e
  · rw [e]
    exact (scanChannels_release _ _ (hs _ e)).bindTo (.inl rfl)
  · rw [e]
    exact .inr rfl

theorem readMidi_release (ord : EnumOrder) (calls : List Callback) (h : calls.length < 2 ^ 64) : OrPanic (readMidi ord calls) (Release.readMidi ord calls) := by
  unfold readMidi Release.readMidi
  refine OrPanic.bind (.inl rfl) fun m hm => process_release ord m fun cs hcs c => ?_
  obtain ⟨i1, -, i3, -, -⟩ := handle_tracks calls {} m hm
  obtain ⟨i1, -⟩ := i1 rfl
  rw [tracksToChannels_ok] at hcs
  obtain ⟨-, rfl⟩ := hcs
  rw [i3, i1]
  have h1 : (toChan (MidiSpec.fileMessages (MidiSpec.split calls).2) c).length ≤ (MidiSpec.file calls).length := List.length_filter_le _ _
  have h2 := file_length calls
  simp only [(sort_perm _).length_eq, List.length_append]
  change 0 + _ < _
  omega

/-! ### The ROM image -/

theorem bankStart_release (rom : Rom) (a : Nat) : OrPanic (bankStart rom a) (Release.bankStart rom a) := by
  unfold bankStart Release.bankStart
  refine (addU32_release _ _).bindTo (OrPanic.bind (.inl rfl) fun b _ => (addU32_release _ _).bindTo (.inl rfl))

theorem findChunks_release (rom : Rom) (a : Nat) : OrPanic (findChunks rom a) (Release.findChunks rom a) :=
  OrPanic.bind (bankStart_release rom a) fun _ _ => .inl rfl

theorem loadSong_release {Path : Type} {conv conv' : Converter Path} (hc : ∀ p f, OrPanic (conv p f) (conv' p f)) (d : SongDef Path) :
    OrPanic (loadSong conv d) (loadSong conv' d) := by
  unfold loadSong
  cases d.input with
  | none => exact .inl rfl
  | some p => exact hc _ _

theorem writeSong_release (w : Walk) (v : Bool) (st : BankState) (song : Song) (l : Bool) : OrPanic (writeSong w v st song l) (writeSong w false st song l) := by
  cases v with
  | false => exact .inl rfl
  | true => exact writeSong_orPanic w st song l

theorem writeBank_release {Path : Type} {conv conv' : Converter Path} (hc : ∀ p f, OrPanic (conv p f) (conv' p f)) (v : Bool) (songs : List (SongDef Path)) (rom : Rom)
    (a f n : Nat) : OrPanic (writeBank conv v songs rom a f n) (Release.writeBank conv' songs rom a f n) := by
  unfold writeBank Release.writeBank
  refine OrPanic.bind (findChunks_release rom a) fun w _ => (subU_release f aramBase).bindTo ?_
  refine OrPanic.bind (OrPanic.foldlM (fun st d => ?_) _ _) fun _ _ => .inl rfl
  exact OrPanic.bind (loadSong_release hc d) fun _ _ => writeSong_release _ _ _ _ _

theorem writeBanks_release {Path : Type} {conv conv' : Converter Path} (hc : ∀ p f, OrPanic (conv p f) (conv' p f)) (v : Bool) :
    ∀ (js : List (List (SongDef Path) × Nat × Nat)) (rom : Rom) (n : Nat), OrPanic (writeBanks conv v js rom n) (Release.writeBanks conv' js rom n)
  | [], _, _ => .inl rfl
  | j :: js, rom, n => by
    rw [writeBanks, Release.writeBanks]
    exact OrPanic.bind (writeBank_release hc v _ _ _ _ _) fun _ _ => writeBanks_release hc v js _ _

theorem fakeBank_release (rom out : Rom) (a : Nat) : OrPanic (fakeBank rom out a) (Release.fakeBank rom out a) := by
  unfold fakeBank Release.fakeBank
  rcases addU32_release a 8 with h8 | h8
  · rcases addU32_release a 4 with h4 | h4
    · have e8 := (addU32_ok.mp h8).2
      have e4 := (addU32_ok.mp h4).2
      rw [e8, e4]
      exact OrPanic.bind (bankStart_release rom a) fun _ _ => .inl rfl
    · rw [addU32_ok] at h8
      unfold addU32 at h4
      rw [if_pos (by omega)] at h4
      cases h4
  · refine .inr ?_
    unfold bankStart
    rw [h8]
    rfl

theorem genFakeRom_release (rom : Rom) (addrs : List Nat) : OrPanic (genFakeRom rom addrs) (Release.genFakeRom rom addrs) :=
  OrPanic.foldlM (fakeBank_release rom) _ _

/-! ### The tool -/

theorem songFromMidiFile_release (x : Ext) (fs : FS) (hx : ∀ path bytes calls, fs path = some bytes → x.parseMidi bytes = some calls → calls.length < 2 ^ 64) (p : String) (f : F32) (opt : Bool) :
    OrPanic (x.songFromMidiFile fs p f opt) (Release.songFromMidiFile x fs p f opt) := by
  unfold Ext.songFromMidiFile Release.songFromMidiFile
  cases hp : fs p with
  | none => exact .inl rfl
  | some bytes =>
    simp only
    cases h : x.parseMidi bytes with
    | none => exact .inl rfl
    | some calls => exact OrPanic.bind (readMidi_release _ _ (hx _ _ _ hp h)) fun _ _ => songFromMidi_release _ _ _

theorem converter_release (x : Ext) (fs : FS) (hx : ∀ path bytes calls, fs path = some bytes → x.parseMidi bytes = some calls → calls.length < 2 ^ 64) (opt : Bool) (p : String) (f : F32) :
    OrPanic (x.converter fs opt p f) (Release.converter x fs opt p f) := by
  unfold Ext.converter Release.converter
  split
  · exact songFromMidiFile_release x fs hx p f opt
  · exact .inl rfl

theorem writeRom_release (x : Ext) (fs : FS) (hx : ∀ path bytes calls, fs path = some bytes → x.parseMidi bytes = some calls → calls.length < 2 ^ 64) (m : Manifest) (rom : String) (addrs : List Nat)
    (opt v : Bool) (h : (x.writeRom fs m rom addrs opt v).1 ≠ .error .panic) : Release.writeRom x fs m rom addrs opt = x.writeRom fs m rom addrs opt v := by
  unfold Ext.writeRom Release.writeRom at *
  cases hr : fs rom with
  | none => rfl
  | some file =>
    simp only [hr] at h ⊢
    unfold romWrite Release.romWrite buildRom at *
    rcases writeBanks_release (converter_release x fs hx opt) v (m.zip (addrs.zip bankFirstSongAddrs)) file 0 with e | e
    · rw [← e]; rfl
    · rw [e] at h
      exact absurd rfl h

theorem run_release (x : Ext) (fs : FS) (hx : ∀ path bytes calls, fs path = some bytes → x.parseMidi bytes = some calls → calls.length < 2 ^ 64) (opt v : Bool) (cmd : Cmd)
    (h : (x.run fs opt v cmd).1 ≠ .error .panic) : Release.run x fs opt cmd = x.run fs opt v cmd := by
  cases cmd with
  | buildRom m r a =>
    unfold Ext.run Release.run at *
    simp only at h ⊢
    cases ha : readBankAddrs a with
    | error e => rfl
    | ok addrs =>
      simp only [ha] at h ⊢
      cases hm : x.loadManifest fs m with
      | error e => rfl
      | ok man =>
        simp only [hm] at h ⊢
        exact writeRom_release x _ hx _ _ _ _ _ h
  | allOverworld i r a =>
    unfold Ext.run Release.run at *
    simp only at h ⊢
    cases ha : readBankAddrs a with
    | error e => rfl
    | ok addrs =>
      simp only [ha] at h ⊢
      exact writeRom_release x _ hx _ _ _ _ _ h
  | fileSelect i r a =>
    unfold Ext.run Release.run at *
    simp only at h ⊢
    cases ha : readBankAddrs a with
    | error e => rfl
    | ok addrs =>
      simp only [ha] at h ⊢
      exact writeRom_release x _ hx _ _ _ _ _ h
  | dumpMidi i =>
    unfold Ext.run Release.run at *
    simp only at h ⊢
    cases hc : (fs i).bind x.parseMidi with
    | none => rfl
    | some calls =>
      simp only [hc] at h ⊢
      obtain ⟨bytes, hp, hb⟩ := Option.bind_eq_some_iff.mp hc
      rcases readMidi_release x.ord calls (hx _ _ _ hp hb) with e | e
      · rw [← e]; rfl
      · rw [e] at h; exact absurd rfl h
  | midi2json i o =>
    unfold Ext.run Release.run at *
    simp only at h ⊢
    rcases songFromMidiFile_release x fs hx i defaultTempoAdjust opt with e | e
    · rw [← e]; rfl
    · rw [e] at h; exact absurd rfl h
  | genFakeRom i o a =>
    unfold Ext.run Release.run at *
    simp only at h ⊢
    cases ha : readBankAddrs a with
    | error e => rfl
    | ok addrs =>
      simp only [ha] at h ⊢
      cases hi : fs i with
      | none => rfl
      | some rom =>
        simp only [hi] at h ⊢
        rcases genFakeRom_release rom addrs with e | e
        · rw [← e]
          unfold genFakeRomFile
          cases genFakeRom rom addrs <;> rfl
        · rw [e] at h; exact absurd rfl h

end M2S
