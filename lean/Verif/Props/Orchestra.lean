import Verif.Proofs.Orchestra
import Verif.Proofs.Fusing
import Verif.Props.Success
import Verif.Props.Lengths
/-
C73: what is needed for the file's instruments, volumes and lengths to be heard, as conditions on the file alone.
-/
namespace M2S
open MidiSpec Timing RomSpec Nspc Engine

/-! ## Settings of the file -/

/-- In a stable sort by time and rank, the last setting up to an instant is the last in the file of the latest ones. -/
theorem last_stable (f : Message → Option (Fin 16 × UInt8)) (hf : ∀ m, (f m).isSome = true → rank m = 1) (ul sl : List TMsg) (hp : sl.Perm ul) (hb : sl.Pairwise Before)
    (hst : ∀ t r, sl.filter (fun m => m.2 = t ∧ rank m.1 = r) = ul.filter (fun m => m.2 = t ∧ rank m.1 = r)) (t : Nat) :
    ((sl.filter fun m => m.2 ≤ t).filterMap fun m => f m.1).getLast? =
      (((ul.filter fun m => (f m.1).isSome ∧ m.2 ≤ t).filter fun m => m.2 = ((ul.filter fun m => (f m.1).isSome ∧ m.2 ≤ t).map (·.2)).foldr max 0).filterMap fun m => f m.1).getLast? := by
  have hA : ((sl.filter fun m => m.2 ≤ t).filterMap fun m => f m.1) = (sl.filter fun m => (f m.1).isSome ∧ m.2 ≤ t).filterMap fun m => f m.1 := by
    clear hp hb hst
    induction sl with
    | nil => rfl
    | cons m sl ih =>
      cases hm : f m.1 <;> by_cases ht : m.2 ≤ t <;> simp_all
  have hperm : (sl.filter fun m => (f m.1).isSome ∧ m.2 ≤ t).Perm (ul.filter fun m => (f m.1).isSome ∧ m.2 ≤ t) := hp.filter _
  have hmax : ((ul.filter fun m => (f m.1).isSome ∧ m.2 ≤ t).map (·.2)).foldr max 0 = ((sl.filter fun m => (f m.1).isSome ∧ m.2 ≤ t).map (·.2)).foldr max 0 :=
    ((hperm.map _).symm).foldr_eq 0
  have hsame : ∀ T, ((ul.filter fun m => (f m.1).isSome ∧ m.2 ≤ t).filter fun m => m.2 = T) = ((sl.filter fun m => (f m.1).isSome ∧ m.2 ≤ t).filter fun m => m.2 = T) := by
    intro T
    have key : ∀ l : List TMsg, ((l.filter fun m => (f m.1).isSome ∧ m.2 ≤ t).filter fun m => m.2 = T) =
        (l.filter fun m => m.2 = T ∧ rank m.1 = 1).filter fun m => (f m.1).isSome ∧ m.2 ≤ t := by
      intro l
      rw [List.filter_filter, List.filter_filter]
      apply List.filter_congr
      intro m _
      by_cases h : (f m.1).isSome = true
      · have := hf _ h
        simp [h, this, Bool.and_comm]
      · simp [h]
    rw [key, key, hst]
  rw [hA, hmax, hsame]
  have hbef : (sl.filter fun m => (f m.1).isSome ∧ m.2 ≤ t).Pairwise fun a b => a.2 ≤ b.2 := by
    refine (hb.filter _).imp ?_
    rintro a b (h | h) <;> omega
  have hsome : ∀ m ∈ (sl.filter fun m => (f m.1).isSome ∧ m.2 ≤ t), (f m.1).isSome = true := by
    intro m hm
    have := (List.mem_filter.1 hm).2
    simp only [Bool.decide_and, Bool.and_eq_true, decide_eq_true_eq] at this
    exact this.1
  generalize (sl.filter fun m => (f m.1).isSome ∧ m.2 ≤ t) = A at *
  clear hperm hmax hsame hA hp hb hst
  rcases List.eq_nil_or_concat A with rfl | ⟨A', a, rfl⟩
  · rfl
  · rw [List.concat_eq_append] at *
    have hT : ((A' ++ [a]).map (·.2)).foldr max 0 = a.2 := by
      have hle : ∀ b ∈ A', b.2 ≤ a.2 := fun b hb => (List.pairwise_append.1 hbef).2.2 b hb a (by simp)
      clear hbef hsome
      induction A' with
      | nil => simp
      | cons b A' ih =>
        simp only [List.cons_append, List.map_cons, List.foldr_cons]
        rw [ih fun x hx => hle x (by simp [hx])]
        exact max_eq_right (hle b (by simp))
    rw [hT]
    obtain ⟨y, hy⟩ := Option.isSome_iff_exists.1 (hsome a (by simp))
    simp [List.filter_append, List.filterMap_append, hy]

theorem programOf_rank (m : Message) (h : (programOf m).isSome = true) : rank m = 1 := by
  unfold programOf at h
  split at h
  · rfl
  · cases h

theorem volumeOf_rank (m : Message) (h : (volumeOf m).isSome = true) : rank m = 1 := by
  unfold volumeOf at h
  split at h
  · rfl
  · cases h

theorem settingAt_read (f : Message → Option (Fin 16 × UInt8)) (hf : ∀ m, (f m).isSome = true → rank m = 1) (ord : EnumOrder) (calls : List Callback) (h : MidiHandler)
    (hr : readMidi ord calls = .ok h) (c : Fin 16) (t : Nat) :
    (((h.channels c).messages.filter fun m => m.2 ≤ t).filterMap fun m => f m.1).getLast? = settingAt f (file calls) c t := by
  obtain ⟨h1, h2, h3⟩ := C17_routing ord calls h hr c
  rw [last_stable f hf _ _ h1 h2 h3]
  have e : ((ofChannel (file calls) c).filter fun m => (f m.1).isSome ∧ m.2 ≤ t) = (file calls).filter fun m => home m.1 = some c ∧ (f m.1).isSome ∧ m.2 ≤ t := by
    unfold ofChannel
    rw [List.filter_filter]
    apply List.filter_congr
    intro m _
    simp only [Bool.decide_and]
    rw [Bool.and_comm]
  rw [e]
  rfl

/-- The settings by which C68 and C69 judge what is heard are those of the file. -/
theorem ownSettings_file (ord : EnumOrder) (calls : List Callback) (h : MidiHandler) (hr : readMidi ord calls = .ok h) (m : TMsg) :
    ownSettings h m = (fileInstrument (file calls) m, fileVolume (file calls) m) := by
  unfold ownSettings ownInstrument ownVolume fileInstrument fileVolume
  cases noteOf m.1 with
  | none => rfl
  | some x =>
    obtain ⟨c, n⟩ := x
    have h1 := settingAt_read programOf programOf_rank ord calls h hr c m.2
    have h2 := settingAt_read volumeOf volumeOf_rank ord calls h hr c m.2
    simp only
    rw [← h1, ← h2]
    rfl

/-! ## Base voices -/

/-- Channels with the same base voice never hold notes at the same time. -/
theorem read_share (ord : EnumOrder) (calls : List Callback) (h : MidiHandler) (hr : readMidi ord calls = .ok h) (hp : Paired (file calls)) (c c' : Fin 16) (n n' : UInt8) (t : Nat)
    (hb : (h.channels c).baseVoice = (h.channels c').baseVoice) (h1 : (c, n) ∈ heldAt (file calls) t) (h2 : (c', n') ∈ heldAt (file calls) t) : c = c' := by
  obtain ⟨-, -, ivs, bs, -, e2, -, e4, e5, -⟩ := readMidi_ok ord calls h hr
  obtain ⟨ivs', mt, s1, s2, -, s4, -⟩ := scan_paired (file calls) hp
  have := e2.symm.trans s1
  simp only [Except.ok.injEq, Prod.mk.injEq] at this
  obtain ⟨rfl, -⟩ := this
  by_contra hcc
  obtain ⟨hl, hno⟩ := C19_base_sound ivs s2 bs e4
  refine hno c c' hcc ?_ ⟨t, s4 c n t h1, s4 c' n' t h2⟩
  have e : ∀ c : Fin 16, bs[c]? = some (bs.getD c 0) := by
    intro c
    have : (c : Nat) < bs.length := by omega
    show bs[(c : Nat)]? = _
    rw [List.getD_eq_getElem?_getD, List.getElem?_eq_getElem this]
    rfl
  rw [e c, e c', ← e5, ← e5, hb]

/-- **C73 (conditions).** For a file whose notes come in pairs, that is tidy and meets `Orchestra`, all that C68 and C69 ask of the reader's result holds. -/
theorem C73_conditions (ord : EnumOrder) (ho : ∀ l, (ord l).Perm l) (calls : List Callback) (h : MidiHandler) (hr : readMidi ord calls = .ok h) (hp : Paired (file calls))
    (hs : Sane h.ticksPerBeat (file calls)) (ht : Tidy (file calls)) (horch : Orchestra (file calls)) : Clear (file calls) h ∧ Steady h := by
  have hmem : ∀ c m, m ∈ (h.channels c).messages ↔ m ∈ file calls ∧ home m.1 = some c := by
    intro c m
    rw [(C17_routing ord calls h hr c).1.mem_iff]
    unfold ofChannel
    rw [List.mem_filter]
    simp
  have hplay : ∀ c m, m ∈ (h.channels c).messages → starts m.1 = true → c ∈ playing (file calls) := by
    intro c m hm hst
    obtain ⟨h1, h2⟩ := (hmem c m).1 hm
    exact List.mem_filter.2 ⟨List.mem_finRange c, decide_eq_true ⟨m, h1, hst, h2⟩⟩
  -- playing channels have base voices of their own
  have hown : ∀ c ∈ playing (file calls), ∀ c' ∈ playing (file calls), c ≠ c' → (h.channels c).baseVoice ≠ (h.channels c').baseVoice := by
    intro c hc c' hc' hne hb
    exact read_apart ord calls h hr c c' hne (horch.together c hc c' hc' hne) hb
  -- a channel that shares the base voice of a playing channel sets nothing and plays nothing
  have hquiet : ∀ ch, (∃ m ∈ (h.channels ch).messages, starts m.1 = true) → ∀ c ≠ ch, (h.channels c).baseVoice = (h.channels ch).baseVoice →
      ∀ m ∈ (h.channels c).messages, isSetting m.1 = false ∧ starts m.1 = false := by
    rintro ch ⟨a, ha, hst⟩ c hne hb m hm
    have h1 := hplay ch a ha hst
    have h2 : c ∉ playing (file calls) := fun h2 => hown c h2 ch h1 hne hb
    refine ⟨?_, ?_⟩
    · by_contra hset
      obtain ⟨c', hc', e⟩ := horch.silent m ((hmem c m).1 hm).1 (by simpa using hset)
      rw [((hmem c m).1 hm).2, Option.some.injEq] at e
      subst e
      exact h2 hc'
    · by_contra hs
      exact h2 (hplay c m hm (by simpa using hs))
  have hnone : ∀ m, isSetting m = false → programOf m = none ∧ volumeOf m = none := by
    intro m hm
    simpa [isSetting] using hm
  obtain ⟨seq, outs, k, s1, s2, s3, s4⟩ := read_emits ord calls h hr
  have hperm := read_perm ord calls h hr seq s1
  have hbef := merge_before s2
  have haway : ∀ ch, (∃ v ≠ (h.channels ch).baseVoice, ∃ m ∈ h.voices v, startsOn ch m.1 = true) → Chords (file calls) ch := by
    rintro ch ⟨v, hv, m, hm, hst⟩
    rw [s4] at hm
    exact away_chords ord _ (file calls) (seq.map (·.2)) hperm hbef (fun c c' n n' t hb => read_share ord calls h hr hp c c' n n' t hb) outs k s3 v m hm ch hst hv
  have hset : ∀ m, programOf m ≠ none ∨ volumeOf m ≠ none → isSetting m = true := by
    intro m hm
    by_contra hn
    obtain ⟨h1, h2⟩ := hnone m (by simpa using hn)
    rcases hm with hm | hm
    · exact hm h1
    · exact hm h2
  have hearly : ∀ ch, Chords (file calls) ch → ∀ m ∈ (h.channels ch).messages, ∀ m' ∈ (h.channels ch).messages, isSetting m.1 = true → startsOn ch m'.1 = true → m.2 ≤ m'.2 := by
    intro ch hch m hm m' hm' h1 h2
    obtain ⟨-, -, h3⟩ := horch.chords ch hch
    simp only [startsOn, Bool.decide_and, Bool.and_eq_true, decide_eq_true_eq] at h2
    exact h3 m ((hmem ch m).1 hm).1 ((hmem ch m).1 hm).2 h1 m' ((hmem ch m').1 hm').1 h2.2 h2.1
  refine ⟨⟨?_, ?_, ?_⟩, ⟨?_, ?_, ?_⟩⟩
  · intro ch _ hch c hne hb m hm
    obtain ⟨h1, h2⟩ := hquiet ch hch c hne hb m hm
    exact ⟨(hnone _ h1).1, by simp [startsOn, h2]⟩
  · intro ch _ hv
    have hch := haway ch hv
    obtain ⟨⟨m, h1, h2, h3⟩, -, -⟩ := horch.chords ch hch
    exact ⟨⟨m, (hmem ch m).2 ⟨h1, h2⟩, h3⟩, fun m hm m' hm' h4 h5 => hearly ch hch m hm m' hm' (hset _ (.inl h4)) h5⟩
  · intro hch
    refine ⟨?_, ?_, ?_⟩
    · intro c hb m hm
      by_cases hc : c = 9
      · subst hc
        exact (horch.drums m ((hmem 9 m).1 hm).1 ((hmem 9 m).1 hm).2).1
      · exact (hnone _ (hquiet 9 hch c hc hb m hm).1).1
    · intro v hv m hm
      by_contra hst
      obtain ⟨⟨m, h1, h2, h3⟩, -, -⟩ := horch.chords 9 (haway 9 ⟨v, hv, m, hm, by simpa using hst⟩)
      exact h3 (horch.drums m h1 h2).1
    · intro m hm hn
      exact (horch.drums m hm (home_note hn)).2 hn
  · intro ch hch c hne hb m hm
    exact (hnone _ (hquiet ch hch c hne hb m hm).1).2
  · intro ch hv
    have hch := haway ch hv
    obtain ⟨-, ⟨m, h1, h2, h3⟩, -⟩ := horch.chords ch hch
    exact ⟨⟨m, (hmem ch m).2 ⟨h1, h2⟩, h3⟩, fun m hm m' hm' h4 h5 => hearly ch hch m hm m' hm' (hset _ (.inr h4)) h5⟩
  · intro v
    rw [s4]
    refine settled_emits ord ho _ _ _ _ (calm_of_tidy _ _ _ hs ht (read_apart ord calls h hr) seq hperm s2).1 (volumeCalm_of _ _ ?_ _ hperm hbef) s3 v
    intro p hp hv a ha hst hway hlt
    refine horch.volumes p hp hv a ha hst ?_ hlt
    by_contra hne
    obtain ⟨c, hc, e⟩ := horch.silent p hp (hset _ (.inr (by rintro h; rw [h] at hv; cases hv)))
    obtain ⟨c', hc'⟩ := Option.isSome_iff_exists.1 (starts_rank hst).2
    have hne' : c ≠ c' := by rintro rfl; exact hne (hc'.trans e.symm)
    exact hway ⟨c, e, c', hc', hne', hown c hc c' (hplay c' a ((hmem c' a).2 ⟨ha, hc'⟩) hst) hne'⟩

/-! ## Music from the file alone -/

/-- Instrument and volume a note of a file should have. -/
def fileSettings (l : List TMsg) (m : TMsg) : Settings := (fileInstrument l m, fileVolume l m)

/-- Everything C73 asks of a file: the reader takes it (C70), the converter can follow it (C64, C68, C69), and it is not too long. -/
structure Musical (calls : List Callback) : Prop where
  readable : Readable calls
  paired : Paired (file calls)
  few : FewVoices (file calls)
  sane : Sane (timeBase calls) (file calls)
  tidy : Tidy (file calls)
  orchestra : Orchestra (file calls)
  noSlides : ∀ m ∈ file calls, noSlides m.1 = true
  base24 : 24 ∣ timeBase calls
  basePos : 0 < timeBase calls
  base16 : timeBase calls < 65536
  short : ∀ m ∈ file calls, m.2 + 3525 ≤ exactTicks (timeBase calls) ∧ 24 * (m.2 + 1) ≤ 32511 * timeBase calls

/-- A note is heard with all it has in the file: pitch, instrument, volume, its velocity if all velocities are at least 8, its start and its end. -/
abbrev AsWritten (calls : List Callback) : Tone → Sound × Option Nat → Prop := ToneNear (timeBase calls) (NotesLoud (file calls)) True True

theorem musical_read (ord : EnumOrder) (ho : ∀ l, (ord l).Perm l) (calls : List Callback) (hm : Musical calls) (m : MidiHandler) (hr : readMidi ord calls = .ok m) :
    Sane m.ticksPerBeat (file calls) ∧ 24 ∣ m.ticksPerBeat ∧ 0 < m.ticksPerBeat ∧ m.ticksPerBeat < 65536 ∧ m.maxTime + 3525 ≤ exactTicks m.ticksPerBeat ∧
      24 * (m.maxTime + 1) ≤ 32511 * m.ticksPerBeat ∧ Clear (file calls) m ∧ Steady m := by
  have e := read_timeBase ord calls m hr
  have hs : Sane m.ticksPerBeat (file calls) := by rw [e]; exact hm.sane
  refine ⟨hs, by rw [e]; exact hm.base24, by rw [e]; exact hm.basePos, by rw [e]; exact hm.base16, ?_, ?_, C73_conditions ord ho calls m hr hm.paired hs hm.tidy hm.orchestra⟩
  · rw [e]
    rcases read_maxTime ord calls m hr with h0 | ⟨x, hx, h0⟩
    · have := exactTicks_ge (timeBase calls)
      have := hm.basePos
      omega
    · rw [h0]; exact (hm.short x hx).1
  · rw [e]
    rcases read_maxTime ord calls m hr with h0 | ⟨x, hx, h0⟩
    · have := hm.basePos
      omega
    · rw [h0]; exact (hm.short x hx).2

/-- **C73 (bank), partial** (missing: files that are not `Musical`, see C54, C64, C68 to C71; notes too long after fusing, see C07). A musical file is read and converted without loop optimisation. If no fused note of the result is
too long, then in every ROM the song is built into the engine plays what the file says: there is a tone as written for every note, and no other. -/
theorem C73_bank_partial {Path : Type} (ord : EnumOrder) (ho : ∀ l, (ord l).Perm l) (calls : List Callback) (hm : Musical calls) (f : F32) :
    ∃ m s, readMidi ord calls = .ok m ∧ songFromMidi m f false = .ok s ∧
      ((∀ tr ∈ s.tracks, ∀ c ∈ tr, c.command.isNote = true → ∀ d ∈ c.duration, d < 0x80) →
        ∀ (conv : Converter Path) (verbose : Bool) (j : Job Path) (fs : Nat) (rom r : Rom), j.Ready conv (ofRom rom) fs → j.bank.Clean →
          writeBank conv verbose j.songs rom j.base j.first fs = .ok r → ∀ (k : Nat) (d : SongDef Path), j.songs[k]? = some d → loadSong conv d = .ok s →
          ∀ (a0 : Mem) (regs : Regs), ∃ (fuel : Nat) (evs : List (Option (List Ev))) (T : Nat) (heard : List Tone), evs.length = 8 ∧
            (∀ n, playSong (upload (ofRom r) j.bank.chunks a0) (fuel + n) regs (fs + k) = some (evs, T, if d.loops then .goto 0xff T else .stop)) ∧
            heard.Perm (tonesIn evs) ∧ List.Forall₂ (AsWritten calls) heard (fileTones (fileSettings (file calls)) (file calls))) := by
  obtain ⟨m, s, hr, hsong⟩ := C70_converts_partial ord calls hm.readable hm.paired hm.few hm.sane hm.basePos hm.base16 (fun x hx => (hm.short x hx).1) f
  refine ⟨m, s, hr, hsong, ?_⟩
  intro hd conv verbose j fs rom r hj hc h k d hk hs a0 regs
  obtain ⟨c1, c2, c3, c4, c5, c6, c7, c8⟩ := musical_read ord ho calls hm m hr
  have hcount : ∀ tr ∈ s.tracks, ∀ c ∈ tr, ∀ t n, c.command = .callLoop t n → n.toNat ≤ 2 := by
    intro tr htr c hc t n hcc
    have := plain_noCalls _ _ _ hsong tr htr c hc
    rw [hcc] at this; cases this
  obtain ⟨fuel, evs, T, heard, g1, g2, g3, g4⟩ := C71_lengths_partial ord ho calls m hr c1 hm.tidy hm.noSlides c7 c2 c3 c4 c5 c6 f false s hsong hcount hd conv verbose j fs rom r hj hc h a0 regs k d hk hs
  refine ⟨fuel, evs, T, heard, g1, g2, g3, ?_⟩
  have e : ownSettings m = fileSettings (file calls) := funext fun x => ownSettings_file ord calls m hr x
  rw [e, read_timeBase ord calls m hr] at g4
  refine g4.imp ?_
  rintro x n ⟨k1, off, k2, stop, q1, q2, q3, q4, q5⟩
  exact ⟨⟨k1.pitch, k1.instrument, k1.time, fun hl => k1.velocity ⟨rfl, hl⟩, fun _ => k1.volume c8⟩, off, k2, stop, q1, q2, q3, q4, fun _ => q5 rfl⟩

/-- **C73 (command line), partial** (missing as in `C73_bank_partial`). The tool is run without loop optimisation to build a ROM and succeeds; one of the songs of the build comes from a musical MIDI file. Then in the ROM file
the song's number plays what the file says, provided no fused note of the song is too long. -/
theorem C73_run_partial (x : Ext) (hord : ∀ l, (x.ord l).Perm l) (fs fs' : FS) (verbose : Bool) (cmd : Cmd) (rom : String) (addrs : List Nat) (js : List (Job String)) (file0 : Rom)
    (hb : Builds x fs (js.map Job.songs) rom addrs cmd) (hacc : ∀ n, x.accept n = n) (hrun : x.run fs false verbose cmd = (.ok (), fs'))
    (hrom : fs rom = some file0) (haddrs : addrs = js.map Job.base) (hfirst : bankFirstSongAddrs = js.map Job.first)
    (hr : AllReady (x.converter fs false) (ofRom file0) 0 js) (hs : HeadersSafe js) (hd : DataApart js)
    (pre : List (Job String)) (j : Job String) (post : List (Job String)) (hj : js = pre ++ j :: post) (hc : j.bank.Clean) (k : Nat) (d : SongDef String) (hk : j.songs[k]? = some d)
    (path : String) (bytes : List UInt8) (calls : List Callback)
    (hpath : d.input = some path) (hext : x.extension path = some "mid") (hbytes : fs path = some bytes) (hcalls : x.parseMidi bytes = some calls) (hm : Musical calls) :
    ∃ m s, readMidi x.ord calls = .ok m ∧ songFromMidi m d.tempoFactor false = .ok s ∧
      ((∀ tr ∈ s.tracks, ∀ c ∈ tr, c.command.isNote = true → ∀ d ∈ c.duration, d < 0x80) →
        ∃ image, fs' rom = some image ∧ ∀ (a0 : Mem) (regs : Regs), ∃ (fuel : Nat) (evs : List (Option (List Ev))) (T : Nat) (heard : List Tone),
          (∀ n, playSong (upload (ofRom image) j.bank.chunks a0) (fuel + n) regs ((pre.map fun i => i.songs.length).sum + k) =
            some (evs, T, if d.loops then .goto 0xff T else .stop)) ∧
          heard.Perm (tonesIn evs) ∧
          List.Forall₂ (fun y n => SoundNear (timeBase calls) (NotesLoud (file calls)) True y.sound n.1 ∧ ∃ off : Nat, n.2 = some off ∧
            ∀ gate, Eighths gate → |release gate y - 24 * off / timeBase calls| < 1 + ((y.stop : ℚ) - y.last) / 8) heard (fileTones (fileSettings (file calls)) (file calls))) := by
  obtain ⟨m, s, hread, hsong⟩ := C70_converts_partial x.ord calls hm.readable hm.paired hm.few hm.sane hm.basePos hm.base16 (fun y hy => (hm.short y hy).1) d.tempoFactor
  refine ⟨m, s, hread, hsong, fun hdur => ?_⟩
  obtain ⟨c1, c2, c3, c4, c5, c6, c7, c8⟩ := musical_read x.ord hord calls hm m hread
  obtain ⟨image, g1, g2⟩ := C71_run_partial x hord fs fs' verbose cmd rom addrs js file0 hb hacc hrun hrom haddrs hfirst hr hs hd pre j post hj hc k d hk path bytes calls m s hpath hext hbytes hcalls hread hsong
    c1 hm.tidy hm.noSlides c7 c2 c3 c4 c5 c6 hdur
  refine ⟨image, g1, fun a0 regs => ?_⟩
  obtain ⟨fuel, evs, T, heard, e1, e2, e3⟩ := g2 a0 regs
  refine ⟨fuel, evs, T, heard, e1, e2, ?_⟩
  have e : ownSettings m = fileSettings (file calls) := funext fun x => ownSettings_file _ calls m hread x
  rw [e, read_timeBase _ calls m hread] at e3
  refine e3.imp ?_
  rintro y n ⟨k1, k2⟩
  exact ⟨⟨k1.pitch, k1.instrument, k1.time, k1.velocity, fun _ => k1.volume c8⟩, k2⟩

/-- **C73 (file alone), partial** (missing: files that are not `Musical`, and notes of other lengths, see C07). A musical file of safe lengths is read and converted, and in every ROM the song is built into the engine plays
what the file says. No condition is on what the tool made of the file. -/
theorem C73_file_partial {Path : Type} (ord : EnumOrder) (ho : ∀ l, (ord l).Perm l) (calls : List Callback) (hm : Musical calls) (hsafe : SafeLengths (timeBase calls) (file calls)) (f : F32) :
    ∃ m s, readMidi ord calls = .ok m ∧ songFromMidi m f false = .ok s ∧
      ∀ (conv : Converter Path) (verbose : Bool) (j : Job Path) (fs : Nat) (rom r : Rom), j.Ready conv (ofRom rom) fs → j.bank.Clean →
        writeBank conv verbose j.songs rom j.base j.first fs = .ok r → ∀ (k : Nat) (d : SongDef Path), j.songs[k]? = some d → loadSong conv d = .ok s →
        ∀ (a0 : Mem) (regs : Regs), ∃ (fuel : Nat) (evs : List (Option (List Ev))) (T : Nat) (heard : List Tone), evs.length = 8 ∧
          (∀ n, playSong (upload (ofRom r) j.bank.chunks a0) (fuel + n) regs (fs + k) = some (evs, T, if d.loops then .goto 0xff T else .stop)) ∧
          heard.Perm (tonesIn evs) ∧ List.Forall₂ (AsWritten calls) heard (fileTones (fileSettings (file calls)) (file calls)) := by
  obtain ⟨m, s, hr, hsong, h⟩ := C73_bank_partial (Path := Path) ord ho calls hm f
  obtain ⟨c1, c2, c3, c4, c5, c6, -, -⟩ := musical_read ord ho calls hm m hr
  exact ⟨m, s, hr, hsong, h (song_short ord ho calls m hr c1 hm.tidy hm.noSlides c2 c3 c4 c5 c6 (by rw [read_timeBase ord calls m hr]; exact hsafe) f s hsong)⟩

/-- **C73 (file alone, command line), partial** (missing as in `C73_file_partial`). The tool is run without loop optimisation to build a ROM and succeeds; one of the songs of the build comes from a musical MIDI file of
safe lengths. Then in the ROM file the song's number plays what the file says. -/
theorem C73_file_run_partial (x : Ext) (hord : ∀ l, (x.ord l).Perm l) (fs fs' : FS) (verbose : Bool) (cmd : Cmd) (rom : String) (addrs : List Nat) (js : List (Job String)) (file0 : Rom)
    (hb : Builds x fs (js.map Job.songs) rom addrs cmd) (hacc : ∀ n, x.accept n = n) (hrun : x.run fs false verbose cmd = (.ok (), fs'))
    (hrom : fs rom = some file0) (haddrs : addrs = js.map Job.base) (hfirst : bankFirstSongAddrs = js.map Job.first)
    (hr : AllReady (x.converter fs false) (ofRom file0) 0 js) (hs : HeadersSafe js) (hd : DataApart js)
    (pre : List (Job String)) (j : Job String) (post : List (Job String)) (hj : js = pre ++ j :: post) (hc : j.bank.Clean) (k : Nat) (d : SongDef String) (hk : j.songs[k]? = some d)
    (path : String) (bytes : List UInt8) (calls : List Callback)
    (hpath : d.input = some path) (hext : x.extension path = some "mid") (hbytes : fs path = some bytes) (hcalls : x.parseMidi bytes = some calls) (hm : Musical calls)
    (hsafe : SafeLengths (timeBase calls) (file calls)) :
    ∃ image, fs' rom = some image ∧ ∀ (a0 : Mem) (regs : Regs), ∃ (fuel : Nat) (evs : List (Option (List Ev))) (T : Nat) (heard : List Tone),
      (∀ n, playSong (upload (ofRom image) j.bank.chunks a0) (fuel + n) regs ((pre.map fun i => i.songs.length).sum + k) =
        some (evs, T, if d.loops then .goto 0xff T else .stop)) ∧
      heard.Perm (tonesIn evs) ∧
      List.Forall₂ (fun y n => SoundNear (timeBase calls) (NotesLoud (file calls)) True y.sound n.1 ∧ ∃ off : Nat, n.2 = some off ∧
        ∀ gate, Eighths gate → |release gate y - 24 * off / timeBase calls| < 1 + ((y.stop : ℚ) - y.last) / 8) heard (fileTones (fileSettings (file calls)) (file calls)) := by
  obtain ⟨m, s, hread, hsong, h⟩ := C73_run_partial x hord fs fs' verbose cmd rom addrs js file0 hb hacc hrun hrom haddrs hfirst hr hs hd pre j post hj hc k d hk path bytes calls hpath hext hbytes hcalls hm
  obtain ⟨c1, c2, c3, c4, c5, c6, -, -⟩ := musical_read x.ord hord calls hm m hread
  exact h (song_short x.ord hord calls m hread c1 hm.tidy hm.noSlides c2 c3 c4 c5 c6 (by rw [read_timeBase _ calls m hread]; exact hsafe) _ s hsong)

/-! ## Examples -/

/-- The band of C68 (two instruments and drums, three voices) meets all the conditions. -/
theorem band_musical : Musical bandCalls where
  readable := by
    refine ⟨?_, by decide, by decide⟩
    intro f tb h
    simp [bandCalls] at h
    exact h.1
  paired := ⟨by decide, by decide⟩
  few := by decide
  sane := ⟨by decide +kernel, by decide +kernel, by decide +kernel⟩
  tidy := ⟨by decide +kernel, by decide +kernel, by decide +kernel, by decide +kernel, by decide +kernel⟩
  orchestra := ⟨by decide +kernel, by decide +kernel, by decide +kernel, by decide +kernel, by decide +kernel⟩
  noSlides := by decide +kernel
  base24 := by decide
  basePos := by decide
  base16 := by decide
  short := by decide

/-- Its notes last 24, 36 and 12 units; 36 is not a safe length, since a rest of 108 units would make 144 of it. -/
example : ¬ SafeLengths (timeBase bandCalls) (file bandCalls) := by decide +kernel

/-- The tones of the ROM the band is built into are those of the file. -/
example : ∃ r, writeBank bandConv false bandJob.songs (oneRom 80 30) bandJob.base bandJob.first 0 = .ok r ∧ ∀ (a0 : Mem) (regs : Regs),
    ∃ (fuel : Nat) (evs : List (Option (List Ev))) (T : Nat) (heard : List Tone), evs.length = 8 ∧
      (∀ n, playSong (upload (ofRom r) bandJob.bank.chunks a0) (fuel + n) regs (0 + 0) = some (evs, T, .stop)) ∧ heard.Perm (tonesIn evs) ∧
      List.Forall₂ (AsWritten bandCalls) heard (fileTones (fileSettings (file bandCalls)) (file bandCalls)) := by
  obtain ⟨m, s, h1, h2, h3⟩ := C73_bank_partial (Path := Nat) id (fun l => .refl l) bandCalls band_musical (F32.ofRat (1 / 5))
  have e1 : m = bandMidi := Except.ok.inj (h1.symm.trans bandMidi_read)
  rw [e1] at h2
  have e2 : s = bandSong := Except.ok.inj (h2.symm.trans bandSong_of)
  rw [e2] at h3
  obtain ⟨r, hr⟩ := C44_fits_ok bandConv false bandJob 0 (oneRom 80 30) bandJob_ready (by decide) (by decide +kernel) (by decide +kernel)
  exact ⟨r, hr, fun a0 regs => h3 (by decide) bandConv false bandJob 0 (oneRom 80 30) r bandJob_ready ⟨by decide, by decide, by decide, by decide, by decide⟩ hr 0 (slot (some 0) false) rfl bandSong_of a0 regs⟩

/-- A piano with chords, a flute that changes its volume and its program while the piano sounds, and a drum, at 48 ticks per beat. -/
def comboCalls : List Callback :=
  [ .header 1 48, .trackChange, .midiEvent 0 (.programChange 0 0), .midiEvent 0 (.controlChange 0 7 90), .midiEvent 0 (.noteOn 0 48 80), .midiEvent 0 (.noteOn 0 52 80), .midiEvent 48 (.noteOff 0 48 0),
    .midiEvent 0 (.noteOff 0 52 0), .midiEvent 0 (.noteOn 0 50 80), .midiEvent 91 (.noteOff 0 50 0),
    .trackChange, .midiEvent 0 (.programChange 1 73), .midiEvent 0 (.noteOn 1 60 100), .midiEvent 24 (.noteOff 1 60 0), .midiEvent 12 (.controlChange 1 7 60), .midiEvent 0 (.programChange 1 40), .midiEvent 12 (.noteOn 1 62 100), .midiEvent 48 (.noteOff 1 62 0),
    .trackChange, .midiEvent 0 (.noteOn 9 38 90), .midiEvent 24 (.noteOff 9 38 0) ]

theorem combo_musical : Musical comboCalls where
  readable := by
    refine ⟨?_, by decide, by decide⟩
    intro f tb h
    simp [comboCalls] at h
    exact h.1
  paired := ⟨by decide, by decide⟩
  few := by decide
  sane := ⟨by decide +kernel, by decide +kernel, by decide +kernel⟩
  tidy := ⟨by decide +kernel, by decide +kernel, by decide +kernel, by decide +kernel, by decide +kernel⟩
  orchestra := ⟨by decide +kernel, by decide +kernel, by decide +kernel, by decide +kernel, by decide +kernel⟩
  noSlides := by decide +kernel
  base24 := by decide
  basePos := by decide
  base16 := by decide
  short := by decide

/-- Its notes last 24, 12 and, rounded up, 46 units. -/
example : SafeLengths (timeBase comboCalls) (file comboCalls) := by decide +kernel

/-- What the file says: the second note of the flute has the volume 60 and the program 40 set before it. -/
example : fileTones (fileSettings (file comboCalls)) (file comboCalls) =
    [(⟨0, 152, 10, some 24, some 180⟩, some 48), (⟨0, 156, 10, some 24, some 180⟩, some 48), (⟨48, 154, 10, some 24, some 180⟩, some 139),
     (⟨0, 164, 12, some 22, some 200⟩, some 24), (⟨48, 166, 12, some 9, some 120⟩, some 96), (⟨0, 172, 11, some 19, some 200⟩, some 24)] := by decide +kernel

end M2S
