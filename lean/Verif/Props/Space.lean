import Verif.Proofs.Bytes
import Verif.Props.MidiPlayback
/-
C83: the space songs take, with and without loop extraction.
-/
namespace M2S
open MidiSpec Timing RomSpec Nspc Engine

/-- The bytes of a song's tracks as they are written into the ROM. -/
def songSize (s : Song) : Nat := ((List.range s.tracks.length).map fun i => ((s.writeTrack i).toOption.map fun o => o.bytes.length).getD 0).sum

theorem preamble_pos (parts : List (List Nat)) (i : Nat) (h : ∀ p ∈ parts, i ∉ p) : preambleFor parts i = [] := by
  unfold preambleFor
  rw [if_neg, if_neg]
  · simp only [List.any_eq_true, List.contains_eq_mem, decide_eq_true_eq, not_exists, not_and]
    exact h
  · simp only [List.any_eq_true, decide_eq_true_eq, not_exists, not_and]
    intro p hp he
    exact h p hp (List.mem_of_mem_head? he)

/-- The size of a song whose tracks are not empty: preambles, commands, end bytes. -/
theorem songSize_eq (s : Song) (hp : ∀ p ∈ s.parts, p ≠ []) (hne : ∀ tr ∈ s.tracks, tr ≠ []) :
    songSize s = ((List.range s.tracks.length).map fun i => ((preambleFor s.parts i).flatMap (cmdBytes placeholder)).length).sum + (bytesOf s.tracks + s.tracks.length) := by
  unfold songSize
  rw [← sum_range_getD_size]
  have : s.tracks.length = ((List.range s.tracks.length).map fun _ => 1).sum := by simp
  conv_rhs => rw [show ∀ a b : Nat, a + (b + s.tracks.length) = a + (b + ((List.range s.tracks.length).map fun _ => 1).sum) from fun a b => by rw [← this]]
  rw [← sum_range_add, ← sum_range_add]
  congr 1
  apply List.map_congr_left
  intro i hi
  rw [List.mem_range] at hi
  have hg := List.getElem?_eq_getElem hi
  obtain ⟨o, ho⟩ := writeTrack_ok s i _ hg hp
  obtain ⟨e, -⟩ := writeTrack_eq s i _ hg (hne _ (List.getElem_mem hi)) o ho
  rw [ho, List.getD_eq_getElem?_getD, hg]
  simp only [Except.toOption, Option.map_some, Option.getD_some, e, List.length_append, List.length_singleton]
  unfold size
  omega

/-- Empty tracks take nothing. -/
theorem songSize_le (s : Song) (hp : ∀ p ∈ s.parts, p ≠ []) :
    songSize s ≤ ((List.range s.tracks.length).map fun i => ((preambleFor s.parts i).flatMap (cmdBytes placeholder)).length).sum + (bytesOf s.tracks + s.tracks.length) := by
  unfold songSize
  rw [← sum_range_getD_size]
  have : s.tracks.length = ((List.range s.tracks.length).map fun _ => 1).sum := by simp
  conv_rhs => rw [show ∀ a b : Nat, a + (b + s.tracks.length) = a + (b + ((List.range s.tracks.length).map fun _ => 1).sum) from fun a b => by rw [← this]]
  rw [← sum_range_add, ← sum_range_add]
  apply sum_le_pointwise
  intro i hi
  have hg := List.getElem?_eq_getElem hi
  obtain ⟨o, ho⟩ := writeTrack_ok s i _ hg hp
  rw [ho, List.getD_eq_getElem?_getD, hg]
  simp only [Except.toOption, Option.map_some, Option.getD_some]
  by_cases hne : s.tracks[i] = []
  · unfold Song.writeTrack at ho
    rw [hg] at ho
    simp only [hne, List.isEmpty_nil, if_true] at ho
    cases ho
    simp
  · obtain ⟨e, -⟩ := writeTrack_eq s i _ hg hne o ho
    simp only [e, List.length_append, List.length_singleton]
    unfold size
    omega

/-- **C83**, provided every extracted sequence takes at least 37 bytes (its subroutine 38) and velocities are in range: the song with loop extraction takes no more space in the ROM than
the song without. Missing: shorter sequences, for which it is false. -/
theorem C83_long_loops_partial (m : MidiHandler) (f : F32) (plain opt : Song) (h0 : songFromMidi m f false = .ok plain) (h1 : songFromMidi m f true = .ok opt)
    (hvel : ∀ tr ∈ plain.tracks, ∀ c ∈ tr, ∀ v ∈ c.velocity, v < 0x10)
    (hlong : ∀ j o, plain.tracks.length ≤ j → opt.writeTrack j = .ok o → 38 ≤ o.bytes.length) :
    songSize opt ≤ songSize plain := by
  have hsh := song_cmds m f false plain h0
  unfold songFromMidi at h0 h1
  rw [res_bind] at h0 h1
  obtain ⟨tracks, g1, h0⟩ := h0
  obtain ⟨tracks', g1', h1⟩ := h1
  rw [g1] at g1'; cases g1'
  simp only [Bool.false_eq_true, if_false, res_pure] at h0
  simp only [if_true, res_bind, res_pure] at h1
  obtain ⟨out, ho, rfl⟩ := h1
  subst h0
  have hno := voiceTracks_noCalls m f tracks g1
  have hsm : ∀ tr ∈ tracks, ∀ c ∈ tr, SmallParams c := by
    intro tr htr c hc
    refine ⟨hvel tr htr c hc, ?_⟩
    rcases hsh tr htr c hc with h | ⟨t, n, rfl⟩
    · intro x hx
      have := h.sus x hx
      rw [UInt8.lt_iff_toNat_lt]
      have : (0x08 : UInt8).toNat = 8 := rfl
      omega
    · simp [loopCmd]
  by_cases hz : tracks = []
  · subst hz
    have hrt := C34_never_grows [] out 0 (Nat.le_refl 0) ho
    rcases hrt with rfl | ⟨h, -⟩
    · exact le_rfl
    · simp [totalSize] at h
  have htop : 0 < tracks.length := List.length_pos_of_ne_nil hz
  have hp : ∀ p ∈ [List.range tracks.length], p ≠ [] := by
    intro p hp
    rw [List.mem_singleton] at hp
    subst hp
    intro h
    have := congrArg List.length h
    simp at this
    exact hz this
  obtain ⟨hle, hsub, hcall⟩ := C35_loops_well_formed tracks out (fun tr htr => (hno tr htr).2) ho
  have hnp : ∀ j, tracks.length ≤ j → preambleFor [List.range tracks.length] j = [] := by
    intro j hj
    apply preamble_pos
    intro p hp hmem
    rw [List.mem_singleton] at hp
    subst hp
    rw [List.mem_range] at hmem
    omega
  have hl37 : ∀ b ∈ out.drop tracks.length, 37 ≤ size b 0xff none := by
    intro b hb
    obtain ⟨k, hk⟩ := List.mem_iff_getElem?.1 hb
    rw [List.getElem?_drop] at hk
    have hb4 := (hsub _ b (Nat.le_add_right _ _) hk).1
    obtain ⟨o, hw⟩ := writeTrack_ok ⟨[List.range tracks.length], out⟩ _ b hk hp
    have h38 := hlong _ o (Nat.le_add_right _ _) hw
    obtain ⟨e, -⟩ := writeTrack_eq ⟨[List.range tracks.length], out⟩ _ b hk (by rintro rfl; simp at hb4) o hw
    rw [e, hnp _ (Nat.le_add_right _ _)] at h38
    simp only [List.flatMap_nil, List.nil_append, List.length_append, List.length_singleton] at h38
    unfold size
    omega
  obtain ⟨b1, -, -⟩ := optimizeFuel_bytes tracks.length _ tracks out le_rfl ho hsm hl37
  refine (songSize_le _ hp).trans ?_
  rw [songSize_eq ⟨[List.range tracks.length], tracks⟩ hp fun tr htr => (hno tr htr).1]
  have hpre : ((List.range out.length).map fun i => ((preambleFor [List.range tracks.length] i).flatMap (cmdBytes placeholder)).length).sum =
      ((List.range tracks.length).map fun i => ((preambleFor [List.range tracks.length] i).flatMap (cmdBytes placeholder)).length).sum := by
    obtain ⟨k, hk⟩ := Nat.exists_eq_add_of_le hle
    rw [hk, List.range_add, List.map_append, List.sum_append]
    simp only [List.map_map, Nat.add_eq_left, List.sum_eq_zero_iff, List.mem_map, Function.comp]
    rintro x ⟨j, -, rfl⟩
    rw [hnp _ (Nat.le_add_right _ _)]
    rfl
  simp only
  omega

theorem takeFit_all : ∀ (bs : List Block) (n : Nat), RomSpec.total bs ≤ n → (takeFit n bs).2 = [] := by
  intro bs
  induction bs with
  | nil => intro n _; rfl
  | cons b bs ih =>
    intro n h
    unfold RomSpec.total at h
    rw [List.map_cons, List.sum_cons] at h
    rw [takeFit, if_pos (by omega)]
    exact ih _ (by unfold RomSpec.total; omega)

theorem encoded_size {Path : Type} {conv : Converter Path} {d : SongDef Path} {e : Encoded} {s : Song} (h : EncodedOf conv d e) (hs : loadSong conv d = .ok s) :
    RomSpec.total (songBlocks e.loops e.tracks) = (if d.loops then 8 else 4) + 16 + songSize s := by
  obtain ⟨s', h1, h2, -, h4⟩ := h
  rw [hs] at h1; cases h1
  have key : ∀ (is : List Nat) (os : List Out), List.Forall₂ (fun i o => s.writeTrack i = .ok o) is os →
      ((os.map fun o => (⟨o.bytes.length, !o.refs.isEmpty⟩ : Block)).map Block.size).sum = (is.map fun i => ((s.writeTrack i).toOption.map fun o => o.bytes.length).getD 0).sum := by
    intro is os h
    induction h with
    | nil => rfl
    | cons ho _ ih => simp only [List.map_cons, List.sum_cons, ih, ho, Except.toOption, Option.map_some, Option.getD_some]
  unfold RomSpec.total songBlocks songSize
  rw [List.map_cons, List.sum_cons, key _ _ h4, h2]

/-- **C83** for a bank: if the plain songs leave the overflow chunk unused (they fit into the base chunk) and loop extraction makes no song larger, the build with loop extraction does not fail for lack
of space. -/
theorem C83_bank_partial {Path : Type} (conv conv' : Converter Path) (v : Bool) (songs : List (SongDef Path)) (es es' : List Encoded) (base first fs : Nat) (b : Bank) (rom : Rom)
    (hb : base + 8 < 2 ^ 24) (hin : b.In (ofRom rom) base) (hes : List.Forall₂ (EncodedOf conv) songs es) (hes' : List.Forall₂ (EncodedOf conv') songs es')
    (hsmall : ∀ d ∈ songs, ∀ s s', loadSong conv d = .ok s → loadSong conv' d = .ok s' → songSize s' ≤ songSize s)
    (hstart : first - 0xd000 ≤ b.songs.len) (hroom : RomSpec.total (blocks es) ≤ b.songs.len - (first - 0xd000)) :
    writeBank conv' v songs rom base first fs ≠ .error (.err .doesNotFit) := by
  intro h
  have hle : RomSpec.total (blocks es') ≤ RomSpec.total (blocks es) := by
    clear hin hstart hroom h
    induction hes generalizing es' with
    | nil => cases hes'; exact le_rfl
    | cons h1 _ ih =>
      cases hes' with
      | cons h1' hr' =>
        have i := ih _ hr' (fun d hd => hsmall d (by simp [hd]))
        obtain ⟨s, e1, -⟩ := id h1
        obtain ⟨s', e1', -⟩ := id h1'
        have q := hsmall _ (by simp) s s' e1 e1'
        have q1 := encoded_size h1 e1
        have q2 := encoded_size h1' e1'
        unfold blocks RomSpec.total at *
        simp only [List.flatMap_cons, List.map_append, List.sum_append]
        omega
  have := C44_no_false_alarm conv' v songs es' base first fs b rom hb hin hes' hstart h
  rw [takeFit_all _ _ (hle.trans hroom)] at this
  simp [RomSpec.total] at this

/-- The converter of the example, with and without loop extraction. -/
def tuneConvOf (opt : Bool) : Converter Nat := fun _ _ => songFromMidi tuneMidi (F32.ofRat (1 / 5)) opt

def tunePlain : Song := ⟨[[0, 1]],
  [[⟨some 12, some 12, some 7, .note 164⟩, ⟨some 12, some 12, some 7, .note 166⟩, ⟨some 12, some 12, some 7, .note 168⟩, ⟨some 12, some 12, some 7, .note 169⟩,
    ⟨some 24, some 12, some 7, .note 171⟩,
    ⟨some 12, some 12, some 7, .note 164⟩, ⟨some 12, some 12, some 7, .note 166⟩, ⟨some 12, some 12, some 7, .note 168⟩, ⟨some 12, some 12, some 7, .note 169⟩,
    ⟨some 24, some 12, some 7, .note 173⟩],
   [restCmd 12, ⟨some 30, some 10, some 7, .note 152⟩, restCmd 102]]⟩

theorem tunePlain_of : songFromMidi tuneMidi (F32.ofRat (1 / 5)) false = .ok tunePlain := by decide +kernel

/-- **C83 is false of the code** for short sequences: four notes of one length that occur twice are replaced by two calls. That saves two commands, but the calls take four bytes each, the notes one;
the song needs 37 bytes instead of 32, and there is a bank which has room for
this song and an empty one (76 bytes), but not with loop extraction: then the build fails. -/
theorem C83_short_loops_false : readMidi id tuneCalls = .ok tuneMidi ∧ songFromMidi tuneMidi (F32.ofRat (1 / 5)) false = .ok tunePlain ∧
    songFromMidi tuneMidi (F32.ofRat (1 / 5)) true = .ok tuneSong ∧ songSize tunePlain = 32 ∧ songSize tuneSong = 37 ∧
    (writeBank (tuneConvOf false) false [slot (some 0) true, slot none false] (oneRom 84 3) 0 0xd006 0).toOption.isSome = true ∧
    writeBank (tuneConvOf true) false [slot (some 0) true, slot none false] (oneRom 84 3) 0 0xd006 0 = .error (.err .doesNotFit) := by
  refine ⟨tuneMidi_read, tunePlain_of, tuneSong_of, by decide, by decide, ?_, ?_⟩
  · have e : tuneConvOf false = fun _ _ => .ok tunePlain := by funext a b; exact tunePlain_of
    rw [e]; decide +kernel
  · have e : tuneConvOf true = fun _ _ => .ok tuneSong := by funext a b; exact tuneSong_of
    rw [e]; decide +kernel

/-- A phrase of 13 notes whose lengths and velocities alternate (three bytes each), played twice, each time with another note behind it. -/
def phraseEvents (at_ : Nat) (k : UInt8) : List (Message × Nat) := ((List.range 13).flatMap fun i =>
  [(.midiEvent 0 (.noteOn 0 (UInt8.ofNat (50 + i)) (if i % 2 = 0 then 100 else 60)), at_ + 15 * i - (if i % 2 = 0 then 0 else 3)),
   (.midiEvent 0 (.noteOff 0 (UInt8.ofNat (50 + i)) 0), at_ + 15 * i + (if i % 2 = 0 then 12 else 15))]) ++
  [(.midiEvent 0 (.noteOn 0 k 100), at_ + 192), (.midiEvent 0 (.noteOff 0 k 0), at_ + 216)]

def phraseMidi : MidiHandler := { ticksPerBeat := 24, maxTime := 432, voices := fun v => if v = 0 then phraseEvents 0 70 ++ phraseEvents 216 72 else [] }

def phraseBody : List PCmd := (List.range 13).map fun i => if i % 2 = 0 then ⟨some 12, some 12, some 7, .note (UInt8.ofNat (154 + i))⟩ else ⟨some 18, some 7, some 7, .note (UInt8.ofNat (154 + i))⟩

def phrasePlain : Song := ⟨[[0]], [phraseBody ++ [⟨some 24, some 12, some 7, .note 174⟩] ++ phraseBody ++ [⟨some 24, some 12, some 7, .note 176⟩]]⟩

def phraseSong : Song := ⟨[[0]], [[loopCmd 1 1, ⟨some 24, some 12, some 7, .note 174⟩, loopCmd 1 1, ⟨some 24, some 12, some 7, .note 176⟩], phraseBody]⟩

theorem phrasePlain_of : songFromMidi phraseMidi (F32.ofRat (1 / 5)) false = .ok phrasePlain := by decide +kernel

theorem phraseSong_of : songFromMidi phraseMidi (F32.ofRat (1 / 5)) true = .ok phraseSong := by
  unfold songFromMidi
  simp only [optimizeCallLoops_run]
  decide +kernel

/-- The hypotheses of C83 hold for it: the phrase becomes a subroutine of 40 bytes, and the song shrinks from 88 to 60 bytes. -/
example : (∀ tr ∈ phrasePlain.tracks, ∀ c ∈ tr, ∀ v ∈ c.velocity, v < 0x10) ∧
    (∀ j o, phrasePlain.tracks.length ≤ j → phraseSong.writeTrack j = .ok o → 38 ≤ o.bytes.length) ∧ songSize phrasePlain = 88 ∧ songSize phraseSong = 60 := by
  refine ⟨by decide, ?_, by decide, by decide⟩
  intro j o hj ho
  rcases Nat.lt_or_ge j 2 with h | h
  · have : j = 1 := by change 1 ≤ j at hj; omega
    subst this
    have e : phraseSong.writeTrack 1 = .ok ⟨(phraseBody.zipIdx.flatMap fun (c, i) => [if i % 2 = 0 then 12 else 18, if i % 2 = 0 then 124 else 119, UInt8.ofNat (154 + i)]) ++ [0], []⟩ := by
      decide
    rw [e] at ho
    cases ho
    decide
  · have : phraseSong.tracks[j]? = none := List.getElem?_eq_none h
    unfold Song.writeTrack at ho
    rw [this] at ho
    cases ho

end M2S
