import Verif.Proofs.Repeat
import Verif.Props.Orchestra
import Verif.Props.RealTime
/-
Songs that loop: C84.
-/
namespace M2S
open MidiSpec Timing RomSpec Nspc Engine

/-! ## C84 -/

theorem playSong_table {m : Mem} {fuel : Nat} {r : Regs} {number T : Nat} {evs : List (Option (List Ev))} {next : Phrase} (h : playSong m fuel r number = some (evs, T, next)) :
    word m (0xd000 + 2 * number) = some T := by
  unfold playSong at h
  split at h
  · cases h
  · rename_i T' hT'
    split at h
    · split at h
      · cases h
      · split at h
        · simp only [Option.some.injEq, Prod.mk.injEq] at h
          rw [hT', h.2.1]
        · cases h
    · cases h

/-- A song that plays from any registers, played on. -/
theorem song_passes (mem : Mem) (number : Nat) (loops : Bool) (s : Song)
    (h : ∀ r : Regs, ∃ part fuel evs T, s.parts[0]? = some part ∧ (∀ n, playSong mem (fuel + n) r number = some (evs, T, if loops then .goto 0xff T else .stop)) ∧
      timingOf evs = timingOf (partSound s part) ∧ ((∀ tr ∈ s.tracks, ∀ c ∈ tr, isCall c.command = false) → evs = partSound s part)) :
    ∃ part T, s.parts[0]? = some part ∧ word mem (0xd000 + 2 * number) = some T ∧ ∀ (n : Nat) (regs : List Regs), regs.length = 8 →
      ∃ fuel ps, (∀ k, playOn mem (fuel + k) (2 * n) T regs = some ps) ∧ ps.length = (if loops then n else min n 1) ∧
        ∀ p ∈ ps, timingOf p = timingOf (partSound s part) ∧ ((∀ tr ∈ s.tracks, ∀ c ∈ tr, isCall c.command = false) → p = partSound s part) := by
  obtain ⟨part, fuel0, evs0, T, h1, h2, h3, h4⟩ := h ⟨0, 0, 0⟩
  have hT := playSong_table (h2 0)
  refine ⟨part, T, h1, hT, ?_⟩
  have hlen : (partSound s part).length = 8 := by simp [partSound]
  let R : Nat → Option (List Ev) → Prop := fun i y => (∀ z, (partSound s part)[i]? = some z → y.map (List.map Ev.timing) = z.map (List.map Ev.timing)) ∧
    ((∀ tr ∈ s.tracks, ∀ c ∈ tr, isCall c.command = false) → ∀ z, (partSound s part)[i]? = some z → y = z)
  have hall : ∀ r : Regs, ∃ fuel evs, playSong mem fuel r number = some (evs, T, if loops then .goto 0xff T else .stop) ∧ evs.length = 8 ∧ ∀ (i : Nat) y, evs[i]? = some y → R i y := by
    intro r
    obtain ⟨part', fuel, evs, T', g1, g2, g3, g4⟩ := h r
    rw [h1, Option.some.injEq] at g1
    subst g1
    have := playSong_table (g2 0)
    rw [hT, Option.some.injEq] at this
    subst this
    refine ⟨fuel, evs, g2 0, by have := congrArg List.length g3; simpa [timingOf, partSound] using this, fun i y hy => ⟨fun z hz => ?_, fun hcl z hz => ?_⟩⟩
    · have := congrArg (·[i]?) g3
      simp only [timingOf, List.getElem?_map, hy, hz, Option.map_some, Option.some.injEq] at this
      exact this
    · rw [g4 hcl, hz, Option.some.injEq] at hy
      exact hy.symm
  have back : ∀ p : List (Option (List Ev)), p.length = 8 → (∀ (i : Nat) y, p[i]? = some y → R i y) →
      timingOf p = timingOf (partSound s part) ∧ ((∀ tr ∈ s.tracks, ∀ c ∈ tr, isCall c.command = false) → p = partSound s part) := by
    intro p hp hR
    constructor
    · refine List.ext_getElem (by simp [timingOf, hp, hlen]) fun i q1 q2 => ?_
      simp only [timingOf, List.length_map] at q1 q2
      simp only [timingOf, List.getElem_map]
      exact (hR i _ (List.getElem?_eq_getElem q1)).1 _ (List.getElem?_eq_getElem q2)
    · intro hcl
      refine List.ext_getElem (by rw [hp, hlen]) fun i q1 q2 => ?_
      exact (hR i _ (List.getElem?_eq_getElem q1)).2 hcl _ (List.getElem?_eq_getElem q2)
  obtain ⟨c1, c2⟩ := playOn_passes mem number T _ R hall
  intro n regs hregs
  cases loops with
  | true =>
    obtain ⟨fuel, ps, e1, e2, e3⟩ := c1 rfl n regs hregs
    exact ⟨fuel, ps, e1, e2, fun p hp => back p (e3 p hp).1 (e3 p hp).2⟩
  | false =>
    obtain ⟨fuel, p, e1, e2, e3⟩ := c2 rfl regs hregs
    cases n with
    | zero => exact ⟨0, [], fun k => rfl, rfl, by simp⟩
    | succ n =>
      refine ⟨fuel, [p], fun k => ?_, by simp, fun q hq => ?_⟩
      · rw [show 2 * (n + 1) = 2 * n + 2 by omega]; exact e1 k _
      · rw [List.mem_singleton] at hq
        subst hq
        exact back q e2 e3

/-- **C84 (any song, one bank), partial** (missing: builds that do not fit, songs that are not playable). After a build that fits, upload the bank and let the engine play on from the song's entry in the table, whatever
the channels' registers are: if the slot loops, the part is played again and again, each time with the same notes, ties, rests and commands of the same lengths, and without subroutine calls with the same velocities and
sustains; if it does not loop, the part is played once. -/
theorem C84_bank_partial {Path : Type} (conv : Converter Path) (v : Bool) (j : Job Path) (fs : Nat) (rom r : Rom) (hj : j.Ready conv (ofRom rom) fs)
    (hc : j.bank.Clean) (h : writeBank conv v j.songs rom j.base j.first fs = .ok r) (a0 : Mem) (k : Nat) (d : SongDef Path) (s : Song)
    (hk : j.songs[k]? = some d) (hs : loadSong conv d = .ok s) (hP : Playable s) :
    ∃ part T, s.parts[0]? = some part ∧ word (upload (ofRom r) j.bank.chunks a0) (0xd000 + 2 * (fs + k)) = some T ∧ ∀ (n : Nat) (regs : List Regs), regs.length = 8 →
      ∃ fuel ps, (∀ i, playOn (upload (ofRom r) j.bank.chunks a0) (fuel + i) (2 * n) T regs = some ps) ∧ ps.length = (if d.loops then n else min n 1) ∧
        ∀ p ∈ ps, timingOf p = timingOf (partSound s part) ∧ ((∀ tr ∈ s.tracks, ∀ c ∈ tr, isCall c.command = false) → p = partSound s part) :=
  song_passes _ _ d.loops s fun regs => C54_bank_partial conv v j fs rom r hj hc h a0 regs k d s hk hs hP

/-! ### Music -/

/-- The reader's end of the song is the last channel event of the file. -/
theorem maxTime_lastTime (ord : EnumOrder) (calls : List Callback) (h : MidiHandler) (hr : readMidi ord calls = .ok h) : h.maxTime = lastTime (file calls) := by
  obtain ⟨-, -, ivs, bs, -, c2, -⟩ := readMidi_ok ord calls h hr
  obtain ⟨-, -, h3, h4⟩ := scanChannels_ok _ (fun c => before_time (sort_pairwise _)) 0 ivs _ c2
  have hmax : ∀ (l : List Nat), (∀ x ∈ l, x ≤ l.foldr max 0) ∧ ∀ b, (∀ x ∈ l, x ≤ b) → l.foldr max 0 ≤ b := by
    intro l
    induction l with
    | nil => simp
    | cons a l ih =>
      refine ⟨fun x hx => ?_, fun b hb => ?_⟩
      · rcases List.mem_cons.1 hx with rfl | hx
        · exact le_max_left _ _
        · exact (ih.1 x hx).trans (le_max_right _ _)
      · exact max_le (hb a List.mem_cons_self) (ih.2 b fun x hx => hb x (List.mem_cons_of_mem _ hx))
  refine le_antisymm ?_ ?_
  · rcases h4 with h4 | ⟨c, m, hm, ⟨d, e, hde⟩, h5⟩
    · rw [h4]; exact Nat.zero_le _
    · rw [← h5]
      refine (hmax _).1 _ (List.mem_map.2 ⟨m, List.mem_filter.2 ⟨List.mem_of_mem_filter ((sort_perm _).mem_iff.1 hm), ?_⟩, rfl⟩)
      rw [hde]; rfl
  · refine (hmax _).2 _ fun x hx => ?_
    obtain ⟨m, hm, rfl⟩ := List.mem_map.1 hx
    obtain ⟨hm1, hm2⟩ := List.mem_filter.1 hm
    obtain ⟨d, e, hde⟩ : ∃ d e, m.1 = .midiEvent d e := by
      obtain ⟨msg, t⟩ := m
      cases msg with
      | midiEvent d e => exact ⟨d, e, rfl⟩
      | _ => cases hm2
    obtain ⟨c, hcm⟩ : ∃ c, home m.1 = some c := by rw [hde]; exact ⟨_, rfl⟩
    refine h3 c m ((sort_perm _).mem_iff.2 (List.mem_filter.2 ⟨hm1, ?_⟩)) ⟨d, e, hde⟩
    simpa using hcm

theorem tonesIn_getD (p : List (Option (List Ev))) : tonesIn p = p.flatMap fun c => (c.map heardTones).getD [] := by
  unfold tonesIn
  congr 1
  funext c
  cases c <;> rfl

/-- The conversion of a tidy file in which all notes have instruments, played again and again. -/
theorem tidy_passes (ord : EnumOrder) (ho : ∀ l, (ord l).Perm l) (calls : List Callback) (m : MidiHandler) (hread : readMidi ord calls = .ok m)
    (hsane : Sane m.ticksPerBeat (file calls)) (htidy : Tidy (file calls)) (hslide : ∀ x ∈ file calls, noSlides x.1 = true)
    (h24 : 24 ∣ m.ticksPerBeat) (hp : 0 < m.ticksPerBeat) (hp2 : m.ticksPerBeat < 65536)
    (hG : m.maxTime + 3525 ≤ exactTicks m.ticksPerBeat) (hG2 : 24 * (m.maxTime + 1) ≤ 32511 * m.ticksPerBeat)
    (f : F32) (opt : Bool) (s : Song) (hsong : songFromMidi m f opt = .ok s)
    (hcount : ∀ tr ∈ s.tracks, ∀ c ∈ tr, ∀ t n, c.command = .callLoop t n → n.toNat ≤ 2)
    (hd : ∀ tr ∈ s.tracks, ∀ c ∈ tr, c.command.isNote = true → ∀ d ∈ c.duration, d < 0x80)
    (set : TMsg → Settings) (steady : Prop) (hsteady : steady → ∀ v, settingsBetweenNotes false (m.voices v) = true)
    (hset : ∀ v a x t b, m.voices v = a ++ (x, t) :: b → starts x = true → (lastProgram a).map instrumentOfProgram = (set (x, t)).1 ∧ (steady → volumeAfter a = (set (x, t)).2))
    (hinst : ∀ n ∈ fileTones set (file calls), n.1.settings.1 ≠ none) (u : Nat) (hu : m.ticksPerBeat * u = 24 * m.maxTime)
    (part : List Nat) (h1 : s.parts[0]? = some part) (ps : List (List (Option (List Ev))))
    (hps : ∀ p ∈ ps, timingOf p = timingOf (partSound s part) ∧ ((∀ tr ∈ s.tracks, ∀ c ∈ tr, isCall c.command = false) → p = partSound s part)) :
    (∀ p ∈ ps, ∀ l, some l ∈ p → heardTime l = u) ∧ ∃ heards : List (List Tone), heards.length = ps.length ∧ (tonesIn (playedOver ps)).Perm (laterPasses u 0 heards) ∧
      ∀ heard ∈ heards, List.Forall₂ (ToneNear m.ticksPerBeat (opt = false ∧ NotesLoud (file calls)) steady (opt = false)) heard (fileTones set (file calls)) := by
  obtain ⟨hr, -, hS⟩ := tidy_sound ord ho calls m hread hsane htidy h24 hp hp2 hG hG2 f opt s hsong hcount hd
  have hpq : (0 : ℚ) < m.ticksPerBeat := by exact_mod_cast hp
  have hlen : ∀ p ∈ ps, ∀ l, some l ∈ p → heardTime l = u := by
    intro p hpm l hl
    obtain ⟨heard, -, -, -, e⟩ := hS part p h1 (hps p hpm).1
    have e := e l hl
    have q : (24 * m.maxTime / m.ticksPerBeat : ℚ) = u := by
      rw [div_eq_iff hpq.ne']
      have : (m.ticksPerBeat * u : ℚ) = 24 * m.maxTime := by exact_mod_cast hu
      linarith
    rw [q, abs_lt] at e
    have a1 : ((heardTime l : ℕ) : ℚ) < u + 1 := by linarith [e.2]
    have a2 : (u : ℚ) < heardTime l + 1 := by linarith [e.1]
    have b1 : heardTime l < u + 1 := by exact_mod_cast a1
    have b2 : u < heardTime l + 1 := by exact_mod_cast a2
    omega
  refine ⟨hlen, ?_⟩
  have hone : ∀ p : List (Option (List Ev)), ∃ heard : List Tone, p ∈ ps → p.length = 8 ∧ heard.Perm (tonesIn p) ∧
      List.Forall₂ (ToneNear m.ticksPerBeat (opt = false ∧ NotesLoud (file calls)) steady (opt = false)) heard (fileTones set (file calls)) := by
    intro p
    by_cases hpm : p ∈ ps
    · obtain ⟨heard, e1, e2, e3⟩ := tidy_tones ord ho calls m hread hsane htidy hslide h24 hp hp2 hG hG2 f opt s hsong hcount hd set steady hsteady hset part p h1 (hps p hpm).1 (hps p hpm).2
      exact ⟨heard, fun _ => ⟨e1, e2, e3⟩⟩
    · exact ⟨[], fun h => absurd h hpm⟩
  choose g hg using hone
  refine ⟨ps.map g, by simp, ?_, fun heard hh => ?_⟩
  swap
  · obtain ⟨p, hpm, rfl⟩ := List.mem_map.1 hh
    exact (hg p hpm).2.2
  -- what each channel is like in each pass
  obtain ⟨vs, g1, g2, g3, g4⟩ := song_channels m f opt s hsong hr hcount
  have hpart : part = List.range vs.length := by rw [g3] at h1; simpa using h1.symm
  subst hpart
  have hT : m.maxTime < 2 ^ 31 := by have := exactTicks_le m.ticksPerBeat; omega
  have hv := C63_voices ord calls m hread hsane
  have hno := voices_noSlides ord calls m hread hslide
  have hchan : ∀ i < 8, (∀ p ∈ ps, p[i]?.join = none) ∨ ∀ p ∈ ps, ∃ l, p[i]?.join = some l ∧ leadFree l = true ∧ heardTime l = u ∧ AllSet (heardTones l) := by
    intro i hi
    have := g4 i hi
    cases hvi : vs[i]? with
    | none =>
      rw [hvi] at this
      exact .inl fun p hpm => by rw [(timingOf_get (hps p hpm).1 i).1 this]; rfl
    | some v =>
      rw [hvi] at this
      obtain ⟨cs, l, e1, -, e2, -, -, -, e5, -, -⟩ := this
      refine .inr fun p hpm => ?_
      obtain ⟨l', k1, -, -, -, k2⟩ := (timingOf_get (hps p hpm).1 i).2 l e2
      have hl' : some l' ∈ p := List.mem_of_getElem? k1
      have hin : i < vs.length := by
        by_contra hn
        rw [List.getElem?_eq_none (by omega)] at hvi
        cases hvi
      have hany : (s.parts.any fun p => p.contains i) = true := by rw [g3]; simp [hin]
      refine ⟨l', by rw [k1]; rfl, converted_leadFree _ _ m.maxTime _ f hp hp2 hG hT (hv v) (hno v) cs e1 _ l l' e5 k2, hlen p hpm l' hl', fun x hx => ⟨?_, ?_⟩⟩
      · obtain ⟨-, q2, q3⟩ := hg p hpm
        have hx' : x ∈ tonesIn p := List.mem_flatMap.2 ⟨some l', hl', hx⟩
        obtain ⟨n, hn, hxn⟩ : ∃ n ∈ fileTones set (file calls), ToneNear m.ticksPerBeat (opt = false ∧ NotesLoud (file calls)) steady (opt = false) x n := by
          have hx'' := q2.mem_iff.2 hx'
          clear q2 hx'
          generalize g p = A at q3 hx''
          generalize fileTones set (file calls) = B at q3
          induction q3 with
          | nil => cases hx''
          | cons hab _ ih =>
            rcases List.mem_cons.1 hx'' with rfl | hx''
            · exact ⟨_, List.mem_cons_self, hab⟩
            · obtain ⟨n, hn, h⟩ := ih hx''
              exact ⟨n, List.mem_cons_of_mem _ hn, h⟩
        rw [hxn.1.instrument]
        exact hinst n hn
      · refine preamble_volume s.parts i hany l' ((intended noAddr cs 0 13 7).map Ev.timing) ?_ x hx
        rw [k2, e5, List.map_append, List.map_map]
        rfl
  -- all channels together
  have heq : tonesIn (playedOver ps) = (List.range 8).flatMap fun i => laterPasses u 0 (ps.map fun p => tonesAt p i) := by
    rw [tonesIn_getD, playedOver, List.flatMap_map, List.flatMap_def, List.flatMap_def]
    congr 1
    exact List.map_congr_left fun i hi => channelOver_tones u ps i (hchan i (List.mem_range.1 hi))
  rw [heq]
  refine (laterPasses_flatMap u (List.range 8) tonesAt ps 0).trans (laterPasses_perm u ?_ 0)
  rw [List.forall₂_map_left_iff, List.forall₂_map_right_iff]
  refine List.forall₂_same.2 fun p hpm => ?_
  obtain ⟨q1, q2, -⟩ := hg p hpm
  rw [← tonesIn_at p q1, ← tonesIn_getD]
  exact q2.symm

/-! ### Tempo -/

theorem heardTempos_timing (l : List Ev) : heardTempos (l.map Ev.timing) = heardTempos l := by
  unfold heardTempos
  rw [heardChanges_timing]

theorem lastAt_mem {α : Type} (t : Nat) (cs : List (Nat × α)) (h : ∃ x ∈ cs, x.1 = t) : lastAt t cs ≠ none := by
  unfold lastAt
  obtain ⟨x, hx, ht⟩ := h
  have : (cs.filter fun c => decide (c.1 = t)) ≠ [] := List.ne_nil_of_mem (List.mem_filter.2 ⟨hx, by simpa using ht⟩)
  rw [Ne, Option.map_eq_none_iff, List.getLast?_eq_none_iff]
  exact this

/-- Only the first channel changes the tempo; if the file sets the tempo at its start, so does the channel. -/
theorem tempo_channel (ord : EnumOrder) (calls : List Callback) (m : MidiHandler) (hread : readMidi ord calls = .ok m) (f : F32)
    (vs : List (Fin 8)) (evs : List (Option (List Ev))) (g1 : vs.Pairwise (· < ·)) (g2 : ∀ v, v ∉ vs → changes f 0 false (m.voices v) = [])
    (g4 : ∀ i < 8, match vs[i]? with
        | some v => ∃ l rest, evs[i]? = some (some l) ∧ heardChanges 0 l = (0, 0xed, [0xc8]) :: rest ∧
            List.Forall₂ (HeardSince m.ticksPerBeat) rest (changes f 0 false (m.voices v))
        | none => evs[i]? = some none) (hstart : ∃ u0 more, tempoMap (file calls) = (0, u0) :: more) :
    (∀ (i : Nat) (l : List Ev), 0 < i → i < 8 → evs[i]? = some (some l) → heardTempos l = []) ∧ ∃ l, evs[0]? = some (some l) ∧ lastAt 0 (heardTempos l) ≠ none := by
  obtain ⟨-, -, hno⟩ := C65_file_tempos ord calls m hread f
  have hmap : ((changes f 0 false (m.voices 0)).filter fun c => isTempo c.command).map (fun c => (c.time, c.command)) = (tempoMap (file calls)).map fun x => (x.1, Command.tempo (tempoByte x.2 f)) := by
    rw [changes_tempos, ← voice_tempos ord calls m hread, List.map_filterMap]
    exact List.filterMap_congr fun x _ => tempoOf_message f x
  obtain ⟨u0, more, hs⟩ := hstart
  rw [hs] at hmap
  have h0 : (0 : Fin 8) ∈ vs := by
    by_contra hn
    rw [g2 0 hn] at hmap
    cases hmap
  have hv0 : vs[0]? = some 0 := by
    cases vs with
    | nil => cases h0
    | cons a vs =>
      rcases List.mem_cons.1 h0 with rfl | h0
      · rfl
      · exact absurd ((List.pairwise_cons.1 g1).1 0 h0) (by simp)
  refine ⟨fun i l hi hi8 hl => ?_, ?_⟩
  · have h := g4 i hi8
    cases hv : vs[i]? with
    | none => rw [hv, hl] at h; cases h
    | some v =>
      rw [hv] at h
      obtain ⟨l', rest, e0, e1, e2⟩ := h
      rw [hl, Option.some.injEq, Option.some.injEq] at e0
      subst e0
      have hne : v ≠ 0 := by
        rintro rfl
        obtain ⟨hl1, he⟩ := List.getElem?_eq_some_iff.1 hv
        have := List.pairwise_iff_getElem.1 g1 0 i (by omega) hl1 hi
        rw [he] at this
        exact absurd this (by simp)
      have := heardTempos_since _ f _ l rest e1 e2
      rw [List.filter_eq_nil_iff.2 (fun c hc => by rw [hno v hne c hc]; exact Bool.false_ne_true)] at this
      exact List.forall₂_nil_right_iff.mp this
  · have h := g4 0 (by omega)
    rw [hv0] at h
    obtain ⟨l, rest, e0, e1, e2⟩ := h
    refine ⟨l, e0, lastAt_mem 0 _ ?_⟩
    have hF := heardTempos_since _ f _ l rest e1 e2
    cases hc : (changes f 0 false (m.voices 0)).filter fun c => isTempo c.command with
    | nil => rw [hc] at hmap; cases hmap
    | cons c cs =>
      rw [hc] at hmap hF
      rw [List.map_cons, List.map_cons, List.cons.injEq, Prod.mk.injEq] at hmap
      have hcm : c ∈ changes f 0 false (m.voices 0) := List.mem_of_mem_filter (hc ▸ List.mem_cons_self)
      have hle := C65_never_late f (m.voices 0) (C22_alternate ord calls m hread 0).2 0 false (fun _ _ => Nat.zero_le _) c hcm
      have hz : c.since = 0 := by have : c.time = 0 := hmap.1.1; omega
      generalize heardTempos l = L at hF
      cases hF with
      | @cons x _ L _ q _ =>
        refine ⟨x, List.mem_cons_self, ?_⟩
        have q2 := q.2.2
        rw [hz, Nat.cast_zero, mul_zero, zero_div, sub_zero, abs_of_nonneg (by positivity)] at q2
        have : x.1 < 1 := by exact_mod_cast q2
        omega

/-- If only the first channel changes the tempo and does so at the start, each pass has the tempos of any other. -/
theorem passes_tempo (q : List (Option (List Ev))) (hq8 : q.length = 8) (ps : List (List (Option (List Ev)))) (hps : ∀ p ∈ ps, timingOf p = timingOf q) (u : Nat)
    (hu : ∀ p ∈ ps, ∀ l, some l ∈ p → heardTime l = u)
    (hq : ∀ (i : Nat) (l : List Ev), 0 < i → i < 8 → q[i]? = some (some l) → heardTempos l = []) (h0 : ∃ l, q[0]? = some (some l) ∧ lastAt 0 (heardTempos l) ≠ none)
    (start start' k : Nat) (p : List (Option (List Ev))) (hk : ps[k]? = some p) (j : Nat) (hj : j < u) : engineTempo start (playedOver ps) (j + k * u) = engineTempo start' p j := by
  obtain ⟨l0, hl0, hlast⟩ := h0
  have hpm : p ∈ ps := List.mem_of_getElem? hk
  have hone : ∀ p ∈ ps, p.length = 8 ∧ (∃ l, p[0]? = some (some l) ∧ heardTime l = u ∧ heardTempos l = heardTempos l0) ∧
      ∀ (i : Nat) (l : List Ev), 0 < i → i < 8 → p[i]? = some (some l) → heardTempos l = [] := by
    intro p hpm
    have htm := hps p hpm
    have h8 : p.length = 8 := by have := congrArg List.length htm; simpa [timingOf, hq8] using this
    refine ⟨h8, ?_, fun i l hi hi8 hl => ?_⟩
    · obtain ⟨l', k1, -, -, -, k2⟩ := (timingOf_get htm 0).2 l0 hl0
      exact ⟨l', k1, hu p hpm l' (List.mem_of_getElem? k1), by rw [← heardTempos_timing, k2, heardTempos_timing]⟩
    · obtain ⟨l', k1, -, -, -, k2⟩ : ∃ l', q[i]? = some (some l') ∧ True ∧ True ∧ True ∧ l'.map Ev.timing = l.map Ev.timing := by
        obtain ⟨l', k1, -, -, -, k2⟩ := (timingOf_get htm.symm i).2 l hl
        exact ⟨l', k1, trivial, trivial, trivial, k2⟩
      rw [← heardTempos_timing, ← k2, heardTempos_timing]
      exact hq i l' hi hi8 k1
  have hfirst : ∀ c : List (Option (List Ev)), c.length = 8 → (∀ (i : Nat) (l : List Ev), 0 < i → i < 8 → c[i]? = some (some l) → heardTempos l = []) →
      songTempos c = (c[0]?.join).elim [] heardTempos := by
    intro c h8 hc
    cases c with
    | nil => cases h8
    | cons a c =>
      unfold songTempos
      rw [List.flatMap_cons, List.flatMap_eq_nil_iff.2 ?_, List.append_nil]
      · rfl
      · intro y hy
        obtain ⟨i, hi, rfl⟩ := List.mem_iff_getElem.1 hy
        cases hci : c[i] with
        | none => rfl
        | some l => exact hc (i + 1) l (by omega) (by simp at h8; omega) (by simp [List.getElem?_eq_getElem hi, hci])
  obtain ⟨h8, ⟨l, hl, hlu, hlt⟩, hnone⟩ := hone p hpm
  -- one pass
  have e1 : songTempos p = heardTempos l0 := by rw [hfirst p h8 hnone, hl]; exact hlt
  -- all passes
  have hover0 : channelOver ps 0 = some ((ps.map fun p => (p[0]?.join).getD []).flatten) := by
    unfold channelOver
    rw [if_pos (List.any_eq_true.2 ⟨p, hpm, by rw [hl]; rfl⟩), List.flatMap_def]
  have hovern : ∀ (i : Nat) (l : List Ev), 0 < i → i < 8 → (playedOver ps)[i]? = some (some l) → heardTempos l = [] := by
    intro i l hi hi8 hli
    unfold playedOver at hli
    rw [List.getElem?_map, List.getElem?_range hi8] at hli
    simp only [Option.map_some, Option.some.injEq] at hli
    unfold channelOver at hli
    split_ifs at hli with hsome
    rw [Option.some.injEq] at hli
    subst hli
    have hany : ∀ t, ((heardChanges t (ps.flatMap fun p => (p[i]?.join).getD [])).filterMap fun c => if c.2.1 = 0xe7 then c.2.2.head?.map fun b => (c.1, b.toNat) else none) = [] := by
      clear hk hpm hfirst hover0 hu hps hsome
      induction ps with
      | nil => intro t; rfl
      | cons a ps ih =>
        intro t
        rw [List.flatMap_cons, heardChanges_append, List.filterMap_append, ih (fun p hp => hone p (List.mem_cons_of_mem _ hp)), List.append_nil]
        cases ha : a[i]? with
        | none => rfl
        | some y =>
          cases y with
          | none => rfl
          | some l =>
            have := (hone a List.mem_cons_self).2.2 i l hi hi8 ha
            show ((heardChanges t l).filterMap _) = []
            have e := heardChanges_later l 0 t
            rw [Nat.zero_add] at e
            rw [e, List.filterMap_map]
            unfold heardTempos at this
            rw [List.filterMap_eq_nil_iff] at this ⊢
            intro x hx
            have := this x hx
            simp only [Function.comp]
            split_ifs at this ⊢ with hc
            · rw [Option.map_eq_none_iff] at this ⊢; exact this
            · rfl
    exact hany 0
  have e2 : songTempos (playedOver ps) = passesFrom u (heardTempos l0) 0 ps.length := by
    rw [hfirst (playedOver ps) (by simp [playedOver]) hovern]
    have : (playedOver ps)[0]? = some (channelOver ps 0) := rfl
    rw [this, hover0]
    show heardTempos _ = _
    have := heardTempos_over u (heardTempos l0) (ps.map fun p => (p[0]?.join).getD []) (by
      intro y hy
      obtain ⟨p', hp', rfl⟩ := List.mem_map.1 hy
      obtain ⟨-, ⟨l', k1, k2, k3⟩, -⟩ := hone p' hp'
      rw [k1]
      exact ⟨k2, k3⟩) 0
    rw [Nat.zero_mul, List.length_map] at this
    exact this
  unfold engineTempo
  rw [e1, e2]
  refine inForce_passes start start' u _ (fun x hx => ?_) hlast _ k (List.getElem?_eq_some_iff.1 hk).1 j hj
  rw [← hlt] at hx
  unfold heardTempos at hx
  obtain ⟨y, hy, hxy⟩ := List.mem_filterMap.1 hx
  have := heardChanges_until l 0 y hy
  split_ifs at hxy
  obtain ⟨b, -, rfl⟩ := Option.map_eq_some_iff.1 hxy
  simp only
  omega

/-! ### Looped songs repeat exactly -/

/-- A song plays its notes again and again: the engine, started at the song's entry of the table with whatever registers, plays `n` passes; in each pass all channels end after `u` units; what is heard in all passes
together are the notes of the first pass, those of the second `u` units later, and so on; each pass has all the notes and no other, near to how they should be; and if the tempo is set at the start, each pass goes through
the tempos the part has by itself. -/
def Repeats (near : Tone → Sound × Option Nat → Prop) (notes : List (Sound × Option Nat)) (paced : Prop) (mem : Mem) (number u : Nat) : Prop :=
  ∃ T, word mem (0xd000 + 2 * number) = some T ∧ ∀ (n : Nat) (regs : List Regs), regs.length = 8 →
    ∃ (fuel : Nat) (ps : List (List (Option (List Ev)))) (heards : List (List Tone)), (∀ i, playOn mem (fuel + i) (2 * n) T regs = some ps) ∧ ps.length = n ∧
      (∀ p ∈ ps, ∀ l, some l ∈ p → heardTime l = u) ∧ heards.length = n ∧ (tonesIn (playedOver ps)).Perm (laterPasses u 0 heards) ∧ (∀ heard ∈ heards, List.Forall₂ near heard notes) ∧
      (paced → ∀ start start' k p, ps[k]? = some p → ∀ j < u, engineTempo start (playedOver ps) (j + k * u) = engineTempo start' p j)

/-- A tidy song that plays from any registers and loops. -/
theorem tidy_repeats (ord : EnumOrder) (ho : ∀ l, (ord l).Perm l) (calls : List Callback) (m : MidiHandler) (hread : readMidi ord calls = .ok m)
    (hsane : Sane m.ticksPerBeat (file calls)) (htidy : Tidy (file calls)) (hslide : ∀ x ∈ file calls, noSlides x.1 = true) (hclear : Clear (file calls) m)
    (h24 : 24 ∣ m.ticksPerBeat) (hp : 0 < m.ticksPerBeat) (hp2 : m.ticksPerBeat < 65536)
    (hG : m.maxTime + 3525 ≤ exactTicks m.ticksPerBeat) (hG2 : 24 * (m.maxTime + 1) ≤ 32511 * m.ticksPerBeat)
    (f : F32) (opt : Bool) (s : Song) (hsong : songFromMidi m f opt = .ok s)
    (hcount : ∀ tr ∈ s.tracks, ∀ c ∈ tr, ∀ t n, c.command = .callLoop t n → n.toNat ≤ 2)
    (hd : ∀ tr ∈ s.tracks, ∀ c ∈ tr, c.command.isNote = true → ∀ d ∈ c.duration, d < 0x80)
    (hinst : ∀ n ∈ fileTones (ownSettings m) (file calls), n.1.settings.1 ≠ none) (u : Nat) (hu : m.ticksPerBeat * u = 24 * lastTime (file calls)) (mem : Mem) (number : Nat)
    (h : ∀ r : Regs, ∃ part fuel evs T, s.parts[0]? = some part ∧ (∀ n, playSong mem (fuel + n) r number = some (evs, T, .goto 0xff T)) ∧
      timingOf evs = timingOf (partSound s part) ∧ ((∀ tr ∈ s.tracks, ∀ c ∈ tr, isCall c.command = false) → evs = partSound s part)) :
    Repeats (ToneNear m.ticksPerBeat (opt = false ∧ NotesLoud (file calls)) (Steady m) (opt = false)) (fileTones (ownSettings m) (file calls))
      (∃ u0 more, tempoMap (file calls) = (0, u0) :: more) mem number u := by
  rw [← maxTime_lastTime ord calls m hread] at hu
  obtain ⟨part, T, h1, hT, hpl⟩ := song_passes mem number true s h
  obtain ⟨hr, -, -⟩ := tidy_sound ord ho calls m hread hsane htidy h24 hp hp2 hG hG2 f opt s hsong hcount hd
  have hT31 : m.maxTime < 2 ^ 31 := by have := exactTicks_le m.ticksPerBeat; omega
  have hv := C63_voices ord calls m hread hsane
  obtain ⟨v1, -, -, -⟩ := C64_voices ord ho calls m hread hsane htidy
  refine ⟨T, hT, fun n regs hregs => ?_⟩
  obtain ⟨fuel, ps, e1, e2, e3⟩ := hpl n regs hregs
  obtain ⟨k1, heards, k2, k3, k4⟩ := tidy_passes ord ho calls m hread hsane htidy hslide h24 hp hp2 hG hG2 f opt s hsong hcount hd (ownSettings m) (Steady m) (fun hst => hst.between)
    (fun v a x t b h1 h2 => ⟨C68_instruments ord ho calls m hread hclear v a x t b h1 h2, fun hst => C69_volumes ord ho calls m hread hst v a x t b h1 h2⟩) hinst u hu part h1 ps e3
  refine ⟨fuel, ps, heards, e1, e2, k1, by rw [k2, e2]; rfl, k3, k4, fun hstart start start' k p hk j hj => ?_⟩
  obtain ⟨vs, g1, g2, -, g4⟩ := changes_heard m f opt s hsong hr hcount m.maxTime h24 hp hp2 hG hG2 hT31 hv v1 part (partSound s part) h1 rfl
  obtain ⟨q1, q2⟩ := tempo_channel ord calls m hread f vs (partSound s part) g1 g2 g4 hstart
  exact passes_tempo (partSound s part) (by simp [partSound]) ps (fun p hp => (e3 p hp).1) u k1 q1 q2 start start' k p hk j hj

/-- **C84 (music, one bank), partial** (missing: builds that do not fit; files that are not tidy; notes before the instrument is set, songs whose length is not a whole number of units, tempos set first after the start: see
`C84_instrument_false`, `C84_length_false`, `C84_tempo_false`). A tidy file all of whose notes have an instrument and whose last event is `u` whole units from the start, put into a slot that loops: the engine plays the
notes of the file over and over, every pass beginning exactly `u` units after the last one. -/
theorem C84_music_partial {Path : Type} (ord : EnumOrder) (ho : ∀ l, (ord l).Perm l) (calls : List Callback) (m : MidiHandler) (hread : readMidi ord calls = .ok m)
    (hsane : Sane m.ticksPerBeat (file calls)) (htidy : Tidy (file calls)) (hslide : ∀ x ∈ file calls, noSlides x.1 = true) (hclear : Clear (file calls) m)
    (h24 : 24 ∣ m.ticksPerBeat) (hp : 0 < m.ticksPerBeat) (hp2 : m.ticksPerBeat < 65536)
    (hG : m.maxTime + 3525 ≤ exactTicks m.ticksPerBeat) (hG2 : 24 * (m.maxTime + 1) ≤ 32511 * m.ticksPerBeat)
    (f : F32) (opt : Bool) (s : Song) (hsong : songFromMidi m f opt = .ok s)
    (hcount : ∀ tr ∈ s.tracks, ∀ c ∈ tr, ∀ t n, c.command = .callLoop t n → n.toNat ≤ 2)
    (hd : ∀ tr ∈ s.tracks, ∀ c ∈ tr, c.command.isNote = true → ∀ d ∈ c.duration, d < 0x80)
    (hinst : ∀ n ∈ fileTones (ownSettings m) (file calls), n.1.settings.1 ≠ none) (u : Nat) (hu : m.ticksPerBeat * u = 24 * lastTime (file calls))
    (conv : Converter Path) (verbose : Bool) (j : Job Path) (fs : Nat) (rom r : Rom)
    (hj : j.Ready conv (ofRom rom) fs) (hc : j.bank.Clean) (h : writeBank conv verbose j.songs rom j.base j.first fs = .ok r) (a0 : Mem)
    (k : Nat) (d : SongDef Path) (hk : j.songs[k]? = some d) (hs : loadSong conv d = .ok s) (hloop : d.loops = true) :
    Repeats (ToneNear m.ticksPerBeat (opt = false ∧ NotesLoud (file calls)) (Steady m) (opt = false)) (fileTones (ownSettings m) (file calls))
      (∃ u0 more, tempoMap (file calls) = (0, u0) :: more) (upload (ofRom r) j.bank.chunks a0) (fs + k) u := by
  obtain ⟨-, hP, -⟩ := tidy_sound ord ho calls m hread hsane htidy h24 hp hp2 hG hG2 f opt s hsong hcount hd
  refine tidy_repeats ord ho calls m hread hsane htidy hslide hclear h24 hp hp2 hG hG2 f opt s hsong hcount hd hinst u hu _ _ fun regs => ?_
  have := C54_bank_partial conv verbose j fs rom r hj hc h a0 regs k d s hk hs hP
  rw [hloop] at this
  exact this

/-- The conditions of C84 for a musical file, from the file alone. -/
theorem musical_repeats (ord : EnumOrder) (ho : ∀ l, (ord l).Perm l) (calls : List Callback) (hm : Musical calls) (hsafe : SafeLengths (timeBase calls) (file calls))
    (hinst : ∀ n ∈ fileTones (fileSettings (file calls)) (file calls), n.1.settings.1 ≠ none) (u : Nat) (hu : timeBase calls * u = 24 * lastTime (file calls)) (f : F32) :
    ∃ m s, readMidi ord calls = .ok m ∧ songFromMidi m f false = .ok s ∧ Playable s ∧ ∀ (mem : Mem) (number : Nat),
      (∀ r : Regs, ∃ part fuel evs T, s.parts[0]? = some part ∧ (∀ n, playSong mem (fuel + n) r number = some (evs, T, .goto 0xff T)) ∧
        timingOf evs = timingOf (partSound s part) ∧ ((∀ tr ∈ s.tracks, ∀ c ∈ tr, isCall c.command = false) → evs = partSound s part)) →
      Repeats (AsWritten calls) (fileTones (fileSettings (file calls)) (file calls)) (∃ u0 more, tempoMap (file calls) = (0, u0) :: more) mem number u := by
  obtain ⟨m, s, hr, hsong⟩ := C70_converts_partial ord calls hm.readable hm.paired hm.few hm.sane hm.basePos hm.base16 (fun x hx => (hm.short x hx).1) f
  obtain ⟨c1, c2, c3, c4, c5, c6, c7, c8⟩ := musical_read ord ho calls hm m hr
  have hcount : ∀ tr ∈ s.tracks, ∀ c ∈ tr, ∀ t n, c.command = .callLoop t n → n.toNat ≤ 2 := by
    intro tr htr c hc t n hcc
    have := plain_noCalls _ _ _ hsong tr htr c hc
    rw [hcc] at this; cases this
  have hd := song_short ord ho calls m hr c1 hm.tidy hm.noSlides c2 c3 c4 c5 c6 (by rw [read_timeBase ord calls m hr]; exact hsafe) f s hsong
  obtain ⟨-, hP, -⟩ := tidy_sound ord ho calls m hr c1 hm.tidy c2 c3 c4 c5 c6 f false s hsong hcount hd
  refine ⟨m, s, hr, hsong, hP, fun mem number h => ?_⟩
  have e : ownSettings m = fileSettings (file calls) := funext fun x => ownSettings_file ord calls m hr x
  have et := read_timeBase ord calls m hr
  have := tidy_repeats ord ho calls m hr c1 hm.tidy hm.noSlides c7 c2 c3 c4 c5 c6 f false s hsong hcount hd (by rw [e]; exact hinst) u (by rw [et]; exact hu) mem number h
  rw [e, et] at this
  obtain ⟨T, hT, hall⟩ := this
  refine ⟨T, hT, fun n regs hregs => ?_⟩
  obtain ⟨fuel, ps, heards, e1, e2, e3, e4, e5, e6, e7⟩ := hall n regs hregs
  refine ⟨fuel, ps, heards, e1, e2, e3, e4, e5, fun heard hh => (e6 heard hh).imp ?_, e7⟩
  rintro x n ⟨k1, off, k2, stop, q1, q2, q3, q4, q5⟩
  exact ⟨⟨k1.pitch, k1.instrument, k1.time, fun hl => k1.velocity ⟨rfl, hl⟩, fun _ => k1.volume c8⟩, off, k2, stop, q1, q2, q3, q4, fun _ => q5 rfl⟩

/-- **C84 (file alone), partial** (missing as in `C84_music_partial`, with `Musical` for tidy, and notes of other lengths). A musical file of safe lengths, all of whose notes have an instrument and whose last event is `u`
whole units from the start, is read and converted; and in every ROM it is built into in a slot that loops, the engine plays what the file says over and over, a pass every `u` units. -/
theorem C84_file_partial {Path : Type} (ord : EnumOrder) (ho : ∀ l, (ord l).Perm l) (calls : List Callback) (hm : Musical calls) (hsafe : SafeLengths (timeBase calls) (file calls))
    (hinst : ∀ n ∈ fileTones (fileSettings (file calls)) (file calls), n.1.settings.1 ≠ none) (u : Nat) (hu : timeBase calls * u = 24 * lastTime (file calls)) (f : F32) :
    ∃ m s, readMidi ord calls = .ok m ∧ songFromMidi m f false = .ok s ∧
      ∀ (conv : Converter Path) (verbose : Bool) (j : Job Path) (fs : Nat) (rom r : Rom), j.Ready conv (ofRom rom) fs → j.bank.Clean →
        writeBank conv verbose j.songs rom j.base j.first fs = .ok r → ∀ (k : Nat) (d : SongDef Path), j.songs[k]? = some d → loadSong conv d = .ok s → d.loops = true → ∀ a0 : Mem,
        Repeats (AsWritten calls) (fileTones (fileSettings (file calls)) (file calls)) (∃ u0 more, tempoMap (file calls) = (0, u0) :: more) (upload (ofRom r) j.bank.chunks a0) (fs + k) u := by
  obtain ⟨m, s, hr, hsong, hP, hrep⟩ := musical_repeats ord ho calls hm hsafe hinst u hu f
  refine ⟨m, s, hr, hsong, fun conv verbose j fs rom r hj hc h k d hk hs hloop a0 => hrep _ _ fun regs => ?_⟩
  have := C54_bank_partial conv verbose j fs rom r hj hc h a0 regs k d s hk hs hP
  rw [hloop] at this
  exact this

/-- **C84 (command line), partial** (missing as in `C84_file_partial`; loop optimisation). The tool is run without loop optimisation to build a ROM and succeeds; a slot that loops has a musical MIDI file of safe lengths, all
of whose notes have an instrument and whose last event is `u` whole units from the start. Then in the ROM file the song's number plays what the file says over and over, a pass every `u` units. -/
theorem C84_run_partial (x : Ext) (hord : ∀ l, (x.ord l).Perm l) (fs fs' : FS) (verbose : Bool) (cmd : Cmd) (rom : String) (addrs : List Nat) (js : List (Job String)) (file0 : Rom)
    (hb : Builds x fs (js.map Job.songs) rom addrs cmd) (hacc : ∀ n, x.accept n = n) (hrun : x.run fs false verbose cmd = (.ok (), fs'))
    (hrom : fs rom = some file0) (haddrs : addrs = js.map Job.base) (hfirst : bankFirstSongAddrs = js.map Job.first)
    (hr : AllReady (x.converter fs false) (ofRom file0) 0 js) (hs : HeadersSafe js) (hd : DataApart js)
    (pre : List (Job String)) (j : Job String) (post : List (Job String)) (hj : js = pre ++ j :: post) (hc : j.bank.Clean) (k : Nat) (d : SongDef String) (hk : j.songs[k]? = some d)
    (path : String) (bytes : List UInt8) (calls : List Callback)
    (hpath : d.input = some path) (hext : x.extension path = some "mid") (hbytes : fs path = some bytes) (hcalls : x.parseMidi bytes = some calls) (hloop : d.loops = true)
    (hm : Musical calls) (hsafe : SafeLengths (timeBase calls) (file calls))
    (hinst : ∀ n ∈ fileTones (fileSettings (file calls)) (file calls), n.1.settings.1 ≠ none) (u : Nat) (hu : timeBase calls * u = 24 * lastTime (file calls)) :
    ∃ image, fs' rom = some image ∧ ∀ a0 : Mem,
      Repeats (AsWritten calls) (fileTones (fileSettings (file calls)) (file calls)) (∃ u0 more, tempoMap (file calls) = (0, u0) :: more) (upload (ofRom image) j.bank.chunks a0)
        ((pre.map fun i => i.songs.length).sum + k) u := by
  rw [C66_builds x fs false verbose cmd _ rom addrs hb] at hrun
  obtain ⟨file', image, g1, g2, g3⟩ := C42_success x fs fs' _ rom addrs false verbose hacc hrun
  rw [hrom, Option.some.injEq] at g1
  subst g1
  obtain ⟨m, s, hread, hsong, hP, hrep⟩ := musical_repeats x.ord hord calls hm hsafe hinst u hu d.tempoFactor
  have hl : loadSong (x.converter fs false) d = .ok s := by
    unfold loadSong
    simp only [hpath, Ext.converter, hext, if_true, Ext.songFromMidiFile, hbytes, hcalls, hread]
    exact hsong
  refine ⟨image, g3, fun a0 => hrep _ _ fun regs => ?_⟩
  have := C54_build_partial _ verbose js addrs _ _ haddrs hfirst hr hs hd g2 pre j post hj hc a0 regs k d s hk hl hP
  rw [hloop] at this
  exact this

/-! ### Examples -/

/-- A melody with a change of tempo and a bass, at 48 ticks per beat. -/
def roundCalls : List Callback :=
  [ .header 1 48, .trackChange, .metaEvent 0 .setTempo [7, 161, 32], .midiEvent 0 (.programChange 0 40), .midiEvent 0 (.noteOn 0 60 100), .midiEvent 48 (.noteOff 0 60 0), .metaEvent 0 .setTempo [6, 26, 128],
    .midiEvent 0 (.noteOn 0 64 100), .midiEvent 48 (.noteOff 0 64 0),
    .trackChange, .midiEvent 0 (.programChange 1 0), .midiEvent 0 (.controlChange 1 7 90), .midiEvent 0 (.noteOn 1 48 80), .midiEvent 48 (.noteOff 1 48 0), .midiEvent 24 (.noteOn 1 52 80), .midiEvent 24 (.noteOff 1 52 0) ]

theorem round_musical : Musical roundCalls where
  readable := by
    refine ⟨?_, by decide, by decide⟩
    intro f tb h
    simp [roundCalls] at h
    exact h.1
  paired := ⟨by decide, by decide⟩
  few := by decide
  sane := ⟨by decide +kernel, by decide +kernel, by decide +kernel⟩
  tidy := ⟨by decide +kernel, by decide +kernel, by decide +kernel, by decide +kernel, by decide +kernel⟩
  orchestra := ⟨by decide +kernel, by decide +kernel, by decide +kernel, by decide +kernel, by decide +kernel⟩
  noSlides := by decide +kernel
  base24 := by decide
  basePos := by decide
  base16 := by decide
  short := by decide

def roundMidi : MidiHandler := match readMidi id roundCalls with
  | .ok h => h
  | .error _ => {}

theorem roundMidi_read : readMidi id roundCalls = .ok roundMidi := by
  have hok : (readMidi id roundCalls).toOption.isSome = true := by decide +kernel
  unfold roundMidi
  cases h : readMidi id roundCalls with
  | ok h => rfl
  | error e => rw [h] at hok; cases hok

def roundSong : Song := ⟨[[0, 1]], [[⟨none, none, none, .tempo 24⟩, ⟨none, none, none, .setInstrument 9⟩, ⟨some 24, some 12, some 7, .note 164⟩, ⟨none, none, none, .tempo 30⟩, ⟨some 24, some 12, some 7, .note 168⟩],
  [⟨none, none, none, .setInstrument 24⟩, ⟨none, none, none, .channelVolume 180⟩, ⟨some 24, some 10, some 7, .note 152⟩, restCmd 12, ⟨some 12, some 10, some 7, .note 156⟩]]⟩

theorem roundSong_of : songFromMidi roundMidi (F32.ofRat (1 / 5)) false = .ok roundSong := by decide +kernel

def roundConv : Converter Nat := fun _ _ => songFromMidi roundMidi (F32.ofRat (1 / 5)) false

def roundEncoded : Encoded := ⟨true, [0, 1],
  [⟨[250, 25, 229, 200, 237, 200, 231, 24, 224, 9, 24, 124, 164, 231, 30, 168, 0], []⟩, ⟨[237, 200, 224, 24, 237, 180, 24, 122, 152, 12, 201, 156, 0], []⟩]⟩

def roundJob : Job Nat := ⟨[slot (some 0) true], 0, 0xd002, bankAt 12 90 40, [roundEncoded]⟩

theorem roundJob_ready : roundJob.Ready roundConv (ofRom (oneRom 90 40)) 0 where
  addr := by decide
  bank := ⟨by decide, .cons (by decide) (.cons (by decide) (.cons (by decide) (.cons (by decide) (.nil _)))), by decide, by decide, rfl, by decide⟩
  songs := .cons ⟨roundSong, roundSong_of, rfl, by rfl, .cons (by decide) (.cons (by decide) .nil)⟩ .nil
  fits := ⟨by decide, by decide, by decide, by decide, by decide⟩

theorem round_tempos : tempoMap (file roundCalls) = [(0, 500000), (48, 400000)] := by
  have h : (file roundCalls).filterMap tempoMessage = [(0, 500000), (48, 400000)] := by decide +kernel
  unfold tempoMap
  rw [h]
  exact List.mergeSort_of_pairwise (by simp)

/-- The example meets all hypotheses: it repeats after 48 units, with its tempos. -/
example : ∃ r, writeBank roundConv false roundJob.songs (oneRom 90 40) roundJob.base roundJob.first 0 = .ok r ∧ (∃ u0 more, tempoMap (file roundCalls) = (0, u0) :: more) ∧
    ∀ a0 : Mem, Repeats (AsWritten roundCalls) (fileTones (fileSettings (file roundCalls)) (file roundCalls)) (∃ u0 more, tempoMap (file roundCalls) = (0, u0) :: more)
      (upload (ofRom r) roundJob.bank.chunks a0) (0 + 0) 48 := by
  obtain ⟨m, s, h1, h2, h3⟩ := C84_file_partial (Path := Nat) id (fun l => .refl l) roundCalls round_musical (by decide +kernel) (by decide +kernel) 48 (by decide +kernel) (F32.ofRat (1 / 5))
  have e1 : m = roundMidi := Except.ok.inj (h1.symm.trans roundMidi_read)
  rw [e1] at h2
  have e2 : s = roundSong := Except.ok.inj (h2.symm.trans roundSong_of)
  rw [e2] at h3
  obtain ⟨r, hr⟩ := C44_fits_ok roundConv false roundJob 0 (oneRom 90 40) roundJob_ready (by decide) (by decide +kernel) (by decide +kernel)
  exact ⟨r, hr, ⟨_, _, round_tempos⟩, fun a0 => h3 roundConv false roundJob 0 (oneRom 90 40) r roundJob_ready ⟨by decide, by decide, by decide, by decide, by decide⟩ hr 0 (slot (some 0) true) rfl roundSong_of rfl a0⟩

/-- Its notes: the third and the fourth are those of the bass. -/
example : fileTones (fileSettings (file roundCalls)) (file roundCalls) = [(⟨0, 164, 12, some 9, some 200⟩, some 48), (⟨48, 168, 12, some 9, some 200⟩, some 96),
    (⟨0, 152, 10, some 24, some 180⟩, some 48), (⟨72, 156, 10, some 24, some 180⟩, some 96)] := by decide +kernel

/-! ### What does not repeat -/

/-- The song of a reader's result built into a looping slot of a small ROM, and the first passes the engine plays. -/
def passesHeard (m : MidiHandler) (fuel n : Nat) : Option (List (List (Option (List Ev)))) :=
  match writeBank (fun (_ : Nat) _ => songFromMidi m (F32.ofRat (1 / 5)) false) false [slot (some 0) true] (oneRom 90 40) 0 0xd002 0 with
  | .ok r =>
    let mem := upload (ofRom r) (bankAt 12 90 40).chunks fun _ => none
    (word mem 0xd000).bind fun T => playOn mem fuel (2 * n) T (List.replicate 8 ⟨1, 2, 3⟩)
  | .error _ => none

/-- A note without an instrument, then one with. -/
def bareCalls : List Callback :=
  [ .header 1 24, .trackChange, .midiEvent 0 (.noteOn 0 60 100), .midiEvent 24 (.noteOff 0 60 0), .midiEvent 12 (.programChange 0 40), .midiEvent 12 (.noteOn 0 62 100), .midiEvent 24 (.noteOff 0 62 0) ]

theorem bare_musical : Musical bareCalls where
  readable := by
    refine ⟨?_, by decide, by decide⟩
    intro f tb h
    simp [bareCalls] at h
    exact h.1
  paired := ⟨by decide, by decide⟩
  few := by decide
  sane := ⟨by decide +kernel, by decide +kernel, by decide +kernel⟩
  tidy := ⟨by decide +kernel, by decide +kernel, by decide +kernel, by decide +kernel, by decide +kernel⟩
  orchestra := ⟨by decide +kernel, by decide +kernel, by decide +kernel, by decide +kernel, by decide +kernel⟩
  noSlides := by decide +kernel
  base24 := by decide
  basePos := by decide
  base16 := by decide
  short := by decide

/-- **A note before the first instrument changes**: a musical file of safe lengths and 72 units. Its first note has no instrument; in the second pass it has the one the channel was left with. -/
theorem C84_instrument_false : ∃ (calls : List Callback) (m : MidiHandler), Musical calls ∧ SafeLengths (timeBase calls) (file calls) ∧ timeBase calls * 72 = 24 * lastTime (file calls) ∧ readMidi id calls = .ok m ∧
    ∃ ps, passesHeard m 60 2 = some ps ∧
      (tonesIn (playedOver ps)).map (fun x => (x.sound.time, x.sound.pitch, x.sound.settings.1)) = [(0, 164, none), (48, 166, some 9), (72, 164, some 9), (120, 166, some 9)] := by
  obtain ⟨m, hm⟩ : ∃ m, readMidi id bareCalls = .ok m := by
    have hok : (readMidi id bareCalls).toOption.isSome = true := by decide +kernel
    cases h : readMidi id bareCalls with
    | ok x => exact ⟨x, rfl⟩
    | error e => rw [h] at hok; cases hok
  have hx : (readMidi id bareCalls).map (fun m => (passesHeard m 60 2).map fun ps => (tonesIn (playedOver ps)).map (fun x => (x.sound.time, x.sound.pitch, x.sound.settings.1))) =
      .ok (some [(0, 164, none), (48, 166, some 9), (72, 164, some 9), (120, 166, some 9)]) := by decide +kernel
  rw [hm] at hx
  simp only [Except.map, Except.ok.injEq] at hx
  obtain ⟨ps, h1, h2⟩ := Option.map_eq_some_iff.1 hx
  exact ⟨bareCalls, m, bare_musical, by decide +kernel, by decide +kernel, hm, ps, h1, h2⟩

/-- Two voices; the one that sounds longer ends half a unit after the last whole unit. -/
def oddCalls : List Callback :=
  [ .header 1 48, .trackChange, .midiEvent 0 (.programChange 0 40), .midiEvent 0 (.noteOn 0 60 100), .midiEvent 49 (.noteOff 0 60 0),
    .trackChange, .midiEvent 0 (.programChange 1 0), .midiEvent 0 (.noteOn 1 48 100), .midiEvent 48 (.noteOff 1 48 0) ]

theorem odd_musical : Musical oddCalls where
  readable := by
    refine ⟨?_, by decide, by decide⟩
    intro f tb h
    simp [oddCalls] at h
    exact h.1
  paired := ⟨by decide, by decide⟩
  few := by decide
  sane := ⟨by decide +kernel, by decide +kernel, by decide +kernel⟩
  tidy := ⟨by decide +kernel, by decide +kernel, by decide +kernel, by decide +kernel, by decide +kernel⟩
  orchestra := ⟨by decide +kernel, by decide +kernel, by decide +kernel, by decide +kernel, by decide +kernel⟩
  noSlides := by decide +kernel
  base24 := by decide
  basePos := by decide
  base16 := by decide
  short := by decide

/-- **Songs of other lengths**: a musical file of safe lengths, all notes with instruments, that lasts 24 and a half units. One channel of the part lasts 25 units and the other 24, so that one of them is cut short or goes
out of step. -/
theorem C84_length_false : ∃ (calls : List Callback) (m : MidiHandler), Musical calls ∧ SafeLengths (timeBase calls) (file calls) ∧ timeBase calls * 49 = 2 * (24 * lastTime (file calls)) ∧
    (∀ n ∈ fileTones (fileSettings (file calls)) (file calls), n.1.settings.1 ≠ none) ∧ readMidi id calls = .ok m ∧
    ∃ a b, passesHeard m 60 1 = some [[some a, some b, none, none, none, none, none, none]] ∧ heardTime a = 25 ∧ heardTime b = 24 := by
  obtain ⟨m, hm⟩ : ∃ m, readMidi id oddCalls = .ok m := by
    have hok : (readMidi id oddCalls).toOption.isSome = true := by decide +kernel
    cases h : readMidi id oddCalls with
    | ok x => exact ⟨x, rfl⟩
    | error e => rw [h] at hok; cases hok
  have hx : (readMidi id oddCalls).map (fun m => passesHeard m 60 1) = .ok (some [[some [.cmd 250 [25], .cmd 229 [200], .cmd 237 [200], .cmd 224 [9], .note 164 25 12 7],
      some [.cmd 237 [200], .cmd 224 [24], .note 152 24 12 7], none, none, none, none, none, none]]) := by decide +kernel
  rw [hm] at hx
  simp only [Except.map, Except.ok.injEq] at hx
  exact ⟨oddCalls, m, odd_musical, by decide +kernel, by decide +kernel, by decide +kernel, hm, _, _, hx, by decide, by decide⟩

/-- The tempo is set first after the first note. -/
def lateCalls : List Callback :=
  [ .header 1 24, .trackChange, .midiEvent 0 (.programChange 0 40), .midiEvent 0 (.noteOn 0 60 100), .midiEvent 24 (.noteOff 0 60 0), .metaEvent 0 .setTempo [7, 161, 32], .midiEvent 0 (.noteOn 0 64 100),
    .midiEvent 24 (.noteOff 0 64 0) ]

theorem late_musical : Musical lateCalls where
  readable := by
    refine ⟨?_, by decide, by decide⟩
    intro f tb h
    simp [lateCalls] at h
    exact h.1
  paired := ⟨by decide, by decide⟩
  few := by decide
  sane := ⟨by decide +kernel, by decide +kernel, by decide +kernel⟩
  tidy := ⟨by decide +kernel, by decide +kernel, by decide +kernel, by decide +kernel, by decide +kernel⟩
  orchestra := ⟨by decide +kernel, by decide +kernel, by decide +kernel, by decide +kernel, by decide +kernel⟩
  noSlides := by decide +kernel
  base24 := by decide
  basePos := by decide
  base16 := by decide
  short := by decide

/-- **Tempos set first after the start**: a musical file of safe lengths, all notes with instruments, that lasts 48 units. If the engine's tempo is 33 when the song begins, the first beat has it in the first pass, but the
tempo 24 in the second. -/
theorem C84_tempo_false : ∃ (calls : List Callback) (m : MidiHandler), Musical calls ∧ SafeLengths (timeBase calls) (file calls) ∧ timeBase calls * 48 = 24 * lastTime (file calls) ∧
    (∀ n ∈ fileTones (fileSettings (file calls)) (file calls), n.1.settings.1 ≠ none) ∧ readMidi id calls = .ok m ∧
    ∃ ps, passesHeard m 60 2 = some ps ∧ engineTempo 33 (playedOver ps) 0 = 33 ∧ engineTempo 33 (playedOver ps) (0 + 1 * 48) = 24 := by
  obtain ⟨m, hm⟩ : ∃ m, readMidi id lateCalls = .ok m := by
    have hok : (readMidi id lateCalls).toOption.isSome = true := by decide +kernel
    cases h : readMidi id lateCalls with
    | ok x => exact ⟨x, rfl⟩
    | error e => rw [h] at hok; cases hok
  have hx : (readMidi id lateCalls).map (fun m => (passesHeard m 60 2).map fun ps => (engineTempo 33 (playedOver ps) 0, engineTempo 33 (playedOver ps) (0 + 1 * 48))) = .ok (some (33, 24)) := by decide +kernel
  rw [hm] at hx
  simp only [Except.map, Except.ok.injEq] at hx
  obtain ⟨ps, h1, h2⟩ := Option.map_eq_some_iff.1 hx
  rw [Prod.mk.injEq] at h2
  exact ⟨lateCalls, m, late_musical, by decide +kernel, by decide +kernel, by decide +kernel, hm, ps, h1, h2.1, h2.2⟩

end M2S
