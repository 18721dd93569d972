import Verif.Report
import Verif.Proofs.RomJobs
/-
The messages of the builder: leaving them out gives `Verif/Rom.lean`; after a success they are those of the placed songs.
-/
namespace M2S
open RomSpec

/-! Results. -/

theorem told_pure {α : Type} (a : α) : (pure a : Told α) = ⟨[], .ok a⟩ := rfl

theorem result_pure {α : Type} (a : α) : (pure a : Told α).result = pure a := rfl

theorem result_bind {α β : Type} (x : Told α) (f : α → Told β) : (x >>= f).result = x.result >>= fun a => (f a).result := by
  show (match x.result with | .ok a => (⟨x.lines ++ (f a).lines, (f a).result⟩ : Told β) | .error e => ⟨x.lines, .error e⟩).result = _
  cases x.result <;> rfl

theorem result_quiet {α : Type} (r : Res α) : (quiet r).result = r := rfl

theorem result_say (v : Bool) (l : Line) : (say v l).result = pure () := rfl

theorem lines_ok {α β : Type} {x : Told α} {f : α → Told β} {a : α} (h : x.result = .ok a) : (x >>= f).lines = x.lines ++ (f a).lines := by
  show (match x.result with | .ok a => (⟨x.lines ++ (f a).lines, (f a).result⟩ : Told β) | .error e => ⟨x.lines, .error e⟩).lines = _
  rw [h]

theorem result_foldlM {α β : Type} {f : β → α → Told β} {g : β → α → Res β} (h : ∀ b a, (f b a).result = g b a) :
    ∀ (l : List α) (b : β), (l.foldlM f b).result = l.foldlM g b := by
  intro l
  induction l with
  | nil => intro b; rfl
  | cons a l ih =>
    intro b
    rw [List.foldlM_cons, List.foldlM_cons, result_bind, h]
    congr 1
    funext x
    exact ih x

theorem res_unit_bind {β : Type} (f : Unit → Res β) : ((pure () : Res Unit) >>= f) = f () := rfl

theorem result_switch (w : Walk) (v : Bool) (so off need ra len ar : Nat) :
    (tellSwitch w v so off need ra len ar).result = switchChunk w v so off need ra len ar := by
  unfold tellSwitch switchChunk
  by_cases h1 : off + need > len
  · rw [if_pos h1, if_pos h1]
    by_cases h2 : ar = w.overflowAram
    · rw [if_pos h2, if_pos h2]; rfl
    · rw [if_neg h2, if_neg h2]
      cases v with
      | false => rw [if_neg (by simp)]; rfl
      | true =>
        unfold saySwitched
        simp only [if_true, result_bind, result_quiet, result_say, result_pure, subU, true_and]
        by_cases h3 : so > len
        · rw [if_pos h3, if_neg (by omega)]; rfl
        · rw [if_neg h3, if_pos (by omega)]; rfl
  · rw [if_neg h1, if_neg h1]; rfl

theorem result_track (w : Walk) (v : Bool) (so : Nat) (song : Song) (st : TrackLoop) (i : Nat) :
    (tellTrack w v so song st i).result = writeSongTrack w v so song st i := by
  unfold tellTrack writeSongTrack
  simp only [result_bind, result_quiet, result_switch, result_say, res_unit_bind]
  congr 1
  funext o
  congr 1
  funext s
  split
  · rw [result_bind, result_quiet]; rfl
  · rfl

theorem result_addr (v : Bool) (line : Nat → Nat → Line) (rom : Rom) (addrs : List Nat) (t p : Nat) :
    (tellTrackAddr v line rom addrs t p).result = pokeTrackAddr rom addrs t p := by
  unfold tellTrackAddr pokeTrackAddr
  cases addrs[t]? with
  | none => rfl
  | some a => rw [result_bind, result_say]; rfl

theorem result_part (v : Bool) (addrs : List Nat) : ∀ (ts : List Nat) (p : Nat) (rom : Rom),
    (tellPartTracks v addrs ts p rom).result = writePartTracks addrs ts p rom := by
  intro ts
  induction ts with
  | nil => intro p rom; rfl
  | cons t ts ih =>
    intro p rom
    rw [tellPartTracks, writePartTracks, result_bind, result_addr]
    congr 1
    funext r
    exact ih _ _

theorem result_loops (v : Bool) (addrs : List Nat) (refs : List RomCallLoopRef) (rom : Rom) :
    (tellCallLoops v addrs refs rom).result = writeCallLoops addrs refs rom :=
  result_foldlM (fun _ _ => result_addr ..) refs rom

theorem result_song (w : Walk) (v : Bool) (st : BankState) (song : Song) (loops : Bool) (name : String) :
    (tellSong w v st song loops name).result = writeSong w v st song loops := by
  unfold tellSong writeSong
  simp only [result_bind, result_quiet, result_switch, result_say, res_unit_bind, result_foldlM (result_track w v _ song), result_part, result_loops,
    result_pure]

/-- All files have a name. -/
def Named {Path : Type} (fileName : Path → Option String) (songs : List (SongDef Path)) : Prop :=
  ∀ d ∈ songs, ∀ p, d.input = some p → (fileName p).isSome

theorem slotName_ok {Path : Type} {fileName : Path → Option String} {songs : List (SongDef Path)} (h : Named fileName songs) {d : SongDef Path}
    (hd : d ∈ songs) : ∃ n, slotName fileName d = .ok n := by
  unfold slotName
  cases hi : d.input with
  | none => exact ⟨_, rfl⟩
  | some p =>
    have := h d hd p hi
    cases hf : fileName p with
    | none => rw [hf] at this; cases this
    | some n => exact ⟨n, by simp only [hf]⟩

theorem result_songs {Path : Type} {conv : Converter Path} {fileName : Path → Option String} {w : Walk} {v : Bool} : ∀ {songs : List (SongDef Path)},
    Named fileName songs → ∀ (st : BankState),
    (songs.foldlM (fun st d => do
      let name ← quiet (slotName fileName d)
      let song ← quiet (loadSong conv d)
      tellSong w v st song d.loops name) st).result =
    songs.foldlM (fun st d => do
      let song ← loadSong conv d
      writeSong w v st song d.loops) st := by
  intro songs
  induction songs with
  | nil => intro _ st; rfl
  | cons d ds ih =>
    intro h st
    obtain ⟨n, hn⟩ := slotName_ok h (List.mem_cons_self ..)
    rw [List.foldlM_cons, List.foldlM_cons]
    simp only [result_bind, result_quiet, hn, result_song]
    show ((loadSong conv d >>= fun song => writeSong w v st song d.loops) >>= fun st => _) = _
    congr 1
    funext st'
    exact ih (fun x hx => h x (List.mem_cons_of_mem _ hx)) st'

theorem result_bank {Path : Type} {conv : Converter Path} {fileName : Path → Option String} {v : Bool} {name : String} {songs : List (SongDef Path)}
    (h : Named fileName songs) (rom : Rom) (base first fs : Nat) :
    (tellBank conv fileName v name songs rom base first fs).result = writeBank conv v songs rom base first fs := by
  unfold tellBank writeBank
  simp only [result_bind, result_quiet, result_say, res_unit_bind, result_songs h]

theorem result_banks {Path : Type} {conv : Converter Path} {fileName : Path → Option String} {v : Bool} :
    ∀ {bs : List (String × List (SongDef Path) × Nat × Nat)}, (∀ b ∈ bs, Named fileName b.2.1) → ∀ (rom : Rom) (fs : Nat),
    (tellBanks conv fileName v bs rom fs).result = writeBanks conv v (bs.map Prod.snd) rom fs := by
  intro bs
  induction bs with
  | nil => intro _ rom fs; rfl
  | cons b bs ih =>
    intro h rom fs
    obtain ⟨name, songs, base, first⟩ := b
    rw [tellBanks, List.map_cons, writeBanks, result_bind, result_bank (h _ (List.mem_cons_self ..))]
    congr 1
    funext r
    exact ih (fun b hb => h b (List.mem_cons_of_mem _ hb)) r _

/-! Without `verbose` there are no messages. -/

theorem silent_bind {α β : Type} {x : Told α} {f : α → Told β} (hx : x.lines = []) (hf : ∀ a, (f a).lines = []) : (x >>= f).lines = [] := by
  show (match x.result with | .ok a => (⟨x.lines ++ (f a).lines, (f a).result⟩ : Told β) | .error e => ⟨x.lines, .error e⟩).lines = _
  cases x.result with
  | ok a => simp only [hx, hf, List.append_nil]
  | error e => exact hx

theorem silent_quiet {α : Type} (r : Res α) : (quiet r).lines = [] := rfl

theorem silent_foldlM {α β : Type} {f : β → α → Told β} (h : ∀ b a, (f b a).lines = []) : ∀ (l : List α) (b : β), (l.foldlM f b).lines = [] := by
  intro l
  induction l with
  | nil => intro b; rfl
  | cons a l ih => intro b; rw [List.foldlM_cons]; exact silent_bind (h b a) fun x => ih x

theorem silent_switch (w : Walk) (so off need ra len ar : Nat) : (tellSwitch w false so off need ra len ar).lines = [] := by
  unfold tellSwitch
  split
  · split
    · rfl
    · exact silent_bind rfl fun _ => rfl
  · rfl

theorem silent_track (w : Walk) (so : Nat) (song : Song) (st : TrackLoop) (i : Nat) : (tellTrack w false so song st i).lines = [] := by
  unfold tellTrack
  refine silent_bind rfl fun o => silent_bind (silent_switch ..) fun s => silent_bind rfl fun _ => ?_
  split
  · exact silent_bind rfl fun _ => rfl
  · rfl

theorem silent_addr (line : Nat → Nat → Line) (rom : Rom) (addrs : List Nat) (t p : Nat) : (tellTrackAddr false line rom addrs t p).lines = [] := by
  unfold tellTrackAddr
  split
  · rfl
  · exact silent_bind rfl fun _ => rfl

theorem silent_part (addrs : List Nat) : ∀ (ts : List Nat) (p : Nat) (rom : Rom), (tellPartTracks false addrs ts p rom).lines = [] := by
  intro ts
  induction ts with
  | nil => intro p rom; rfl
  | cons t ts ih => intro p rom; rw [tellPartTracks]; exact silent_bind (silent_addr ..) fun r => ih _ _

theorem silent_song (w : Walk) (st : BankState) (song : Song) (loops : Bool) (name : String) : (tellSong w false st song loops name).lines = [] := by
  unfold tellSong
  exact silent_bind (silent_switch ..) fun s => silent_bind rfl fun _ => silent_bind rfl fun _ => silent_bind rfl fun _ =>
    silent_bind (silent_foldlM (fun _ _ => silent_track ..) _ _) fun tl => silent_bind rfl fun _ => silent_bind rfl fun _ => silent_bind rfl fun _ =>
    silent_bind (silent_part ..) fun _ => silent_bind (silent_foldlM (fun _ _ => silent_addr ..) _ _) fun _ => silent_bind rfl fun _ => rfl

theorem silent_bank {Path : Type} (conv : Converter Path) (fileName : Path → Option String) (name : String) (songs : List (SongDef Path)) (rom : Rom)
    (base first fs : Nat) : (tellBank conv fileName false name songs rom base first fs).lines = [] := by
  unfold tellBank
  exact silent_bind rfl fun w => silent_bind rfl fun _ => silent_bind rfl fun _ =>
    silent_bind (silent_foldlM (fun st d => silent_bind rfl fun _ => silent_bind rfl fun _ => silent_song ..) _ _) fun _ => rfl

theorem silent_banks {Path : Type} (conv : Converter Path) (fileName : Path → Option String) : ∀ (bs : List (String × List (SongDef Path) × Nat × Nat)) (rom : Rom)
    (fs : Nat), (tellBanks conv fileName false bs rom fs).lines = [] := by
  intro bs
  induction bs with
  | nil => intro rom fs; rfl
  | cons b bs ih =>
    intro rom fs
    obtain ⟨name, songs, base, first⟩ := b
    rw [tellBanks]
    exact silent_bind (silent_bank ..) fun r => ih r _

/-! The messages of a success. -/

theorem lines_quiet {α β : Type} {r : Res α} {f : α → Told β} {a : α} (h : r = .ok a) : (quiet r >>= f).lines = (f a).lines := by
  rw [lines_ok (x := quiet r) h]; rfl

theorem lines_say {β : Type} (l : Line) (f : Unit → Told β) : (say true l >>= f).lines = l :: (f ()).lines := by
  rw [lines_ok (x := say true l) (a := ()) rfl]; rfl

/-- The message of a switch. -/
def switchLine (sw : Bool) (len so : Nat) : List Line := if sw then [.switched (len - so)] else []

theorem lines_switch {w : Walk} {so off need ra len ar : Nat} {s : Bool × Nat × Nat × Nat × Nat}
    (h : switchChunk w true so off need ra len ar = .ok s) : (tellSwitch w true so off need ra len ar).lines = switchLine s.1 len so := by
  unfold switchChunk at h
  unfold tellSwitch switchLine
  by_cases h1 : off + need > len
  · rw [if_pos h1] at h ⊢
    by_cases h2 : ar = w.overflowAram
    · rw [if_pos h2] at h; cases h
    · rw [if_neg h2] at h ⊢
      by_cases h3 : so > len
      · rw [if_pos ⟨rfl, h3⟩] at h; cases h
      · rw [if_neg (by simp [h3])] at h
        cases h
        have hsub : subU len so = .ok (len - so) := by rw [subU_ok]; exact ⟨by omega, rfl⟩
        have e : (saySwitched true len so).result = .ok () := by unfold saySwitched; rw [if_pos rfl, result_bind, result_quiet, hsub]; rfl
        rw [lines_ok e]
        unfold saySwitched
        rw [if_pos rfl, lines_quiet hsub]
        rfl
  · rw [if_neg h1] at h ⊢
    cases h
    rfl

/-- The messages about placed tracks; `len` is the length of the chunk at first. -/
def trackLines (so : Nat) : Nat → List Placed → List Line
  | _, [] => []
  | len, p :: ps => switchLine p.switched len so ++ .track p.romPos (p.cur.aram + p.cur.off) :: trackLines so p.cur.len ps

theorem lines_track {w : Walk} {so : Nat} {song : Song} {st st' : TrackLoop} {i : Nat} (h : writeSongTrack w true so song st i = .ok st') :
    ∃ o s, song.writeTrack i = .ok o ∧ switchChunk w true so st.trackOffset o.bytes.length st.romAddr st.chunkLength st.aramBaseAddr = .ok s ∧
      (tellTrack w true so song st i).lines = switchLine s.1 st.chunkLength so ++ [.track (s.2.2.1 + s.2.1) (s.2.2.2.2 + s.2.1)] := by
  obtain ⟨o, s, ho, hs, hin, -⟩ := writeSongTrack_ok.mp h
  refine ⟨o, s, ho, hs, ?_⟩
  unfold tellTrack
  rw [lines_quiet ho, lines_ok (by rw [result_switch]; exact hs), lines_switch hs]
  congr 1
  obtain ⟨sw, off, ra, len, ar⟩ := s
  simp only [lines_say]
  split
  · rename_i hl
    rw [lines_quiet (splice_ok.mpr ⟨hin hl, rfl⟩)]; rfl
  · rfl

theorem lines_tracks {w : Walk} {so : Nat} {song : Song} : ∀ (is : List Nat) {st st' : TrackLoop} {ps : List Placed} {c : Cur},
    is.foldlM (writeSongTrack w true so song) st = .ok st' → placeTracks w true so song is st.cur = .ok (ps, c) →
    (is.foldlM (tellTrack w true so song) st).lines = trackLines so st.chunkLength ps := by
  intro is
  induction is with
  | nil => intro st st' ps c _ h; cases h; rfl
  | cons i is ih =>
    intro st st' ps0 c h hps
    rw [List.foldlM_cons, res_bind] at h
    obtain ⟨st1, h1, h⟩ := h
    obtain ⟨o, s, ho, hs, hl⟩ := lines_track h1
    obtain ⟨o', s', ho', hs', -, rfl⟩ := writeSongTrack_ok.mp h1
    rw [ho] at ho'; cases ho'
    rw [hs] at hs'; cases hs'
    rw [placeTracks, res_bind] at hps
    obtain ⟨o', ho', hps⟩ := hps
    rw [ho] at ho'; cases ho'
    rw [res_bind] at hps
    obtain ⟨s', hs', hps⟩ := hps
    have hs'' : switchChunk w true so st.trackOffset o.bytes.length st.romAddr st.chunkLength st.aramBaseAddr = .ok s' := hs'
    rw [hs] at hs''; cases hs''
    rw [res_bind] at hps
    obtain ⟨⟨ps, c'⟩, hps, heq⟩ := hps
    rw [res_pure] at heq
    cases heq
    rw [List.foldlM_cons, lines_ok (by rw [result_track]; exact h1), hl, ih h hps, trackLines]
    simp [Placed.romPos]

/-- The messages about the part's pointers. -/
def partLines (addrs : List Nat) : List Nat → Nat → List Line
  | [], _ => []
  | t :: ts, p => .trackPointer (addrs.getD t 0) p :: partLines addrs ts (p + 2)

theorem lines_addr {line : Nat → Nat → Line} {rom r : Rom} {addrs : List Nat} {t p : Nat} (h : pokeTrackAddr rom addrs t p = .ok r) :
    (tellTrackAddr true line rom addrs t p).lines = [line (addrs.getD t 0) p] := by
  obtain ⟨ht, -, -⟩ := pokeTrackAddr_ok.mp h
  unfold tellTrackAddr
  rw [List.getElem?_eq_getElem ht, List.getD_eq_getElem?_getD, List.getElem?_eq_getElem ht]
  simp only [lines_say, Option.getD_some]
  rfl

theorem lines_part {addrs : List Nat} : ∀ (ts : List Nat) {p : Nat} {rom r : Rom}, writePartTracks addrs ts p rom = .ok r →
    (tellPartTracks true addrs ts p rom).lines = partLines addrs ts p := by
  intro ts
  induction ts with
  | nil => intro p rom r _; rfl
  | cons t ts ih =>
    intro p rom r h
    rw [writePartTracks, res_bind] at h
    obtain ⟨r1, h1, h⟩ := h
    rw [tellPartTracks, lines_ok (by rw [result_addr]; exact h1), lines_addr h1, ih h]
    rfl

/-- The messages about the operands of subroutine calls. -/
def refLines (addrs : List Nat) (refs : List RomCallLoopRef) : List Line :=
  refs.map fun r => .loopPointer (addrs.getD r.targetTrack 0) (r.chunkBase + r.refPos)

theorem lines_refs {addrs : List Nat} : ∀ (refs : List RomCallLoopRef) {rom r : Rom}, writeCallLoops addrs refs rom = .ok r →
    (tellCallLoops true addrs refs rom).lines = refLines addrs refs := by
  intro refs
  induction refs with
  | nil => intro rom r _; rfl
  | cons x refs ih =>
    intro rom r h
    unfold writeCallLoops tellCallLoops at *
    rw [List.foldlM_cons, res_bind] at h
    obtain ⟨r1, h1, h⟩ := h
    rw [List.foldlM_cons, lines_ok (by rw [result_addr]; exact h1), lines_addr h1, ih h]
    rfl

/-- The messages about a song placed from `len`, `off` on, which ends at offset `stop`. -/
def songLines (c : Cur) (s : PlacedSong) (stop : Nat) (name : String) : List Line :=
  switchLine s.switched c.len c.off ++ .song (s.head.romAddr + s.head.off) s.aram s.table :: (trackLines s.head.off s.head.len s.tracks ++
    .part s.partPos s.partAram :: (partLines s.addrs s.part s.partPos ++ (refLines s.addrs (s.tracks.flatMap Placed.refs) ++
    [.total name (if stop > s.head.off then stop - s.head.off else stop)])))

theorem lines_song {w : Walk} {st st' : BankState} {song : Song} {loops : Bool} {name : String} {s : PlacedSong} {c : Cur}
    (h : writeSong w true st song loops = .ok st') (hp : placeSong w true st.cur st.songTableAddr song loops = .ok (s, c)) :
    (tellSong w true st song loops name).lines = songLines st.cur s c.off name := by
  unfold writeSong at h
  simp only [res_bind] at h
  obtain ⟨sw, hs, rom1, h1, rom2, h2, tl, htl, rom3, h3, part, hpart, rom4, h4, rom5, h5, -⟩ := h
  have htl' := htl
  rw [trackLoop_ok] at htl'
  obtain ⟨ps, c', hps, -, rfl⟩ := htl'
  unfold placeSong at hp
  rw [res_bind] at hp
  obtain ⟨sw', hs', hp⟩ := hp
  have : switchChunk w true st.songOffset st.songOffset (songHeaderSize loops + 16) st.romAddr st.chunkLength st.aramBaseAddr = .ok sw' := hs'
  rw [hs] at this; cases this
  rw [res_bind] at hp
  obtain ⟨⟨ps', c''⟩, hps', hp⟩ := hp
  have e : placeTracks w true sw.2.1 song (List.range song.tracks.length) ⟨sw.2.2.1, sw.2.2.2.1, sw.2.2.2.2, sw.2.1 + songHeaderSize loops + 16⟩ = .ok (ps', c'') := hps'
  have e2 : placeTracks w true sw.2.1 song (List.range song.tracks.length) ⟨sw.2.2.1, sw.2.2.2.1, sw.2.2.2.2, sw.2.1 + songHeaderSize loops + 16⟩ = .ok (ps, c') := hps
  rw [e] at e2; cases e2
  rw [res_bind] at hp
  obtain ⟨part', hpart', hp⟩ := hp
  rw [hpart] at hpart'; cases hpart'
  rw [res_pure] at hp
  cases hp
  obtain ⟨sw, off, ra, len, ar⟩ := sw
  simp only [List.nil_append] at *
  unfold tellSong songLines
  rw [lines_ok (by rw [result_switch]; exact hs), lines_switch hs]
  congr 1
  simp only [lines_say]
  rw [lines_quiet h1, lines_quiet h2, lines_ok (by rw [result_foldlM (result_track w true _ song)]; exact htl), lines_tracks _ htl hps]
  simp only [lines_say]
  rw [lines_quiet h3, lines_quiet hpart, lines_ok (by rw [result_part]; exact h4), lines_part _ h4, lines_ok (by rw [result_loops]; exact h5), lines_refs _ h5]
  simp only [lines_say]
  rfl

theorem nameless_songs {Path : Type} {conv : Converter Path} {fileName : Path → Option String} {w : Walk} {v : Bool} : ∀ (ds : List (SongDef Path)) (st : BankState),
    (∃ d ∈ ds, ∃ p, d.input = some p ∧ fileName p = none) → ∀ st',
    (ds.foldlM (fun st d => do
      let name ← quiet (slotName fileName d)
      let song ← quiet (loadSong conv d)
      tellSong w v st song d.loops name) st).result ≠ .ok st' := by
  intro ds
  induction ds with
  | nil => rintro st ⟨d, hd, -⟩; cases hd
  | cons d ds ih =>
    rintro st ⟨x, hx, p, hp, hf⟩ st' h
    rw [List.foldlM_cons, result_bind, res_bind] at h
    obtain ⟨st1, h1, h⟩ := h
    rcases List.mem_cons.mp hx with rfl | hx
    · rw [result_bind, result_quiet, res_bind] at h1
      obtain ⟨n, hn, -⟩ := h1
      unfold slotName at hn
      rw [hp] at hn
      simp only [hf] at hn
      cases hn
    · exact ih st1 ⟨x, hx, p, hp, hf⟩ st' h

end M2S
