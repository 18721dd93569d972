import Verif.Spec.Report
import Verif.Proofs.Report
import Verif.Proofs.RomFree
/-
The messages of a success are true.
-/
namespace M2S
open RomSpec Nspc

/-! The references of a track are apart. -/

theorem encRefs_sorted : ∀ (cs : List PCmd) (d : UInt8) (vs : Option UInt8) (pos : Nat),
    (encRefs cs d vs pos).Pairwise (fun a b => a.refPos + 4 ≤ b.refPos) ∧ ∀ r ∈ encRefs cs d vs pos, pos < r.refPos := by
  intro cs
  induction cs with
  | nil => intro d vs pos; simp [encRefs]
  | cons c cs ih =>
    intro d vs pos
    obtain ⟨h1, h2⟩ := ih (c.duration.getD d) (nextVS c vs) (pos + (preBytes c d vs).length + (cmdBytes placeholder c.command).length)
    rw [encRefs]
    have hc : (cmdRefs c.command (pos + (preBytes c d vs).length)).Pairwise (fun a b => a.refPos + 4 ≤ b.refPos) ∧
        ∀ r ∈ cmdRefs c.command (pos + (preBytes c d vs).length), pos + (preBytes c d vs).length < r.refPos ∧
          r.refPos + 3 ≤ pos + (preBytes c d vs).length + (cmdBytes placeholder c.command).length := by
      cases c.command <;> simp [cmdRefs, cmdBytes, encodeCmd]
    refine ⟨List.pairwise_append.mpr ⟨hc.1, h1, fun a ha b hb => ?_⟩, fun r hr => ?_⟩
    · have := (hc.2 a ha).2
      have := h2 b hb
      omega
    · rcases List.mem_append.mp hr with hr | hr
      · have := (hc.2 r hr).1; omega
      · have := h2 r hr; omega

theorem writeTrack_sorted {s : Song} {i : Nat} {o : Out} (h : s.writeTrack i = .ok o) : o.refs.Pairwise fun a b => a.refPos + 4 ≤ b.refPos := by
  cases ht : s.tracks[i]? with
  | none => unfold Song.writeTrack at h; rw [ht] at h; cases h
  | some track =>
    by_cases hne : track = []
    · unfold Song.writeTrack at h
      rw [ht, hne] at h
      simp at h
      rw [← h]
      exact .nil
    · rw [(writeTrack_eq s i track ht hne o h).2]
      exact (encRefs_sorted ..).1

theorem refs_apart {refs : List CallLoopRef} (h : refs.Pairwise fun a b => a.refPos + 4 ≤ b.refPos) {a b : CallLoopRef} (ha : a ∈ refs) (hb : b ∈ refs) :
    a.refPos = b.refPos ∨ a.refPos + 4 ≤ b.refPos ∨ b.refPos + 4 ≤ a.refPos := by
  obtain ⟨i, hi, rfl⟩ := List.getElem_of_mem ha
  obtain ⟨j, hj, rfl⟩ := List.getElem_of_mem hb
  rw [List.pairwise_iff_getElem] at h
  rcases Nat.lt_trichotomy i j with hij | rfl | hij
  · exact .inr (.inl (h i j hi hj hij))
  · exact .inl rfl
  · exact .inr (.inr (h j i hj hi hij))

theorem writeTrack_call {s : Song} {i : Nat} {o : Out} (h : s.writeTrack i = .ok o) : ∀ r ∈ o.refs, 1 ≤ r.refPos ∧ o.bytes[r.refPos - 1]? = some 0xef := by
  intro r hr
  cases ht : s.tracks[i]? with
  | none => unfold Song.writeTrack at h; rw [ht] at h; cases h
  | some track =>
    by_cases hne : track = []
    · unfold Song.writeTrack at h
      rw [ht, hne] at h
      simp at h
      rw [← h] at hr
      cases hr
    · obtain ⟨h1, h2, -⟩ := (C05_call_refs s i track ht hne o h).2.1 r hr
      exact ⟨h1, h2⟩

theorem patch_length (f : Nat → UInt8 × UInt8) (refs : List CallLoopRef) (bs : List UInt8) : (refs.foldl (Nspc.patchOne f) bs).length = bs.length := by
  induction refs generalizing bs with
  | nil => rfl
  | cons r refs ih => rw [List.foldl_cons, ih]; simp [Nspc.patchOne]

theorem patch_other (f : Nat → UInt8 × UInt8) {j : Nat} : ∀ (refs : List CallLoopRef) (bs : List UInt8), (∀ r ∈ refs, j ≠ r.refPos ∧ j ≠ r.refPos + 1) →
    (refs.foldl (Nspc.patchOne f) bs)[j]? = bs[j]? := by
  intro refs
  induction refs with
  | nil => intro bs _; rfl
  | cons r refs ih =>
    intro bs h
    obtain ⟨h1, h2⟩ := h r (List.mem_cons_self ..)
    rw [List.foldl_cons, ih _ fun x hx => h x (List.mem_cons_of_mem _ hx)]
    simp only [Nspc.patchOne, List.getElem?_set]
    rw [if_neg (by omega), if_neg (by omega)]

theorem patch_at (f : Nat → UInt8 × UInt8) : ∀ (refs : List CallLoopRef) (bs : List UInt8), refs.Pairwise (fun a b => a.refPos + 4 ≤ b.refPos) →
    ∀ r ∈ refs, r.refPos + 1 < bs.length → (refs.foldl (Nspc.patchOne f) bs)[r.refPos]? = some (f r.targetTrack).1 ∧
      (refs.foldl (Nspc.patchOne f) bs)[r.refPos + 1]? = some (f r.targetTrack).2 := by
  intro refs
  induction refs with
  | nil => intro bs _ r hr; cases hr
  | cons x refs ih =>
    intro bs hp r hr hl
    rw [List.pairwise_cons] at hp
    rw [List.foldl_cons]
    rcases List.mem_cons.mp hr with rfl | hr
    · rw [patch_other f refs _ fun y hy => by have := hp.1 y hy; omega, patch_other f refs _ fun y hy => by have := hp.1 y hy; omega]
      simp only [Nspc.patchOne, List.getElem?_set, List.length_set]
      simp [hl, show r.refPos < bs.length by omega]
    · refine ih _ hp.2 r hr ?_
      simpa [Nspc.patchOne] using hl

/-! The messages of the songs of a bank. -/

theorem lines_songs {Path : Type} {conv : Converter Path} {fileName : Path → Option String} {w : Walk} : ∀ (ds : List (SongDef Path)) {st st' : BankState} {ps : List PlacedSong}
    {c : Cur}, Named fileName ds → ds.foldlM (fun st d => do
      let song ← loadSong conv d
      writeSong w true st song d.loops) st = .ok st' → placeBank conv w true ds st.cur st.songTableAddr = .ok (ps, c) →
    ∃ segs : List (List Line), (ds.foldlM (fun st d => do
      let name ← quiet (slotName fileName d)
      let song ← quiet (loadSong conv d)
      tellSong w true st song d.loops name) st).lines = segs.flatten ∧ segs.length = ds.length ∧
      ∀ (k : Nat) (d : SongDef Path) (s : PlacedSong) (seg : List Line), ds[k]? = some d → ps[k]? = some s → segs[k]? = some seg → ∃ c c' : Cur, ∃ t song, placeSong w true c t song d.loops = .ok (s, c') ∧
        seg = songLines c s c'.off (shownName fileName d) := by
  intro ds
  induction ds with
  | nil => intro st st' ps c _ _ _; exact ⟨[], rfl, rfl, by simp⟩
  | cons d ds ih =>
    intro st st' ps0 c hn h hp
    rw [List.foldlM_cons, res_bind] at h
    obtain ⟨st1, h1, h⟩ := h
    have h1' := h1
    rw [res_bind] at h1'
    obtain ⟨song, hsong, h1'⟩ := h1'
    rw [placeBank, res_bind] at hp
    obtain ⟨song', hsong', hp⟩ := hp
    rw [hsong] at hsong'; cases hsong'
    rw [res_bind] at hp
    obtain ⟨⟨s, c1⟩, hs, hp⟩ := hp
    rw [res_bind] at hp
    obtain ⟨⟨ps, c2⟩, hps, heq⟩ := hp
    rw [res_pure] at heq
    cases heq
    obtain ⟨s', c1', hs', -, -, hst1⟩ := writeSong_ok.mp h1'
    rw [hs] at hs'; cases hs'
    have hcur : st1.cur = c1 := by rw [hst1]; rfl
    have htab : st1.songTableAddr = st.songTableAddr + 2 := by rw [hst1]
    rw [← hcur, ← htab] at hps
    obtain ⟨segs, hl, hlen, hall⟩ := ih (fun x hx => hn x (List.mem_cons_of_mem _ hx)) h hps
    have hname : slotName fileName d = .ok (shownName fileName d) := by
      unfold slotName shownName
      cases hi : d.input with
      | none => rfl
      | some p =>
        have := hn d (List.mem_cons_self ..) p hi
        cases hf : fileName p with
        | none => rw [hf] at this; cases this
        | some n => simp only [hf, Option.getD_some]
    refine ⟨songLines st.cur s c1.off (shownName fileName d) :: segs, ?_, by simp [hlen], ?_⟩
    · rw [List.foldlM_cons, lines_ok (a := st1) (by
        simp only [result_bind, result_quiet, hname, result_song]
        exact h1), hl, lines_quiet hname, lines_quiet hsong, lines_song h1' hs]
      rfl
    · intro k d' s' seg hd hs'' hseg
      cases k with
      | zero =>
        simp only [List.getElem?_cons_zero, Option.some.injEq] at hd hs'' hseg
        subst hd hs'' hseg
        exact ⟨_, _, _, _, hs, rfl⟩
      | succ k =>
        simp only [List.getElem?_cons_succ] at hd hs'' hseg
        exact hall k d' s' seg hd hs'' hseg

/-- The messages of a bank. -/
theorem lines_bank {Path : Type} {conv : Converter Path} {fileName : Path → Option String} {name : String} {songs : List (SongDef Path)} {rom r : Rom}
    {base first fs : Nat} (hn : Named fileName songs) (h : writeBank conv true songs rom base first fs = .ok r) :
    ∃ w ps c, findChunks rom base = .ok w ∧ aramBase ≤ first ∧ placeBank conv w true songs (startCur w first) (w.baseAddr + 2 * fs) = .ok (ps, c) ∧
      (∀ x ∈ (PlacedBank.mk w first (w.baseAddr + 2 * fs) ps).writes, x.1 < rom.length) ∧ r = applyW rom (PlacedBank.mk w first (w.baseAddr + 2 * fs) ps).writes ∧
      ∃ segs : List (List Line), (tellBank conv fileName true name songs rom base first fs).lines = .bank name w.baseAddr fs w.baseLen :: segs.flatten ∧
        segs.length = songs.length ∧
        ∀ (k : Nat) (d : SongDef Path) (s : PlacedSong) (seg : List Line), songs[k]? = some d → ps[k]? = some s → segs[k]? = some seg → ∃ c c' : Cur, ∃ t song, placeSong w true c t song d.loops = .ok (s, c') ∧
          seg = songLines c s c'.off (shownName fileName d) := by
  obtain ⟨w, ps, c, hw, hfirst, hpl, -, hin, hr⟩ := writeBank_ok.mp h
  refine ⟨w, ps, c, hw, hfirst, hpl, hin, hr, ?_⟩
  unfold writeBank at h
  simp only [res_bind] at h
  obtain ⟨w', hw', so, hso, st, hst, hfill⟩ := h
  rw [hw] at hw'; cases hw'
  obtain ⟨-, hso2⟩ := subU_ok.mp hso
  rw [hso2] at hst hso
  clear hso2
  have hpl' : placeBank conv w true songs (BankState.cur ⟨rom, w.baseAddr, w.baseLen, aramBase, first - aramBase, w.baseAddr + fs * 2⟩) (w.baseAddr + fs * 2) = .ok (ps, c) := by
    rw [Nat.mul_comm fs 2]; exact hpl
  obtain ⟨segs, hl, hlen, hall⟩ := lines_songs songs hn hst hpl'
  refine ⟨segs, ?_, hlen, hall⟩
  unfold tellBank
  rw [lines_quiet hw]
  simp only [lines_say]
  rw [lines_quiet hso, lines_ok (by rw [result_songs hn]; exact hst), hl]
  simp [quiet]

/-! The messages of a placed song. -/

theorem filter_switchLine (sw : Bool) (a b : Nat) : (switchLine sw a b).filter (fun l => !sizeOnly l) = [] := by
  cases sw <;> rfl

theorem filter_trackLines (so : Nat) : ∀ (ps : List Placed) (len : Nat),
    (trackLines so len ps).filter (fun l => !sizeOnly l) = ps.map fun p => Line.track p.romPos (p.cur.aram + p.cur.off) := by
  intro ps
  induction ps with
  | nil => intro len; rfl
  | cons p ps ih =>
    intro len
    rw [trackLines, List.filter_append, filter_switchLine, List.nil_append, List.filter_cons_of_pos (by rfl), ih, List.map_cons]

theorem partLines_eq (addrs : List Nat) : ∀ (ts : List Nat) (p : Nat),
    partLines addrs ts p = ts.mapIdx fun k t => Line.trackPointer (addrs.getD t 0) (p + 2 * k) := by
  intro ts
  induction ts with
  | nil => intro p; rfl
  | cons t ts ih =>
    intro p
    rw [partLines, ih, List.mapIdx_cons]
    simp only [Nat.mul_zero, Nat.add_zero, Nat.mul_add, Nat.mul_one]
    congr 2
    funext k t
    congr 1
    omega

theorem filter_all {l : List Line} (h : ∀ x ∈ l, sizeOnly x = false) : l.filter (fun l => !sizeOnly l) = l := by
  rw [List.filter_eq_self]
  intro x hx
  rw [h x hx]; rfl

theorem songLines_filter (c : Cur) (s : PlacedSong) (stop : Nat) (name : String) (hbase : ∀ p ∈ s.tracks, p.out.refs ≠ [] → p.refBase = p.romPos) :
    (songLines c s stop name).filter (fun l => !sizeOnly l) =
    [.song (s.head.romAddr + s.head.off) s.aram s.table] ++ (s.tracks.map fun p => (p.romPos, p.cur.aram + p.cur.off)).map (fun p => .track p.1 p.2) ++
    [.part (s.head.romAddr + s.head.off + (if s.enc.loops then 8 else 4)) (s.aram + (if s.enc.loops then 8 else 4))] ++
    s.enc.part.mapIdx (fun k t => .trackPointer (s.addrs.getD t 0) (s.head.romAddr + s.head.off + (if s.enc.loops then 8 else 4) + 2 * k)) ++
    ((s.tracks.map fun p => (p.romPos, p.cur.aram + p.cur.off)).zip s.enc.tracks).flatMap
      (fun x => x.2.refs.map fun r => .loopPointer (s.addrs.getD r.targetTrack 0) (x.1.1 + r.refPos)) := by
  have hh : (if s.enc.loops then 8 else 4) = songHeaderSize s.loops := rfl
  have h1 : s.partPos = s.head.romAddr + s.head.off + songHeaderSize s.loops := partPos_eq s
  have h2 : s.partAram = s.aram + songHeaderSize s.loops := by unfold PlacedSong.partAram PlacedSong.aram; omega
  have h3 : (partLines s.addrs s.part s.partPos).filter (fun l => !sizeOnly l) = partLines s.addrs s.part s.partPos := by
    refine filter_all fun x hx => ?_
    rw [partLines_eq, List.mem_mapIdx] at hx
    obtain ⟨k, hk, rfl⟩ := hx
    rfl
  have h4 : (refLines s.addrs (s.tracks.flatMap Placed.refs)).filter (fun l => !sizeOnly l) = refLines s.addrs (s.tracks.flatMap Placed.refs) := by
    refine filter_all fun x hx => ?_
    obtain ⟨r, -, rfl⟩ := List.mem_map.mp hx
    rfl
  have h5 : refLines s.addrs (s.tracks.flatMap Placed.refs) = ((s.tracks.map fun p => (p.romPos, p.cur.aram + p.cur.off)).zip s.enc.tracks).flatMap
      (fun x => x.2.refs.map fun r => Line.loopPointer (s.addrs.getD r.targetTrack 0) (x.1.1 + r.refPos)) := by
    unfold PlacedSong.enc refLines
    simp only [List.zip_map', List.flatMap_map, List.map_flatMap]
    refine List.flatMap_congr fun p hp => ?_
    unfold Placed.refs
    by_cases hr : p.out.refs = []
    · simp [hr]
    · rw [hbase p hp hr, List.map_map]
      rfl
  unfold songLines
  rw [List.filter_append, filter_switchLine, List.nil_append, List.filter_cons_of_pos (by rfl), List.filter_append, filter_trackLines,
    List.filter_cons_of_pos (by rfl), List.filter_append, h3, List.filter_append, h4, h5, partLines_eq, hh, h1, h2, List.map_map]
  simp only [List.append_assoc, List.cons_append, List.nil_append]
  have : List.filter (fun l => !sizeOnly l) [Line.total name (if stop > s.head.off then stop - s.head.off else stop)] = [] := rfl
  rw [this, List.append_nil]
  rfl

theorem placeTracks_end {w : Walk} {v : Bool} {so : Nat} {song : Song} : ∀ (is : List Nat) {c c' : Cur} {ps : List Placed},
    placeTracks w v so song is c = .ok (ps, c') → (∀ p ∈ ps, p.switched = false) → c'.off = c.off + (ps.map fun p => p.out.bytes.length).sum := by
  intro is
  induction is with
  | nil => intro c c' ps h _; cases h; simp
  | cons i is ih =>
    intro c c' ps0 h hsw
    rw [placeTracks, res_bind] at h
    obtain ⟨o, ho, h⟩ := h
    rw [res_bind] at h
    obtain ⟨s, hs, h⟩ := h
    rw [res_bind] at h
    obtain ⟨⟨ps, c''⟩, hps, heq⟩ := h
    rw [res_pure] at heq
    cases heq
    have hs0 : s.1 = false := hsw _ (List.mem_cons_self ..)
    have hoff : s.2.1 = c.off := by
      unfold switchChunk at hs
      split at hs
      · split at hs
        · cases hs
        · split at hs
          · cases hs
          · cases hs; cases hs0
      · cases hs; rfl
    have := ih hps fun p hp => hsw p (List.mem_cons_of_mem _ hp)
    rw [this, List.map_cons, List.sum_cons]
    simp only [hoff]
    omega

theorem placeSong_end {w : Walk} {v : Bool} {c c' : Cur} {t : Nat} {song : Song} {loops : Bool} {s : PlacedSong} (h : placeSong w v c t song loops = .ok (s, c'))
    (hsw : ∀ p ∈ s.tracks, p.switched = false) : c'.off = s.head.off + total (songBlocks s.enc.loops s.enc.tracks) := by
  unfold placeSong at h
  rw [res_bind] at h
  obtain ⟨sw, hs, h⟩ := h
  rw [res_bind] at h
  obtain ⟨⟨ps, c''⟩, hps, h⟩ := h
  rw [res_bind] at h
  obtain ⟨part, hpart, h⟩ := h
  rw [res_pure] at h
  cases h
  have e : c''.off = sw.2.1 + songHeaderSize loops + 16 + (ps.map fun p => p.out.bytes.length).sum := placeTracks_end _ hps hsw
  rw [e]
  simp only [PlacedSong.enc, songBlocks, total, List.map_cons, List.sum_cons, List.map_map, songHeaderSize, Function.comp_def]
  cases loops <;> simp <;> omega

theorem mem_trackLines {so : Nat} : ∀ {ps : List Placed} {len : Nat} {p : Placed}, p ∈ ps → p.switched = true → ∃ n, Line.switched n ∈ trackLines so len ps := by
  intro ps
  induction ps with
  | nil => intro len p h; cases h
  | cons x ps ih =>
    intro len p hp hsw
    rw [trackLines]
    rcases List.mem_cons.mp hp with rfl | hp
    · exact ⟨_, List.mem_append_left _ (by rw [switchLine, if_pos hsw]; exact List.mem_singleton.mpr rfl)⟩
    · obtain ⟨n, hn⟩ := ih (len := x.cur.len) hp hsw
      exact ⟨n, List.mem_append_right _ (List.mem_cons_of_mem _ hn)⟩

theorem songLines_total {w : Walk} {v : Bool} {c c0 c' : Cur} {t : Nat} {song : Song} {loops : Bool} {s : PlacedSong} {name : String}
    (h : placeSong w v c t song loops = .ok (s, c')) {rom aram table : Nat} {pre post : List Line}
    (he : songLines c0 s c'.off name = pre ++ .song rom aram table :: post) (hno : ∀ n, Line.switched n ∉ post) :
    (songLines c0 s c'.off name).getLast? = some (.total name (total (songBlocks s.enc.loops s.enc.tracks))) := by
  have hsw : ∀ p ∈ s.tracks, p.switched = false := by
    intro p hp
    by_contra hc
    have hc : p.switched = true := by simpa using hc
    obtain ⟨n, hn⟩ := mem_trackLines (so := s.head.off) (len := s.head.len) hp hc
    -- the song's line is the first or second one
    have hpost : post = trackLines s.head.off s.head.len s.tracks ++
        .part s.partPos s.partAram :: (partLines s.addrs s.part s.partPos ++ (refLines s.addrs (s.tracks.flatMap Placed.refs) ++
        [.total name (if c'.off > s.head.off then c'.off - s.head.off else c'.off)])) ∨ ∃ l ∈ trackLines s.head.off s.head.len s.tracks ++
        .part s.partPos s.partAram :: (partLines s.addrs s.part s.partPos ++ (refLines s.addrs (s.tracks.flatMap Placed.refs) ++
        [.total name (if c'.off > s.head.off then c'.off - s.head.off else c'.off)])), ∃ a b d, l = Line.song a b d := by
      unfold songLines at he
      cases hsw : s.switched with
      | false =>
        rw [hsw] at he
        simp only [switchLine, Bool.false_eq_true, if_false, List.nil_append] at he
        cases pre with
        | nil => left; exact (List.cons.inj he).2.symm
        | cons x pre =>
          right
          have := (List.cons.inj he).2
          exact ⟨.song rom aram table, by rw [this]; simp, _, _, _, rfl⟩
      | true =>
        rw [hsw] at he
        simp only [switchLine, if_true, List.cons_append, List.nil_append] at he
        cases pre with
        | nil => exact absurd (List.cons.inj he).1 (by simp)
        | cons x pre =>
          have he := (List.cons.inj he).2
          cases pre with
          | nil => left; exact (List.cons.inj he).2.symm
          | cons y pre =>
            right
            have := (List.cons.inj he).2
            exact ⟨.song rom aram table, by rw [this]; simp, _, _, _, rfl⟩
    rcases hpost with hpost | ⟨l, hl, a, b, d, rfl⟩
    · exact hno n (by rw [hpost]; exact List.mem_append_left _ hn)
    · have hnotrack : ∀ (ps : List Placed) (len : Nat), Line.song a b d ∉ trackLines s.head.off len ps := by
        intro ps
        induction ps with
        | nil => intro len h; cases h
        | cons x ps ih =>
          intro len h
          rw [trackLines, List.mem_append, List.mem_cons] at h
          rcases h with h | h | h
          · unfold switchLine at h; split at h <;> simp at h
          · cases h
          · exact ih _ h
      simp only [List.mem_append, List.mem_cons, List.not_mem_nil, or_false] at hl
      rcases hl with hl | hl | hl | hl | hl
      · exact hnotrack _ _ hl
      · cases hl
      · rw [partLines_eq, List.mem_mapIdx] at hl
        obtain ⟨k, hk, hl⟩ := hl
        cases hl
      · obtain ⟨r, -, hl⟩ := List.mem_map.mp hl
        cases hl
      · cases hl
  have hend := placeSong_end h hsw
  have hpos : 0 < total (songBlocks s.enc.loops s.enc.tracks) := by
    simp only [songBlocks, total, List.map_cons, List.sum_cons]; omega
  have hsz : (if c'.off > s.head.off then c'.off - s.head.off else c'.off) = total (songBlocks s.enc.loops s.enc.tracks) := by
    rw [if_pos (by omega)]; omega
  unfold songLines
  rw [hsz, ← List.singleton_append]
  simp only [← List.append_assoc, ← List.cons_append]
  rw [List.getLast?_concat]

theorem songLines_last (c : Cur) (s : PlacedSong) (stop : Nat) (name : String) : ∃ n, (songLines c s stop name).getLast? = some (.total name n) := by
  refine ⟨if stop > s.head.off then stop - s.head.off else stop, ?_⟩
  unfold songLines
  simp only [← List.append_assoc, ← List.cons_append]
  rw [List.getLast?_concat]

/-! What the messages say is true. -/

theorem word_congr {m m' : Mem} {p q : Nat} (h0 : m p = m' q) (h1 : m (p + 1) = m' (q + 1)) : word m p = word m' q := by
  unfold word; rw [h0, h1]

theorem Built.told {b : Bank} {B : PlacedBank} {first fs : Nat} {es : List Encoded} {rom r : Rom} (h : Built b B first fs es rom r)
    (hfirst : b.songs.aram = 0xd000) (hroom : 2 * (fs + es.length) ≤ b.songs.len) (hc : b.Clean) {m : Mem} (hm : ∀ q, b.Data q → m q = ofRom r q)
    {k : Nat} {s : PlacedSong} (hsk : B.songs[k]? = some s) (hsort : ∀ p ∈ s.tracks, p.out.refs.Pairwise fun a b => a.refPos + 4 ≤ b.refPos)
    (hcall : ∀ p ∈ s.tracks, ∀ r ∈ p.out.refs, 1 ≤ r.refPos ∧ p.out.bytes[r.refPos - 1]? = some 0xef) (c : Cur) (stop : Nat) (name : String) :
    SongTold b m s.enc (b.songs.data + 2 * (fs + k)) (songLines c s stop name) (s.head.romAddr + s.head.off) s.aram
      (s.tracks.map fun p => (p.romPos, p.cur.aram + p.cur.off)) (fun t => s.addrs.getD t 0) := by
  have hmem : s ∈ B.songs := List.mem_of_getElem? hsk
  have hg := h.good.songs s hmem
  have hklt : k < B.songs.length := (List.getElem?_eq_some_iff.mp hsk).1
  have hlen : es.length = B.songs.length := by rw [← h.enc]; simp
  obtain ⟨us, uo⟩ := bank_view (m := m) (a0 := fun _ => none) hc.songs hc.over
  generalize upload m b.chunks (fun _ => none) = a at us uo
  have vs : ∀ j < b.songs.len, a (b.songs.aram + j) = ofRom r (b.songs.data + j) := fun j hj => by
    rw [us j hj]; exact hm _ (.inl ⟨by omega, by unfold ChunkInfo.next ChunkInfo.data; omega⟩)
  have vo : ∀ j < b.over.len, a (b.over.aram + j) = ofRom r (b.over.data + j) := fun j hj => by
    rw [uo j hj]; exact hm _ (.inr ⟨by omega, by unfold ChunkInfo.next ChunkInfo.data; omega⟩)
  obtain ⟨htab, hpw, hat⟩ := h.song_placed hfirst hroom vs vo hc.top hc.overTop hc.overPage hsk
  have hitem : ∀ i ∈ s.items, b.Place i.pos (i.cur.aram + i.cur.off) ∧ ∀ j < i.blk.size, a (i.cur.aram + i.cur.off + j) = m (i.pos + j) := by
    intro i hi
    obtain ⟨h1, h2⟩ := h.items i (List.mem_flatMap.mpr ⟨s, hmem, hi⟩)
    unfold Item.pos Cur.pos
    rcases h2 with ⟨e1, e2, e3⟩ | ⟨e1, e2, e3⟩
    · refine ⟨.inl ⟨i.cur.off, by omega, by rw [e1], by rw [e3]⟩, fun j hj => ?_⟩
      have := us (i.cur.off + j) (by omega)
      rw [e1, e3, Nat.add_assoc, Nat.add_assoc, ← hfirst]
      exact this
    · refine ⟨.inr ⟨i.cur.off, by omega, by rw [e1], by rw [e3]⟩, fun j hj => ?_⟩
      have := uo (i.cur.off + j) (by omega)
      rw [e1, e3, Nat.add_assoc, Nat.add_assoc]
      exact this
  obtain ⟨hplace, hhead⟩ := hitem s.headItem (by rw [PlacedSong.items_eq]; exact List.mem_cons_self ..)
  have hpos : s.headItem.pos = s.head.romAddr + s.head.off := rfl
  have haram : s.headItem.cur.aram + s.headItem.cur.off = s.aram := rfl
  have hsize : s.headItem.blk.size = songHeaderSize s.loops + 16 := rfl
  rw [hpos, haram] at hhead hplace
  rw [hsize] at hhead
  have hh : (if s.enc.loops then 8 else 4) = songHeaderSize s.loops := rfl
  have hsz : 4 ≤ songHeaderSize s.loops := by unfold songHeaderSize; split <;> omega
  have hP : s.partAram = s.aram + songHeaderSize s.loops := by unfold PlacedSong.partAram PlacedSong.aram; omega
  have htable : s.table = b.songs.data + 2 * (fs + k) := by rw [h.good.table k s hsk, h.table]; omega
  -- the part
  have hpartWord : ∀ j t, s.enc.part[j]? = some t → word a (s.aram + songHeaderSize s.loops + 2 * j) = some (s.addrs.getD t 0) := by
    intro j t hj
    obtain ⟨P, hw, -, hp⟩ := hat.part
    rw [hpw, hP, Option.some.injEq] at hw
    have hj8 : j < 8 := lt_of_lt_of_le (List.getElem?_eq_some_iff.mp hj).1 hg.part
    have := hp j hj8
    rw [← hw, hj] at this
    exact this
  have hj8 : ∀ j t, s.enc.part[j]? = some t → j < 8 := fun j t hj => lt_of_lt_of_le (List.getElem?_eq_some_iff.mp hj).1 hg.part
  have htracks : ∀ i p o, (s.tracks.map fun p => (p.romPos, p.cur.aram + p.cur.off))[i]? = some p → s.enc.tracks[i]? = some o →
      ∃ x ∈ s.tracks, p = (x.romPos, x.cur.aram + x.cur.off) ∧ o = x.out ∧ s.addrs.getD i 0 = x.addr ∧ b.Place p.1 p.2 ∧ TrackAt m (fun t => s.addrs.getD t 0) p.1 o := by
    intro i p o hp ho
    rw [List.getElem?_map] at hp
    cases hx : s.tracks[i]? with
    | none => rw [hx] at hp; cases hp
    | some x =>
      rw [hx] at hp
      have hp : (x.romPos, x.cur.aram + x.cur.off) = p := Option.some.inj hp
      have ho' : s.enc.tracks[i]? = some x.out := by unfold PlacedSong.enc; rw [List.getElem?_map, hx]; rfl
      have hox : o = x.out := by rw [ho'] at ho; exact (Option.some.inj ho).symm
      have hxm : x ∈ s.tracks := List.mem_of_getElem? hx
      have hax : s.addrs.getD i 0 = x.addr := by
        unfold PlacedSong.addrs
        rw [List.getD_eq_getElem?_getD, List.getElem?_map, hx]
        rfl
      obtain ⟨hpl, hview⟩ := hitem x.item (by rw [PlacedSong.items_eq]; exact List.mem_cons_of_mem _ (List.mem_map.mpr ⟨x, hxm, rfl⟩))
      refine ⟨x, hxm, hp.symm, hox, hax, by rw [← hp]; exact hpl, ?_⟩
      rw [← hp, hox]
      have ht := hat.tracks i x.out ho'
      by_cases hb : x.out.bytes = []
      · intro j hj; rw [hb] at hj; exact absurd hj (by simp)
      · rw [if_neg hb, hax] at ht
        intro j hj
        have := ht.2 j hj
        have ha : x.addr = x.cur.aram + x.cur.off := by unfold Placed.addr; rw [if_pos (List.length_pos_iff.mpr hb)]
        rw [ha] at this
        rw [← this]
        exact (hview j hj).symm
  refine ⟨?_, hplace, ?_, ?_, by simp [PlacedSong.enc], ?_, ?_, ?_⟩
  · rw [songLines_filter c s stop name hg.base, htable]
  · have e0 := us (2 * (fs + k)) (by omega)
    have e1 := us (2 * (fs + k) + 1) (by omega)
    rw [hfirst] at e0 e1
    rw [← htab]
    exact (word_congr e0 (by rw [Nat.add_assoc, e1, Nat.add_assoc])).symm
  · rw [hh, ← hP, ← hpw]
    exact (word_congr (by have := hhead 0 (by omega); simpa using this) (hhead 1 (by omega))).symm
  · intro i p o hp ho
    obtain ⟨x, hxm, rfl, rfl, hax, hpl, hta⟩ := htracks i p o hp ho
    refine ⟨hpl, ?_, hta⟩
    simp only [hax]
    unfold Placed.addr
    by_cases hb : x.out.bytes = []
    · rw [if_pos hb, if_neg (by simp [hb])]
    · rw [if_neg hb, if_pos (List.length_pos_iff.mpr hb)]
  · intro j t hj
    rw [hh, ← hpartWord j t hj]
    have := hj8 j t hj
    refine (word_congr ?_ ?_).symm
    · rw [Nat.add_assoc, hhead _ (by omega)]
      congr 1; omega
    · rw [Nat.add_assoc, Nat.add_assoc, hhead _ (by omega)]
      congr 1; omega
  · intro i p o hp ho r hr
    obtain ⟨x, hxm, rfl, rfl, hax, hpl, hta⟩ := htracks i p o hp ho
    have hlt := hg.refs x hxm r hr
    obtain ⟨p0, p1⟩ := patch_at (fun t => (UInt8.ofNat (s.addrs.getD t 0), UInt8.ofNat (s.addrs.getD t 0 / 256))) _ x.out.bytes (hsort x hxm) r hr hlt
    have t0 := hta r.refPos (by omega)
    have t1 := hta (r.refPos + 1) hlt
    obtain ⟨c1, c2⟩ := hcall x hxm r hr
    refine ⟨?_, ?_⟩
    · have tm := hta (r.refPos - 1) (by omega)
      rw [Nat.add_sub_assoc c1, tm, patch_other, c2]
      intro y hy
      rcases refs_apart (hsort x hxm) hy hr with h | h | h <;> omega
    · exact word_of (by rw [t0, p0, addrToBytes_eq]) (by rw [Nat.add_assoc, t1, p1, addrToBytes_eq]) (hat.range r.targetTrack)

/-! Banks. -/

theorem bank_told {Path : Type} {conv : Converter Path} {fileName : Path → Option String} {name : String} {j : Job Path} {fs : Nat} {rom r : Rom}
    (hj : j.Ready conv (ofRom rom) fs) (hc : j.bank.Clean) (hn : Named fileName j.songs) (h : writeBank conv true j.songs rom j.base j.first fs = .ok r)
    {m : Mem} (hm : ∀ q, j.bank.Data q → m q = ofRom r q) :
    BankTold j.bank m fs name (j.songs.map (shownName fileName)) j.encoded (tellBank conv fileName true name j.songs rom j.base j.first fs).lines := by
  obtain ⟨w, ps, c, hw, hfirst, hpl, hin, hr, segs, hl, hlen, hall⟩ := lines_bank (name := name) hn h
  have hB : Built j.bank ⟨w, j.first, w.baseAddr + 2 * fs, ps⟩ j.first fs j.encoded rom r :=
    ⟨laid_of_placed hj.addr hj.bank hj.songs hj.fits hw hfirst hpl, hr, hin⟩
  obtain ⟨w', hw', e1, e2, -⟩ := bankIn_found hj.addr hj.bank
  rw [hw] at hw'; cases hw'
  have hpslen := placeBank_length _ hpl
  have helen : j.encoded.length = j.songs.length := hj.songs.length_eq.symm
  have h1 := hj.fits.table
  have h2 := hj.fits.start
  refine ⟨segs, by rw [hl, e1, e2], by rw [hlen, helen], ?_⟩
  intro k seg e n hseg he hnm
  have hk : k < j.songs.length := by rw [← hlen]; exact (List.getElem?_eq_some_iff.mp hseg).1
  have hd : j.songs[k]? = some j.songs[k] := List.getElem?_eq_getElem hk
  have hps : ps[k]? = some (ps[k]'(by omega)) := List.getElem?_eq_getElem (by omega)
  obtain ⟨c0, c', t, song, hplace, hsegeq⟩ := hall k _ _ seg hd hps hseg
  generalize ps[k]'(by omega) = s at hps hplace hsegeq
  have hse : s.enc = e := by
    have := hB.enc
    rw [← this, List.getElem?_map, hps] at he
    exact Option.some.inj he
  have hname : shownName fileName j.songs[k] = n := by
    rw [List.getElem?_map, hd] at hnm
    exact Option.some.inj hnm
  rw [hname] at hsegeq
  have hf := (placeSong_run hplace).2
  have hout : ∀ p ∈ s.tracks, ∃ i, song.writeTrack i = .ok p.out := by
    intro p hp
    have := hf.houts
    clear hf
    generalize List.range song.tracks.length = is at this
    generalize s.tracks = tr at this hp
    induction this with
    | nil => cases hp
    | @cons a b is' tr' h1 t ih =>
      rcases List.mem_cons.mp hp with rfl | hp
      · exact ⟨a, h1⟩
      · exact ih hp
  subst hsegeq hse
  refine ⟨⟨_, _, _, _, hB.told hj.bank.songs (by omega) hc hm hps ?_ ?_ c0 c'.off n⟩, songLines_last .., ?_⟩
  · intro p hp
    obtain ⟨i, hi⟩ := hout p hp
    exact writeTrack_sorted hi
  · intro p hp
    obtain ⟨i, hi⟩ := hout p hp
    exact writeTrack_call hi
  · intro rm ar table pre post heq hno
    exact songLines_total hplace heq hno

theorem banks_told {Path : Type} {conv : Converter Path} {fileName : Path → Option String} : ∀ {js : List (Job Path)} {names : List String} {fs : Nat} {rom r : Rom},
    names.length = js.length → AllReady conv (ofRom rom) fs js → HeadersSafe js → (∀ j ∈ js, Named fileName j.songs) →
    writeBanks conv true (js.map Job.args) rom fs = .ok r →
    ∃ reps : List (List Line), (tellBanks conv fileName true (names.zip (js.map Job.args)) rom fs).lines = reps.flatten ∧ reps.length = js.length ∧
      ∀ (pre : List (Job Path)) (j : Job Path) (post : List (Job Path)) (name : String) (rep : List Line), js = pre ++ j :: post →
        names[pre.length]? = some name → reps[pre.length]? = some rep →
        ∃ rom' r', j.Ready conv (ofRom rom') (fs + (pre.map fun k => k.songs.length).sum) ∧
          writeBank conv true j.songs rom' j.base j.first (fs + (pre.map fun k => k.songs.length).sum) = .ok r' ∧
          rep = (tellBank conv fileName true name j.songs rom' j.base j.first (fs + (pre.map fun k => k.songs.length).sum)).lines ∧
          ∀ q, (∀ k ∈ post, ¬ k.bank.Data q) → r[q]? = r'[q]? := by
  intro js
  induction js with
  | nil => intro names fs rom r _ _ _ _ _; exact ⟨[], by simp [tellBanks, told_pure], rfl, by simp⟩
  | cons j js ih =>
    intro names fs rom r hlen hready hsafe hn h
    cases names with
    | nil => simp at hlen
    | cons name names =>
      rw [List.map_cons, Job.args, writeBanks, res_bind] at h
      obtain ⟨r1, h1, h⟩ := h
      obtain ⟨B, hB⟩ := built_of_ok hready.1.addr hready.1.bank hready.1.songs hready.1.fits h1
      have hsafe' : HeadersSafe js := fun a ha b hb => hsafe a (List.mem_cons_of_mem _ ha) b (List.mem_cons_of_mem _ hb)
      have hready' : AllReady conv (ofRom r1) (fs + j.songs.length) js := allReady_congr hready.2 fun k hk q hq =>
        hB.unchanged hready.1.fits.start fun hd => hsafe j (List.mem_cons_self ..) k (List.mem_cons_of_mem _ hk) q hd hq
      obtain ⟨reps, hl, hrl, hall⟩ := ih (names := names) (by simpa using hlen) hready' hsafe' (fun x hx => hn x (List.mem_cons_of_mem _ hx)) h
      have hres := result_bank (conv := conv) (v := true) (name := name) (hn j (List.mem_cons_self ..)) rom j.base j.first fs
      refine ⟨(tellBank conv fileName true name j.songs rom j.base j.first fs).lines :: reps, ?_, by simp [hrl], ?_⟩
      · rw [List.map_cons, List.zip_cons_cons, Job.args, tellBanks, lines_ok (by rw [hres]; exact h1), hl]
        rfl
      · intro pre k post nm rep hs hnm hrep
        cases pre with
        | nil =>
          simp only [List.nil_append, List.cons.injEq] at hs
          obtain ⟨rfl, rfl⟩ := hs
          simp only [List.length_nil, List.getElem?_cons_zero, Option.some.injEq] at hnm hrep
          subst hnm hrep
          refine ⟨rom, r1, by simpa using hready.1, by simpa using h1, by simp, ?_⟩
          exact (writeBanks_built hready' hsafe' h).2.1
        | cons p pre =>
          simp only [List.cons_append, List.cons.injEq] at hs
          obtain ⟨rfl, hs⟩ := hs
          simp only [List.length_cons, List.getElem?_cons_succ] at hnm hrep
          have := hall pre k post nm rep hs hnm hrep
          rw [List.map_cons, List.sum_cons, ← Nat.add_assoc]
          exact this

end M2S
