import Verif.Proofs.RomFit
import Verif.Spec.Fit
/-
In a ROM with enough room behind the song chunks, writing a bank never panics: it succeeds, or the songs do not fit.
-/
namespace M2S
open RomSpec

/-- Success, or "does not fit". -/
def Fine {α : Type} (r : Res α) : Prop := (∃ a, r = .ok a) ∨ r = .error (.err .doesNotFit)

theorem fine_ok {α : Type} (a : α) : Fine (.ok a : Res α) := .inl ⟨a, rfl⟩

theorem Fine.bind {α β : Type} {x : Res α} {f : α → Res β} (hx : Fine x) (hf : ∀ a, x = .ok a → Fine (f a)) : Fine (x >>= f) := by
  rcases hx with ⟨a, rfl⟩ | rfl
  · exact hf a rfl
  · exact .inr rfl

/-- A loop that keeps an invariant and is fine at every step. -/
theorem fine_foldlM {α β : Type} (f : β → α → Res β) (I : Nat → β → Prop) : ∀ (l : List α) (k : Nat) (b : β), I k b →
    (∀ i a, l[i]? = some a → ∀ b, I (k + i) b → Fine (f b a) ∧ ∀ b', f b a = .ok b' → I (k + i + 1) b') →
    Fine (l.foldlM f b) ∧ ∀ b', l.foldlM f b = .ok b' → I (k + l.length) b' := by
  intro l
  induction l with
  | nil => intro k b hb _; exact ⟨fine_ok b, fun b' h => by cases h; exact hb⟩
  | cons a l ih =>
    intro k b hb hstep
    obtain ⟨h1, h2⟩ := hstep 0 a rfl b hb
    have hrest : ∀ b1, f b a = .ok b1 → Fine (l.foldlM f b1) ∧ ∀ b', l.foldlM f b1 = .ok b' → I (k + 1 + l.length) b' := by
      intro b1 hb1
      apply ih (k + 1) b1 (h2 b1 hb1)
      intro i x hx b hI
      have := hstep (i + 1) x hx b (by rwa [show k + (i + 1) = k + 1 + i by omega])
      rwa [show k + (i + 1) = k + 1 + i by omega] at this
    rw [List.foldlM_cons]
    refine ⟨h1.bind fun b1 hb1 => (hrest b1 hb1).1, ?_⟩
    intro b' hb'
    rw [res_bind] at hb'
    obtain ⟨b1, hb1, hb'⟩ := hb'
    have := (hrest b1 hb1).2 b' hb'
    rwa [List.length_cons, show k + (l.length + 1) = k + 1 + l.length by omega]

theorem fine_pokes {ws : List (Nat × UInt8)} {rom : Rom} (h : ∀ x ∈ ws, x.1 < rom.length) : Fine (pokes rom ws) := .inl ⟨_, pokes_ok.mpr ⟨h, rfl⟩⟩

theorem pokes_length {ws : List (Nat × UInt8)} {rom r : Rom} (h : pokes rom ws = .ok r) : r.length = rom.length := by
  rw [(pokes_ok.mp h).2, applyW_length]

/-- The two chunks have room for one more block of `K` bytes behind them. -/
structure Roomy (w : Walk) (K N : Nat) : Prop where
  base : w.baseAddr + w.baseLen + K ≤ N
  over : w.overflowAddr + w.overflowLen + K ≤ N

/-- Where a block is put by the test-and-switch. -/
theorem switch_fine {w : Walk} {v : Bool} {so need K N : Nat} {c : Cur} (h : SongBefore w so c) (hn : need ≤ K) (hr : Roomy w K N) :
    Fine (switchChunk w v so c.off need c.romAddr c.len c.aram) ∧
    ∀ s, switchChunk w v so c.off need c.romAddr c.len c.aram = .ok s → SongBefore w so ⟨s.2.2.1, s.2.2.2.1, s.2.2.2.2, s.2.1 + need⟩ ∧
      s.2.2.1 + s.2.1 + need ≤ N ∧ (s.1 = true → w.baseAddr + c.off + need ≤ N) ∧ (s.2.2.2.2 ≠ w.overflowAram → s.2.1 ≤ s.2.2.2.1) := by
  constructor
  · rcases switchChunk_cases (v := v) (need := need) h with ⟨s, hs⟩ | ⟨hs, -⟩
    · exact .inl ⟨s, hs⟩
    · exact .inr hs
  · intro s hs
    refine ⟨switchChunk_before h hs, ?_⟩
    have h1 := hr.base
    have h2 := hr.over
    rcases switchChunk_ok.mp hs with ⟨hfit, rfl⟩ | ⟨hno, har, -, rfl⟩
    · refine ⟨?_, by simp, fun _ => by simp only; omega⟩
      rcases h.1 with ⟨⟨e1, e2, -⟩, -⟩ | ⟨e1, e2, -⟩ <;> simp only <;> omega
    · refine ⟨by simp only; omega, fun _ => ?_, fun h => absurd rfl h⟩
      rcases h.1 with ⟨⟨e1, e2, -⟩, e3⟩ | ⟨-, -, e⟩
      · omega
      · exact absurd e har

/-- What the track loop keeps: `k` tracks have been written, of `n`. -/
structure TracksFine (w : Walk) (N so n k : Nat) (tl : TrackLoop) : Prop where
  size : tl.rom.length = N
  cur : SongBefore w so ⟨tl.romAddr, tl.chunkLength, tl.aramBaseAddr, tl.trackOffset⟩
  addrs : tl.trackAddrs.length = k
  refs : ∀ r ∈ tl.callLoops, r.targetTrack < n ∧ r.chunkBase + r.refPos + 1 < N

theorem track_fine {w : Walk} {v : Bool} {so K N n k : Nat} {song : Song} {tl : TrackLoop} {i : Nat} {o : Out} (hr : Roomy w K N) (ho : song.writeTrack i = .ok o)
    (hK : o.bytes.length ≤ K) (hrefs : ∀ r ∈ o.refs, r.targetTrack < n) (h : TracksFine w N so n k tl) :
    Fine (writeSongTrack w v so song tl i) ∧ ∀ tl', writeSongTrack w v so song tl i = .ok tl' → TracksFine w N so n (k + 1) tl' := by
  have hpos := writeTrack_refs ho
  obtain ⟨hf, hs⟩ := switch_fine (v := v) h.cur hK hr
  unfold writeSongTrack
  rw [ho]
  simp only [bind, Except.bind]
  rcases hf with ⟨s, hs1⟩ | hs1
  · obtain ⟨g1, g2, g3, -⟩ := hs s hs1
    simp only at hs1
    rw [hs1]
    obtain ⟨sw, off, romAddr, len, aram⟩ := s
    simp only at g1 g2 g3 ⊢
    by_cases hpos0 : o.bytes.length > 0
    · rw [if_pos hpos0]
      have hsp : spliceRom tl.rom (romAddr + off) o.bytes = .ok (applyW tl.rom (bytesAt (romAddr + off) o.bytes)) :=
        splice_ok.mpr ⟨by rw [h.size]; omega, rfl⟩
      rw [hsp]
      refine ⟨fine_ok _, ?_⟩
      rintro tl' ⟨⟩
      refine ⟨by simp only; rw [applyW_length, h.size], g1, by simp [h.addrs], ?_⟩
      intro r hr'
      simp only [List.mem_append] at hr'
      rcases hr' with (hr' | hr') | hr'
      · exact h.refs r hr'
      · cases sw with
        | false => simp at hr'
        | true =>
          simp only [if_true, List.mem_map] at hr'
          obtain ⟨x, hx, rfl⟩ := hr'
          have := hpos x hx
          have := g3 rfl
          exact ⟨hrefs x hx, by simp only; omega⟩
      · cases sw with
        | true => simp at hr'
        | false =>
          simp only [Bool.false_eq_true, if_false, List.mem_map] at hr'
          obtain ⟨x, hx, rfl⟩ := hr'
          have := hpos x hx
          exact ⟨hrefs x hx, by simp only; omega⟩
    · rw [if_neg hpos0]
      refine ⟨fine_ok _, ?_⟩
      rintro tl' ⟨⟩
      have h0 : o.bytes.length = 0 := by omega
      rw [h0] at g1
      exact ⟨h.size, g1, by simp [h.addrs], h.refs⟩
  · simp only at hs1
    rw [hs1]
    exact ⟨.inr rfl, fun tl' h => by cases h⟩

theorem fine_pokeTrackAddr {rom : Rom} {addrs : List Nat} {t p : Nat} (ht : t < addrs.length) (hp : p + 1 < rom.length) : Fine (pokeTrackAddr rom addrs t p) := by
  unfold pokeTrackAddr
  rw [List.getElem?_eq_getElem ht]
  exact fine_pokes fun x hx => by have := mem_pointerPokes hx; omega

theorem pokeTrackAddr_length {rom r : Rom} {addrs : List Nat} {t p : Nat} (h : pokeTrackAddr rom addrs t p = .ok r) : r.length = rom.length := by
  unfold pokeTrackAddr at h
  split at h
  · cases h
  · exact pokes_length h

theorem fine_writePartTracks {addrs : List Nat} : ∀ {ts : List Nat} {p : Nat} {rom : Rom}, (∀ t ∈ ts, t < addrs.length) → p + 2 * ts.length ≤ rom.length →
    Fine (writePartTracks addrs ts p rom) ∧ ∀ r, writePartTracks addrs ts p rom = .ok r → r.length = rom.length := by
  intro ts
  induction ts with
  | nil => intro p rom _ _; exact ⟨fine_ok _, fun r h => by cases h; rfl⟩
  | cons t ts ih =>
    intro p rom ht hp
    rw [List.length_cons] at hp
    have hf := fine_pokeTrackAddr (rom := rom) (p := p) (ht t (by simp)) (by omega)
    have hn : ∀ r1, pokeTrackAddr rom addrs t p = .ok r1 → _ := fun r1 h1 =>
      ih (p := p + 2) (rom := r1) (fun t ht' => ht t (by simp [ht'])) (by rw [pokeTrackAddr_length h1]; omega)
    unfold writePartTracks
    refine ⟨hf.bind fun r1 h1 => (hn r1 h1).1, ?_⟩
    intro r h
    rw [res_bind] at h
    obtain ⟨r1, h1, h⟩ := h
    rw [(hn r1 h1).2 r h, pokeTrackAddr_length h1]

theorem fine_writeCallLoops {addrs : List Nat} {refs : List RomCallLoopRef} {rom : Rom} (h : ∀ r ∈ refs, r.targetTrack < addrs.length ∧ r.chunkBase + r.refPos + 1 < rom.length) :
    Fine (writeCallLoops addrs refs rom) ∧ ∀ r, writeCallLoops addrs refs rom = .ok r → r.length = rom.length := by
  unfold writeCallLoops
  obtain ⟨h1, h2⟩ := fine_foldlM (fun rom r => pokeTrackAddr rom addrs r.targetTrack (r.chunkBase + r.refPos)) (fun _ r => r.length = rom.length) refs 0 rom rfl (by
    intro i a ha b hb
    obtain ⟨g1, g2⟩ := h a (List.mem_of_getElem? ha)
    exact ⟨fine_pokeTrackAddr g1 (by rw [hb]; exact g2), fun b' hb' => by rw [pokeTrackAddr_length hb', hb]⟩)
  exact ⟨h1, h2⟩

theorem mem_songHeaderPokes {loops : Bool} {p a b : Nat} {x : Nat × UInt8} (h : x ∈ songHeaderPokes loops p a b) : x.1 < p + songHeaderSize loops := by
  unfold songHeaderPokes at h
  unfold songHeaderSize
  rw [List.mem_append] at h
  rcases h with h | h
  · have := mem_pointerPokes h
    split_ifs <;> omega
  · cases loops
    · simp only [Bool.false_eq_true, if_false, List.mem_cons, List.not_mem_nil, or_false] at h ⊢
      rcases h with rfl | rfl <;> simp
    · simp only [if_true, List.mem_append, List.mem_cons, List.not_mem_nil, or_false] at h ⊢
      rcases h with ((rfl | rfl) | rfl | rfl) | rfl | rfl <;> simp

/-- What the song loop keeps. -/
structure BankFine (w : Walk) (N t : Nat) (st : BankState) : Prop where
  size : st.rom.length = N
  cur : st.cur.Ok w
  table : st.songTableAddr = t

theorem song_fine {w : Walk} {v : Bool} {K N t : Nat} {song : Song} {loops : Bool} {st : BankState} {part : List Nat} {outs : List Out} (hr : Roomy w K N)
    (hst : BankFine w N t st) (ht : t + 1 < N) (hpart : song.partTracks 0 = .ok part)
    (houts : List.Forall₂ (fun i o => song.writeTrack i = .ok o) (List.range song.tracks.length) outs) (hK : ∀ b ∈ songBlocks loops outs, b.size ≤ K)
    (h8 : part.length ≤ 8) (hidx : (∀ t ∈ part, t < outs.length) ∧ ∀ o ∈ outs, ∀ r ∈ o.refs, r.targetTrack < outs.length) :
    Fine (writeSong w v st song loops) ∧ ∀ st', writeSong w v st song loops = .ok st' → BankFine w N (t + 2) st' := by
  have hn : outs.length = song.tracks.length := by simpa using houts.length_eq.symm
  have hb : SongBefore w st.songOffset st.cur := ⟨hst.cur, by
    rintro ha
    rcases hst.cur with ⟨h1, h2⟩ | ⟨-, -, h⟩
    · exact h2
    · exact absurd h ha⟩
  have hK0 : songHeaderSize loops + 16 ≤ K := hK ⟨songHeaderSize loops + 16, false⟩ (List.mem_cons_self ..)
  obtain ⟨hf, hs⟩ := switch_fine (v := v) hb hK0 hr
  unfold writeSong
  rcases hf with ⟨s, hs1⟩ | hs1
  swap
  · have hs1' : switchChunk w v st.songOffset st.songOffset (songHeaderSize loops + 16) st.romAddr st.chunkLength st.aramBaseAddr = .error (.err .doesNotFit) := hs1
    rw [hs1']
    exact ⟨.inr rfl, fun st' h => by cases h⟩
  obtain ⟨g1, g2, -, g4⟩ := hs s hs1
  have hs1' : switchChunk w v st.songOffset st.songOffset (songHeaderSize loops + 16) st.romAddr st.chunkLength st.aramBaseAddr = .ok s := hs1
  rw [hs1']
  obtain ⟨sw, off, romAddr, len, aram⟩ := s
  simp only at g1 g2 g4
  -- the pieces
  have p1 : ∀ x ∈ pointerPokes st.songTableAddr (aram + off), x.1 < st.rom.length := by
    intro x hx
    have := mem_pointerPokes hx
    rw [hst.size]; rw [hst.table] at this; omega
  have p2 : ∀ r1 : Rom, r1.length = N → ∀ x ∈ songHeaderPokes loops (romAddr + off) (aram + off) (aram + (off + songHeaderSize loops)), x.1 < r1.length := by
    intro r1 h1 x hx
    have := mem_songHeaderPokes hx
    omega
  have p3 : ∀ r2 : Rom, r2.length = N →
      Fine ((List.range song.tracks.length).foldlM (writeSongTrack w v off song)
        { rom := r2, romAddr := romAddr, chunkLength := len, aramBaseAddr := aram, trackOffset := off + songHeaderSize loops + 16, trackAddrs := [], callLoops := [] }) ∧
      ∀ tl, (List.range song.tracks.length).foldlM (writeSongTrack w v off song)
        { rom := r2, romAddr := romAddr, chunkLength := len, aramBaseAddr := aram, trackOffset := off + songHeaderSize loops + 16, trackAddrs := [], callLoops := [] } = .ok tl →
        TracksFine w N off song.tracks.length song.tracks.length tl := by
    intro r2 h2
    have := fine_foldlM (writeSongTrack w v off song) (fun k tl => TracksFine w N off song.tracks.length k tl) (List.range song.tracks.length) 0
      { rom := r2, romAddr := romAddr, chunkLength := len, aramBaseAddr := aram, trackOffset := off + songHeaderSize loops + 16, trackAddrs := [], callLoops := [] }
      ⟨h2, ⟨by rw [Nat.add_assoc]; exact g1.1, fun ha => g4 ha⟩, rfl, by simp⟩ (by
        intro i a ha tl htl
        obtain ⟨hi, hia⟩ := List.getElem?_eq_some_iff.mp ha
        have hio : i < outs.length := by rw [hn]; simpa using hi
        have ho : song.writeTrack a = .ok outs[i] := by
          have := List.Forall₂.get houts hi hio
          simp only [List.get_eq_getElem] at this
          rwa [hia] at this
        have hmem : outs[i] ∈ outs := List.getElem_mem hio
        exact track_fine hr ho (hK ⟨outs[i].bytes.length, !outs[i].refs.isEmpty⟩ (List.mem_cons_of_mem _ (List.mem_map.2 ⟨_, hmem, rfl⟩)))
          (fun r hr' => by rw [← hn]; exact hidx.2 _ hmem r hr') htl)
    simpa using this
  have p4 : ∀ r3 : Rom, r3.length = N → ∀ x ∈ (List.range 16).map (fun i => (romAddr + (off + songHeaderSize loops) + i, (0 : UInt8))), x.1 < r3.length := by
    intro r3 h3 x hx
    obtain ⟨i, hi, rfl⟩ := List.mem_map.1 hx
    have := List.mem_range.1 hi
    simp only
    omega
  constructor
  · refine Fine.bind (fine_ok _) fun _ h => ?_
    cases h
    refine (fine_pokes p1).bind fun r1 h1 => ?_
    have l1 : r1.length = N := by rw [pokes_length h1, hst.size]
    refine (fine_pokes (p2 r1 l1)).bind fun r2 h2 => ?_
    have l2 : r2.length = N := by rw [pokes_length h2, l1]
    refine (p3 r2 l2).1.bind fun tl htl => ?_
    have T := (p3 r2 l2).2 tl htl
    refine (fine_pokes (p4 _ T.size)).bind fun r3 h3 => ?_
    have l3 : r3.length = N := by rw [pokes_length h3, T.size]
    rw [hpart]
    refine Fine.bind (fine_ok _) fun _ h => ?_
    cases h
    obtain ⟨q1, q2⟩ := fine_writePartTracks (addrs := tl.trackAddrs) (ts := part) (p := romAddr + (off + songHeaderSize loops)) (rom := r3)
      (fun t ht => by rw [T.addrs, ← hn]; exact hidx.1 t ht) (by omega)
    refine q1.bind fun r4 h4 => ?_
    have l4 : r4.length = N := by rw [q2 r4 h4, l3]
    exact (fine_writeCallLoops (fun r hr' => by rw [T.addrs, l4]; exact T.refs r hr')).1.bind fun r5 h5 => fine_ok _
  · intro st' h
    simp only [res_bind] at h
    obtain ⟨_, h0, r1, h1, r2, h2, tl, htl, r3, h3, part', h4, r4, h5, r5, h6, h7⟩ := h
    cases h0
    cases h7
    have l1 : r1.length = N := by rw [pokes_length h1, hst.size]
    have l2 : r2.length = N := by rw [pokes_length h2, l1]
    have T := (p3 r2 l2).2 tl htl
    have l3 : r3.length = N := by rw [pokes_length h3, T.size]
    rw [hpart] at h4
    cases h4
    obtain ⟨q1, q2⟩ := fine_writePartTracks (addrs := tl.trackAddrs) (ts := part) (p := romAddr + (off + songHeaderSize loops)) (rom := r3)
      (fun t ht => by rw [T.addrs, ← hn]; exact hidx.1 t ht) (by omega)
    have l4 : r4.length = N := by rw [q2 r4 h5, l3]
    have l5 := (fine_writeCallLoops (fun r hr' => by rw [T.addrs, l4]; exact T.refs r hr')).2 r5 h6
    exact ⟨by simp only; rw [l5, l4], T.cur.1, by simp only; rw [hst.table]⟩

theorem bank_fine {Path : Type} {conv : Converter Path} {v : Bool} {songs : List (SongDef Path)} {es : List Encoded} {rom : Rom} {base first fs : Nat} {w : Walk} {K : Nat}
    (hw : findChunks rom base = .ok w) (hfirst : aramBase ≤ first) (hstart : first - aramBase ≤ w.baseLen) (hes : List.Forall₂ (EncodedOf conv) songs es)
    (hv : ∀ e ∈ es, Encoded.Valid e) (hK : ∀ b ∈ blocks es, b.size ≤ K) (hr : Roomy w K rom.length) (ht : w.baseAddr + 2 * (fs + songs.length) ≤ rom.length) :
    Fine (writeBank conv v songs rom base first fs) := by
  unfold writeBank
  rw [hw]
  refine Fine.bind (fine_ok _) fun _ h => ?_
  cases h
  have hsub : subU first aramBase = .ok (first - aramBase) := by unfold subU; rw [if_pos hfirst]
  rw [hsub]
  refine Fine.bind (fine_ok _) fun so h => ?_
  have hso := Except.ok.inj h
  subst hso
  have hloop := fine_foldlM (fun (st : BankState) (d : SongDef Path) => do
      let song ← loadSong conv d
      writeSong w v st song d.loops) (fun k st => BankFine w rom.length (w.baseAddr + 2 * (fs + k)) st) songs 0
    { rom := rom, romAddr := w.baseAddr, chunkLength := w.baseLen, aramBaseAddr := aramBase, songOffset := first - aramBase, songTableAddr := w.baseAddr + fs * 2 }
    ⟨rfl, .inl ⟨⟨rfl, rfl, rfl⟩, hstart⟩, by simp only; omega⟩ (by
      intro i d hd st hst
      obtain ⟨hi, hid⟩ := List.getElem?_eq_some_iff.mp hd
      have hie : i < es.length := by rw [← hes.length_eq]; exact hi
      have he := List.Forall₂.get hes hi hie
      simp only [List.get_eq_getElem, hid] at he
      obtain ⟨song, hsong, hloops, hpart, houts⟩ := he
      have hmem : es[i] ∈ es := List.getElem_mem hie
      obtain ⟨v1, v2⟩ := hv _ hmem
      have := song_fine (v := v) (loops := d.loops) hr hst (by omega) hpart houts
        (fun b hb => hK b (List.mem_flatMap.2 ⟨es[i], hmem, by rw [hloops]; exact hb⟩)) v1 v2
      simp only [hsong]
      exact ⟨this.1, fun b' hb' => this.2 b' hb'⟩)
  refine hloop.1.bind fun st hst => ?_
  have B := hloop.2 st hst
  have hin : ∀ stop, stop = w.baseAddr + first - aramBase →
      ∀ x ∈ (List.range' st.songTableAddr (stop - st.songTableAddr)).map (fun i => (i, (0 : UInt8))), x.1 < st.rom.length := by
    intro stop hstop x hx
    obtain ⟨i, hi, rfl⟩ := List.mem_map.1 hx
    rw [List.mem_range'_1] at hi
    have := hr.base
    rw [B.size]
    simp only
    omega
  exact fine_pokes (hin _ rfl)

end M2S
