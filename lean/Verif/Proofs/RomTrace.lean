import Verif.Proofs.RomWalk
import Verif.Proofs.WriteTrack
/-
The writes of the ROM builder as an explicit list that does not depend on the contents of the ROM.
-/
namespace M2S
open RomSpec

/-- Where the next data goes: chunk position, length and ARAM address, and the offset in the chunk. -/
structure Cur where
  romAddr : Nat
  len : Nat
  aram : Nat
  off : Nat
deriving DecidableEq, Repr

/-- A track placed in the ROM. -/
structure Placed where
  out : Out
  cur : Cur
  refBase : Nat
  switched : Bool

/-- Position in the ROM. -/
def Placed.romPos (p : Placed) : Nat := p.cur.romAddr + p.cur.off

/-- The pointer to the track; an empty track gets a null pointer. -/
def Placed.addr (p : Placed) : Nat := if p.out.bytes.length > 0 then p.cur.aram + p.cur.off else 0

/-- The references of a placed track. -/
def Placed.refs (p : Placed) : List RomCallLoopRef :=
  p.out.refs.map fun r => ⟨r.targetTrack, p.refBase, r.refPos⟩

/-- Placing the tracks of a song. -/
def placeTracks (w : Walk) (verbose : Bool) (songOffset : Nat) (song : Song) : List Nat → Cur → Res (List Placed × Cur)
  | [], c => .ok ([], c)
  | i :: is, c => do
    let o ← song.writeTrack i
    let s ← switchChunk w verbose songOffset c.off o.bytes.length c.romAddr c.len c.aram
    let r ← placeTracks w verbose songOffset song is ⟨s.2.2.1, s.2.2.2.1, s.2.2.2.2, s.2.1 + o.bytes.length⟩
    return (⟨o, ⟨s.2.2.1, s.2.2.2.1, s.2.2.2.2, s.2.1⟩, if s.1 then w.baseAddr + c.off else s.2.2.1 + s.2.1, s.1⟩ :: r.1, r.2)

/-- The bytes of the placed tracks. -/
def trackWrites (ps : List Placed) : List (Nat × UInt8) := ps.flatMap fun p => bytesAt p.romPos p.out.bytes

def TrackLoop.cur (st : TrackLoop) : Cur := ⟨st.romAddr, st.chunkLength, st.aramBaseAddr, st.trackOffset⟩

theorem writeTrack_empty {s : Song} {i : Nat} {o : Out} (h : s.writeTrack i = .ok o) (h0 : o.bytes.length = 0) : o.refs = [] := by
  unfold Song.writeTrack at h
  split at h
  · cases h
  · rename_i track _
    by_cases he : track.isEmpty = true
    · rw [if_pos he] at h; cases h; rfl
    · rw [if_neg he, res_bind] at h
      obtain ⟨b, -, h⟩ := h
      rw [← res_pure.mp h] at h0
      simp [Out.put] at h0

theorem writeSongTrack_ok {w : Walk} {v : Bool} {so : Nat} {song : Song} {st st' : TrackLoop} {i : Nat} :
    writeSongTrack w v so song st i = .ok st' ↔ ∃ o s, song.writeTrack i = .ok o ∧
      switchChunk w v so st.trackOffset o.bytes.length st.romAddr st.chunkLength st.aramBaseAddr = .ok s ∧
      (o.bytes.length > 0 → s.2.2.1 + s.2.1 + o.bytes.length ≤ st.rom.length) ∧
      st' = { rom := applyW st.rom (bytesAt (s.2.2.1 + s.2.1) o.bytes)
              romAddr := s.2.2.1, chunkLength := s.2.2.2.1, aramBaseAddr := s.2.2.2.2
              trackOffset := s.2.1 + o.bytes.length
              trackAddrs := st.trackAddrs ++ [if o.bytes.length > 0 then s.2.2.2.2 + s.2.1 else 0]
              callLoops := st.callLoops ++ o.refs.map fun r =>
                ⟨r.targetTrack, if s.1 then w.baseAddr + st.trackOffset else s.2.2.1 + s.2.1, r.refPos⟩ } := by
  unfold writeSongTrack
  simp only [res_bind]
  constructor
  · rintro ⟨o, ho, s, hs, h⟩
    refine ⟨o, s, ho, hs, ?_⟩
    obtain ⟨sw, off, ra, len, ar⟩ := s
    simp only at h ⊢
    by_cases hl : o.bytes.length > 0
    · rw [if_pos hl, res_bind] at h
      obtain ⟨r, hr, h⟩ := h
      obtain ⟨hin, rfl⟩ := splice_ok.mp hr
      refine ⟨fun _ => hin, ?_⟩
      rw [← res_pure.mp h]
      cases sw <;> simp [hl]
    · have h0 : o.bytes.length = 0 := by omega
      have hr := writeTrack_empty ho h0
      have hb : o.bytes = [] := List.length_eq_zero_iff.mp h0
      refine ⟨fun h => absurd h hl, ?_⟩
      rw [if_neg hl] at h
      rw [← res_pure.mp h]
      simp [hb, hr, bytesAt, applyW]
  · rintro ⟨o, s, ho, hs, hin, rfl⟩
    refine ⟨o, ho, s, hs, ?_⟩
    obtain ⟨sw, off, ra, len, ar⟩ := s
    simp only
    by_cases hl : o.bytes.length > 0
    · rw [if_pos hl, res_bind]
      refine ⟨_, splice_ok.mpr ⟨hin hl, rfl⟩, ?_⟩
      rw [res_pure]
      cases sw <;> simp [hl]
    · have h0 : o.bytes.length = 0 := by omega
      have hr := writeTrack_empty ho h0
      have hb : o.bytes = [] := List.length_eq_zero_iff.mp h0
      rw [if_neg hl, res_pure]
      simp [hb, hr, bytesAt, applyW]

theorem trackLoop_ok {w : Walk} {v : Bool} {so : Nat} {song : Song} : ∀ (is : List Nat) {st st' : TrackLoop},
    is.foldlM (writeSongTrack w v so song) st = .ok st' ↔ ∃ ps c, placeTracks w v so song is st.cur = .ok (ps, c) ∧
      (∀ p ∈ ps, p.out.bytes.length > 0 → p.romPos + p.out.bytes.length ≤ st.rom.length) ∧
      st' = { rom := applyW st.rom (trackWrites ps), romAddr := c.romAddr, chunkLength := c.len, aramBaseAddr := c.aram
              trackOffset := c.off, trackAddrs := st.trackAddrs ++ ps.map (·.addr)
              callLoops := st.callLoops ++ ps.flatMap Placed.refs } := by
  intro is
  induction is with
  | nil =>
    intro st st'
    simp only [List.foldlM_nil, placeTracks, res_pure, Except.ok.injEq, Prod.mk.injEq]
    constructor
    · rintro rfl
      exact ⟨[], _, ⟨rfl, rfl⟩, by simp, by simp [trackWrites, applyW, TrackLoop.cur]⟩
    · rintro ⟨ps, c, ⟨rfl, rfl⟩, -, rfl⟩
      simp [trackWrites, applyW, TrackLoop.cur]
  | cons i is ih =>
    intro st st'
    rw [List.foldlM_cons, res_bind]
    constructor
    · rintro ⟨st1, h1, h⟩
      obtain ⟨o, s, ho, hs, hin, rfl⟩ := writeSongTrack_ok.mp h1
      obtain ⟨ps, c, hps, hins, rfl⟩ := ih.mp h
      refine ⟨⟨o, ⟨s.2.2.1, s.2.2.2.1, s.2.2.2.2, s.2.1⟩, if s.1 then w.baseAddr + st.trackOffset else s.2.2.1 + s.2.1, s.1⟩ :: ps,
        c, ?_, ?_, ?_⟩
      · rw [placeTracks, res_bind]
        refine ⟨o, ho, ?_⟩
        rw [res_bind]
        refine ⟨s, hs, ?_⟩
        rw [res_bind]
        exact ⟨(ps, c), hps, rfl⟩
      · intro p hp
        rcases List.mem_cons.mp hp with rfl | hp
        · exact hin
        · have := hins p hp
          simpa only [applyW_length] using this
      · simp [trackWrites, applyW_append, Placed.refs, Placed.romPos, Placed.addr]
    · rintro ⟨ps0, c, hps, hins, rfl⟩
      rw [placeTracks, res_bind] at hps
      obtain ⟨o, ho, hps⟩ := hps
      rw [res_bind] at hps
      obtain ⟨s, hs, hps⟩ := hps
      rw [res_bind] at hps
      obtain ⟨⟨ps, c'⟩, hps, heq⟩ := hps
      rw [res_pure] at heq
      cases heq
      refine ⟨_, writeSongTrack_ok.mpr ⟨o, s, ho, hs, ?_, rfl⟩, ?_⟩
      · exact hins _ (List.mem_cons_self ..)
      · rw [ih]
        refine ⟨ps, c', hps, ?_, ?_⟩
        · intro p hp
          simpa only [applyW_length] using hins p (List.mem_cons_of_mem _ hp)
        · simp [trackWrites, applyW_append, Placed.refs, Placed.romPos, Placed.addr, TrackLoop.cur]

/-! Pointers. -/

theorem pokeTrackAddr_ok {rom r : Rom} {addrs : List Nat} {t p : Nat} : pokeTrackAddr rom addrs t p = .ok r ↔
    t < addrs.length ∧ p + 1 < rom.length ∧ r = applyW rom (pointerPokes p (addrs.getD t 0)) := by
  unfold pokeTrackAddr
  by_cases h : t < addrs.length
  · rw [List.getD_eq_getElem?_getD, List.getElem?_eq_getElem h, Option.getD_some]
    simp only [h, true_and, pokes_ok, pointerPokes, List.mem_cons, List.not_mem_nil, or_false, forall_eq_or_imp, forall_eq]
    constructor
    · rintro ⟨⟨h1, -⟩, h2⟩; exact ⟨h1, h2⟩
    · rintro ⟨h1, h2⟩; exact ⟨⟨h1, by omega⟩, h2⟩
  · rw [List.getElem?_eq_none (by omega)]
    simp [panicked, h]

/-- The writes of the part's pointers. -/
def partWrites (addrs : List Nat) : List Nat → Nat → List (Nat × UInt8)
  | [], _ => []
  | t :: ts, p => pointerPokes p (addrs.getD t 0) ++ partWrites addrs ts (p + 2)

theorem writePartTracks_ok {addrs : List Nat} : ∀ (ts : List Nat) {p : Nat} {rom r : Rom},
    writePartTracks addrs ts p rom = .ok r ↔ (∀ t ∈ ts, t < addrs.length) ∧ (ts ≠ [] → p + 2 * ts.length ≤ rom.length) ∧
      r = applyW rom (partWrites addrs ts p) := by
  intro ts
  induction ts with
  | nil => intro p rom r; simp [writePartTracks, partWrites, applyW, eq_comm]
  | cons t ts ih =>
    intro p rom r
    rw [writePartTracks, res_bind]
    constructor
    · rintro ⟨r1, h1, h⟩
      obtain ⟨ht, hp, rfl⟩ := pokeTrackAddr_ok.mp h1
      obtain ⟨hts, hps, rfl⟩ := ih.mp h
      refine ⟨?_, ?_, ?_⟩
      · intro x hx
        rcases List.mem_cons.mp hx with rfl | hx
        · exact ht
        · exact hts x hx
      · intro _
        rw [applyW_length] at hps
        cases ts with
        | nil => simp; omega
        | cons a b => have := hps (by simp); simp only [List.length_cons] at this ⊢; omega
      · rw [partWrites, applyW_append]
    · rintro ⟨hts, hps, rfl⟩
      have hps := hps (by simp)
      simp only [List.length_cons] at hps
      refine ⟨_, pokeTrackAddr_ok.mpr ⟨hts t (by simp), by omega, rfl⟩, ih.mpr ⟨fun x hx => hts x (by simp [hx]), ?_, ?_⟩⟩
      · intro _; rw [applyW_length]; omega
      · rw [partWrites, applyW_append]

/-- The writes of the CallLoop operands. -/
def refWrites (addrs : List Nat) (refs : List RomCallLoopRef) : List (Nat × UInt8) :=
  refs.flatMap fun r => pointerPokes (r.chunkBase + r.refPos) (addrs.getD r.targetTrack 0)

theorem writeCallLoops_ok {addrs : List Nat} : ∀ (refs : List RomCallLoopRef) {rom r : Rom},
    writeCallLoops addrs refs rom = .ok r ↔ (∀ x ∈ refs, x.targetTrack < addrs.length ∧ x.chunkBase + x.refPos + 1 < rom.length) ∧
      r = applyW rom (refWrites addrs refs) := by
  intro refs
  induction refs with
  | nil => intro rom r; simp [writeCallLoops, refWrites, applyW, pure, Except.pure, eq_comm]
  | cons x refs ih =>
    intro rom r
    unfold writeCallLoops at ih ⊢
    rw [List.foldlM_cons, res_bind]
    constructor
    · rintro ⟨r1, h1, h⟩
      obtain ⟨ht, hp, rfl⟩ := pokeTrackAddr_ok.mp h1
      obtain ⟨hts, rfl⟩ := ih.mp h
      refine ⟨?_, ?_⟩
      · intro y hy
        rcases List.mem_cons.mp hy with rfl | hy
        · exact ⟨ht, hp⟩
        · simpa only [applyW_length] using hts y hy
      · simp only [refWrites, List.flatMap_cons, applyW_append]
    · rintro ⟨hts, rfl⟩
      refine ⟨_, pokeTrackAddr_ok.mpr ⟨(hts x (by simp)).1, (hts x (by simp)).2, rfl⟩, ih.mpr ⟨?_, ?_⟩⟩
      · intro y hy; simpa only [applyW_length] using hts y (by simp [hy])
      · simp only [refWrites, List.flatMap_cons, applyW_append]

/-! Songs. -/

/-- A song placed in the ROM. -/
structure PlacedSong where
  table : Nat          -- position of its song table entry
  head : Cur           -- where its header goes
  switched : Bool
  song : Song
  loops : Bool
  part : List Nat
  tracks : List Placed

/-- Position of the part data. -/
def PlacedSong.partPos (s : PlacedSong) : Nat := s.head.romAddr + (s.head.off + songHeaderSize s.loops)

/-- ARAM address of the song. -/
def PlacedSong.aram (s : PlacedSong) : Nat := s.head.aram + s.head.off

/-- ARAM address of the part data. -/
def PlacedSong.partAram (s : PlacedSong) : Nat := s.head.aram + (s.head.off + songHeaderSize s.loops)

/-- ARAM addresses of the tracks. -/
def PlacedSong.addrs (s : PlacedSong) : List Nat := s.tracks.map (·.addr)

/-- All writes of a song, in order. -/
def PlacedSong.writes (s : PlacedSong) : List (Nat × UInt8) :=
  pointerPokes s.table s.aram ++ songHeaderPokes s.loops (s.head.romAddr + s.head.off) s.aram s.partAram ++
  trackWrites s.tracks ++ ((List.range 16).map fun i => (s.partPos + i, 0)) ++ partWrites s.addrs s.part s.partPos ++
  refWrites s.addrs (s.tracks.flatMap Placed.refs)

def BankState.cur (st : BankState) : Cur := ⟨st.romAddr, st.chunkLength, st.aramBaseAddr, st.songOffset⟩

/-- Placing a song. -/
def placeSong (w : Walk) (verbose : Bool) (c : Cur) (table : Nat) (song : Song) (loops : Bool) : Res (PlacedSong × Cur) := do
  let s ← switchChunk w verbose c.off c.off (songHeaderSize loops + 16) c.romAddr c.len c.aram
  let head : Cur := ⟨s.2.2.1, s.2.2.2.1, s.2.2.2.2, s.2.1⟩
  let r ← placeTracks w verbose head.off song (List.range song.tracks.length)
    { head with off := head.off + songHeaderSize loops + 16 }
  let part ← song.partTracks 0
  return (⟨table, head, s.1, song, loops, part, r.1⟩, r.2)

/-- All indices of a placed song are in range. -/
def PlacedSong.Indices (s : PlacedSong) : Prop :=
  (∀ t ∈ s.part, t < s.tracks.length) ∧ ∀ p ∈ s.tracks, ∀ r ∈ p.out.refs, r.targetTrack < s.tracks.length

theorem mem_pointerPokes {p a : Nat} {x : Nat × UInt8} (h : x ∈ pointerPokes p a) : x.1 = p ∨ x.1 = p + 1 := by
  simp only [pointerPokes, List.mem_cons, List.not_mem_nil, or_false] at h
  rcases h with rfl | rfl <;> simp

theorem mem_trackWrites {ps : List Placed} {x : Nat × UInt8} (h : x ∈ trackWrites ps) :
    ∃ p ∈ ps, p.romPos ≤ x.1 ∧ x.1 < p.romPos + p.out.bytes.length := by
  obtain ⟨p, hp, hx⟩ := List.mem_flatMap.mp h
  exact ⟨p, hp, mem_bytesAt hx⟩

theorem mem_bytesAt_of {bs : List UInt8} : ∀ {start q : Nat}, start ≤ q → q < start + bs.length → ∃ x ∈ bytesAt start bs, x.1 = q := by
  induction bs with
  | nil => intro start q h1 h2; simp at h2; omega
  | cons b bs ih =>
    intro start q h1 h2
    by_cases h : q = start
    · exact ⟨(start, b), by simp [bytesAt], h.symm⟩
    · obtain ⟨x, hx, hq⟩ := ih (start := start + 1) (q := q) (by omega) (by simp at h2; omega)
      exact ⟨x, by simp [bytesAt, hx], hq⟩

theorem mem_partWrites {addrs : List Nat} : ∀ {ts : List Nat} {p : Nat} {x : Nat × UInt8}, x ∈ partWrites addrs ts p →
    p ≤ x.1 ∧ x.1 < p + 2 * ts.length := by
  intro ts
  induction ts with
  | nil => intro p x h; cases h
  | cons t ts ih =>
    intro p x h
    rw [partWrites, List.mem_append] at h
    simp only [List.length_cons]
    rcases h with h | h
    · have := mem_pointerPokes h; omega
    · have := ih h; omega

theorem partWrites_last {addrs : List Nat} : ∀ {ts : List Nat} {p : Nat}, ts ≠ [] → ∃ x ∈ partWrites addrs ts p, x.1 + 1 = p + 2 * ts.length := by
  intro ts
  induction ts with
  | nil => intro p h; exact absurd rfl h
  | cons t ts ih =>
    intro p _
    cases ts with
    | nil => exact ⟨(p + 1, (addrToBytes (addrs.getD t 0)).1), by simp [partWrites, pointerPokes], by simp⟩
    | cons a b =>
      obtain ⟨x, hx, he⟩ := ih (p := p + 2) (by simp)
      refine ⟨x, by rw [partWrites, List.mem_append]; exact .inr hx, ?_⟩
      simp only [List.length_cons] at he ⊢; omega

/-- A song is written exactly as placed: success means that the placement succeeds, all indices are in range and all
writes are inside the image; the new image is the old one with those writes. -/
theorem writeSong_ok {w : Walk} {v : Bool} {st st' : BankState} {song : Song} {loops : Bool} :
    writeSong w v st song loops = .ok st' ↔ ∃ s c, placeSong w v st.cur st.songTableAddr song loops = .ok (s, c) ∧ s.Indices ∧
      (∀ x ∈ s.writes, x.1 < st.rom.length) ∧
      st' = { rom := applyW st.rom s.writes, romAddr := c.romAddr, chunkLength := c.len, aramBaseAddr := c.aram
              songOffset := c.off, songTableAddr := st.songTableAddr + 2 } := by
  unfold writeSong placeSong
  simp only [res_bind, res_pure, pokes_ok, trackLoop_ok, writePartTracks_ok, writeCallLoops_ok]
  constructor
  · rintro ⟨s, hs, _, ⟨hin1, rfl⟩, _, ⟨hin2, rfl⟩, _, ⟨ps, c, hps, hin3, rfl⟩, _, ⟨hin4, rfl⟩, part, hpart, _, ⟨hidx1, hin5, rfl⟩,
      _, ⟨hidx2, rfl⟩, rfl⟩
    simp only [applyW_length, List.nil_append] at *
    refine ⟨⟨st.songTableAddr, ⟨s.2.2.1, s.2.2.2.1, s.2.2.2.2, s.2.1⟩, s.1, song, loops, part, ps⟩, c, ⟨s, hs, (ps, c), hps, part, hpart, rfl⟩, ⟨?_, ?_⟩, ?_, ?_⟩
    · intro t ht; simpa using hidx1 t ht
    · intro p hp r hr
      have := (hidx2 ⟨r.targetTrack, p.refBase, r.refPos⟩ (List.mem_flatMap.mpr ⟨p, hp, List.mem_map.mpr ⟨r, hr, rfl⟩⟩)).1
      simpa using this
    · intro x hx
      unfold PlacedSong.writes at hx
      simp only [List.mem_append] at hx
      rcases hx with ((((hx | hx) | hx) | hx) | hx) | hx
      · exact hin1 x hx
      · exact hin2 x hx
      · obtain ⟨p, hp, h1, h2⟩ := mem_trackWrites hx
        have := hin3 p hp (by omega)
        omega
      · exact hin4 x hx
      · have := mem_partWrites hx
        cases part with
        | nil => cases hx
        | cons a b => exact lt_of_lt_of_le this.2 (hin5 (by simp))
      · obtain ⟨r, hr, hx⟩ := List.mem_flatMap.mp hx
        have := mem_pointerPokes hx
        have h2 := (hidx2 r hr).2
        omega
    · simp only [PlacedSong.writes, applyW_append, PlacedSong.addrs, PlacedSong.aram, PlacedSong.partAram, PlacedSong.partPos]
  · rintro ⟨s, c, ⟨sw, hs, ⟨ps, c'⟩, hps, part, hpart, heq⟩, hidx, hin, rfl⟩
    cases heq
    unfold PlacedSong.writes at hin
    simp only [List.mem_append] at hin
    refine ⟨sw, hs, _, ⟨fun x hx => hin x (by tauto), rfl⟩, _, ⟨fun x hx => ?_, rfl⟩, _, ⟨ps, c', hps, fun p hp hl => ?_, rfl⟩, _, ⟨fun x hx => ?_, rfl⟩,
      part, hpart, _, ⟨fun t ht => ?_, fun hne => ?_, rfl⟩, _, ⟨fun r hr => ⟨?_, ?_⟩, rfl⟩, ?_⟩
    · rw [applyW_length]; exact hin x (by tauto)
    · simp only [applyW_length]
      obtain ⟨x, hx, he⟩ := mem_bytesAt_of (bs := p.out.bytes) (start := p.romPos) (q := p.romPos + p.out.bytes.length - 1) (by omega) (by omega)
      have := hin x (.inl (.inl (.inl (.inr (List.mem_flatMap.mpr ⟨p, hp, hx⟩)))))
      omega
    · simp only [applyW_length]
      exact hin x (by tauto)
    · simp only [List.nil_append, List.length_map]
      exact hidx.1 t ht
    · simp only [applyW_length]
      obtain ⟨x, hx, he⟩ := partWrites_last (addrs := ps.map (·.addr)) (p := PlacedSong.partPos ⟨st.songTableAddr, ⟨sw.2.2.1, sw.2.2.2.1, sw.2.2.2.2, sw.2.1⟩, sw.1, song, loops, part, ps⟩) hne
      have := hin x (.inl (.inr hx))
      simp only [PlacedSong.partPos] at he
      obtain ⟨a, b, c, d, e⟩ := sw
      simp only at he ⊢
      omega
    · simp only [List.nil_append, List.length_map] at hr ⊢
      obtain ⟨p, hp, hr⟩ := List.mem_flatMap.mp hr
      obtain ⟨q, hq, rfl⟩ := List.mem_map.mp hr
      exact hidx.2 p hp q hq
    · simp only [List.nil_append, applyW_length] at hr ⊢
      refine hin (r.chunkBase + r.refPos + 1, (addrToBytes ((ps.map (·.addr)).getD r.targetTrack 0)).1) (.inr (List.mem_flatMap.mpr ⟨r, hr, ?_⟩))
      exact List.mem_cons_self ..
    · simp only [PlacedSong.writes, applyW_append, PlacedSong.addrs, PlacedSong.aram, PlacedSong.partAram, PlacedSong.partPos,
        List.nil_append]

/-! Banks. -/

/-- Placing the songs of a bank. -/
def placeBank {Path : Type} (conv : Converter Path) (w : Walk) (verbose : Bool) :
    List (SongDef Path) → Cur → Nat → Res (List PlacedSong × Cur)
  | [], c, _ => .ok ([], c)
  | d :: ds, c, table => do
    let song ← loadSong conv d
    let r ← placeSong w verbose c table song d.loops
    let rs ← placeBank conv w verbose ds r.2 (table + 2)
    return (r.1 :: rs.1, rs.2)

/-- The zeros behind the song table. -/
def fillWrites (a b : Nat) : List (Nat × UInt8) := (List.range' a (b - a)).map fun i => (i, 0)

/-- All writes of the songs of a bank. -/
def songsWrites (ps : List PlacedSong) : List (Nat × UInt8) := ps.flatMap PlacedSong.writes

theorem songLoop_ok {Path : Type} {conv : Converter Path} {w : Walk} {v : Bool} : ∀ (ds : List (SongDef Path)) {st st' : BankState},
    ds.foldlM (fun st d => do
      let song ← loadSong conv d
      writeSong w v st song d.loops) st = .ok st' ↔
    ∃ ps c, placeBank conv w v ds st.cur st.songTableAddr = .ok (ps, c) ∧ (∀ s ∈ ps, s.Indices) ∧
      (∀ x ∈ songsWrites ps, x.1 < st.rom.length) ∧
      st' = { rom := applyW st.rom (songsWrites ps), romAddr := c.romAddr, chunkLength := c.len, aramBaseAddr := c.aram
              songOffset := c.off, songTableAddr := st.songTableAddr + 2 * ds.length } := by
  intro ds
  induction ds with
  | nil =>
    intro st st'
    simp only [List.foldlM_nil, placeBank, res_pure, Except.ok.injEq, Prod.mk.injEq]
    constructor
    · rintro rfl
      exact ⟨[], _, ⟨rfl, rfl⟩, by simp, by simp [songsWrites], by simp [songsWrites, applyW, BankState.cur]⟩
    · rintro ⟨ps, c, ⟨rfl, rfl⟩, -, -, rfl⟩
      simp [songsWrites, applyW, BankState.cur]
  | cons d ds ih =>
    intro st st'
    rw [List.foldlM_cons, res_bind]
    constructor
    · rintro ⟨st1, h1, h⟩
      rw [res_bind] at h1
      obtain ⟨song, hsong, h1⟩ := h1
      obtain ⟨s, c, hs, hidx, hin, rfl⟩ := writeSong_ok.mp h1
      obtain ⟨ps, c2, hps, hidx2, hin2, rfl⟩ := ih.mp h
      refine ⟨s :: ps, c2, ?_, ?_, ?_, ?_⟩
      · rw [placeBank, res_bind]
        refine ⟨song, hsong, ?_⟩
        rw [res_bind]
        refine ⟨_, hs, ?_⟩
        rw [res_bind]
        exact ⟨_, hps, rfl⟩
      · intro x hx
        rcases List.mem_cons.mp hx with rfl | hx
        · exact hidx
        · exact hidx2 x hx
      · intro x hx
        simp only [songsWrites, List.flatMap_cons, List.mem_append] at hx
        rcases hx with hx | hx
        · exact hin x hx
        · simpa only [applyW_length] using hin2 x hx
      · simp only [songsWrites, List.flatMap_cons, applyW_append, List.length_cons]
        congr 1
        omega
    · rintro ⟨ps0, c2, hps, hidx, hin, rfl⟩
      rw [placeBank, res_bind] at hps
      obtain ⟨song, hsong, hps⟩ := hps
      rw [res_bind] at hps
      obtain ⟨⟨s, c⟩, hs, hps⟩ := hps
      rw [res_bind] at hps
      obtain ⟨⟨ps, c'⟩, hps, heq⟩ := hps
      rw [res_pure] at heq
      cases heq
      simp only [songsWrites, List.flatMap_cons, List.mem_append] at hin
      refine ⟨{ rom := applyW st.rom s.writes, romAddr := c.romAddr, chunkLength := c.len, aramBaseAddr := c.aram
                songOffset := c.off, songTableAddr := st.songTableAddr + 2 }, ?_, ?_⟩
      · rw [res_bind]
        exact ⟨song, hsong, writeSong_ok.mpr ⟨s, c, hs, hidx s (by simp), fun x hx => hin x (.inl hx), rfl⟩⟩
      · rw [ih]
        refine ⟨ps, c', hps, fun x hx => hidx x (by simp [hx]), ?_, ?_⟩
        · intro x hx
          simp only [applyW_length]
          exact hin x (.inr hx)
        · simp only [songsWrites, List.flatMap_cons, applyW_append, List.length_cons]
          congr 1
          omega

/-- A whole bank placed in the ROM. -/
structure PlacedBank where
  chunks : Walk
  first : Nat
  table : Nat
  songs : List PlacedSong

/-- All writes of a bank. -/
def PlacedBank.writes (b : PlacedBank) : List (Nat × UInt8) :=
  songsWrites b.songs ++ fillWrites (b.table + 2 * b.songs.length) (b.chunks.baseAddr + b.first - aramBase)

/-- Where the songs of a bank start. -/
def startCur (w : Walk) (first : Nat) : Cur := ⟨w.baseAddr, w.baseLen, aramBase, first - aramBase⟩

theorem placeBank_length {Path : Type} {conv : Converter Path} {w : Walk} {v : Bool} : ∀ (ds : List (SongDef Path)) {c c' : Cur} {t : Nat}
    {ps : List PlacedSong}, placeBank conv w v ds c t = .ok (ps, c') → ps.length = ds.length := by
  intro ds
  induction ds with
  | nil => intro c c' t ps h; cases h; rfl
  | cons d ds ih =>
    intro c c' t ps h
    rw [placeBank, res_bind] at h
    obtain ⟨song, hsong, h⟩ := h
    rw [res_bind] at h
    obtain ⟨⟨s, c1⟩, hs, h⟩ := h
    rw [res_bind] at h
    obtain ⟨⟨ps, c2⟩, hps, heq⟩ := h
    rw [res_pure] at heq
    cases heq
    simp [ih hps]

/-- A bank is written exactly as placed. The writes depend on the ROM only through the chunk search. -/
theorem writeBank_ok {Path : Type} {conv : Converter Path} {v : Bool} {songs : List (SongDef Path)} {rom r : Rom} {base first fs : Nat} :
    writeBank conv v songs rom base first fs = .ok r ↔
    ∃ w ps c, findChunks rom base = .ok w ∧ aramBase ≤ first ∧
      placeBank conv w v songs (startCur w first) (w.baseAddr + 2 * fs) = .ok (ps, c) ∧ (∀ s ∈ ps, s.Indices) ∧
      (∀ x ∈ (PlacedBank.mk w first (w.baseAddr + 2 * fs) ps).writes, x.1 < rom.length) ∧
      r = applyW rom (PlacedBank.mk w first (w.baseAddr + 2 * fs) ps).writes := by
  unfold writeBank
  simp only [res_bind, subU_ok, songLoop_ok, pokes_ok]
  constructor
  · rintro ⟨w, hw, so, ⟨hle, hso⟩, st, ⟨ps, c, hps, hidx, hin, rfl⟩, hin2, rfl⟩
    rw [hso] at hps
    clear hso
    have hl := placeBank_length _ hps
    have e : fs * 2 = 2 * fs := Nat.mul_comm fs 2
    simp only [e] at hps hin2 ⊢
    refine ⟨w, ps, c, hw, hle, hps, hidx, ?_, ?_⟩
    · intro x hx
      simp only [PlacedBank.writes, List.mem_append] at hx
      rcases hx with hx | hx
      · exact hin x hx
      · simp only [applyW_length] at hin2
        refine hin2 x ?_
        rw [hl] at hx
        exact hx
    · simp only [PlacedBank.writes, applyW_append, fillWrites, hl]
  · rintro ⟨w, ps, c, hw, hle, hps, hidx, hin, rfl⟩
    have hl := placeBank_length _ hps
    simp only [PlacedBank.writes, List.mem_append] at hin
    refine ⟨w, hw, _, ⟨hle, rfl⟩, _, ⟨ps, c, ?_, hidx, fun x hx => hin x (.inl hx), rfl⟩, ?_, ?_⟩
    · rw [Nat.mul_comm fs 2]; exact hps
    · intro x hx
      simp only [applyW_length]
      refine hin x (.inr ?_)
      rw [hl, Nat.mul_comm 2 fs]
      exact hx
    · simp only [PlacedBank.writes, applyW_append, fillWrites, hl, Nat.mul_comm fs 2]

end M2S
