import Verif.Proofs.RomBank
/-
What the engine sees in ARAM after a bank has been built and uploaded.
-/
namespace M2S
open RomSpec

theorem upload_skip {m : Mem} {x : Nat} : ∀ {cs : List ChunkInfo} {a : Mem}, (∀ c ∈ cs, ¬ (c.aram ≤ x ∧ x < c.aram + c.len)) →
    upload m cs a x = a x := by
  intro cs
  induction cs with
  | nil => intro a _; rfl
  | cons c cs ih =>
    intro a h
    rw [upload, ih fun d hd => h d (List.mem_cons_of_mem _ hd), if_neg (h c (List.mem_cons_self ..))]

theorem upload_append {m : Mem} : ∀ {l r : List ChunkInfo} {a : Mem}, upload m (l ++ r) a = upload m r (upload m l a) := by
  intro l
  induction l with
  | nil => intro r a; rfl
  | cons c l ih => intro r a; exact ih

theorem upload_get {m : Mem} {l r : List ChunkInfo} {c : ChunkInfo} {a : Mem} {j : Nat} (hj : j < c.len) (h : ∀ d ∈ r, d.Apart c) :
    upload m (l ++ c :: r) a (c.aram + j) = m (c.data + j) := by
  rw [upload_append, upload, upload_skip]
  · rw [if_pos ⟨by omega, by omega⟩]
    congr 1; omega
  · intro d hd
    have := h d hd
    unfold ChunkInfo.Apart at this
    omega

/-- The chunks of a bank as seen in ARAM. -/
theorem bank_view {b : Bank} {m a0 : Mem} (hs : ∀ c ∈ b.over :: b.post, c.Apart b.songs) (ho : ∀ c ∈ b.post, c.Apart b.over) :
    (∀ j < b.songs.len, upload m b.chunks a0 (b.songs.aram + j) = m (b.songs.data + j)) ∧
    (∀ j < b.over.len, upload m b.chunks a0 (b.over.aram + j) = m (b.over.data + j)) := by
  constructor
  · intro j hj
    exact upload_get hj hs
  · intro j hj
    have : b.chunks = (b.pre ++ [b.songs]) ++ b.over :: b.post := by simp [Bank.chunks]
    rw [this]
    exact upload_get hj ho

theorem Built.get {b : Bank} {B : PlacedBank} {first fs : Nat} {es : List Encoded} {rom r : Rom} (h : Built b B first fs es rom r) {q : Nat} {v : UInt8}
    (hq : lastW q B.writes = some v) : ofRom r q = some v := by
  have hlt : q < rom.length := by
    by_contra hc
    have : lastW q B.writes = none := lastW_none.mpr fun x hx hxq => by have := h.inside x hx; omega
    rw [this] at hq; cases hq
  unfold ofRom
  rw [h.result, applyW_get _ _ _ hlt, hq]
  rfl

theorem word_of {m : Mem} {q a : Nat} (h0 : m q = some (addrToBytes a).2) (h1 : m (q + 1) = some (addrToBytes a).1) (ha : a < 0x10000) :
    word m q = some a := by
  unfold word
  rw [h0, h1, addrToBytes_eq]
  simp only [UInt8.toNat_ofNat', Option.some.injEq]
  omega

theorem lastW_pointer (p a : Nat) : lastW p (pointerPokes p a) = some (addrToBytes a).2 ∧ lastW (p + 1) (pointerPokes p a) = some (addrToBytes a).1 := by
  simp [pointerPokes, lastW, Option.orElse]

theorem lastW_partWrites {addrs : List Nat} : ∀ {ts : List Nat} {p k t : Nat}, ts[k]? = some t →
    lastW (p + 2 * k) (partWrites addrs ts p) = some (addrToBytes (addrs.getD t 0)).2 ∧
    lastW (p + 2 * k + 1) (partWrites addrs ts p) = some (addrToBytes (addrs.getD t 0)).1 := by
  intro ts
  induction ts with
  | nil => intro p k t h; simp at h
  | cons x ts ih =>
    intro p k t h
    cases k with
    | zero =>
      simp only [List.getElem?_cons_zero, Option.some.injEq] at h
      subst h
      have hn : ∀ q, q < p + 2 → lastW q (partWrites addrs ts (p + 2)) = none := fun q hq => lastW_none.mpr fun y hy hyq => by
        have := mem_partWrites hy; omega
      have := lastW_pointer p (addrs.getD x 0)
      simp only [Nat.mul_zero, Nat.add_zero]
      rw [partWrites, lastW_append, lastW_append, hn _ (by omega), hn _ (by omega)]
      exact this
    | succ k =>
      simp only [List.getElem?_cons_succ] at h
      obtain ⟨h1, h2⟩ := ih (p := p + 2) h
      rw [show p + 2 + 2 * k = p + 2 * (k + 1) by omega] at h1 h2
      rw [partWrites, lastW_append, lastW_append, h1, h2]
      exact ⟨rfl, rfl⟩

theorem lastW_zeros {p j n : Nat} (h : j < n) : lastW (p + j) ((List.range n).map fun i => (p + i, (0 : UInt8))) = some 0 := by
  induction n with
  | zero => omega
  | succ n ih =>
    rw [List.range_succ, List.map_append, lastW_append]
    by_cases hj : j = n
    · subst hj; simp [lastW, Option.orElse]
    · rw [ih (by omega)]
      have : lastW (p + j) (List.map (fun i => (p + i, (0 : UInt8))) [n]) = none := by
        simp [lastW, Option.orElse]; omega
      rw [this]; rfl

theorem lastW_header (loops : Bool) (H T P : Nat) :
    lastW H (songHeaderPokes loops H T P) = some (addrToBytes P).2 ∧ lastW (H + 1) (songHeaderPokes loops H T P) = some (addrToBytes P).1 ∧
    (if loops then
      lastW (H + 2) (songHeaderPokes loops H T P) = some (addrToBytes 0xff).2 ∧ lastW (H + 3) (songHeaderPokes loops H T P) = some (addrToBytes 0xff).1 ∧
      lastW (H + 4) (songHeaderPokes loops H T P) = some (addrToBytes T).2 ∧ lastW (H + 5) (songHeaderPokes loops H T P) = some (addrToBytes T).1 ∧
      lastW (H + 6) (songHeaderPokes loops H T P) = some (addrToBytes 0).2 ∧ lastW (H + 7) (songHeaderPokes loops H T P) = some (addrToBytes 0).1
    else
      lastW (H + 2) (songHeaderPokes loops H T P) = some (addrToBytes 0).2 ∧ lastW (H + 3) (songHeaderPokes loops H T P) = some (addrToBytes 0).1) := by
  cases loops <;> simp [songHeaderPokes, pointerPokes, lastW, Option.orElse, addrToBytes]

/-- The bytes of a track with the writes of its call operands are the patched bytes. -/
theorem lastW_patched {addrs : List Nat} {pos j : Nat} : ∀ (refs : List CallLoopRef) (bs : List UInt8), (∀ r ∈ refs, r.refPos + 1 < bs.length) → j < bs.length →
    lastW (pos + j) (bytesAt pos bs ++ refWrites addrs (refs.map fun r => ⟨r.targetTrack, pos, r.refPos⟩)) =
    (refs.foldl (Nspc.patchOne fun t => (UInt8.ofNat (addrs.getD t 0), UInt8.ofNat (addrs.getD t 0 / 256))) bs)[j]? := by
  intro refs
  induction refs with
  | nil =>
    intro bs _ hj
    simp only [List.map_nil, refWrites, List.flatMap_nil, List.append_nil, List.foldl_nil]
    rw [lastW_bytesAt _ _ _ (by omega), show pos + j - pos = j by omega]
  | cons r refs ih =>
    intro bs hr hj
    have hlen : (Nspc.patchOne (fun t => (UInt8.ofNat (addrs.getD t 0), UInt8.ofNat (addrs.getD t 0 / 256))) bs r).length = bs.length := by
      simp [Nspc.patchOne]
    have hrp := hr r (List.mem_cons_self ..)
    rw [List.foldl_cons, ← ih _ (by rw [hlen]; exact fun x hx => hr x (List.mem_cons_of_mem _ hx)) (by rw [hlen]; exact hj)]
    simp only [List.map_cons, refWrites, List.flatMap_cons]
    rw [← List.append_assoc, lastW_append, lastW_append (pos + j) (bytesAt _ (Nspc.patchOne _ _ _))]
    congr 1
    funext _
    rw [lastW_append, lastW_bytesAt _ _ _ (by omega), lastW_bytesAt _ _ _ (by omega), show pos + j - pos = j by omega]
    simp only [pointerPokes, lastW, Nspc.patchOne, List.getElem?_set, List.length_set, addrToBytes_eq, Option.orElse]
    by_cases h1 : r.refPos + 1 = j
    · subst h1
      simp [hrp, Nat.add_assoc]
    · by_cases h2 : r.refPos = j
      · subst h2
        simp [hj]
      · rw [if_neg (by omega), if_neg (by omega), if_neg h1, if_neg h2]

/-- Everything the engine needs: the song's table entry and the song itself. -/
theorem Built.song_placed {b : Bank} {B : PlacedBank} {first fs : Nat} {es : List Encoded} {rom r : Rom} (h : Built b B first fs es rom r)
    (hfirst : b.songs.aram = 0xd000) (hroom : 2 * (fs + es.length) ≤ b.songs.len)
    {a : Mem} (vs : ∀ j < b.songs.len, a (b.songs.aram + j) = ofRom r (b.songs.data + j))
    (vo : ∀ j < b.over.len, a (b.over.aram + j) = ofRom r (b.over.data + j))
    (hs : 0xd000 + b.songs.len ≤ 0x10000) (ho : b.over.aram + b.over.len ≤ 0x10000) (ho0 : 0x100 ≤ b.over.aram)
    {k : Nat} {s : PlacedSong} (hsk : B.songs[k]? = some s) :
    word a (0xd000 + 2 * (fs + k)) = some s.aram ∧ word a s.aram = some s.partAram ∧ SongAt a s.aram s.enc (fun t => s.addrs.getD t 0) := by
  have hmem : s ∈ B.songs := List.mem_of_getElem? hsk
  have hg := h.good.songs s hmem
  obtain ⟨hklt, hks⟩ := List.getElem?_eq_some_iff.mp hsk
  have hsplit : B.songs = B.songs.take k ++ s :: B.songs.drop (k + 1) := by
    rw [← hks, List.getElem_cons_drop, List.take_append_drop]
  have hlen : es.length = B.songs.length := by rw [← h.enc]; simp
  -- positions
  have hitem : ∀ i ∈ s.items, i.cur.off + i.blk.size ≤ i.cur.len ∧ i.cur.aram + i.cur.len ≤ 0x10000 ∧ 0x100 ≤ i.cur.aram ∧
      ∀ j < i.blk.size, a (i.cur.aram + i.cur.off + j) = ofRom r (i.pos + j) := by
    intro i hi
    obtain ⟨h1, h2⟩ := h.items i (List.mem_flatMap.mpr ⟨s, hmem, hi⟩)
    unfold Item.pos Cur.pos
    rcases h2 with ⟨e1, e2, e3⟩ | ⟨e1, e2, e3⟩
    · refine ⟨h1, by omega, by omega, fun j hj => ?_⟩
      have := vs (i.cur.off + j) (by omega)
      rw [e1, e3, Nat.add_assoc, Nat.add_assoc, ← hfirst]
      exact this
    · refine ⟨h1, by omega, by omega, fun j hj => ?_⟩
      have := vo (i.cur.off + j) (by omega)
      rw [e1, e3, Nat.add_assoc, Nat.add_assoc]
      exact this
  have hord : s.items.Pairwise Ordered := by
    have := h.good.order
    rw [hsplit, List.flatMap_append, List.flatMap_cons, List.pairwise_append, List.pairwise_append] at this
    exact this.2.1.1
  have hent : ∀ q, s.Entry q → B.table ≤ q ∧ q < B.table + 2 * B.songs.length := fun q => h.good.entry_lt hmem
  have hnot : ∀ i ∈ s.items, ∀ q, i.Has q → ¬ s.Entry q := by
    intro i hi q hq he
    have h1 := hent q he
    have h2 := h.good.behind i (List.mem_flatMap.mpr ⟨s, hmem, hi⟩)
    have h3 := h.good.room
    unfold Item.Has at hq
    omega
  have hhead : s.headItem ∈ s.items := by rw [PlacedSong.items_eq]; exact List.mem_cons_self ..
  obtain ⟨g1, g2, g3, gview⟩ := hitem _ hhead
  have ghas : ∀ j < songHeaderSize s.loops + 16, s.headItem.Has (s.headItem.pos + j) := fun j hj => ⟨by omega, by
    have : s.headItem.blk.size = songHeaderSize s.loops + 16 := rfl
    omega⟩
  have hcurlen : s.head.off + (songHeaderSize s.loops + 16) ≤ s.head.len := g1
  have haram : s.head.aram + s.head.len ≤ 0x10000 := g2
  -- bytes of the header block
  have hbyte : ∀ j < songHeaderSize s.loops + 16, ∀ v, lastW (s.headItem.pos + j) (songHeaderPokes s.loops (s.head.romAddr + s.head.off) s.aram s.partAram ++
      ((List.range 16).map fun i => (s.partPos + i, 0)) ++ partWrites s.addrs s.part s.partPos) = some v → a (s.aram + j) = some v := by
    intro j hj v hv
    rw [show s.aram + j = s.headItem.cur.aram + s.headItem.cur.off + j from rfl, gview j hj]
    refine h.get ?_
    rw [h.good.lastW_song hsplit (.inr ⟨_, hhead, ghas j hj⟩), PlacedSong.lastW_head hg hord (ghas j hj) (hnot _ hhead _ (ghas j hj))]
    exact hv
  have hhdr : ∀ j < songHeaderSize s.loops, ∀ v, lastW (s.headItem.pos + j) (songHeaderPokes s.loops (s.head.romAddr + s.head.off) s.aram s.partAram) = some v →
      a (s.aram + j) = some v := by
    intro j hj v hv
    refine hbyte j (by omega) v ?_
    have hpos : s.headItem.pos = s.head.romAddr + s.head.off := rfl
    rw [lastW_append, lastW_append, lastW_none.mpr, lastW_none.mpr]
    · exact hv
    · intro x hx hxq
      obtain ⟨i, hi, rfl⟩ := List.mem_map.mp hx
      rw [partPos_eq] at hxq
      simp only at hxq
      omega
    · intro x hx hxq
      have := mem_partWrites hx
      rw [partPos_eq] at this
      omega
  have hH : s.headItem.pos = s.head.romAddr + s.head.off := rfl
  have hT : s.aram < 0x10000 := by unfold PlacedSong.aram; omega
  have hP : s.partAram = s.aram + songHeaderSize s.loops := by unfold PlacedSong.partAram PlacedSong.aram; omega
  obtain ⟨l0, l1, lrest⟩ := lastW_header s.loops (s.head.romAddr + s.head.off) s.aram s.partAram
  have hsz : 4 ≤ songHeaderSize s.loops := by unfold songHeaderSize; split <;> omega
  -- addresses of the tracks
  have haddr : ∀ t p, s.tracks[t]? = some p → s.addrs.getD t 0 = p.addr := by
    intro t p ht
    unfold PlacedSong.addrs
    rw [List.getD_eq_getElem?_getD, List.getElem?_map, ht]
    rfl
  have hsmall : ∀ t, s.addrs.getD t 0 < 0x10000 := by
    intro t
    cases ht : s.tracks[t]? with
    | none =>
      unfold PlacedSong.addrs
      rw [List.getD_eq_getElem?_getD, List.getElem?_map, ht]
      simp
    | some p =>
      rw [haddr t p ht]
      obtain ⟨h1, h2, -⟩ := hitem p.item (by rw [PlacedSong.items_eq]; exact List.mem_cons_of_mem _ (List.mem_map.mpr ⟨p, List.mem_of_getElem? ht, rfl⟩))
      simp only [Placed.item] at h1 h2
      unfold Placed.addr
      split <;> omega
  have hpartWord : word a s.aram = some s.partAram := word_of (hhdr 0 (by omega) _ l0) (hhdr 1 (by omega) _ l1) (by unfold PlacedSong.partAram; omega)
  refine ⟨?_, hpartWord, ?_, ?_, ?_, hsmall⟩
  · -- the song table
    have htab := h.good.table k s hsk
    have hq : ∀ q, s.Entry q → lastW q B.writes = lastW q (pointerPokes s.table s.aram) := by
      intro q hq
      rw [h.good.lastW_song hsplit (.inl hq), PlacedSong.lastW_entry hg fun i hi hh => hnot i hi q hh hq]
    obtain ⟨p0, p1⟩ := lastW_pointer s.table s.aram
    have e0 : a (0xd000 + 2 * (fs + k)) = ofRom r s.table := by
      rw [← hfirst, vs _ (by omega), htab, h.table]
      congr 1; omega
    have e1 : a (0xd000 + 2 * (fs + k) + 1) = ofRom r (s.table + 1) := by
      rw [← hfirst, Nat.add_assoc, vs _ (by omega), htab, h.table]
      congr 1; omega
    exact word_of (by rw [e0]; exact h.get (by rw [hq _ (.inl rfl)]; exact p0)) (by rw [e1]; exact h.get (by rw [hq _ (.inr rfl)]; exact p1)) hT
  · -- the part
    refine ⟨s.partAram, hpartWord, by have : 0x100 ≤ s.head.aram := g3; unfold PlacedSong.partAram; omega, ?_⟩
    · intro j hj
      have hpp : s.headItem.pos + (songHeaderSize s.loops + 2 * j) = s.partPos + 2 * j := by rw [partPos_eq, hH]; omega
      have hpp1 : s.headItem.pos + (songHeaderSize s.loops + (2 * j + 1)) = s.partPos + (2 * j + 1) := by rw [partPos_eq, hH]; omega
      cases ht : s.part[j]? with
      | some t =>
        have hpt : s.enc.part[j]? = some t := ht
        rw [hpt]
        obtain ⟨q0, q1⟩ := lastW_partWrites (addrs := s.addrs) (p := s.partPos) ht
        refine word_of ?_ ?_ (hsmall t)
        · rw [hP, Nat.add_assoc]
          refine hbyte (songHeaderSize s.loops + 2 * j) (by omega) _ ?_
          rw [hpp, lastW_append, q0]
          rfl
        · rw [hP, Nat.add_assoc, Nat.add_assoc]
          refine hbyte (songHeaderSize s.loops + (2 * j + 1)) (by omega) _ ?_
          rw [hpp1, ← Nat.add_assoc, lastW_append, q1]
          rfl
      | none =>
        have hpt : s.enc.part[j]? = none := ht
        rw [hpt]
        have hlen := List.getElem?_eq_none_iff.mp ht
        have hz : ∀ i < 16, 2 * s.part.length ≤ i → lastW (s.partPos + i) (songHeaderPokes s.loops (s.head.romAddr + s.head.off) s.aram s.partAram ++
            ((List.range 16).map fun i => (s.partPos + i, 0)) ++ partWrites s.addrs s.part s.partPos) = some 0 := by
          intro i hi hle
          rw [lastW_append, lastW_none.mpr fun x hx hxq => by have := mem_partWrites hx; omega, lastW_append, lastW_zeros hi]
          rfl
        refine word_of (a := 0) ?_ ?_ (by omega)
        · rw [hP, Nat.add_assoc]
          refine hbyte (songHeaderSize s.loops + 2 * j) (by omega) _ ?_
          rw [hpp, hz _ (by omega) (by omega)]
          rfl
        · rw [hP, Nat.add_assoc, Nat.add_assoc]
          refine hbyte (songHeaderSize s.loops + (2 * j + 1)) (by omega) _ ?_
          rw [hpp1, hz _ (by omega) (by omega)]
          rfl
  · -- the loop mark
    have hl : s.enc.loops = s.loops := rfl
    rw [hl]
    cases hlp : s.loops with
    | true =>
      have hsz8 : songHeaderSize s.loops = 8 := by rw [hlp]; rfl
      rw [if_pos hlp] at lrest
      obtain ⟨l2, l3, l4, l5, l6, l7⟩ := lrest
      rw [if_pos rfl]
      refine ⟨word_of (hhdr 2 (by omega) _ l2) (hhdr 3 (by omega) _ l3) (by omega),
        word_of (hhdr 4 (by omega) _ l4) (hhdr 5 (by omega) _ l5) hT,
        word_of (hhdr 6 (by omega) _ l6) (hhdr 7 (by omega) _ l7) (by omega)⟩
    | false =>
      rw [if_neg (by rw [hlp]; simp)] at lrest
      obtain ⟨l2, l3⟩ := lrest
      rw [if_neg (by simp)]
      exact word_of (hhdr 2 (by omega) _ l2) (hhdr 3 (by omega) _ l3) (by omega)
  · -- the tracks
    intro t o ht
    obtain ⟨p, hpt, rfl⟩ : ∃ p, s.tracks[t]? = some p ∧ p.out = o := by
      have ht' : (s.tracks.map (·.out))[t]? = some o := ht
      rw [List.getElem?_map] at ht'
      cases hpt : s.tracks[t]? with
      | none => rw [hpt] at ht'; cases ht'
      | some p => rw [hpt] at ht'; exact ⟨p, rfl, Option.some.inj ht'⟩
    have hpm : p ∈ s.tracks := List.mem_of_getElem? hpt
    have hpi : p.item ∈ s.items := by rw [PlacedSong.items_eq]; exact List.mem_cons_of_mem _ (List.mem_map.mpr ⟨p, hpm, rfl⟩)
    obtain ⟨i1, i2, i3, iview⟩ := hitem p.item hpi
    simp only [haddr t p hpt]
    by_cases hb : p.out.bytes = []
    · rw [if_pos hb]
      unfold Placed.addr
      simp [hb]
    · rw [if_neg hb]
      have hbl : p.out.bytes.length > 0 := List.length_pos_iff.mpr hb
      have hpa : p.addr = p.cur.aram + p.cur.off := by unfold Placed.addr; rw [if_pos hbl]
      rw [hpa]
      simp only [Placed.item] at i3
      refine ⟨by omega, ?_⟩
      intro j hj
      rw [show p.cur.aram + p.cur.off + j = p.item.cur.aram + p.item.cur.off + j from rfl, iview j hj]
      have hhas : p.item.Has (p.item.pos + j) := ⟨by omega, by
        have : p.item.blk.size = p.out.bytes.length := rfl
        omega⟩
      have hrefs : p.refs = p.out.refs.map fun r => ⟨r.targetTrack, p.romPos, r.refPos⟩ := by
        unfold Placed.refs
        by_cases hr : p.out.refs = []
        · rw [hr]; rfl
        · rw [hg.base p hpm hr]
      have hlast : lastW (p.item.pos + j) B.writes =
          (p.out.refs.foldl (Nspc.patchOne fun t => (UInt8.ofNat (s.addrs.getD t 0), UInt8.ofNat (s.addrs.getD t 0 / 256))) p.out.bytes)[j]? := by
        rw [h.good.lastW_song hsplit (.inr ⟨_, hpi, hhas⟩), PlacedSong.lastW_track hg hord hpm hhas (hnot _ hpi _ hhas), hrefs]
        exact lastW_patched _ _ (hg.refs p hpm) hj
      rw [← hlast]
      cases hv : lastW (p.item.pos + j) B.writes with
      | some v => exact h.get hv
      | none =>
        exfalso
        rw [hlast] at hv
        have hl : ∀ (refs : List CallLoopRef) (bs : List UInt8) (f : Nat → UInt8 × UInt8), (refs.foldl (Nspc.patchOne f) bs).length = bs.length := by
          intro refs
          induction refs with
          | nil => intro bs f; rfl
          | cons x refs ih => intro bs f; rw [List.foldl_cons, ih]; simp [Nspc.patchOne]
        rw [List.getElem?_eq_none_iff, hl] at hv
        omega

/-- The same without the placement. -/
theorem Built.song_at {b : Bank} {B : PlacedBank} {first fs : Nat} {es : List Encoded} {rom r : Rom} (h : Built b B first fs es rom r)
    (hfirst : b.songs.aram = 0xd000) (hroom : 2 * (fs + es.length) ≤ b.songs.len)
    {a : Mem} (vs : ∀ j < b.songs.len, a (b.songs.aram + j) = ofRom r (b.songs.data + j))
    (vo : ∀ j < b.over.len, a (b.over.aram + j) = ofRom r (b.over.data + j))
    (hs : 0xd000 + b.songs.len ≤ 0x10000) (ho : b.over.aram + b.over.len ≤ 0x10000) (ho0 : 0x100 ≤ b.over.aram)
    {k : Nat} {e : Encoded} (hk : es[k]? = some e) :
    ∃ T addr, word a (0xd000 + 2 * (fs + k)) = some T ∧ SongAt a T e addr := by
  obtain ⟨s, hsk, rfl⟩ : ∃ s, B.songs[k]? = some s ∧ s.enc = e := by
    rw [← h.enc, List.getElem?_map] at hk
    cases hsk : B.songs[k]? with
    | none => rw [hsk] at hk; cases hk
    | some s => rw [hsk] at hk; exact ⟨s, rfl, Option.some.inj hk⟩
  have := h.song_placed hfirst hroom vs vo hs ho ho0 hsk
  exact ⟨_, _, this.1, this.2.2⟩

end M2S
