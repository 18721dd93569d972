import Verif.Proofs.RomLayout
/-
Ranges and contents of the writes of a placed song and of a placed bank.
-/
namespace M2S
open RomSpec

/-- A placed song without the writer's defects. -/
structure PlacedSong.Good (s : PlacedSong) : Prop where
  part : s.part.length ≤ 8
  base : ∀ p ∈ s.tracks, p.out.refs ≠ [] → p.refBase = p.romPos
  refs : ∀ p ∈ s.tracks, ∀ r ∈ p.out.refs, r.refPos + 1 < p.out.bytes.length

def Item.Has (i : Item) (q : Nat) : Prop := i.pos ≤ q ∧ q < i.pos + i.blk.size

def PlacedSong.headItem (s : PlacedSong) : Item := ⟨⟨songHeaderSize s.loops + 16, false⟩, s.head, s.switched⟩

theorem PlacedSong.items_eq (s : PlacedSong) : s.items = s.headItem :: s.tracks.map Placed.item := rfl

theorem Placed.item_has {p : Placed} {q : Nat} : p.item.Has q ↔ p.romPos ≤ q ∧ q < p.romPos + p.out.bytes.length := Iff.rfl

theorem headItem_has {s : PlacedSong} {q : Nat} : s.headItem.Has q ↔
    s.head.romAddr + s.head.off ≤ q ∧ q < s.head.romAddr + s.head.off + (songHeaderSize s.loops + 16) := Iff.rfl

theorem songHeaderPokes_range {loops : Bool} {a b c : Nat} {x : Nat × UInt8} (h : x ∈ songHeaderPokes loops a b c) :
    a ≤ x.1 ∧ x.1 < a + songHeaderSize loops := by
  unfold songHeaderPokes at h
  rw [List.mem_append] at h
  unfold songHeaderSize
  rcases h with h | h
  · have := mem_pointerPokes h
    split <;> omega
  · split at h
    · rw [if_pos ‹_›]
      simp only [List.cons_append, List.nil_append, List.mem_cons, List.not_mem_nil, or_false] at h
      rcases h with rfl | rfl | rfl | rfl | rfl | rfl <;> simp
    · rw [if_neg ‹_›]
      simp only [List.mem_cons, List.not_mem_nil, or_false] at h
      rcases h with rfl | rfl <;> simp

theorem Good.refWrites_range {s : PlacedSong} (hg : s.Good) {p : Placed} (hp : p ∈ s.tracks) {addrs : List Nat} {x : Nat × UInt8}
    (h : x ∈ refWrites addrs p.refs) : p.item.Has x.1 := by
  obtain ⟨r, hr, hx⟩ := List.mem_flatMap.mp h
  obtain ⟨r', hr', rfl⟩ := List.mem_map.mp hr
  have h1 := hg.base p hp (List.ne_nil_of_mem hr')
  have h2 := hg.refs p hp r' hr'
  have h3 := mem_pointerPokes hx
  rw [Placed.item_has]
  simp only [h1] at h3
  omega

theorem refWrites_append (addrs : List Nat) (a b : List RomCallLoopRef) : refWrites addrs (a ++ b) = refWrites addrs a ++ refWrites addrs b := by
  simp [refWrites]

theorem mem_refWrites_flatMap {addrs : List Nat} {ps : List Placed} {x : Nat × UInt8} (h : x ∈ refWrites addrs (ps.flatMap Placed.refs)) :
    ∃ p ∈ ps, x ∈ refWrites addrs p.refs := by
  obtain ⟨r, hr, hx⟩ := List.mem_flatMap.mp h
  obtain ⟨p, hp, hr⟩ := List.mem_flatMap.mp hr
  exact ⟨p, hp, List.mem_flatMap.mpr ⟨r, hr, hx⟩⟩

/-- The two bytes of the song table entry. -/
def PlacedSong.Entry (s : PlacedSong) (q : Nat) : Prop := q = s.table ∨ q = s.table + 1

theorem partPos_eq (s : PlacedSong) : s.partPos = s.head.romAddr + s.head.off + songHeaderSize s.loops := by
  unfold PlacedSong.partPos; omega

theorem PlacedSong.writes_range {s : PlacedSong} (hg : s.Good) {x : Nat × UInt8} (h : x ∈ s.writes) :
    s.Entry x.1 ∨ ∃ i ∈ s.items, i.Has x.1 := by
  unfold PlacedSong.writes at h
  simp only [List.mem_append] at h
  have hhead : s.headItem.Has x.1 → ∃ i ∈ s.items, i.Has x.1 := fun h => ⟨_, by rw [PlacedSong.items_eq]; exact List.mem_cons_self .., h⟩
  have htrack : ∀ p ∈ s.tracks, p.item.Has x.1 → ∃ i ∈ s.items, i.Has x.1 := fun p hp h => ⟨p.item, by
    rw [PlacedSong.items_eq]; exact List.mem_cons_of_mem _ (List.mem_map.mpr ⟨p, hp, rfl⟩), h⟩
  rcases h with ((((h | h) | h) | h) | h) | h
  · left; exact mem_pointerPokes h
  · right
    have := songHeaderPokes_range h
    exact hhead (headItem_has.mpr ⟨by omega, by omega⟩)
  · right
    obtain ⟨p, hp, hx⟩ := mem_trackWrites h
    exact htrack p hp hx
  · right
    obtain ⟨i, hi, rfl⟩ := List.mem_map.mp h
    rw [List.mem_range] at hi
    refine hhead (headItem_has.mpr ?_)
    rw [partPos_eq]; simp only; omega
  · right
    have h1 := mem_partWrites h
    have h2 := hg.part
    refine hhead (headItem_has.mpr ?_)
    rw [partPos_eq] at h1
    omega
  · right
    obtain ⟨p, hp, hx⟩ := mem_refWrites_flatMap h
    exact htrack p hp (Good.refWrites_range hg hp hx)

/-- Placed one after the other. -/
def Ordered (i j : Item) : Prop := i.pos + i.blk.size ≤ j.pos

theorem Ordered.apart {i j : Item} (h : Ordered i j) {q : Nat} (hi : i.Has q) : ¬ j.Has q := by
  unfold Item.Has Ordered at *; omega

/-- What the song's writes leave in its header block. -/
theorem PlacedSong.lastW_head {s : PlacedSong} (hg : s.Good) (hord : s.items.Pairwise Ordered) {q : Nat} (hq : s.headItem.Has q)
    (he : ¬ s.Entry q) : lastW q s.writes =
      lastW q (songHeaderPokes s.loops (s.head.romAddr + s.head.off) s.aram s.partAram ++
        ((List.range 16).map fun i => (s.partPos + i, 0)) ++ partWrites s.addrs s.part s.partPos) := by
  rw [PlacedSong.items_eq, List.pairwise_cons] at hord
  have hno : ∀ p ∈ s.tracks, ¬ p.item.Has q := fun p hp => (hord.1 p.item (List.mem_map.mpr ⟨p, hp, rfl⟩)).apart hq
  have h1 : lastW q (pointerPokes s.table s.aram) = none := lastW_none.mpr fun x hx hxq => he (hxq ▸ mem_pointerPokes hx)
  have h2 : lastW q (trackWrites s.tracks) = none := lastW_none.mpr fun x hx hxq => by
    obtain ⟨p, hp, hx⟩ := mem_trackWrites hx
    rw [hxq] at hx
    exact hno p hp hx
  have h3 : lastW q (refWrites s.addrs (s.tracks.flatMap Placed.refs)) = none := lastW_none.mpr fun x hx hxq => by
    obtain ⟨p, hp, hx⟩ := mem_refWrites_flatMap hx
    have := Good.refWrites_range hg hp hx
    rw [hxq] at this
    exact hno p hp this
  unfold PlacedSong.writes
  simp only [lastW_append, h1, h2, h3]
  cases lastW q (partWrites s.addrs s.part s.partPos) <;> cases lastW q ((List.range 16).map fun i => (s.partPos + i, 0)) <;>
    cases lastW q (songHeaderPokes s.loops (s.head.romAddr + s.head.off) s.aram s.partAram) <;> rfl

/-- What the song's writes leave in a track. -/
theorem PlacedSong.lastW_track {s : PlacedSong} (hg : s.Good) (hord : s.items.Pairwise Ordered) {p : Placed} (hp : p ∈ s.tracks) {q : Nat}
    (hq : p.item.Has q) (he : ¬ s.Entry q) : lastW q s.writes =
      lastW q (bytesAt p.romPos p.out.bytes ++ refWrites s.addrs p.refs) := by
  rw [PlacedSong.items_eq, List.pairwise_cons] at hord
  have hhead : ¬ s.headItem.Has q := fun h => (hord.1 p.item (List.mem_map.mpr ⟨p, hp, rfl⟩)).apart h hq
  have h1 : lastW q (pointerPokes s.table s.aram) = none := lastW_none.mpr fun x hx hxq => he (hxq ▸ mem_pointerPokes hx)
  have h2 : lastW q (songHeaderPokes s.loops (s.head.romAddr + s.head.off) s.aram s.partAram) = none := lastW_none.mpr fun x hx hxq => by
    have := songHeaderPokes_range hx
    exact hhead (headItem_has.mpr ⟨by omega, by omega⟩)
  have h3 : lastW q ((List.range 16).map fun i => (s.partPos + i, (0 : UInt8))) = none := lastW_none.mpr fun x hx hxq => by
    obtain ⟨i, hi, rfl⟩ := List.mem_map.mp hx
    rw [List.mem_range] at hi
    refine hhead (headItem_has.mpr ?_)
    rw [partPos_eq] at hxq; simp only at hxq; omega
  have h4 : lastW q (partWrites s.addrs s.part s.partPos) = none := lastW_none.mpr fun x hx hxq => by
    have h1 := mem_partWrites hx
    have h2 := hg.part
    refine hhead (headItem_has.mpr ?_)
    rw [partPos_eq] at h1
    omega
  obtain ⟨a, b, hab⟩ := List.append_of_mem hp
  have hpw := hord.2
  rw [hab, List.map_append, List.map_cons, List.pairwise_append, List.pairwise_cons] at hpw
  have hna : ∀ x ∈ a, ¬ x.item.Has q := fun x hx h =>
    (hpw.2.2 x.item (List.mem_map.mpr ⟨x, hx, rfl⟩) p.item (List.mem_cons_self ..)).apart h hq
  have hnb : ∀ x ∈ b, ¬ x.item.Has q := fun x hx =>
    (hpw.2.1.1 x.item (List.mem_map.mpr ⟨x, hx, rfl⟩)).apart hq
  have ht : ∀ l : List Placed, (∀ x ∈ l, ¬ x.item.Has q) → lastW q (trackWrites l) = none := fun l hl => lastW_none.mpr fun x hx hxq => by
    obtain ⟨y, hy, hx⟩ := mem_trackWrites hx
    rw [hxq] at hx
    exact hl y hy hx
  have hr : ∀ l : List Placed, (∀ x ∈ l, x ∈ s.tracks) → (∀ x ∈ l, ¬ x.item.Has q) → lastW q (refWrites s.addrs (l.flatMap Placed.refs)) = none :=
    fun l hls hl => lastW_none.mpr fun x hx hxq => by
      obtain ⟨y, hy, hx⟩ := mem_refWrites_flatMap hx
      have := Good.refWrites_range hg (hls y hy) hx
      rw [hxq] at this
      exact hl y hy this
  have h5 : lastW q (trackWrites s.tracks) = lastW q (bytesAt p.romPos p.out.bytes) := by
    rw [hab]
    have e : trackWrites (a ++ p :: b) = trackWrites a ++ bytesAt p.romPos p.out.bytes ++ trackWrites b := by simp [trackWrites]
    rw [e, lastW_append, lastW_append, ht a hna, ht b hnb]
    cases lastW q (bytesAt p.romPos p.out.bytes) <;> rfl
  have h6 : lastW q (refWrites s.addrs (s.tracks.flatMap Placed.refs)) = lastW q (refWrites s.addrs p.refs) := by
    have e : s.tracks.flatMap Placed.refs = a.flatMap Placed.refs ++ p.refs ++ b.flatMap Placed.refs := by rw [hab]; simp
    rw [e, refWrites_append, refWrites_append, lastW_append, lastW_append, hr a (by rw [hab]; intro x hx; simp [hx]) hna,
      hr b (by rw [hab]; intro x hx; simp [hx]) hnb]
    cases lastW q (refWrites s.addrs p.refs) <;> rfl
  unfold PlacedSong.writes
  simp only [lastW_append, h1, h2, h3, h4, h5, h6]
  cases lastW q (refWrites s.addrs p.refs) <;> cases lastW q (bytesAt p.romPos p.out.bytes) <;> rfl

/-- What the song's writes leave in its table entry. -/
theorem PlacedSong.lastW_entry {s : PlacedSong} (hg : s.Good) {q : Nat} (hno : ∀ i ∈ s.items, ¬ i.Has q) :
    lastW q s.writes = lastW q (pointerPokes s.table s.aram) := by
  have e : s.writes = pointerPokes s.table s.aram ++ (songHeaderPokes s.loops (s.head.romAddr + s.head.off) s.aram s.partAram ++
      (trackWrites s.tracks ++ (((List.range 16).map fun i => (s.partPos + i, 0)) ++ (partWrites s.addrs s.part s.partPos ++
      refWrites s.addrs (s.tracks.flatMap Placed.refs))))) := by
    unfold PlacedSong.writes
    simp only [List.append_assoc]
  rw [e, lastW_append, lastW_none.mpr]
  · rfl
  · intro x hx hxq
    have hx' : x ∈ s.writes := by rw [e]; exact List.mem_append_right _ hx
    have hhead : ¬ s.headItem.Has q := hno _ (by rw [PlacedSong.items_eq]; exact List.mem_cons_self ..)
    have htrack : ∀ p ∈ s.tracks, ¬ p.item.Has q := fun p hp => hno _ (by
      rw [PlacedSong.items_eq]; exact List.mem_cons_of_mem _ (List.mem_map.mpr ⟨p, hp, rfl⟩))
    simp only [List.mem_append] at hx
    rcases hx with h | h | h | h | h
    · have := songHeaderPokes_range h
      exact hhead (headItem_has.mpr ⟨by omega, by omega⟩)
    · obtain ⟨p, hp, hx⟩ := mem_trackWrites h
      rw [hxq] at hx
      exact htrack p hp hx
    · obtain ⟨i, hi, rfl⟩ := List.mem_map.mp h
      rw [List.mem_range] at hi
      refine hhead (headItem_has.mpr ?_)
      rw [partPos_eq] at hxq; simp only at hxq; omega
    · have h1 := mem_partWrites h
      have h2 := hg.part
      refine hhead (headItem_has.mpr ?_)
      rw [partPos_eq] at h1
      omega
    · obtain ⟨p, hp, hx⟩ := mem_refWrites_flatMap h
      have := Good.refWrites_range hg hp hx
      rw [hxq] at this
      exact htrack p hp this

/-! Banks. -/

/-- A placed bank without defects. -/
structure PlacedBank.Good (b : PlacedBank) : Prop where
  songs : ∀ s ∈ b.songs, s.Good
  order : (b.songs.flatMap PlacedSong.items).Pairwise Ordered
  table : ∀ k s, b.songs[k]? = some s → s.table = b.table + 2 * k
  room : b.table + 2 * b.songs.length ≤ b.chunks.baseAddr + b.first - aramBase
  behind : ∀ i ∈ b.songs.flatMap PlacedSong.items, b.chunks.baseAddr + b.first - aramBase ≤ i.pos

theorem mem_fillWrites {a b : Nat} {x : Nat × UInt8} (h : x ∈ fillWrites a b) : a ≤ x.1 ∧ x.1 < b := by
  obtain ⟨i, hi, rfl⟩ := List.mem_map.mp h
  rw [List.mem_range'_1] at hi
  simp only; omega

theorem PlacedBank.Good.entry_lt {b : PlacedBank} (hb : b.Good) {s : PlacedSong} (hs : s ∈ b.songs) {q : Nat} (h : s.Entry q) :
    b.table ≤ q ∧ q < b.table + 2 * b.songs.length := by
  obtain ⟨k, hk, hks⟩ := List.getElem_of_mem hs
  have := hb.table k s (by rw [List.getElem?_eq_getElem hk, hks])
  unfold PlacedSong.Entry at h
  omega

theorem PlacedBank.Good.range {b : PlacedBank} (hb : b.Good) {x : Nat × UInt8} (h : x ∈ b.writes) :
    (b.table ≤ x.1 ∧ x.1 < b.chunks.baseAddr + b.first - aramBase) ∨ ∃ i ∈ b.songs.flatMap PlacedSong.items, i.Has x.1 := by
  unfold PlacedBank.writes at h
  have hr := hb.room
  rcases List.mem_append.mp h with h | h
  · obtain ⟨s, hs, hx⟩ := List.mem_flatMap.mp h
    rcases PlacedSong.writes_range (hb.songs s hs) hx with hx | ⟨i, hi, hx⟩
    · left
      have := hb.entry_lt hs hx
      omega
    · right
      exact ⟨i, List.mem_flatMap.mpr ⟨s, hs, hi⟩, hx⟩
  · left
    have := mem_fillWrites h
    omega

/-- The writes of a bank at a position belonging to one song are those of the song. -/
theorem PlacedBank.Good.lastW_song {b : PlacedBank} (hb : b.Good) {pre post : List PlacedSong} {s : PlacedSong} (hs : b.songs = pre ++ s :: post) {q : Nat}
    (hq : s.Entry q ∨ ∃ i ∈ s.items, i.Has q) : lastW q b.writes = lastW q s.writes := by
  have hmem : s ∈ b.songs := by rw [hs]; simp
  have hr := hb.room
  have hord := hb.order
  rw [hs, List.flatMap_append, List.flatMap_cons, List.pairwise_append, List.pairwise_append] at hord
  have hother : ∀ s' ∈ pre ++ post, ∀ x ∈ s'.writes, x.1 ≠ q := by
    intro s' hs' x hx hxq
    have hmem' : s' ∈ b.songs := by
      rw [hs]; rcases List.mem_append.mp hs' with h | h <;> simp [h]
    have htab : s.Entry q → s'.Entry q → False := by
      intro h1 h2
      have : ∃ k k' : Nat, k ≠ k' ∧ b.songs[k]? = some s ∧ b.songs[k']? = some s' := by
        rcases List.mem_append.mp hs' with h | h
        · obtain ⟨j, hj, hjs⟩ := List.getElem_of_mem h
          refine ⟨pre.length, j, by omega, by rw [hs]; simp, ?_⟩
          rw [hs, List.getElem?_append_left hj, List.getElem?_eq_getElem hj, hjs]
        · obtain ⟨j, hj, hjs⟩ := List.getElem_of_mem h
          refine ⟨pre.length, pre.length + 1 + j, by omega, by rw [hs]; simp, ?_⟩
          rw [hs, List.getElem?_append_right (by omega), show pre.length + 1 + j - pre.length = j + 1 by omega,
            List.getElem?_cons_succ, List.getElem?_eq_getElem hj, hjs]
      obtain ⟨k, k', hne, hk, hk'⟩ := this
      have e1 := hb.table k s hk
      have e2 := hb.table k' s' hk'
      unfold PlacedSong.Entry at h1 h2
      omega
    have hitem : ∀ s1 ∈ b.songs, ∀ s2 ∈ b.songs, s1.Entry q → ∀ i ∈ s2.items, ¬ i.Has q := by
      intro s1 h1 s2 h2 he i hi hh
      have e1 := hb.entry_lt h1 he
      have e2 := hb.behind i (List.mem_flatMap.mpr ⟨s2, h2, hi⟩)
      unfold Item.Has at hh
      omega
    rcases PlacedSong.writes_range (hb.songs s' hmem') hx with hx | ⟨i', hi', hx⟩
    · rw [hxq] at hx
      rcases hq with hq | ⟨i, hi, hq⟩
      · exact htab hq hx
      · exact hitem s' hmem' s hmem hx i hi hq
    · rw [hxq] at hx
      rcases hq with hq | ⟨i, hi, hq⟩
      · exact hitem s hmem s' hmem' hq i' hi' hx
      · rcases List.mem_append.mp hs' with h | h
        · exact (hord.2.2 i' (List.mem_flatMap.mpr ⟨s', h, hi'⟩) i (List.mem_append_left _ hi)).apart hx hq
        · exact (hord.2.1.2.2 i hi i' (List.mem_flatMap.mpr ⟨s', h, hi'⟩)).apart hq hx
  have h1 : lastW q (songsWrites pre) = none := lastW_none.mpr fun x hx => by
    obtain ⟨s', hs', hx⟩ := List.mem_flatMap.mp hx
    exact hother s' (List.mem_append_left _ hs') x hx
  have h2 : lastW q (songsWrites post) = none := lastW_none.mpr fun x hx => by
    obtain ⟨s', hs', hx⟩ := List.mem_flatMap.mp hx
    exact hother s' (List.mem_append_right _ hs') x hx
  have h3 : lastW q (fillWrites (b.table + 2 * b.songs.length) (b.chunks.baseAddr + b.first - aramBase)) = none := lastW_none.mpr fun x hx hxq => by
    have hx := mem_fillWrites hx
    rw [hxq] at hx
    rcases hq with hq | ⟨i, hi, hq⟩
    · have := hb.entry_lt hmem hq
      omega
    · have e2 := hb.behind i (List.mem_flatMap.mpr ⟨s, hmem, hi⟩)
      unfold Item.Has at hq
      omega
  unfold PlacedBank.writes
  have e : songsWrites b.songs = songsWrites pre ++ s.writes ++ songsWrites post := by rw [hs]; simp [songsWrites]
  rw [e]
  simp only [lastW_append, h1, h2, h3]
  cases lastW q s.writes <;> rfl

end M2S
