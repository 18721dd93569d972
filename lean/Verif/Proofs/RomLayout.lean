import Verif.Proofs.RomTrace
/-
Where the builder puts the blocks of a bank.
-/
namespace M2S
open RomSpec

theorem switchChunk_ok {w : Walk} {v : Bool} {so off need ra len ar : Nat} {s : Bool × Nat × Nat × Nat × Nat} :
    switchChunk w v so off need ra len ar = .ok s ↔
      (off + need ≤ len ∧ s = (false, off, ra, len, ar)) ∨
      (len < off + need ∧ ar ≠ w.overflowAram ∧ ¬ (v = true ∧ so > len) ∧ s = (true, 0, w.overflowAddr, w.overflowLen, w.overflowAram)) := by
  unfold switchChunk
  split_ifs with h1 h2 h3
  · simp [failed]; omega
  · simp only [panicked, reduceCtorEq, false_iff]; rintro (⟨h, -⟩ | ⟨-, -, h, -⟩)
    · omega
    · exact h h3
  · simp only [Except.ok.injEq]
    constructor
    · rintro rfl; right; exact ⟨h1, h2, h3, rfl⟩
    · rintro (⟨h, -⟩ | ⟨-, -, -, rfl⟩)
      · omega
      · rfl
  · simp only [Except.ok.injEq]
    constructor
    · rintro rfl; left; exact ⟨by omega, rfl⟩
    · rintro (⟨-, rfl⟩ | ⟨h, -⟩)
      · rfl
      · omega

theorem switchChunk_doesNotFit {w : Walk} {v : Bool} {so off need ra len ar : Nat}
    (h : switchChunk w v so off need ra len ar = .error (.err .doesNotFit)) : len < off + need ∧ ar = w.overflowAram := by
  unfold switchChunk at h
  split_ifs at h with h1 h2 h3
  · exact ⟨h1, h2⟩
  · cases h

/-- A block placed at a cursor. -/
structure Item where
  blk : Block
  cur : Cur
  sw : Bool

def Cur.pos (c : Cur) : Nat := c.romAddr + c.off

def Item.pos (i : Item) : Nat := i.cur.pos

/-- A run of the block placement. -/
inductive Run (w : Walk) : Cur → List Item → Cur → Prop
  | nil (c : Cur) : Run w c [] c
  | stay {c c' : Cur} {b : Block} {its : List Item} (h : c.off + b.size ≤ c.len)
      (t : Run w { c with off := c.off + b.size } its c') : Run w c (⟨b, c, false⟩ :: its) c'
  | switch {c c' : Cur} {b : Block} {its : List Item} (h : c.len < c.off + b.size) (ha : c.aram ≠ w.overflowAram)
      (t : Run w ⟨w.overflowAddr, w.overflowLen, w.overflowAram, b.size⟩ its c') :
      Run w c (⟨b, ⟨w.overflowAddr, w.overflowLen, w.overflowAram, 0⟩, true⟩ :: its) c'

theorem Run.append {w : Walk} {c c1 c2 : Cur} {a b : List Item} (h1 : Run w c a c1) (h2 : Run w c1 b c2) : Run w c (a ++ b) c2 := by
  induction h1 with
  | nil c => exact h2
  | stay h _ ih => exact .stay h (ih h2)
  | switch h ha _ ih => exact .switch h ha (ih h2)

def Placed.item (p : Placed) : Item := ⟨⟨p.out.bytes.length, !p.out.refs.isEmpty⟩, p.cur, p.switched⟩

/-- Facts about each placed track. -/
theorem placeTracks_run {w : Walk} {v : Bool} {so : Nat} {song : Song} : ∀ (is : List Nat) {c c' : Cur} {ps : List Placed},
    placeTracks w v so song is c = .ok (ps, c') → Run w c (ps.map Placed.item) c' ∧
      (∀ p ∈ ps, p.switched = false → p.refBase = p.romPos) ∧
      List.Forall₂ (fun i p => song.writeTrack i = .ok p.out) is ps := by
  intro is
  induction is with
  | nil =>
    intro c c' ps h
    cases h
    exact ⟨.nil _, by simp, .nil⟩
  | cons i is ih =>
    intro c c' ps h
    rw [placeTracks, res_bind] at h
    obtain ⟨o, ho, h⟩ := h
    rw [res_bind] at h
    obtain ⟨s, hs, h⟩ := h
    rw [res_bind] at h
    obtain ⟨⟨ps', c1⟩, hps, heq⟩ := h
    rw [res_pure] at heq
    cases heq
    obtain ⟨hrun, href, hall⟩ := ih hps
    rcases switchChunk_ok.mp hs with ⟨hfit, rfl⟩ | ⟨hno, har, -, rfl⟩
    · refine ⟨?_, ?_, .cons ho hall⟩
      · exact Run.stay (b := ⟨o.bytes.length, !o.refs.isEmpty⟩) hfit hrun
      · intro p hp
        rcases List.mem_cons.mp hp with rfl | hp
        · intro _; rfl
        · exact href p hp
    · refine ⟨?_, ?_, .cons ho hall⟩
      · have : Run w ⟨w.overflowAddr, w.overflowLen, w.overflowAram, o.bytes.length⟩ (ps'.map Placed.item) c1 := by
          simpa using hrun
        exact Run.switch (b := ⟨o.bytes.length, !o.refs.isEmpty⟩) hno har this
      · intro p hp
        rcases List.mem_cons.mp hp with rfl | hp
        · intro h; cases h
        · exact href p hp

def PlacedSong.items (s : PlacedSong) : List Item :=
  ⟨⟨songHeaderSize s.loops + 16, false⟩, s.head, s.switched⟩ :: s.tracks.map Placed.item

/-- Facts about a placed song. -/
structure PlacedSong.Facts (s : PlacedSong) (table : Nat) (song : Song) (loops : Bool) : Prop where
  htable : s.table = table
  hsong : s.song = song
  hloops : s.loops = loops
  hpart : song.partTracks 0 = .ok s.part
  hrefs : ∀ p ∈ s.tracks, p.switched = false → p.refBase = p.romPos
  houts : List.Forall₂ (fun i p => song.writeTrack i = .ok p.out) (List.range song.tracks.length) s.tracks

theorem placeSong_run {w : Walk} {v : Bool} {c c' : Cur} {t : Nat} {song : Song} {loops : Bool} {s : PlacedSong}
    (h : placeSong w v c t song loops = .ok (s, c')) : Run w c s.items c' ∧ s.Facts t song loops := by
  unfold placeSong at h
  rw [res_bind] at h
  obtain ⟨sw, hsw, h⟩ := h
  simp only [res_bind] at h
  obtain ⟨⟨ps, c1⟩, hps, part, hpart, heq⟩ := h
  rw [res_pure] at heq
  cases heq
  obtain ⟨hrun, href, hall⟩ := placeTracks_run _ hps
  refine ⟨?_, rfl, rfl, rfl, hpart, href, hall⟩
  rcases switchChunk_ok.mp hsw with ⟨hfit, rfl⟩ | ⟨hno, har, -, rfl⟩
  · exact Run.stay (b := ⟨songHeaderSize loops + 16, false⟩) hfit (by rw [← Nat.add_assoc]; exact hrun)
  · exact Run.switch (b := ⟨songHeaderSize loops + 16, false⟩) hno har (by simpa using hrun)

theorem placeBank_run {Path : Type} {conv : Converter Path} {w : Walk} {v : Bool} : ∀ (ds : List (SongDef Path)) {c c' : Cur} {t : Nat}
    {ps : List PlacedSong}, placeBank conv w v ds c t = .ok (ps, c') → Run w c (ps.flatMap PlacedSong.items) c' ∧
      ∀ (k : Nat) (d : SongDef Path) (s : PlacedSong), ds[k]? = some d → ps[k]? = some s →
        ∃ song, loadSong conv d = .ok song ∧ s.Facts (t + 2 * k) song d.loops := by
  intro ds
  induction ds with
  | nil => intro c c' t ps h; cases h; exact ⟨.nil _, by simp⟩
  | cons d ds ih =>
    intro c c' t ps h
    rw [placeBank, res_bind] at h
    obtain ⟨song, hsong, h⟩ := h
    rw [res_bind] at h
    obtain ⟨⟨s, c1⟩, hs, h⟩ := h
    rw [res_bind] at h
    obtain ⟨⟨ps, c2⟩, hps, heq⟩ := h
    rw [res_pure] at heq
    cases heq
    obtain ⟨h1, h2⟩ := ih hps
    obtain ⟨h3, h4⟩ := placeSong_run hs
    refine ⟨?_, ?_⟩
    · rw [List.flatMap_cons]
      exact h3.append h1
    · intro k d' s' hd hs'
      cases k with
      | zero =>
        simp only [List.getElem?_cons_zero, Option.some.injEq] at hd hs'
        subst hd; subst hs'
        exact ⟨song, hsong, h4⟩
      | succ k =>
        simp only [List.getElem?_cons_succ] at hd hs'
        obtain ⟨song', hl, hf⟩ := h2 k d' s' hd hs'
        refine ⟨song', hl, ?_⟩
        rw [show t + 2 * (k + 1) = t + 2 + 2 * k by omega]
        exact hf

/-! Geometry of a run. -/

def Cur.InBase (w : Walk) (c : Cur) : Prop := c.romAddr = w.baseAddr ∧ c.len = w.baseLen ∧ c.aram = aramBase
def Cur.InOver (w : Walk) (c : Cur) : Prop := c.romAddr = w.overflowAddr ∧ c.len = w.overflowLen ∧ c.aram = w.overflowAram

/-- A cursor of a run that started inside the base chunk. -/
def Cur.Ok (w : Walk) (c : Cur) : Prop := (c.InBase w ∧ c.off ≤ c.len) ∨ c.InOver w

/-- The overflow chunk lies behind the base chunk. -/
def Walk.Ordered (w : Walk) : Prop := w.baseAddr + w.baseLen ≤ w.overflowAddr

theorem Cur.Ok.pos_le {w : Walk} {c : Cur} (hw : w.Ordered) (h : c.Ok w) (hb : c.aram ≠ w.overflowAram) : c.pos ≤ w.overflowAddr := by
  unfold Walk.Ordered at hw
  rcases h with ⟨⟨h1, h2, h3⟩, h4⟩ | ⟨h1, h2, h3⟩
  · unfold Cur.pos; omega
  · exact absurd h3 hb

theorem Run.mono {w : Walk} (hw : w.Ordered) {c c' : Cur} {its : List Item} (h : Run w c its c') (hc : c.Ok w) :
    c'.Ok w ∧ c.pos ≤ c'.pos ∧ (∀ i ∈ its, i.cur.Ok w ∧ c.pos ≤ i.pos ∧ i.pos + i.blk.size ≤ c'.pos) ∧
    its.Pairwise (fun i j => i.pos + i.blk.size ≤ j.pos) := by
  induction h with
  | nil c => exact ⟨hc, le_refl _, by simp, .nil⟩
  | @stay c c' b its hfit t ih =>
    have hc1 : Cur.Ok w { c with off := c.off + b.size } := by
      rcases hc with ⟨h1, h2⟩ | h1
      · left; exact ⟨h1, hfit⟩
      · right; exact h1
    obtain ⟨i1, i2, i3, i4⟩ := ih hc1
    have hp : Cur.pos { c with off := c.off + b.size } = c.pos + b.size := by simp only [Cur.pos]; omega
    rw [hp] at i2 i3
    refine ⟨i1, by omega, ?_, ?_⟩
    · intro i hi
      rcases List.mem_cons.mp hi with rfl | hi
      · exact ⟨hc, le_refl _, i2⟩
      · have := i3 i hi; exact ⟨this.1, by omega, this.2.2⟩
    · exact List.pairwise_cons.mpr ⟨fun j hj => (i3 j hj).2.1, i4⟩
  | @switch c c' b its hno ha t ih =>
    have hle := hc.pos_le hw ha
    obtain ⟨i1, i2, i3, i4⟩ := ih (.inr ⟨rfl, rfl, rfl⟩)
    simp only [Cur.pos] at i2 i3 hle ⊢
    refine ⟨i1, by omega, ?_, ?_⟩
    · intro i hi
      rcases List.mem_cons.mp hi with rfl | hi
      · exact ⟨.inr ⟨rfl, rfl, rfl⟩, by simp only [Item.pos, Cur.pos]; omega, by simp only [Item.pos, Cur.pos]; omega⟩
      · have := i3 i hi; exact ⟨this.1, by omega, this.2.2⟩
    · refine List.pairwise_cons.mpr ⟨fun j hj => ?_, i4⟩
      have := (i3 j hj).2.1
      simp only [Item.pos, Cur.pos] at this ⊢
      omega

/-- A placed block that lies inside its chunk. -/
def Item.Inside (i : Item) : Prop := i.cur.off + i.blk.size ≤ i.cur.len

theorem Run.inside {w : Walk} {c c' : Cur} {its : List Item} (h : Run w c its c') :
    ∀ i ∈ its, i.sw = false → i.Inside := by
  induction h with
  | nil c => simp
  | stay hfit t ih =>
    intro i hi
    rcases List.mem_cons.mp hi with rfl | hi
    · intro _; exact hfit
    · exact ih i hi
  | switch hno ha t ih =>
    intro i hi
    rcases List.mem_cons.mp hi with rfl | hi
    · intro h; cases h
    · exact ih i hi

/-- Once in the overflow chunk, there is no further switch. -/
theorem Run.over {w : Walk} {c c' : Cur} {its : List Item} (h : Run w c its c') (hc : c.InOver w) :
    (∀ i ∈ its, i.sw = false ∧ i.cur.InOver w) ∧ c'.InOver w ∧ c'.off = c.off + total (its.map Item.blk) ∧ (its ≠ [] → c'.off ≤ w.overflowLen) := by
  induction h with
  | nil c => exact ⟨by simp, hc, by simp [total], by simp⟩
  | @stay c c' b its hfit t ih =>
    obtain ⟨i1, i2, i3, i4⟩ := ih hc
    refine ⟨?_, i2, ?_, ?_⟩
    · intro i hi
      rcases List.mem_cons.mp hi with rfl | hi
      · exact ⟨rfl, hc⟩
      · exact i1 i hi
    · rw [i3]; simp [total]; omega
    · intro _
      by_cases hn : its = []
      · subst hn
        cases t
        simp only
        rw [← hc.2.1]; exact hfit
      · exact i4 hn
  | switch hno ha t ih => exact absurd hc.2.2 ha

/-- A run from the base chunk follows the greedy split of its blocks. -/
theorem Run.split {w : Walk} {c c' : Cur} {its : List Item} (h : Run w c its c') (hc : c.InBase w)
    (hle : c.off ≤ c.len) : ∃ a b, its = a ++ b ∧ takeFit (c.len - c.off) (its.map Item.blk) = (a.map Item.blk, b.map Item.blk) ∧
      (∀ i ∈ a, i.sw = false ∧ i.cur.InBase w) ∧ (∀ i ∈ b, i.cur.InOver w) ∧ (∀ i ∈ b.tail, i.sw = false) ∧
      (total (b.map Item.blk) ≤ w.overflowLen ∨ b.length ≤ 1) := by
  induction h with
  | nil c => exact ⟨[], [], rfl, rfl, by simp, by simp, by simp, by simp⟩
  | @stay c c' b its hfit t ih =>
    obtain ⟨x, y, hxy, ht, h1, h2, h3, h4⟩ := ih hc hfit
    refine ⟨⟨b, c, false⟩ :: x, y, by rw [hxy]; rfl, ?_, ?_, h2, h3, h4⟩
    · rw [List.map_cons, takeFit, if_pos (by simp only; omega)]
      simp only at ht ⊢
      rw [show c.len - c.off - b.size = c.len - (c.off + b.size) by omega, ht]
      rfl
    · intro i hi
      rcases List.mem_cons.mp hi with rfl | hi
      · exact ⟨rfl, hc⟩
      · exact h1 i hi
  | @switch c c' b its hno ha t ih =>
    obtain ⟨j1, j2, j3, j4⟩ := t.over ⟨rfl, rfl, rfl⟩
    refine ⟨[], _, rfl, ?_, by simp, ?_, ?_, ?_⟩
    · rw [List.map_cons, takeFit, if_neg (by simp only; omega)]
      rfl
    · intro i hi
      rcases List.mem_cons.mp hi with rfl | hi
      · exact ⟨rfl, rfl, rfl⟩
      · exact (j1 i hi).2
    · intro i hi
      exact (j1 i hi).1
    · by_cases hn : its = []
      · right; simp [hn]
      · left
        have := j4 hn
        rw [j3] at this
        simpa [total] using this

/-- A greedy split that fits is a run. -/
theorem Run.exists_over {w : Walk} : ∀ (bs : List Block) (c : Cur), c.InOver w → c.off + total bs ≤ c.len →
    ∃ its c', Run w c its c' ∧ its.map Item.blk = bs := by
  intro bs
  induction bs with
  | nil => intro c _ _; exact ⟨[], c, .nil c, rfl⟩
  | cons b bs ih =>
    intro c hc hfit
    simp only [total, List.map_cons, List.sum_cons] at hfit
    obtain ⟨its, c', hr, hb⟩ := ih { c with off := c.off + b.size } hc (by simp only [total]; omega)
    exact ⟨_, c', .stay (by omega) hr, by simp [hb]⟩

end M2S
